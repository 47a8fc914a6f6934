import Verif.Model.Text

/-!
# html.go
-/

namespace Ogdl

/-- html.go:52-55: the indentation of level `n`. -/
def htmlIndent (n : Nat) : Bytes := (List.replicate n b!"&nbsp;&nbsp;").flatten

section
variable (E : Ext)

/-- html.go:71-74: the text of the content, `_` if it is empty. -/
def htmlName (t : Val) : Bytes := if (vstr E t).isEmpty then b!"_" else vstr E t

/-- html.go:76-128: what is written for a node with the name `s`; `inner` tells whether
it has subnodes.  (Lines 115-120 are for an empty `s`, which line 73 excludes.)  The
loop of lines 95-110 is that of `_text`. -/
def htmlLine (n : Nat) (path s : Bytes) (inner : Bool) : Bytes :=
  (if inner then b!"<a href='" ++ path ++ b!"/" ++ s ++ b!"'>" else []) ++
    if hasSpecial s then
      (if n > 0 then htmlIndent n ++ [34] else []) ++ textLoop (htmlIndent n) (n == 0) 0 s ++
        (if n > 0 then [34] else []) ++ b!"<br>\n"
    else htmlIndent n ++ s ++ (if inner then b!"</a>" else []) ++ b!"<br>\n"

mutual
/-- html.go:46-133 `_html`: the bytes appended to the buffer. -/
def Graph.htmlAt (n : Nat) (path : Bytes) : Graph → Bytes
  | .nil => []
  | .node t o => htmlLine n path (htmlName E t) (!o.isEmpty) ++ Graph.htmlAtL (n + 1) (path ++ b!"/" ++ htmlName E t) o
/-- html.go:16-18 and 130-132: the loops over the subnodes. -/
def Graph.htmlAtL (n : Nat) (path : Bytes) : List Graph → Bytes
  | [] => []
  | g :: gs => g.htmlAt n path ++ Graph.htmlAtL n path gs
end

/-- html.go:8-41 `Html`.  Lines 20-40 are those of `Text`. -/
def Graph.html (path : Bytes) : Graph → Res Bytes
  | .nil => .ok []
  | .node _ o => finishText (Graph.htmlAtL E 0 path o)

end
end Ogdl
