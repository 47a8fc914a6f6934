import Verif.Model.Graph

/-!
# graph.go: `Text` and `Show`
-/

namespace Ogdl

/-- graph.go:447: `strings.ContainsAny(s, "\n\r \t'\",()")`. -/
def hasSpecial (s : Bytes) : Bool :=
  s.any fun c => c == 10 || c == 13 || c == 32 || c == 9 || c == 39 || c == 34 || c == 44 || c == 40 || c == 41

/-- graph.go:460-475: the bytes written for `s` by the loop of `_text`; `sp` is the
indentation, `lvl0` tells whether the level is 0, `cp` is the previous byte (0 at
the start).  A skipped CR does not update `cp` (line 463 `continue`). -/
def textLoop (sp : Bytes) (lvl0 : Bool) : UInt8 → Bytes → Bytes
  | _, [] => []
  | cp, c :: t =>
    if c == 13 then textLoop sp lvl0 cp t
    else if c == 10 then 10 :: sp ++ textLoop sp lvl0 c t
    else if c == 34 && !lvl0 then
      (if cp != 92 then [92, 34] else []) ++ textLoop sp lvl0 c t
    else c :: textLoop sp lvl0 c t

/-- graph.go:424-427: the indentation of level `n`. -/
def textIndent (n : Nat) : Bytes := List.replicate (2 * n) 32

/-- graph.go:447-492: the line or lines written for the content text `s` of a node. -/
def textContent (show_ : Bool) (n : Nat) (s : Bytes) : Bytes :=
  if hasSpecial s then
    (if n > 0 then textIndent n ++ [34] else []) ++ textLoop (textIndent n) (n == 0) 0 s ++
      (if n > 0 then [34] else []) ++ [10]
  else if s.isEmpty && !show_ then []
  else textIndent n ++ (if s.isEmpty then b!"_" else s) ++ [10]

section
variable (E : Ext)

mutual
/-- graph.go:422-500 `_text`: the bytes appended to the buffer.  A node that writes
nothing passes its own level to its subnodes (line 483 `n--`); a nil pointer is
written as `_`. -/
def Graph.textAt (show_ : Bool) (n : Nat) : Graph → Bytes
  | .nil => textContent show_ n b!"_"
  | .node t o =>
    textContent show_ n (vstr E t) ++
      Graph.textAtL show_ (if (vstr E t).isEmpty && !show_ then n else n + 1) o
/-- graph.go:495-498 and 359-361: the loop over the subnodes. -/
def Graph.textAtL (show_ : Bool) (n : Nat) : List Graph → Bytes
  | [] => []
  | g :: gs => g.textAt show_ n ++ Graph.textAtL show_ n gs
end

/-- `strings.Replace(s, "\\\"", "\"", -1)` (graph.go:380, 413). -/
def unescapeQuotes : Bytes → Bytes
  | [] => []
  | [c] => [c]
  | c :: d :: t => if c == 92 && d == 34 then 34 :: unescapeQuotes t else c :: unescapeQuotes (d :: t)

/-- graph.go:363-383 and 396-416: trailing newline and outer quotes are removed.
`s[0]` on the empty string and `s[1:0]` panic. -/
def finishText (s : Bytes) : Res Bytes :=
  if s.isEmpty then .ok []
  else
    match (if s.getLast? == some 10 then s.dropLast else s) with
    | [] => .panic
    | c :: t =>
      if c == 34 then
        if t.isEmpty then .panic else .ok (unescapeQuotes t.dropLast)
      else .ok (c :: t)

/-- graph.go:351-384 `Text`. -/
def Graph.text : Graph → Res Bytes
  | .nil => .ok []
  | .node _ o => finishText (Graph.textAtL E false 0 o)

/-- graph.go:387-417 `Show`. -/
def Graph.show_ : Graph → Res Bytes
  | .nil => .ok []
  | g => finishText (g.textAt E true 0)

end
end Ogdl
