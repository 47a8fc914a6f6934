import Verif.Spec.Text
import Verif.Spec.Tree

/-!
# Ways to lay out a tree as text

Independent of the parser and of `Text()`.
-/

namespace Ogdl
namespace Spec

/-- No 2048 spaces and tabs in a row. -/
def ShortRuns (t : Bytes) : Prop := ∀ p u s, t = p ++ u ++ s → Blank u → u.length ≤ 2047

/-- A plain word: printable bytes, not starting with a quote or a comma, and neither
a lone backslash (it announces a block) nor a lone `#` (it announces a comment). -/
structure PlainWord (w : Bytes) : Prop where
  word : Word w
  notBlock : w ≠ [92]
  notComment : w ≠ [35]

/-- The node holds the plain word `w`. -/
def HoldsPlain (v : Val) : Prop := ∃ w, v = .str w ∧ PlainWord w

/-- The bytes of a string content. -/
def wordOf : Val → Bytes
  | .str w => w
  | _ => []

/-- A style: the indentation at each depth and the end of line. -/
structure Style where
  ind : Nat → Bytes
  eol : Bytes

/-- The style can be used down to depth `n`: the indentation grows with the depth, is
made of less than 2048 spaces and tabs, and starts with one kind of blank. -/
structure Style.Valid (st : Style) (n : Nat) : Prop where
  blank : ∀ d, Blank (st.ind d)
  grows : ∀ d, d + 1 < n → (st.ind d).length < (st.ind (d + 1)).length
  short : ∀ d, d < n → (st.ind d).length ≤ 2047
  first : (∀ c ∈ st.ind 0, c = 32) ∨ (∀ c ∈ st.ind 0, c = 9)
  eol : Eol st.eol

mutual
/-- One node per line, in the given style. -/
def render (st : Style) (d : Nat) : Graph → Bytes
  | .nil => []
  | .node v o => st.ind d ++ wordOf v ++ st.eol ++ renderL st (d + 1) o
/-- The same for a list of trees. -/
def renderL (st : Style) (d : Nat) : List Graph → Bytes
  | [] => []
  | g :: gs => render st d g ++ renderL st d gs
end

mutual
/-- The second tree is the first with each word replaced by the Go value it writes. -/
def Converted (E : Ext) : Graph → Graph → Prop
  | .node (.str w) o, .node v o' => TypedWord E w v ∧ ConvertedL E o o'
  | _, _ => False
/-- The same for lists of trees. -/
def ConvertedL (E : Ext) : List Graph → List Graph → Prop
  | [], [] => True
  | g :: gs, h :: hs => Converted E g h ∧ ConvertedL E gs hs
  | _, _ => False
end

/-- The lines of a block, each a pair of its indentation and its text. -/
def blockText (ls : List (Bytes × Bytes)) : Bytes := ls.flatMap fun l => l.1 ++ l.2 ++ [10]

/-- The words in one line, each followed by the blanks paired with it, except the last. -/
def inline : List (Bytes × Bytes) → Bytes → Bytes
  | [], w => w
  | (u, sp) :: us, w => u ++ sp ++ inline us w

/-- The words one below the other, each indented by one space more. -/
def staircase (d : Nat) : List Bytes → Bytes
  | [] => []
  | w :: ws => List.replicate d 32 ++ w ++ [10] ++ staircase (d + 1) ws

/-- A line without content: blank, or a comment (`#`, a blank, and text). -/
inductive Filler where
  | blank
  | comment (text : Bytes)

/-- The filler line as written after the indentation. -/
def Filler.line : Filler → Bytes
  | .blank => [10]
  | .comment t => 35 :: 32 :: t ++ [10]

/-- A comment is made of printable text. -/
def Filler.Ok : Filler → Prop
  | .blank => True
  | .comment t => ∀ c ∈ t, c = 9 ∨ 32 ≤ c

/-- A document: nodes with filler lines before each. -/
inductive Doc where
  | node (fill : List Filler) (w : Bytes) (subs : List Doc)

mutual
/-- The text of the document, filler lines indented like the node that follows. -/
def Doc.text (st : Style) (d : Nat) : Doc → Bytes
  | .node fill w subs =>
    fill.flatMap (fun f => st.ind d ++ f.line) ++ (st.ind d ++ w ++ st.eol) ++ Doc.textL st (d + 1) subs
/-- The same for a list. -/
def Doc.textL (st : Style) (d : Nat) : List Doc → Bytes
  | [] => []
  | g :: gs => g.text st d ++ Doc.textL st d gs
end

mutual
/-- The tree of the document. -/
def Doc.tree : Doc → Graph
  | .node _ w subs => .node (.str w) (Doc.treeL subs)
/-- The same for a list. -/
def Doc.treeL : List Doc → List Graph
  | [] => []
  | g :: gs => g.tree :: Doc.treeL gs
end

mutual
/-- Words are plain and comments printable. -/
def Doc.Ok : Doc → Prop
  | .node fill w subs => (∀ f ∈ fill, f.Ok) ∧ PlainWord w ∧ Doc.OkL subs
/-- The same for a list. -/
def Doc.OkL : List Doc → Prop
  | [] => True
  | g :: gs => g.Ok ∧ Doc.OkL gs
end

/-! ## Lines with notes -/

/-- A value in a line: a word, or a string between quotes `q`. -/
inductive Piece where
  | word (w : Bytes)
  | quoted (q : UInt8) (v : Bytes)

/-- The piece as written on a line indented by `n`. -/
def Piece.text (n : Nat) : Piece → Bytes
  | .word w => w
  | .quoted q v => q :: escape n q v ++ [q]

/-- The value of the piece. -/
def Piece.val : Piece → Val
  | .word w => .str w
  | .quoted _ v => .str v

/-- The piece can be written on a line indented by `n`. -/
def Piece.Ok (n : Nat) : Piece → Prop
  | .word w => PlainWord w
  | .quoted q v => (q = 34 ∨ q = 39) ∧ Quotable n v

/-- A document of lines: the values of the line, each with the blanks after it, the last
value, a comment or none (the blanks before the `#` and the text after it), and the lines
below. -/
inductive Lined where
  | line (us : List (Piece × Bytes)) (w : Piece) (note : Option (Bytes × Bytes)) (subs : List Lined)

/-- The values of a line with the blanks between them. -/
def piecesText (n : Nat) (us : List (Piece × Bytes)) : Bytes := us.flatMap fun u => u.1.text n ++ u.2

mutual
/-- The text of the document, each line ended by NL. -/
def Lined.text (ind : Nat → Bytes) (d : Nat) : Lined → Bytes
  | .line us w note subs =>
    ind d ++ piecesText (ind d).length us ++ w.text (ind d).length ++
      (match note with
        | none => []
        | some (sp, c) => sp ++ b!"# " ++ c) ++ [10] ++ Lined.textL ind (d + 1) subs
/-- The same for a list. -/
def Lined.textL (ind : Nat → Bytes) (d : Nat) : List Lined → Bytes
  | [] => []
  | g :: gs => g.text ind d ++ Lined.textL ind d gs
end

mutual
/-- The document without its comments. -/
def Lined.bare : Lined → Lined
  | .line us w _ subs => .line us w none (Lined.bareL subs)
/-- The same for a list. -/
def Lined.bareL : List Lined → List Lined
  | [] => []
  | g :: gs => g.bare :: Lined.bareL gs
end

mutual
/-- The tree of the document: the values of a line are nested, the lines below it are
subnodes of the first. -/
def Lined.tree : Lined → Graph
  | .line us w _ subs =>
    match us.map (·.1.val) ++ [w.val] with
    | [] => .nil
    | v :: vs => .node v (chain vs ++ Lined.treeL subs)
/-- The same for a list. -/
def Lined.treeL : List Lined → List Graph
  | [] => []
  | g :: gs => g.tree :: Lined.treeL gs
end

mutual
/-- How deep the lines are nested. -/
def Lined.depth : Lined → Nat
  | .line _ _ _ subs => Lined.depthL subs + 1
/-- The same for a list. -/
def Lined.depthL : List Lined → Nat
  | [] => 0
  | g :: gs => max g.depth (Lined.depthL gs)
end

mutual
/-- The values can be written at their depth, and the comments are printable. -/
def Lined.Ok (ind : Nat → Bytes) (d : Nat) : Lined → Prop
  | .line us w note subs =>
    (∀ u ∈ us, u.1.Ok (ind d).length ∧ u.2 ≠ [] ∧ Blank u.2) ∧ w.Ok (ind d).length ∧
      (∀ sp c, note = some (sp, c) → sp ≠ [] ∧ Blank sp ∧ ∀ x ∈ c, x = 9 ∨ 32 ≤ x) ∧ Lined.OkL ind (d + 1) subs
/-- The same for a list. -/
def Lined.OkL (ind : Nat → Bytes) (d : Nat) : List Lined → Prop
  | [] => True
  | g :: gs => g.Ok ind d ∧ Lined.OkL ind d gs
end

/-! ## What `Text` shows -/

/-- The bytes that make `Text` quote a string: blanks, line ends, quotes, commas and
parentheses. -/
def special : Bytes := b!"\n\r \t'\",()"

/-- Content that can be written at depth `d`: at depth 0 a plain word, deeper also
any quotable string that has a byte from `special`, without CR. -/
def Writable (d : Nat) (s : Bytes) : Prop :=
  if d = 0 then Word s ∧ s ≠ [92]
  else (Word s ∧ s ≠ [92] ∧ ∀ c ∈ s, c ∉ special) ∨ ((∃ c ∈ s, c ∈ special) ∧ Quotable (2 * d) s ∧ 13 ∉ s)

section
variable (E : Ext)

mutual
/-- The tree as `Text` shows it: contents become their text, a node whose text is
empty disappears and its subnodes take its place, a nil pointer is shown as `_`. -/
def shown : Graph → List Graph
  | .nil => [.node (.str b!"_") []]
  | .node t o => if vstr E t = [] then shownL o else [.node (.str (vstr E t)) (shownL o)]
/-- The same for a list of trees. -/
def shownL : List Graph → List Graph
  | [] => []
  | g :: gs => shown g ++ shownL gs
end
end

mutual
/-- The contents of the tree, whose root is at depth `d`, can all be written. -/
def WritableAt (d : Nat) : Graph → Prop
  | .nil => False
  | .node v o => (∃ s, v = .str s ∧ Writable d s) ∧ WritableAtL (d + 1) o
/-- The same for a list of trees. -/
def WritableAtL (d : Nat) : List Graph → Prop
  | [] => True
  | g :: gs => WritableAt d g ∧ WritableAtL d gs
end

end Spec
end Ogdl
