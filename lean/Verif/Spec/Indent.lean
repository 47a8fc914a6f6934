import Verif.Spec.Text
import Verif.Spec.Levels

/-!
# Indentation

A text as a list of lines, each with its indentation (how many blanks) and the values
written in it, and the tree those lines stand for.
-/

namespace Ogdl.Spec.Indent

/-- What follows the indentation of a line, end of line included: values; values and a
comment, or only a comment; or nothing. -/
inductive Written (E : Ext) (types : Bool) (n : Nat) : List Val → Bytes → Prop
  | values {vs : List Val} {t eol : Bytes} : LineOf E types n vs t → Eol eol → Written E types n vs (t ++ eol)
  | noted {vs : List Val} {t c : Bytes} {b : UInt8} : PrefixOf E types n vs t → b = 32 ∨ b = 9 → (∀ x ∈ c, x = 9 ∨ 32 ≤ x) →
      Written E types n vs (t ++ 35 :: b :: c ++ [10])
  | empty {eol : Bytes} : Eol eol → Written E types n [] eol
  /-- a comma before the values is ignored -/
  | comma {vs : List Val} {sp t eol : Bytes} : Blank sp → LineOf E types n vs t → Eol eol →
      Written E types n vs (44 :: (sp ++ (t ++ eol)))

/-- The lines of a text: the indentation and the values of each. The last one may lack
its end of line. -/
inductive Rows (E : Ext) (types : Bool) : List (Nat × List Val) → Bytes → Prop
  | nil : Rows E types [] []
  | cons {s b t : Bytes} {vs : List Val} {ls : List (Nat × List Val)} : Blank s → Written E types s.length vs b →
      Rows E types ls t → Rows E types ((s.length, vs) :: ls) (s ++ (b ++ t))
  /-- values, a block and the lines of the block, all of which stand for one line -/
  | block {t eol b rest : Bytes} {vs : List Val} {bs : List Bytes} {k : Nat} {ls : List (Nat × List Val)} :
      PrefixOf E types 0 vs t → Eol eol → (∀ l, bs.getLast? = some l → l ≠ []) → BlockOf (bs ++ List.replicate k []) b →
      (∀ c, rest.head? = some c → c ≠ 32 ∧ c ≠ 9 ∧ c ≠ 10 ∧ c ≠ 13) → Rows E types ls rest →
      Rows E types ((0, vs ++ [.str (unlines bs)]) :: ls) (t ++ (92 :: (eol ++ (b ++ rest))))
  | last {s t : Bytes} {vs : List Val} : Blank s → LineOf E types s.length vs t → Rows E types [(s.length, vs)] (s ++ t)

/-- The depth of a line indented by `i`, given the indentation of the lines before it,
the nearest first: one more than that of the nearest one that is less indented. -/
def rank : List Nat → Nat → Nat
  | [], _ => 0
  | j :: js, i => if j < i then rank js j + 1 else rank js i

/-- The values of a line, each one deeper than the one before. -/
def spread : Nat → List Val → List (Nat × Val)
  | _, [] => []
  | d, v :: vs => (d, v) :: spread (d + 1) vs

/-- The values of the lines, and how deep each of them is, given the indentation of the
lines before. -/
def items : List Nat → List (Nat × List Val) → List (Nat × Val)
  | _, [] => []
  | before, (i, vs) :: ls => spread (rank before i) vs ++ items (i :: before) ls

/-- The trees of the lines: a line takes with it, below its first value, the lines that
follow and are indented more. -/
def trees : List (Nat × List Val) → List Graph
  | [] => []
  | (_, []) :: ls => trees ls
  | (i, v :: vs) :: ls =>
    .node v (chain vs ++ trees (ls.takeWhile (i < ·.1))) :: trees (ls.dropWhile (i < ·.1))
termination_by ls => ls.length
decreasing_by
  · simp
  · have := (List.takeWhile_prefix (l := ls) (i < ·.1)).length_le
    simp; omega
  · have := (List.dropWhile_suffix (l := ls) (i < ·.1)).length_le
    simp; omega

/-- Every line without values is indented at least as much as the line that follows. -/
def Harmless : List (Nat × List Val) → Prop
  | [] => True
  | [_] => True
  | (i, vs) :: (j, ws) :: ls => (vs = [] → j ≤ i) ∧ Harmless ((j, ws) :: ls)

end Ogdl.Spec.Indent
