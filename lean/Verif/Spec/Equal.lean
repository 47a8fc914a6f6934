import Verif.Spec.Tree

/-! When two graphs with any contents are equal (C22). -/

namespace Ogdl.Spec.Equal
open Ogdl

/-- Go's `x == y` for two contents: the types are the same and the values are equal.  Two `[]byte` are never
equal, comparing them panics. -/
def Same (E : Ext) : Val → Val → Prop
  | .nil, .nil => True
  | .str a, .str b => a = b
  | .bool a, .bool b => a = b
  | .int k a, .int l b => k = l ∧ a = b
  | .f64 a, .f64 b => E.feq a b = true
  | .f32 a, .f32 b => E.feq (E.f32to64 a) (E.f32to64 b) = true
  | .graph a, .graph b => E.ptrEq a b = true
  | .other a, .other b => E.otherEq a b = some true
  | _, _ => False

mutual
/-- Two trees of the same shape, with contents related by `R` at every place. -/
def Alike (R : Val → Val → Prop) : Graph → Graph → Prop
  | .node t o, .node t' o' => R t t' ∧ AlikeL R o o'
  | _, _ => False
/-- The same for two lists of trees. -/
def AlikeL (R : Val → Val → Prop) : List Graph → List Graph → Prop
  | [], [] => True
  | g :: gs, c :: cs => Alike R g c ∧ AlikeL R gs cs
  | _, _ => False
end

/-- `==` on floats, pointers and values of other types is symmetric and transitive, as Go says.  It need not be
reflexive (NaN). -/
structure Laws (E : Ext) : Prop where
  fsymm : ∀ a b, E.feq a b = true → E.feq b a = true
  ftrans : ∀ a b c, E.feq a b = true → E.feq b c = true → E.feq a c = true
  psymm : ∀ a b, E.ptrEq a b = true → E.ptrEq b a = true
  ptrans : ∀ a b c, E.ptrEq a b = true → E.ptrEq b c = true → E.ptrEq a c = true
  osymm : ∀ a b, E.otherEq a b = some true → E.otherEq b a = some true
  otrans : ∀ a b c, E.otherEq a b = some true → E.otherEq b c = some true → E.otherEq a c = some true

/-- A content whose comparison does not panic. -/
def Comparable (E : Ext) : Val → Prop
  | .bytes _ => False
  | .other b => ∀ a, E.otherEq a b ≠ none
  | _ => True

/-- Two contents whose comparison panics. -/
def Clash (E : Ext) : Val → Val → Prop
  | .bytes _, .bytes _ => True
  | .other a, .other b => E.otherEq a b = none
  | _, _ => False

/-- A content that is not a graph. -/
def NotGraph : Val → Prop
  | .graph _ => False
  | _ => True

mutual
/-- A tree without the nodes that have no content, and without what is below them. -/
def filled : Graph → Graph
  | .nil => .nil
  | .node t o => .node t (filledL o)
/-- The same for a list of trees. -/
def filledL : List Graph → List Graph
  | [] => []
  | g :: gs => match g.this with
    | .nil => filledL gs
    | _ => filled g :: filledL gs
end

end Ogdl.Spec.Equal
