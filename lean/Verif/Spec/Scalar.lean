import Verif.Spec.Calc

/-!
# Specification of scalars
-/

namespace Ogdl
namespace Spec

/-- A space or a tab. -/
def SpaceOrTab (c : UInt8) : Prop := c = 32 ∨ c = 9

/-- The text looks like an integer: digits, perhaps with a minus sign before them and
blanks around. -/
def LooksInteger (s : Bytes) : Prop :=
  ∃ before sign digits after : Bytes, s = before ++ sign ++ digits ++ after ∧ (∀ c ∈ before, SpaceOrTab c) ∧ (sign = [] ∨ sign = b!"-") ∧
    digits ≠ [] ∧ (∀ c ∈ digits, Digit c) ∧ ∀ c ∈ after, SpaceOrTab c

/-- What `Scalar` makes of a text that does not look like an integer: a float, a boolean
or the text. -/
def scalarText (E : Ext) (s : Bytes) : Val :=
  match E.parseFloat s with
  | some f => .f64 f
  | none => if s = b!"true" then .bool true else if s = b!"false" then .bool false else .str s

end Spec
end Ogdl
