import Verif.Spec.Scalar
import Verif.Spec.Text

/-!
# Specification of the constants of an expression
-/

namespace Ogdl
namespace Spec

/-- The text starts like a number: with a digit, or a minus sign and a digit. -/
def StartsNumber (s : Bytes) : Prop :=
  ∃ c t, Digit c ∧ (s = c :: t ∨ s = 45 :: c :: t)

/-- The text starts with a quote. -/
def StartsQuoted (s : Bytes) : Prop := ∃ t, s = 34 :: t ∨ s = 39 :: t

/-- The first byte, read as a Latin-1 character, is a letter or underscore. -/
def StartsWord (s : Bytes) : Prop :=
  ∃ c t, s = c :: t ∧ ((65 ≤ c ∧ c ≤ 90) ∨ (97 ≤ c ∧ c ≤ 122) ∨ c = 95 ∨ c = 170 ∨ c = 181 ∨ c = 186 ∨
    (192 ≤ c ∧ c ≠ 215 ∧ c ≠ 247))

/-- The characters of operators. -/
def OpChar (c : UInt8) : Prop := c ∈ b!"+-*/%&|!<>=~^"

/-- The text is not one that commands something in an expression: not one or two operator
characters, and not the name of a kind of node. -/
def Ordinary (s : Bytes) : Prop :=
  (∀ c, OpChar c → s ≠ [c]) ∧ (∀ c d, OpChar c → OpChar d → s ≠ [c, d]) ∧ s ∉ [b!"!e", b!"!p", b!"!g", b!"!string"]

/-- The value of a constant. -/
inductive ConstantIs (E : Ext) : Bytes → Val → Prop where
  | empty : ConstantIs E [] (.str [])
  | int (s : Bytes) (i : Int) : StartsNumber s → LooksInteger s → IntText s i → ConstantIs E s (.int .int64 i)
  /-- an integer that is not an int64 is nothing -/
  | big (s : Bytes) : StartsNumber s → LooksInteger s → (∀ i, ¬ IntText s i) → ConstantIs E s .nil
  | float (s : Bytes) (f : UInt64) : StartsNumber s → ¬ LooksInteger s → E.parseFloat s = some f → ConstantIs E s (.f64 f)
  /-- a text that starts as a number and is none is nothing -/
  | nan (s : Bytes) : StartsNumber s → ¬ LooksInteger s → E.parseFloat s = none → ConstantIs E s .nil
  /-- the quotes are part of the value -/
  | quoted (s : Bytes) : StartsQuoted s → ConstantIs E s (.str s)
  | yes : ConstantIs E b!"true" (.bool true)
  | no : ConstantIs E b!"false" (.bool false)
  | word (s : Bytes) : StartsWord s → s ≠ b!"true" → s ≠ b!"false" → ConstantIs E s (.str s)
  /-- any other text is the node itself -/
  | other (s : Bytes) : s ≠ [] → ¬ StartsNumber s → ¬ StartsQuoted s → ¬ StartsWord s → ConstantIs E s (.graph (leaf s))

end Spec
end Ogdl
