import Verif.Spec.Decode

/-!
# The record at a position of a log
-/

namespace Ogdl
namespace Spec

/-- Bytes that do not begin with the header `1 G 0`, and how many of them are read to see that:
those that agree with the header and the first that does not, or all if they end before. -/
inductive NoHeader : Bytes → Nat → Prop where
  | ended {p : Bytes} : p.length < 3 → p <+: [1, 71, 0] → NoHeader p p.length
  | other {p after : Bytes} {c : UInt8} : p.length < 3 → p <+: [1, 71, 0] → ¬ p ++ [c] <+: [1, 71, 0] → NoHeader (p ++ c :: after) (p.length + 1)

/-- Bytes that begin with a record: the bytes of the record, with its header, and its nodes. -/
def HasRecord (d rec : Bytes) (its : List (Nat × Val)) : Prop :=
  ∃ body after, d = rec ++ after ∧ rec = [1, 71, 0] ++ body ∧ Decodes (body ++ after) its after

end Spec
end Ogdl
