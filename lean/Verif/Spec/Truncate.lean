import Verif.Spec.Decode

/-!
# The beginning of a list of nodes
-/

namespace Ogdl
namespace Spec

/-- The first nodes of a list; if the last of them has bytes, perhaps only the first of these. -/
inductive FirstOf : List (Nat × Val) → List (Nat × Val) → Prop where
  | none (its : List (Nat × Val)) : FirstOf [] its
  | cut (k n : Nat) (bs : Bytes) (its : List (Nat × Val)) : FirstOf [(k, .bytes (bs.take n))] ((k, .bytes bs) :: its)
  | next {its' its : List (Nat × Val)} (it : Nat × Val) : FirstOf its' its → FirstOf (it :: its') (it :: its)

end Spec
end Ogdl
