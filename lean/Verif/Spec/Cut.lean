import Verif.Model.Val

/-!
# Binary streams that end inside a text (C04)

The format of a stream, byte by byte.
-/

namespace Ogdl
namespace Spec

/-- A number in one to four bytes, by the first of them. -/
inductive Count : Bytes → Nat → Prop where
  | one {a : UInt8} : a.toNat < 0x80 → Count [a] a.toNat
  | two {a b : UInt8} : 0x80 ≤ a.toNat → a.toNat < 0xc0 → Count [a, b] ((a.toNat - 0x80) * 256 + b.toNat)
  | three {a b c : UInt8} : 0xc0 ≤ a.toNat → a.toNat < 0xe0 → Count [a, b, c] ((a.toNat - 0xc0) * 65536 + b.toNat * 256 + c.toNat)
  | four {a b c d : UInt8} : 0xe0 ≤ a.toNat → a.toNat < 0xf0 →
      Count [a, b, c, d] ((a.toNat - 0xe0) * 16777216 + b.toNat * 65536 + c.toNat * 256 + d.toNat)

/-- Chunks of bytes, each after its length, and a byte from F0 on that ends them. -/
inductive Chunks : Bytes → Prop where
  | done {c : UInt8} : 0xf0 ≤ c.toNat → Chunks [c]
  | chunk {n xs cs : Bytes} {k : Nat} : Count n k → xs.length = k → Chunks cs → Chunks (n ++ xs ++ cs)

/-- A node: a level from 1 on; then a byte other than 1, which is the first of a text, and the
rest of it up to a zero; or a byte 1 and chunks. -/
inductive WholeNode : Bytes → Prop where
  | text {n s : Bytes} {k : Nat} {c : UInt8} : Count n k → 0 < k → c ≠ 1 → 0 ∉ s → WholeNode (n ++ c :: s ++ [0])
  | binary {n cs : Bytes} {k : Nat} : Count n k → 0 < k → Chunks cs → WholeNode (n ++ 1 :: cs)

/-- The beginning of a node with a text, up to but not including the zero. -/
inductive CutNode : Bytes → Prop where
  | bare {n : Bytes} {k : Nat} : Count n k → 0 < k → CutNode n
  | text {n s : Bytes} {k : Nat} {c : UInt8} : Count n k → 0 < k → c ≠ 1 → 0 ∉ s → CutNode (n ++ c :: s)

/-- A stream that ends inside a text: the header, whole nodes and the beginning of one with a
text. -/
def CutInText (b : Bytes) : Prop :=
  ∃ (ns : List Bytes) (c : Bytes), (∀ n ∈ ns, WholeNode n) ∧ CutNode c ∧ b = [1, 71, 0] ++ ns.flatten ++ c

end Spec
end Ogdl
