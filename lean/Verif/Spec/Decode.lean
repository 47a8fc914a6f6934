import Verif.Spec.Cut
import Verif.Spec.Levels

/-!
# What a binary stream stands for (C110)

The nodes of a stream, with their levels and contents, byte by byte.
-/

namespace Ogdl
namespace Spec

/-- A stream that ends before or inside a number (`Count`). -/
inductive Unfinished : Bytes → Prop where
  | none : Unfinished []
  | one {a : UInt8} : 0x80 ≤ a.toNat → a.toNat < 0xf0 → Unfinished [a]
  | two {a b : UInt8} : 0xc0 ≤ a.toNat → a.toNat < 0xf0 → Unfinished [a, b]
  | three {a b c : UInt8} : 0xe0 ≤ a.toNat → a.toNat < 0xf0 → Unfinished [a, b, c]

/-- A stream, the bytes of the chunks it begins with, and what comes after them.  The chunks
end with a byte from F0 on, or with the stream: the bytes of the last one that are there
count. -/
inductive BinContent : Bytes → Bytes → Bytes → Prop where
  | done {c : UInt8} {rest : Bytes} : 0xf0 ≤ c.toNat → BinContent (c :: rest) [] rest
  | chunk {n xs cs bs rest : Bytes} {k : Nat} : Count n k → xs.length = k → BinContent cs bs rest → BinContent (n ++ xs ++ cs) (xs ++ bs) rest
  | cut {n xs : Bytes} {k : Nat} : Count n k → xs.length < k → BinContent (n ++ xs) xs []
  | ended {t : Bytes} : Unfinished t → BinContent t [] []

/-- A stream (after its header), the nodes in it, each with its level, from 0 on, and its
content, and what comes after them.  A level of zero ends them, and so does a byte from F0 on in
the place of a level, or the end of the stream there.  The first byte after a level always
belongs to the text, even if it is zero. -/
inductive Decodes : Bytes → List (Nat × Val) → Bytes → Prop where
  | zero {n after : Bytes} : Count n 0 → Decodes (n ++ after) [] after
  | mark {c : UInt8} {after : Bytes} : 0xf0 ≤ c.toNat → Decodes (c :: after) [] after
  | ended {t : Bytes} : Unfinished t → Decodes t [] []
  | text {n s rest after : Bytes} {k : Nat} {c : UInt8} {its : List (Nat × Val)} : Count n (k + 1) → c ≠ 1 → 0 ∉ s → Decodes rest its after →
      Decodes (n ++ (c :: s) ++ [0] ++ rest) ((k, .str (c :: s)) :: its) after
  | binary {n cs bs rest after : Bytes} {k : Nat} {its : List (Nat × Val)} : Count n (k + 1) → BinContent cs bs rest → Decodes rest its after →
      Decodes (n ++ [1] ++ cs) ((k, .bytes bs) :: its) after

end Spec
end Ogdl
