import Verif.Model.LexRunes
import Verif.Spec.Expr

/-!
# Specification: the runes of a text and a cursor over them
-/

namespace Ogdl
namespace Spec.LexRunes

/-- The runes of a text: the code points it encodes in UTF-8, and U+FFFD for each byte at which no
encoding of a code point begins. -/
inductive Runes : Bytes → List Nat → Prop where
  | nil : Runes [] []
  | valid {r : Nat} {t : Bytes} {rs : List Nat} : ValidRune r → Runes t rs → Runes (encodeRune r ++ t) (r :: rs)
  | invalid {c : UInt8} {t : Bytes} {rs : List Nat} : (∀ r u, ValidRune r → c :: t ≠ encodeRune r ++ u) → Runes t rs →
      Runes (c :: t) (0xFFFD :: rs)

/-- What a cursor at place `i` of the runes returns: the rune there (0 beyond the end), and whether it
cannot go back. -/
def walk (rs : List Nat) : Nat → List RuneCall → List RuneOut
  | _, [] => []
  | i, .rune :: cs => .rune (rs[i]?.getD 0) :: walk rs (i + 1) cs
  | i, .peek :: cs => .rune (rs[i]?.getD 0) :: walk rs i cs
  | 0, .unread :: cs => .unread true :: walk rs 0 cs
  | i + 1, .unread :: cs => .unread false :: walk rs i cs

/-- The cursor at place `i` does not go beyond place `m`. -/
def Stays (m : Nat) : Nat → List RuneCall → Prop
  | i, [] => i ≤ m
  | i, .rune :: cs => i ≤ m ∧ Stays m (i + 1) cs
  | i, .peek :: cs => i ≤ m ∧ Stays m i cs
  | i, .unread :: cs => i ≤ m ∧ Stays m (i - 1) cs

/-- The cursor at place `i`, which has been as far as place `f`, reads only before place `n`, and is
never more than 512 places behind the furthest it has been. -/
def Near (n : Nat) : Nat → Nat → List RuneCall → Prop
  | _, _, [] => True
  | i, f, .rune :: cs => i < n ∧ Near n (i + 1) (max f (i + 1)) cs
  | i, f, .peek :: cs => i < n ∧ Near n i (max f (i + 1)) cs
  | i, f, .unread :: cs => f ≤ (i - 1) + 512 ∧ Near n (i - 1) f cs

/-- No rune is cut at byte 4096 or a later multiple of 2048: no continuation byte of UTF-8 is there. -/
def Uncut (s : Bytes) : Prop := ∀ k c, 2 ≤ k → s[2048 * k]? = some c → ¬ (0x80 ≤ c ∧ c ≤ 0xBF)

end Spec.LexRunes
end Ogdl
