import Verif.Spec.Expr
import Verif.Lemmas.Lexer

/-! UTF-8: a valid rune is decoded as it was encoded; tokens on the cursor. -/

namespace Ogdl
open Lex Spec

theorem toNat_ofNat {n : Nat} (h : n < 256) : (UInt8.ofNat n).toNat = n := by
  simp [Nat.mod_eq_of_lt h]

theorem ofNat_lt {n m : Nat} (h : n < 256) (hm : m < 256) : (UInt8.ofNat n < UInt8.ofNat m) ↔ n < m := by
  rw [UInt8.lt_iff_toNat_lt, toNat_ofNat h, toNat_ofNat hm]

theorem cont_ofNat {n : Nat} (h : n < 64) : isCont (UInt8.ofNat (0x80 + n)) = true := by
  have h1 : (UInt8.ofNat (0x80 + n)).toNat = 0x80 + n := toNat_ofNat (by omega)
  simp only [isCont, Bool.and_eq_true, decide_eq_true_eq, UInt8.le_iff_toNat_le, h1]
  exact ⟨by show 128 ≤ _; omega, by show _ ≤ 191; omega⟩

theorem u8_lt {a : UInt8} {n k : Nat} (h : a.toNat = n) (hk : k < 256) : (a < UInt8.ofNat k) ↔ n < k := by
  rw [UInt8.lt_iff_toNat_lt, h, toNat_ofNat hk]

theorem u8_gt {a : UInt8} {n k : Nat} (h : a.toNat = n) (hk : k < 256) : (UInt8.ofNat k < a) ↔ k < n := by
  rw [UInt8.lt_iff_toNat_lt, h, toNat_ofNat hk]

theorem u8_eq {a : UInt8} {n k : Nat} (h : a.toNat = n) (hk : k < 256) : (a = UInt8.ofNat k) ↔ n = k := by
  rw [← UInt8.toNat_inj, h, toNat_ofNat hk]

theorem encodeRune_ne_nil (r : Nat) : encodeRune r ≠ [] := by
  unfold encodeRune
  repeat' split
  all_goals simp

/-- The first byte of an encoded rune. -/
theorem encodeRune_head (r : Nat) : ∃ c t, encodeRune r = c :: t ∧ (if r < 0x80 then c.toNat = r ∧ t = [] else ¬ c < 0x80) := by
  have key : ∀ n, 0x80 ≤ n → n < 256 → ¬ UInt8.ofNat n < 0x80 := by
    intro n h1 h2 h
    rw [UInt8.lt_iff_toNat_lt, toNat_ofNat h2] at h
    have : (0x80 : UInt8).toNat = 0x80 := rfl
    omega
  unfold encodeRune
  by_cases h1 : r < 0x80
  · exact ⟨_, _, by rw [if_pos h1], by rw [if_pos h1]; exact ⟨toNat_ofNat (by omega), rfl⟩⟩
  · rw [if_neg h1]
    by_cases h2 : r < 0x800
    · exact ⟨_, _, by rw [if_pos h2], by rw [if_neg h1]; exact key _ (by omega) (by omega)⟩
    · rw [if_neg h2]
      split
      · exact ⟨_, _, rfl, by decide⟩
      · rename_i h3
        simp only [Bool.or_eq_true, Bool.and_eq_true, decide_eq_true_eq] at h3
        by_cases h4 : r < 0x10000
        · exact ⟨_, _, by rw [if_pos h4], by exact key _ (by omega) (by omega)⟩
        · exact ⟨_, _, by rw [if_neg h4], by exact key _ (by omega) (by omega)⟩

theorem decode_encode (r : Nat) (h : ValidRune r) (t : Bytes) :
    decodeRune (encodeRune r ++ t) = (r, (encodeRune r).length) := by
  unfold ValidRune at h
  unfold encodeRune
  by_cases h1 : r < 0x80
  · have : (UInt8.ofNat r) < 0x80 := (ofNat_lt (m := 0x80) (by omega) (by decide)).2 h1
    simp only [if_pos h1, List.cons_append, List.nil_append, decodeRune, this, ↓reduceIte, List.length_cons,
      List.length_nil]
    rw [toNat_ofNat (by omega)]
  · rw [if_neg h1]
    by_cases h2 : r < 0x800
    · have e0 : (UInt8.ofNat (0xC0 + r / 0x40)).toNat = 0xC0 + r / 0x40 := toNat_ofNat (by omega)
      have e1 : (UInt8.ofNat (0x80 + r % 0x40)).toNat = 0x80 + r % 0x40 := toNat_ofNat (by omega)
      have a1 : ¬ UInt8.ofNat (0xC0 + r / 0x40) < 0x80 := by
        rw [show (0x80 : UInt8) = UInt8.ofNat 0x80 from rfl, u8_lt e0 (by omega)]; omega
      have a2 : ¬ UInt8.ofNat (0xC0 + r / 0x40) < 0xC2 := by
        rw [show (0xC2 : UInt8) = UInt8.ofNat 0xC2 from rfl, u8_lt e0 (by omega)]; omega
      have a3 : UInt8.ofNat (0xC0 + r / 0x40) < 0xE0 := by
        rw [show (0xE0 : UInt8) = UInt8.ofNat 0xE0 from rfl, u8_lt e0 (by omega)]; omega
      have a4 := cont_ofNat (n := r % 0x40) (by omega)
      simp only [if_pos h2, List.cons_append, List.nil_append, decodeRune, a1, a2, a3, a4, ↓reduceIte, e0, e1,
        List.length_cons, List.length_nil]
      congr 1; omega
    · rw [if_neg h2, if_neg (by simp; omega)]
      by_cases h3 : r < 0x10000
      · have e0 : (UInt8.ofNat (0xE0 + r / 0x1000)).toNat = 0xE0 + r / 0x1000 := toNat_ofNat (by omega)
        have e1 : (UInt8.ofNat (0x80 + r / 0x40 % 0x40)).toNat = 0x80 + r / 0x40 % 0x40 := toNat_ofNat (by omega)
        have e2 : (UInt8.ofNat (0x80 + r % 0x40)).toNat = 0x80 + r % 0x40 := toNat_ofNat (by omega)
        have a1 : ¬ UInt8.ofNat (0xE0 + r / 0x1000) < 0x80 := by
          rw [show (0x80 : UInt8) = UInt8.ofNat 0x80 from rfl, u8_lt e0 (by omega)]; omega
        have a2 : ¬ UInt8.ofNat (0xE0 + r / 0x1000) < 0xC2 := by
          rw [show (0xC2 : UInt8) = UInt8.ofNat 0xC2 from rfl, u8_lt e0 (by omega)]; omega
        have a3 : ¬ UInt8.ofNat (0xE0 + r / 0x1000) < 0xE0 := by
          rw [show (0xE0 : UInt8) = UInt8.ofNat 0xE0 from rfl, u8_lt e0 (by omega)]; omega
        have a4 : UInt8.ofNat (0xE0 + r / 0x1000) < 0xF0 := by
          rw [show (0xF0 : UInt8) = UInt8.ofNat 0xF0 from rfl, u8_lt e0 (by omega)]; omega
        have a5 := cont_ofNat (n := r / 0x40 % 0x40) (by omega)
        have a6 := cont_ofNat (n := r % 0x40) (by omega)
        have a7 : (UInt8.ofNat (0xE0 + r / 0x1000) == 0xE0 && UInt8.ofNat (0x80 + r / 0x40 % 0x40) < 0xA0) = false := by
          rw [Bool.and_eq_false_iff, beq_eq_false_iff_ne, decide_eq_false_iff_not,
            show (0xE0 : UInt8) = UInt8.ofNat 0xE0 from rfl, show (0xA0 : UInt8) = UInt8.ofNat 0xA0 from rfl,
            u8_lt e1 (by omega), ne_eq, u8_eq e0 (by omega)]
          omega
        have a8 : (UInt8.ofNat (0xE0 + r / 0x1000) == 0xED && (UInt8.ofNat (0x80 + r / 0x40 % 0x40) : UInt8) > 0x9F) = false := by
          rw [Bool.and_eq_false_iff, beq_eq_false_iff_ne, decide_eq_false_iff_not,
            show (0xED : UInt8) = UInt8.ofNat 0xED from rfl, show (0x9F : UInt8) = UInt8.ofNat 0x9F from rfl,
            gt_iff_lt, u8_gt e1 (by omega), ne_eq, u8_eq e0 (by omega)]
          omega
        simp only [if_pos h3, List.cons_append, List.nil_append, decodeRune, a1, a2, a3, a4, a5, a6, a7, a8, ↓reduceIte, e0, e1, e2,
          List.length_cons, List.length_nil, Bool.not_false, Bool.and_self]
        congr 1; omega
      · have e0 : (UInt8.ofNat (0xF0 + r / 0x40000)).toNat = 0xF0 + r / 0x40000 := toNat_ofNat (by omega)
        have e1 : (UInt8.ofNat (0x80 + r / 0x1000 % 0x40)).toNat = 0x80 + r / 0x1000 % 0x40 := toNat_ofNat (by omega)
        have e2 : (UInt8.ofNat (0x80 + r / 0x40 % 0x40)).toNat = 0x80 + r / 0x40 % 0x40 := toNat_ofNat (by omega)
        have e3 : (UInt8.ofNat (0x80 + r % 0x40)).toNat = 0x80 + r % 0x40 := toNat_ofNat (by omega)
        have a1 : ¬ UInt8.ofNat (0xF0 + r / 0x40000) < 0x80 := by
          rw [show (0x80 : UInt8) = UInt8.ofNat 0x80 from rfl, u8_lt e0 (by omega)]; omega
        have a2 : ¬ UInt8.ofNat (0xF0 + r / 0x40000) < 0xC2 := by
          rw [show (0xC2 : UInt8) = UInt8.ofNat 0xC2 from rfl, u8_lt e0 (by omega)]; omega
        have a3 : ¬ UInt8.ofNat (0xF0 + r / 0x40000) < 0xE0 := by
          rw [show (0xE0 : UInt8) = UInt8.ofNat 0xE0 from rfl, u8_lt e0 (by omega)]; omega
        have a4 : ¬ UInt8.ofNat (0xF0 + r / 0x40000) < 0xF0 := by
          rw [show (0xF0 : UInt8) = UInt8.ofNat 0xF0 from rfl, u8_lt e0 (by omega)]; omega
        have a4' : UInt8.ofNat (0xF0 + r / 0x40000) < 0xF5 := by
          rw [show (0xF5 : UInt8) = UInt8.ofNat 0xF5 from rfl, u8_lt e0 (by omega)]; omega
        have a5 := cont_ofNat (n := r / 0x1000 % 0x40) (by omega)
        have a6 := cont_ofNat (n := r / 0x40 % 0x40) (by omega)
        have a6' := cont_ofNat (n := r % 0x40) (by omega)
        have a7 : (UInt8.ofNat (0xF0 + r / 0x40000) == 0xF0 && UInt8.ofNat (0x80 + r / 0x1000 % 0x40) < 0x90) = false := by
          rw [Bool.and_eq_false_iff, beq_eq_false_iff_ne, decide_eq_false_iff_not,
            show (0xF0 : UInt8) = UInt8.ofNat 0xF0 from rfl, show (0x90 : UInt8) = UInt8.ofNat 0x90 from rfl,
            u8_lt e1 (by omega), ne_eq, u8_eq e0 (by omega)]
          omega
        have a8 : (UInt8.ofNat (0xF0 + r / 0x40000) == 0xF4 && (UInt8.ofNat (0x80 + r / 0x1000 % 0x40) : UInt8) > 0x8F) = false := by
          rw [Bool.and_eq_false_iff, beq_eq_false_iff_ne, decide_eq_false_iff_not,
            show (0xF4 : UInt8) = UInt8.ofNat 0xF4 from rfl, show (0x8F : UInt8) = UInt8.ofNat 0x8F from rfl,
            gt_iff_lt, u8_gt e1 (by omega), ne_eq, u8_eq e0 (by omega)]
          omega
        simp only [if_neg h3, List.cons_append, List.nil_append, decodeRune, a1, a2, a3, a4, a4', a5, a6, a6', a7, a8, ↓reduceIte, e0, e1, e2, e3,
          List.length_cons, List.length_nil, Bool.not_false, Bool.and_self]
        congr 1; omega

end Ogdl
