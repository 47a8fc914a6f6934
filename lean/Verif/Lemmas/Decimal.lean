import Verif.Spec.Expr
import Verif.Lemmas.Path

/-! Decimal texts of integers. -/

namespace Ogdl
open Spec

theorem digit_ofNat {n : Nat} (h : n < 10) : (48 : UInt8) ≤ UInt8.ofNat (48 + n) ∧ UInt8.ofNat (48 + n) ≤ 57 ∧ (UInt8.ofNat (48 + n)).toNat = 48 + n := by
  have ht : (UInt8.ofNat (48 + n)).toNat = 48 + n := by rw [UInt8.toNat_ofNat']; omega
  refine ⟨?_, ?_, ht⟩
  · rw [UInt8.le_iff_toNat_le, ht]; simp
  · rw [UInt8.le_iff_toNat_le, ht]; simp; omega

theorem digitsVal_digit {n : Nat} (h : n < 10) (cs : Bytes) (acc : Nat) :
    digitsVal (UInt8.ofNat (48 + n) :: cs) acc = digitsVal cs (acc * 10 + n) := by
  obtain ⟨h1, h2, h3⟩ := digit_ofNat h
  simp only [digitsVal]
  rw [if_pos (by rw [Bool.and_eq_true]; exact ⟨decide_eq_true h1, decide_eq_true h2⟩), h3]
  congr 1; omega

theorem digitsVal_utoaAux : ∀ (f n : Nat) (acc : Bytes), n < f → digitsVal (utoaAux f n acc) 0 = digitsVal acc n
  | 0, n, acc, h => by omega
  | f + 1, n, acc, h => by
    simp only [utoaAux]
    split
    next hn => rw [digitsVal_digit hn]; simp
    next hn =>
      rw [digitsVal_utoaAux f (n / 10) _ (by omega), digitsVal_digit (Nat.mod_lt _ (by omega))]
      congr 1; omega

theorem digitsVal_utoa (n : Nat) : digitsVal (utoa n) 0 = some n := by
  unfold utoa; rw [digitsVal_utoaAux _ _ _ (by omega)]; rfl

theorem utoaAux_digits : ∀ (f n : Nat) (acc : Bytes), (∀ c ∈ acc, Digit c) → ∀ c ∈ utoaAux f n acc, Digit c
  | 0, _, _, h => h
  | f + 1, n, acc, h => by
    have hd : ∀ k < 10, ∀ c ∈ UInt8.ofNat (48 + k) :: acc, Digit c := by
      intro k hk c hc
      rcases List.mem_cons.1 hc with rfl | hc
      · exact ⟨(digit_ofNat hk).1, (digit_ofNat hk).2.1⟩
      · exact h c hc
    simp only [utoaAux]
    split
    next hn => exact hd n hn
    next hn => exact utoaAux_digits f _ _ (hd _ (Nat.mod_lt _ (by omega)))

theorem utoaAux_ne_nil : ∀ (f n : Nat) (acc : Bytes), (f = 0 → acc ≠ []) → utoaAux f n acc ≠ []
  | 0, _, _, h => h rfl
  | f + 1, n, acc, _ => by
    simp only [utoaAux]
    split
    · simp
    · exact utoaAux_ne_nil f _ _ (by simp)

theorem utoa_digits (n : Nat) : ∀ c ∈ utoa n, Digit c := utoaAux_digits _ _ _ (by simp)
theorem utoa_ne_nil (n : Nat) : utoa n ≠ [] := utoaAux_ne_nil _ _ _ (by simp)

theorem utoa_cons (n : Nat) : ∃ c t, utoa n = c :: t ∧ Digit c ∧ ∀ d ∈ t, Digit d := by
  cases h : utoa n with
  | nil => exact absurd h (utoa_ne_nil n)
  | cons c t =>
    have := utoa_digits n
    rw [h] at this
    exact ⟨c, t, rfl, this c (by simp), fun d hd => this d (by simp [hd])⟩

theorem digit_not_sign {c : UInt8} (h : Digit c) : c ≠ 43 ∧ c ≠ 45 := by
  constructor <;> (rintro rfl; revert h; unfold Digit; decide)

theorem parseDigits_utoa (n : Nat) : parseDigits (utoa n) = some n := by
  unfold parseDigits
  rw [if_neg (by simp [utoa_ne_nil n]), digitsVal_utoa]

/-- The decimal text of an int64 is read back as that int64. -/
theorem parseInt_itoa {i : Int} (h1 : -2 ^ 63 ≤ i) (h2 : i < 2 ^ 63) : parseInt (itoa i) = some i := by
  unfold itoa
  split
  next h =>
    simp only [parseInt]
    simp only [show ((45 : UInt8) == 43 || (45 : UInt8) == 45) = true from rfl, ↓reduceIte, parseDigits_utoa]
    simp only [show ((45 : UInt8) == 45) = true from rfl, ↓reduceIte]
    rw [if_pos (by omega)]
    congr 1; omega
  next h =>
    obtain ⟨c, t, hc, hd, _⟩ := utoa_cons i.natAbs
    have hp := parseDigits_utoa i.natAbs
    rw [hc] at hp ⊢
    obtain ⟨h43, h45⟩ := digit_not_sign hd
    simp only [parseInt, beq_iff_eq, h43, h45, Bool.or_self, Bool.false_eq_true, ↓reduceIte, hp, or_self]
    simp [h43, h45, hp]
    omega

theorem itoa_num (i : Int) : Num (itoa i) := by
  unfold itoa
  split
  · exact ⟨[45], utoa i.natAbs, [], .inr rfl, utoa_ne_nil _, utoa_digits _, .inl rfl, by simp⟩
  · exact ⟨[], utoa i.natAbs, [], .inl rfl, utoa_ne_nil _, utoa_digits _, .inl rfl, by simp⟩

theorem itoa_ne_nil (i : Int) : itoa i ≠ [] := by
  unfold itoa
  split
  · simp
  · exact utoa_ne_nil _

theorem digit_not_space {c : UInt8} (h : Digit c) : isSpaceChar c = false := by
  have h1 := UInt8.le_iff_toNat_le.1 h.1
  simp only [UInt8.reduceToNat] at h1
  simp only [isSpaceChar, Bool.or_eq_false_iff, beq_eq_false_iff_ne]
  constructor <;> (rintro rfl; revert h1; decide)

theorem takeWhile_digits : ∀ {t : Bytes}, (∀ c ∈ t, Digit c) → t.takeWhile isDigitByte = t ∧ t.dropWhile isDigitByte = []
  | [], _ => ⟨rfl, rfl⟩
  | c :: t, h => by
    have := takeWhile_digits (t := t) fun d hd => h d (by simp [hd])
    have hc := digitByte_iff.2 (h c (by simp))
    simp [List.takeWhile_cons, List.dropWhile_cons, hc, this]

theorem isInteger_itoa (i : Int) : isInteger (itoa i) = .ok true := by
  unfold itoa
  obtain ⟨c, t, hc, hd, ht⟩ := utoa_cons i.natAbs
  have htd : ∀ x ∈ c :: t, Digit x := by
    intro x hx
    rcases List.mem_cons.1 hx with rfl | hx
    · exact hd
    · exact ht x hx
  obtain ⟨hw, hdw⟩ := takeWhile_digits htd
  split
  · rw [hc]
    have : isSpaceChar 45 = false := rfl
    simp only [isInteger, List.isEmpty_cons, Bool.false_eq_true, ↓reduceIte, List.dropWhile_cons, this]
    simp only [show ((45 : UInt8) == 45) = true from rfl, ↓reduceIte, hw, hdw]
    simp
  · rw [hc]
    simp only [isInteger, List.isEmpty_cons, Bool.false_eq_true, ↓reduceIte, List.dropWhile_cons, digit_not_space hd, beq_iff_eq, (digit_not_sign hd).2]
    simp only [List.dropWhile_cons] at hdw
    simp only [List.takeWhile_cons] at hw
    simp [hw, hdw, List.takeWhile_cons]

theorem isNumber_itoa (i : Int) : isNumber (itoa i) = true := by
  unfold itoa
  obtain ⟨c, t, hc, hd, ht⟩ := utoa_cons i.natAbs
  have := digitByte_iff.2 hd
  split
  · rw [hc]; simp [isNumber, this]
  · rw [hc]; cases t <;> simp [isNumber, this]

theorem utoaAux_length : ∀ (f n k : Nat) (acc : Bytes), n < 10 ^ (k + 1) → (utoaAux f n acc).length ≤ acc.length + k + 1
  | 0, n, k, acc, _ => by simp only [utoaAux]; omega
  | f + 1, n, k, acc, h => by
    simp only [utoaAux]
    split
    · simp only [List.length_cons]; omega
    next hn =>
      cases k with
      | zero => omega
      | succ k =>
        have := utoaAux_length f (n / 10) k (UInt8.ofNat (48 + n % 10) :: acc) (by rw [Nat.pow_succ] at h; omega)
        simp only [List.length_cons] at this; omega

theorem itoa_length (a : Int64) : (itoa a.toInt).length ≤ 20 := by
  have h1 := a.le_toInt
  have h2 := a.toInt_lt
  have : (utoa a.toInt.natAbs).length ≤ 19 := by
    have := utoaAux_length (a.toInt.natAbs + 1) a.toInt.natAbs 18 [] (by omega)
    simpa [utoa] using this
  unfold itoa
  split
  · simp only [List.length_cons]; omega
  · omega

/-! ## int64 -/

theorem wrap64_bmod (i : Int) : wrap64 i = i.bmod (2 ^ 64) := by
  unfold wrap64
  rw [Int.bmod_eq_emod]
  split <;> omega

theorem wrap64_toInt (a : Int64) : wrap64 a.toInt = a.toInt := by
  rw [wrap64_bmod]
  exact Int.bmod_eq_of_le (by have := a.le_toInt; omega) (by have := a.toInt_lt; omega)

theorem wrap64_id {i : Int} (h1 : -2 ^ 63 ≤ i) (h2 : i < 2 ^ 63) : wrap64 i = i := by
  unfold wrap64; omega

theorem wrap64_ofInt (i : Int) : wrap64 i = (Int64.ofInt i).toInt := by
  rw [wrap64_bmod, Int64.toInt_ofInt]

end Ogdl
