import Verif.Spec.Scalar
import Verif.Lemmas.Typed
import Verif.Model.Scalar
import Verif.Lemmas.Decimal

/-! Texts that look like integers. -/

namespace Ogdl
open Spec

theorem isSpaceChar_iff {c : UInt8} : isSpaceChar c = true ↔ SpaceOrTab c := by simp [isSpaceChar, SpaceOrTab]

theorem isDigitByte_iff {c : UInt8} : isDigitByte c = true ↔ Digit c := by
  simp only [isDigitByte, latinDigit, Digit, UInt8.le_iff_toNat_le, UInt8.reduceToNat, Bool.and_eq_true, decide_eq_true_eq]

theorem dropWhile_append_all {p : UInt8 → Bool} : ∀ {a : Bytes} (b : Bytes), (∀ c ∈ a, p c = true) → (a ++ b).dropWhile p = b.dropWhile p
  | [], _, _ => rfl
  | c :: a, b, h => by rw [List.cons_append, List.dropWhile_cons, if_pos (h c (by simp))]; exact dropWhile_append_all b fun d hd => h d (by simp [hd])

theorem takeWhile_append_all {p : UInt8 → Bool} : ∀ {a : Bytes} (b : Bytes), (∀ c ∈ a, p c = true) → (a ++ b).takeWhile p = a ++ b.takeWhile p
  | [], _, _ => rfl
  | c :: a, b, h => by
    rw [List.cons_append, List.takeWhile_cons, if_pos (h c (by simp)), takeWhile_append_all b fun d hd => h d (by simp [hd])]; rfl

theorem all_of_takeWhile {p : UInt8 → Bool} (s : Bytes) : ∀ c ∈ s.takeWhile p, p c = true := fun _ h => by
  induction s with
  | nil => simp at h
  | cons a s ih =>
    rw [List.takeWhile_cons] at h
    split at h
    · rcases List.mem_cons.1 h with rfl | h
      · assumption
      · exact ih h
    · simp at h

/-- `isInteger` says what it should. -/
theorem isInteger_iff (s : Bytes) : isInteger s = .ok true ↔ LooksInteger s := by
  constructor
  · intro h
    unfold isInteger at h
    split at h
    · cases h
    · have e1 := List.takeWhile_append_dropWhile (p := isSpaceChar) (l := s)
      split at h
      · cases h
      · rename_i c t hd
        have hafter : ∀ (u : Bytes), (u.dropWhile isDigitByte).all isSpaceChar = true → ∀ c ∈ u.dropWhile isDigitByte, SpaceOrTab c := fun u hu c hc =>
          isSpaceChar_iff.1 (List.all_eq_true.1 hu c hc)
        have hbefore : ∀ c ∈ s.takeWhile isSpaceChar, SpaceOrTab c := fun c hc => isSpaceChar_iff.1 (all_of_takeWhile s c hc)
        have hite : ∀ u : Bytes, (if (u.takeWhile isDigitByte).isEmpty then Res.ok false else .ok ((u.dropWhile isDigitByte).all isSpaceChar)) = .ok true →
            u.takeWhile isDigitByte ≠ [] ∧ (u.dropWhile isDigitByte).all isSpaceChar = true := by
          intro u hu
          cases hx : u.takeWhile isDigitByte with
          | nil => rw [hx] at hu; cases hu
          | cons x xs =>
            rw [hx] at hu
            simp only [List.isEmpty_cons, Bool.false_eq_true, ↓reduceIte, Res.ok.injEq] at hu
            exact ⟨by simp, hu⟩
        dsimp only at h
        by_cases hc : (c == 45) = true
        · rw [if_pos hc] at h
          obtain ⟨hne, h⟩ := hite t h
          have : c = 45 := by simpa using hc
          subst this
          refine ⟨s.takeWhile isSpaceChar, [45], t.takeWhile isDigitByte, t.dropWhile isDigitByte, ?_, hbefore, .inr rfl, hne,
            fun c hc => isDigitByte_iff.1 (all_of_takeWhile t c hc), hafter t h⟩
          rw [List.append_assoc, List.append_assoc, List.takeWhile_append_dropWhile]
          rw [hd] at e1
          simpa using e1.symm
        · rw [if_neg hc] at h
          obtain ⟨hne, h⟩ := hite (c :: t) h
          refine ⟨s.takeWhile isSpaceChar, [], (c :: t).takeWhile isDigitByte, (c :: t).dropWhile isDigitByte, ?_, hbefore, .inl rfl,
            hne, fun d hc => isDigitByte_iff.1 (all_of_takeWhile (c :: t) d hc), hafter (c :: t) h⟩
          rw [List.append_nil, List.append_assoc, List.takeWhile_append_dropWhile]
          rw [hd] at e1
          simpa using e1.symm
  · rintro ⟨a, sg, ds, b, rfl, ha, hsg, hne, hds, hb⟩
    obtain ⟨d, ds', rfl⟩ := List.exists_cons_of_ne_nil hne
    have hd : isSpaceChar d = false := digit_not_space (hds d (by simp))
    have hd45 := (digit_not_sign (hds d (by simp))).2
    have ha' : ∀ c ∈ a, isSpaceChar c = true := fun c hc => isSpaceChar_iff.2 (ha c hc)
    have hds' : ∀ c ∈ d :: ds', isDigitByte c = true := fun c hc => isDigitByte_iff.2 (hds c hc)
    have hbd : b.takeWhile isDigitByte = [] ∧ b.dropWhile isDigitByte = b := by
      cases b with
      | nil => exact ⟨rfl, rfl⟩
      | cons c b =>
        have : isDigitByte c = false := by
          cases h : isDigitByte c with
          | false => rfl
          | true =>
            have := digit_not_space (isDigitByte_iff.1 h)
            rw [isSpaceChar_iff.2 (hb c (by simp))] at this
            cases this
        simp [this]
    have hball : b.all isSpaceChar = true := List.all_eq_true.2 fun c hc => isSpaceChar_iff.2 (hb c hc)
    have hem : (a ++ sg ++ (d :: ds') ++ b).isEmpty = false := by simp
    have key : ((d :: ds') ++ b).takeWhile isDigitByte = d :: ds' ∧ ((d :: ds') ++ b).dropWhile isDigitByte = b := by
      rw [takeWhile_append_all b hds', dropWhile_append_all b hds', hbd.1, hbd.2, List.append_nil]
      exact ⟨rfl, rfl⟩
    have hdrop : (a ++ sg ++ (d :: ds') ++ b).dropWhile isSpaceChar = sg ++ ((d :: ds') ++ b) := by
      rw [List.append_assoc, List.append_assoc, dropWhile_append_all _ ha']
      rcases hsg with rfl | rfl
      · simp [hd]
      · simp [isSpaceChar]
    unfold isInteger
    rw [hem, hdrop]
    rcases hsg with rfl | rfl
    · have hc : ¬ ((d == 45) = true) := by simpa using hd45
      simp only [List.nil_append, List.cons_append, Bool.false_eq_true, ↓reduceIte, hc] at key ⊢
      rw [key.1, key.2]
      simp [hball]
    · simp only [List.cons_append, List.nil_append, Bool.false_eq_true, ↓reduceIte, beq_self_eq_true] at key ⊢
      rw [key.1, key.2]
      simp [hball]

theorem isInteger_total (s : Bytes) : (isInteger s = .panic ↔ s ≠ [] ∧ ∀ c ∈ s, c = 32 ∨ c = 9) ∧ isInteger s ≠ .oof := by
  have hall : s.dropWhile isSpaceChar = [] ↔ ∀ c ∈ s, c = 32 ∨ c = 9 := by
    induction s with
    | nil => simp
    | cons c t ih =>
      rw [List.dropWhile_cons]
      by_cases hc : c = 32 ∨ c = 9
      · have : isSpaceChar c = true := by simpa [isSpaceChar] using hc
        rw [if_pos this, ih]
        simp [hc]
      · have : ¬ isSpaceChar c = true := by simpa [isSpaceChar] using hc
        rw [if_neg this]
        simp [hc]
  unfold isInteger
  cases s with
  | nil => simp
  | cons c t =>
    simp only [List.isEmpty_cons, Bool.false_eq_true, ↓reduceIte]
    cases h : (c :: t).dropWhile isSpaceChar with
    | nil =>
      exact ⟨⟨fun _ => ⟨by simp, hall.1 h⟩, fun _ => rfl⟩, by simp⟩
    | cons d u =>
      have hn : ¬ ∀ x ∈ c :: t, x = 32 ∨ x = 9 := fun hx => by rw [hall.2 hx] at h; cases h
      refine ⟨⟨fun hp => ?_, fun hx => absurd hx.2 hn⟩, ?_⟩
      · dsimp only at hp; split at hp <;> (try split at hp) <;> cases hp
      · dsimp only; split <;> split <;> simp

theorem isInteger_not {s : Bytes} (hne : ∃ c ∈ s, ¬ SpaceOrTab c) (h : ¬ LooksInteger s) : isInteger s = .ok false := by
  obtain ⟨h1, h2⟩ := isInteger_total s
  cases hi : isInteger s with
  | ok b =>
    cases b with
    | false => rfl
    | true => exact absurd ((isInteger_iff s).1 hi) h
  | panic =>
    obtain ⟨c, hc, hb⟩ := hne
    exact absurd ((h1.1 hi).2 c hc) hb
  | oof => exact absurd hi h2

end Ogdl
