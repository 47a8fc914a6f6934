import Verif.Spec.Text

/-! Typed values of words: `typed` (lexer.go) against `Spec.TypedWord`. -/

namespace Ogdl
open Lex Spec

theorem digitsVal_some : ∀ {ds : Bytes} {acc n : Nat}, digitsVal ds acc = some n ↔
    (∀ c ∈ ds, 48 ≤ c ∧ c ≤ 57) ∧ n = ds.foldl (fun n c => 10 * n + (c.toNat - 48)) acc
  | [], acc, n => by simp [digitsVal, eq_comm]
  | c :: ds, acc, n => by
    rw [digitsVal]
    by_cases h : 48 ≤ c ∧ c ≤ 57
    · rw [if_pos (by simp [h.1, h.2]), digitsVal_some, List.foldl_cons, Nat.mul_comm acc 10]
      simp [h]
    · rw [if_neg (by simpa using h)]
      constructor
      · intro h'; cases h'
      · intro h'; exact absurd (h'.1 c (by simp)) h

theorem parseDigits_some {ds : Bytes} {n : Nat} : parseDigits ds = some n ↔ ds ≠ [] ∧ (∀ c ∈ ds, 48 ≤ c ∧ c ≤ 57) ∧ n = decimal ds := by
  unfold parseDigits decimal
  cases ds with
  | nil => simp
  | cons c ds => simp only [List.isEmpty_cons, Bool.false_eq_true, ↓reduceIte, digitsVal_some]; simp

theorem parseInt_some {w : Bytes} {i : Int} : parseInt w = some i ↔ IntText w i := by
  unfold IntText
  cases w with
  | nil =>
    simp only [parseInt]
    constructor
    · intro h; cases h
    · rintro ⟨ds, h1, _, h | h, _⟩
      · rcases h.1 with h | h
        · exact absurd h.symm h1
        · cases h
      · cases h.1
  | cons c t =>
    have hd : ∀ {ds : Bytes} {c : UInt8} {t : Bytes}, (∀ c ∈ ds, (48 : UInt8) ≤ c ∧ c ≤ 57) → ds = c :: t → c ≠ 43 ∧ c ≠ 45 := by
      intro ds c t h he
      have := h c (by simp [he])
      constructor <;> (rintro rfl; revert this; decide)
    simp only [parseInt]
    constructor
    · intro h
      split at h
      · cases h
      · rename_i n hn
        obtain ⟨h1, h2, h3⟩ := parseDigits_some.1 hn
        refine ⟨_, h1, h2, ?_⟩
        by_cases h45 : c = 45
        · subst h45
          simp only [beq_self_eq_true, Bool.or_true, ↓reduceIte] at h h3 ⊢
          split at h
          · cases h
            refine ⟨.inr ⟨trivial, by rw [h3]⟩, by omega, by omega⟩
          · cases h
        · have h45' : (c == 45) = false := by simpa using h45
          simp only [h45', Bool.or_false, Bool.false_eq_true, ↓reduceIte] at h h3 ⊢
          split at h
          · cases h
            refine ⟨.inl ⟨?_, by rw [h3]⟩, by omega, by omega⟩
            by_cases h43 : c = 43
            · right; subst h43; simp
            · left; have : (c == 43) = false := by simpa using h43
              simp [this]
          · cases h
    · rintro ⟨ds, h1, h2, h, h3, h4⟩
      rcases h with ⟨h | h, rfl⟩ | ⟨h, rfl⟩
      · obtain ⟨h43, h45⟩ := hd h2 h.symm
        have h43' : (c == 43) = false := by simpa using h43
        have h45' : (c == 45) = false := by simpa using h45
        simp only [h43', h45', Bool.or_self, Bool.false_eq_true, ↓reduceIte, h, parseDigits_some.2 ⟨h1, h2, rfl⟩]
        rw [if_pos (by omega)]
      · cases h
        simp only [beq_self_eq_true, Bool.true_or, ↓reduceIte, parseDigits_some.2 ⟨h1, h2, rfl⟩, show ((43 : UInt8) == 45) = false by decide,
          Bool.false_eq_true]
        rw [if_pos (by omega)]
      · cases h
        simp only [beq_self_eq_true, Bool.or_true, ↓reduceIte, parseDigits_some.2 ⟨h1, h2, rfl⟩]
        rw [if_pos (by omega)]

variable {E : Ext}

theorem typed_iff {w : Bytes} {v : Val} : TypedWord E w v ↔ v = typed E w := by
  have hno : parseInt w = none ↔ ∀ i, ¬ IntText w i := by
    constructor
    · intro h i hi; rw [parseInt_some.2 hi] at h; cases h
    · intro h
      cases hp : parseInt w with
      | none => rfl
      | some i => exact absurd (parseInt_some.1 hp) (h i)
  unfold typed
  constructor
  · intro h
    cases h with
    | int h => rw [parseInt_some.2 h]
    | float h1 h2 => rw [hno.2 h1, h2]
    | true h1 h2 h3 => rw [hno.2 h1, h2]; simp only; rw [if_pos h3]
    | false h1 h2 h3 => rw [hno.2 h1, h2]; simp only; rw [if_neg (by rw [h3]; decide), if_pos h3]
    | text h1 h2 h3 h4 => rw [hno.2 h1, h2]; simp only; rw [if_neg h3, if_neg h4]
  · rintro rfl
    cases hp : parseInt w with
    | some i => exact .int (parseInt_some.1 hp)
    | none =>
      have h1 := hno.1 hp
      cases hf : E.parseFloat w with
      | some f => exact .float h1 hf
      | none =>
        simp only
        split
        · exact .true h1 hf ‹_›
        · split
          · exact .false h1 hf ‹_›
          · exact .text h1 hf ‹_› ‹_›

theorem wordValue_iff {types : Bool} {w : Bytes} {v : Val} : WordValue E types w v ↔ v = if types then typed E w else .str w := by
  unfold WordValue
  cases types <;> simp [typed_iff]

end Ogdl
