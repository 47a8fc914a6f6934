import Verif.Lemmas.Constant

/-!
# Constants of expressions (C103)
-/

namespace Ogdl
open Spec

/-- A constant of an expression has the value that `ConstantIs` says, evaluating it changes
nothing, and every text has such a value. -/
theorem C103 (E : Ext) (g : Graph) (s : Bytes) (ho : Ordinary s) :
    (∀ v, ConstantIs E s v → g.eval E (exprOf (leaf s)) = .ok ((v, none), g)) ∧ ∃ v, ConstantIs E s v := by
  refine ⟨fun v h => eval_expression (evals_constant ho h g), ?_⟩
  by_cases he : s = []
  · subst he; exact ⟨_, .empty⟩
  by_cases hn : StartsNumber s
  · by_cases hl : LooksInteger s
    · by_cases hi : ∃ i, IntText s i
      · obtain ⟨i, hi⟩ := hi
        exact ⟨_, .int s i hn hl hi⟩
      · exact ⟨_, .big s hn hl (fun i h => hi ⟨i, h⟩)⟩
    · cases hf : E.parseFloat s with
      | none => exact ⟨_, .nan s hn hl hf⟩
      | some f => exact ⟨_, .float s f hn hl hf⟩
  by_cases hq : StartsQuoted s
  · exact ⟨_, .quoted s hq⟩
  by_cases hw : StartsWord s
  · by_cases h1 : s = b!"true"
    · subst h1; exact ⟨_, .yes⟩
    by_cases h2 : s = b!"false"
    · subst h2; exact ⟨_, .no⟩
    exact ⟨_, .word s hw h1 h2⟩
  · exact ⟨_, .other s he hn hq hw⟩

theorem num_starts {s : Bytes} (h : Num s) : StartsNumber s := startsNumber_iff.1 (num_isNumber h)

theorem num_ordinary {s : Bytes} (h : Num s) : Ordinary s := by
  obtain ⟨sg, ds, fs, hs, hne, hd, _, rfl⟩ := h
  obtain ⟨d, ds, rfl⟩ := List.exists_cons_of_ne_nil hne
  have hd := hd d (by simp)
  have hop : ¬ OpChar d := by
    intro h
    have h := opChar_iff.2 h
    obtain ⟨h2, h3⟩ := hd
    simp only [isOperatorChar, Bool.or_eq_true, beq_iff_eq] at h
    simp only [UInt8.le_iff_toNat_le, ← UInt8.toNat_inj, UInt8.reduceToNat] at h h2 h3
    omega
  have h33 : d ≠ 33 := by rintro rfl; exact absurd hd (by unfold Digit; decide)
  refine ⟨?_, ?_, ?_⟩
  · intro c hc e
    rcases hs with rfl | rfl
    · injection e with e _; subst e; exact hop hc
    · injection e with _ e; cases e
  · intro c e hc he h
    rcases hs with rfl | rfl
    · injection h with h _; subst h; exact hop hc
    · injection h with _ h; injection h with h _; subst h; exact hop he
  · intro h
    simp only [List.mem_cons, List.not_mem_nil, or_false] at h
    rcases hs with rfl | rfl <;> rcases h with h | h | h | h <;> injection h with h h'
    · exact h33 h
    · exact h33 h
    · exact h33 h
    · exact h33 h
    · exact absurd h (by decide)
    · exact absurd h (by decide)
    · exact absurd h (by decide)
    · exact absurd h (by decide)

/-- A number written in an expression: the int64 it writes, or the float64 if it has a
point.  An integer that is not an int64 has no value, and that is not reported as an error. -/
theorem C103_number (E : Ext) (g : Graph) (s : Bytes) (hs : Num s) (hl : Fits s) :
    ∃ e v, newExpression E s = .ok e ∧ g.eval E e = .ok ((v, none), g) ∧
      (46 ∉ s → ∀ i, IntText s i → v = .int .int64 i) ∧
      (46 ∉ s → (∀ i, ¬ IntText s i) → v = .nil) ∧
      (46 ∈ s → ∀ f, E.parseFloat s = some f → v = .f64 f) ∧
      (46 ∈ s → E.parseFloat s = none → v = .nil) := by
  have h1 : newExpression E s = .ok (exprOf (leaf s)) := newExpression_full (t := .atom (.num s)) hs hl
  have hint : 46 ∉ s → LooksInteger s := by
    obtain ⟨sg, ds, fs, hsg, hne, hd, hf, rfl⟩ := hs
    intro hp
    rcases hf with rfl | ⟨gs, rfl, _⟩
    · exact ⟨[], sg, ds, [], by simp, by simp, hsg, hne, hd, by simp⟩
    · exact absurd (by simp) hp
  have hst := num_starts hs
  have key := (C103 E g s (num_ordinary hs)).1
  by_cases hp : 46 ∈ s
  · have hnl := point_not_integer hp
    cases hf : E.parseFloat s with
    | none =>
      exact ⟨_, _, h1, key _ (.nan s hst hnl hf), fun h => absurd hp h, fun h => absurd hp h, (fun _ f h => by cases h), fun _ _ => rfl⟩
    | some f =>
      exact ⟨_, _, h1, key _ (.float s f hst hnl hf), fun h => absurd hp h, fun h => absurd hp h, (fun _ f h => by cases h; rfl), fun _ h => by cases h⟩
  · by_cases hi : ∃ i, IntText s i
    · obtain ⟨i, hi⟩ := hi
      refine ⟨_, _, h1, key _ (.int s i hst (hint hp) hi), fun _ j hj => ?_, fun _ h => absurd hi (h i), fun h => absurd h hp, fun h => absurd h hp⟩
      have e1 := parseInt_some.2 hi
      have e2 := parseInt_some.2 hj
      rw [e1] at e2
      cases e2
      rfl
    · exact ⟨_, _, h1, key _ (.big s hst (hint hp) (fun i h => hi ⟨i, h⟩)), fun _ j hj => absurd ⟨j, hj⟩ hi, fun _ _ => rfl, fun h => absurd h hp, fun h => absurd h hp⟩

/-! ## Examples -/

example : Ordinary b!"'quoted" := by
  refine ⟨?_, ?_, by decide⟩
  · intro c _ h; cases h
  · intro c d _ _ h; cases h

/-- A text that starts with a quote keeps it. -/
example (E : Ext) (g : Graph) : g.eval E (exprOf (leaf b!"'quoted")) = .ok ((.str b!"'quoted", none), g) :=
  (C103 E g _ ⟨(by intro c _ h; cases h), (by intro c d _ _ h; cases h), by decide⟩).1 _ (.quoted _ ⟨_, .inr rfl⟩)

/-- A text that starts with another sign is the node. -/
example (E : Ext) (g : Graph) : g.eval E (exprOf (leaf b!"#x1")) = .ok ((.graph (leaf b!"#x1"), none), g) :=
  (C103 E g _ ⟨(by intro c _ h; cases h), (by intro c d _ _ h; cases h), by decide⟩).1 _
    (.other _ (by decide) (fun h => absurd (startsNumber_iff.2 h) (by decide)) (by rintro ⟨t, h | h⟩ <;> cases h)
      (fun h => absurd ((startsWord_iff (by decide)).2 h) (by decide)))

/-- The number 2⁶³ is one too large. -/
example (E : Ext) (g : Graph) : ∃ e, newExpression E b!"9223372036854775808" = .ok e ∧ g.eval E e = .ok ((.nil, none), g) := by
  obtain ⟨e, v, h1, h2, _, h4, _⟩ := C103_number E g b!"9223372036854775808"
    ⟨[], b!"9223372036854775808", [], .inl rfl, by decide, by unfold Digit; decide, .inl rfl, by decide⟩ (.short (by decide))
  have : v = .nil := h4 (by decide) (by
    intro i hi
    have := parseInt_some.2 hi
    rw [show parseInt b!"9223372036854775808" = none by decide] at this
    cases this)
  subst this
  exact ⟨e, h1, h2⟩

/-- And its negative is an int64. -/
example (E : Ext) (g : Graph) : ∃ e, newExpression E b!"-9223372036854775808" = .ok e ∧
    g.eval E e = .ok ((.int .int64 (-9223372036854775808), none), g) := by
  obtain ⟨e, v, h1, h2, h3, _⟩ := C103_number E g b!"-9223372036854775808"
    ⟨[45], b!"9223372036854775808", [], .inr rfl, by decide, by unfold Digit; decide, .inl rfl, by decide⟩ (.short (by decide))
  have := h3 (by decide) (-9223372036854775808) (parseInt_some.1 (by decide))
  subst this
  exact ⟨e, h1, h2⟩

end Ogdl
