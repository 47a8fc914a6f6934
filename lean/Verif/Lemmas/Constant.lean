import Verif.Lemmas.Calc
import Verif.Spec.Constant

/-!
# Constants of expressions
-/

namespace Ogdl
open Spec

theorem startsNumber_iff {s : Bytes} : isNumber s = true ↔ StartsNumber s := by
  constructor
  · intro h
    match s, h with
    | [c], h => exact ⟨c, [], digitByte_iff.1 h, .inl rfl⟩
    | c :: d :: t, h =>
      simp only [isNumber, Bool.or_eq_true, Bool.and_eq_true, beq_iff_eq] at h
      rcases h with h | ⟨rfl, h⟩
      · exact ⟨c, d :: t, digitByte_iff.1 h, .inl rfl⟩
      · exact ⟨d, t, digitByte_iff.1 h, .inr rfl⟩
  · rintro ⟨c, t, hc, rfl | rfl⟩
    · have := digitByte_iff.2 hc
      cases t with
      | nil => exact this
      | cons d t => simp [isNumber, this]
    · simp [isNumber, digitByte_iff.2 hc]

theorem latinByte (c : UInt8) : isLetterByte c = true ↔ ((65 ≤ c ∧ c ≤ 90) ∨ (97 ≤ c ∧ c ≤ 122) ∨ c = 95 ∨ c = 170 ∨ c = 181 ∨ c = 186 ∨
    (192 ≤ c ∧ c ≠ 215 ∧ c ≠ 247)) := by
  simp only [isLetterByte, latinLetter, Bool.or_eq_true, Bool.and_eq_true, decide_eq_true_eq, beq_iff_eq, UInt8.le_iff_toNat_le, ← UInt8.toNat_inj,
    ne_eq, UInt8.reduceToNat]
  have := c.toNat_lt
  omega

theorem startsWord_iff {s : Bytes} (h : s ≠ []) : isLetterByte (s.headD 0) = true ↔ StartsWord s := by
  cases s with
  | nil => exact absurd rfl h
  | cons c t =>
    rw [List.headD_cons, latinByte]
    constructor
    · intro h; exact ⟨c, t, rfl, h⟩
    · rintro ⟨c', t', e, h⟩; cases e; exact h

theorem startsQuoted_iff {s : Bytes} (h : s ≠ []) : (s.headD 0 == 34 || s.headD 0 == 39) = true ↔ StartsQuoted s := by
  cases s with
  | nil => exact absurd rfl h
  | cons c t =>
    simp only [List.headD_cons, Bool.or_eq_true, beq_iff_eq]
    constructor
    · rintro (rfl | rfl)
      · exact ⟨t, .inl rfl⟩
      · exact ⟨t, .inr rfl⟩
    · rintro ⟨t', e | e⟩ <;> cases e <;> simp

theorem opChar_iff {c : UInt8} : isOperatorChar c = true ↔ OpChar c := by
  simp only [isOperatorChar, OpChar, Bool.or_eq_true, beq_iff_eq]
  have : b!"+-*/%&|!<>=~^" = [43, 45, 42, 47, 37, 38, 124, 33, 60, 62, 61, 126, 94] := by decide
  rw [this]
  simp only [List.mem_cons, List.not_mem_nil, or_false, or_assoc]

theorem ordinary_not {s : Bytes} (h : Ordinary s) :
    isOperatorText s = false ∧ s ≠ b!"!" ∧ s ≠ tyExpression ∧ s ≠ tyPath ∧ s ≠ tyGroup ∧ s ≠ tyString := by
  obtain ⟨h1, h2, h3⟩ := h
  simp only [List.mem_cons, List.not_mem_nil, or_false, not_or] at h3
  obtain ⟨h4, h5, h6, h7⟩ := h3
  refine ⟨?_, fun e => h1 33 (by unfold OpChar; decide) (e.trans (by decide)), h4, h5, h6, h7⟩
  match s with
  | [] => rfl
  | [c] =>
    cases hc : isOperatorChar c with
    | false => exact hc
    | true => exact absurd rfl (h1 c (opChar_iff.1 hc))
  | [c, d] =>
    cases hc : isOperatorText [c, d] with
    | false => rfl
    | true =>
      simp only [isOperatorText, Bool.and_eq_true] at hc
      exact absurd rfl (h2 c d (opChar_iff.1 hc.1) (opChar_iff.1 hc.2))
  | c :: d :: e :: t => rfl

section
variable {E : Ext}

theorem startsNumber_black {s : Bytes} (h : StartsNumber s) : ∃ c ∈ s, ¬ SpaceOrTab c := by
  obtain ⟨c, t, hc, rfl | rfl⟩ := h
  · refine ⟨c, by simp, ?_⟩
    rintro (rfl | rfl) <;> exact absurd hc (by unfold Digit; decide)
  · exact ⟨45, by simp, by simp [SpaceOrTab]⟩

theorem evals_constant {s : Bytes} {v : Val} (ho : Ordinary s) (h : ConstantIs E s v) (g : Graph) : Evals E (leaf s) g v g := by
  obtain ⟨o1, o2, o3, o4, o5, o6⟩ := ordinary_not ho
  refine Evals.of (f := 1) ?_
  rw [leaf, evalExpr.eq_def]
  dsimp only
  rw [vstr_str]
  by_cases he : s = []
  · subst he
    cases h with
    | empty => rfl
    | int _ _ hs | big _ hs | float _ _ hs | nan _ hs => obtain ⟨c, t, _, h | h⟩ := hs <;> cases h
    | quoted _ hs => obtain ⟨t, h | h⟩ := hs <;> cases h
    | word _ hs => obtain ⟨c, t, h, _⟩ := hs; cases h
    | other _ hs => exact absurd rfl hs
  have h1 : s.isEmpty = false := by cases s with
    | nil => exact absurd rfl he
    | cons => rfl
  rw [if_neg (by rw [h1]; simp)]
  by_cases hn : StartsNumber s
  · rw [if_pos (startsNumber_iff.2 hn)]
    have hb := startsNumber_black hn
    have hx : number' E (.str s) = .ok v := by
      cases h with
      | empty => exact absurd rfl he
      | int _ i hs hl hi =>
        simp only [number', vfloat, vint, vstr, h1, Bool.false_eq_true, ↓reduceIte, (isInteger_iff s).2 hl, parseInt_some.2 hi, Res.ok_bind]
      | big _ hs hl hi =>
        have hp : parseInt s = none := by
          cases hp : parseInt s with
          | none => rfl
          | some i => exact absurd (parseInt_some.1 hp) (hi i)
        simp only [number', vfloat, vint, vstr, h1, Bool.false_eq_true, ↓reduceIte, (isInteger_iff s).2 hl, hp, Res.ok_bind]
      | float _ f hs hl hf => simp only [number', vfloat, vint, vstr, h1, Bool.false_eq_true, ↓reduceIte, isInteger_not hb hl, hf, Res.ok_bind]
      | nan _ hs hl hf => simp only [number', vfloat, vint, vstr, h1, Bool.false_eq_true, ↓reduceIte, isInteger_not hb hl, hf, Res.ok_bind]
      | quoted _ hs =>
        obtain ⟨c, t, hc, e⟩ := hn
        obtain ⟨t', e' | e'⟩ := hs <;> rw [e'] at e <;> rcases e with e | e <;> cases e <;> exact absurd hc (by unfold Digit; decide)
      | yes => exact absurd (startsNumber_iff.2 hn) (by decide)
      | no => exact absurd (startsNumber_iff.2 hn) (by decide)
      | word _ hs =>
        obtain ⟨c, t, hc, e⟩ := hn
        obtain ⟨c', t', e', h'⟩ := hs
        rw [e'] at e
        rw [← latinByte] at h'
        rcases e with e | e <;> cases e
        · obtain ⟨h2, h3⟩ := hc
          rw [latinByte] at h'
          simp only [UInt8.le_iff_toNat_le, ← UInt8.toNat_inj, ne_eq, UInt8.reduceToNat] at h' h2 h3
          omega
        · exact absurd h' (by decide)
      | other _ _ hs => exact absurd hn hs
    simp only [bind, EvalM.lift, hx, pure]
  · rw [if_neg (fun h => hn (startsNumber_iff.1 h)), if_neg o2, if_neg o3, if_neg o4, if_neg o5, if_neg o6, if_neg (by simp [o1])]
    by_cases hq : StartsQuoted s
    · rw [if_pos ((startsQuoted_iff he).2 hq)]
      cases h with
      | empty => exact absurd rfl he
      | int _ _ hs | big _ hs | float _ _ hs | nan _ hs => exact absurd hs hn
      | quoted | word => rfl
      | yes => obtain ⟨t, h | h⟩ := hq <;> cases h
      | no => obtain ⟨t, h | h⟩ := hq <;> cases h
      | other _ _ _ hs => exact absurd hq hs
    · rw [if_neg (fun h => hq ((startsQuoted_iff he).1 h))]
      cases h with
      | empty => exact absurd rfl he
      | int _ _ hs | big _ hs | float _ _ hs | nan _ hs => exact absurd hs hn
      | quoted _ hs => exact absurd hs hq
      | yes => rfl
      | no => rfl
      | word _ hs h2 h3 => rw [if_pos ((startsWord_iff he).2 hs), if_neg h3, if_neg h2]; rfl
      | other _ _ _ _ hs => rw [if_neg (fun h => hs ((startsWord_iff he).1 h))]; rfl

end
end Ogdl
