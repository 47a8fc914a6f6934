import Verif.Spec.Text
import Verif.Lemmas.Typed
import Verif.Spec.Tree
import Verif.Lemmas.ParseTotal
import Verif.Lemmas.Fuel
import Verif.Lemmas.Event

/-! The text parser reads what `Spec.Writes` describes. -/

namespace Ogdl
open Lex Spec

section tokens
variable (pre t : Bytes) (c : UInt8) (rs : List Nat) (e : Ev)

theorem run_endp_false (hc : isEndChar c = false) :
    (endp).run curM ⟨pre, c :: t, 0, rs⟩ e = .ok (false, ⟨pre, c :: t, 0, rs⟩, e) := by
  simp [endp, Prog.run_bind, Prog.run_pure, hc]

theorem run_endp_nil (o : Nat) :
    (endp).run curM ⟨pre, [], o, rs⟩ e = .ok (true, ⟨pre, [], 1, rs⟩, e) := by
  simp [endp, Prog.run_bind, Prog.run_pure]

theorem run_brk_false (h1 : c ≠ 10) (h2 : c ≠ 13) :
    (brk).run curM ⟨pre, c :: t, 0, rs⟩ e = .ok (false, ⟨pre, c :: t, 0, rs⟩, e) := by
  simp [brk, Prog.run_bind, Prog.run_pure, h1, h2]

theorem run_brk_nil (o : Nat) :
    (brk).run curM ⟨pre, [], o, rs⟩ e = .ok (false, ⟨pre, [], 0, rs⟩, e) := by
  simp [brk, Prog.run_bind, Prog.run_pure]

theorem run_brk_eol {eol : Bytes} (h : Eol eol) :
    (brk).run curM ⟨pre, eol ++ t, 0, rs⟩ e = .ok (true, ⟨eol.reverse ++ pre, t, 0, rs⟩, e) := by
  rcases h with rfl | rfl <;> simp [brk, Prog.run_bind, Prog.run_pure]

theorem run_comment_false (L : Nat) (h : c = 35 → ∀ d, t.head? = some d → isSpaceChar d = false) :
    (comment L).run curM ⟨pre, c :: t, 0, rs⟩ e = .ok (false, ⟨pre, c :: t, 0, rs⟩, e) := by
  by_cases h35 : c = 35
  · subst h35
    cases t with
    | nil =>
      have : isSpaceChar 0 = false := by decide
      simp [comment, Prog.run_bind, Prog.run_pure, this]
    | cons d t =>
      have := h rfl d rfl
      simp [comment, Prog.run_bind, Prog.run_pure, this]
  · simp [comment, Prog.run_bind, Prog.run_pure, h35]

theorem run_block_none (L n : Nat) (h : c = 92 → ∀ d, t.head? = some d → d ≠ 10 ∧ d ≠ 13) :
    (block L n).run curM ⟨pre, c :: t, 0, rs⟩ e = .ok (none, ⟨pre, c :: t, 0, rs⟩, e) := by
  by_cases h92 : c = 92
  · subst h92
    cases t with
    | nil => simp [block, Prog.run_bind, Prog.run_pure]
    | cons d t =>
      obtain ⟨h1, h2⟩ := h rfl d rfl
      simp [block, Prog.run_bind, Prog.run_pure, h1, h2]
  · simp [block, Prog.run_bind, Prog.run_pure, h92]

theorem run_quoted_none (L n : Nat) (h1 : c ≠ 34) (h2 : c ≠ 39) (h3 : c ≠ 96) :
    (quoted L n).run curM ⟨pre, c :: t, 0, rs⟩ e = .ok (none, ⟨pre, c :: t, 0, rs⟩, e) := by
  simp [quoted, Prog.run_bind, Prog.run_pure, h1, h2, h3]

end tokens

theorem textChar_of_lt {c : UInt8} (h : 32 < c) : isTextChar c = true := by
  simpa [isTextChar] using h

theorem not_end_of_lt {c : UInt8} (h : 32 ≤ c ∨ c = 9 ∨ c = 10 ∨ c = 13) : isEndChar c = false := by
  rcases h with h | rfl | rfl | rfl
  · have : ¬ c < 32 := by simpa [UInt8.not_lt] using h
    simp [isEndChar, this]
  all_goals decide

theorem takeWhile_app {p : UInt8 → Bool} : ∀ {a b : Bytes}, (∀ c ∈ a, p c = true) →
    (∀ c, b.head? = some c → p c = false) → (a ++ b).takeWhile p = a ∧ (a ++ b).dropWhile p = b
  | [], [], _, _ => by simp
  | [], c :: b, _, h => by
    have := h c rfl
    simp [this]
  | c :: a, b, h, h' => by
    have h1 := h c (by simp)
    have := takeWhile_app (a := a) (b := b) (fun c hc => h c (by simp [hc])) h'
    simp [h1, this]

theorem run_readWhile_app (p : UInt8 → Bool) (h0 : p 0 = false) {a b pre : Bytes} {rs : List Nat} {e : Ev} {L : Nat}
    (ha : ∀ c ∈ a, p c = true) (hb : ∀ c, b.head? = some c → p c = false) (hL : (a ++ b).length < L) :
    (readWhile p L).run curM ⟨pre, a ++ b, 0, rs⟩ e = .ok (a, ⟨a.reverse ++ pre, b, 0, rs⟩, e) := by
  rw [run_readWhile p h0 _ _ _ _ _ _ (.inl rfl) hL, (takeWhile_app ha hb).1, (takeWhile_app ha hb).2]

/-! ## Quoted strings -/

theorem run_spaceMaxLoop (n : Nat) (t : Bytes) (rs : List Nat) (e : Ev) : ∀ (k : Nat) (pre : Bytes) (L a : Nat),
    0 < k → a + k = n → (List.replicate k 32 ++ t).length < L →
    (spaceMaxLoop n L a 0).run curM ⟨pre, List.replicate k 32 ++ t, 0, rs⟩ e =
      .ok ((n, 32), ⟨List.replicate k 32 ++ pre, t, 0, rs⟩, e)
  | k + 1, pre, L + 1, a, _, ha, hL => by
    have hL' : (List.replicate k 32 ++ t).length < L := by simp at hL ⊢; omega
    rw [List.replicate_succ, List.cons_append]
    simp only [spaceMaxLoop, Prog.run_bind, run_byte0_cons]
    by_cases hk : k = 0
    · subst hk
      have : a + 1 = n := by omega
      simp [this, Prog.run_pure, spaceMaxLoop.fin]
    · have h1 : a + 1 ≠ n := by omega
      have h2 : (0 : Nat) ≠ n := by omega
      have ih := run_spaceMaxLoop n t rs e k (32 :: pre) L (a + 1) (by omega) (by omega) hL'
      simp only [bne_iff_ne, ne_eq, show ¬ ((32 : UInt8) = 9) by decide, not_false_eq_true, decide_true,
        Bool.true_and, not_true_eq_false, Bool.false_eq_true, ↓reduceIte, beq_self_eq_true, Nat.add_zero,
        beq_iff_eq, h1, h2, Bool.or_self, bne_self_eq_false, Bool.and_false, Bool.or_eq_true, or_self]
      rw [ih]
      have : List.replicate k (32 : UInt8) ++ 32 :: pre = 32 :: (List.replicate k 32 ++ pre) := by
        have := List.replicate_succ' (n := k) (a := (32 : UInt8))
        rw [List.replicate_succ] at this
        calc _ = (List.replicate k (32 : UInt8) ++ [32]) ++ pre := by simp
          _ = _ := by rw [← this]; rfl
      rw [this]; rfl
  | k + 1, _, 0, _, _, _, hL => by simp at hL

theorem Spec.LoneSlashes.tail {c : UInt8} {t : Bytes} (h : LoneSlashes (c :: t)) : LoneSlashes t := by
  cases t with
  | nil => trivial
  | cons d t => exact h.2

theorem Spec.LoneSlashes.next {t : Bytes} (h : LoneSlashes (92 :: t)) :
    ∃ d t', t = d :: t' ∧ d ≠ 92 ∧ d ≠ 34 ∧ d ≠ 39 := by
  cases t with
  | nil => exact (h rfl).elim
  | cons d t => exact ⟨d, t, rfl, h.1 rfl⟩

/-- One ordinary byte of a quoted string. -/
theorem quotedLoop_byte {n L F : Nat} {q c c2 : UInt8} {buf pre t : Bytes} {rs : List Nat} {e : Ev}
    (h1 : isEndChar c = false) (h2 : c ≠ q ∨ (c2 = 92 ∧ q ≠ 96)) (h3 : c ≠ 92) (h4 : c ≠ 10) :
    (quotedLoop L n q (F + 1) buf c2).run curM ⟨pre, c :: t, 0, rs⟩ e =
      (quotedLoop L n q F ((if (c2 == 92 && c != 39 && c != 34) = true then buf ++ [92] else buf) ++ [c]) c).run curM
        ⟨c :: pre, t, 0, rs⟩ e := by
  have h2a : (c == q && q == 96) = false := by
    rcases h2 with h | ⟨_, h⟩ <;> simp [h]
  have h2b : (c == q && c2 != 92) = false := by
    rcases h2 with h | ⟨h, _⟩ <;> simp [h]
  simp only [quotedLoop, Prog.run_bind, run_byte0_cons, h1, h2a, h2b, Bool.false_eq_true, ↓reduceIte, beq_iff_eq, h3, h4]

theorem quotedLoop_slash {n L F : Nat} {q c2 : UInt8} {buf pre t : Bytes} {rs : List Nat} {e : Ev}
    (h2 : q ≠ 92) :
    (quotedLoop L n q (F + 1) buf c2).run curM ⟨pre, 92 :: t, 0, rs⟩ e =
      (quotedLoop L n q F buf 92).run curM ⟨92 :: pre, t, 0, rs⟩ e := by
  have h2a : ((92 : UInt8) == q) = false := by simpa using Ne.symm h2
  simp only [quotedLoop, Prog.run_bind, run_byte0_cons, h2a, show isEndChar 92 = false by decide, Bool.false_and,
    Bool.false_eq_true, ↓reduceIte, beq_self_eq_true]

theorem run_quotedLoop (n : Nat) (q : UInt8) (hq : q = 34 ∨ q = 39) (t : Bytes) (rs : List Nat) (e : Ev) (L : Nat) :
    ∀ (v pre buf : Bytes) (c2 : UInt8) (F : Nat), Quotable n v →
    (c2 = 92 → ∃ d v', v = d :: v' ∧ d ≠ 92 ∧ d ≠ 34 ∧ d ≠ 39) →
    (escape n q v ++ q :: t).length < F → (escape n q v ++ q :: t).length < L →
    (quotedLoop L n q F buf c2).run curM ⟨pre, escape n q v ++ q :: t, 0, rs⟩ e =
      .ok (some (buf ++ (if c2 = 92 then [92] else []) ++ v), ⟨(escape n q v ++ [q]).reverse ++ pre, t, 0, rs⟩, e) := by
  have hq92 : q ≠ 92 := by rcases hq with rfl | rfl <;> decide
  have hq96 : q ≠ 96 := by rcases hq with rfl | rfl <;> decide
  have hq10 : q ≠ 10 := by rcases hq with rfl | rfl <;> decide
  have hqe : isEndChar q = false := by rcases hq with rfl | rfl <;> decide
  intro v
  induction v with
  | nil =>
    intro pre buf c2 F _ hc2 hF hL
    obtain ⟨F, rfl⟩ : ∃ k, F = k + 1 := ⟨F - 1, by omega⟩
    have hc : c2 ≠ 92 := fun h => by obtain ⟨d, v', h, _⟩ := hc2 h; simp at h
    simp [escape, quotedLoop, Prog.run_bind, Prog.run_pure, hqe, hq96, hc]
  | cons c v ih =>
    intro pre buf c2 F hv hc2 hF hL
    obtain ⟨F, rfl⟩ : ∃ k, F = k + 1 := ⟨F - 1, by omega⟩
    have hv' : Quotable n v := ⟨fun c hc => hv.noEnd c (by simp [hc]), hv.slashes.tail,
      fun h c hc => hv.noBreak h c (by simp [hc])⟩
    have hce : isEndChar c = false := not_end_of_lt (hv.noEnd c (by simp))
    by_cases h10 : c = 10
    · subst h10
      have hn : 0 < n := Nat.pos_of_ne_zero fun h => hv.noBreak h 10 (by simp) rfl
      simp only [escape, ↓reduceIte, List.cons_append, List.append_assoc] at hF hL ⊢
      have hL' : (List.replicate n 32 ++ (escape n q v ++ q :: t)).length < L := by
        simp at hL ⊢; omega
      have ih' := ih (List.replicate n 32 ++ 10 :: pre)
        (buf ++ (if c2 = 92 then [92] else []) ++ [10]) 10 F hv' (fun h => absurd h (by decide)) (by simp at hF ⊢; omega)
        (by simp at hL ⊢; omega)
      have hsp := run_spaceMaxLoop n (escape n q v ++ q :: t) rs e n (10 :: pre) L 0 hn (by simp) hL'
      have hb : (if (c2 == 92 && (10 : UInt8) != 39 && (10 : UInt8) != 34) = true then buf ++ [92] else buf) =
          buf ++ (if c2 = 92 then [92] else []) := by
        by_cases h : c2 = 92 <;> simp [h]
      have hqq : ((10 : UInt8) == q) = false := by simpa using hq10.symm
      simp only [quotedLoop, Prog.run_bind, run_byte0_cons, hce, hqq, Bool.false_and, Bool.false_eq_true, ↓reduceIte,
        show ((10 : UInt8) == 92) = false by decide, beq_self_eq_true, spaceMax, hsp, hb,
        show ((32 : UInt8) == 0) = false by decide, Nat.lt_irrefl]
      rw [ih']
      simp
    · by_cases hcq : c = q
      · subst hcq
        simp only [escape, h10, ↓reduceIte, List.cons_append] at hF hL ⊢
        have hc : c2 ≠ 92 := fun h => by
          obtain ⟨d, v', h, h1, h2, h3⟩ := hc2 h
          simp only [List.cons.injEq] at h
          rcases hq with rfl | rfl
          · exact h2 h.1.symm
          · exact h3 h.1.symm
        obtain ⟨F, rfl⟩ : ∃ k, F = k + 1 := ⟨F - 1, by simp at hF; omega⟩
        have ih' := ih (c :: 92 :: pre) (buf ++ [c]) c F hv' (fun h => (hq92 h).elim) (by simp at hF ⊢; omega)
          (by simp at hL ⊢; omega)
        have hno : (c != 39 && c != 34) = false := by rcases hq with rfl | rfl <;> decide
        rw [quotedLoop_slash hq92, quotedLoop_byte hce (.inr ⟨rfl, hq96⟩) hq92 h10,
          Bool.and_assoc, hno, Bool.and_false, if_neg (by decide), ih']
        simp [hc, hq92]
      · by_cases h92 : c = 92
        · subst h92
          obtain ⟨d, v', rfl, hd1, hd2, hd3⟩ := hv.slashes.next
          have hc : c2 ≠ 92 := fun h => by
            obtain ⟨d, v', h, h1, _⟩ := hc2 h
            simp only [List.cons.injEq] at h
            exact h1 h.1.symm
          rw [show escape n q (92 :: d :: v') = 92 :: escape n q (d :: v') by
            simp [escape, hcq]] at hF hL ⊢
          simp only [List.cons_append] at hF hL ⊢
          have ih' := ih (92 :: pre) buf 92 F hv' (fun _ => ⟨d, v', rfl, hd1, hd2, hd3⟩) (by simp at hF ⊢; omega)
            (by simp at hL ⊢; omega)
          rw [quotedLoop_slash hq92, ih']
          simp [hc]
        · rw [show escape n q (c :: v) = c :: escape n q v by simp [escape, h10, hcq]] at hF hL ⊢
          simp only [List.cons_append] at hF hL ⊢
          have hb : (if (c2 == 92 && c != 39 && c != 34) = true then buf ++ [92] else buf) =
              buf ++ (if c2 = 92 then [92] else []) := by
            by_cases h : c2 = 92
            · obtain ⟨d, v', h', h1, h2, h3⟩ := hc2 h
              simp only [List.cons.injEq] at h'
              rw [← h'.1] at h2 h3
              simp [h, h2, h3]
            · simp [h]
          have ih' := ih (c :: pre) (buf ++ (if c2 = 92 then [92] else []) ++ [c]) c F hv' (fun h => (h92 h).elim)
            (by simp at hF ⊢; omega) (by simp at hL ⊢; omega)
          rw [quotedLoop_byte hce (.inl hcq) h92 h10, hb, ih']
          simp [h92]

theorem run_quoted (n : Nat) (q : UInt8) (hq : q = 34 ∨ q = 39) {v : Bytes} (hv : Quotable n v) (t pre : Bytes)
    (rs : List Nat) (e : Ev) (L : Nat) (hL : (q :: escape n q v ++ [q] ++ t).length < L) :
    (quoted L n).run curM ⟨pre, q :: escape n q v ++ [q] ++ t, 0, rs⟩ e =
      .ok (some v, ⟨(q :: escape n q v ++ [q]).reverse ++ pre, t, 0, rs⟩, e) := by
  have hne : (q != 34 && q != 39 && q != 96) = false := by rcases hq with rfl | rfl <;> decide
  simp only [List.append_assoc, List.cons_append, List.nil_append] at hL ⊢
  simp only [quoted, Prog.run_bind, run_byte0_cons, hne, Bool.false_eq_true, ↓reduceIte]
  rw [run_quotedLoop n q hq t rs e L v (q :: pre) [] 0 L hv (fun h => absurd h (by decide)) (by simp at hL ⊢; omega) (by simp at hL ⊢; omega)]
  simp

/-! ## One line -/

/-- What may follow a scalar. -/
def After (last : Bool) (tail : Bytes) : Prop :=
  if last then ∀ c, tail.head? = some c → c = 10 ∨ c = 13
  else ∃ c t, tail = c :: t ∧ (c = 32 ∨ c = 9)

theorem After.not_text {last : Bool} {tail : Bytes} (h : After last tail) :
    ∀ c, tail.head? = some c → isTextChar c = false := by
  intro c hc
  cases last with
  | true =>
    have := h c hc
    rcases this with rfl | rfl <;> decide
  | false =>
    obtain ⟨d, t, rfl, hd⟩ := h
    simp only [List.head?_cons, Option.some.injEq] at hc
    subst hc
    rcases hd with rfl | rfl <;> decide

theorem run_lineScalar {E : Ext} {types last : Bool} {n : Nat} {v : Val} {r tail : Bytes}
    (h : Scal E types n last v r) (ht : After last tail) (pre : Bytes) (rs : List Nat) (e : Ev) {L : Nat}
    (hL : (r ++ tail).length < L) :
    (lineScalar E L types n).run curM ⟨pre, r ++ tail, 0, rs⟩ e =
      .ok ((), ⟨r.reverse ++ pre, tail, 0, rs⟩, e.add v) := by
  cases h with
  | word hw h1 h2 hv =>
    rw [wordValue_iff] at hv
    subst hv
    obtain ⟨c, t, rfl, hc1, hc2, hc3, _⟩ := hw.head
    have hs : (str L).run curM ⟨pre, (c :: t) ++ tail, 0, rs⟩ e =
        .ok (c :: t, ⟨(c :: t).reverse ++ pre, tail, 0, rs⟩, e) :=
      run_readWhile_app isTextChar (by decide) (fun c hc => textChar_of_lt (hw.text c hc)) ht.not_text hL
    have hq : (quoted L n).run curM ⟨pre, (c :: t) ++ tail, 0, rs⟩ e = .ok (none, ⟨pre, (c :: t) ++ tail, 0, rs⟩, e) :=
      run_quoted_none pre (t ++ tail) c rs e L n hc1 hc2 hc3
    cases types with
    | true => simp only [lineScalar, scalarType, Prog.run_bind, hq, hs, Prog.run_pure, ↓reduceIte, run_evAdd,
        List.isEmpty_cons, Bool.false_eq_true]
    | false => simp only [lineScalar, scalar, Prog.run_bind, hq, hs, Prog.run_pure, ↓reduceIte, run_evAdd,
        List.isEmpty_cons, Bool.false_eq_true]
  | quoted hq hv =>
    rename_i q v
    have hr := run_quoted n q hq hv tail pre rs e L hL
    cases types with
    | true => simp only [lineScalar, scalarType, Prog.run_bind, hr, Prog.run_pure, ↓reduceIte, run_evAdd]
    | false => simp only [lineScalar, scalar, Prog.run_bind, hr, Prog.run_pure, ↓reduceIte, run_evAdd, Bool.false_eq_true]

/-- First byte of a scalar. -/
theorem scal_head {E : Ext} {types last : Bool} {n : Nat} {v : Val} {r : Bytes} (h : Scal E types n last v r) :
    ∃ c t, r = c :: t ∧ 32 < c ∧ c ≠ 44 ∧ (c = 35 → t = [] → last = true) ∧
      (c = 35 → ∀ d, t.head? = some d → 32 < d) ∧ (c = 92 → t = [] → last = false) ∧
      (c = 92 → ∀ d, t.head? = some d → 32 < d) := by
  cases h with
  | word hw h1 h2 _ =>
    obtain ⟨c, t, rfl, hc1, hc2, hc3, hc4⟩ := hw.head
    refine ⟨c, t, rfl, hw.text c (by simp), hc4, ?_, ?_, ?_, ?_⟩
    · rintro rfl rfl
      cases last with
      | true => rfl
      | false => exact (h2 rfl rfl).elim
    · intro _ d hd
      exact hw.text d (by simp [List.mem_of_mem_head? hd])
    · rintro rfl rfl
      cases last with
      | true => exact (h1 rfl rfl).elim
      | false => rfl
    · intro _ d hd
      exact hw.text d (by simp [List.mem_of_mem_head? hd])
  | quoted hq hv =>
    rename_i q v
    refine ⟨q, escape n q v ++ [q], rfl, ?_, ?_, ?_, ?_, ?_, ?_⟩
    all_goals rcases hq with rfl | rfl <;> simp

/-- `lineBody` up to and including a scalar. -/
theorem run_lineBody_scal {E : Ext} {types last : Bool} {n : Nat} {v : Val} {r tail : Bytes}
    (h : Scal E types n last v r) (ht : After last tail) (pre : Bytes) (rs : List Nat) (e : Ev) {L F : Nat}
    (hL : (r ++ tail).length < L) :
    (lineBody E L types n (F + 1)).run curM ⟨pre, r ++ tail, 0, rs⟩ e =
      (do if ← brk then pure true
          else do
            let _ ← space L
            evInc
            lineBody E L types n F : Prog Bool).run curM ⟨r.reverse ++ pre, tail, 0, rs⟩ (e.add v) := by
  have hsc := run_lineScalar h ht pre rs e hL
  obtain ⟨c, t, rfl, hc, _, h1, h2, h3, h4⟩ := scal_head h
  have hend : isEndChar c = false := not_end_of_lt (.inl (UInt8.le_of_lt hc))
  have c10 : c ≠ 10 := by rintro rfl; revert hc; decide
  have c13 : c ≠ 13 := by rintro rfl; revert hc; decide
  have hcom : c = 35 → ∀ d, (t ++ tail).head? = some d → isSpaceChar d = false := by
    intro hc' d hd
    cases t with
    | nil =>
      have hl := h1 hc' rfl
      subst hl
      rcases ht d hd with rfl | rfl <;> decide
    | cons x t =>
      have := h2 hc' x rfl
      simp only [List.cons_append, List.head?_cons, Option.some.injEq] at hd
      subst hd
      have h32 : x ≠ 32 := by rintro rfl; revert this; decide
      have h9 : x ≠ 9 := by rintro rfl; revert this; decide
      simp [isSpaceChar, h32, h9]
  have hblk : c = 92 → ∀ d, (t ++ tail).head? = some d → d ≠ 10 ∧ d ≠ 13 := by
    intro hc' d hd
    cases t with
    | nil =>
      have hl := h3 hc' rfl
      subst hl
      obtain ⟨y, t', rfl, hy⟩ := ht
      simp only [List.nil_append, List.head?_cons, Option.some.injEq] at hd
      subst hd
      rcases hy with rfl | rfl <;> decide
    | cons x t =>
      have := h4 hc' x rfl
      simp only [List.cons_append, List.head?_cons, Option.some.injEq] at hd
      subst hd
      constructor
      · rintro rfl; revert this; decide
      · rintro rfl; revert this; decide
  simp only [lineBody, Prog.run_bind, List.cons_append, run_endp_false pre (t ++ tail) c rs e hend,
    run_brk_false pre (t ++ tail) c rs e c10 c13, run_comment_false pre (t ++ tail) c rs e L hcom,
    run_block_none pre (t ++ tail) c rs e L n hblk, Bool.false_eq_true, ↓reduceIte]
  simp only [List.cons_append] at hsc
  simp only [hsc]

/-- The events of the values of a line. -/
def lineItems : Nat → List Val → List (Nat × Val)
  | _, [] => []
  | l, v :: vs => (l, v) :: lineItems (l + 1) vs

theorem blank_space {sp : Bytes} (h : Blank sp) : ∀ c ∈ sp, isSpaceChar c = true := by
  intro c hc
  rcases h c hc with rfl | rfl <;> decide

theorem run_space_app {sp t : Bytes} (h : Blank sp) (ht : ∀ c, t.head? = some c → isSpaceChar c = false)
    (pre : Bytes) (rs : List Nat) (e : Ev) {L : Nat} (hL : (sp ++ t).length < L) :
    ∃ k, (space L).run curM ⟨pre, sp ++ t, 0, rs⟩ e = .ok ((sp.length, k), ⟨sp.reverse ++ pre, t, 0, rs⟩, e) := by
  refine ⟨spaceKind sp, ?_⟩
  simp only [space, Prog.run_bind, run_readWhile_app isSpaceChar (by decide) (blank_space h) ht hL, Prog.run_pure]

theorem lineOf_head {E : Ext} {types : Bool} {n : Nat} {vs : List Val} {t : Bytes} (h : LineOf E types n vs t) :
    ∃ c t', t = c :: t' ∧ 32 < c ∧ c ≠ 44 := by
  cases h with
  | last h => obtain ⟨c, t, rfl, h1, h2, _⟩ := scal_head h; exact ⟨c, t, rfl, h1, h2⟩
  | trailing h => obtain ⟨c, t, rfl, h1, h2, _⟩ := scal_head h; exact ⟨c, _, rfl, h1, h2⟩
  | more h => obtain ⟨c, t, rfl, h1, h2, _⟩ := scal_head h; exact ⟨c, _, rfl, h1, h2⟩

theorem not_space_of_lt {c : UInt8} (h : 32 < c) : isSpaceChar c = false := by
  have h32 : c ≠ 32 := by rintro rfl; revert h; decide
  have h9 : c ≠ 9 := by rintro rfl; revert h; decide
  simp [isSpaceChar, h32, h9]

/-- A line followed by an end of line. -/
theorem run_lineBody {E : Ext} {types : Bool} {n : Nat} {vs : List Val} {t : Bytes} (h : LineOf E types n vs t)
    (eol rest : Bytes) (heol : Eol eol) {L : Nat} (rs : List Nat) : ∀ (pre : Bytes) (e : Ev) (F : Nat), e.Ok →
    (t ++ eol ++ rest).length < L → (t ++ eol ++ rest).length < F →
    ∃ pre' e', (lineBody E L types n F).run curM ⟨pre, t ++ eol ++ rest, 0, rs⟩ e =
        .ok (true, ⟨pre', rest, 0, rs⟩, e') ∧ e'.Ok ∧ e'.items = e.items ++ lineItems e.current vs := by
  have heolNS : ∀ c, (eol ++ rest).head? = some c → isSpaceChar c = false := by
    rcases heol with rfl | rfl <;> simp [isSpaceChar]
  induction h with
  | last h =>
    intro pre e F he hL hF
    obtain ⟨F, rfl⟩ : ∃ k, F = k + 1 := ⟨F - 1, by omega⟩
    rename_i v r
    have ha : After true (eol ++ rest) := by
      rcases heol with rfl | rfl <;> simp [After]
    refine ⟨eol.reverse ++ (r.reverse ++ pre), e.add v, ?_, he.add v, by simp [lineItems, Ev.add]⟩
    rw [List.append_assoc, run_lineBody_scal h ha pre rs e (by simpa [List.append_assoc] using hL)]
    simp only [Prog.run_bind, run_brk_eol _ rest rs _ heol, ↓reduceIte, Prog.run_pure]
  | trailing h hne hb =>
    intro pre e F he hL hF
    rename_i v r sp
    have hlen : r.length + sp.length + (eol ++ rest).length < F := by simp at hF ⊢; omega
    have hspl : 0 < sp.length := List.length_pos_iff.2 hne
    have heoll : 0 < (eol ++ rest).length := by rcases heol with rfl | rfl <;> simp
    obtain ⟨F, rfl⟩ : ∃ k, F = k + 2 := ⟨F - 2, by omega⟩
    have ha : After false (sp ++ (eol ++ rest)) := by
      cases sp with
      | nil => exact (hne rfl).elim
      | cons c t => exact ⟨c, _, rfl, hb c (by simp)⟩
    obtain ⟨k, hsp⟩ := run_space_app (t := eol ++ rest) hb heolNS (r.reverse ++ pre) rs (e.add v) (L := L)
      (by simp at hL ⊢; omega)
    refine ⟨eol.reverse ++ (sp.reverse ++ (r.reverse ++ pre)), (e.add v).inc, ?_, (he.add v).inc,
      by simp [lineItems, Ev.add, Ev.inc]⟩
    rw [show r ++ sp ++ eol ++ rest = r ++ (sp ++ (eol ++ rest)) by simp,
      run_lineBody_scal h ha pre rs e (by simp at hL ⊢; omega)]
    have hbf : (brk).run curM ⟨r.reverse ++ pre, sp ++ (eol ++ rest), 0, rs⟩ (e.add v) =
        .ok (false, ⟨r.reverse ++ pre, sp ++ (eol ++ rest), 0, rs⟩, e.add v) := by
      cases sp with
      | nil => exact (hne rfl).elim
      | cons c t => rcases hb c (by simp) with rfl | rfl <;> exact run_brk_false _ _ _ _ _ (by decide) (by decide)
    have hef : ∀ p e', (endp).run curM ⟨p, eol ++ rest, 0, rs⟩ e' = .ok (false, ⟨p, eol ++ rest, 0, rs⟩, e') := by
      intro p e'
      rcases heol with rfl | rfl <;> exact run_endp_false _ _ _ _ _ (by decide)
    simp only [Prog.run_bind, hbf, Bool.false_eq_true, ↓reduceIte, hsp, run_evInc, lineBody, hef,
      run_brk_eol _ rest rs _ heol, Prog.run_pure]
  | more h hne hb hl ih =>
    intro pre e F he hL hF
    rename_i v r sp vs t
    have hlen : r.length + sp.length + (t ++ eol ++ rest).length < F := by simp at hF ⊢; omega
    have hspl : 0 < sp.length := List.length_pos_iff.2 hne
    obtain ⟨F, rfl⟩ : ∃ k, F = k + 1 := ⟨F - 1, by omega⟩
    have ha : After false (sp ++ (t ++ eol ++ rest)) := by
      cases sp with
      | nil => exact (hne rfl).elim
      | cons c t => exact ⟨c, _, rfl, hb c (by simp)⟩
    have hns : ∀ c, (t ++ eol ++ rest).head? = some c → isSpaceChar c = false := by
      obtain ⟨c, t', rfl, hc, _⟩ := lineOf_head hl
      intro d hd
      simp only [List.cons_append, List.head?_cons, Option.some.injEq] at hd
      subst hd
      exact not_space_of_lt hc
    obtain ⟨k, hsp⟩ := run_space_app (t := t ++ eol ++ rest) hb hns (r.reverse ++ pre) rs (e.add v) (L := L)
      (by simp at hL ⊢; omega)
    have hbf : (brk).run curM ⟨r.reverse ++ pre, sp ++ (t ++ eol ++ rest), 0, rs⟩ (e.add v) =
        .ok (false, ⟨r.reverse ++ pre, sp ++ (t ++ eol ++ rest), 0, rs⟩, e.add v) := by
      cases sp with
      | nil => exact (hne rfl).elim
      | cons c t => rcases hb c (by simp) with rfl | rfl <;> exact run_brk_false _ _ _ _ _ (by decide) (by decide)
    obtain ⟨pre', e', h1, h2, h3⟩ := ih (sp.reverse ++ (r.reverse ++ pre)) (e.add v).inc F (he.add v).inc
      (by simp at hL ⊢; omega) (by omega)
    refine ⟨pre', e', ?_, h2, by rw [h3]; simp [lineItems, Ev.add, Ev.inc]⟩
    rw [show r ++ sp ++ t ++ eol ++ rest = r ++ (sp ++ (t ++ eol ++ rest)) by simp,
      run_lineBody_scal h ha pre rs e (by simp at hL ⊢; omega)]
    simp only [Prog.run_bind, hbf, Bool.false_eq_true, ↓reduceIte, hsp, run_evInc, h1]

/-- A line that ends with the input. -/
theorem run_lineBody_open {E : Ext} {types : Bool} {n : Nat} {vs : List Val} {t : Bytes} (h : LineOf E types n vs t)
    {L : Nat} (rs : List Nat) : ∀ (pre : Bytes) (e : Ev) (F : Nat), e.Ok → t.length < L → t.length < F →
    ∃ pre' e', (lineBody E L types n F).run curM ⟨pre, t, 0, rs⟩ e =
        .ok (false, ⟨pre', [], 1, rs⟩, e') ∧ e'.Ok ∧ e'.items = e.items ++ lineItems e.current vs := by
  induction h with
  | last h =>
    intro pre e F he hL hF
    rename_i v r
    have hr : 0 < r.length := by obtain ⟨c, t, rfl, _⟩ := scal_head h; simp
    obtain ⟨F, rfl⟩ : ∃ k, F = k + 2 := ⟨F - 2, by omega⟩
    have ha : After true [] := by simp [After]
    have := run_lineBody_scal (F := F + 1) h ha pre rs e (L := L) (by simpa using hL)
    rw [List.append_nil] at this
    refine ⟨r.reverse ++ pre, (e.add v).inc, ?_, (he.add v).inc, by simp [lineItems, Ev.add, Ev.inc]⟩
    rw [this]
    obtain ⟨k, hsp⟩ := run_space_app (sp := []) (t := []) (by simp [Blank]) (by simp) (r.reverse ++ pre) rs (e.add v) (L := L)
      (by simp; omega)
    simp only [List.nil_append, List.reverse_nil] at hsp
    simp only [Prog.run_bind, run_brk_nil, Bool.false_eq_true, ↓reduceIte, hsp, run_evInc, lineBody, run_endp_nil,
      Prog.run_pure]
  | trailing h hne hb =>
    intro pre e F he hL hF
    rename_i v r sp
    have hr : 0 < r.length := by obtain ⟨c, t, rfl, _⟩ := scal_head h; simp
    have hspl : 0 < sp.length := List.length_pos_iff.2 hne
    simp only [List.length_append] at hL hF
    obtain ⟨F, rfl⟩ : ∃ k, F = k + 2 := ⟨F - 2, by omega⟩
    have ha : After false sp := by
      cases sp with
      | nil => exact (hne rfl).elim
      | cons c t => exact ⟨c, _, rfl, hb c (by simp)⟩
    obtain ⟨k, hsp⟩ := run_space_app (t := []) hb (by simp) (r.reverse ++ pre) rs (e.add v) (L := L)
      (by simp; omega)
    rw [List.append_nil] at hsp
    refine ⟨sp.reverse ++ (r.reverse ++ pre), (e.add v).inc, ?_, (he.add v).inc,
      by simp [lineItems, Ev.add, Ev.inc]⟩
    rw [run_lineBody_scal h ha pre rs e (by simp; omega)]
    have hbf : (brk).run curM ⟨r.reverse ++ pre, sp, 0, rs⟩ (e.add v) =
        .ok (false, ⟨r.reverse ++ pre, sp, 0, rs⟩, e.add v) := by
      cases sp with
      | nil => exact (hne rfl).elim
      | cons c t => rcases hb c (by simp) with rfl | rfl <;> exact run_brk_false _ _ _ _ _ (by decide) (by decide)
    simp only [Prog.run_bind, hbf, Bool.false_eq_true, ↓reduceIte, hsp, run_evInc, lineBody, run_endp_nil, Prog.run_pure]
  | more h hne hb hl ih =>
    intro pre e F he hL hF
    rename_i v r sp vs t
    simp only [List.length_append] at hL hF
    have hspl : 0 < sp.length := List.length_pos_iff.2 hne
    obtain ⟨F, rfl⟩ : ∃ k, F = k + 1 := ⟨F - 1, by omega⟩
    have ha : After false (sp ++ t) := by
      cases sp with
      | nil => exact (hne rfl).elim
      | cons c t => exact ⟨c, _, rfl, hb c (by simp)⟩
    have hns : ∀ c, t.head? = some c → isSpaceChar c = false := by
      obtain ⟨c, t', rfl, hc, _⟩ := lineOf_head hl
      intro d hd
      simp only [List.head?_cons, Option.some.injEq] at hd
      subst hd
      exact not_space_of_lt hc
    obtain ⟨k, hsp⟩ := run_space_app (t := t) hb hns (r.reverse ++ pre) rs (e.add v) (L := L) (by simp; omega)
    have hbf : (brk).run curM ⟨r.reverse ++ pre, sp ++ t, 0, rs⟩ (e.add v) =
        .ok (false, ⟨r.reverse ++ pre, sp ++ t, 0, rs⟩, e.add v) := by
      cases sp with
      | nil => exact (hne rfl).elim
      | cons c t => rcases hb c (by simp) with rfl | rfl <;> exact run_brk_false _ _ _ _ _ (by decide) (by decide)
    obtain ⟨pre', e', h1, h2, h3⟩ := ih (sp.reverse ++ (r.reverse ++ pre)) (e.add v).inc F (he.add v).inc
      (by omega) (by omega)
    refine ⟨pre', e', ?_, h2, by rw [h3]; simp [lineItems, Ev.add, Ev.inc]⟩
    rw [List.append_assoc, run_lineBody_scal h ha pre rs e (by simp; omega)]
    simp only [Prog.run_bind, hbf, Bool.false_eq_true, ↓reduceIte, hsp, run_evInc, h1]

/-! ## Lines and trees -/

/-- A line at the expected indentation, from its first value on. -/
theorem run_lineHere {E : Ext} {types : Bool} {n : Nat} {vs : List Val} {t : Bytes} (h : LineOf E types n vs t)
    (eol rest : Bytes) (heol : Eol eol) {L : Nat} (rs : List Nat) (pre : Bytes) (e : Ev) (he : e.Ok)
    (hL : (t ++ eol ++ rest).length < L) :
    ∃ pre' e', (lineHere E L types n).run curM ⟨pre, t ++ eol ++ rest, 0, rs⟩ e =
        .ok (true, ⟨pre', rest, 0, rs⟩, e') ∧ e'.Ok ∧ e'.items = e.items ++ lineItems e.current vs ∧
        e'.current = e.current := by
  obtain ⟨pre', e', h1, h2, h3⟩ := run_lineBody h eol rest heol (L := L) rs pre e L he hL hL
  refine ⟨pre', e'.setLevel e.current, ?_, h2.setLevel _, h3, rfl⟩
  obtain ⟨c, t', rfl, hc, h44⟩ := lineOf_head h
  simp only [List.cons_append] at h1 ⊢
  have hend : isEndChar c = false := not_end_of_lt (.inl (UInt8.le_of_lt hc))
  simp only [lineHere, Prog.run_bind, run_evLevel, run_endp_false _ _ c rs e hend, Bool.false_eq_true, ↓reduceIte,
    run_peekByte_cons, beq_iff_eq, h44, h1, run_evSetLevel, Prog.run_pure]

theorem run_lineHere_open {E : Ext} {types : Bool} {n : Nat} {vs : List Val} {t : Bytes} (h : LineOf E types n vs t)
    {L : Nat} (rs : List Nat) (pre : Bytes) (e : Ev) (he : e.Ok) (hL : t.length < L) :
    ∃ pre' e', (lineHere E L types n).run curM ⟨pre, t, 0, rs⟩ e =
        .ok (false, ⟨pre', [], 1, rs⟩, e') ∧ e'.Ok ∧ e'.items = e.items ++ lineItems e.current vs := by
  obtain ⟨pre', e', h1, h2, h3⟩ := run_lineBody_open h (L := L) rs pre e L he hL hL
  refine ⟨pre', e', ?_, h2, h3⟩
  obtain ⟨c, t', rfl, hc, h44⟩ := lineOf_head h
  have hend : isEndChar c = false := not_end_of_lt (.inl (UInt8.le_of_lt hc))
  simp only [lineHere, Prog.run_bind, run_evLevel, run_endp_false _ _ c rs e hend, Bool.false_eq_true, ↓reduceIte,
    run_peekByte_cons, beq_iff_eq, h44, h1, Prog.run_pure]

theorem run_lineHere_blank {E : Ext} {types : Bool} {n : Nat} (eol rest : Bytes) (heol : Eol eol) {L : Nat} (rs : List Nat)
    (pre : Bytes) (e : Ev) (hL : 0 < L) :
    (lineHere E L types n).run curM ⟨pre, eol ++ rest, 0, rs⟩ e =
        .ok (true, ⟨eol.reverse ++ pre, rest, 0, rs⟩, e.setLevel e.current) := by
  obtain ⟨L, rfl⟩ : ∃ k, L = k + 1 := ⟨L - 1, by omega⟩
  obtain ⟨c, t, hct, hend, h44⟩ : ∃ c t, eol ++ rest = c :: t ∧ isEndChar c = false ∧ c ≠ 44 := by
    rcases heol with rfl | rfl
    · exact ⟨10, _, rfl, by decide, by decide⟩
    · exact ⟨13, _, rfl, by decide, by decide⟩
  have hb := run_brk_eol pre rest rs e heol
  rw [hct] at hb ⊢
  simp only [lineHere, lineBody, Prog.run_bind, run_evLevel, run_endp_false _ _ c rs e hend, Bool.false_eq_true, ↓reduceIte,
    run_peekByte_cons, beq_iff_eq, h44, hb, run_evSetLevel, Prog.run_pure]

theorem run_commentLoop (rs : List Nat) (e : Ev) (rest : Bytes) : ∀ (c pre : Bytes) (F : Nat),
    (∀ x ∈ c, x = 9 ∨ 32 ≤ x) → (c ++ 10 :: rest).length < F →
    (commentLoop F).run curM ⟨pre, c ++ 10 :: rest, 0, rs⟩ e = .ok ((), ⟨10 :: c.reverse ++ pre, rest, 0, rs⟩, e)
  | [], pre, F + 1, _, _ => by
    have h1 : (isEndChar 10 || isBreakChar 10) = true := by decide
    simp only [commentLoop, Prog.run_bind, List.nil_append, run_byte0_cons, h1, ↓reduceIte, Prog.run_pure]
    rfl
  | x :: c, pre, F + 1, hc, hF => by
    have hx := hc x (by simp)
    have h1 : isEndChar x = false := not_end_of_lt (by rcases hx with h | h <;> simp [h])
    have h2 : isBreakChar x = false := by
      rcases hx with rfl | h
      · decide
      · have h10 : x ≠ 10 := by rintro rfl; revert h; decide
        have h13 : x ≠ 13 := by rintro rfl; revert h; decide
        simp [isBreakChar, h10, h13]
    have ih := run_commentLoop rs e rest c (x :: pre) F (fun y hy => hc y (by simp [hy])) (by simp at hF ⊢; omega)
    simp only [commentLoop, Prog.run_bind, List.cons_append, run_byte0_cons, h1, h2, Bool.or_self, Bool.false_eq_true,
      ↓reduceIte, ih]
    simp
  | [], _, 0, _, hF => by simp at hF
  | _ :: _, _, 0, _, hF => by simp at hF

theorem run_lineHere_comment {E : Ext} {types : Bool} {n : Nat} (c rest : Bytes) (b : UInt8) (hb : b = 32 ∨ b = 9)
    (hc : ∀ x ∈ c, x = 9 ∨ 32 ≤ x) {L : Nat} (rs : List Nat) (pre : Bytes) (e : Ev)
    (hL : (c ++ 10 :: rest).length < L) :
    ∃ pre', (lineHere E L types n).run curM ⟨pre, 35 :: b :: c ++ 10 :: rest, 0, rs⟩ e =
        .ok (true, ⟨pre', rest, 0, rs⟩, e.setLevel e.current) := by
  obtain ⟨K, hK⟩ : ∃ k, L = k + 1 := ⟨L - 1, by omega⟩
  have hbs : isSpaceChar b = true := by rcases hb with rfl | rfl <;> decide
  have hl := run_commentLoop rs e rest c (b :: 35 :: pre) L hc hL
  refine ⟨10 :: c.reverse ++ b :: 35 :: pre, ?_⟩
  have hcom : (comment L).run curM ⟨pre, 35 :: b :: c ++ 10 :: rest, 0, rs⟩ e =
      .ok (true, ⟨10 :: c.reverse ++ b :: 35 :: pre, rest, 0, rs⟩, e) := by
    simp only [comment, Prog.run_bind, List.cons_append, run_byte0_cons, beq_self_eq_true, ↓reduceIte, hbs, hl, Prog.run_pure]
  have h35 : isEndChar 35 = false := by decide
  simp only [List.cons_append] at hcom ⊢
  have hbody : (lineBody E L types n L).run curM ⟨pre, 35 :: b :: (c ++ 10 :: rest), 0, rs⟩ e =
      .ok (true, ⟨10 :: (c.reverse ++ b :: 35 :: pre), rest, 0, rs⟩, e) := by
    conv => lhs; rw [show lineBody E L types n L = lineBody E L types n (K + 1) by rw [hK]]
    simp only [lineBody, Prog.run_bind, run_endp_false _ _ 35 rs e h35, Bool.false_eq_true, ↓reduceIte,
      run_brk_false _ _ 35 rs e (by decide) (by decide), hcom, Prog.run_pure]
  simp only [lineHere, Prog.run_bind, run_evLevel, run_endp_false _ _ 35 rs e h35, Bool.false_eq_true, ↓reduceIte,
    run_peekByte_cons, beq_iff_eq, show ¬ (35 : UInt8) = 44 by decide, hbody, run_evSetLevel, Prog.run_pure]

theorem spaceKind_spaces {s : Bytes} (h : ∀ c ∈ s, c = 32) : spaceKind s ≠ 0 := by
  have h9 : s.contains 9 = false := by
    simpa using fun hm => absurd (h 9 hm) (by decide)
  simp only [spaceKind, h9]
  exact (by decide : (32 : UInt8) ≠ 0)

theorem spaceKind_tabs {s : Bytes} (h : ∀ c ∈ s, c = 9) : spaceKind s ≠ 0 := by
  have h32 : s.contains 32 = false := by
    simpa using fun hm => absurd (h 32 hm) (by decide)
  simp only [spaceKind, h32]
  split <;> decide

/-! ## Blocks and comments at the end of a line -/

theorem prefixOf_head {E : Ext} {types : Bool} {n : Nat} {vs : List Val} {t : Bytes} (h : PrefixOf E types n vs t) (tail : Bytes)
    (hh : ∃ c t', tail = c :: t' ∧ 32 < c ∧ c ≠ 44) : ∃ c t', t ++ tail = c :: t' ∧ 32 < c ∧ c ≠ 44 := by
  cases h with
  | nil => exact hh
  | cons h => obtain ⟨c, t, rfl, h1, h2, _⟩ := scal_head h; exact ⟨c, _, rfl, h1, h2⟩

theorem lineItems_append (l : Nat) (b : List Val) : ∀ (a : List Val), lineItems l (a ++ b) = lineItems l a ++ lineItems (l + a.length) b := by
  intro a
  induction a generalizing l with
  | nil => simp [lineItems]
  | cons v a ih => simp only [List.cons_append, lineItems, ih, List.length_cons]; rw [show l + 1 + a.length = l + (a.length + 1) by omega]

/-- `lineBody` up to a value, comment or block after other values. -/
theorem run_prefix {E : Ext} {types : Bool} {n : Nat} {vs : List Val} {t : Bytes} (h : PrefixOf E types n vs t) {tail : Bytes}
    (hh : ∃ c t', tail = c :: t' ∧ 32 < c ∧ c ≠ 44) {L : Nat} (rs : List Nat) : ∀ (pre : Bytes) (e : Ev) (F : Nat), e.Ok →
    (t ++ tail).length < L → (t ++ tail).length < F →
    ∃ e' F', (lineBody E L types n F).run curM ⟨pre, t ++ tail, 0, rs⟩ e = (lineBody E L types n (F' + 1)).run curM ⟨t.reverse ++ pre, tail, 0, rs⟩ e' ∧
      e'.Ok ∧ e'.items = e.items ++ lineItems e.current vs ∧ e'.current = e.current + vs.length := by
  induction h with
  | nil =>
    intro pre e F he hL hF
    exact ⟨e, F - 1, by rw [show F - 1 + 1 = F by omega]; rfl, he, by simp [lineItems], rfl⟩
  | cons h hne hb hp ih =>
    intro pre e F he hL hF
    rename_i v r sp vs t
    have hlen : r.length + sp.length + (t ++ tail).length < F := by simp at hF ⊢; omega
    have hspl : 0 < sp.length := List.length_pos_iff.2 hne
    obtain ⟨F, rfl⟩ : ∃ k, F = k + 1 := ⟨F - 1, by omega⟩
    have ha : After false (sp ++ (t ++ tail)) := by
      cases sp with
      | nil => exact (hne rfl).elim
      | cons c t => exact ⟨c, _, rfl, hb c (by simp)⟩
    have hns : ∀ c, (t ++ tail).head? = some c → isSpaceChar c = false := by
      obtain ⟨c, t', hct, hc, _⟩ := prefixOf_head hp tail hh
      intro d hd
      rw [hct] at hd
      simp only [List.head?_cons, Option.some.injEq] at hd
      subst hd
      exact not_space_of_lt hc
    obtain ⟨k, hsp⟩ := run_space_app (t := t ++ tail) hb hns (r.reverse ++ pre) rs (e.add v) (L := L) (by simp at hL ⊢; omega)
    have hbf : (brk).run curM ⟨r.reverse ++ pre, sp ++ (t ++ tail), 0, rs⟩ (e.add v) =
        .ok (false, ⟨r.reverse ++ pre, sp ++ (t ++ tail), 0, rs⟩, e.add v) := by
      cases sp with
      | nil => exact (hne rfl).elim
      | cons c t => rcases hb c (by simp) with rfl | rfl <;> exact run_brk_false _ _ _ _ _ (by decide) (by decide)
    obtain ⟨e', F', h1, h2, h3, h4⟩ := ih (sp.reverse ++ (r.reverse ++ pre)) (e.add v).inc F (he.add v).inc
      (by simp at hL ⊢; omega) (by omega)
    refine ⟨e', F', ?_, h2, by rw [h3]; simp [lineItems, Ev.add, Ev.inc], by rw [h4]; simp [Ev.add, Ev.inc]; omega⟩
    rw [show r ++ sp ++ t ++ tail = r ++ (sp ++ (t ++ tail)) by simp,
      run_lineBody_scal h ha pre rs e (by simp at hL ⊢; omega)]
    simp only [Prog.run_bind, hbf, Bool.false_eq_true, ↓reduceIte, hsp, run_evInc, h1]
    simp

theorem run_comment {L : Nat} (c rest : Bytes) (b : UInt8) (hb : b = 32 ∨ b = 9) (hc : ∀ x ∈ c, x = 9 ∨ 32 ≤ x) (rs : List Nat) (pre : Bytes) (e : Ev)
    (hL : (c ++ 10 :: rest).length < L) :
    (comment L).run curM ⟨pre, 35 :: b :: c ++ 10 :: rest, 0, rs⟩ e = .ok (true, ⟨10 :: c.reverse ++ b :: 35 :: pre, rest, 0, rs⟩, e) := by
  have hbs : isSpaceChar b = true := by rcases hb with rfl | rfl <;> decide
  have hl := run_commentLoop rs e rest c (b :: 35 :: pre) L hc hL
  simp only [comment, Prog.run_bind, List.cons_append, run_byte0_cons, beq_self_eq_true, ↓reduceIte, hbs, hl, Prog.run_pure]

/-- A line with a comment at its end. -/
theorem run_lineHere_noted {E : Ext} {types : Bool} {n : Nat} {vs : List Val} {t : Bytes} (h : PrefixOf E types n vs t)
    (c rest : Bytes) (b : UInt8) (hb : b = 32 ∨ b = 9) (hc : ∀ x ∈ c, x = 9 ∨ 32 ≤ x) {L : Nat} (rs : List Nat) (pre : Bytes) (e : Ev) (he : e.Ok)
    (hL : (t ++ (35 :: b :: c ++ 10 :: rest)).length < L) :
    ∃ pre' e', (lineHere E L types n).run curM ⟨pre, t ++ (35 :: b :: c ++ 10 :: rest), 0, rs⟩ e =
        .ok (true, ⟨pre', rest, 0, rs⟩, e') ∧ e'.Ok ∧ e'.items = e.items ++ lineItems e.current vs ∧ e'.current = e.current := by
  have h35 : ∃ x t', 35 :: b :: c ++ 10 :: rest = x :: t' ∧ (32 : UInt8) < x ∧ x ≠ 44 := ⟨35, _, rfl, by decide, by decide⟩
  obtain ⟨e', F', h1, h2, h3, h4⟩ := run_prefix h h35 (L := L) rs pre e L he hL hL
  refine ⟨10 :: c.reverse ++ b :: 35 :: (t.reverse ++ pre), e'.setLevel e.current, ?_, h2.setLevel _, h3, rfl⟩
  have hcm := run_comment (L := L) c rest b hb hc rs (t.reverse ++ pre) e' (by simp at hL ⊢; omega)
  have hbody : (lineBody E L types n L).run curM ⟨pre, t ++ (35 :: b :: c ++ 10 :: rest), 0, rs⟩ e =
      .ok (true, ⟨10 :: c.reverse ++ b :: 35 :: (t.reverse ++ pre), rest, 0, rs⟩, e') := by
    rw [h1]
    simp only [List.cons_append] at hcm ⊢
    simp only [lineBody, Prog.run_bind, run_endp_false _ _ 35 rs e' (by decide), Bool.false_eq_true, ↓reduceIte,
      run_brk_false _ _ 35 rs e' (by decide) (by decide), hcm, Prog.run_pure]
  obtain ⟨x, t', hx, hx1, hx2⟩ := prefixOf_head h _ h35
  rw [hx] at hbody ⊢
  have hend : isEndChar x = false := not_end_of_lt (.inl (UInt8.le_of_lt hx1))
  simp only [lineHere, Prog.run_bind, run_evLevel, run_endp_false _ _ x rs e hend, Bool.false_eq_true, ↓reduceIte,
    run_peekByte_cons, beq_iff_eq, hx2, hbody, run_evSetLevel, Prog.run_pure]

theorem run_blockLine {eol : Bytes} (heol : Eol eol) (rest : Bytes) (rs : List Nat) (e : Ev) : ∀ (l pre : Bytes) (F : Nat), (∀ c ∈ l, c = 9 ∨ 32 ≤ c) →
    (l ++ eol ++ rest).length < F →
    (blockLine F).run curM ⟨pre, l ++ eol ++ rest, 0, rs⟩ e = .ok (l ++ [10], ⟨(l ++ eol).reverse ++ pre, rest, 0, rs⟩, e)
  | [], pre, F, _, hF => by
    rcases heol with rfl | rfl
    · obtain ⟨F, rfl⟩ : ∃ k, F = k + 1 := ⟨F - 1, by omega⟩
      simp only [List.nil_append, List.cons_append, blockLine, Prog.run_bind, run_byte0_cons, show isEndChar 10 = false by decide, Bool.false_eq_true,
        ↓reduceIte, show ((10 : UInt8) == 13) = false by decide, beq_self_eq_true, Prog.run_pure]
      rfl
    · obtain ⟨F, rfl⟩ : ∃ k, F = k + 2 := ⟨F - 2, by simp at hF; omega⟩
      simp only [List.nil_append, List.cons_append, blockLine, Prog.run_bind, run_byte0_cons, show isEndChar 10 = false by decide,
        show isEndChar 13 = false by decide, Bool.false_eq_true,
        ↓reduceIte, show ((10 : UInt8) == 13) = false by decide, beq_self_eq_true, Prog.run_pure]
      rfl
  | c :: l, pre, F, hl, hF => by
    obtain ⟨F, rfl⟩ : ∃ k, F = k + 1 := ⟨F - 1, by simp at hF; omega⟩
    have hc := hl c (by simp)
    have h1 : isEndChar c = false := not_end_of_lt (by rcases hc with h | h <;> simp [h])
    have h10 : (c == 10) = false := by
      have : c ≠ 10 := by rcases hc with rfl | h; (· decide); rintro rfl; revert h; decide
      simpa using this
    have h13 : (c == 13) = false := by
      have : c ≠ 13 := by rcases hc with rfl | h; (· decide); rintro rfl; revert h; decide
      simpa using this
    have ih := run_blockLine heol rest rs e l (c :: pre) F (fun y hy => hl y (by simp [hy])) (by simp at hF ⊢; omega)
    simp only [List.cons_append, blockLine, Prog.run_bind, run_byte0_cons, h1, h10, h13, Bool.false_eq_true, ↓reduceIte, ih, Prog.run_pure]
    simp

theorem run_blockLoop {ls : List Bytes} {b : Bytes} (h : BlockOf ls b) (rest : Bytes) (hr : ∀ c, rest.head? = some c → isSpaceChar c = false)
    {L : Nat} (rs : List Nat) (e : Ev) : ∀ (pre : Bytes) (F : Nat), (b ++ rest).length < L → (b ++ rest).length < F →
    (blockLoop L 0 F).run curM ⟨pre, b ++ rest, 0, rs⟩ e = .ok (ls.flatMap (· ++ [10]), ⟨b.reverse ++ pre, rest, 0, rs⟩, e) := by
  induction h with
  | nil =>
    intro pre F hL hF
    obtain ⟨F, rfl⟩ : ∃ k, F = k + 1 := ⟨F - 1, by omega⟩
    obtain ⟨k, hsp⟩ := run_space_app (sp := []) (t := rest) (by simp [Blank]) hr pre rs e (L := L) (by simpa using hL)
    simp only [List.nil_append, List.length_nil] at hsp
    simp only [List.nil_append, blockLoop, Prog.run_bind, hsp, Nat.le_refl, decide_true, Bool.or_true, ↓reduceIte, Prog.run_pure]
    rfl
  | line hne hu hl heol hb ih =>
    intro pre F hL hF
    rename_i ind l eol t ls
    have hpos : 0 < ind.length := List.length_pos_iff.2 hne
    obtain ⟨F, rfl⟩ : ∃ k, F = k + 1 := ⟨F - 1, by omega⟩
    have hblank : Blank ind := by
      intro c hc
      rcases hu with hu | hu
      · exact .inl (hu c hc)
      · exact .inr (hu c hc)
    have hhead : ∀ c, (l ++ eol ++ (t ++ rest)).head? = some c → isSpaceChar c = false := by
      intro c hc
      cases l with
      | nil => rcases heol with rfl | rfl <;> simp at hc <;> subst hc <;> decide
      | cons x l =>
        simp only [List.cons_append, List.head?_cons, Option.some.injEq] at hc
        subst hc
        have := hl.2 x rfl
        simp [isSpaceChar, this.1, this.2]
    have hsp : (space L).run curM ⟨pre, ind ++ (l ++ eol ++ (t ++ rest)), 0, rs⟩ e =
        .ok ((ind.length, spaceKind ind), ⟨ind.reverse ++ pre, l ++ eol ++ (t ++ rest), 0, rs⟩, e) := by
      simp only [space, Prog.run_bind, run_readWhile_app isSpaceChar (by decide) (blank_space hblank) hhead (L := L) (by simp at hL ⊢; omega), Prog.run_pure]
    have hk : spaceKind ind ≠ 0 := hu.elim spaceKind_spaces spaceKind_tabs
    have hline := run_blockLine heol (t ++ rest) rs e l (ind.reverse ++ pre) L hl.1 (by simp at hL ⊢; omega)
    have ih' := ih ((l ++ eol).reverse ++ (ind.reverse ++ pre)) F (by simp at hL ⊢; omega) (by simp at hF ⊢; omega)
    rw [show ind ++ l ++ eol ++ t ++ rest = ind ++ (l ++ eol ++ (t ++ rest)) by simp]
    have hk0 : (spaceKind ind == 0) = false := by simpa using hk
    have hle : decide (ind.length ≤ 0) = false := by simpa using Nat.not_le.2 hpos
    simp only [blockLoop, Prog.run_bind, hsp, hk0, hle, Bool.or_self, Bool.false_eq_true, ↓reduceIte, hline, ih', Prog.run_pure]
    simp

theorem flatMap_lines : ∀ ls : List Bytes, ls ≠ [] → ls.flatMap (· ++ [10]) = unlines ls ++ [10]
  | [l], _ => by simp [unlines]
  | l :: l' :: ls, _ => by
    rw [List.flatMap_cons, flatMap_lines (l' :: ls) (by simp), unlines]
    simp

theorem unlines_last : ∀ ls : List Bytes, (∀ l ∈ ls, BlockLine l) → (∀ l, ls.getLast? = some l → l ≠ []) → (unlines ls).getLast? ≠ some 10
  | [], _, _ => by simp [unlines]
  | [l], hl, h => by
    intro h10
    rw [unlines] at h10
    have := (hl l (by simp)).1 10 (List.mem_of_getLast? h10)
    revert this; decide
  | l :: l' :: ls, hl, h => by
    have ih := unlines_last (l' :: ls) (fun x hx => hl x (by simp [hx])) (fun x hx => h x (by simpa using hx))
    have hne : unlines (l' :: ls) ≠ [] := by
      cases ls with
      | nil => exact h l' (by simp)
      | cons a b => simp [unlines]
    rw [unlines]
    intro h10
    apply ih
    rw [← h10]
    cases hu : unlines (l' :: ls) with
    | nil => exact absurd hu hne
    | cons x y => simp [List.getLast?_cons]

theorem trimNL_replicate (s : Bytes) (h : s.getLast? ≠ some 10) (k : Nat) : trimNL (s ++ List.replicate k 10) = s := by
  unfold trimNL
  rw [List.reverse_append, List.reverse_replicate]
  have h1 : ∀ k, (List.replicate k (10 : UInt8) ++ s.reverse).dropWhile (· == 10) = s.reverse := by
    intro k
    induction k with
    | zero =>
      rw [List.replicate_zero, List.nil_append]
      cases hs : s.reverse with
      | nil => rfl
      | cons c t =>
        have : s.getLast? = some c := by rw [← List.head?_reverse, hs]; rfl
        have hc : c ≠ 10 := by rintro rfl; exact h this
        simp [hc]
    | succ k ih => simp [List.replicate_succ, ih]
  rw [h1, List.reverse_reverse]

theorem blockOf_lines {ls : List Bytes} {b : Bytes} (h : BlockOf ls b) : ∀ l ∈ ls, BlockLine l := by
  induction h with
  | nil => simp
  | line _ _ hl _ _ ih =>
    intro l hm
    rcases List.mem_cons.1 hm with rfl | hm
    · exact hl
    · exact ih l hm

theorem trim_lines {ls : List Bytes} (hl : ∀ l ∈ ls, BlockLine l) (h : ∀ l, ls.getLast? = some l → l ≠ []) (k : Nat) :
    trimNL ((ls ++ List.replicate k []).flatMap (· ++ [10])) = unlines ls := by
  have hrep : (List.replicate k ([] : Bytes)).flatMap (· ++ [10]) = List.replicate k 10 := by
    induction k with
    | zero => rfl
    | succ k ih => rw [List.replicate_succ, List.flatMap_cons, ih]; rfl
  rw [List.flatMap_append, hrep]
  by_cases hn : ls = []
  · subst hn
    simpa [unlines] using trimNL_replicate [] (by simp) k
  · rw [flatMap_lines ls hn, List.append_assoc, show [10] ++ List.replicate k (10 : UInt8) = List.replicate (k + 1) 10 from rfl]
    exact trimNL_replicate _ (unlines_last ls hl h) _

/-- A line that ends with a block. -/
theorem run_lineHere_block {E : Ext} {types : Bool} {vs : List Val} {t : Bytes} (h : PrefixOf E types 0 vs t)
    {eol b rest : Bytes} {ls : List Bytes} {k : Nat} (heol : Eol eol) (hlast : ∀ l, ls.getLast? = some l → l ≠ [])
    (hb : BlockOf (ls ++ List.replicate k []) b) (hr : ∀ c, rest.head? = some c → isSpaceChar c = false) (hr2 : ∀ c, rest.head? = some c → c ≠ 10 ∧ c ≠ 13)
    {L : Nat} (rs : List Nat) (pre : Bytes) (e : Ev) (he : e.Ok) (hL : (t ++ (92 :: (eol ++ (b ++ rest)))).length < L) :
    ∃ pre' e', (lineHere E L types 0).run curM ⟨pre, t ++ (92 :: (eol ++ (b ++ rest))), 0, rs⟩ e =
        .ok (true, ⟨pre', rest, 0, rs⟩, e') ∧ e'.Ok ∧ e'.items = e.items ++ lineItems e.current (vs ++ [.str (unlines ls)]) ∧ e'.current = e.current := by
  have h92 : ∃ x t', 92 :: (eol ++ (b ++ rest)) = x :: t' ∧ (32 : UInt8) < x ∧ x ≠ 44 := ⟨92, _, rfl, by decide, by decide⟩
  obtain ⟨e', F', h1, h2, h3, h4⟩ := run_prefix h h92 (L := L) rs pre e L he hL hL
  have hblk : (block L 0).run curM ⟨t.reverse ++ pre, 92 :: (eol ++ (b ++ rest)), 0, rs⟩ e' =
      .ok (some (unlines ls), ⟨b.reverse ++ (eol.reverse ++ 92 :: (t.reverse ++ pre)), rest, 0, rs⟩, e') := by
    have hloop := run_blockLoop hb rest hr (L := L) rs e' (eol.reverse ++ 92 :: (t.reverse ++ pre)) L (by simp at hL ⊢; omega) (by simp at hL ⊢; omega)
    have htrim := trim_lines (fun l hl => blockOf_lines hb l (by simp [hl])) hlast k
    rcases heol with rfl | rfl
    · simp only [List.reverse_cons, List.reverse_nil, List.nil_append, List.cons_append] at hloop
      simp only [List.nil_append, List.cons_append, List.reverse_cons, List.reverse_nil, block, Prog.run_bind, run_byte0_cons, bne_self_eq_false,
        Bool.false_eq_true, ↓reduceIte, Bool.false_and, show ((10 : UInt8) == 13) = false by decide, Prog.run_pure, hloop, htrim]
    · simp only [List.reverse_cons, List.reverse_nil, List.nil_append, List.cons_append] at hloop
      simp only [List.nil_append, List.cons_append, List.reverse_cons, List.reverse_nil, block, Prog.run_bind, run_byte0_cons, bne_self_eq_false,
        Bool.false_eq_true, ↓reduceIte, Bool.and_false, beq_self_eq_true, Prog.run_pure, hloop, htrim]
  have hbrk : ∀ p ev, (brk).run curM ⟨p, rest, 0, rs⟩ ev = .ok (false, ⟨p, rest, 0, rs⟩, ev) := by
    intro p ev
    cases rest with
    | nil => exact run_brk_nil _ _ _ _
    | cons c r => exact run_brk_false _ _ _ _ _ (hr2 c rfl).1 (hr2 c rfl).2
  refine ⟨b.reverse ++ (eol.reverse ++ 92 :: (t.reverse ++ pre)), (e'.add (.str (unlines ls))).setLevel e.current, ?_, (h2.add _).setLevel _, ?_, rfl⟩
  · have hcom : (comment L).run curM ⟨t.reverse ++ pre, 92 :: (eol ++ (b ++ rest)), 0, rs⟩ e' =
        .ok (false, ⟨t.reverse ++ pre, 92 :: (eol ++ (b ++ rest)), 0, rs⟩, e') := run_comment_false _ _ 92 rs e' L (fun h => absurd h (by decide))
    have hbody : (lineBody E L types 0 L).run curM ⟨pre, t ++ (92 :: (eol ++ (b ++ rest))), 0, rs⟩ e =
        .ok (true, ⟨b.reverse ++ (eol.reverse ++ 92 :: (t.reverse ++ pre)), rest, 0, rs⟩, e'.add (.str (unlines ls))) := by
      rw [h1]
      simp only [lineBody, Prog.run_bind, run_endp_false _ _ 92 rs e' (by decide), Bool.false_eq_true, ↓reduceIte,
        run_brk_false _ _ 92 rs e' (by decide) (by decide), hcom, hblk, run_evAdd, hbrk, Prog.run_pure]
    obtain ⟨x, t', hx, hx1, hx2⟩ := prefixOf_head h _ h92
    rw [hx] at hbody ⊢
    have hend : isEndChar x = false := not_end_of_lt (.inl (UInt8.le_of_lt hx1))
    simp only [lineHere, Prog.run_bind, run_evLevel, run_endp_false _ _ x rs e hend, Bool.false_eq_true, ↓reduceIte,
      run_peekByte_cons, beq_iff_eq, hx2, hbody, run_evSetLevel, Prog.run_pure]
  · show (e'.add _).items = _
    simp [Ev.add, h3, h4, lineItems_append, lineItems]

/-- What `line` does with a line of the expected indentation. -/
theorem run_line_here {E : Ext} {types : Bool} {n F L : Nat} {s t pre : Bytes} {rs : List Nat} {e : Ev}
    (hs : Blank s) (hn : s.length = n) (ht : ∀ c, t.head? = some c → isSpaceChar c = false) (hL : (s ++ t).length < L) :
    (line E L types (F + 1) n).run curM ⟨pre, s ++ t, 0, rs⟩ e =
      (lineHere E L types n).run curM ⟨s.reverse ++ pre, t, 0, rs⟩ e := by
  obtain ⟨k, hsp⟩ := run_space_app hs ht pre rs e hL
  simp only [line, Prog.run_bind, hsp, hn, Nat.lt_irrefl, ↓reduceIte]

/-- `line` stops at a line that is indented less. -/
theorem run_line_less {E : Ext} {types : Bool} {n F L : Nat} {t pre : Bytes} {rs : List Nat} {e : Ev} {o : Nat}
    (ho : o = 0 ∨ t = []) (hn : indent t < n) (hL : t.length < L) :
    (line E L types (F + 1) n).run curM ⟨pre, t, o, rs⟩ e = .ok (false, ⟨pre, t, 0, rs⟩, e) := by
  simp only [line, Prog.run_bind, run_space L t pre o rs e ho hL]
  simp only [show (t.takeWhile isSpaceChar).length < n from hn, ↓reduceIte, Prog.run_bind, run_unspace, Prog.run_pure]

/-- `line` descends at a line that is indented more. -/
theorem run_line_more {E : Ext} {types : Bool} {n F L : Nat} {t pre : Bytes} {rs : List Nat} {e : Ev}
    (hn : n < indent t) (hL : t.length < L) :
    (line E L types (F + 1) n).run curM ⟨pre, t, 0, rs⟩ e =
      (do tree E L types F (indent t); evDec; pure true : Prog Bool).run curM ⟨pre, t, 0, rs⟩ e.inc := by
  simp only [line, Prog.run_bind, run_space L t pre 0 rs e (.inl rfl) hL]
  have h1 : ¬ (t.takeWhile isSpaceChar).length < n := by simp only [indent] at hn; omega
  have h2 : n < (t.takeWhile isSpaceChar).length := hn
  simp only [h1, h2, ↓reduceIte, Prog.run_bind, run_unspace, run_evInc, indent]

/-- `tree` gives this result with some amount of fuel. -/
def TreeRuns (E : Ext) (L : Nat) (types : Bool) (n : Nat) (s : Cur) (e : Ev) (s' : Cur) (e' : Ev) : Prop :=
  ∃ F, (tree E L types F n).run curM s e = .ok ((), s', e')

/-- Text that may follow the lines of a tree at indentation `n`. -/
def Follows (n : Nat) (rest : Bytes) : Prop :=
  indent rest ≤ n ∧ ∀ c, rest.head? = some c → isEndChar c = false

theorem indent_app {s t : Bytes} (hs : Blank s) (ht : ∀ c, t.head? = some c → isSpaceChar c = false) :
    indent (s ++ t) = s.length := by
  simp only [indent, (takeWhile_app (blank_space hs) ht).1]

theorem writes_head {E : Ext} {types : Bool} {n : Nat} {gs : List Graph} {t : Bytes} {o : Bool}
    (h : Writes E types n gs t o) (rest : Bytes) :
    t = [] ∨ (indent (t ++ rest) = n ∧ ∀ c, (t ++ rest).head? = some c → isEndChar c = false) := by
  have key : ∀ (s : Bytes) (c : UInt8) (t' : Bytes), Blank s → s.length = n → isSpaceChar c = false → isEndChar c = false →
      indent (s ++ c :: t') = n ∧ ∀ d, (s ++ c :: t').head? = some d → isEndChar d = false := by
    intro s c t' hs hn hc he
    refine ⟨by rw [indent_app hs (by simpa using hc), hn], ?_⟩
    intro d hd
    cases s with
    | nil => simp at hd; rw [← hd]; exact he
    | cons x s =>
      simp at hd
      subst hd
      rcases hs x (by simp) with rfl | rfl <;> decide
  cases h with
  | nil => exact .inl rfl
  | node hs hn hl heol =>
    obtain ⟨c, t', rfl, hc, _⟩ := lineOf_head hl
    right
    simp only [List.append_assoc, List.cons_append]
    exact key _ _ _ hs hn (not_space_of_lt hc) (not_end_of_lt (.inl (UInt8.le_of_lt hc)))
  | «open» hs hn hl =>
    obtain ⟨c, t', rfl, hc, _⟩ := lineOf_head hl
    right
    simp only [List.append_assoc, List.cons_append]
    exact key _ _ _ hs hn (not_space_of_lt hc) (not_end_of_lt (.inl (UInt8.le_of_lt hc)))
  | blank hs hn heol =>
    right
    rcases heol with rfl | rfl
    · simp only [List.append_assoc, List.cons_append]
      exact key _ _ _ hs hn (by decide) (by decide)
    · simp only [List.append_assoc, List.cons_append]
      exact key _ _ _ hs hn (by decide) (by decide)
  | comment hs hn =>
    right
    simp only [List.append_assoc, List.cons_append]
    exact key _ _ _ hs hn (by decide) (by decide)
  | noted hs hn hp h4 h5 h6 h7 h8 h9 =>
    rename_i m s t c t1 t2 b v vs cs gs o1 o2
    obtain ⟨x, t', hx, hc, _⟩ := prefixOf_head hp (35 :: b :: c ++ [10]) ⟨35, _, rfl, by decide, by decide⟩
    right
    rw [show s ++ (t ++ 35 :: b :: c ++ [10]) ++ t1 ++ t2 ++ rest = s ++ ((t ++ (35 :: b :: c ++ [10])) ++ (t1 ++ t2 ++ rest)) by simp, hx]
    exact key _ _ _ hs hn (not_space_of_lt hc) (not_end_of_lt (.inl (UInt8.le_of_lt hc)))
  | block hp h2 h3 h4 h5 h6 =>
    rename_i k t eol t1 t2 vs ls gs o
    obtain ⟨x, t', hx, hc, _⟩ := prefixOf_head hp (92 :: (eol ++ t1 ++ t2 ++ rest)) ⟨92, _, rfl, by decide, by decide⟩
    right
    rw [show t ++ 92 :: eol ++ t1 ++ t2 ++ rest = t ++ (92 :: (eol ++ t1 ++ t2 ++ rest)) by simp, hx]
    exact key [] _ _ (by simp [Blank]) rfl (not_space_of_lt hc) (not_end_of_lt (.inl (UInt8.le_of_lt hc)))

theorem writes_nil {E : Ext} {types : Bool} {n : Nat} {gs : List Graph} {o : Bool}
    (h : Writes E types n gs [] o) : gs = [] := by
  have hl : ∀ {vs t}, LineOf E types n vs t → t ≠ [] := by
    intro vs t h
    obtain ⟨c, t', rfl, _⟩ := lineOf_head h
    simp
  generalize ht : ([] : Bytes) = t at h
  cases h with
  | nil => rfl
  | node _ _ h =>
    simp only [List.nil_eq, List.append_eq_nil_iff] at ht
    exact (hl h ht.1.1.1.2).elim
  | «open» _ _ h =>
    simp only [List.nil_eq, List.append_eq_nil_iff] at ht
    exact (hl h ht.2).elim
  | blank _ _ h =>
    simp only [List.nil_eq, List.append_eq_nil_iff] at ht
    rcases h with rfl | rfl <;> simp at ht
  | comment => simp at ht
  | noted => simp at ht
  | block => simp at ht

theorem tree_mono {E : Ext} {L : Nat} {types : Bool} {n F G : Nat} {s s' : Cur} {e e' : Ev} {a : Unit}
    (h : (tree E L types F n).run curM s e = .ok (a, s', e')) (hFG : F ≤ G) :
    (tree E L types G n).run curM s e = .ok (a, s', e') := by
  rw [((tree_line_le E (Nat.le_refl L) types F n hFG).1).run s e (by rw [h]; simp), h]

theorem line_mono {E : Ext} {L : Nat} {types : Bool} {n F G : Nat} {s s' : Cur} {e e' : Ev} {a : Bool}
    (h : (line E L types F n).run curM s e = .ok (a, s', e')) (hFG : F ≤ G) :
    (line E L types G n).run curM s e = .ok (a, s', e') := by
  rw [((tree_line_le E (Nat.le_refl L) types F n hFG).2).run s e (by rw [h]; simp), h]

theorem TreeRuns.det {E : Ext} {L : Nat} {types : Bool} {n : Nat} {s s1 s2 : Cur} {e e1 e2 : Ev}
    (h1 : TreeRuns E L types n s e s1 e1) (h2 : TreeRuns E L types n s e s2 e2) : s1 = s2 ∧ e1 = e2 := by
  obtain ⟨F1, h1⟩ := h1
  obtain ⟨F2, h2⟩ := h2
  have h1 := tree_mono h1 (Nat.le_max_left F1 F2)
  have h2 := tree_mono h2 (Nat.le_max_right F1 F2)
  rw [h1] at h2
  simpa using h2

/-- A line followed by the rest of the tree. -/
theorem TreeRuns.step {E : Ext} {L : Nat} {types : Bool} {n F : Nat} {s s1 s' : Cur} {e e1 e' : Ev}
    (hl : (line E L types F n).run curM s e = .ok (true, s1, e1)) (h : TreeRuns E L types n s1 e1 s' e') :
    TreeRuns E L types n s e s' e' := by
  obtain ⟨F2, h⟩ := h
  refine ⟨max F F2 + 1, ?_⟩
  simp only [tree, Prog.run_bind, line_mono hl (Nat.le_max_left F F2), ↓reduceIte, tree_mono h (Nat.le_max_right F F2)]

/-- The tree ends: the next line is indented less, or there is none. -/
theorem TreeRuns.done {E : Ext} {L : Nat} {types : Bool} {n F : Nat} {s s1 : Cur} {e e1 : Ev}
    (hl : (line E L types F n).run curM s e = .ok (false, s1, e1))
    {b : Bool} {s' : Cur} (he : (endp).run curM s1 e1 = .ok (b, s', e1)) :
    TreeRuns E L types n s e s' e1 := by
  refine ⟨F + 1, ?_⟩
  simp only [tree, Prog.run_bind, hl, Bool.false_eq_true, ↓reduceIte, he, Prog.run_pure]

theorem TreeRuns.eof {E : Ext} {L : Nat} {types : Bool} {n o : Nat} {pre : Bytes} {rs : List Nat} {e : Ev} (hL : 0 < L) :
    TreeRuns E L types n ⟨pre, [], o, rs⟩ e ⟨pre, [], 1, rs⟩ e := by
  by_cases hn : n = 0
  · subst hn
    refine TreeRuns.done (F := 1) (s1 := ⟨pre, [], 1, rs⟩) ?_ (run_endp_nil pre rs e 1)
    have := run_space L [] pre o rs e (.inr rfl) hL
    simp only [line, Prog.run_bind, this]
    simp [lineHere, Prog.run_bind, run_endp_nil, Prog.run_pure]
  · exact TreeRuns.done (F := 1) (run_line_less (.inr rfl) (by simp [indent]; omega) hL) (run_endp_nil pre rs e 0)

theorem preorderL_chain : ∀ (vs : List Val) (l : Nat), preorderL l (chain vs) = lineItems l vs
  | [], l => by simp [chain, preorderL, lineItems]
  | v :: vs, l => by simp [chain, preorderL, preorder, lineItems, preorderL_chain vs]

theorem noNilL_chain : ∀ vs : List Val, NoNilL (chain vs)
  | [] => trivial
  | _ :: vs => ⟨noNilL_chain vs, trivial⟩

theorem writes_noNil {E : Ext} {types : Bool} {n : Nat} {gs : List Graph} {t : Bytes} {o : Bool}
    (h : Writes E types n gs t o) : NoNilL gs := by
  induction h with
  | nil => trivial
  | node _ _ _ _ _ _ _ _ ih1 ih2 => exact ⟨noNilL_append _ _ (noNilL_chain _) ih1, ih2⟩
  | «open» => exact ⟨noNilL_chain _, trivial⟩
  | blank _ _ _ _ ih => exact ih
  | comment _ _ _ _ _ ih => exact ih
  | noted _ _ _ _ _ _ _ _ _ ih1 ih2 => exact ⟨noNilL_append _ _ (noNilL_chain _) ih1, ih2⟩
  | block _ _ _ _ _ _ ih => exact noNilL_append _ _ (noNilL_chain _) ih

/-- The parser reads `t`, which writes `gs`. -/
def WritesRuns (E : Ext) (L : Nat) (types : Bool) (n : Nat) (gs : List Graph) (t : Bytes) (o : Bool) : Prop :=
  ∀ (rest pre : Bytes) (ov : Nat) (rs : List Nat) (e : Ev),
    Follows n rest → (o = true → rest = []) → e.Ok → (ov = 0 ∨ t ++ rest = []) → (t ++ rest).length < L →
    ∃ pre1 ov1 e1, (ov1 = 0 ∨ rest = []) ∧ e1.Ok ∧ e1.items = e.items ++ preorderL e.current gs ∧
      (rest ≠ [] → e1.current = e.current) ∧
      ∀ s' e', TreeRuns E L types n ⟨pre1, rest, ov1, rs⟩ e1 s' e' →
        TreeRuns E L types n ⟨pre, t ++ rest, ov, rs⟩ e s' e'

/-- A line and the lines indented below it. -/
theorem writesRuns_node {E : Ext} {L : Nat} {types : Bool} {n m : Nat} {s u t1 t2 : Bytes} {v : Val} {vs : List Val} {cs gs : List Graph} {o1 o2 : Bool}
    (hs : Blank s) (hn : s.length = n) (hhead : ∃ c t', u = c :: t' ∧ 32 < c)
    (hline : ∀ (rest : Bytes) (rs : List Nat) (pre : Bytes) (e : Ev), e.Ok → (u ++ rest).length < L →
      ∃ pre0 e0, (lineHere E L types n).run curM ⟨pre, u ++ rest, 0, rs⟩ e = .ok (true, ⟨pre0, rest, 0, rs⟩, e0) ∧ e0.Ok ∧
        e0.items = e.items ++ lineItems e.current (v :: vs) ∧ e0.current = e.current)
    (hm : n < m) (hw1 : Writes E types m cs t1 o1) (hw2 : Writes E types n gs t2 o2) (hot : o1 = true → t2 = [])
    (ih1 : WritesRuns E L types m cs t1 o1) (ih2 : WritesRuns E L types n gs t2 o2) :
    WritesRuns E L types n (.node v (chain vs ++ cs) :: gs) (s ++ u ++ t1 ++ t2) (o1 || o2) := by
  intro rest pre ov rs e hf ho he hov hL
  obtain ⟨c, t', hct, hc⟩ := hhead
  have hov : ov = 0 := by
    rcases hov with h | h
    · exact h
    · simp [hct] at h
  subst hov
  have hlen : s.length + u.length + t1.length + t2.length + rest.length < L := by
    simp at hL; omega
  -- the first line
  obtain ⟨pre0, e0, g1, g2, g3, g4⟩ := hline (t1 ++ t2 ++ rest) rs (s.reverse ++ pre) e he
    (by simp; omega)
  have hfirst : (line E L types 1 n).run curM ⟨pre, s ++ u ++ t1 ++ t2 ++ rest, 0, rs⟩ e =
      .ok (true, ⟨pre0, t1 ++ t2 ++ rest, 0, rs⟩, e0) := by
    rw [show s ++ u ++ t1 ++ t2 ++ rest = s ++ (u ++ (t1 ++ t2 ++ rest)) by simp,
      run_line_here hs hn (by simpa [hct] using not_space_of_lt hc) (by simp; omega)]
    exact g1
  -- what follows the subnodes
  have hfol : Follows n (t2 ++ rest) := by
    rcases writes_head hw2 rest with rfl | ⟨k1, k2⟩
    · simpa using hf
    · exact ⟨by omega, k2⟩
  -- the subnodes
  have hsub : ∃ pre2 ov2 e2, (ov2 = 0 ∨ t2 ++ rest = []) ∧ e2.Ok ∧
      e2.items = e0.items ++ preorderL (e.current + 1) cs ∧ (t2 ++ rest ≠ [] → e2.current = e.current) ∧
      ∀ s' e', TreeRuns E L types n ⟨pre2, t2 ++ rest, ov2, rs⟩ e2 s' e' →
        TreeRuns E L types n ⟨pre0, t1 ++ t2 ++ rest, 0, rs⟩ e0 s' e' := by
    rcases writes_head hw1 (t2 ++ rest) with rfl | ⟨k1, k2⟩
    · have := writes_nil hw1
      subst this
      exact ⟨pre0, 0, e0, .inl rfl, g2, by simp [preorderL], fun _ => g4, fun _ _ h => by simpa using h⟩
    · obtain ⟨pre1, ov1, e1, h1, h2, h3, h4, h5⟩ := ih1 (t2 ++ rest) pre0 0 rs e0.inc ⟨by have := hfol.1; omega, hfol.2⟩
        (fun h => by
          have h2 := hot h
          have h3 := ho (by simp [h])
          simp [h2, h3]) g2.inc (.inl rfl) (by simp; omega)
      -- the nested tree stops before `t2 ++ rest`
      have hstop : ∃ ov2, (ov2 = 0 ∨ t2 ++ rest = []) ∧
          TreeRuns E L types m ⟨pre1, t2 ++ rest, ov1, rs⟩ e1 ⟨pre1, t2 ++ rest, ov2, rs⟩ e1 := by
        have hless := run_line_less (E := E) (types := types) (F := 0) (pre := pre1) (rs := rs) (e := e1) h1
          (show indent (t2 ++ rest) < m by have := hfol.1; omega) (L := L) (by simp; omega)
        cases hr : t2 ++ rest with
        | nil =>
          rw [hr] at hless
          exact ⟨1, .inr rfl, TreeRuns.done hless (run_endp_nil _ _ _ _)⟩
        | cons x r =>
          rw [hr] at hless
          exact ⟨0, .inl rfl, TreeRuns.done hless (run_endp_false _ _ _ _ _ (hfol.2 x (by rw [hr]; rfl)))⟩
      obtain ⟨ov2, ho2, hstop⟩ := hstop
      obtain ⟨F, hrun⟩ := h5 _ _ hstop
      refine ⟨pre1, ov2, e1.dec, ho2, h2.dec, ?_, ?_, fun s' e' hr => TreeRuns.step (F := F + 1) ?_ hr⟩
      · show e1.items = _
        rw [h3]
        simp [Ev.inc, g4]
      · intro hne
        show e1.current - 1 = _
        rw [h4 hne]
        simp [Ev.inc, g4]
      · have hind : indent (t1 ++ (t2 ++ rest)) = m := k1
        rw [List.append_assoc, run_line_more (by rw [hind]; exact hm) (by simp; omega), hind]
        simp only [Prog.run_bind, hrun, run_evDec, Prog.run_pure]
  obtain ⟨pre2, ov2, e2, k1, k2, k3, k4, k5⟩ := hsub
  obtain ⟨pre3, ov3, e3, l1, l2, l3, l4, l5⟩ := ih2 rest pre2 ov2 rs e2 hf (fun h => ho (by simp [h])) k2 k1
    (by simp; omega)
  refine ⟨pre3, ov3, e3, l1, l2, ?_, ?_, fun s' e' hr => TreeRuns.step hfirst (k5 _ _ (l5 _ _ hr))⟩
  · have hgs : preorderL e2.current gs = preorderL e.current gs := by
      by_cases hne : t2 ++ rest = []
      · simp only [List.append_eq_nil_iff] at hne
        obtain ⟨rfl, _⟩ := hne
        have := writes_nil hw2
        subst this
        simp [preorderL]
      · rw [k4 hne]
    rw [l3, hgs, k3, g3]
    simp [preorderL, preorder, preorderL_append, preorderL_chain, lineItems]
  · intro hne
    rw [l4 hne]
    exact k4 (by simp [hne])

theorem writes_run {E : Ext} {L : Nat} {types : Bool} {n : Nat} {gs : List Graph} {t : Bytes} {o : Bool}
    (h : Writes E types n gs t o) : WritesRuns E L types n gs t o := by
  induction h with
  | nil =>
    intro rest pre ov rs e hf ho he hov hL
    exact ⟨pre, ov, e, by simpa using hov, he, by simp [preorderL], fun _ => rfl, fun _ _ h => h⟩
  | blank hs hn heol hw ih =>
    intro rest pre ov rs e hf ho he hov hL
    rename_i n s eol t gs o
    have hov : ov = 0 := by
      rcases hov with h | h
      · exact h
      · simp only [List.append_eq_nil_iff] at h
        rcases heol with rfl | rfl <;> simp at h
    subst hov
    obtain ⟨pre1, ov1, e1, h1, h2, h3, h4, h5⟩ := ih rest (eol.reverse ++ (s.reverse ++ pre)) 0 rs (e.setLevel e.current)
      hf ho (he.setLevel _) (.inl rfl) (by simp at hL ⊢; omega)
    refine ⟨pre1, ov1, e1, h1, h2, h3, h4, fun s' e' hr => TreeRuns.step (F := 1) ?_ (h5 s' e' hr)⟩
    rw [show s ++ eol ++ t ++ rest = s ++ (eol ++ (t ++ rest)) by simp,
      run_line_here hs hn (by rcases heol with rfl | rfl <;> simp [isSpaceChar]) (by simp at hL ⊢; omega)]
    exact run_lineHere_blank eol (t ++ rest) heol rs _ e (by omega)
  | comment hs hn hb hc hw ih =>
    intro rest pre ov rs e hf ho he hov hL
    rename_i n s c t b gs o
    have hov : ov = 0 := by
      rcases hov with h | h
      · exact h
      · simp at h
    subst hov
    obtain ⟨pre0, hcm⟩ := run_lineHere_comment (E := E) (types := types) (n := n) c (t ++ rest) b hb hc (L := L) rs
      (s.reverse ++ pre) e (by simp at hL ⊢; omega)
    obtain ⟨pre1, ov1, e1, h1, h2, h3, h4, h5⟩ := ih rest pre0 0 rs (e.setLevel e.current)
      hf ho (he.setLevel _) (.inl rfl) (by simp at hL ⊢; omega)
    refine ⟨pre1, ov1, e1, h1, h2, h3, h4, fun s' e' hr => TreeRuns.step (F := 1) ?_ (h5 s' e' hr)⟩
    rw [show s ++ 35 :: b :: c ++ 10 :: t ++ rest = s ++ (35 :: b :: c ++ 10 :: (t ++ rest)) by simp,
      run_line_here hs hn (by simp [isSpaceChar]) (by simp at hL ⊢; omega)]
    exact hcm
  | «open» hs hn hl =>
    intro rest pre ov rs e hf ho he hov hL
    rename_i n s t v vs
    have hrest := ho rfl
    subst hrest
    simp only [List.append_nil] at hL hov ⊢
    obtain ⟨c, t', hct, hc, _⟩ := lineOf_head hl
    have hov : ov = 0 := by
      rcases hov with h | h
      · exact h
      · simp [hct] at h
    subst hov
    obtain ⟨pre', e', h1, h2, h3⟩ := run_lineHere_open hl (L := L) rs (s.reverse ++ pre) e he (by simp at hL; omega)
    refine ⟨pre', 1, e', .inr trivial, h2, ?_, fun h => (h rfl).elim, fun s2 e2 hr => ?_⟩
    · rw [h3]; simp [preorderL, preorder, preorderL_chain, lineItems]
    · obtain ⟨rfl, rfl⟩ := hr.det (TreeRuns.eof (by omega))
      refine TreeRuns.done (F := 1) (s1 := ⟨pre', [], 1, rs⟩) ?_ (run_endp_nil pre' rs _ 1)
      rw [run_line_here hs hn (by simpa [hct] using not_space_of_lt hc) hL]
      exact h1
  | node hs hn hl heol hm hw1 hw2 hot ih1 ih2 =>
    rename_i n m s t eol t1 t2 v vs cs gs o1 o2
    rw [List.append_assoc s t eol]
    refine writesRuns_node hs hn ?_ (fun rest rs pre e he hL => run_lineHere hl eol rest heol rs pre e he hL) hm hw1 hw2 hot ih1 ih2
    obtain ⟨c, t', hct, hc, _⟩ := lineOf_head hl
    exact ⟨c, _, by rw [hct]; rfl, hc⟩
  | noted hs hn hp hb hc hm hw1 hw2 hot ih1 ih2 =>
    rename_i n m s t c t1 t2 b v vs cs gs o1 o2
    refine writesRuns_node hs hn ?_ (fun rest rs pre e he hL => ?_) hm hw1 hw2 hot ih1 ih2
    · obtain ⟨x, t', hx, hc, _⟩ := prefixOf_head hp (35 :: b :: c ++ [10]) ⟨35, _, rfl, by decide, by decide⟩
      exact ⟨x, t', by rw [← hx]; simp, hc⟩
    · rw [show t ++ 35 :: b :: c ++ [10] ++ rest = t ++ (35 :: b :: c ++ 10 :: rest) by simp] at hL ⊢
      exact run_lineHere_noted hp c rest b hb hc rs pre e he hL
  | block hp heol hlast hb hw ht2 ih =>
    intro rest pre ov rs e hf ho he hov hL
    rename_i k t eol t1 t2 vs ls gs o
    have hov : ov = 0 := by
      rcases hov with h | h
      · exact h
      · simp at h
    subst hov
    have hrest : t2 = [] → rest = [] := fun h => ho (by simp [h])
    have hsp : ∀ c, (t2 ++ rest).head? = some c → isSpaceChar c = false := by
      intro c hc
      rcases writes_head hw rest with rfl | ⟨k1, _⟩
      · simp [hrest rfl] at hc
      · cases hr : t2 ++ rest with
        | nil => rw [hr] at hc; simp at hc
        | cons x r =>
          rw [hr] at hc k1
          simp only [List.head?_cons, Option.some.injEq] at hc
          subst hc
          cases hx : isSpaceChar x with
          | false => rfl
          | true => simp [indent, hx] at k1
    have hnl : ∀ c, (t2 ++ rest).head? = some c → c ≠ 10 ∧ c ≠ 13 := by
      intro c hc
      cases t2 with
      | nil => simp [hrest rfl] at hc
      | cons x r => exact ht2 c (by simpa using hc)
    have hlen : t.length + eol.length + t1.length + t2.length + rest.length + 1 < L := by
      simp at hL; omega
    obtain ⟨pre0, e0, g1, g2, g3, g4⟩ := run_lineHere_block (types := types) hp heol hlast hb hsp hnl (L := L) rs pre e he (by simp; omega)
    obtain ⟨pre1, ov1, e1, h1, h2, h3, h4, h5⟩ := ih rest pre0 0 rs e0 hf (fun h => ho (by simp [h])) g2 (.inl rfl) (by simp; omega)
    refine ⟨pre1, ov1, e1, h1, h2, ?_, fun h => by rw [h4 h, g4], fun s' e' hr => TreeRuns.step (F := 1) ?_ (h5 s' e' hr)⟩
    · rw [h3, g3, g4]
      simp [preorderL_append, preorderL_chain]
    · have hh := run_line_here (E := E) (types := types) (F := 0) (n := 0) (L := L) (s := []) (t := t ++ (92 :: (eol ++ (t1 ++ (t2 ++ rest))))) (pre := pre) (rs := rs) (e := e)
        (by simp [Blank]) rfl (by
          obtain ⟨x, t', hx, hc, _⟩ := prefixOf_head hp (92 :: (eol ++ (t1 ++ (t2 ++ rest)))) ⟨92, _, rfl, by decide, by decide⟩
          rw [hx]
          simpa using not_space_of_lt hc) (by simp; omega)
      simp only [List.nil_append, List.reverse_nil] at hh
      rw [show t ++ 92 :: eol ++ t1 ++ t2 ++ rest = t ++ (92 :: (eol ++ (t1 ++ (t2 ++ rest)))) by simp, hh]
      exact g1

theorem takeWhile_eq_take (p : UInt8 → Bool) : ∀ s : Bytes, s.takeWhile p = s.take (s.takeWhile p).length
  | [] => rfl
  | c :: t => by
    by_cases h : p c
    · simp only [List.takeWhile_cons, h, ↓reduceIte, List.length_cons, List.take_succ_cons]
      rw [← takeWhile_eq_take p t]
    · simp [List.takeWhile_cons, h]

/-- The parser reads a text as the trees it writes. -/
theorem parseText_of_textOf {E : Ext} {types : Bool} {gs : List Graph} {t : Bytes} (h : TextOf E types gs t) :
    parseText E types t = .ok (.node (.str b!"_") gs) := by
  obtain ⟨n, o, hw, hu⟩ := h
  obtain ⟨a, s', e', hrun, _⟩ := ogdl_tot E types t (L := loopFuel t) (F := treeFuel t)
    (by simp [loopFuel]) (by simp [treeFuel]) {} Ev.ok_empty
  have hL : t.length < loopFuel t := by simp [loopFuel]
  suffices h : ∃ e1 : Ev, e1.Ok ∧ e1.items = preorderL 0 gs ∧ ∃ s1 F,
      (ogdl E (loopFuel t) types F).run curM (Cur.start t) {} = .ok ((), s1, e1) by
    obtain ⟨e1, h1, h2, s1, F, h3⟩ := h
    have hle := Nat.le_max_left (treeFuel t) F
    have hle2 := Nat.le_max_right (treeFuel t) F
    have r1 := (ogdl_le E (Nat.le_refl (loopFuel t)) types hle).run (Cur.start t) {} (by rw [hrun]; simp)
    have r2 := (ogdl_le E (Nat.le_refl (loopFuel t)) types hle2).run (Cur.start t) {} (by rw [h3]; simp)
    rw [r1, hrun, h3] at r2
    simp only [Res.ok.injEq, Prod.mk.injEq] at r2
    obtain ⟨-, -, rfl⟩ := r2
    simp only [parseText, hrun]
    exact tree_of_preorder _ gs (writes_noNil hw) h2 h1.2
  have hind : t = [] ∨ indent t = n := by
    have := writes_head hw []
    simp only [List.append_nil] at this
    exact this.imp id And.left
  have hkind : spaceKind (t.takeWhile isSpaceChar) ≠ 0 := by
    rcases hind with rfl | hind
    · decide
    · rw [takeWhile_eq_take]
      change spaceKind (t.take (indent t)) ≠ 0
      rw [hind]
      exact hu.elim spaceKind_spaces spaceKind_tabs
  have hopen : ∀ F, (ogdl E (loopFuel t) types F).run curM (Cur.start t) {} =
      (tree E (loopFuel t) types F (indent t)).run curM (Cur.start t) {} := by
    intro F
    simp only [ogdl, Prog.run_bind, Cur.start, run_space (loopFuel t) t [] 0 [] {} (.inl rfl) hL]
    simp only [beq_iff_eq, hkind, ↓reduceIte, Prog.run_bind, run_unspace]
    rfl
  simp only [hopen]
  rcases hind with rfl | hind
  · have := writes_nil hw
    subst this
    obtain ⟨F, hF⟩ := TreeRuns.eof (E := E) (types := types) (n := 0) (o := 0) (pre := []) (rs := []) (e := {}) hL
    exact ⟨{}, Ev.ok_empty, by simp [preorderL], _, F, hF⟩
  · obtain ⟨pre1, ov1, e1, h1, h2, h3, _, h5⟩ := writes_run hw (L := loopFuel t) [] [] 0 [] {}
      ⟨Nat.zero_le _, by simp⟩ (fun _ => rfl) Ev.ok_empty (.inl rfl) (by simpa using hL)
    obtain ⟨F, hF⟩ := h5 _ _ (TreeRuns.eof (by omega))
    rw [List.append_nil] at hF
    exact ⟨e1, h2, by simpa using h3, _, F, by rw [hind]; exact hF⟩

end Ogdl
