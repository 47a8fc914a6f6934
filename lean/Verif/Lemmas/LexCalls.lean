import Verif.Spec.LexCalls
import Verif.Lemmas.BufferTotal
import Verif.Lemmas.BufferAgree
import Verif.Lemmas.ParseTotal
import Verif.Lemmas.Typed

/-! What the methods of a lexer read. -/

namespace Ogdl
open Lex Spec.Lexing

namespace LexCalls

/-! ## Runs of bytes -/

theorem longest_while {P : UInt8 → Prop} {p : UInt8 → Bool} (hp : ∀ c, p c = true ↔ P c) {s w rest : Bytes}
    (h : Longest P s w rest) : s.takeWhile p = w ∧ s.dropWhile p = rest := by
  obtain ⟨rfl, h1, h2⟩ := h
  induction w with
  | nil =>
    cases rest with
    | nil => simp
    | cons c t =>
      have : p c = false := by
        cases hc : p c with
        | false => rfl
        | true => exact absurd ((hp c).1 hc) (h2 c rfl)
      simp [this]
  | cons c w ih =>
    have hc : p c = true := (hp c).2 (h1 c (by simp))
    have := ih fun d hd => h1 d (by simp [hd])
    simp [hc, this.1, this.2]

theorem while_longest {P : UInt8 → Prop} {p : UInt8 → Bool} (hp : ∀ c, p c = true ↔ P c) (s : Bytes) :
    Longest P s (s.takeWhile p) (s.dropWhile p) := by
  refine ⟨List.takeWhile_append_dropWhile.symm, fun c hc => (hp c).1 ?_, ?_⟩
  · exact List.all_eq_true.1 (List.all_takeWhile (p := p) (l := s)) c hc
  · intro c hc h
    have := List.head?_dropWhile_not p s
    rw [hc] at this
    simp [(hp c).2 h] at this

theorem text_iff (c : UInt8) : isTextChar c = true ↔ 32 < c := by simp [isTextChar]
theorem stop_iff (stop : Bytes) (c : UInt8) : (isTextChar c && !stop.contains c) = true ↔ (32 < c ∧ c ∉ stop) := by
  simp [isTextChar]
theorem blank_iff (c : UInt8) : isSpaceChar c = true ↔ Blank c := by simp [isSpaceChar, Blank]
theorem white_iff (c : UInt8) : (c == 13 || c == 10 || c == 9 || c == 32) = true ↔ (Blank c ∨ c = 10 ∨ c = 13) := by
  simp only [Blank, Bool.or_eq_true, beq_iff_eq]
  constructor <;> rintro h <;> grind
theorem digit_iff (c : UInt8) : isDigitByte c = true ↔ Digit c := by
  simp [isDigitByte, latinDigit, Digit, UInt8.le_iff_toNat_le]
theorem ends_iff (c : UInt8) : isEndChar c = true ↔ Ends c := by
  simp [isEndChar, Ends, and_assoc]
theorem operator_iff (c : UInt8) : isOperatorChar c = true ↔ c ∈ b!"+-*/%&|!<>=~^" := by
  have : b!"+-*/%&|!<>=~^" = [43, 45, 42, 47, 37, 38, 124, 33, 60, 62, 61, 126, 94] := by decide
  rw [this]
  simp [isOperatorChar, or_assoc]
theorem template_iff (c : UInt8) : isTemplateTextChar c = true ↔ (c ≠ 36 ∧ ¬ Ends c) := by
  rw [← ends_iff]
  simp [isTemplateTextChar, and_comm]

/-! ## On the cursor -/

/-- The program returns `a` and leaves `t` of `s`. -/
def Lands {α : Type} (x : Prog α) (s : Bytes) (a : α) (t : Bytes) : Prop :=
  ∀ cur : Cur, cur.Wf → cur.post = s → ∃ cur' : Cur, (∀ e, x.run curM cur e = .ok (a, cur', e)) ∧ cur'.Wf ∧ cur'.post = t

theorem Lands.pure {α : Type} (a : α) (s : Bytes) : Lands (Pure.pure a : Prog α) s a s :=
  fun cur hw h => ⟨cur, fun _ => rfl, hw, h⟩

theorem Lands.bind {α β : Type} {x : Prog α} {f : α → Prog β} {s t u : Bytes} {a : α} {b : β}
    (h : Lands x s a t) (hf : Lands (f a) t b u) : Lands (x >>= f) s b u := by
  intro cur hw hp
  obtain ⟨c1, h1, h2, h3⟩ := h cur hw hp
  obtain ⟨c2, g1, g2, g3⟩ := hf c1 h2 h3
  exact ⟨c2, fun e => by rw [Prog.run_bind, h1 e]; exact g1 e, g2, g3⟩

theorem Lands.map {α β : Type} {x : Prog α} {f : α → β} {s t : Bytes} {a : α}
    (h : Lands x s a t) : Lands (x >>= fun a => Pure.pure (f a)) s (f a) t := h.bind (Lands.pure _ _)

theorem lands_byte0 (c : UInt8) (t : Bytes) : Lands byte0 (c :: t) c t := by
  rintro ⟨pre, post, o, r⟩ hw rfl
  have ho : o = 0 := by simpa [Cur.Wf] using hw
  exact ⟨⟨c :: pre, t, o, r⟩, fun _ => rfl, .inl ho, rfl⟩

/-- Reading a byte that is not wanted and stepping back. -/
theorem lands_back {α : Type} {f : UInt8 → Prog α} (s : Bytes) (a : α)
    (h : f (s.head?.getD 0) = (do Lex.unread; Pure.pure a)) : Lands (byte0 >>= f) s a s := by
  rintro ⟨pre, post, o, r⟩ hw rfl
  cases post with
  | nil =>
    refine ⟨⟨pre, [], 0, r⟩, fun e => ?_, .inl rfl, rfl⟩
    simp only [List.head?_nil, Option.getD_none] at h
    simp [Prog.run_bind, h, Prog.run_pure]
  | cons c t =>
    have ho : o = 0 := by simpa [Cur.Wf] using hw
    subst ho
    refine ⟨⟨pre, c :: t, 0, r⟩, fun e => ?_, .inl rfl, rfl⟩
    simp only [List.head?_cons, Option.getD_some] at h
    simp [Prog.run_bind, h, Prog.run_pure]

theorem lands_while {P : UInt8 → Prop} {p : UInt8 → Bool} (hp : ∀ c, p c = true ↔ P c) (h0 : p 0 = false) {L : Nat}
    {s w rest : Bytes} (hL : s.length < L) (h : Longest P s w rest) : Lands (readWhile p L) s w rest := by
  rintro ⟨pre, post, o, r⟩ hw rfl
  obtain ⟨h1, h2⟩ := longest_while hp h
  refine ⟨_, fun e => run_readWhile p h0 post pre o r e L hw hL |>.trans (by rw [h1]), .inl rfl, h2⟩

theorem kind_eq (w : Bytes) : spaceKind w = kindOf w := by
  by_cases h1 : (9 : UInt8) ∈ w <;> by_cases h2 : (32 : UInt8) ∈ w <;> simp [spaceKind, kindOf, h1, h2]

theorem lands_peek (s : Bytes) : Lands Lex.peekByte s (s.head?.getD 0) s := by
  rintro ⟨pre, post, o, r⟩ hw rfl
  cases post with
  | nil => exact ⟨⟨pre, [], 1, r⟩, fun e => run_peekByte_nil pre o r e, .inr rfl, rfl⟩
  | cons c t =>
    have ho : o = 0 := by simpa [Cur.Wf] using hw
    subst ho
    exact ⟨⟨pre, c :: t, 0, r⟩, fun e => run_peekByte_cons c pre t r e, .inl rfl, rfl⟩

theorem lands_brk {E : Ext} {s t : Bytes} {b : Bool} (h : Scans E .brk s (.found b) t) : Lands Lex.brk s b t := by
  cases h with
  | break_nl => exact (lands_byte0 10 t).bind (Lands.pure _ _)
  | break_crnl => exact (lands_byte0 13 _).bind ((lands_byte0 10 t).bind (Lands.pure _ _))
  | break_cr h =>
    refine (lands_byte0 13 _).bind ?_
    refine lands_back t false ?_
    cases t with
    | nil => rfl
    | cons d t =>
      have hd : d ≠ 10 := by simpa using h
      simp [hd]
  | break_none h1 h2 =>
    refine lands_back s false ?_
    cases s with
    | nil => rfl
    | cons d t =>
      have hd : d ≠ 10 := by simpa using h1
      have hd' : d ≠ 13 := by simpa using h2
      simp only [List.head?_cons, Option.getD_some, beq_iff_eq, hd', ↓reduceIte]
      show (if d = 10 then _ else _) = _
      simp [hd]

theorem lands_endp {E : Ext} {s t : Bytes} {b : Bool} (h : Scans E .endp s (.found b) t) : Lands Lex.endp s b t := by
  rintro ⟨pre, post, o, r⟩ hw rfl
  cases h with
  | end_end => exact ⟨⟨pre, [], 1, r⟩, fun e => by simp [Lex.endp, Prog.run_bind, Prog.run_pure], .inr rfl, rfl⟩
  | @end_char c t hc =>
    have ho : o = 0 := by simpa [Cur.Wf] using hw
    exact ⟨⟨c :: pre, t, o, r⟩, fun e => by simp [Lex.endp, Prog.run_bind, Prog.run_pure, (ends_iff c).2 hc], .inl ho, rfl⟩
  | @end_none c t hc =>
    have ho : o = 0 := by simpa [Cur.Wf] using hw
    subst ho
    have : isEndChar c = false := by
      cases he : isEndChar c with
      | false => rfl
      | true => exact absurd ((ends_iff c).1 he) hc
    exact ⟨⟨pre, c :: t, 0, r⟩, fun e => by simp [Lex.endp, Prog.run_bind, Prog.run_pure, this], .inl rfl, rfl⟩

theorem not_digit {s : Bytes} (h : ∀ c, s.head? = some c → ¬ Digit c) : isDigitByte (s.head?.getD 0) = false := by
  cases s with
  | nil => rfl
  | cons c t =>
    cases hc : isDigitByte c with
    | false => simpa using hc
    | true => exact absurd ((digit_iff c).1 hc) (h c rfl)

/-- The digits after the point. -/
theorem lands_fraction : ∀ {L : Nat} {s w rest : Bytes}, s.length < L → Longest Digit s w rest → Lands (numberLoop L true) s w rest
  | 0, _, _, _, hL, _ => absurd hL (Nat.not_lt_zero _)
  | L + 1, s, [], rest, hL, ⟨he, _, h2⟩ => by
    have he : s = rest := he
    subst he
    refine lands_back s [] ?_
    simp [not_digit h2]
  | L + 1, s, c :: w, rest, hL, ⟨he, h1, h2⟩ => by
    subst he
    refine (lands_byte0 c _).bind ?_
    simp only [(digit_iff c).2 (h1 c (by simp)), ↓reduceIte]
    exact (lands_fraction (s := w ++ rest) (by simpa using hL) ⟨rfl, fun d hd => h1 d (by simp [hd]), h2⟩).map

theorem lands_decimal : ∀ {L : Nat} {s w rest : Bytes}, s.length < L → Decimal s w rest → Lands (numberLoop L false) s w rest := by
  intro L s w rest hL h
  cases h with
  | whole h hp =>
    obtain ⟨rfl, h1, h2⟩ := h
    induction w generalizing L with
    | nil =>
      cases L with
      | zero => exact absurd hL (Nat.not_lt_zero _)
      | succ L =>
        refine lands_back rest [] ?_
        have : rest.head?.getD 0 ≠ 46 := by
          cases rest with
          | nil => simp
          | cons d t => simpa using hp
        simp [not_digit h2, this]
    | cons c w ih =>
      cases L with
      | zero => exact absurd hL (Nat.not_lt_zero _)
      | succ L =>
        refine (lands_byte0 c _).bind ?_
        simp only [(digit_iff c).2 (h1 c (by simp)), ↓reduceIte]
        exact (ih (by simpa using hL) fun d hd => h1 d (by simp [hd])).map
  | @point w t v _ h hv =>
    obtain ⟨rfl, h1, h2⟩ := h
    induction w generalizing L with
    | nil =>
      cases L with
      | zero => exact absurd hL (Nat.not_lt_zero _)
      | succ L =>
        refine (lands_byte0 46 t).bind ?_
        have : isDigitByte 46 = false := by decide
        simp only [this, Bool.false_eq_true, ↓reduceIte]
        exact (lands_fraction (by simpa using hL) hv).map
    | cons c w ih =>
      cases L with
      | zero => exact absurd hL (Nat.not_lt_zero _)
      | succ L =>
        refine (lands_byte0 c _).bind ?_
        simp only [(digit_iff c).2 (h1 c (by simp)), ↓reduceIte]
        exact (ih (by simpa using hL) fun d hd => h1 d (by simp [hd])).map

theorem lands_number {L : Nat} {s sign t w rest : Bytes} (hL : s.length < L) (h : Signed s sign t) (hd : Decimal t w rest) :
    Lands (Lex.number L) s (if w = [] then none else if sign = [45] then some (45 :: w) else some w) rest := by
  unfold Lex.number
  refine (lands_peek s).bind ?_
  cases h with
  | plus =>
    refine (lands_byte0 43 t).bind ((lands_decimal (by simp at hL; omega) hd).bind ?_)
    cases w <;> exact Lands.pure _ _
  | minus =>
    refine (lands_byte0 45 t).bind ((lands_decimal (by simp at hL; omega) hd).bind ?_)
    cases w <;> exact Lands.pure _ _
  | none h1 h2 =>
    have g1 : s.head?.getD 0 ≠ 43 := by
      cases s with
      | nil => simp
      | cons d t => simpa using h1
    have g2 : s.head?.getD 0 ≠ 45 := by
      cases s with
      | nil => simp
      | cons d t => simpa using h2
    simp only [beq_iff_eq, g1, g2, Bool.or_eq_true, or_self, ↓reduceIte]
    refine (lands_decimal hL hd).bind ?_
    cases w <;> exact Lands.pure _ _

theorem lands_commentLoop {w : Bytes} (hw : ∀ x ∈ w, ¬ Ends x ∧ x ≠ 10 ∧ x ≠ 13) {c : UInt8} {rest : Bytes}
    (hc : Ends c ∨ c = 10 ∨ c = 13) : ∀ {L : Nat}, w.length < L → Lands (commentLoop L) (w ++ c :: rest) () rest := by
  induction w with
  | nil =>
    intro L hL
    cases L with
    | zero => exact absurd hL (Nat.not_lt_zero _)
    | succ L =>
      refine (lands_byte0 c rest).bind ?_
      have : (isEndChar c || isBreakChar c) = true := by
        simpa [isBreakChar, ends_iff] using hc
      simp only [this, ↓reduceIte]
      exact Lands.pure _ _
  | cons d w ih =>
    intro L hL
    cases L with
    | zero => exact absurd hL (Nat.not_lt_zero _)
    | succ L =>
      refine (lands_byte0 d _).bind ?_
      have : ¬ ((isEndChar d || isBreakChar d) = true) := by
        have := hw d (by simp)
        simpa [isBreakChar, ends_iff] using this
      simp only [this]
      exact ih (fun x hx => hw x (by simp [hx])) (by simpa using hL)

theorem lands_commentLoop_end {w : Bytes} (hw : ∀ x ∈ w, ¬ Ends x ∧ x ≠ 10 ∧ x ≠ 13) :
    ∀ {L : Nat}, w.length < L → Lands (commentLoop L) w () [] := by
  induction w with
  | nil =>
    intro L hL
    cases L with
    | zero => exact absurd hL (Nat.not_lt_zero _)
    | succ L =>
      rintro ⟨pre, post, o, r⟩ hw rfl
      exact ⟨⟨pre, [], 1, r⟩, fun e => rfl, .inr rfl, rfl⟩
  | cons d w ih =>
    intro L hL
    cases L with
    | zero => exact absurd hL (Nat.not_lt_zero _)
    | succ L =>
      refine (lands_byte0 d _).bind ?_
      have : ¬ ((isEndChar d || isBreakChar d) = true) := by
        have := hw d (by simp)
        simpa [isBreakChar, ends_iff] using this
      simp only [this]
      exact ih (fun x hx => hw x (by simp [hx])) (by simpa using hL)

theorem lands_comment {E : Ext} {L : Nat} {s t : Bytes} {b : Bool} (hL : s.length < L) (h : Scans E .comment s (.found b) t) :
    Lands (Lex.comment L) s b t := by
  cases h with
  | @comment b c w rest hb hw hc =>
    unfold Lex.comment
    refine (lands_byte0 35 _).bind ((lands_byte0 b _).bind ?_)
    simp only [(blank_iff b).2 hb, ↓reduceIte]
    exact (lands_commentLoop hw hc (by simp at hL; omega)).bind (Lands.pure _ _)
  | @comment_end b w hb hw =>
    unfold Lex.comment
    refine (lands_byte0 35 _).bind ((lands_byte0 b _).bind ?_)
    simp only [(blank_iff b).2 hb, ↓reduceIte]
    exact (lands_commentLoop_end hw (by simp at hL; omega)).bind (Lands.pure _ _)
  | comment_none h =>
    rintro ⟨pre, post, o, r⟩ hw rfl
    cases post with
    | nil => exact ⟨⟨pre, [], 0, r⟩, fun e => by simp [Lex.comment, Prog.run_bind, Prog.run_pure], .inl rfl, rfl⟩
    | cons c t =>
      have ho : o = 0 := by simpa [Cur.Wf] using hw
      subst ho
      refine ⟨⟨pre, c :: t, 0, r⟩, fun e => ?_, .inl rfl, rfl⟩
      by_cases hc : c = 35
      · subst hc
        cases t with
        | nil => simp [Lex.comment, Prog.run_bind, Prog.run_pure, isSpaceChar]
        | cons d t =>
          have : isSpaceChar d = false := by
            cases hd : isSpaceChar d with
            | false => rfl
            | true => exact absurd ⟨d, t, (blank_iff d).1 hd, rfl⟩ h
          simp [Lex.comment, Prog.run_bind, Prog.run_pure, this]
      · simp [Lex.comment, Prog.run_bind, Prog.run_pure, hc]

/-! ## SpaceMax -/

theorem counts_length {w : Bytes} (h : ∀ c ∈ w, Blank c) : w.count 32 + w.count 9 = w.length := by
  induction w with
  | nil => rfl
  | cons c w ih =>
    have := ih fun d hd => h d (by simp [hd])
    rcases h c (by simp) with rfl | rfl
    · rw [List.count_cons_self, List.count_cons_of_ne (by decide)]; simp; omega
    · rw [List.count_cons_self, List.count_cons_of_ne (by decide)]; simp; omega

theorem fin_eq {w : Bytes} (h : ∀ c ∈ w, Blank c) : spaceMaxLoop.fin (w.count 32) (w.count 9) = (w.length, kindOf w) := by
  rw [← counts_length h]
  by_cases h1 : (9 : UInt8) ∈ w <;> by_cases h2 : (32 : UInt8) ∈ w <;>
    simp [spaceMaxLoop.fin, kindOf, h1, h2, List.count_eq_zero]

theorem blank_step {c : UInt8} (hc : Blank c) (w : Bytes) (n m : Nat) :
    (if (c == 32) = true then n + 1 else n) + w.count 32 = n + (c :: w).count 32 ∧
    (if (c == 32) = true then m else m + 1) + w.count 9 = m + (c :: w).count 9 := by
  rcases hc with rfl | rfl
  · rw [List.count_cons_self, List.count_cons_of_ne (by decide)]; simp; omega
  · rw [List.count_cons_self, List.count_cons_of_ne (by decide)]; simp; omega

/-- The loop reads blanks to the first place where there are enough. -/
theorem lands_spaceMaxLoop {max : Nat} {rest : Bytes} : ∀ {w : Bytes} {n m L : Nat}, w.length < L → w ≠ [] → (∀ c ∈ w, Blank c) →
    (n + w.count 32 = max ∨ m + w.count 9 = max) →
    (∀ p, p <+: w → p ≠ [] → p ≠ w → n + p.count 32 ≠ max ∧ m + p.count 9 ≠ max) →
    Lands (spaceMaxLoop max L n m) (w ++ rest) (spaceMaxLoop.fin (n + w.count 32) (m + w.count 9)) rest
  | [], _, _, _, _, h, _, _, _ => absurd rfl h
  | c :: w, n, m, 0, hL, _, _, _, _ => absurd hL (Nat.not_lt_zero _)
  | c :: w, n, m, L + 1, hL, _, hb, he, hp => by
    refine (lands_byte0 c _).bind ?_
    have hc := hb c (by simp)
    have hn : (c != 9 && c != 32) = false := by rcases hc with rfl | rfl <;> rfl
    obtain ⟨e1, e2⟩ := blank_step hc w n m
    have e0 := blank_step hc [] n m
    simp only [List.count_nil, Nat.add_zero] at e0
    simp only [hn, Bool.false_eq_true, ↓reduceIte]
    rw [← e1, ← e2] at he ⊢
    by_cases hw : w = []
    · subst hw
      simp only [List.count_nil, Nat.add_zero] at he ⊢
      have : ((if (c == 32) = true then n + 1 else n) == max || (if (c == 32) = true then m else m + 1) == max) = true := by
        simpa using he
      simp only [this, ↓reduceIte]
      exact Lands.pure _ _
    · have h1 := hp [c] ⟨w, rfl⟩ (by simp) (by simpa using hw)
      rw [← e0.1, ← e0.2] at h1
      have : ¬ (((if (c == 32) = true then n + 1 else n) == max || (if (c == 32) = true then m else m + 1) == max) = true) := by
        simpa using h1
      simp only [this, ↓reduceIte]
      refine lands_spaceMaxLoop (by simpa using hL) hw (fun d hd => hb d (by simp [hd])) he ?_
      intro p hpw h0 h3
      have := hp (c :: p) (by simpa using hpw) (by simp) (by simpa using h3)
      have g := blank_step hc p n m
      rw [← g.1, ← g.2] at this
      exact this

/-- The loop reads all blanks. -/
theorem lands_spaceMaxLoop_all {max : Nat} {rest : Bytes} (hr : ∀ c, rest.head? = some c → ¬ Blank c) :
    ∀ {w : Bytes} {n m L : Nat}, w.length < L → (∀ c ∈ w, Blank c) →
    (∀ p, p <+: w → p ≠ [] → n + p.count 32 ≠ max ∧ m + p.count 9 ≠ max) →
    Lands (spaceMaxLoop max L n m) (w ++ rest) (spaceMaxLoop.fin (n + w.count 32) (m + w.count 9)) rest
  | _, n, m, 0, hL, _, _ => absurd hL (Nat.not_lt_zero _)
  | [], n, m, L + 1, hL, _, _ => by
    refine lands_back rest _ ?_
    have : (rest.head?.getD 0 != 9 && rest.head?.getD 0 != 32) = true := by
      cases rest with
      | nil => rfl
      | cons c t =>
        have := hr c rfl
        simp only [Blank, not_or] at this
        simp [this.1, this.2]
    simp only [this, ↓reduceIte]
    rfl
  | c :: w, n, m, L + 1, hL, hb, hp => by
    refine (lands_byte0 c _).bind ?_
    have hc := hb c (by simp)
    have hn : (c != 9 && c != 32) = false := by rcases hc with rfl | rfl <;> rfl
    obtain ⟨e1, e2⟩ := blank_step hc w n m
    have e0 := blank_step hc [] n m
    simp only [List.count_nil, Nat.add_zero] at e0
    simp only [hn, Bool.false_eq_true, ↓reduceIte]
    rw [← e1, ← e2]
    have h1 := hp [c] ⟨w, rfl⟩ (by simp)
    rw [← e0.1, ← e0.2] at h1
    have : ¬ (((if (c == 32) = true then n + 1 else n) == max || (if (c == 32) = true then m else m + 1) == max) = true) := by
      simpa using h1
    simp only [this, ↓reduceIte]
    refine lands_spaceMaxLoop_all hr (by simpa using hL) (fun d hd => hb d (by simp [hd])) ?_
    intro p hpw h0
    have := hp (c :: p) (by simpa using hpw) (by simp)
    have g := blank_step hc p n m
    rw [← g.1, ← g.2] at this
    exact this

theorem lands_spaceMax {L max : Nat} {s w rest : Bytes} (hL : s.length < L) (h : UpTo max s w rest) :
    Lands (Lex.spaceMax L max) s (w.length, kindOf w) rest := by
  cases h with
  | stop h0 hb he hp =>
    have := lands_spaceMaxLoop (rest := rest) (n := 0) (m := 0) (L := L) (max := max) (by simp at hL; omega) h0 hb
      (by simpa using he) (by simpa using hp)
    simp only [Nat.zero_add, fin_eq hb] at this
    exact this
  | all h hp =>
    obtain ⟨rfl, hb, hr⟩ := h
    have := lands_spaceMaxLoop_all hr (n := 0) (m := 0) (L := L) (max := max) (by simp at hL; omega) hb (by simpa using hp)
    simp only [Nat.zero_add, fin_eq hb] at this
    exact this

theorem longest_len {P : UInt8 → Prop} {s w rest : Bytes} (h : Longest P s w rest) : rest.length ≤ s.length := by
  rw [h.1]; simp

theorem upTo_len {max : Nat} {s w rest : Bytes} (h : UpTo max s w rest) : rest.length ≤ s.length := by
  cases h with
  | stop => simp
  | all h => exact longest_len h

theorem body_len {ind : Nat} {q : UInt8} {s t : Bytes} {o : Option Bytes} (h : Body ind q s o t) : t.length ≤ s.length := by
  induction h with
  | close => simp; omega
  | piece _ _ ih => simp; omega
  | line k h _ _ _ ih => have := upTo_len h; simp; omega
  | dedent k h => have := upTo_len h; simp; omega
  | mixed k h => have := upTo_len h; simp; omega
  | cut => simp
  | ended => simp; omega

/-! ## Quoted -/

theorem quote_cases {q : UInt8} (h : Quote q) : q ≠ 92 ∧ isEndChar q = false ∧ (q == 34 || q == 39 || q == 96) = true := by
  rcases h with rfl | rfl | rfl <;> decide

/-- The state of the loop after backslashes. -/
def after (k : Nat) (c2 : UInt8) : UInt8 := if k = 0 then c2 else 92

theorem lands_slashes {L ind : Nat} {q : UInt8} (hq : Quote q) {t u : Bytes} {out : Option Bytes} (buf : Bytes) :
    ∀ (k : Nat) {f : Nat} {c2 : UInt8}, Lands (quotedLoop L ind q f buf (after k c2)) t out u →
    Lands (quotedLoop L ind q (f + k) buf c2) (List.replicate k 92 ++ t) out u
  | 0, f, c2, h => h
  | k + 1, f, c2, h => by
    rw [List.replicate_succ, List.cons_append, ← Nat.add_assoc]
    refine (lands_byte0 92 _).bind ?_
    have e1 : isEndChar 92 = false := by decide
    have e2 : ((92 : UInt8) == q) = false := by
      have := (quote_cases hq).1
      simpa using fun h => this h.symm
    simp only [e1, e2, Bool.false_and, Bool.false_eq_true, ↓reduceIte, beq_self_eq_true]
    refine lands_slashes hq buf k ?_
    have : after k 92 = after (k + 1) c2 := by simp [after]
    rw [this]
    exact h

theorem notEnd {c : UInt8} (h : ¬ Ends c) : isEndChar c = false := by
  cases he : isEndChar c with
  | false => rfl
  | true => exact absurd ((ends_iff c).1 he) h

theorem lands_line {L ind : Nat} {q : UInt8} (hq : Quote q) {t w u r : Bytes} {out : Option Bytes} {buf : Bytes} {f k : Nat} {c2 : UInt8}
    (h2 : c2 ≠ 92) (hL : t.length < L) (h : UpTo ind t w u)
    (hr : Lands (if kindOf w == 0 then pure none else if w.length < ind then pure (some (buf ++ newline k))
      else quotedLoop L ind q f (buf ++ newline k) 10 : Prog (Option Bytes)) u out r) :
    Lands (quotedLoop L ind q (f + 1 + k) buf c2) (List.replicate k 92 ++ 10 :: t) out r := by
  refine lands_slashes hq buf k ?_
  refine (lands_byte0 10 _).bind ?_
  have e1 : isEndChar 10 = false := by decide
  have e2 : ((10 : UInt8) == q) = false := by rcases hq with rfl | rfl | rfl <;> rfl
  have e3 : ((10 : UInt8) == 92) = false := by decide
  have e4 : ((if (after k c2 == 92 && (10 : UInt8) != 39 && (10 : UInt8) != 34) = true then buf ++ [92] else buf) ++ [10]) = buf ++ newline k := by
    cases k with
    | zero => simp [after, h2, newline]
    | succ k => simp [after, newline]
  simp only [e1, e2, e3, Bool.false_and, Bool.false_eq_true, ↓reduceIte, beq_self_eq_true]
  rw [e4]
  exact (lands_spaceMax hL h).bind hr

theorem lands_body {L ind : Nat} {q : UInt8} (hq : Quote q) {s t : Bytes} {o : Option Bytes} (h : Body ind q s o t) :
    ∀ {f : Nat} {buf : Bytes} {c2 : UInt8}, c2 ≠ 92 → s.length < f → s.length < L →
    Lands (quotedLoop L ind q f buf c2) s (o.map (buf ++ ·)) t := by
  have q1 := (quote_cases hq).1
  have q2 := (quote_cases hq).2.1
  have fuel : ∀ {f k n : Nat}, k + (n + 1) < f → ∃ g, f = g + 1 + k ∧ n < g := fun {f k n} h => ⟨f - 1 - k, by omega, by omega⟩
  induction h with
  | close k t hk =>
    intro f buf c2 h2 hf hL
    obtain ⟨g, rfl, _⟩ := fuel (by simpa using hf)
    refine lands_slashes hq buf k ?_
    refine (lands_byte0 q t).bind ?_
    simp only [q2, beq_self_eq_true, Bool.true_and, Bool.false_eq_true, ↓reduceIte, Option.map_some, List.append_nil]
    rcases hk with rfl | rfl
    · simp only [after, ↓reduceIte]
      have : (c2 != 92) = true := by simpa using h2
      rw [this]
      split <;> exact Lands.pure _ _
    · exact Lands.pure _ _
  | @piece p v t rest o hp _ ih =>
    intro f buf c2 h2 hf hL
    have key : ∀ (k : Nat) (c : UInt8), p = List.replicate k 92 ++ [c] → ¬ Ends c → c ≠ 92 → c ≠ 10 →
        (c = q → 0 < k ∧ q ≠ 96) → v = (if 0 < k ∧ c ≠ 39 ∧ c ≠ 34 then [92, c] else [c]) →
        Lands (quotedLoop L ind q f buf c2) (p ++ t) ((o.map (v ++ ·)).map (buf ++ ·)) rest := by
      intro k c hpe h3 h4 h5 h6 hv
      subst hpe
      obtain ⟨g, rfl, hg⟩ := fuel (n := t.length) (k := k) (f := f) (by simp at hf; omega)
      rw [List.append_assoc]
      refine lands_slashes hq buf k ?_
      refine (lands_byte0 c t).bind ?_
      have e1 : (c == q && q == 96) = false := by
        cases hc : (c == q) with
        | false => rfl
        | true => simpa using (h6 (by simpa using hc)).2
      have e2 : (c == q && after k c2 != 92) = false := by
        cases hc : (c == q) with
        | false => rfl
        | true =>
          have := (h6 (by simpa using hc)).1
          simp [after, Nat.pos_iff_ne_zero.1 this]
      have e3 : (c == 92) = false := by simpa using h4
      have e4 : (c == 10) = false := by simpa using h5
      simp only [notEnd h3, e1, e2, e3, e4, Bool.false_eq_true, ↓reduceIte]
      have e5 : ((if (after k c2 == 92 && c != 39 && c != 34) = true then buf ++ [92] else buf) ++ [c]) = buf ++ v := by
        rw [hv]
        by_cases hk : 0 < k
        · by_cases h39 : c = 39
          · simp [h39]
          · by_cases h34 : c = 34
            · simp [h34]
            · simp [after, Nat.pos_iff_ne_zero.1 hk, hk, h39, h34]
        · obtain rfl : k = 0 := by omega
          simp [after, h2]
      rw [e5]
      have := ih (f := g) (buf := buf ++ v) (c2 := c) h4 hg (by simp at hL; omega)
      have e6 : (o.map (v ++ ·)).map (buf ++ ·) = o.map (buf ++ v ++ ·) := by
        cases o <;> simp
      rw [e6]
      exact this
    cases hp with
    | @plain c h3 h4 h5 h6 => exact key 0 c rfl h3 h5 h6 (fun h => absurd h h4) (by simp)
    | @escaped c k hc =>
      by_cases hq6 : c = q ∧ q = 96
      · obtain ⟨rfl, rfl⟩ := hq6
        rcases hc with h | h <;> simp at h
      · refine key (k + 1) c rfl ?_ ?_ ?_ (fun h => ⟨by omega, fun g => hq6 ⟨h, g⟩⟩) ?_
        · rcases hc with rfl | rfl <;> simp [Ends]
        · rcases hc with rfl | rfl <;> decide
        · rcases hc with rfl | rfl <;> decide
        · rcases hc with rfl | rfl <;> simp
    | @kept c k h3 h4 h5 h6 h7 h8 => exact key (k + 1) c rfl h3 h7 h8 (fun h => absurd h h6) (by simp [h4, h5])
  | @line k t w u rest o h hk hi _ ih =>
    intro f buf c2 h2 hf hL
    obtain ⟨g, rfl, hg⟩ := fuel (n := t.length) (k := k) (f := f) (by simp at hf; omega)
    refine lands_line hq h2 (by simp at hL; omega) h ?_
    have e1 : (kindOf w == 0) = false := by simpa using hk
    rw [e1, if_neg (by simp), if_neg (by omega)]
    have hl := upTo_len h
    have := ih (f := g) (buf := buf ++ newline k) (c2 := 10) (by decide) (by omega) (by simp at hL; omega)
    have e6 : (o.map (newline k ++ ·)).map (buf ++ ·) = o.map (buf ++ newline k ++ ·) := by
      cases o <;> simp
    rw [e6]
    exact this
  | @dedent k t w u h hk hi =>
    intro f buf c2 h2 hf hL
    obtain ⟨g, rfl, hg⟩ := fuel (n := t.length) (k := k) (f := f) (by simp at hf; omega)
    refine lands_line hq h2 (by simp at hL; omega) h ?_
    have e1 : (kindOf w == 0) = false := by simpa using hk
    rw [e1, if_neg (by simp), if_pos hi]
    exact Lands.pure _ _
  | @mixed k t w u h hk =>
    intro f buf c2 h2 hf hL
    obtain ⟨g, rfl, hg⟩ := fuel (n := t.length) (k := k) (f := f) (by simp at hf; omega)
    refine lands_line hq h2 (by simp at hL; omega) h ?_
    have e1 : (kindOf w == 0) = true := by simpa using hk
    rw [e1, if_pos rfl]
    exact Lands.pure _ _
  | cut k =>
    intro f buf c2 h2 hf hL
    obtain ⟨g, rfl⟩ : ∃ g, f = g + 1 + k := ⟨f - 1 - k, by simp at hf; omega⟩
    have := lands_slashes (L := L) (ind := ind) hq (t := []) (u := []) (out := none) buf k (f := g + 1) (c2 := c2) (by
      rintro ⟨pre, post, o, r⟩ hw rfl
      exact ⟨⟨pre, [], 1, r⟩, fun e => rfl, .inr rfl, rfl⟩)
    simpa using this
  | ended k t hc =>
    intro f buf c2 h2 hf hL
    obtain ⟨g, rfl, hg⟩ := fuel (n := t.length) (k := k) (f := f) (by simp at hf; omega)
    refine lands_slashes hq buf k ?_
    refine (lands_byte0 _ t).bind ?_
    simp only [(ends_iff _).2 hc, ↓reduceIte]
    exact Lands.pure _ _

theorem lands_quoted {L ind : Nat} {q : UInt8} (hq : Quote q) {s t : Bytes} {o : Option Bytes} (hL : (q :: s).length < L) (h : Body ind q s o t) :
    Lands (Lex.quoted L ind) (q :: s) o t := by
  refine (lands_byte0 q s).bind ?_
  have : (q != 34 && q != 39 && q != 96) = false := by rcases hq with rfl | rfl | rfl <;> rfl
  simp only [this, Bool.false_eq_true, ↓reduceIte]
  have := lands_body (L := L) hq h (f := L) (buf := []) (c2 := 0) (by decide) (by simp at hL; omega) (by simp at hL; omega)
  simpa using this

theorem lands_noQuote {L ind : Nat} {s : Bytes} (h : ∀ c, s.head? = some c → ¬ Quote c) : Lands (Lex.quoted L ind) s none s := by
  refine lands_back s none ?_
  have : (s.head?.getD 0 != 34 && s.head?.getD 0 != 39 && s.head?.getD 0 != 96) = true := by
    cases s with
    | nil => rfl
    | cons c t =>
      have := h c rfl
      simp only [Quote, not_or] at this
      simp [this.1, this.2.1, this.2.2]
  simp only [this, ↓reduceIte]

/-! ## Block -/

theorem lands_lineByte {w t u l : Bytes} (hw : ∀ c ∈ w, ¬ Ends c ∧ c ≠ 10) : ∀ {f : Nat}, (∀ g, t.length < g → Lands (blockLine g) t l u) →
    w.length + t.length < f → Lands (blockLine f) (w ++ t) (w.filter (· ≠ 13) ++ l) u := by
  induction w with
  | nil => exact fun h hf => h _ (by simpa using hf)
  | cons c w ih =>
    intro f h hf
    cases f with
    | zero => exact absurd hf (Nat.not_lt_zero _)
    | succ f =>
      have := ih (fun d hd => hw d (by simp [hd])) (f := f) h (by simp at hf; omega)
      obtain ⟨h1, h2⟩ := hw c (by simp)
      refine (lands_byte0 c _).bind ?_
      simp only [notEnd h1, Bool.false_eq_true, ↓reduceIte]
      by_cases h13 : c = 13
      · subst h13
        simpa using this
      · have e1 : (c == 13) = false := by simpa using h13
        have e2 : (c == 10) = false := by simpa using h2
        simp only [e1, e2, Bool.false_eq_true, ↓reduceIte]
        have e3 : (c :: w).filter (· ≠ 13) ++ l = c :: (w.filter (· ≠ 13) ++ l) := by
          rw [List.filter_cons, if_pos (by simpa using h13)]; rfl
        rw [e3]
        exact this.bind (Lands.pure _ _)

theorem lands_blockLine {s l u : Bytes} {f : Nat} (hf : s.length < f) (h : Line s l u) : Lands (blockLine f) s l u := by
  cases h with
  | nl t hw =>
    refine lands_lineByte hw (fun g hg => ?_) (by simpa using hf)
    cases g with
    | zero => exact absurd hg (Nat.not_lt_zero _)
    | succ g => exact (lands_byte0 10 _).bind (Lands.pure _ _)
  | @ended w c t hw hc =>
    have := lands_lineByte (l := []) (t := c :: u) (u := u) (f := f) hw (fun g hg => ?_) (by simpa using hf)
    · simpa using this
    cases g with
    | zero => exact absurd hg (Nat.not_lt_zero _)
    | succ g =>
      refine (lands_byte0 c _).bind ?_
      simp only [(ends_iff _).2 hc, ↓reduceIte]
      exact Lands.pure _ _
  | cut hw =>
    have := lands_lineByte (l := []) (t := []) (u := []) (f := f) hw (fun g hg => ?_) (by simpa using hf)
    · simpa using this
    cases g with
    | zero => exact absurd hg (Nat.not_lt_zero _)
    | succ g =>
      rintro ⟨pre, post, o, r⟩ hw rfl
      exact ⟨⟨pre, [], 1, r⟩, fun e => rfl, .inr rfl, rfl⟩

theorem line_len {s l u : Bytes} (h : Line s l u) : u.length ≤ s.length := by
  cases h <;> simp <;> omega

theorem lines_len {nsp : Nat} {s ls u : Bytes} (h : Lines nsp s ls u) : u.length ≤ s.length := by
  induction h with
  | stop h => exact longest_len h
  | line h _ _ hl _ ih => have := longest_len h; have := line_len hl; omega

theorem lands_space {L : Nat} {s w rest : Bytes} (hL : s.length < L) (h : Longest Blank s w rest) :
    Lands (Lex.space L) s (w.length, kindOf w) rest := by
  rw [← kind_eq]
  exact (lands_while blank_iff (by decide) hL h).map (f := fun w => (w.length, spaceKind w))

theorem lands_lines {L nsp : Nat} {s ls u : Bytes} (h : Lines nsp s ls u) : ∀ {f : Nat}, s.length < L → s.length < f → Lands (blockLoop L nsp f) s ls u := by
  induction h with
  | stop h hk =>
    intro f hL hf
    cases f with
    | zero => exact absurd hf (Nat.not_lt_zero _)
    | succ f =>
      refine (lands_space hL h).bind ?_
      simp only [Bool.or_eq_true, beq_iff_eq, decide_eq_true_eq, hk, ↓reduceIte]
      exact Lands.pure _ _
  | line h hk hn hl _ ih =>
    intro f hL hf
    cases f with
    | zero => exact absurd hf (Nat.not_lt_zero _)
    | succ f =>
      refine (lands_space hL h).bind ?_
      have := congrArg List.length h.1
      rw [List.length_append] at this
      have h2 := line_len hl
      simp only [Bool.or_eq_true, beq_iff_eq, decide_eq_true_eq, hk, false_or, Nat.not_le.2 hn, ↓reduceIte]
      exact (lands_blockLine (by omega) hl).bind ((ih (by omega) (by omega)).bind (Lands.pure _ _))

theorem trim_eq {s v : Bytes} (h : Trimmed s v) : trimNL s = v := by
  obtain ⟨h1, k, rfl⟩ := h
  have e : ∀ (k : Nat) (l : Bytes), (List.replicate k (10 : UInt8) ++ l).dropWhile (· == 10) = l.dropWhile (· == 10) := by
    intro k l
    induction k with
    | zero => rfl
    | succ k ih => rw [List.replicate_succ, List.cons_append, List.dropWhile_cons_of_pos rfl, ih]
  rw [trimNL, List.reverse_append, List.reverse_replicate, e]
  have : v.reverse.dropWhile (· == 10) = v.reverse := by
    have h2 : v.reverse.head? ≠ some 10 := by rwa [List.head?_reverse]
    cases hr : v.reverse with
    | nil => rfl
    | cons c t =>
      rw [hr] at h2
      rw [List.dropWhile_cons_of_neg (by simpa using h2)]
  rw [this, List.reverse_reverse]

theorem exists_trimmed (s : Bytes) : ∃ v, Trimmed s v := by
  suffices ∀ r : Bytes, ∃ v, Trimmed r.reverse v by simpa using this s.reverse
  intro r
  induction r with
  | nil => exact ⟨[], by simp, 0, rfl⟩
  | cons c r ih =>
    by_cases hc : c = 10
    · obtain ⟨v, h1, k, h2⟩ := ih
      refine ⟨v, h1, k + 1, ?_⟩
      rw [List.reverse_cons, h2, hc, List.append_assoc, List.replicate_succ']
    · exact ⟨(c :: r).reverse, by simpa using hc, 0, by simp⟩

theorem lands_block {E : Ext} {L nsp : Nat} {s t : Bytes} {v : Option Bytes} (hL : s.length < L) (h : Scans E (.block nsp) s (.value v) t) :
    Lands (Lex.block L nsp) s v t := by
  cases h with
  | block hl ht =>
    unfold Lex.block
    refine (lands_byte0 92 _).bind ((lands_byte0 10 _).bind ?_)
    refine (lands_lines hl (by simp at hL; omega) (by simp at hL; omega)).bind ?_
    rw [← trim_eq ht]
    exact Lands.pure _ _
  | @block_cr _ c t _ _ _ hl ht =>
    unfold Lex.block
    refine (lands_byte0 92 _).bind ((lands_byte0 13 _).bind ?_)
    refine (lands_byte0 c t).bind ?_
    refine (lands_lines hl (by simp at hL; omega) (by simp at hL; omega)).bind ?_
    rw [← trim_eq ht]
    exact Lands.pure _ _
  | block_end =>
    obtain ⟨L, rfl⟩ : ∃ k, L = k + 1 := ⟨L - 1, by omega⟩
    rintro ⟨pre, post, o, r⟩ hw rfl
    have ho : o = 0 := by simpa [Cur.Wf] using hw
    subst ho
    refine ⟨⟨13 :: 92 :: pre, [], 0, r⟩, fun e => ?_, .inl rfl, rfl⟩
    simp only [Lex.block, Prog.run_bind, run_byte0_cons, run_byte0_nil]
    rfl
  | block_none h =>
    rintro ⟨pre, post, o, r⟩ hw rfl
    cases post with
    | nil => exact ⟨⟨pre, [], 0, r⟩, fun e => by simp [Lex.block, Prog.run_bind, Prog.run_pure], .inl rfl, rfl⟩
    | cons c t =>
      have ho : o = 0 := by simpa [Cur.Wf] using hw
      subst ho
      refine ⟨⟨pre, c :: t, 0, r⟩, fun e => ?_, .inl rfl, rfl⟩
      by_cases hc : c = 92
      · subst hc
        cases t with
        | nil => simp [Lex.block, Prog.run_bind, Prog.run_pure]
        | cons d t =>
          have h1 : d ≠ 10 := fun hd => h ⟨d, t, .inl hd, rfl⟩
          have h2 : d ≠ 13 := fun hd => h ⟨d, t, .inr hd, rfl⟩
          simp [Lex.block, Prog.run_bind, Prog.run_pure, h1, h2]
      · simp [Lex.block, Prog.run_bind, Prog.run_pure, hc]

/-! ## The calls -/

theorem unquoted_len {ind : Nat} {s t : Bytes} (h : Unquoted ind s t) : t.length ≤ s.length := by
  cases h with
  | none _ => omega
  | bad _ h => have := body_len h; simp; omega

theorem lands_unquoted {L ind : Nat} {s t : Bytes} (hL : s.length < L) (h : Unquoted ind s t) : Lands (Lex.quoted L ind) s none t := by
  cases h with
  | none h => exact lands_noQuote h
  | bad hq h => exact lands_quoted hq hL h

theorem reads_lands {E : Ext} {L : Nat} {c : LexCall} {s t : Bytes} {o : LexOut} (hL : s.length < L) (h : Scans E c s o t) :
    Lands (c.prog E L) s o t := by
  cases h with
  | byte c t =>
    rintro ⟨pre, post, o, r⟩ hw rfl
    have ho : o = 0 := by simpa [Cur.Wf] using hw
    exact ⟨⟨c :: pre, t, o, r⟩, fun _ => rfl, .inl ho, rfl⟩
  | byte_end =>
    rintro ⟨pre, post, o, r⟩ hw rfl
    exact ⟨⟨pre, [], 1, r⟩, fun _ => rfl, .inr rfl, rfl⟩
  | peek c t => exact (lands_peek (c :: t)).map (f := fun c => LexOut.byte (some c))
  | peek_end => exact (lands_peek []).map (f := fun c => LexOut.byte (some c))
  | string h => exact (lands_while text_iff (by decide) hL h).map
  | stringStop h => exact (lands_while (stop_iff _) (by simp [isTextChar]) hL h).map
  | @whiteSpace _ w _ h =>
    have : (decide (w ≠ [])) = !w.isEmpty := by cases w <;> rfl
    rw [this]
    exact ((lands_while white_iff (by decide) hL h).map (f := fun w => !w.isEmpty)).map
  | @space _ w _ h =>
    rw [← kind_eq]
    exact ((lands_while blank_iff (by decide) hL h).map (f := fun w => (w.length, spaceKind w))).map (f := fun r => LexOut.blanks r.1 r.2)
  | integer h => exact (lands_while digit_iff (by decide) hL h).map
  | operator h => exact (lands_while operator_iff (by decide) hL h).map
  | templateText h => exact (lands_while template_iff (by decide) hL h).map
  | number h1 h2 => exact (lands_number hL h1 h2).map
  | comment h1 h2 h3 => exact (lands_comment (E := E) hL (.comment h1 h2 h3)).map
  | comment_end h1 h2 => exact (lands_comment (E := E) hL (.comment_end h1 h2)).map
  | comment_none h => exact (lands_comment (E := E) hL (.comment_none h)).map
  | break_nl => exact (lands_brk (E := E) (.break_nl t)).map
  | break_crnl => exact (lands_brk (E := E) (.break_crnl t)).map
  | break_cr h => exact (lands_brk (E := E) (.break_cr h)).map
  | break_none h1 h2 => exact (lands_brk (E := E) (.break_none h1 h2)).map
  | end_end => exact (lands_endp (E := E) .end_end).map
  | end_char h => exact (lands_endp (E := E) (.end_char h)).map
  | end_none h => exact (lands_endp (E := E) (.end_none h)).map
  | spaceMax h => exact (lands_spaceMax hL h).map (f := fun r => LexOut.blanks r.1 r.2)
  | block h1 h2 => exact (lands_block (E := E) hL (.block h1 h2)).map
  | block_cr h1 h2 => exact (lands_block (E := E) hL (.block_cr h1 h2)).map
  | block_end => exact (lands_block (E := E) hL .block_end).map
  | block_none h => exact (lands_block (E := E) hL (.block_none h)).map
  | quoted hq h => exact (lands_quoted hq hL h).map
  | quoted_none h => exact (lands_noQuote h).map
  | scalar hq h =>
    refine Lands.map (f := LexOut.value) ((lands_quoted hq hL h).bind ?_)
    exact Lands.pure _ _
  | @scalar_text _ _ w _ hq h =>
    refine Lands.map (f := LexOut.value) ((lands_noQuote hq).bind ?_)
    have := (lands_while text_iff (by decide) hL h).map (f := fun s => if s.isEmpty then none else some s)
    simpa [str] using this
  | @scalar_bad _ _ _ _ w _ hq h h' =>
    refine Lands.map (f := LexOut.value) ((lands_quoted hq hL h).bind ?_)
    have := (lands_while text_iff (by decide) (L := L) (by have := body_len h; simp at hL; omega) h').map (f := fun s => if s.isEmpty then none else some s)
    simpa [str] using this
  | typed hq h =>
    refine Lands.map (f := LexOut.typed) ((lands_quoted hq hL h).bind ?_)
    exact Lands.pure _ _
  | typed_none hu h =>
    refine Lands.map (f := LexOut.typed) ((lands_unquoted hL hu).bind ?_)
    have := (lands_while text_iff (by decide) (L := L) (by have := unquoted_len hu; omega) h).map (f := fun s => if s.isEmpty then none else some (Lex.typed E s))
    simpa [str] using this
  | @typed_word _ _ _ w _ v hu h hw hv =>
    rw [typed_iff.1 hv]
    refine Lands.map (f := LexOut.typed) ((lands_unquoted hL hu).bind ?_)
    have := (lands_while text_iff (by decide) (L := L) (by have := unquoted_len hu; omega) h).map (f := fun s => if s.isEmpty then none else some (Lex.typed E s))
    simpa [str, hw] using this

theorem reads_len {E : Ext} {c : LexCall} {s t : Bytes} {o : LexOut} (h : Scans E c s o t) : t.length ≤ s.length := by
  cases h with
  | string h => exact longest_len h
  | stringStop h => exact longest_len h
  | whiteSpace h => exact longest_len h
  | space h => exact longest_len h
  | integer h => exact longest_len h
  | operator h => exact longest_len h
  | templateText h => exact longest_len h
  | number h1 h2 =>
    have : ∀ {s sign t : Bytes}, Signed s sign t → t.length ≤ s.length := by
      intro s sign t h
      cases h <;> simp
    refine Nat.le_trans ?_ (this h1)
    cases h2 with
    | whole h => exact longest_len h
    | point h h' =>
      have := longest_len h
      have := longest_len h'
      simp at *
      omega
  | spaceMax h => exact upTo_len h
  | quoted _ h => have := body_len h; simp; omega
  | block h => have := lines_len h; simp; omega
  | block_cr h => have := lines_len h; simp; omega
  | scalar _ h => have := body_len h; simp; omega
  | scalar_text _ h => exact longest_len h
  | typed _ h => have := body_len h; simp; omega
  | typed_none hu h => have := unquoted_len hu; have := longest_len h; omega
  | typed_word hu h => have := unquoted_len hu; have := longest_len h; omega
  | scalar_bad _ h h' => have := body_len h; have := longest_len h'; simp; omega
  | _ => all_goals (simp <;> omega)

theorem exists_longest {P : UInt8 → Prop} {p : UInt8 → Bool} (hp : ∀ c, p c = true ↔ P c) (s : Bytes) :
    ∃ w rest, Longest P s w rest := ⟨_, _, while_longest hp s⟩

theorem exists_least {P : Nat → Prop} : ∀ n, P n → ∃ k, P k ∧ ∀ j, j < k → ¬ P j := by
  intro n
  induction n using Nat.strongRecOn with
  | ind n ih =>
    intro h
    by_cases hk : ∃ j, j < n ∧ P j
    · obtain ⟨j, h1, h2⟩ := hk
      exact ih j h1 h2
    · exact ⟨n, h, fun j hj hp => hk ⟨j, hj, hp⟩⟩

theorem exists_upTo (max : Nat) (s : Bytes) : ∃ w t, UpTo max s w t := by
  obtain ⟨w, rest, h⟩ := exists_longest blank_iff s
  by_cases hh : ∃ k, 0 < k ∧ k ≤ w.length ∧ ((w.take k).count 32 = max ∨ (w.take k).count 9 = max)
  · obtain ⟨k, hk⟩ := hh
    obtain ⟨k, ⟨h1, h2, h3⟩, hl⟩ := exists_least (P := fun k => 0 < k ∧ k ≤ w.length ∧ ((w.take k).count 32 = max ∨ (w.take k).count 9 = max)) k hk
    obtain ⟨rfl, hb, _⟩ := h
    refine ⟨w.take k, w.drop k ++ rest, ?_⟩
    have : w ++ rest = w.take k ++ (w.drop k ++ rest) := by rw [← List.append_assoc, List.take_append_drop]
    rw [this]
    refine .stop ?_ (fun c hc => hb c (List.mem_of_mem_take hc)) h3 ?_
    · intro h0
      have := congrArg List.length h0
      rw [List.length_take, List.length_nil] at this
      omega
    · intro p hp h0 hne
      have hp2 : p <+: w := hp.trans (List.take_prefix k w)
      have hlen := hp.length_le
      rw [List.length_take] at hlen
      have hpk : p.length < k := by
        rcases Nat.lt_or_ge p.length k with g | g
        · exact g
        · exact absurd (hp.eq_of_length_le (by rw [List.length_take]; omega)) hne
      have hpe : p = w.take p.length := List.prefix_iff_eq_take.1 hp2
      have := hl p.length hpk
      rw [← hpe] at this
      have h0' : 0 < p.length := List.length_pos_iff.2 h0
      refine ⟨fun g => this ⟨h0', by omega, .inl g⟩, fun g => this ⟨h0', by omega, .inr g⟩⟩
  · refine ⟨w, rest, .all h ?_⟩
    intro p hp h0
    have hpe : p = w.take p.length := List.prefix_iff_eq_take.1 hp
    have h0' : 0 < p.length := List.length_pos_iff.2 h0
    refine ⟨fun g => hh ⟨p.length, h0', hp.length_le, .inl (hpe ▸ g)⟩, fun g => hh ⟨p.length, h0', hp.length_le, .inr (hpe ▸ g)⟩⟩

theorem exists_decimal (s : Bytes) : ∃ w rest, Decimal s w rest := by
  obtain ⟨w, rest, h⟩ := exists_longest digit_iff s
  by_cases hp : rest.head? = some 46
  · cases rest with
    | nil => simp at hp
    | cons c t =>
      have : c = 46 := by simpa using hp
      subst this
      obtain ⟨v, rest, h'⟩ := exists_longest digit_iff t
      exact ⟨_, _, .point h h'⟩
  · exact ⟨_, _, .whole h hp⟩

theorem exists_comment (E : Ext) (s : Bytes) : ∃ o t, Scans E .comment s o t := by
  by_cases h : ∃ b t, Blank b ∧ s = 35 :: b :: t
  · obtain ⟨b, t, hb, rfl⟩ := h
    obtain ⟨w, rest, rfl, h1, h2⟩ := exists_longest (P := fun x => ¬ Ends x ∧ x ≠ 10 ∧ x ≠ 13)
      (p := fun x => !isEndChar x && x != 10 && x != 13) (fun c => by simp [← ends_iff, and_assoc]) t
    cases rest with
    | nil => exact ⟨_, _, by rw [List.append_nil]; exact .comment_end hb h1⟩
    | cons c rest =>
      refine ⟨_, rest, .comment hb h1 ?_⟩
      have := h2 c rfl
      grind
  · exact ⟨_, _, .comment_none h⟩

theorem quote_of {s : Bytes} (h : ¬ ∀ c, s.head? = some c → ¬ Quote c) : ∃ q t, Quote q ∧ s = q :: t := by
  cases s with
  | nil => exact absurd (by simp) h
  | cons c t =>
    by_cases hc : Quote c
    · exact ⟨c, t, hc, rfl⟩
    · exact absurd (by simpa using hc) h

theorem slashes_split (s : Bytes) : ∃ k t, s = List.replicate k 92 ++ t ∧ t.head? ≠ some 92 := by
  induction s with
  | nil => exact ⟨0, [], rfl, by simp⟩
  | cons c s ih =>
    by_cases hc : c = 92
    · obtain ⟨k, t, rfl, h⟩ := ih
      exact ⟨k + 1, t, by rw [hc]; rfl, h⟩
    · exact ⟨0, c :: s, rfl, by simpa using hc⟩

theorem exists_body {q : UInt8} (hq : Quote q) (ind : Nat) : ∀ (n : Nat) (s : Bytes), s.length ≤ n → ∃ o t, Body ind q s o t := by
  intro n
  induction n with
  | zero =>
    intro s hs
    obtain rfl : s = [] := by simpa using hs
    exact ⟨_, _, .cut 0⟩
  | succ n ih =>
    intro s hs
    obtain ⟨k, t, rfl, hh⟩ := slashes_split s
    cases t with
    | nil => exact ⟨_, _, by rw [List.append_nil]; exact .cut k⟩
    | cons c t =>
      have hc : c ≠ 92 := by simpa using hh
      have ht : t.length ≤ n := by simp at hs; omega
      by_cases he : Ends c
      · exact ⟨_, _, .ended k t he⟩
      by_cases h10 : c = 10
      · subst h10
        obtain ⟨w, u, hw⟩ := exists_upTo ind t
        by_cases hk : kindOf w = 0
        · exact ⟨_, _, .mixed k hw hk⟩
        · by_cases hi : w.length < ind
          · exact ⟨_, _, .dedent k hw hk hi⟩
          · have := upTo_len hw
            obtain ⟨o, r, h⟩ := ih u (by omega)
            exact ⟨_, _, .line k hw hk (by omega) h⟩
      by_cases hcl : c = q ∧ (k = 0 ∨ q = 96)
      · obtain ⟨rfl, h⟩ := hcl
        exact ⟨_, _, .close k t h⟩
      obtain ⟨o, r, h⟩ := ih t ht
      suffices ∃ v, Piece q (List.replicate k 92 ++ [c]) v by
        obtain ⟨v, hp⟩ := this
        exact ⟨_, _, by have := Body.piece hp h; rwa [List.append_assoc] at this⟩
      cases k with
      | zero => exact ⟨_, .plain he (fun g => hcl ⟨g, .inl rfl⟩) hc h10⟩
      | succ k =>
        by_cases hes : c = 34 ∨ c = 39
        · exact ⟨_, .escaped k hes⟩
        · simp only [not_or] at hes
          refine ⟨_, .kept k he hes.1 hes.2 (fun g => ?_) hc h10⟩
          subst g
          rcases hq with rfl | rfl | rfl
          · exact hes.1 rfl
          · exact hes.2 rfl
          · exact hcl ⟨rfl, .inr rfl⟩

theorem exists_line (s : Bytes) : ∃ l u, Line s l u := by
  obtain ⟨w, rest, rfl, h1, h2⟩ := exists_longest (P := fun c => ¬ Ends c ∧ c ≠ 10) (p := fun c => !isEndChar c && c != 10)
    (fun c => by simp [← ends_iff]) s
  cases rest with
  | nil => exact ⟨_, _, by rw [List.append_nil]; exact .cut h1⟩
  | cons c t =>
    by_cases hc : c = 10
    · subst hc; exact ⟨_, _, .nl t h1⟩
    · refine ⟨_, _, .ended t h1 ?_⟩
      have := h2 c rfl
      grind

theorem exists_lines (nsp : Nat) : ∀ (n : Nat) (s : Bytes), s.length ≤ n → ∃ ls u, Lines nsp s ls u := by
  intro n
  induction n with
  | zero =>
    intro s hs
    obtain rfl : s = [] := by simpa using hs
    exact ⟨_, _, .stop (w := []) (rest := []) ⟨rfl, by simp, by simp⟩ (.inr (Nat.zero_le _))⟩
  | succ n ih =>
    intro s hs
    obtain ⟨w, t, h⟩ := exists_longest blank_iff s
    by_cases hk : kindOf w = 0 ∨ w.length ≤ nsp
    · exact ⟨_, _, .stop h hk⟩
    · obtain ⟨l, u, hl⟩ := exists_line t
      have e1 := congrArg List.length h.1
      have e2 := line_len hl
      rw [List.length_append] at e1
      obtain ⟨ls, r, hr⟩ := ih u (by omega)
      exact ⟨_, _, .line h (fun g => hk (.inl g)) (by omega) hl hr⟩

theorem exists_block (E : Ext) (nsp : Nat) (s : Bytes) : ∃ o t, Scans E (.block nsp) s o t := by
  by_cases h : ∃ c t, (c = 10 ∨ c = 13) ∧ s = 92 :: c :: t
  · obtain ⟨c, t, hc, rfl⟩ := h
    rcases hc with rfl | rfl
    · obtain ⟨ls, u, hl⟩ := exists_lines nsp _ t (Nat.le_refl _)
      obtain ⟨v, hv⟩ := exists_trimmed ls
      exact ⟨_, _, .block hl hv⟩
    · cases t with
      | nil => exact ⟨_, _, .block_end⟩
      | cons c t =>
        obtain ⟨ls, u, hl⟩ := exists_lines nsp _ t (Nat.le_refl _)
        obtain ⟨v, hv⟩ := exists_trimmed ls
        exact ⟨_, _, .block_cr hl hv⟩
  · exact ⟨_, _, .block_none h⟩

theorem exists_reads (E : Ext) (c : LexCall) (s : Bytes) : ∃ o t, Scans E c s o t := by
  cases c with
  | byte => cases s with
    | nil => exact ⟨_, _, .byte_end⟩
    | cons c t => exact ⟨_, _, .byte c t⟩
  | peekByte => cases s with
    | nil => exact ⟨_, _, .peek_end⟩
    | cons c t => exact ⟨_, _, .peek c t⟩
  | string => obtain ⟨w, r, h⟩ := exists_longest text_iff s; exact ⟨_, _, .string h⟩
  | stringStop stop => obtain ⟨w, r, h⟩ := exists_longest (stop_iff stop) s; exact ⟨_, _, .stringStop h⟩
  | brk =>
    by_cases h1 : s.head? = some 10
    · cases s with
      | nil => simp at h1
      | cons c t =>
        obtain rfl : c = 10 := by simpa using h1
        exact ⟨_, _, .break_nl t⟩
    · by_cases h2 : s.head? = some 13
      · cases s with
        | nil => simp at h2
        | cons c t =>
          obtain rfl : c = 13 := by simpa using h2
          by_cases h3 : t.head? = some 10
          · cases t with
            | nil => simp at h3
            | cons c t =>
              obtain rfl : c = 10 := by simpa using h3
              exact ⟨_, _, .break_crnl t⟩
          · exact ⟨_, _, .break_cr h3⟩
      · exact ⟨_, _, .break_none h1 h2⟩
  | endp => cases s with
    | nil => exact ⟨_, _, .end_end⟩
    | cons c t =>
      by_cases hc : Ends c
      · exact ⟨_, _, .end_char hc⟩
      · exact ⟨_, _, .end_none hc⟩
  | whiteSpace => obtain ⟨w, r, h⟩ := exists_longest white_iff s; exact ⟨_, _, .whiteSpace h⟩
  | space => obtain ⟨w, r, h⟩ := exists_longest blank_iff s; exact ⟨_, _, .space h⟩
  | spaceMax max => obtain ⟨w, r, h⟩ := exists_upTo max s; exact ⟨_, _, .spaceMax h⟩
  | integer => obtain ⟨w, r, h⟩ := exists_longest digit_iff s; exact ⟨_, _, .integer h⟩
  | number =>
    have : ∃ sign t, Signed s sign t := by
      by_cases h1 : s.head? = some 43
      · cases s with
        | nil => simp at h1
        | cons c t =>
          obtain rfl : c = 43 := by simpa using h1
          exact ⟨_, _, .plus t⟩
      · by_cases h2 : s.head? = some 45
        · cases s with
          | nil => simp at h2
          | cons c t =>
            obtain rfl : c = 45 := by simpa using h2
            exact ⟨_, _, .minus t⟩
        · exact ⟨_, _, .none h1 h2⟩
    obtain ⟨sign, t, h⟩ := this
    obtain ⟨w, rest, h'⟩ := exists_decimal t
    exact ⟨_, _, .number h h'⟩
  | operator => obtain ⟨w, r, h⟩ := exists_longest operator_iff s; exact ⟨_, _, .operator h⟩
  | templateText => obtain ⟨w, r, h⟩ := exists_longest template_iff s; exact ⟨_, _, .templateText h⟩
  | comment => exact exists_comment E s
  | block nsp => exact exists_block E nsp s
  | quoted ind =>
    by_cases h : ∀ c, s.head? = some c → ¬ Quote c
    · exact ⟨_, _, .quoted_none h⟩
    · obtain ⟨q, t, hq, rfl⟩ := quote_of h
      obtain ⟨o, u, hb⟩ := exists_body hq ind _ t (Nat.le_refl _)
      exact ⟨_, _, .quoted hq hb⟩
  | scalar ind =>
    by_cases h : ∀ c, s.head? = some c → ¬ Quote c
    · obtain ⟨w, r, h'⟩ := exists_longest text_iff s
      exact ⟨_, _, .scalar_text h h'⟩
    · obtain ⟨q, t, hq, rfl⟩ := quote_of h
      obtain ⟨o, u, hb⟩ := exists_body hq ind _ t (Nat.le_refl _)
      cases o with
      | some v => exact ⟨_, _, .scalar hq hb⟩
      | none =>
        obtain ⟨w, r, h'⟩ := exists_longest text_iff u
        exact ⟨_, _, .scalar_bad hq hb h'⟩
  | scalarType ind =>
    have hun : ∀ {t}, Unquoted ind s t → ∃ o u, Scans E (.scalarType ind) s o u := by
      intro t hu
      obtain ⟨w, r, h'⟩ := exists_longest text_iff t
      by_cases hw : w = []
      · subst hw; exact ⟨_, _, .typed_none hu h'⟩
      · exact ⟨_, _, .typed_word hu h' hw (typed_iff.2 rfl)⟩
    by_cases h : ∀ c, s.head? = some c → ¬ Quote c
    · exact hun (.none h)
    · obtain ⟨q, t, hq, rfl⟩ := quote_of h
      obtain ⟨o, u, hb⟩ := exists_body hq ind _ t (Nat.le_refl _)
      cases o with
      | some v => exact ⟨_, _, .typed hq hb⟩
      | none => exact hun (.bad hq hb)

theorem exists_all (E : Ext) (cs : List LexCall) : ∀ s : Bytes, ∃ os t, ScansAll E cs s os t := by
  induction cs with
  | nil => exact fun s => ⟨_, _, .nil s⟩
  | cons c cs ih =>
    intro s
    obtain ⟨o, t, h⟩ := exists_reads E c s
    obtain ⟨os, u, h'⟩ := ih t
    exact ⟨_, _, .cons h h'⟩

theorem all_lands {E : Ext} {L : Nat} {cs : List LexCall} {s t : Bytes} {os : List LexOut} (h : ScansAll E cs s os t) :
    s.length < L → Lands (lexCalls E L cs) s os t := by
  induction h with
  | nil s => exact fun _ => Lands.pure _ _
  | cons h _ ih =>
    intro hL
    exact (reads_lands hL h).bind ((ih (by have := reads_len h; omega)).bind (Lands.pure _ _))

/-! ## On the buffer -/

theorem numberLoop_safe : ∀ (f : Nat) (b : Bool), Safe (numberLoop f b) := by
  intro f
  induction f with
  | zero => intro b c; trivial
  | succ f ih =>
    intro b c
    simp only [numberLoop, safe_byte0]
    intro ch
    split
    · exact (ih _).use_bind fun _ _ h => by simp only [safe_pure]; omega
    split
    · exact (ih _).use_bind fun _ _ h => by simp only [safe_pure]; omega
    · simp only [safe_unread, safe_pure]; omega

theorem number_safe (L : Nat) : Safe (Lex.number L) := by
  unfold Lex.number
  refine peekByte_safe.bind fun c => ?_
  have : Safe (do
      let buf ← numberLoop L false
      if buf.isEmpty then pure none
      else pure (some (if c == 45 then 45 :: buf else buf))) := by
    refine (numberLoop_safe L false).bind fun w => ?_
    split
    · exact Safe.pure _
    · exact Safe.pure _
  dsimp only
  split
  · exact byte0_safe.bind fun _ => this
  · exact this

theorem while_safe (p : UInt8 → Bool) (L : Nat) : Safe (readWhile p L) :=
  fun c => (readWhile_safe _ L c).mono fun _ _ h => by omega

theorem prog_safe (E : Ext) (L : Nat) (c : LexCall) : Safe (c.prog E L) := by
  cases c with
  | byte => intro c ch; show _ ≤ min 2048 (c + 1); omega
  | peekByte => exact peekByte_safe.bind fun _ => Safe.pure _
  | brk => exact brk_safe.bind fun _ => Safe.pure _
  | endp => exact endp_safe.bind fun _ => Safe.pure _
  | whiteSpace => exact ((while_safe _ L).bind fun _ => Safe.pure _).bind fun _ => Safe.pure _
  | space => exact (space_safe' L).bind fun _ => Safe.pure _
  | spaceMax max => exact (spaceMaxLoop_safe max L 0 0).bind fun _ => Safe.pure _
  | number => exact (number_safe L).bind fun _ => Safe.pure _
  | comment => exact (comment_safe L).bind fun _ => Safe.pure _
  | quoted ind => exact (quoted_safe L ind).bind fun _ => Safe.pure _
  | block nsp => exact (block_safe L nsp).bind fun _ => Safe.pure _
  | scalar ind => exact (scalar_safe L ind).bind fun _ => Safe.pure _
  | scalarType ind => exact (scalarType_safe E L ind).bind fun _ => Safe.pure _
  | _ => exact (while_safe _ L).bind fun _ => Safe.pure _

theorem lexCalls_safe (E : Ext) (L : Nat) : ∀ cs, Safe (lexCalls E L cs)
  | [] => Safe.pure _
  | c :: cs => (prog_safe E L c).bind fun _ => (lexCalls_safe E L cs).bind fun _ => Safe.pure _

theorem calls_eq {E : Ext} {L : Nat} {rd : Reader} (hf : rd.Full) (hL : rd.data.length < L) {cs : List LexCall} {os : List LexOut} {t : Bytes}
    (h : ScansAll E cs rd.data os t) : newLexerCalls E L rd cs = .ok os := by
  have ht := start_tracks rd
  rw [delivered_full rd hf] at ht
  have ha := (lexCalls_safe E L cs 0).agree ht {}
  obtain ⟨cur', h1, _, _⟩ := all_lands h hL (Cur.start rd.data) (.inl rfl) rfl
  unfold Agree at ha
  rw [h1] at ha
  obtain ⟨b', h2, _⟩ := ha
  simp only [newLexerCalls, h2, Res.ok_bind]

end LexCalls
end Ogdl
