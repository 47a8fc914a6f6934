import Verif.Lemmas.Path
import Verif.Lemmas.ParseTotal

/-! Paths, expressions and templates return on every input in which each byte that
is taken for a letter starts a letter. -/

namespace Ogdl
open Lex Spec

/-- Every byte that `IsLetter` takes for a letter starts a rune that `Token8`
accepts. -/
def LettersOk (E : Ext) (s : Bytes) : Prop :=
  ∀ c t, (c :: t) <:+ s → isLetterByte c = true → isTokenRune E (decodeRune (c :: t)).1 = true

theorem LettersOk.suffix {E : Ext} {s t : Bytes} (h : LettersOk E s) (ht : t <:+ s) : LettersOk E t :=
  fun c u hu hc => h c u (hu.trans ht) hc

theorem LettersOk.adv {E : Ext} {s t : Cur} (h : LettersOk E s.post) (ht : s.Adv t) : LettersOk E t.post :=
  h.suffix ht.1

theorem decodeRune_pos (c : UInt8) (t : Bytes) : 0 < (decodeRune (c :: t)).2 := by
  simp only [decodeRune]
  repeat' split
  all_goals simp

theorem decodeRune_ascii (c : UInt8) (t : Bytes) (h : c < 0x80) : decodeRune (c :: t) = (c.toNat, 1) := by
  simp [decodeRune, h]

theorem Cur.rune_cons (c : UInt8) (t pre : Bytes) (r : List Nat) :
    (Cur.mk pre (c :: t) 0 r).rune = ((decodeRune (c :: t)).1,
      ⟨((c :: t).take (decodeRune (c :: t)).2).reverse ++ pre, (c :: t).drop (decodeRune (c :: t)).2, 0,
        (decodeRune (c :: t)).2 :: r⟩) := by
  by_cases h : c < 0x80
  · rw [decodeRune_ascii c t h]
    simp [Cur.rune, h]
  · have hle := decodeRune_le (c :: t)
    have := Cur.forward_app ((c :: t).take (decodeRune (c :: t)).2) pre ((c :: t).drop (decodeRune (c :: t)).2) 0 r
    rw [List.take_append_drop, List.length_take, Nat.min_eq_left hle] at this
    simp only [Cur.rune, h, ↓reduceIte, this]

theorem tokenLoop_tot (E : Ext) : ∀ (n : Nat) {L : Nat} {s : Cur}, s.post.length ≤ n → s.Wf → s.post.length < L →
    LexTot (tokenLoop E L) s fun rs s' =>
      (rs = [] → s'.post = s.post ∧ ∀ c t, s.post = c :: t → isTokenRune E (decodeRune (c :: t)).1 = false) ∧
      (rs ≠ [] → s'.post.length < s.post.length) := by
  intro n
  induction n with
  | zero =>
    intro L s hn hw hL
    obtain ⟨L, rfl⟩ : ∃ k, L = k + 1 := ⟨L - 1, by omega⟩
    obtain ⟨pre, post, o, r⟩ := s
    have : post = [] := by simpa using hn
    subst this
    refine LexTot.of_eq (a := []) (s' := ⟨pre, [], o, r⟩) (fun e => ?_) ⟨List.suffix_rfl, .inr rfl⟩ (by simp)
    have h0 : isTokenRune E 0 = false := by simp [isTokenRune]; decide
    simp only [tokenLoop, Prog.run_bind, rune, Prog.run, curM, Cur.rune, h0]
    simp [unreadRune, Prog.run, Cur.unreadRune, Cur.back, Cur.unread, Prog.run_bind, Prog.run_pure]
  | succ n ih =>
    intro L s hn hw hL
    obtain ⟨L, rfl⟩ : ∃ k, L = k + 1 := ⟨L - 1, by omega⟩
    obtain ⟨pre, post, o, r⟩ := s
    cases post with
    | nil => exact ih (by simp) hw (by simp)
    | cons c t =>
      have ho : o = 0 := by simpa [Cur.Wf] using hw
      subst ho
      have hp := decodeRune_pos c t
      have hle := decodeRune_le (c :: t)
      have hru : ∀ e, (rune).run curM ⟨pre, c :: t, 0, r⟩ e = .ok ((decodeRune (c :: t)).1,
        ⟨((c :: t).take (decodeRune (c :: t)).2).reverse ++ pre, (c :: t).drop (decodeRune (c :: t)).2, 0,
          (decodeRune (c :: t)).2 :: r⟩, e) := fun e => by
        simp only [rune, Prog.run, curM, Cur.rune_cons]
      cases hk : isTokenRune E (decodeRune (c :: t)).1 with
      | false =>
        refine LexTot.of_eq (a := []) (s' := ⟨pre, c :: t, 0, r⟩) (fun e => ?_) ⟨List.suffix_rfl, .inl rfl⟩
          ⟨fun _ => ⟨rfl, fun c' t' h => ?_⟩, by simp⟩
        · simp only [tokenLoop]
          rw [Prog.run_bind_ok (hru e)]
          simp only [hk, Bool.false_eq_true, ↓reduceIte, Prog.run_bind, unreadRune, Prog.run, curM, Cur.unreadRune]
          have := Cur.back_app (decodeRune (c :: t)).2 ((c :: t).take (decodeRune (c :: t)).2).reverse pre
            ((c :: t).drop (decodeRune (c :: t)).2) r (by rw [List.length_reverse, List.length_take, Nat.min_eq_left hle])
          rw [List.reverse_reverse, List.take_append_drop] at this
          simp [this, Prog.run_pure]
        · simp only [List.cons.injEq] at h
          obtain ⟨rfl, rfl⟩ := h
          exact hk
      | true =>
        simp only [tokenLoop]
        refine LexTot.bind (P := fun a s' => a = (decodeRune (c :: t)).1 ∧ s'.post = (c :: t).drop (decodeRune (c :: t)).2)
          (LexTot.of_eq hru ⟨List.drop_suffix _ _, .inl rfl⟩ ⟨rfl, rfl⟩) ?_
        rintro _ s' ha ⟨rfl, hs'⟩
        have hlen : s'.post.length < (c :: t).length := by rw [hs', List.length_drop]; omega
        simp only [List.length_cons] at hn hL hlen
        simp only [hk, ↓reduceIte]
        refine LexTot.bind (ih (by omega) ha.2 (by omega)) fun rs s2 h2 _ => ?_
        have := h2.len
        exact LexTot.pure h2.2 ⟨by simp, fun _ => by simp only [List.length_cons]; omega⟩

theorem token8_tot (E : Ext) {L : Nat} {s : Cur} (hw : s.Wf) (hL : s.post.length < L) :
    LexTot (token8 E L) s fun b s' =>
      (b = [] → s'.post = s.post ∧ ∀ c t, s.post = c :: t → isTokenRune E (decodeRune (c :: t)).1 = false) ∧
      (b ≠ [] → s'.post.length < s.post.length) := by
  refine LexTot.bind (tokenLoop_tot E _ (Nat.le_refl _) hw hL) fun rs s' h hq => ?_
  refine LexTot.pure h.2 ?_
  cases rs with
  | nil => exact ⟨fun _ => hq.1 rfl, by simp [encodeRunes]⟩
  | cons r rs =>
    refine ⟨fun hh => ?_, fun _ => hq.2 (by simp)⟩
    simp [encodeRunes, encodeRune_ne_nil] at hh

theorem numberLoop_tot : ∀ (n : Nat) {L : Nat} {pt : Bool} {s : Cur}, s.post.length ≤ n → s.Wf → s.post.length < L →
    LexTot (numberLoop L pt) s fun b s' => b ≠ [] → s'.post.length < s.post.length := by
  intro n
  induction n with
  | zero =>
    intro L pt s hn hw hL
    obtain ⟨L, rfl⟩ : ∃ k, L = k + 1 := ⟨L - 1, by omega⟩
    obtain ⟨pre, post, o, r⟩ := s
    have : post = [] := by simpa using hn
    subst this
    refine LexTot.of_eq (a := []) (s' := ⟨pre, [], 0, r⟩) (fun e => ?_) ⟨List.suffix_rfl, .inr rfl⟩ (by simp)
    have h0 : isDigitByte 0 = false := by decide
    simp [numberLoop, Prog.run_bind, h0, Prog.run_pure]
  | succ n ih =>
    intro L pt s hn hw hL
    obtain ⟨L, rfl⟩ : ∃ k, L = k + 1 := ⟨L - 1, by omega⟩
    obtain ⟨pre, post, o, r⟩ := s
    cases post with
    | nil => exact ih (by simp) hw (by simp)
    | cons c t =>
      have ho : o = 0 := by simpa [Cur.Wf] using hw
      subst ho
      simp only [List.length_cons] at hn hL
      by_cases hd : isDigitByte c = true ∨ (!pt && c == 46) = true
      · simp only [numberLoop]
        refine LexTot.bind (P := fun a s' => a = c ∧ s' = ⟨c :: pre, t, 0, r⟩)
          (LexTot.of_eq (fun e => run_byte0_cons pre t c 0 r e) ⟨List.suffix_cons _ _, .inl rfl⟩ ⟨rfl, rfl⟩) ?_
        rintro c _ h ⟨rfl, rfl⟩
        have key : ∀ p, LexTot (do let r ← numberLoop L p; pure (c :: r)) ⟨c :: pre, t, 0, r⟩
            fun b s' => b ≠ [] → s'.post.length < (c :: t).length := fun p => by
          refine LexTot.bind (ih (by simpa using Nat.le_of_succ_le_succ hn) h.2 (by simpa using Nat.lt_of_succ_lt_succ hL)) fun rs s2 h2 _ => ?_
          have := h2.len
          refine LexTot.pure h2.2 fun _ => ?_
          simp only [List.length_cons] at this ⊢; omega
        split
        · exact key _
        · split
          · exact key _
          · simp_all
      · refine LexTot.of_eq (a := []) (s' := ⟨pre, c :: t, 0, r⟩) (fun e => ?_) ⟨List.suffix_rfl, .inl rfl⟩ (by simp)
        simp only [not_or, Bool.not_eq_true] at hd
        simp only [numberLoop, Prog.run_bind, run_byte0_cons, hd.1, hd.2]
        simp [Prog.run_bind, Prog.run_pure]

theorem number_tot {L : Nat} {s : Cur} (hw : s.Wf) (hL : s.post.length < L) :
    LexTot (number L) s fun b s' => b ≠ none → s'.post.length < s.post.length := by
  refine LexTot.bind (peekByte_tot hw) fun c s1 h1 hq => ?_
  have l1 := h1.len
  dsimp only
  have key : ∀ s2 : Cur, s2.Wf → s2.post.length ≤ s.post.length → LexTot (do
        let buf ← numberLoop L false
        if buf.isEmpty then pure none else pure (some (if c == 45 then 45 :: buf else buf))) s2
        fun b s' => b ≠ none → s'.post.length < s.post.length := by
    intro s2 w2 l2
    refine LexTot.bind (numberLoop_tot _ (Nat.le_refl _) w2 (by omega)) fun b s3 h3 hb => ?_
    cases b with
    | nil => exact LexTot.pure h3.2 (by simp)
    | cons x b => exact LexTot.pure h3.2 fun _ => by have := hb (by simp); omega
  split
  · refine LexTot.bind (byte0_tot h1.2) fun _ s2 h2 _ => ?_
    have := h2.len
    exact key s2 h2.2 (by omega)
  · exact key s1 h1.2 l1

theorem whiteSpace_tot {L : Nat} {s : Cur} (hw : s.Wf) (hL : s.post.length < L) :
    LexTot (whiteSpace L) s fun _ _ => True := by
  refine LexTot.bind (readWhile_tot (by decide) hw hL) fun w s1 h1 _ => LexTot.pure h1.2 trivial

theorem operator_tot {L : Nat} {s : Cur} (hw : s.Wf) (hL : s.post.length < L) :
    LexTot (operator L) s fun b s' => b ≠ [] → s'.post.length < s.post.length := by
  refine (readWhile_tot (by decide) hw hL).mono ?_
  rintro w s' - ⟨rfl, h⟩ hw
  rw [h]
  have := congrArg List.length (List.takeWhile_append_dropWhile (p := isOperatorChar) (l := s.post))
  simp only [List.length_append] at this
  have : 0 < (s.post.takeWhile isOperatorChar).length := List.length_pos_iff.mpr hw
  omega

section
variable (E : Ext) (L : Nat)

/-- `x` on `s` returns; a true result means that something was consumed. -/
def Progress (x : Prog Bool) (s : Cur) : Prop :=
  ParTot x s fun b s' => b = true → s'.post.length < s.post.length

/-- What is proved of the mutually recursive methods for inputs of `n` bytes. -/
structure FlowOk (n : Nat) : Prop where
  expression : ∀ {f : Nat} {s : Cur}, s.Wf → s.post.length = n → n < L → LettersOk E s.post → 6 * n + 5 ≤ f →
    Progress (expression E L f) s
  pathElem : ∀ {f : Nat} {s : Cur} {dot any : Bool}, s.Wf → s.post.length = n → n < L → LettersOk E s.post → 6 * n + 2 ≤ f →
    ParTot (pathElem E L dot any f) s fun b s' => (b = true → any = true ∨ s'.post.length < s.post.length) ∧
      ((∃ c t, s.post = c :: t ∧ isLetterByte c = true) → s'.post.length < s.post.length)
  pathLoop : ∀ {f : Nat} {s : Cur} {any : Bool}, s.Wf → s.post.length = n → n < L → LettersOk E s.post → 6 * n + 3 ≤ f →
    ParTot (pathLoop E L any f) s fun _ _ => True
  exprLoop : ∀ {f : Nat} {s : Cur}, s.Wf → s.post.length = n → n < L → LettersOk E s.post → 6 * n + 1 ≤ f →
    ParTot (exprLoop E L f) s fun _ _ => True
  unary : ∀ {f : Nat} {s : Cur}, s.Wf → s.post.length = n → n < L → LettersOk E s.post → 6 * n + 4 ≤ f →
    Progress (unary E L f) s
  argLoop : ∀ {f : Nat} {s : Cur} {l : Nat} {b : Bool}, s.Wf → s.post.length = n → n < L → LettersOk E s.post → 6 * n + 6 ≤ f →
    ParTot (argLoop E L l b f) s fun _ _ => True

variable {E L}

theorem bracket_tot {n : Nat} (ih : ∀ m, m < n → FlowOk E L m) {opn cls : UInt8} {ty : Bytes} (h0 : opn ≠ 0) {f : Nat} {s : Cur} (hw : s.Wf)
    (hn : s.post.length = n) (hL : n < L) (hl : LettersOk E s.post) (hf : 6 * n + 1 ≤ f) :
    Progress (bracket E L opn cls ty f) s := by
  obtain ⟨f, rfl⟩ : ∃ k, f = k + 1 := ⟨f - 1, by omega⟩
  refine ParTot.bind (ParTot.lex (peekByte_tot hw)) fun c s1 h1 hq => ?_
  split
  · exact ParTot.pure h1.2 (by simp)
  · rename_i hc
    have hc : c = opn := by simpa using hc
    subst hc
    have hne : s.post ≠ [] := fun h => h0 (hq.2.1 h)
    refine ParTot.bind (ParTot.lex (byte0_tot h1.2)) fun _ s2 h2 hq2 => ?_
    have l2 : s2.post.length < n := by
      rcases hq2 with ⟨h, _⟩ | h
      · rw [hq.1] at h; exact absurd h hne
      · rw [hq.1] at h; rw [← hn, h]; simp
    refine ParTot.bind (ParTot.evLevel h2.2) fun i s3 h3 e3 => ?_
    subst e3
    refine ParTot.bind (ParTot.evAdd h2.2 _) fun _ s4 _ e4 => ?_
    subst e4
    refine ParTot.bind (ParTot.evInc h2.2) fun _ s4 _ e4 => ?_
    subst e4
    refine ParTot.bind (ParTot.lex (space_tot h2.2 (by omega))) fun _ s5 h5 _ => ?_
    have l5 := h5.len
    have hl5 := ((hl.adv h1).adv h2).adv h5
    refine ParTot.bind ((ih s5.post.length (by omega)).expression h5.2 rfl (by omega) hl5 (by omega)) fun _ s6 h6 _ => ?_
    have l6 := h6.len
    refine ParTot.bind (ParTot.lex (space_tot h6.2 (by omega))) fun _ s7 h7 _ => ?_
    have l7 := h7.len
    refine ParTot.bind (ParTot.lex (peekByte_tot h7.2)) fun c s8 h8 _ => ?_
    have l8 := h8.len
    split
    · exact ParTot.pure h8.2 (by simp)
    · refine ParTot.bind (ParTot.lex (byte0_tot h8.2)) fun _ s9 h9 _ => ?_
      have l9 := h9.len
      refine ParTot.bind (ParTot.evSetLevel h9.2 i) fun _ s10 h10 _ => ?_
      have l10 := h10.len
      exact ParTot.pure h10.2 fun _ => by omega

theorem args_tot {n : Nat} (ih : ∀ m, m < n → FlowOk E L m) {dot : Bool} {f : Nat} {s : Cur} (hw : s.Wf)
    (hn : s.post.length = n) (hL : n < L) (hl : LettersOk E s.post) (hf : 6 * n + 1 ≤ f) :
    Progress (args E L dot f) s := by
  obtain ⟨f, rfl⟩ : ∃ k, f = k + 1 := ⟨f - 1, by omega⟩
  refine ParTot.bind (ParTot.lex (peekByte_tot hw)) fun c s1 h1 hq => ?_
  split
  · exact ParTot.pure h1.2 (by simp)
  · rename_i hc
    have hc : c = 40 := by simpa using hc
    subst hc
    have hne : s.post ≠ [] := fun h => by simpa using hq.2.1 h
    refine ParTot.bind (ParTot.lex (byte0_tot h1.2)) fun _ s2 h2 hq2 => ?_
    have l2 : s2.post.length < n := by
      rcases hq2 with ⟨h, _⟩ | h
      · rw [hq.1] at h; exact absurd h hne
      · rw [hq.1] at h; rw [← hn, h]; simp
    refine ParTot.bind (ParTot.evLevel h2.2) fun i s3 h3 e3 => ?_
    subst e3
    refine ParTot.bind (ParTot.evAdd h2.2 _) fun _ s4 _ e4 => ?_
    subst e4
    refine ParTot.bind (ParTot.evInc h2.2) fun _ s4 _ e4 => ?_
    subst e4
    refine ParTot.bind (ParTot.lex (whiteSpace_tot h2.2 (by omega))) fun _ s5 h5 _ => ?_
    have l5 := h5.len
    have hl5 := ((hl.adv h1).adv h2).adv h5
    refine ParTot.bind (ParTot.evLevel h5.2) fun lv s3 h3 e3 => ?_
    subst e3
    refine ParTot.bind ((ih s3.post.length (by omega)).argLoop h5.2 rfl (by omega) hl5 (by omega)) fun _ s6 h6 _ => ?_
    have l6 := h6.len
    refine ParTot.bind (ParTot.evSetLevel h6.2 lv) fun _ s7 h7 e7 => ?_
    subst e7
    refine ParTot.bind (ParTot.lex (whiteSpace_tot h6.2 (by omega))) fun _ s7 h7 _ => ?_
    have l7 := h7.len
    refine ParTot.bind (ParTot.lex (peekByte_tot h7.2)) fun c s8 h8 _ => ?_
    have l8 := h8.len
    split
    · exact ParTot.pure h8.2 (by simp)
    · refine ParTot.bind (ParTot.lex (byte0_tot h8.2)) fun _ s9 h9 _ => ?_
      have l9 := h9.len
      refine ParTot.bind (ParTot.evSetLevel h9.2 i) fun _ s10 h10 _ => ?_
      have l10 := h10.len
      exact ParTot.pure h10.2 fun _ => by omega

theorem pathElem_tot {n : Nat} (ih : ∀ m, m < n → FlowOk E L m) {dot any : Bool} {f : Nat} {s : Cur} (hw : s.Wf)
    (hn : s.post.length = n) (hL : n < L) (hl : LettersOk E s.post) (hf : 6 * n + 2 ≤ f) :
    ParTot (pathElem E L dot any f) s fun b s' => (b = true → any = true ∨ s'.post.length < s.post.length) ∧
      ((∃ c t, s.post = c :: t ∧ isLetterByte c = true) → s'.post.length < s.post.length) := by
  obtain ⟨f, rfl⟩ : ∃ k, f = k + 1 := ⟨f - 1, by omega⟩
  have loop : ∀ s1 : Cur, s.Adv s1 → s1.post.length < n → ParTot (pathLoop E L true f) s1
      fun b s' => (b = true → any = true ∨ s'.post.length < s.post.length) ∧
      ((∃ c t, s.post = c :: t ∧ isLetterByte c = true) → s'.post.length < s.post.length) := fun s1 h1 l1 => by
    refine ((ih _ l1).pathLoop h1.2 rfl (by omega) (hl.adv h1) (by omega)).mono fun b s2 h2 _ => ?_
    have := h2.len
    exact ⟨fun _ => .inr (by omega), fun _ => by omega⟩
  have hlet : ∀ s1 : Cur, s1.post.length < n → (∃ c t, s.post = c :: t ∧ isLetterByte c = true) → s1.post.length < s.post.length :=
    fun s1 h _ => by omega
  refine ParTot.bind (ParTot.lex (quoted_tot 0 hw (by omega))) fun a s1 h1 hq => ?_
  cases a with
  | some b =>
    have l1 : s1.post.length < n := by
      rcases hq with ⟨h, _⟩ | h
      · simp at h
      · omega
    refine ParTot.bind (ParTot.evAdd h1.2 _) fun _ s2 _ e2 => ?_
    subst e2
    exact loop _ h1 l1
  | none =>
    dsimp only
    have l1 := h1.len
    refine ParTot.bind (ParTot.lex (token8_tot E h1.2 (by omega))) fun b s2 h2 hq2 => ?_
    have h12 := h1.trans h2
    have l2 := h2.len
    cases b with
    | cons x b =>
      refine ParTot.bind (ParTot.evAdd h2.2 _) fun _ s3 _ e2 => ?_
      subst e2
      exact loop _ h12 (by have := hq2.2 (by simp); omega)
    | nil =>
      obtain ⟨e2, hnt⟩ := hq2.1 rfl
      simp only [List.isEmpty_nil, Bool.not_true, Bool.false_eq_true, ↓reduceIte]
      -- a letter at the start would have been read as a token
      have hnl : (∃ c t, s.post = c :: t ∧ isLetterByte c = true) → s2.post.length < s.post.length := by
        rintro ⟨c, t, hct, hc⟩
        rcases hq with ⟨_, hp, _⟩ | hq
        · have := hnt c t (by rw [hp, hct])
          have := hl c t (by rw [hct]; exact List.suffix_rfl) hc
          simp_all
        · omega
      refine ParTot.bind (P := fun b s' => b = true → s'.post.length < s2.post.length) ?_ fun b s3 h3 hq3 => ?_
      · rcases Nat.lt_or_ge s2.post.length n with hlt | hge
        · exact bracket_tot (fun m hm => ih m (by omega)) (by decide) h2.2 rfl (by omega) (hl.adv h12) (by omega)
        · exact bracket_tot ih (by decide) h2.2 (by omega) (by omega) (hl.adv h12) (by omega)
      have h13 := h12.trans h3
      have l3 := h3.len
      cases b with
      | true => exact loop _ h13 (by have := hq3 rfl; omega)
      | false =>
        simp only [Bool.false_eq_true, ↓reduceIte]
        refine ParTot.bind (P := fun b s' => b = true → s'.post.length < s3.post.length) ?_ fun b s4 h4 hq4 => ?_
        · rcases Nat.lt_or_ge s3.post.length n with hlt | hge
          · exact bracket_tot (fun m hm => ih m (by omega)) (by decide) h3.2 rfl (by omega) (hl.adv h13) (by omega)
          · exact bracket_tot ih (by decide) h3.2 (by omega) (by omega) (hl.adv h13) (by omega)
        have h14 := h13.trans h4
        have l4 := h4.len
        cases b with
        | true => exact loop _ h14 (by have := hq4 rfl; omega)
        | false =>
          simp only [Bool.false_eq_true, ↓reduceIte]
          refine ParTot.bind (P := fun b s' => b = true → s'.post.length < s4.post.length) ?_ fun b s5 h5 hq5 => ?_
          · rcases Nat.lt_or_ge s4.post.length n with hlt | hge
            · exact args_tot (fun m hm => ih m (by omega)) h4.2 rfl (by omega) (hl.adv h14) (by omega)
            · exact args_tot ih h4.2 (by omega) (by omega) (hl.adv h14) (by omega)
          have h15 := h14.trans h5
          have l5 := h5.len
          cases b with
          | true => exact loop _ h15 (by have := hq5 rfl; omega)
          | false =>
            refine ParTot.pure h5.2 ⟨fun h => .inl h, fun h => ?_⟩
            have := hnl h
            omega

theorem pathLoop_tot {n : Nat} (ih : ∀ m, m < n → FlowOk E L m) {any : Bool} {f : Nat} {s : Cur} (hw : s.Wf)
    (hn : s.post.length = n) (hL : n < L) (hl : LettersOk E s.post) (hf : 6 * n + 3 ≤ f) :
    ParTot (pathLoop E L any f) s fun _ _ => True := by
  obtain ⟨f, rfl⟩ : ∃ k, f = k + 1 := ⟨f - 1, by omega⟩
  obtain ⟨pre, post, o, r⟩ := s
  cases post with
  | nil =>
    refine fun e he => ⟨any, ⟨pre, [], 0, r⟩, e, ?_, he, ⟨List.suffix_rfl, .inr rfl⟩, trivial⟩
    simp [pathLoop, Prog.run_bind, Prog.run_pure]
  | cons c t =>
    have ho : o = 0 := by simpa [Cur.Wf] using hw
    subst ho
    intro e he
    by_cases h46 : c = 46
    · subst h46
      have hn' : t.length + 1 = n := by simpa using hn
      have ha : (Cur.mk pre (46 :: t) 0 r).Adv ⟨46 :: pre, t, 0, r⟩ := ⟨List.suffix_cons _ _, .inl rfl⟩
      have := (ih t.length (by omega)).pathElem (f := f) (s := ⟨46 :: pre, t, 0, r⟩) (dot := true) (any := any)
        (.inl rfl) rfl (by omega) (hl.adv ha) (by omega) e he
      obtain ⟨b, s', e', hr, h1, h2, _⟩ := this
      exact ⟨b, s', e', by simp [pathLoop, Prog.run_bind, hr], h1, ha.trans h2, trivial⟩
    · by_cases hc : (c != 91 && c != 40 && c != 123) = true
      · refine ⟨any, ⟨pre, c :: t, 0, r⟩, e, ?_, he, Cur.Adv.refl hw, trivial⟩
        simp only [pathLoop, Prog.run_bind, run_byte0_cons, show (c == 46) = false by simpa using h46]
        simp only [Bool.false_eq_true, ↓reduceIte, Prog.run_bind, run_unread_zero, hc, Prog.run_pure]
      · have := pathElem_tot ih (dot := false) (any := any) (f := f) hw hn hL hl (by omega) e he
        obtain ⟨b, s', e', hr, h1, h2, _⟩ := this
        refine ⟨b, s', e', ?_, h1, h2, trivial⟩
        simp only [pathLoop, Prog.run_bind, run_byte0_cons, show (c == 46) = false by simpa using h46]
        simp only [Bool.false_eq_true, ↓reduceIte, Prog.run_bind, run_unread_zero, hc, hr]

theorem path_tot {n : Nat} (ih : ∀ m, m < n → FlowOk E L m) {f : Nat} {s : Cur} (hw : s.Wf)
    (hn : s.post.length = n) (hL : n < L) (hl : LettersOk E s.post) (hf : 6 * n + 3 ≤ f) :
    ParTot (path E L f) s fun b s' => (b = true → s'.post.length < s.post.length) ∧
      ((∃ c t, s.post = c :: t ∧ isLetterByte c = true) → s'.post.length < s.post.length) := by
  obtain ⟨f, rfl⟩ : ∃ k, f = k + 1 := ⟨f - 1, by omega⟩
  exact (pathElem_tot ih hw hn hL hl (by omega)).mono fun b s' _ h => ⟨fun hb => by simpa using h.1 hb, h.2⟩

theorem unary_tot {n : Nat} (ih : ∀ m, m < n → FlowOk E L m) {f : Nat} {s : Cur} (hw : s.Wf)
    (hn : s.post.length = n) (hL : n < L) (hl : LettersOk E s.post) (hf : 6 * n + 4 ≤ f) :
    Progress (unary E L f) s := by
  obtain ⟨f, rfl⟩ : ∃ k, f = k + 1 := ⟨f - 1, by omega⟩
  refine ParTot.bind (ParTot.lex (peekByte_tot hw)) fun c s1 h1 hq => ?_
  have l1 : s1.post.length = n := by rw [hq.1, hn]
  split
  · rename_i hc
    refine ParTot.bind (ParTot.evAdd h1.2 _) fun _ s2 _ e2 => ?_
    subst e2
    refine ParTot.bind (ParTot.evInc h1.2) fun _ s3 _ e2 => ?_
    subst e2
    refine ParTot.bind (path_tot ih h1.2 l1 hL (hl.adv h1) (by omega)) fun _ s4 h4 hq4 => ?_
    refine ParTot.bind (ParTot.evDec h4.2) fun _ s5 _ e5 => ?_
    subst e5
    refine ParTot.pure h4.2 fun _ => ?_
    rw [hn, ← l1]
    refine hq4.2 ?_
    cases hp : s.post with
    | nil =>
      rw [hq.2.1 hp] at hc
      exact absurd hc (by decide)
    | cons d t => exact ⟨d, t, by rw [hq.1, hp], by rw [← hq.2.2 d t hp]; exact hc⟩
  · refine ParTot.bind (ParTot.lex (number_tot h1.2 (by omega))) fun a s2 h2 hq2 => ?_
    have l2 := h2.len
    cases a with
    | some b =>
      refine ParTot.bind (ParTot.evAdd h2.2 _) fun _ s3 _ e3 => ?_
      subst e3
      exact ParTot.pure h2.2 fun _ => by have := hq2 (by simp); omega
    | none =>
      dsimp only
      refine ParTot.bind (ParTot.lex (quoted_tot 0 h2.2 (by omega))) fun a s3 h3 hq3 => ?_
      have l3 := h3.len
      cases a with
      | some b =>
        dsimp only
        refine ParTot.bind (ParTot.evAdd h3.2 _) fun _ s4 _ e4 => ?_
        subst e4
        refine ParTot.bind (ParTot.evInc h3.2) fun _ s5 _ e4 => ?_
        subst e4
        refine ParTot.bind (ParTot.evAdd h3.2 _) fun _ s6 _ e4 => ?_
        subst e4
        refine ParTot.bind (ParTot.evDec h3.2) fun _ s7 _ e4 => ?_
        subst e4
        refine ParTot.pure h3.2 fun _ => ?_
        rcases hq3 with ⟨h, _⟩ | h
        · simp at h
        · omega
      | none =>
        dsimp only
        refine ParTot.bind (ParTot.lex (operator_tot h3.2 (by omega))) fun b s4 h4 hq4 => ?_
        have l4 := h4.len
        have h14 := ((h1.trans h2).trans h3).trans h4
        -- the rest of the operand
        have key : ParTot (do
            let c ← peekByte
            if c == 40 then do
              let _ ← byte0
              evAdd (.str tyGroup)
              evInc
              let _ ← space L
              let _ ← expression E L f
              let _ ← space L
              evDec
              let c ← peekByte
              if c != 41 then pure false
              else do
                let _ ← byte0
                pure true
            else path E L f) s4 fun b s' => b = true → s'.post.length < s.post.length := by
          refine ParTot.bind (ParTot.lex (peekByte_tot h4.2)) fun c s5 h5 hq5 => ?_
          have l5 := h5.len
          have h15 := h14.trans h5
          split
          · rename_i hc
            have hc : c = 40 := by simpa using hc
            subst hc
            have hne : s4.post ≠ [] := fun h => by simpa using hq5.2.1 h
            refine ParTot.bind (ParTot.lex (byte0_tot h5.2)) fun _ s6 h6 hq6 => ?_
            have l6 : s6.post.length < s5.post.length := by
              rcases hq6 with ⟨h, _⟩ | h
              · rw [hq5.1] at h; exact absurd h hne
              · rw [h]; simp
            refine ParTot.bind (ParTot.evAdd h6.2 _) fun _ s7 _ e => ?_
            subst e
            refine ParTot.bind (ParTot.evInc h6.2) fun _ s8 _ e => ?_
            subst e
            refine ParTot.bind (ParTot.lex (space_tot h6.2 (by omega))) fun _ s9 h9 _ => ?_
            have l9 := h9.len
            refine ParTot.bind ((ih s9.post.length (by omega)).expression h9.2 rfl (by omega)
              (hl.adv ((h15.trans h6).trans h9)) (by omega)) fun _ s10 h10 _ => ?_
            have l10 := h10.len
            refine ParTot.bind (ParTot.lex (space_tot h10.2 (by omega))) fun _ s11 h11 _ => ?_
            have l11 := h11.len
            refine ParTot.bind (ParTot.evDec h11.2) fun _ s12 _ e => ?_
            subst e
            refine ParTot.bind (ParTot.lex (peekByte_tot h11.2)) fun c s13 h13 _ => ?_
            have l13 := h13.len
            split
            · exact ParTot.pure h13.2 (by simp)
            · refine ParTot.bind (ParTot.lex (byte0_tot h13.2)) fun _ s14 h14 _ => ?_
              have l14 := h14.len
              exact ParTot.pure h14.2 fun _ => by omega
          · rcases Nat.lt_or_ge s5.post.length n with hlt | hge
            · refine (path_tot (fun m hm => ih m (by omega)) h5.2 rfl (by omega) (hl.adv h15) (by omega)).mono fun b s6 _ h6 hb => ?_
              have := h6.1 hb
              omega
            · refine (path_tot ih h5.2 (by omega) (by omega) (hl.adv h15) (by omega)).mono fun b s6 _ h6 hb => ?_
              have := h6.1 hb
              omega
        split
        · refine ParTot.bind (ParTot.evAdd h4.2 _) fun _ s5 _ e => ?_
          subst e
          exact key
        · exact key

theorem flowOk (n : Nat) : FlowOk E L n := by
  induction n using Nat.strongRecOn with
  | ind n ih =>
    have hexprLoop : ∀ {f : Nat} {s : Cur}, s.Wf → s.post.length = n → n < L → LettersOk E s.post → 6 * n + 1 ≤ f →
        ParTot (exprLoop E L f) s fun _ _ => True := by
      intro f s hw hn hL hl hf
      obtain ⟨f, rfl⟩ : ∃ k, f = k + 1 := ⟨f - 1, by omega⟩
      refine ParTot.bind (ParTot.lex (space_tot hw (by omega))) fun _ s1 h1 _ => ?_
      have l1 := h1.len
      refine ParTot.bind (ParTot.lex (operator_tot h1.2 (by omega))) fun b s2 h2 hq2 => ?_
      have l2 := h2.len
      split
      · exact ParTot.pure h2.2 trivial
      · rename_i hb
        have l2' := hq2 (by simpa using hb)
        refine ParTot.bind (ParTot.evAdd h2.2 _) fun _ s3 _ e => ?_
        subst e
        refine ParTot.bind (ParTot.lex (space_tot h2.2 (by omega))) fun _ s4 h4 _ => ?_
        have l4 := h4.len
        have h14 := (h1.trans h2).trans h4
        refine ParTot.bind ((ih s4.post.length (by omega)).unary h4.2 rfl (by omega) (hl.adv h14) (by omega)) fun b s5 h5 _ => ?_
        have l5 := h5.len
        cases b with
        | false => exact ParTot.pure h5.2 trivial
        | true =>
          simp only [Bool.not_true, Bool.false_eq_true, ↓reduceIte]
          refine ParTot.bind (ParTot.lex (space_tot h5.2 (by omega))) fun _ s6 h6 _ => ?_
          have l6 := h6.len
          exact (ih s6.post.length (by omega)).exprLoop h6.2 rfl (by omega) (hl.adv ((h14.trans h5).trans h6)) (by omega)
    have hexpr : ∀ {f : Nat} {s : Cur}, s.Wf → s.post.length = n → n < L → LettersOk E s.post → 6 * n + 5 ≤ f →
        Progress (expression E L f) s := by
      intro f s hw hn hL hl hf
      obtain ⟨f, rfl⟩ : ∃ k, f = k + 1 := ⟨f - 1, by omega⟩
      refine ParTot.bind (unary_tot ih hw hn hL hl (by omega)) fun b s1 h1 hq => ?_
      cases b with
      | false => exact ParTot.pure h1.2 (by simp)
      | true =>
        have l1 := hq rfl
        simp only [Bool.not_true, Bool.false_eq_true, ↓reduceIte]
        refine ((ih s1.post.length (by omega)).exprLoop h1.2 rfl (by omega) (hl.adv h1) (by omega)).mono fun _ s2 h2 _ _ => ?_
        have l2 := h2.len
        omega
    refine ⟨hexpr, pathElem_tot ih, pathLoop_tot ih, hexprLoop, unary_tot ih, ?_⟩
    intro f s l b hw hn hL hl hf
    obtain ⟨f, rfl⟩ : ∃ k, f = k + 1 := ⟨f - 1, by omega⟩
    refine ParTot.bind (ParTot.lex (whiteSpace_tot hw (by omega))) fun _ s1 h1 _ => ?_
    have l1 := h1.len
    refine ParTot.bind (ParTot.evAdd h1.2 _) fun _ s2 _ e => ?_
    subst e
    refine ParTot.bind (ParTot.evInc h1.2) fun _ s3 _ e => ?_
    subst e
    refine ParTot.bind (P := fun b s' => b = true → s'.post.length < s3.post.length) ?_ fun b s4 h4 hq4 => ?_
    · rcases Nat.lt_or_ge s3.post.length n with hlt | hge
      · exact (ih _ hlt).expression h1.2 rfl (by omega) (hl.adv h1) (by omega)
      · exact hexpr h1.2 (by omega) (by omega) (hl.adv h1) (by omega)
    have l4 := h4.len
    have h14 := h1.trans h4
    cases b with
    | false =>
      simp only [Bool.not_false, ↓reduceIte]
      refine ParTot.bind (ParTot.evDec h4.2) fun _ s5 _ e => ?_
      subst e
      refine ParTot.bind (ParTot.evDelete h4.2) fun _ s6 _ e => ?_
      subst e
      exact ParTot.pure h4.2 trivial
    | true =>
      have l4' := hq4 rfl
      simp only [Bool.not_true, Bool.false_eq_true, ↓reduceIte]
      refine ParTot.bind (ParTot.evDec h4.2) fun _ s5 _ e => ?_
      subst e
      refine ParTot.bind (ParTot.lex (whiteSpace_tot h4.2 (by omega))) fun _ s6 h6 _ => ?_
      have l6 := h6.len
      refine ParTot.bind (ParTot.lex (peekByte_tot h6.2)) fun c s7 h7 _ => ?_
      have l7 := h7.len
      have h17 := (h14.trans h6).trans h7
      split
      · exact ParTot.pure h7.2 trivial
      · split
        · refine ParTot.bind (ParTot.lex (byte0_tot h7.2)) fun _ s8 h8 _ => ?_
          have l8 := h8.len
          refine ParTot.bind (ParTot.evSetLevel h8.2 l) fun _ s9 _ e => ?_
          subst e
          exact (ih s9.post.length (by omega)).argLoop h8.2 rfl (by omega) (hl.adv (h17.trans h8)) (by omega)
        · refine ParTot.bind (ParTot.evInc h7.2) fun _ s9 _ e => ?_
          subst e
          exact (ih s9.post.length (by omega)).argLoop h7.2 rfl (by omega) (hl.adv h17) (by omega)
end

section
variable {E : Ext} {L : Nat}

theorem expression_total {f : Nat} {s : Cur} (hw : s.Wf) (hL : s.post.length < L) (hl : LettersOk E s.post)
    (hf : 6 * s.post.length + 5 ≤ f) : Progress (expression E L f) s :=
  (flowOk _).expression hw rfl hL hl hf

theorem path_total {f : Nat} {s : Cur} (hw : s.Wf) (hL : s.post.length < L) (hl : LettersOk E s.post)
    (hf : 6 * s.post.length + 3 ≤ f) : ParTot (path E L f) s fun _ _ => True :=
  (path_tot (fun m _ => flowOk m) hw rfl hL hl hf).mono fun _ _ _ _ => trivial

theorem unread_back (c : UInt8) (pre t : Bytes) (r : List Nat) (e : Ev) :
    (do let c ← byte0; unread; pure c : Prog UInt8).run curM ⟨pre, c :: t, 0, r⟩ e = .ok (c, ⟨pre, c :: t, 0, r⟩, e) := rfl

theorem variable_tot {f : Nat} {s : Cur} (hw : s.Wf) (hL : s.post.length < L) (hl : LettersOk E s.post)
    (hf : 6 * s.post.length + 5 ≤ f) : Progress (variable' E L f) s := by
  obtain ⟨pre, post, o, r⟩ := s
  cases post with
  | nil =>
    refine fun e he => ⟨false, ⟨pre, [], 0, r⟩, e, ?_, he, ⟨List.suffix_rfl, .inr rfl⟩, by simp⟩
    simp [variable', Prog.run_bind, Prog.run_pure]
  | cons c t =>
    have ho : o = 0 := by simpa [Cur.Wf] using hw
    subst ho
    by_cases hc : c = 36
    · subst hc
      simp only [List.length_cons] at hL hf
      have a1 : (Cur.mk pre (36 :: t) 0 r).Adv ⟨36 :: pre, t, 0, r⟩ := ⟨List.suffix_cons _ _, .inl rfl⟩
      -- the two reads of the next byte
      suffices h : ParTot (do
          let i ← evLevel
          let c ← byte0
          if c == 40 then do
            evAdd (.str tyExpression)
            evInc
            let _ ← expression E L f
            let _ ← space L
            let _ ← byte0
          else do
            evAdd (.str tyPath)
            evInc
            if c != 123 then unread
            else do
              let _ ← space L
            let _ ← path E L f
            if c == 123 then do
              let _ ← space L
              let _ ← byte0
          evSetLevel i
          pure true) ⟨36 :: pre, t, 0, r⟩ fun _ _ => True by
        cases t with
        | nil =>
          intro e he
          obtain ⟨b, s', e', hr, h1, h2, _⟩ := h e he
          refine ⟨b, s', e', ?_, h1, a1.trans h2, fun _ => ?_⟩
          · simp only [variable', Prog.run_bind, run_byte0_cons, run_byte0_nil, run_unread_one, bne_self_eq_false,
              Bool.false_eq_true, ↓reduceIte, show ((0 : UInt8) == 92) = false by decide]
            rw [← hr]
            simp only [Prog.run_bind]
          · have := h2.len
            simp at this ⊢; simp [this]
        | cons d t =>
          by_cases hd : d = 92
          · subst hd
            intro e he
            refine ⟨true, ⟨92 :: 36 :: pre, t, 0, r⟩, e.add (.str b!"$"), ?_, he.add _, ⟨⟨[36, 92], rfl⟩, .inl rfl⟩, fun _ => ?_⟩
            · simp [variable', Prog.run_bind, Prog.run_pure]
            · simp only [List.length_cons]; omega
          · intro e he
            obtain ⟨b, s', e', hr, h1, h2, _⟩ := h e he
            refine ⟨b, s', e', ?_, h1, a1.trans h2, fun _ => ?_⟩
            · simp only [variable', Prog.run_bind, run_byte0_cons, run_unread_zero, bne_self_eq_false,
                Bool.false_eq_true, ↓reduceIte, show (d == 92) = false by simpa using hd]
              rw [← hr]
              simp only [Prog.run_bind]
            · have := h2.len
              simp only [List.length_cons] at this ⊢; omega
      refine ParTot.bind (ParTot.evLevel a1.2) fun i s1 _ e1 => ?_
      subst e1
      have fin : ∀ s2 : Cur, s2.Wf → ParTot (do evSetLevel i; pure true : Prog Bool) s2 fun _ _ => True := fun s2 w2 =>
        ParTot.bind (ParTot.evSetLevel w2 i) fun _ s3 h3 _ => ParTot.pure h3.2 trivial
      have hlt : LettersOk E t := hl.suffix (List.suffix_cons _ _)
      have hpath : ∀ e : Ev, e.Ok → Tot (do
          let _ ← path E L f
          evSetLevel i
          pure true : Prog Bool) ⟨36 :: pre, t, 0, r⟩ e fun _ s' e' => e'.Ok ∧ (Cur.mk (36 :: pre) t 0 r).Adv s' ∧ True :=
        ParTot.bind (path_total (.inl rfl) (by simp; omega) hlt (by simp; omega)) fun _ s2 h2 _ => fin s2 h2.2
      cases t with
      | nil =>
        intro e he
        obtain ⟨b, s', e', hr, h⟩ := hpath ((e.add (.str tyPath)).inc) (he.add _).inc
        refine ⟨b, s', e', ?_, h⟩
        simp only [Prog.run_bind, run_byte0_nil, run_evAdd, run_evInc, run_unread_one, show ((0 : UInt8) == 40) = false by decide,
          show ((0 : UInt8) != 123) = true by decide, show ((0 : UInt8) == 123) = false by decide,
          Bool.false_eq_true, ↓reduceIte] at hr ⊢
        exact hr
      | cons d t =>
        simp only [List.length_cons] at hL hf
        have a2 : (Cur.mk (36 :: pre) (d :: t) 0 r).Adv ⟨d :: 36 :: pre, t, 0, r⟩ := ⟨List.suffix_cons _ _, .inl rfl⟩
        by_cases h40 : d = 40
        · refine ParTot.bind (P := fun a s' => a = d ∧ s' = ⟨d :: 36 :: pre, t, 0, r⟩)
            (ParTot.lex (LexTot.of_eq (fun e => run_byte0_cons (36 :: pre) t d 0 r e) a2 ⟨rfl, rfl⟩)) ?_
          rintro _ _ h ⟨rfl, rfl⟩
          rw [if_pos (by simpa using h40)]
          refine ParTot.bind (ParTot.evAdd h.2 _) fun _ s2 _ e2 => ?_
          subst e2
          refine ParTot.bind (ParTot.evInc h.2) fun _ s3 _ e3 => ?_
          subst e3
          refine ParTot.bind (expression_total h.2 (by simp; omega) (hlt.adv a2) (by simp; omega)) fun _ s4 h4 _ => ?_
          have l4 := h4.len
          simp only at l4
          refine ParTot.bind (ParTot.lex (space_tot h4.2 (by omega))) fun _ s5 h5 _ => ?_
          refine ParTot.bind (ParTot.lex (byte0_tot h5.2)) fun _ s6 h6 _ => fin _ h6.2
        · by_cases h123 : d = 123
          · refine ParTot.bind (P := fun a s' => a = d ∧ s' = ⟨d :: 36 :: pre, t, 0, r⟩)
              (ParTot.lex (LexTot.of_eq (fun e => run_byte0_cons (36 :: pre) t d 0 r e) a2 ⟨rfl, rfl⟩)) ?_
            rintro _ _ h ⟨rfl, rfl⟩
            rw [if_neg (by simpa using h40)]
            refine ParTot.bind (ParTot.evAdd h.2 _) fun _ s2 _ e2 => ?_
            subst e2
            refine ParTot.bind (ParTot.evInc h.2) fun _ s3 _ e3 => ?_
            subst e3
            dsimp only
            rw [if_neg (by simpa using h123)]
            refine ParTot.bind (ParTot.lex (space_tot h.2 (by simp; omega))) fun _ s4 h4 _ => ?_
            have l4 := h4.len
            simp only at l4
            refine ParTot.bind (path_total h4.2 (by omega) (hlt.adv (a2.trans h4)) (by omega)) fun _ s5 h5 _ => ?_
            have l5 := h5.len
            rw [if_pos (by simpa using h123)]
            refine ParTot.bind (ParTot.lex (space_tot h5.2 (by omega))) fun _ s6 h6 _ => ?_
            refine ParTot.bind (ParTot.lex (byte0_tot h6.2)) fun _ s7 h7 _ => fin _ h7.2
          · intro e he
            obtain ⟨b, s', e', hr, h⟩ := hpath ((e.add (.str tyPath)).inc) (he.add _).inc
            refine ⟨b, s', e', ?_, h⟩
            simp only [Prog.run_bind, run_byte0_cons, run_evAdd, run_evInc, run_unread_zero, show (d == 40) = false by simpa using h40,
              show (d != 123) = true by simpa using h123, show (d == 123) = false by simpa using h123,
              Bool.false_eq_true, ↓reduceIte] at hr ⊢
            exact hr
    · refine fun e he => ⟨false, ⟨pre, c :: t, 0, r⟩, e, ?_, he, Cur.Adv.refl hw, by simp⟩
      simp [variable', Prog.run_bind, Prog.run_pure, hc]

theorem template_tot {g : Nat} : ∀ (n : Nat) {f : Nat} {s : Cur}, s.post.length ≤ n → s.Wf → s.post.length < L →
    LettersOk E s.post → 6 * s.post.length + 5 ≤ g → s.post.length < f → ParTot (template E L g f) s fun _ _ => True := by
  intro n
  induction n with
  | zero =>
    intro f s hn hw hL hl hg hf
    obtain ⟨f, rfl⟩ : ∃ k, f = k + 1 := ⟨f - 1, by omega⟩
    have h0 : s.post = [] := by simpa using hn
    refine ParTot.bind (ParTot.lex (readWhile_tot (by decide) hw hL)) fun w s1 h1 hq => ?_
    have hw : w = [] := by rw [hq.1, h0]; rfl
    subst hw
    have l1 := h1.len
    refine ParTot.bind (variable_tot h1.2 (by omega) (hl.adv h1) (by omega)) fun b s2 h2 hq2 => ?_
    cases b with
    | true => have := hq2 rfl; omega
    | false => exact ParTot.pure h2.2 trivial
  | succ n ih =>
    intro f s hn hw hL hl hg hf
    obtain ⟨f, rfl⟩ : ∃ k, f = k + 1 := ⟨f - 1, by omega⟩
    refine ParTot.bind (ParTot.lex (readWhile_tot (by decide) hw hL)) fun w s1 h1 hq => ?_
    have l1 := h1.len
    have hsum := congrArg List.length (List.takeWhile_append_dropWhile (p := isTemplateTextChar) (l := s.post))
    rw [List.length_append, ← hq.1, ← hq.2] at hsum
    cases w with
    | cons x w =>
      simp only [List.length_cons] at hsum
      refine ParTot.bind (ParTot.evAdd h1.2 _) fun _ s2 _ e => ?_
      subst e
      exact ih (by omega) h1.2 (by omega) (hl.adv h1) (by omega) (by omega)
    | nil =>
      simp only [List.isEmpty_nil, Bool.not_true, Bool.false_eq_true, ↓reduceIte]
      refine ParTot.bind (variable_tot h1.2 (by omega) (hl.adv h1) (by omega)) fun b s2 h2 hq2 => ?_
      have l2 := h2.len
      cases b with
      | true =>
        have := hq2 rfl
        exact ih (by omega) h2.2 (by omega) (hl.adv (h1.trans h2)) (by omega) (by omega)
      | false => exact ParTot.pure h2.2 trivial
end

end Ogdl
