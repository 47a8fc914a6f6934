import Verif.Lemmas.Lexer
import Verif.Lemmas.BinaryTotal
import Verif.Model.Block

/-! Every lexer method and the OGDL text parser return on every input. -/

namespace Ogdl
open Lex

/-- `s'` is `s` or further on. -/
def Cur.Adv (s s' : Cur) : Prop := s'.post <:+ s.post ∧ s'.Wf

theorem Cur.Adv.trans {a b c : Cur} (h : a.Adv b) (h' : b.Adv c) : a.Adv c :=
  ⟨h'.1.trans h.1, h'.2⟩

theorem Cur.Adv.refl {a : Cur} (h : a.Wf) : a.Adv a := ⟨List.suffix_rfl, h⟩

theorem Cur.Adv.len {a b : Cur} (h : a.Adv b) : b.post.length ≤ a.post.length := h.1.length_le

/-- The program leaves the events alone, returns, and ends further on with `Q`. -/
def LexTot {α : Type} (x : Prog α) (s : Cur) (Q : α → Cur → Prop) : Prop :=
  ∀ e, Tot x s e fun a s' e' => e' = e ∧ s.Adv s' ∧ Q a s'

namespace LexTot

theorem pure {α : Type} {a : α} {s : Cur} {Q : α → Cur → Prop} (hw : s.Wf) (h : Q a s) :
    LexTot (Pure.pure a : Prog α) s Q := fun _ => Tot.pure ⟨rfl, Cur.Adv.refl hw, h⟩

theorem mono {α : Type} {x : Prog α} {s : Cur} {P Q : α → Cur → Prop}
    (h : LexTot x s P) (hpq : ∀ a s', s.Adv s' → P a s' → Q a s') : LexTot x s Q := fun e =>
  (h e).mono fun _ _ _ ⟨h1, h2, h3⟩ => ⟨h1, h2, hpq _ _ h2 h3⟩

theorem bind {α β : Type} {x : Prog α} {f : α → Prog β} {s : Cur}
    {P : α → Cur → Prop} {Q : β → Cur → Prop} (h : LexTot x s P)
    (hf : ∀ a s', s.Adv s' → P a s' → LexTot (f a) s' Q) : LexTot (x >>= f) s Q := fun e =>
  (h e).bind fun a s' e' ⟨h1, h2, h3⟩ => by
    subst h1
    exact (hf a s' h2 h3 e').mono fun _ _ _ ⟨h4, h5, h6⟩ => ⟨h4, h2.trans h5, h6⟩

theorem tot {α : Type} {x : Prog α} {s : Cur} {P : α → Cur → Prop} (h : LexTot x s P) (e : Ev) :
    Tot x s e fun a s' e' => e' = e ∧ s.Adv s' ∧ P a s' := h e

theorem of_eq {α : Type} {x : Prog α} {s s' : Cur} {a : α} {Q : α → Cur → Prop}
    (h : ∀ e, x.run curM s e = .ok (a, s', e)) (ha : s.Adv s') (hq : Q a s') : LexTot x s Q :=
  fun e => ⟨a, s', e, h e, rfl, ha, hq⟩

end LexTot

theorem readWhile_tot {p : UInt8 → Bool} (h0 : p 0 = false) {L : Nat} {s : Cur} (hw : s.Wf)
    (hL : s.post.length < L) :
    LexTot (readWhile p L) s fun w s' => w = s.post.takeWhile p ∧ s'.post = s.post.dropWhile p := by
  obtain ⟨pre, post, o, r⟩ := s
  exact LexTot.of_eq (fun e => run_readWhile p h0 post pre o r e L hw hL)
    ⟨List.dropWhile_suffix p, .inl rfl⟩ ⟨rfl, rfl⟩

theorem space_tot {L : Nat} {s : Cur} (hw : s.Wf) (hL : s.post.length < L) :
    LexTot (space L) s fun _ s' => s'.post = s.post.dropWhile isSpaceChar := by
  obtain ⟨pre, post, o, r⟩ := s
  exact LexTot.of_eq (fun e => run_space L post pre o r e hw hL)
    ⟨List.dropWhile_suffix _, .inl rfl⟩ rfl

theorem endp_tot {s : Cur} (hw : s.Wf) :
    LexTot endp s fun b s' => b = false → s' = s ∧ ∃ c t, s.post = c :: t ∧ isEndChar c = false := by
  obtain ⟨pre, post, o, r⟩ := s
  cases post with
  | nil =>
    refine LexTot.of_eq (a := true) (s' := ⟨pre, [], 1, r⟩) (fun e => ?_) ⟨List.suffix_rfl, .inr rfl⟩ (by simp)
    simp [endp, Prog.run_bind, Prog.run_pure]
  | cons c t =>
    have ho : o = 0 := by simpa [Cur.Wf] using hw
    subst ho
    cases hc : isEndChar c with
    | true =>
      refine LexTot.of_eq (a := true) (s' := ⟨c :: pre, t, 0, r⟩) (fun e => ?_) ⟨List.suffix_cons _ _, .inl rfl⟩ (by simp)
      simp [endp, Prog.run_bind, Prog.run_pure, hc]
    | false =>
      refine LexTot.of_eq (a := false) (s' := ⟨pre, c :: t, 0, r⟩) (fun e => ?_) ⟨List.suffix_rfl, .inl rfl⟩
        (fun _ => ⟨rfl, c, t, rfl, hc⟩)
      simp [endp, Prog.run_bind, Prog.run_pure, hc]

theorem brk_tot {s : Cur} (hw : s.Wf) :
    LexTot brk s fun b s' =>
      (b = false ∧ s'.post = s.post ∧ s.post.head? ≠ some 10 ∧ s.post.head? ≠ some 13) ∨
        s'.post.length < s.post.length := by
  obtain ⟨pre, post, o, r⟩ := s
  cases post with
  | nil =>
    refine LexTot.of_eq (a := false) (s' := ⟨pre, [], 0, r⟩) (fun e => ?_) ⟨List.suffix_rfl, .inr rfl⟩
      (.inl (by simp))
    simp [brk, Prog.run_bind, Prog.run_pure]
  | cons c t =>
    have ho : o = 0 := by simpa [Cur.Wf] using hw
    subst ho
    by_cases h13 : c = 13
    · subst h13
      cases t with
      | nil =>
        refine LexTot.of_eq (a := false) (s' := ⟨13 :: pre, [], 0, r⟩) (fun e => ?_) ⟨List.suffix_cons _ _, .inr rfl⟩
          (.inr (by simp))
        simp [brk, Prog.run_bind, Prog.run_pure]
      | cons d t =>
        by_cases h10 : d = 10
        · subst h10
          refine LexTot.of_eq (a := true) (s' := ⟨10 :: 13 :: pre, t, 0, r⟩) (fun e => ?_)
            ⟨⟨[13, 10], rfl⟩, .inl rfl⟩ (.inr (by simp; omega))
          simp [brk, Prog.run_bind, Prog.run_pure]
        · refine LexTot.of_eq (a := false) (s' := ⟨13 :: pre, d :: t, 0, r⟩) (fun e => ?_)
            ⟨⟨[13], rfl⟩, .inl rfl⟩ (.inr (by simp))
          simp [brk, Prog.run_bind, Prog.run_pure, h10]
    · by_cases h10 : c = 10
      · subst h10
        refine LexTot.of_eq (a := true) (s' := ⟨10 :: pre, t, 0, r⟩) (fun e => ?_)
          ⟨⟨[10], rfl⟩, .inl rfl⟩ (.inr (by simp))
        simp [brk, Prog.run_bind, Prog.run_pure]
      · refine LexTot.of_eq (a := false) (s' := ⟨pre, c :: t, 0, r⟩) (fun e => ?_)
            ⟨List.suffix_rfl, .inl rfl⟩ (.inl (by simp [h10, h13]))
        simp [brk, Prog.run_bind, Prog.run_pure, h10, h13]

/-- A byte is read: at the end nothing happens but the position moves beyond it. -/
theorem byte0_tot {s : Cur} (hw : s.Wf) :
    LexTot byte0 s fun c s' => (s.post = [] ∧ c = 0 ∧ s'.post = []) ∨
      (s.post = c :: s'.post) := by
  obtain ⟨pre, post, o, r⟩ := s
  cases post with
  | nil => exact LexTot.of_eq (a := 0) (s' := ⟨pre, [], 1, r⟩) (fun e => rfl) ⟨List.suffix_rfl, .inr rfl⟩ (by simp)
  | cons c t =>
    have ho : o = 0 := by simpa [Cur.Wf] using hw
    subst ho
    exact LexTot.of_eq (a := c) (s' := ⟨c :: pre, t, 0, r⟩) (fun e => rfl) ⟨List.suffix_cons _ _, .inl rfl⟩ (by simp)

theorem commentLoop_tot : ∀ (n : Nat) {L : Nat} {s : Cur}, s.post.length ≤ n → s.Wf → s.post.length < L →
    LexTot (commentLoop L) s fun _ _ => True := by
  intro n
  induction n with
  | zero =>
    intro L s hn hw hL
    obtain ⟨L, rfl⟩ : ∃ k, L = k + 1 := ⟨L - 1, by omega⟩
    refine LexTot.bind (byte0_tot hw) fun c s' ha hc => ?_
    rcases hc with ⟨_, rfl, _⟩ | hc
    · exact LexTot.pure ha.2 trivial
    · rw [hc] at hn; simp at hn
  | succ n ih =>
    intro L s hn hw hL
    obtain ⟨L, rfl⟩ : ∃ k, L = k + 1 := ⟨L - 1, by omega⟩
    refine LexTot.bind (byte0_tot hw) fun c s' ha hc => ?_
    rcases hc with ⟨_, rfl, _⟩ | hc
    · exact LexTot.pure ha.2 trivial
    · rw [hc] at hn hL
      simp only [List.length_cons] at hn hL
      split
      · exact LexTot.pure ha.2 trivial
      · exact ih (by omega) ha.2 (by omega)

theorem comment_tot {L : Nat} {s : Cur} (hw : s.Wf) (hL : s.post.length < L) :
    LexTot (comment L) s fun b s' =>
      (b = false ∧ s'.post = s.post) ∨ s'.post.length < s.post.length := by
  obtain ⟨pre, post, o, r⟩ := s
  cases post with
  | nil =>
    refine LexTot.of_eq (a := false) (s' := ⟨pre, [], 0, r⟩) (fun e => ?_) ⟨List.suffix_rfl, .inr rfl⟩ (by simp)
    simp [comment, Prog.run_bind, Prog.run_pure]
  | cons c t =>
    have ho : o = 0 := by simpa [Cur.Wf] using hw
    subst ho
    by_cases hc : c = 35
    · subst hc
      cases t with
      | nil =>
        refine LexTot.of_eq (a := false) (s' := ⟨pre, [35], 0, r⟩) (fun e => ?_) ⟨List.suffix_rfl, .inl rfl⟩ (by simp)
        simp [comment, Prog.run_bind, Prog.run_pure, show isSpaceChar 0 = false from rfl]
      | cons d t =>
        cases hd : isSpaceChar d with
        | true =>
          intro e
          obtain ⟨a, s', e', h1, h2, h3, _⟩ := commentLoop_tot t.length (L := L)
            (s := ⟨d :: 35 :: pre, t, 0, r⟩) (by simp) (.inl rfl) (by simp at hL ⊢; omega) e
          refine ⟨true, s', e', ?_, h2, ⟨h3.1.trans ⟨[35, d], rfl⟩, h3.2⟩, .inr (by have := h3.len; simp at this ⊢; omega)⟩
          simp [comment, Prog.run_bind, Prog.run_pure, hd, h1]
        | false =>
          refine LexTot.of_eq (a := false) (s' := ⟨pre, 35 :: d :: t, 0, r⟩) (fun e => ?_) ⟨List.suffix_rfl, .inl rfl⟩ (by simp)
          simp [comment, Prog.run_bind, Prog.run_pure, hd]
    · refine LexTot.of_eq (a := false) (s' := ⟨pre, c :: t, 0, r⟩) (fun e => ?_) ⟨List.suffix_rfl, .inl rfl⟩ (by simp)
      simp [comment, Prog.run_bind, Prog.run_pure, hc]

theorem blockLine_tot : ∀ (n : Nat) {L : Nat} {s : Cur}, s.post.length ≤ n → s.Wf → s.post.length < L →
    LexTot (blockLine L) s fun _ _ => True := by
  intro n
  induction n with
  | zero =>
    intro L s hn hw hL
    obtain ⟨L, rfl⟩ : ∃ k, L = k + 1 := ⟨L - 1, by omega⟩
    refine LexTot.bind (byte0_tot hw) fun c s' ha hc => ?_
    rcases hc with ⟨_, rfl, _⟩ | hc
    · exact LexTot.pure ha.2 trivial
    · rw [hc] at hn; simp at hn
  | succ n ih =>
    intro L s hn hw hL
    obtain ⟨L, rfl⟩ : ∃ k, L = k + 1 := ⟨L - 1, by omega⟩
    refine LexTot.bind (byte0_tot hw) fun c s' ha hc => ?_
    rcases hc with ⟨_, rfl, _⟩ | hc
    · exact LexTot.pure ha.2 trivial
    · rw [hc] at hn hL
      simp only [List.length_cons] at hn hL
      have hrec := ih (L := L) (s := s') (by omega) ha.2 (by omega)
      split
      · exact LexTot.pure ha.2 trivial
      · split
        · exact hrec
        · split
          · exact LexTot.pure ha.2 trivial
          · exact hrec.bind fun _ _ h _ => LexTot.pure h.2 trivial

theorem dropWhile_len_lt {p : UInt8 → Bool} {l : Bytes} (h : (l.takeWhile p).length ≠ 0) :
    (l.dropWhile p).length < l.length := by
  have := congrArg List.length (List.takeWhile_append_dropWhile (p := p) (l := l))
  simp only [List.length_append] at this
  omega

theorem blockLoop_tot (nsp : Nat) : ∀ (n : Nat) {L F : Nat} {s : Cur}, s.post.length ≤ n → s.Wf →
    s.post.length < L → s.post.length < F → LexTot (blockLoop L nsp F) s fun _ _ => True := by
  intro n
  induction n with
  | zero =>
    intro L F s hn hw hL hF
    obtain ⟨F, rfl⟩ : ∃ k, F = k + 1 := ⟨F - 1, by omega⟩
    obtain ⟨pre, post, o, r⟩ := s
    have hp : post = [] := by simpa using hn
    subst hp
    refine LexTot.of_eq (a := []) (s' := ⟨pre, [], 0, r⟩) (fun e => ?_) ⟨List.suffix_rfl, .inr rfl⟩ trivial
    simp only [blockLoop, Prog.run_bind]
    rw [run_space L [] pre o r e (.inr rfl) hL]
    simp [Prog.run_pure]
  | succ n ih =>
    intro L F s hn hw hL hF
    obtain ⟨F, rfl⟩ : ∃ k, F = k + 1 := ⟨F - 1, by omega⟩
    obtain ⟨pre, post, o, r⟩ := s
    simp only [blockLoop]
    refine LexTot.bind (P := fun a s' => a.1 = (post.takeWhile isSpaceChar).length ∧ s'.post = post.dropWhile isSpaceChar)
      (LexTot.of_eq (fun e => run_space L post pre o r e hw hL)
        ⟨List.dropWhile_suffix _, .inl rfl⟩ ⟨rfl, rfl⟩) fun a s' ha hq => ?_
    obtain ⟨ns, u⟩ := a
    obtain ⟨h1, h2⟩ := hq
    split
    · exact LexTot.pure ha.2 trivial
    · rename_i hc
      simp only [Bool.or_eq_true, beq_iff_eq, decide_eq_true_eq, not_or] at hc
      have hlt : s'.post.length < post.length := by
        rw [h2]
        exact dropWhile_len_lt (by simp only at h1; omega)
      simp only at hL hF hn
      refine LexTot.bind (blockLine_tot s'.post.length (L := L) (Nat.le_refl _) ha.2 (by omega)) fun _ s2 h2 _ => ?_
      have := h2.len
      refine LexTot.bind (ih (by omega) h2.2 (by omega) (by omega)) fun _ s3 h3 _ => ?_
      exact LexTot.pure h3.2 trivial

theorem block_tot (nsp : Nat) {L : Nat} {s : Cur} (hw : s.Wf) (hL : s.post.length < L) :
    LexTot (block L nsp) s fun b s' =>
      (b = none ∧ s'.post = s.post) ∨ s'.post.length < s.post.length := by
  obtain ⟨pre, post, o, r⟩ := s
  cases post with
  | nil =>
    refine LexTot.of_eq (a := none) (s' := ⟨pre, [], 0, r⟩) (fun e => ?_) ⟨List.suffix_rfl, .inr rfl⟩ (by simp)
    simp [block, Prog.run_bind, Prog.run_pure]
  | cons c t =>
    have ho : o = 0 := by simpa [Cur.Wf] using hw
    subst ho
    by_cases hc : c = 92
    · subst hc
      cases t with
      | nil =>
        refine LexTot.of_eq (a := none) (s' := ⟨pre, [92], 0, r⟩) (fun e => ?_) ⟨List.suffix_rfl, .inl rfl⟩ (by simp)
        simp [block, Prog.run_bind, Prog.run_pure]
      | cons d t =>
        by_cases hd : d = 10 ∨ d = 13
        · have key : ∀ s2 : Cur, s2.Wf → s2.post <:+ t → LexTot (do
              let s ← blockLoop L nsp L
              Pure.pure (some (trimNL s))) s2 fun _ _ => True := by
            intro s2 hw2 hs2
            have := hs2.length_le
            simp at hL
            refine LexTot.bind (blockLoop_tot nsp s2.post.length (Nat.le_refl _) hw2 (by omega) (by omega)) fun a s3 h3 _ => ?_
            exact LexTot.pure h3.2 trivial
          intro e
          rcases hd with rfl | rfl
          · obtain ⟨a, s', e', h1, h2, h3, _⟩ := key ⟨10 :: 92 :: pre, t, 0, r⟩ (.inl rfl) List.suffix_rfl e
            refine ⟨a, s', e', ?_, h2, ⟨h3.1.trans ⟨[92, 10], rfl⟩, h3.2⟩, .inr (by have := h3.len; simp at this ⊢; omega)⟩
            simpa [block, Prog.run_bind, Prog.run_pure] using h1
          · cases t with
            | nil =>
              obtain ⟨a, s', e', h1, h2, h3, _⟩ := key ⟨13 :: 92 :: pre, [], 1, r⟩ (.inr rfl) List.suffix_rfl e
              refine ⟨a, s', e', ?_, h2, ⟨h3.1.trans ⟨[92, 13], rfl⟩, h3.2⟩, .inr (by have := h3.len; simp only [List.length_cons, List.length_nil] at this ⊢; omega)⟩
              simpa [block, Prog.run_bind, Prog.run_pure] using h1
            | cons d t =>
              obtain ⟨a, s', e', h1, h2, h3, _⟩ := key ⟨d :: 13 :: 92 :: pre, t, 0, r⟩ (.inl rfl)
                (List.suffix_cons _ _) e
              refine ⟨a, s', e', ?_, h2, ⟨h3.1.trans ⟨[92, 13, d], rfl⟩, h3.2⟩, .inr (by have := h3.len; simp at this ⊢; omega)⟩
              simpa [block, Prog.run_bind, Prog.run_pure] using h1
        · refine LexTot.of_eq (a := none) (s' := ⟨pre, 92 :: d :: t, 0, r⟩) (fun e => ?_) ⟨List.suffix_rfl, .inl rfl⟩ (by simp)
          simp only [not_or] at hd
          simp [block, Prog.run_bind, Prog.run_pure, hd]
    · refine LexTot.of_eq (a := none) (s' := ⟨pre, c :: t, 0, r⟩) (fun e => ?_) ⟨List.suffix_rfl, .inl rfl⟩ (by simp)
      simp [block, Prog.run_bind, Prog.run_pure, hc]


theorem spaceMaxLoop_tot (max : Nat) : ∀ (n : Nat) {F a b : Nat} {s : Cur}, s.post.length ≤ n → s.Wf →
    s.post.length < F → LexTot (spaceMaxLoop max F a b) s fun _ _ => True := by
  intro n
  induction n with
  | zero =>
    intro F a b s hn hw hF
    obtain ⟨F, rfl⟩ : ∃ k, F = k + 1 := ⟨F - 1, by omega⟩
    obtain ⟨pre, post, o, r⟩ := s
    have hp : post = [] := by simpa using hn
    subst hp
    refine LexTot.of_eq (a := spaceMaxLoop.fin a b) (s' := ⟨pre, [], 0, r⟩) (fun e => ?_) ⟨List.suffix_rfl, .inr rfl⟩ trivial
    simp only [spaceMaxLoop, Prog.run_bind, run_byte0_nil]
    simp [Prog.run_bind, Prog.run_pure]
  | succ n ih =>
    intro F a b s hn hw hF
    obtain ⟨F, rfl⟩ : ∃ k, F = k + 1 := ⟨F - 1, by omega⟩
    obtain ⟨pre, post, o, r⟩ := s
    cases post with
    | nil =>
      refine LexTot.of_eq (a := spaceMaxLoop.fin a b) (s' := ⟨pre, [], 0, r⟩) (fun e => ?_) ⟨List.suffix_rfl, .inr rfl⟩ trivial
      simp only [spaceMaxLoop, Prog.run_bind, run_byte0_nil]
      simp [Prog.run_bind, Prog.run_pure]
    | cons c t =>
      have ho : o = 0 := by simpa [Cur.Wf] using hw
      subst ho
      by_cases hc : (c != 9 && c != 32) = true
      · refine LexTot.of_eq (a := spaceMaxLoop.fin a b) (s' := ⟨pre, c :: t, 0, r⟩) (fun e => ?_) ⟨List.suffix_rfl, .inl rfl⟩ trivial
        simp only [spaceMaxLoop, Prog.run_bind, run_byte0_cons, hc]
        simp [Prog.run_bind, Prog.run_pure]
      · simp only [spaceMaxLoop]
        refine LexTot.bind (P := fun a s' => a = c ∧ s' = ⟨c :: pre, t, 0, r⟩)
          (LexTot.of_eq (fun e => run_byte0_cons pre t c 0 r e) ⟨List.suffix_cons _ _, .inl rfl⟩ ⟨rfl, rfl⟩) ?_
        rintro _ _ h ⟨rfl, rfl⟩
        rename_i c
        rw [if_neg hc]
        generalize (if (c == 32) = true then a + 1 else a) = a'
        generalize (if (c == 32) = true then b else b + 1) = b'
        split
        · exact LexTot.pure h.2 trivial
        · refine ih ?_ h.2 ?_
          · simp at hn ⊢; omega
          · simp at hF ⊢; omega

theorem quotedLoop_tot (ind : Nat) (c1 : UInt8) : ∀ (n : Nat) {L F : Nat} {buf : Bytes} {c2 : UInt8} {s : Cur},
    s.post.length ≤ n → s.Wf → s.post.length < L → s.post.length < F →
    LexTot (quotedLoop L ind c1 F buf c2) s fun _ _ => True := by
  intro n
  induction n with
  | zero =>
    intro L F buf c2 s hn hw hL hF
    obtain ⟨F, rfl⟩ : ∃ k, F = k + 1 := ⟨F - 1, by omega⟩
    refine LexTot.bind (byte0_tot hw) fun c s' ha hc => ?_
    rcases hc with ⟨_, rfl, _⟩ | hc
    · exact LexTot.pure ha.2 trivial
    · rw [hc] at hn; simp at hn
  | succ n ih =>
    intro L F buf c2 s hn hw hL hF
    obtain ⟨F, rfl⟩ : ∃ k, F = k + 1 := ⟨F - 1, by omega⟩
    refine LexTot.bind (byte0_tot hw) fun c s' ha hc => ?_
    rcases hc with ⟨_, rfl, _⟩ | hc
    · exact LexTot.pure ha.2 trivial
    · rw [hc] at hn hL hF
      simp only [List.length_cons] at hn hL hF
      split
      · exact LexTot.pure ha.2 trivial
      · split
        · exact LexTot.pure ha.2 trivial
        · split
          · exact LexTot.pure ha.2 trivial
          · split
            · exact ih (by omega) ha.2 (by omega) (by omega)
            · dsimp only
              split
              · refine LexTot.bind (spaceMaxLoop_tot ind s'.post.length (Nat.le_refl _) ha.2 (by omega)) fun a s2 h2 _ => ?_
                obtain ⟨m, u⟩ := a
                have := h2.len
                dsimp only
                split
                · exact LexTot.pure h2.2 trivial
                · split
                  · exact LexTot.pure h2.2 trivial
                  · exact ih (by omega) h2.2 (by omega) (by omega)
              · exact ih (by omega) ha.2 (by omega) (by omega)

/-- `Quoted`: without an opening quote nothing is consumed, otherwise something is. -/
theorem quoted_tot (ind : Nat) {L : Nat} {s : Cur} (hw : s.Wf) (hL : s.post.length < L) :
    LexTot (quoted L ind) s fun b s' =>
      (b = none ∧ s'.post = s.post ∧ s'.runes = s.runes) ∨ s'.post.length < s.post.length := by
  obtain ⟨pre, post, o, r⟩ := s
  cases post with
  | nil =>
    refine LexTot.of_eq (a := none) (s' := ⟨pre, [], 0, r⟩) (fun e => ?_) ⟨List.suffix_rfl, .inr rfl⟩ (by simp)
    simp [quoted, Prog.run_bind, Prog.run_pure]
  | cons c t =>
    have ho : o = 0 := by simpa [Cur.Wf] using hw
    subst ho
    by_cases hc : (c != 34 && c != 39 && c != 96) = true
    · refine LexTot.of_eq (a := none) (s' := ⟨pre, c :: t, 0, r⟩) (fun e => ?_) ⟨List.suffix_rfl, .inl rfl⟩ (by simp)
      simp only [quoted, Prog.run_bind, run_byte0_cons, hc]
      simp [Prog.run_bind, Prog.run_pure]
    · simp only [quoted]
      refine LexTot.bind (P := fun a s' => a = c ∧ s' = ⟨c :: pre, t, 0, r⟩)
          (LexTot.of_eq (fun e => run_byte0_cons pre t c 0 r e) ⟨List.suffix_cons _ _, .inl rfl⟩ ⟨rfl, rfl⟩) ?_
      rintro _ _ h ⟨rfl, rfl⟩
      rw [if_neg hc]
      simp at hL
      refine (quotedLoop_tot ind _ t.length (Nat.le_refl _) h.2 (by simp; omega) (by simp; omega)).mono ?_
      intro a s' ha _
      have := ha.len
      simp at this ⊢
      omega

theorem str_tot {L : Nat} {s : Cur} (hw : s.Wf) (hL : s.post.length < L) :
    LexTot (str L) s fun w s' => w = s.post.takeWhile isTextChar ∧ s'.post = s.post.dropWhile isTextChar :=
  readWhile_tot (by decide) hw hL

/-- Handler state in which `Tree` cannot panic. -/
def Ev.Ok (e : Ev) : Prop := e.current ≤ e.max ∧ ∀ it ∈ e.items, it.1 ≤ e.max

theorem Ev.Ok.add {e : Ev} (h : e.Ok) (v : Val) : (e.add v).Ok := by
  refine ⟨h.1, fun it hit => ?_⟩
  simp only [Ev.add, List.mem_append, List.mem_singleton] at hit
  rcases hit with hit | rfl
  · exact h.2 _ hit
  · exact h.1

theorem Ev.Ok.setLevel {e : Ev} (h : e.Ok) (l : Nat) : (e.setLevel l).Ok := by
  unfold Ev.Ok Ev.setLevel
  dsimp only
  refine ⟨by split <;> omega, fun it hit => ?_⟩
  have := h.2 it hit
  split <;> omega

theorem Ev.Ok.inc {e : Ev} (h : e.Ok) : (e.inc).Ok := h.setLevel (e.current + 1)

theorem Ev.Ok.dec {e : Ev} (h : e.Ok) : (e.dec).Ok := by
  refine ⟨?_, h.2⟩
  have := h.1
  simp [Ev.dec]; omega

theorem Ev.Ok.delete {e : Ev} (h : e.Ok) : (e.delete).Ok :=
  ⟨h.1, fun it hit => h.2 it (List.dropLast_subset _ hit)⟩

theorem Ev.ok_empty : ({} : Ev).Ok := ⟨Nat.le_refl _, by simp⟩

/-- The program returns further on, with a well-formed handler, and `Q`. -/
def ParTot {α : Type} (x : Prog α) (s : Cur) (Q : α → Cur → Prop) : Prop :=
  ∀ e : Ev, e.Ok → Tot x s e fun a s' e' => e'.Ok ∧ s.Adv s' ∧ Q a s'

namespace ParTot

theorem pure {α : Type} {a : α} {s : Cur} {Q : α → Cur → Prop} (hw : s.Wf) (h : Q a s) :
    ParTot (Pure.pure a : Prog α) s Q := fun _ he => Tot.pure ⟨he, Cur.Adv.refl hw, h⟩

theorem mono {α : Type} {x : Prog α} {s : Cur} {P Q : α → Cur → Prop}
    (h : ParTot x s P) (hpq : ∀ a s', s.Adv s' → P a s' → Q a s') : ParTot x s Q := fun e he =>
  (h e he).mono fun _ _ _ ⟨h1, h2, h3⟩ => ⟨h1, h2, hpq _ _ h2 h3⟩

theorem bind {α β : Type} {x : Prog α} {f : α → Prog β} {s : Cur}
    {P : α → Cur → Prop} {Q : β → Cur → Prop} (h : ParTot x s P)
    (hf : ∀ a s', s.Adv s' → P a s' → ParTot (f a) s' Q) : ParTot (x >>= f) s Q := fun e he =>
  (h e he).bind fun a s' e' ⟨h1, h2, h3⟩ =>
    (hf a s' h2 h3 e' h1).mono fun _ _ _ ⟨h4, h5, h6⟩ => ⟨h4, h2.trans h5, h6⟩

theorem lex {α : Type} {x : Prog α} {s : Cur} {P : α → Cur → Prop} (h : LexTot x s P) : ParTot x s P :=
  fun e he => (h e).mono fun _ _ _ ⟨h1, h2, h3⟩ => ⟨h1 ▸ he, h2, h3⟩

theorem evAdd {s : Cur} (hw : s.Wf) (v : Val) : ParTot (evAdd v) s fun _ s' => s' = s :=
  fun _ he => ⟨(), s, _, rfl, he.add v, Cur.Adv.refl hw, rfl⟩
theorem evInc {s : Cur} (hw : s.Wf) : ParTot evInc s fun _ s' => s' = s :=
  fun _ he => ⟨(), s, _, rfl, he.inc, Cur.Adv.refl hw, rfl⟩
theorem evDec {s : Cur} (hw : s.Wf) : ParTot evDec s fun _ s' => s' = s :=
  fun _ he => ⟨(), s, _, rfl, he.dec, Cur.Adv.refl hw, rfl⟩
theorem evDelete {s : Cur} (hw : s.Wf) : ParTot evDelete s fun _ s' => s' = s :=
  fun _ he => ⟨(), s, _, rfl, he.delete, Cur.Adv.refl hw, rfl⟩
theorem evSetLevel {s : Cur} (hw : s.Wf) (l : Nat) : ParTot (evSetLevel l) s fun _ s' => s' = s :=
  fun _ he => ⟨(), s, _, rfl, he.setLevel l, Cur.Adv.refl hw, rfl⟩
theorem evLevel {s : Cur} (hw : s.Wf) : ParTot evLevel s fun _ s' => s' = s :=
  fun e he => ⟨e.current, s, _, rfl, he, Cur.Adv.refl hw, rfl⟩

end ParTot

/-- What reading one scalar consumes. -/
def ScalarProgress (s s' : Cur) : Prop :=
  (∃ c t, s.post = c :: t ∧ isTextChar c = true) → s'.post.length < s.post.length

theorem str_progress {s s1 s2 : Cur} (h2 : s1.Adv s2)
    (hq : s1.post = s.post ∨ s1.post.length < s.post.length)
    (h3 : s2.post = s1.post.dropWhile isTextChar) : ScalarProgress s s2 := by
  rintro ⟨c, t, hs, hc⟩
  have := h2.len
  rcases hq with hq | hq
  · rw [h3, hq]
    apply dropWhile_len_lt
    rw [hs]; simp [hc]
  · omega

theorem lineScalar_tot (E : Ext) {L : Nat} {s : Cur} (types : Bool) (n : Nat) (hw : s.Wf)
    (hL : s.post.length < L) :
    ParTot (lineScalar E L types n) s fun _ s' => ScalarProgress s s' := by
  have hsc : LexTot (scalar L n) s fun _ s' => ScalarProgress s s' := by
    refine LexTot.bind (quoted_tot n hw hL) fun a s1 h1 hq => ?_
    have := h1.len
    cases a with
    | some b =>
      refine LexTot.pure h1.2 ?_
      rcases hq with ⟨h, _⟩ | h
      · simp at h
      · exact fun _ => h
    | none =>
      dsimp only
      refine LexTot.bind (str_tot h1.2 (by omega)) fun w s2 h2 h3 => ?_
      exact LexTot.pure h2.2 (str_progress h2 (hq.imp (fun h => h.2.1) id) h3.2)
  have hst : LexTot (scalarType E L n) s fun _ s' => ScalarProgress s s' := by
    refine LexTot.bind (quoted_tot n hw hL) fun a s1 h1 hq => ?_
    have := h1.len
    cases a with
    | some b =>
      refine LexTot.pure h1.2 ?_
      rcases hq with ⟨h, _⟩ | h
      · simp at h
      · exact fun _ => h
    | none =>
      dsimp only
      refine LexTot.bind (str_tot h1.2 (by omega)) fun w s2 h2 h3 => ?_
      exact LexTot.pure h2.2 (str_progress h2 (hq.imp (fun h => h.2.1) id) h3.2)
  unfold lineScalar
  split
  · refine ParTot.bind (ParTot.lex hst) fun a s1 h1 hq => ?_
    cases a with
    | some v => exact (ParTot.evAdd h1.2 v).mono fun _ s' _ h => h ▸ hq
    | none => exact ParTot.pure h1.2 hq
  · refine ParTot.bind (ParTot.lex hsc) fun a s1 h1 hq => ?_
    cases a with
    | some v => exact (ParTot.evAdd h1.2 _).mono fun _ s' _ h => h ▸ hq
    | none => exact ParTot.pure h1.2 hq

theorem lineBody_tot (E : Ext) (types : Bool) (k : Nat) : ∀ (n : Nat) {L F : Nat} {s : Cur}, s.post.length ≤ n →
    s.Wf → s.post.length < L → s.post.length < F →
    ParTot (lineBody E L types k F) s fun b s' => b = true → s'.post.length < s.post.length := by
  intro n
  induction n with
  | zero =>
    intro L F s hn hw hL hF
    obtain ⟨F, rfl⟩ : ∃ j, F = j + 1 := ⟨F - 1, by omega⟩
    refine ParTot.bind (ParTot.lex (endp_tot hw)) fun b s1 h1 hq => ?_
    cases b with
    | true => exact ParTot.pure h1.2 (by simp)
    | false =>
      obtain ⟨_, c, t, hc, _⟩ := hq rfl
      rw [hc] at hn; simp at hn
  | succ n ih =>
    intro L F s hn hw hL hF
    obtain ⟨F, rfl⟩ : ∃ j, F = j + 1 := ⟨F - 1, by omega⟩
    refine ParTot.bind (ParTot.lex (endp_tot hw)) fun b s1 h1 hq => ?_
    cases b with
    | true => exact ParTot.pure h1.2 (by simp)
    | false =>
      obtain ⟨rfl, c, t, hc, hend⟩ := hq rfl
      refine ParTot.bind (ParTot.lex (brk_tot hw)) fun b s2 h2 hq2 => ?_
      cases b with
      | true => exact ParTot.pure h2.2 fun _ => by simpa using hq2
      | false =>
        have l2 := h2.len
        refine ParTot.bind (ParTot.lex (comment_tot h2.2 (by omega))) fun b s3 h3 hq3 => ?_
        cases b with
        | true => exact ParTot.pure h3.2 fun _ => by simp at hq3; omega
        | false =>
          have l3 := h3.len
          refine ParTot.bind (ParTot.lex (block_tot k h3.2 (by omega))) fun b s4 h4 hq4 => ?_
          have l4 := h4.len
          cases b with
          | some w =>
            refine ParTot.bind (ParTot.evAdd h4.2 _) fun _ s5 h5 _ => ?_
            refine ParTot.bind (ParTot.lex (brk_tot h5.2)) fun _ s6 h6 _ => ?_
            exact ParTot.pure h6.2 fun _ => by
              have l5 := h5.len
              have l6 := h6.len
              simp at hq4; omega
          | none =>
            dsimp only
            refine ParTot.bind (lineScalar_tot E types k h4.2 (by omega)) fun _ s5 h5 hq5 => ?_
            have l5 := h5.len
            refine ParTot.bind (ParTot.lex (brk_tot h5.2)) fun b s6 h6 hq6 => ?_
            have l6 := h6.len
            cases b with
            | true => exact ParTot.pure h6.2 fun _ => by simp at hq6; omega
            | false =>
              simp only [Bool.false_eq_true, ↓reduceIte]
              refine ParTot.bind (ParTot.lex (space_tot h6.2 (by omega))) fun _ s7 h7 hq7 => ?_
              have l7 := h7.len
              refine ParTot.bind (ParTot.evInc h7.2) fun _ s8 h8 hq8 => ?_
              subst hq8
              have hlt : s8.post.length < s1.post.length := by
                rcases hq2 with ⟨_, e2, n10, n13⟩ | h
                · have e4 : s4.post = s1.post ∨ s4.post.length < s1.post.length := by
                    rcases hq3 with ⟨_, e3⟩ | h3'
                    · rcases hq4 with ⟨_, e4⟩ | h4'
                      · left; rw [e4, e3, e2]
                      · right; omega
                    · right; omega
                  rcases e4 with e4 | e4
                  case inr => omega
                  by_cases ht : isTextChar c = true
                  · have := hq5 ⟨c, t, by rw [e4, hc], ht⟩
                    rw [e4] at this; omega
                  · rcases hq6 with ⟨_, e6, _, _⟩ | h
                    · by_cases h5e : s5.post.length < s1.post.length
                      · omega
                      · have e5 : s5.post = s1.post := by
                          rw [← e4]
                          apply h5.1.eq_of_length
                          rw [e4]; omega
                        rw [hq7, e6, e5, hc]
                        have hsp : isSpaceChar c = true := by
                          have a1 : c ≠ 10 := by intro h; apply n10; simp [hc, h]
                          have a2 : c ≠ 13 := by intro h; apply n13; simp [hc, h]
                          simp [isTextChar] at ht
                          simp [isEndChar, a1, a2] at hend
                          simp [isSpaceChar]
                          by_cases h9 : c = 9
                          · simp [h9]
                          · left
                            have := Nat.not_lt.mp (fun h => h9 (hend (UInt8.lt_iff_toNat_lt.mpr h)))
                            apply UInt8.toNat_inj.mp
                            have h32 := UInt8.le_iff_toNat_le.mp ht
                            simp at this h32 ⊢
                            omega
                        apply dropWhile_len_lt
                        simp [hsp]
                    · omega
                · omega
              exact (ih (by omega) h8.2 (by omega) (by omega)).mono fun _ _ h _ _ => by have := h.len; omega

theorem peekByte_tot {s : Cur} (hw : s.Wf) :
    LexTot peekByte s fun c s' => s'.post = s.post ∧ (s.post = [] → c = 0) ∧ (∀ d t, s.post = d :: t → c = d) := by
  obtain ⟨pre, post, o, r⟩ := s
  cases post with
  | nil => exact LexTot.of_eq (run_peekByte_nil pre o r) ⟨List.suffix_rfl, .inr rfl⟩ (by simp)
  | cons c t =>
    have ho : o = 0 := by simpa [Cur.Wf] using hw
    subst ho
    exact LexTot.of_eq (run_peekByte_cons c pre t r) ⟨List.suffix_rfl, .inl rfl⟩ (by simp)

theorem lineHere_tot (E : Ext) (types : Bool) (k : Nat) {L : Nat} {s : Cur} (hw : s.Wf) (hL : s.post.length < L) :
    ParTot (lineHere E L types k) s fun b s' => b = true → s'.post.length < s.post.length := by
  refine ParTot.bind (ParTot.evLevel hw) fun lv s0 h0 hq0 => ?_
  subst hq0
  refine ParTot.bind (ParTot.lex (endp_tot hw)) fun b s1 h1 hq => ?_
  cases b with
  | true => exact ParTot.pure h1.2 (by simp)
  | false =>
    obtain ⟨rfl, c, t, hc, hend⟩ := hq rfl
    simp only [Bool.false_eq_true, ↓reduceIte]
    refine ParTot.bind (ParTot.lex (peekByte_tot hw)) fun c s2 h2 _ => ?_
    have l2 := h2.len
    have key : ∀ s3 : Cur, s3.Wf → s3.post.length < L → s3.post.length ≤ s1.post.length → ParTot (do
        if ← lineBody E L types k L then do
          evSetLevel lv
          Pure.pure true
        else Pure.pure false) s3 fun b s' => b = true → s'.post.length < s1.post.length := by
      intro s3 w3 l3 l3'
      refine ParTot.bind (lineBody_tot E types k s3.post.length (Nat.le_refl _) w3 l3 l3) fun b s4 h4 hq4 => ?_
      cases b with
      | true =>
        refine ParTot.bind (ParTot.evSetLevel h4.2 lv) fun _ s5 h5 _ => ?_
        exact ParTot.pure h5.2 fun _ => by
          have := hq4 rfl
          have := h5.len
          omega
      | false => exact ParTot.pure h4.2 (by simp)
    split
    · refine ParTot.bind (ParTot.lex (byte0_tot h2.2)) fun _ s3 h3 _ => ?_
      have l3 := h3.len
      refine ParTot.bind (ParTot.lex (space_tot h3.2 (by omega))) fun _ s4 h4 _ => ?_
      have l4 := h4.len
      exact key s4 h4.2 (by omega) (by omega)
    · exact key s2 h2.2 (by omega) l2


/-- Number of spaces and tabs at the start. -/
def indent (s : Bytes) : Nat := (s.takeWhile isSpaceChar).length

theorem line_exact (E : Ext) (types : Bool) {L F : Nat} {s : Cur} (hw : s.Wf) (hL : s.post.length < L)
    {ns : Nat} (hn : indent s.post = ns) :
    ParTot (line E L types (F + 1) ns) s fun b s' =>
      (b = true → s'.post.length < s.post.length) ∧ (1 ≤ ns → s'.post.length < s.post.length) := by
  obtain ⟨pre, post, o, r⟩ := s
  simp only [line]
  simp only [indent] at hn
  refine ParTot.bind (P := fun a s' => a.1 = ns ∧ s'.post = post.dropWhile isSpaceChar)
      (ParTot.lex (LexTot.of_eq (fun e => run_space L post pre o r e hw hL)
        ⟨List.dropWhile_suffix _, .inl rfl⟩ ⟨hn, rfl⟩)) ?_
  rintro ⟨n, u⟩ s1 h1 ⟨rfl, hq⟩
  simp only [Nat.lt_irrefl, ↓reduceIte]
  have l1 := h1.len
  have hl : 1 ≤ n → s1.post.length < post.length := by
    intro h
    rw [hq]
    exact dropWhile_len_lt (by simp only at hn; omega)
  simp only at hL l1
  refine (lineHere_tot E types n h1.2 (by omega)).mono fun b s2 h2 hb => ⟨fun hbt => ?_, fun h => ?_⟩
  · have := hb hbt
    show _ < post.length
    omega
  · have := hl h
    have := h2.len
    show _ < post.length
    omega

theorem tree_tot (E : Ext) (types : Bool) {L : Nat} : ∀ (r : Nat) {F ns : Nat} {s : Cur},
    s.post.length ≤ r → s.Wf → s.post.length < L → 3 * r + 3 ≤ F →
    ParTot (tree E L types F ns) s fun _ _ => True := by
  intro r
  induction r using Nat.strongRecOn with
  | ind r ih =>
  -- a nested tree: its first line has the expected indentation
  have nested : ∀ {F ns : Nat} {s : Cur}, s.post.length ≤ r → s.Wf → s.post.length < L → 3 * r + 1 ≤ F →
      indent s.post = ns → 1 ≤ ns →
      ParTot (tree E L types F ns) s fun _ s' => s'.post.length < s.post.length := by
    intro F ns s hr hw hL hF hn h1
    have hpos : 0 < s.post.length := by
      have : indent s.post ≤ s.post.length := by
        have := congrArg List.length (List.takeWhile_append_dropWhile (p := isSpaceChar) (l := s.post))
        simp only [List.length_append] at this
        unfold indent; omega
      omega
    obtain ⟨F, rfl⟩ : ∃ k, F = k + 2 := ⟨F - 2, by omega⟩
    simp only [tree]
    refine ParTot.bind (line_exact E types (F := F) hw hL hn) fun b s1 ha hq => ?_
    have hlt := hq.2 h1
    cases b with
    | true =>
      simp only [↓reduceIte]
      exact (ih (r - 1) (by omega) (F := F + 1) (by omega) ha.2 (by omega) (by omega)).mono fun _ _ h _ => by
        have := h.len; omega
    | false =>
      simp only [Bool.false_eq_true, ↓reduceIte]
      refine ParTot.bind (ParTot.lex (endp_tot ha.2)) fun _ s2 h2 _ => ?_
      exact ParTot.pure h2.2 (by have := h2.len; omega)
  have hline : ∀ {F ns : Nat} {s : Cur}, s.post.length ≤ r → s.Wf → s.post.length < L → 3 * r + 2 ≤ F →
      ParTot (line E L types F ns) s fun b s' => b = true → s'.post.length < s.post.length := by
    intro F ns s hr hw hL hF
    obtain ⟨F, rfl⟩ : ∃ k, F = k + 1 := ⟨F - 1, by omega⟩
    by_cases hn : indent s.post = ns
    · exact (line_exact E types hw hL hn).mono fun _ _ _ h => h.1
    · obtain ⟨pre, post, o, rs⟩ := s
      intro e he
      by_cases hlt : indent post < ns
      · refine ⟨false, ⟨pre, post, 0, rs⟩, e, ?_, he, ⟨List.suffix_rfl, .inl rfl⟩, by simp⟩
        simp only [line, Prog.run_bind, run_space L post pre o rs e hw hL]
        simp only [show (post.takeWhile isSpaceChar).length < ns from hlt, ↓reduceIte, Prog.run_bind,
          run_unspace, Prog.run_pure]
      · have hgt : ns < indent post := by simp only at hn; omega
        obtain ⟨a, s', e', h1, h2, h3, h4⟩ := nested (F := F) (s := ⟨pre, post, 0, rs⟩) hr (.inl rfl) hL (by omega) rfl
          (by simp only; omega) e.inc he.inc
        refine ⟨true, s', e'.dec, ?_, h2.dec, h3, fun _ => h4⟩
        simp only [line, Prog.run_bind, run_space L post pre o rs e hw hL]
        simp only [show ¬ (post.takeWhile isSpaceChar).length < ns from hlt,
          show ns < (post.takeWhile isSpaceChar).length from hgt, ↓reduceIte, Prog.run_bind,
          run_unspace, run_evInc]
        simp only [indent] at h1
        simp [h1, Prog.run_pure]
  intro F ns s hr hw hL hF
  obtain ⟨F, rfl⟩ : ∃ k, F = k + 1 := ⟨F - 1, by omega⟩
  simp only [tree]
  refine ParTot.bind (hline hr hw hL (by omega)) fun b s1 h1 hq => ?_
  cases b with
  | true =>
    have := hq rfl
    simp only [↓reduceIte]
    exact ih (r - 1) (by omega) (by omega) h1.2 (by omega) (by omega)
  | false =>
    simp only [Bool.false_eq_true, ↓reduceIte]
    refine ParTot.bind (ParTot.lex (endp_tot h1.2)) fun _ s2 h2 _ => ?_
    exact ParTot.pure h2.2 trivial

/-- `Ogdl()` returns, with the fuel given by `loopFuel` and `treeFuel`. -/
theorem ogdl_tot (E : Ext) (types : Bool) (s : Bytes) {L F : Nat} (hL : s.length < L) (hF : 3 * s.length + 3 ≤ F) :
    ParTot (ogdl E L types F) (Cur.start s) fun _ _ => True := by
  intro e he
  by_cases hu : spaceKind (s.takeWhile isSpaceChar) = 0
  · refine ⟨(), ⟨(s.takeWhile isSpaceChar).reverse, s.dropWhile isSpaceChar, 0, []⟩, e, ?_, he,
      ⟨?_, ?_⟩, trivial⟩
    · simp only [ogdl, Prog.run_bind, Cur.start, run_space L s [] 0 [] e (.inl rfl) hL, hu]
      simp [Prog.run_pure]
    · exact List.dropWhile_suffix _
    · exact .inl rfl
  · obtain ⟨a, s', e', h1, h2, h3, _⟩ := tree_tot E types (L := L) s.length (F := F) (ns := (s.takeWhile isSpaceChar).length)
      (s := Cur.start s) (by simp [Cur.start]) (.inl rfl) (by simpa [Cur.start] using hL) hF e he
    refine ⟨a, s', e', ?_, h2, h3, trivial⟩
    simp only [ogdl, Prog.run_bind]
    rw [Cur.start, run_space L s [] 0 [] e (.inl rfl) hL]
    simp only [hu, beq_iff_eq, ↓reduceIte, Prog.run_bind]
    rw [run_unspace]
    exact h1

theorem parseText_ok (E : Ext) (types : Bool) (s : Bytes) : ∃ g, parseText E types s = .ok g := by
  obtain ⟨a, s', e', h1, h2, _, _⟩ := ogdl_tot E types s (L := loopFuel s) (F := treeFuel s)
    (by simp [loopFuel]) (by simp [treeFuel]) {} Ev.ok_empty
  obtain ⟨g, hg⟩ := Ev.tree_ok e' h2.2
  exact ⟨g, by simp [parseText, h1, hg]⟩

end Ogdl
