import Verif.Model.Flow
import Verif.Lemmas.Buffer

/-! On inputs that fit in the buffer the buffered lexer agrees with the cursor, also
for programs that read runes, if a rune 0 is always unread at once. -/

namespace Ogdl
open Lex

/-- A rune that reads as 0 is unread at once. -/
def RuneOk {α : Type} : Prog α → Prop
  | .ret _ => True
  | .byte k => ∀ c, RuneOk (k c)
  | .unread k => RuneOk k
  | .rune k => (∀ r, RuneOk (k r)) ∧ ∃ k', k 0 = .unreadRune k'
  | .unreadRune k => RuneOk k
  | .getEv k => ∀ e, RuneOk (k e)
  | .setEv _ k => RuneOk k
  | .oof => True

theorem RuneOk.bind {α β : Type} {x : Prog α} {f : α → Prog β} (h : RuneOk x) (hf : ∀ a, RuneOk (f a)) :
    RuneOk (x >>= f) := by
  show RuneOk (Prog.bind x f)
  induction x with
  | ret a => exact hf a
  | byte k ih => exact fun c => ih c (h c)
  | unread k ih => exact ih h
  | rune k ih =>
    refine ⟨fun r => ih r (h.1 r), ?_⟩
    obtain ⟨k', hk⟩ := h.2
    exact ⟨k'.bind f, by show (k 0).bind f = _; rw [hk]; rfl⟩
  | unreadRune k ih => exact ih h
  | getEv k ih => exact fun e => ih e (h e)
  | setEv e k ih => exact ih h
  | oof => trivial

/-- The buffer holds the whole input and is at the position of the cursor. -/
structure SRel (inp : Bytes) (s : Cur) (b : Buf) : Prop where
  hinp : s.pre.reverse ++ s.post = inp
  hw : s.over = 0 ∨ s.post = []
  hbuf : b.buf = inp ++ List.replicate (4096 - inp.length) 0
  hlast : b.last = inp.length
  hr : b.r = s.pre.length + s.over
  hrunes : b.runes = s.runes

theorem SRel.unread {inp : Bytes} {s : Cur} {b : Buf} (h : SRel inp s b) :
    SRel inp s.unread b.unread ∧ s.unread.over ≤ s.over - 1 := by
  obtain ⟨pre, post, over, runes⟩ := s
  obtain ⟨h1, h2, h3, h4, h5, h6⟩ := h
  cases over with
  | succ n =>
    refine ⟨⟨h1, ?_, h3, h4, ?_, h6⟩, ?_⟩
    · right; show post = []; simpa using h2
    · simp only [Buf.unread, Cur.unread] at *; omega
    · simp [Cur.unread]
  | zero =>
    cases pre with
    | nil =>
      refine ⟨⟨h1, h2, h3, h4, ?_, h6⟩, by simp [Cur.unread]⟩
      simp only [Buf.unread, Cur.unread, List.length_nil] at *; omega
    | cons c p =>
      refine ⟨⟨?_, .inl rfl, h3, h4, ?_, h6⟩, by simp [Cur.unread]⟩
      · simpa [Cur.unread] using h1
      · simp only [Buf.unread, Cur.unread, List.length_cons] at *; omega

theorem SRel.back {inp : Bytes} : ∀ (n : Nat) {s : Cur} {b : Buf}, SRel inp s b →
    SRel inp (Cur.back n s) { b with r := b.r - n } ∧ (Cur.back n s).over ≤ s.over - n
  | 0, s, b, h => ⟨h, Nat.le_refl _⟩
  | n + 1, s, b, h => by
    have h1 := h.unread
    have h2 := SRel.back n h1.1
    refine ⟨?_, by have := h2.2; have := h1.2; simp only [Cur.back]; omega⟩
    have : ({ b with r := b.r - (n + 1) } : Buf) = { b.unread with r := b.unread.r - n } := by
      simp [Buf.unread, Nat.sub_sub, Nat.add_comm]
    rw [this]
    exact h2.1

theorem SRel.byte {inp : Bytes} {s : Cur} {b : Buf} (h : SRel inp s b) (hn : inp.length ≤ 4093) :
    ∃ b', b.byte = .ok (s.byte.1, b') ∧ SRel inp s.byte.2 b' ∧ s.byte.2.over ≤ max s.over 1 := by
  obtain ⟨pre, post, over, runes⟩ := s
  obtain ⟨h1, h2, h3, h4, h5, h6⟩ := h
  dsimp only at h1 h2 h5 h6
  cases post with
  | nil =>
    have hl : inp.length = pre.length := by rw [← h1]; simp
    refine ⟨{ b with r := b.last + 1 }, ?_, ⟨h1, .inr rfl, h3, h4, ?_, h6⟩, ?_⟩
    · rw [Buf.byte, if_pos ⟨by rw [h4]; unfold bufSize; omega, by omega⟩]; rfl
    · show b.last + 1 = pre.length + 1; omega
    · show 1 ≤ _; omega
  | cons c t =>
    have ho : over = 0 := by simpa using h2
    subst ho
    have hl : inp.length = pre.length + t.length + 1 := by rw [← h1]; simp; omega
    have hb : b.buf[b.r]? = some c := by
      rw [h3, h5, ← h1]
      simp
    refine ⟨{ b with r := b.r + 1 }, ?_, ⟨by simpa [Cur.byte] using h1, .inl rfl, h3, h4, ?_, h6⟩, Nat.zero_le _⟩
    · rw [Buf.byte, if_neg (by omega), hb]
      simp only [Cur.byte]
      rw [fill_small (by simp; omega)]
    · simp [Cur.byte, h5]

theorem SRel.forward {inp : Bytes} : ∀ (n : Nat) {s : Cur} {b : Buf}, SRel inp s b → s.over = 0 →
    n ≤ s.post.length → SRel inp (Cur.forward n s) { b with r := b.r + n } ∧ (Cur.forward n s).over = 0
  | 0, s, b, h, ho, _ => ⟨h, ho⟩
  | n + 1, ⟨pre, [], over, runes⟩, b, h, ho, hn => by simp at hn
  | n + 1, ⟨pre, c :: t, over, runes⟩, b, h, ho, hn => by
    obtain ⟨h1, h2, h3, h4, h5, h6⟩ := h
    dsimp only at ho
    subst ho
    have := SRel.forward n (s := ⟨c :: pre, t, 0, runes⟩) (b := { b with r := b.r + 1 })
      ⟨by simpa using h1, .inl rfl, h3, h4, by simp at h5 ⊢; omega, h6⟩ rfl (by simpa using hn)
    rw [show b.r + (n + 1) = b.r + 1 + n by omega]
    exact this

theorem decodeRune_le (s : Bytes) : (decodeRune s).2 ≤ s.length := by
  unfold decodeRune
  repeat' split
  all_goals simp

theorem SRel.rune {inp : Bytes} {s : Cur} {b : Buf} (h : SRel inp s b) (hn : inp.length ≤ 4093)
    (ho : s.over ≤ 1) :
    ∃ b', b.rune = .ok (s.rune.1, b') ∧ SRel inp s.rune.2 b' ∧
      (s.rune.2.over ≤ 1 ∨ (s.rune.1 = 0 ∧ s.rune.2.over ≤ 2 ∧ s.rune.2.runes.head? = some 1)) := by
  obtain ⟨pre, post, over, runes⟩ := s
  obtain ⟨h1, h2, h3, h4, h5, h6⟩ := h
  dsimp only at h1 h2 h5 h6 ho
  have hl : inp.length = pre.length + post.length := by rw [← h1]; simp
  have hf : b.fill = b := fill_small (by
    rcases h2 with h2 | h2 <;> omega)
  unfold Buf.rune
  simp only [hf]
  cases post with
  | nil =>
    have hb : b.buf[b.r]? = some 0 := by
      rw [h3, h5, ← h1]
      simp at hl
      rw [List.append_nil, List.getElem?_append_right (by simp), List.getElem?_replicate_of_lt]
      simp only [List.length_reverse]
      omega
    refine ⟨{ b with r := b.r + 1, runes := 1 :: b.runes }, ?_, ⟨by simpa [Cur.rune] using h1, .inr rfl, h3, h4, ?_, ?_⟩, ?_⟩
    · rw [hb]; rfl
    · simp [Cur.rune, h5]; omega
    · simp [Cur.rune, h6]
    · right; simp [Cur.rune]; omega
  | cons c t =>
    have ho : over = 0 := by simpa using h2
    subst ho
    have hb : b.buf[b.r]? = some c := by
      rw [h3, h5, ← h1]
      simp
    simp only [hb, Cur.rune]
    simp only [List.length_cons] at hl
    by_cases hc : c < 0x80
    · simp only [if_pos hc]
      exact ⟨_, rfl, ⟨by simpa using h1, .inl rfl, h3, h4, by simp [h5], by simp [h6]⟩, .inl (Nat.zero_le _)⟩
    · simp only [if_neg hc]
      rw [if_neg (by omega)]
      have hd : (b.buf.take b.last).drop b.r = c :: t := by
        rw [h3, h4, h5, ← h1, List.take_left']
        · simp
        · rfl
      rw [hd]
      have := SRel.forward (inp := inp) (decodeRune (c :: t)).2 (s := ⟨pre, c :: t, 0, runes⟩) (b := b)
        ⟨h1, .inl rfl, h3, h4, h5, h6⟩ rfl (decodeRune_le _)
      obtain ⟨⟨g1, g2, g3, g4, g5, g6⟩, g7⟩ := this
      exact ⟨_, rfl, ⟨g1, g2, h3, h4, g5, by simp [h6]⟩, .inl (by simp [g7])⟩

theorem over_le {α : Type} {s : Cur} {x : Prog α}
    (h : s.over ≤ 1 ∨ (s.over ≤ 2 ∧ s.runes.head? = some 1 ∧ ∃ k, x = .unreadRune k))
    (hx : ∀ k, x ≠ .unreadRune k) : s.over ≤ 1 := by
  rcases h with h | ⟨_, _, k, h⟩
  · exact h
  · exact absurd h (hx k)

theorem short_run {α : Type} {inp : Bytes} (hn : inp.length ≤ 4093) (x : Prog α) :
    ∀ (s : Cur) (b : Buf) (e : Ev), RuneOk x → SRel inp s b →
    (s.over ≤ 1 ∨ (s.over ≤ 2 ∧ s.runes.head? = some 1 ∧ ∃ k, x = .unreadRune k)) →
    (x.run curM s e = .oof ∧ x.run bufM b e = .oof) ∨
    ∃ a s' b' e', x.run curM s e = .ok (a, s', e') ∧ x.run bufM b e = .ok (a, b', e') ∧
      SRel inp s' b' ∧ s'.over ≤ 1 := by
  induction x with
  | ret a =>
    intro s b e _ h ho
    have ho : s.over ≤ 1 := over_le ho (by rintro k ⟨⟩)
    exact .inr ⟨a, s, b, e, rfl, rfl, h, ho⟩
  | byte k ih =>
    intro s b e hx h ho
    have ho : s.over ≤ 1 := over_le ho (by rintro k ⟨⟩)
    obtain ⟨b', h1, h2, h3⟩ := h.byte hn
    have := ih s.byte.1 s.byte.2 b' e (hx _) h2 (.inl (by omega))
    simpa only [Prog.run, bufM, curM, h1] using this
  | unread k ih =>
    intro s b e hx h ho
    have ho : s.over ≤ 1 := over_le ho (by rintro k ⟨⟩)
    have := ih s.unread b.unread e hx h.unread.1 (.inl (by have := h.unread.2; omega))
    simpa only [Prog.run, bufM, curM] using this
  | rune k ih =>
    intro s b e hx h ho
    have ho : s.over ≤ 1 := over_le ho (by rintro k ⟨⟩)
    obtain ⟨b', h1, h2, h3⟩ := h.rune hn ho
    have := ih s.rune.1 s.rune.2 b' e (hx.1 _) h2 (by
      rcases h3 with h3 | ⟨h3, h4, h5⟩
      · exact .inl h3
      · refine .inr ⟨h4, h5, ?_⟩
        rw [h3]; exact hx.2)
    simpa only [Prog.run, bufM, curM, h1] using this
  | unreadRune k ih =>
    intro s b e hx h ho
    have : SRel inp s.unreadRune b.unreadRune ∧ s.unreadRune.over ≤ 1 := by
      obtain ⟨pre, post, over, runes⟩ := s
      unfold Cur.unreadRune Buf.unreadRune
      rw [h.hrunes]
      cases runes with
      | nil =>
        refine ⟨h, ?_⟩
        rcases ho with ho | ⟨_, h, _⟩
        · exact ho
        · simp at h
      | cons n r =>
        have h' : SRel inp { pre := pre, post := post, over := over, runes := r } { b with runes := r } :=
          ⟨h.hinp, h.hw, h.hbuf, h.hlast, h.hr, rfl⟩
        have := SRel.back n h'
        refine ⟨this.1, ?_⟩
        have := this.2
        simp only at this ⊢
        rcases ho with ho | ⟨ho, h, _⟩
        · dsimp only at ho; omega
        · simp at h ho; omega
    have := ih s.unreadRune b.unreadRune e hx this.1 (.inl this.2)
    simpa only [Prog.run, bufM, curM] using this
  | getEv k ih =>
    intro s b e hx h ho
    have ho : s.over ≤ 1 := over_le ho (by rintro k ⟨⟩)
    have := ih e s b e (hx _) h (.inl ho)
    simpa only [Prog.run, bufM, curM] using this
  | setEv e' k ih =>
    intro s b e hx h ho
    have ho : s.over ≤ 1 := over_le ho (by rintro k ⟨⟩)
    have := ih s b e' hx h (.inl ho)
    simpa only [Prog.run, bufM, curM] using this
  | oof => exact fun _ _ _ _ _ _ => .inl ⟨rfl, rfl⟩

theorem SRel.start {inp : Bytes} (hn : inp.length ≤ 4095) :
    SRel inp (Cur.start inp) (Buf.start { data := inp }) := by
  have h1 : (Buf.start { data := inp }).buf = inp ++ List.replicate (4096 - inp.length) 0 ∧
      (Buf.start { data := inp }).last = inp.length ∧ (Buf.start { data := inp }).r = 0 ∧
      (Buf.start { data := inp }).runes = [] := by
    have key : ∃ rd, Buf.fillLoop 100 (List.replicate 4096 0) 0 { data := inp } =
        (inp ++ List.replicate (4096 - inp.length) 0, inp.length, rd) := by
      have ht : inp.take 4096 = inp := List.take_of_length_le (by omega)
      have hdr : inp.drop 4096 = [] := List.drop_of_length_le (by omega)
      rw [Buf.fillLoop]
      simp only [Reader.read, bufSize, halfSize, Nat.sub_zero, ht, hdr, Nat.zero_add, Buf.write,
        List.take_zero, List.nil_append, List.drop_replicate]
      cases he : inp.isEmpty with
      | true =>
        rw [List.isEmpty_iff.1 he]
        exact ⟨_, rfl⟩
      | false =>
        simp only [Bool.false_and, Bool.or_false, Bool.not_false, Bool.not_true, Bool.false_eq_true, ↓reduceIte]
        by_cases hh : inp.length ≥ 2048
        · rw [if_pos hh]; exact ⟨_, rfl⟩
        · rw [if_neg hh, Buf.fillLoop]
          simp [Reader.read, Buf.write]
    obtain ⟨rd, key⟩ := key
    simp only [Buf.start, bufSize]
    rw [key]
    simp
  exact ⟨by simp [Cur.start], .inl rfl, h1.1, h1.2.1, by simp [h1.2.2.1, Cur.start], by simp [h1.2.2.2, Cur.start]⟩

/-- The same result as on the cursor. -/
theorem runParser_short {α : Type} (x : Prog α) (inp : Bytes) (hn : inp.length ≤ 4093) (hx : RuneOk x) :
    runParser x inp = (do let r ← x.run curM (Cur.start inp) {}; r.2.2.tree) := by
  unfold runParser
  rcases short_run hn x (Cur.start inp) _ {} hx (SRel.start (by omega)) (.inl (by simp [Cur.start])) with ⟨h1, h2⟩ | ⟨a, s', b', e', h1, h2, _⟩
  · rw [h1, h2]; rfl
  · rw [h1, h2]; rfl

/-! ## The programs of flow.go -/

theorem runeOk_pure {α : Type} (a : α) : RuneOk (pure a : Prog α) := trivial
theorem runeOk_byte0 : RuneOk byte0 := fun _ => trivial
theorem runeOk_byteErr : RuneOk byteErr := fun _ => trivial
theorem runeOk_unread : RuneOk Lex.unread := trivial
theorem runeOk_evAdd (v : Val) : RuneOk (evAdd v) := fun _ => trivial
theorem runeOk_evInc : RuneOk evInc := fun _ => trivial
theorem runeOk_evDec : RuneOk evDec := fun _ => trivial
theorem runeOk_evLevel : RuneOk evLevel := fun _ => trivial
theorem runeOk_evSetLevel (l : Nat) : RuneOk (evSetLevel l) := fun _ => trivial
theorem runeOk_evDelete : RuneOk evDelete := fun _ => trivial

/-- Decompose a program into its steps. -/
macro "rune_ok" : tactic => `(tactic|
  repeat' first
    | exact runeOk_byte0 | exact runeOk_byteErr | exact runeOk_unread | exact runeOk_evAdd _
    | exact runeOk_evInc | exact runeOk_evDec | exact runeOk_evLevel | exact runeOk_evSetLevel _
    | exact runeOk_evDelete | exact runeOk_pure _ | assumption
    | refine RuneOk.bind ?_ (fun _ => ?_) | split)

theorem runeOk_peekByte : RuneOk peekByte := by unfold peekByte; rune_ok

theorem runeOk_readWhile (p : UInt8 → Bool) : ∀ L, RuneOk (readWhile p L)
  | 0 => trivial
  | L + 1 => by
    have := runeOk_readWhile p L
    rw [readWhile]
    rune_ok

theorem runeOk_space (L : Nat) : RuneOk (space L) := (runeOk_readWhile _ L).bind fun _ => trivial
theorem runeOk_whiteSpace (L : Nat) : RuneOk (whiteSpace L) := (runeOk_readWhile _ L).bind fun _ => trivial

theorem runeOk_spaceMaxLoop (m : Nat) : ∀ L a b, RuneOk (spaceMaxLoop m L a b)
  | 0, _, _ => trivial
  | L + 1, a, b => by
    have := runeOk_spaceMaxLoop m L
    rw [spaceMaxLoop]
    refine runeOk_byte0.bind fun c => ?_
    split
    · rune_ok
    · repeat' split
      all_goals (dsimp only; repeat' split)
      all_goals first | trivial | exact this _ _

theorem runeOk_quotedLoop (L ind : Nat) (c1 : UInt8) : ∀ f buf c2, RuneOk (quotedLoop L ind c1 f buf c2)
  | 0, _, _ => trivial
  | f + 1, buf, c2 => by
    have ih := runeOk_quotedLoop L ind c1 f
    rw [quotedLoop]
    refine runeOk_byte0.bind fun c => ?_
    split
    · trivial
    · split
      · trivial
      · split
        · trivial
        · split
          · exact ih _ _
          · dsimp only
            split
            · refine (runeOk_spaceMaxLoop _ _ _ _).bind fun r => ?_
              split
              · trivial
              · split
                · trivial
                · exact ih _ _
            · exact ih _ _

theorem runeOk_quoted (L ind : Nat) : RuneOk (quoted L ind) := by
  have := runeOk_quotedLoop L ind
  rw [quoted]
  refine runeOk_byte0.bind fun c => ?_
  split
  · rune_ok
  · exact this _ _ _ _

theorem runeOk_tokenLoop (E : Ext) : ∀ L, RuneOk (tokenLoop E L)
  | 0 => trivial
  | L + 1 => by
    rw [tokenLoop]
    refine ⟨fun r => ?_, ?_⟩
    · show RuneOk (if isTokenRune E r = true then _ else _)
      split
      · exact (runeOk_tokenLoop E L).bind fun _ => trivial
      · exact RuneOk.bind (x := Lex.unreadRune) trivial fun _ => trivial
    · exact ⟨_, rfl⟩

theorem runeOk_token8 (E : Ext) (L : Nat) : RuneOk (token8 E L) := (runeOk_tokenLoop E L).bind fun _ => trivial

theorem runeOk_numberLoop : ∀ L p, RuneOk (numberLoop L p)
  | 0, _ => trivial
  | L + 1, p => by
    have := runeOk_numberLoop L
    rw [numberLoop]
    refine runeOk_byte0.bind fun c => ?_
    split
    · exact (this _).bind fun _ => trivial
    · split
      · exact (this _).bind fun _ => trivial
      · rune_ok

theorem runeOk_number (L : Nat) : RuneOk (number L) := by
  have h := runeOk_numberLoop L false
  have hp := runeOk_peekByte
  rw [number]
  refine hp.bind fun c => ?_
  dsimp only
  repeat' first
    | exact runeOk_byte0 | exact runeOk_pure _ | assumption
    | refine RuneOk.bind ?_ (fun _ => ?_) | split

theorem runeOk_operator (L : Nat) : RuneOk (operator L) := runeOk_readWhile _ L
theorem runeOk_templateText (L : Nat) : RuneOk (templateText L) := runeOk_readWhile _ L

theorem runeOk_flow (E : Ext) (L : Nat) : ∀ f,
    (∀ a b c, RuneOk (bracket E L a b c f)) ∧ (∀ l s, RuneOk (argLoop E L l s f)) ∧
    (∀ d, RuneOk (args E L d f)) ∧ RuneOk (expression E L f) ∧ RuneOk (exprLoop E L f) ∧
    RuneOk (unary E L f) ∧ RuneOk (path E L f) ∧ (∀ a, RuneOk (pathLoop E L a f)) ∧
    (∀ d a, RuneOk (pathElem E L d a f))
  | 0 => by
    unfold bracket argLoop args expression exprLoop unary path pathLoop pathElem
    simp [RuneOk]
  | f + 1 => by
    obtain ⟨h1, h2, h3, h4, h5, h6, h7, h8, h9⟩ := runeOk_flow E L f
    have hp := runeOk_peekByte
    have hs := runeOk_space L
    have hw := runeOk_whiteSpace L
    have hq := runeOk_quoted L 0
    have ht := runeOk_token8 E L
    have hn := runeOk_number L
    have ho := runeOk_operator L
    refine ⟨?_, ?_, ?_, ?_, ?_, ?_, ?_, ?_, ?_⟩
    · intro a b c; rw [bracket]; rune_ok
    · intro l s; rw [argLoop]
      have := h2 l true
      rune_ok
    · intro d; rw [args]
      have := fun l => h2 l false
      repeat' first
        | exact this _
        | exact runeOk_byte0 | exact runeOk_evAdd _
        | exact runeOk_evInc | exact runeOk_evLevel | exact runeOk_evSetLevel _
        | exact runeOk_pure _ | assumption
        | refine RuneOk.bind ?_ (fun _ => ?_) | split
    · rw [expression]; rune_ok
    · rw [exprLoop]; rune_ok
    · rw [unary]; rune_ok
    · rw [path]; exact h9 _ _
    · intro a; rw [pathLoop]
      have := fun d => h9 d a
      repeat' first
        | exact this _
        | exact runeOk_byte0 | exact runeOk_unread | exact runeOk_pure _
        | refine RuneOk.bind ?_ (fun _ => ?_) | split
    · intro d a; rw [pathElem]
      have b1 := h1 91 93 tyIndex
      have b2 := h1 123 125 tySelector
      have b3 := h3 d
      have b4 := h8 true
      rune_ok

theorem runeOk_path (E : Ext) (L f : Nat) : RuneOk (path E L f) := (runeOk_flow E L f).2.2.2.2.2.2.1
theorem runeOk_expression (E : Ext) (L f : Nat) : RuneOk (expression E L f) := (runeOk_flow E L f).2.2.2.1

theorem runeOk_variable (E : Ext) (L f : Nat) : RuneOk (variable' E L f) := by
  have h1 := runeOk_path E L f
  have h2 := runeOk_expression E L f
  have hs := runeOk_space L
  unfold variable'
  rune_ok

theorem runeOk_template (E : Ext) (L g : Nat) : ∀ f, RuneOk (template E L g f)
  | 0 => trivial
  | f + 1 => by
    have ih := runeOk_template E L g f
    have h1 := runeOk_variable E L g
    have h2 := runeOk_templateText L
    rw [template]
    rune_ok

end Ogdl
