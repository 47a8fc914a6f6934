import Verif.Model.Buffer
import Verif.Spec.Reader
import Verif.Lemmas.Prog

/-! The buffered lexer follows the cursor. -/

namespace Ogdl

theorem read_le (rd : Reader) (k : Nat) : (rd.read k).1.length ≤ k := by
  simp only [Reader.read]
  cases rd.sizes <;> simp <;> omega

theorem read_data (rd : Reader) (k : Nat) : (rd.read k).1 ++ (rd.read k).2.2.data = rd.data := by
  simp only [Reader.read, List.take_append_drop]

theorem refills_fuel : ∀ (f : Nat) (rd : Reader) (g : Nat), rd.data.length < f → rd.data.length < g →
    refills f rd = refills g rd := by
  intro f
  induction f with
  | zero => intro rd g hf; omega
  | succ f ih =>
    intro rd g hf hg
    obtain ⟨g, rfl⟩ : ∃ k, g = k + 1 := ⟨g - 1, by omega⟩
    simp only [refills]
    split
    · rfl
    · split
      · rename_i h
        have := congrArg List.length (read_data rd 2048)
        simp only [List.length_append, h] at this
        rw [ih _ g (by show (rd.read 2048).2.2.data.length < _; omega) (by show (rd.read 2048).2.2.data.length < _; omega)]
      · rfl

/-- `refills` with enough fuel. -/
def refill (rd : Reader) : Bytes := refills (rd.data.length + 1) rd

theorem refill_eq (rd : Reader) : refill rd =
    if (rd.read 2048).2.1 = false then []
    else if (rd.read 2048).1.length = 2048 then (rd.read 2048).1 ++ refill (rd.read 2048).2.2
    else (rd.read 2048).1 := by
  unfold refill
  rw [refills]
  split
  next got ok rd' heq =>
    have h1 : (rd.read 2048).1 = got := by rw [heq]
    have h2 : (rd.read 2048).2.1 = ok := by rw [heq]
    have h3 : (rd.read 2048).2.2 = rd' := by rw [heq]
    rw [h1, h2, h3]
    cases ok with
    | false => simp
    | true =>
      simp only [Bool.not_true, Bool.false_eq_true, ↓reduceIte, Bool.true_eq_false]
      split
      · rename_i h
        have := congrArg List.length (read_data rd 2048)
        simp only [List.length_append, h1, h3, h] at this
        rw [refills_fuel _ rd' (rd'.data.length + 1) (by omega) (by omega)]
      · rfl

/-- The buffer holds a window of the input `inp` around the cursor position; at
least `c` bytes before the position are in the window, or it starts at the
beginning of the input. -/
structure Rel (inp : Bytes) (c : Nat) (s : Cur) (b : Buf) (base : Nat) : Prop where
  all : s.pre.reverse ++ s.post = inp
  wf : s.Wf
  over : s.over ≤ 1
  len : b.buf.length = 4096
  pos : s.pre.length + s.over = base + b.r
  credit : base = 0 ∨ c ≤ b.r
  win : (b.last = 4096 ∧ base + 4096 ≤ inp.length ∧ b.buf = (inp.drop base).take 4096 ∧
      refill b.rd = inp.drop (base + 4096) ∧ b.r < 4096) ∨
    (b.last < 4096 ∧ base + b.last = inp.length ∧ b.buf.take b.last = inp.drop base ∧
      (base = 0 ∨ 2048 ≤ b.last) ∧ b.r ≤ b.last + 1)
  half : 2048 ∣ base

/-- The buffer shows the input at the cursor, for some window. -/
def Tracks (inp : Bytes) (c : Nat) (s : Cur) (b : Buf) : Prop := ∃ base, Rel inp c s b base

theorem Tracks.mono {inp : Bytes} {c c' : Nat} {s : Cur} {b : Buf} (h : Tracks inp c s b) (hc : c' ≤ c) :
    Tracks inp c' s b := by
  obtain ⟨base, h⟩ := h
  exact ⟨base, { h with credit := h.credit.imp id (fun h => Nat.le_trans hc h) }⟩

theorem write_length {buf : Bytes} {off : Nat} {w : Bytes} (h : off + w.length ≤ buf.length) :
    (Buf.write buf off w).length = buf.length := by
  simp [Buf.write]; omega

theorem write_take {buf : Bytes} {off : Nat} {w : Bytes} (h : off + w.length ≤ buf.length) :
    (Buf.write buf off w).take (off + w.length) = buf.take off ++ w := by
  rw [Buf.write, List.take_append_of_le_length (by simp; omega), List.take_of_length_le (by simp; omega)]

theorem fill_small {b : Buf} (h : b.r < 4096) : b.fill = b := by
  unfold Buf.fill; exact if_pos h

theorem fillLoop_half (i : Nat) (buf : Bytes) (rd : Reader) : Buf.fillLoop (i + 1) buf 2048 rd =
    (Buf.write buf 2048 (rd.read 2048).1, if (rd.read 2048).2.1 = false then 2048 else 2048 + (rd.read 2048).1.length,
      (rd.read 2048).2.2) := by
  have h1 : bufSize - 2048 = 2048 := rfl
  rw [Buf.fillLoop, h1]
  generalize rd.read 2048 = x
  obtain ⟨got, ok, rd'⟩ := x
  cases ok with
  | false => rfl
  | true => exact if_pos (Nat.le_add_right 2048 got.length)

theorem fill_large {b : Buf} (h : ¬ b.r < 4096) : b.fill =
    { b with
      buf := Buf.write (b.buf.drop 2048 ++ b.buf.drop 2048) 2048 (b.rd.read 2048).1
      r := 2048
      last := if (b.rd.read 2048).2.1 = false then 2048 else 2048 + (b.rd.read 2048).1.length
      rd := (b.rd.read 2048).2.2 } := by
  unfold Buf.fill
  refine (if_neg h).trans ?_
  simp only [halfSize, fillLoop_half]

theorem Rel.byte_fill {inp : Bytes} {c : Nat} {s : Cur} {b : Buf} {base : Nat}
    (h : Rel inp c s b base) (h4 : b.last = 4096) (hr : b.r + 1 = 4096) {ch : UInt8} {t : Bytes}
    (hp : s.post = ch :: t) :
    Rel inp (min 2048 (c + 1)) ⟨ch :: s.pre, t, s.over, s.runes⟩ ({ b with r := b.r + 1 } : Buf).fill (base + 2048) := by
  obtain ⟨hlen, hbuf, hrd⟩ : base + 4096 ≤ inp.length ∧ b.buf = (inp.drop base).take 4096 ∧
      refill b.rd = inp.drop (base + 4096) := by
    rcases h.win with ⟨_, h1, h2, h3, _⟩ | ⟨hlt, _⟩
    · exact ⟨h1, h2, h3⟩
    · omega
  have hov : s.over = 0 := by
    rcases h.wf with h | h
    · exact h
    · rw [hp] at h; simp at h
  have hdrop : b.buf.drop 2048 = (inp.drop (base + 2048)).take 2048 := by
    rw [hbuf, List.drop_take, List.drop_drop]
  have hdlen : (b.buf.drop 2048).length = 2048 := by simp [h.len]
  have hgl := read_le b.rd 2048
  rw [fill_large (by simp only; omega)]
  have hall : (ch :: s.pre).reverse ++ t = inp := by rw [← h.all, hp]; simp
  have hwf : (⟨ch :: s.pre, t, s.over, s.runes⟩ : Cur).Wf := .inl hov
  have hpos : (ch :: s.pre).length + s.over = base + 2048 + 2048 := by
    have := h.pos; simp only [List.length_cons]; omega
  have hwl : (Buf.write (b.buf.drop 2048 ++ b.buf.drop 2048) 2048 (b.rd.read 2048).1).length = 4096 := by
    rw [write_length] <;> simp only [List.length_append, hdlen] <;> omega
  refine ⟨hall, hwf, h.over, hwl, hpos, .inr (by simp only; omega), ?_, by have := h.half; omega⟩
  rw [refill_eq] at hrd
  have ht : (b.buf.drop 2048 ++ b.buf.drop 2048).take 2048 = b.buf.drop 2048 := by
    rw [List.take_append_of_le_length (by omega), List.take_of_length_le (by omega)]
  have h2 : inp.drop (base + 4096) = (inp.drop (base + 2048)).drop 2048 := by rw [List.drop_drop]
  by_cases hok : (b.rd.read 2048).2.1 = false
  · rw [if_pos hok] at hrd
    have hl : inp.length = base + 4096 := by
      have := congrArg List.length hrd
      simp at this; omega
    right
    simp only [if_pos hok]
    refine ⟨by omega, by omega, ?_, .inr (Nat.le_refl _), by omega⟩
    simp only [Buf.write]
    rw [List.append_assoc, List.take_append_of_le_length (by simp [h.len]), List.take_take, Nat.min_self, ht, hdrop,
      List.take_of_length_le (by simp [hl])]
  · rw [if_neg hok] at hrd
    simp only [if_neg hok]
    have hwt := write_take (buf := b.buf.drop 2048 ++ b.buf.drop 2048) (off := 2048) (w := (b.rd.read 2048).1)
      (by simp only [List.length_append, hdlen]; omega)
    rw [ht] at hwt
    by_cases hfull : (b.rd.read 2048).1.length = 2048
    · rw [if_pos hfull] at hrd
      rw [hfull] at hwt ⊢
      have hl := congrArg List.length hrd
      simp only [List.length_append, hfull, List.length_drop] at hl
      left
      refine ⟨rfl, by omega, ?_, ?_, by omega⟩
      · rw [List.take_of_length_le (by omega)] at hwt
        rw [hwt, hdrop, show 4096 = 2048 + 2048 from rfl, List.take_add, ← h2, ← hrd,
          List.take_append_of_le_length (by omega), List.take_of_length_le (l := (b.rd.read 2048).1) (by omega)]
      · have : inp.drop (base + 2048 + 4096) = (inp.drop (base + 4096)).drop 2048 := by
          rw [List.drop_drop]
        rw [this, ← hrd, List.drop_append_of_le_length (by omega), List.drop_of_length_le (by omega), List.nil_append]
    · rw [if_neg hfull] at hrd
      have hl := congrArg List.length hrd
      simp only [List.length_drop] at hl
      right
      refine ⟨by omega, by omega, ?_, .inr (by omega), by omega⟩
      rw [hwt, hdrop, hrd, h2, List.take_append_drop]

/-- After a byte the window is the same or has moved by half. -/
theorem Rel.byte {inp : Bytes} {c : Nat} {s : Cur} {b : Buf} {base : Nat} (h : Rel inp c s b base) :
    ∃ b' base', b.byte = .ok (s.byte.1, b') ∧ Rel inp (min 2048 (c + 1)) s.byte.2 b' base' ∧
      (s.post ≠ [] → b' = ({ b with r := b.r + 1 } : Buf).fill) ∧
      ((base' = base ∧ b'.buf = b.buf ∧ b'.last = b.last ∧ b'.runes = b.runes) ∨
        (base' = base + 2048 ∧ b.last = 4096 ∧ b.r + 1 = 4096 ∧ b' = ({ b with r := b.r + 1 } : Buf).fill)) := by
  have hpl : s.pre.length + s.post.length = inp.length := by rw [← h.all]; simp
  cases hp : s.post with
  | nil =>
    -- at the end
    have hpl' : s.pre.length = inp.length := by simpa [hp] using hpl
    rcases h.win with ⟨_, hlen, _, _, hr⟩ | ⟨hlt, hlen, hbuf, hb, hr⟩
    · have := h.pos; omega
    · have hpos := h.pos
      have hov := h.over
      refine ⟨{ b with r := b.last + 1 }, base, ?_, ?_, by simp, .inl ⟨rfl, rfl, rfl, rfl⟩⟩
      · rw [Buf.byte, if_pos ⟨hlt, by omega⟩, Cur.byte, hp]
      · refine ⟨by simpa [Cur.byte, hp] using h.all, .inr (by simp [Cur.byte, hp]), by simp [Cur.byte, hp], h.len, ?_, ?_, ?_, h.half⟩
        · simp [Cur.byte, hp]; omega
        · rcases hb with hb | hb
          · exact .inl hb
          · right; simp only; omega
        · right; exact ⟨hlt, hlen, hbuf, hb, Nat.le_refl _⟩
  | cons ch t =>
    have hov : s.over = 0 := by
      rcases h.wf with h | h
      · exact h
      · rw [hp] at h; simp at h
    have hpos := h.pos
    rw [hov, Nat.add_zero] at hpos
    simp only [hp, List.length_cons] at hpl
    have hget : inp[s.pre.length]? = some ch := by
      rw [← h.all, hp, List.getElem?_append_right (by simp)]
      simp
    have hall : (ch :: s.pre).reverse ++ t = inp := by rw [← h.all, hp]; simp
    have hcb : s.byte = (some ch, ⟨ch :: s.pre, t, s.over, s.runes⟩) := by simp [Cur.byte, hp]
    rw [hcb]
    have hwf : (⟨ch :: s.pre, t, s.over, s.runes⟩ : Cur).Wf := .inl hov
    rcases h.win with ⟨h4, hlen, hbuf, hrd, hr⟩ | ⟨hlt, hlen, hbuf, hb, hr⟩
    · have hbr : b.buf[b.r]? = some ch := by
        rw [hbuf, List.getElem?_take, if_pos hr, List.getElem?_drop, ← hpos, hget]
      have hbyte : b.byte = .ok (some ch, ({ b with r := b.r + 1 } : Buf).fill) := by
        rw [Buf.byte, if_neg (by simp [bufSize, h4]), hbr]
      by_cases hr1 : b.r + 1 = 4096
      · exact ⟨_, base + 2048, hbyte, h.byte_fill h4 hr1 hp, fun _ => rfl, .inr ⟨rfl, h4, hr1, rfl⟩⟩
      · have : ({ b with r := b.r + 1 } : Buf).fill = { b with r := b.r + 1 } := fill_small (by simp only; omega)
        refine ⟨_, base, hbyte, ?_, fun _ => rfl, .inl (by rw [this]; exact ⟨rfl, rfl, rfl, rfl⟩)⟩
        rw [this]
        refine ⟨hall, hwf, h.over, h.len, ?_, ?_, .inl ⟨h4, hlen, hbuf, hrd, by simp only; omega⟩, h.half⟩
        · simp [hov]; omega
        · rcases h.credit with h | h
          · exact .inl h
          · right; simp only; omega
    · have hlt2 : b.r < b.last := by omega
      have hbr : b.buf[b.r]? = some ch := by
        have : (b.buf.take b.last)[b.r]? = some ch := by
          rw [hbuf, List.getElem?_drop, ← hpos, hget]
        rwa [List.getElem?_take, if_pos hlt2] at this
      have hbyte : b.byte = .ok (some ch, ({ b with r := b.r + 1 } : Buf).fill) := by
        rw [Buf.byte, if_neg (by omega), hbr]
      have : ({ b with r := b.r + 1 } : Buf).fill = { b with r := b.r + 1 } := fill_small (by simp only; omega)
      refine ⟨_, base, hbyte, ?_, fun _ => rfl, .inl (by rw [this]; exact ⟨rfl, rfl, rfl, rfl⟩)⟩
      rw [this]
      refine ⟨hall, hwf, h.over, h.len, ?_, ?_, .inr ⟨hlt, hlen, hbuf, hb, by simp only; omega⟩, h.half⟩
      · simp [hov]; omega
      · rcases h.credit with h | h
        · exact .inl h
        · right; simp only; omega

theorem Tracks.byte {inp : Bytes} {c : Nat} {s : Cur} {b : Buf} (h : Tracks inp c s b) :
    ∃ b', b.byte = .ok (s.byte.1, b') ∧ Tracks inp (min 2048 (c + 1)) s.byte.2 b' := by
  obtain ⟨base, h⟩ := h
  obtain ⟨b', base', h1, h2, _⟩ := h.byte
  exact ⟨b', h1, base', h2⟩

theorem Rel.unread {inp : Bytes} {c : Nat} {s : Cur} {b : Buf} {base : Nat} (h : Rel inp (c + 1) s b base) :
    Rel inp c s.unread b.unread base := by
  have hpos := h.pos
  have hwin : ∀ r', r' ≤ b.r → (b.last = 4096 ∧ base + 4096 ≤ inp.length ∧ b.buf = (inp.drop base).take 4096 ∧
      refill b.rd = inp.drop (base + 4096) ∧ r' < 4096) ∨
    (b.last < 4096 ∧ base + b.last = inp.length ∧ b.buf.take b.last = inp.drop base ∧
      (base = 0 ∨ 2048 ≤ b.last) ∧ r' ≤ b.last + 1) := fun r' hr' =>
    h.win.imp (fun ⟨a, b, c, d, e⟩ => ⟨a, b, c, d, by omega⟩) (fun ⟨a, b, c, d, e⟩ => ⟨a, b, c, d, by omega⟩)
  have hcr : base = 0 ∨ c ≤ b.r - 1 := h.credit.imp id (fun h => by omega)
  cases ho : s.over with
  | succ n =>
    have hu : s.unread = { s with over := n } := by simp [Cur.unread, ho]
    have h1 := h.over
    have hn : n = 0 := by omega
    rw [hu]
    have hpost : s.post = [] := by
      rcases h.wf with h | h
      · omega
      · exact h
    have hr : 1 ≤ b.r := by
      rcases h.credit with hc | hc
      · omega
      · omega
    exact ⟨h.all, .inr hpost, by simp [hn], h.len, by simp only [Buf.unread]; omega, hcr,
      hwin (b.r - 1) (by omega), h.half⟩
  | zero =>
    cases hpre : s.pre with
    | nil =>
      have hu : s.unread = s := by simp [Cur.unread, ho, hpre]
      rw [hu]
      have hr0 : b.r = 0 ∧ base = 0 := by
        simp [hpre, ho] at hpos
        omega
      have hb : b.unread = b := by
        obtain ⟨hr0, -⟩ := hr0
        cases b
        simp only at hr0
        simp [Buf.unread, hr0]
      rw [hb]
      exact { h with credit := .inl hr0.2 }
    | cons d p =>
      have hu : s.unread = { s with pre := p, post := d :: s.post } := by simp [Cur.unread, ho, hpre]
      rw [hu]
      simp only [hpre, List.length_cons, ho, Nat.add_zero] at hpos
      have hr : 1 ≤ b.r := by
        rcases h.credit with hc | hc
        · omega
        · omega
      refine ⟨?_, .inl ho, by simp [ho], h.len, ?_, hcr, hwin (b.r - 1) (by omega), h.half⟩
      · rw [← h.all, hpre]; simp
      · simp only [Buf.unread, ho]; omega

theorem Tracks.unread {inp : Bytes} {c : Nat} {s : Cur} {b : Buf} (h : Tracks inp (c + 1) s b) :
    Tracks inp c s.unread b.unread := by
  obtain ⟨base, h⟩ := h
  exact ⟨base, h.unread⟩

/-! ## Programs -/

/-- Both machines produce the same outcome: the same value and events, with `Q`
of the states. -/
def Agree {α : Type} (x : Prog α) (s : Cur) (b : Buf) (e : Ev) (Q : α → Cur → Buf → Prop) : Prop :=
  match x.run curM s e with
  | .ok (a, s', e') => ∃ b', x.run bufM b e = .ok (a, b', e') ∧ Q a s' b'
  | .panic => x.run bufM b e = .panic
  | .oof => x.run bufM b e = .oof

theorem Agree.pure {α : Type} {a : α} {s : Cur} {b : Buf} {e : Ev} {Q : α → Cur → Buf → Prop} (h : Q a s b) :
    Agree (Pure.pure a : Prog α) s b e Q := ⟨b, rfl, h⟩

theorem Agree.bind {α β : Type} {x : Prog α} {f : α → Prog β} {s : Cur} {b : Buf} {e : Ev}
    {P : α → Cur → Buf → Prop} {Q : β → Cur → Buf → Prop} (h : Agree x s b e P)
    (hf : ∀ a s' b' e', P a s' b' → Agree (f a) s' b' e' Q) : Agree (x >>= f) s b e Q := by
  unfold Agree at h ⊢
  rw [Prog.run_bind, Prog.run_bind]
  revert h
  cases x.run curM s e with
  | ok r =>
    rintro ⟨b', h1, h2⟩
    rw [h1]
    exact hf r.1 r.2.1 b' r.2.2 h2
  | panic => intro h; simp only at h; rw [h]
  | oof => intro h; simp only at h; rw [h]

theorem Agree.mono {α : Type} {x : Prog α} {s : Cur} {b : Buf} {e : Ev}
    {P Q : α → Cur → Buf → Prop} (h : Agree x s b e P)
    (hf : ∀ a s' b', P a s' b' → Q a s' b') : Agree x s b e Q := by
  unfold Agree at h ⊢
  revert h
  cases x.run curM s e with
  | ok r => rintro ⟨b', h1, h2⟩; exact ⟨b', h1, hf _ _ _ h2⟩
  | panic => exact id
  | oof => exact id

/-- A program that never steps back over more bytes than it has read since it
started plus `c`, whatever it reads; `Q` holds of the result and the number of
bytes it may still step back over. -/
def SafeC {α : Type} (c : Nat) (Q : α → Nat → Prop) : Prog α → Prop
  | .ret a => Q a c
  | .byte k => ∀ ch, SafeC (min 2048 (c + 1)) Q (k ch)
  | .unread k => 1 ≤ c ∧ SafeC (c - 1) Q k
  | .rune _ => False
  | .unreadRune _ => False
  | .getEv k => ∀ e, SafeC c Q (k e)
  | .setEv _ k => SafeC c Q k
  | .oof => True

theorem SafeC.bind {α β : Type} {x : Prog α} {f : α → Prog β} {c : Nat} {P : α → Nat → Prop} {Q : β → Nat → Prop}
    (h : SafeC c P x) (hf : ∀ a c', P a c' → SafeC c' Q (f a)) : SafeC c Q (x >>= f) := by
  show SafeC c Q (Prog.bind x f)
  induction x generalizing c with
  | ret a => exact hf a c h
  | byte k ih => exact fun ch => ih ch (h ch)
  | unread k ih => exact ⟨h.1, ih h.2⟩
  | rune k ih => exact h.elim
  | unreadRune k ih => exact h.elim
  | getEv k ih => exact fun e => ih e (h e)
  | setEv e k ih => exact ih h
  | oof => trivial

theorem SafeC.mono {α : Type} {x : Prog α} {c : Nat} {P Q : α → Nat → Prop}
    (h : SafeC c P x) (hf : ∀ a c', P a c' → Q a c') : SafeC c Q x := by
  induction x generalizing c with
  | ret a => exact hf a c h
  | byte k ih => exact fun ch => ih ch (h ch)
  | unread k ih => exact ⟨h.1, ih h.2⟩
  | rune k ih => exact h.elim
  | unreadRune k ih => exact h.elim
  | getEv k ih => exact fun e => ih e (h e)
  | setEv e k ih => exact ih h
  | oof => trivial

theorem SafeC.agree {α : Type} {inp : Bytes} {x : Prog α} {c : Nat} {Q : α → Nat → Prop} (h : SafeC c Q x)
    {s : Cur} {b : Buf} (ht : Tracks inp c s b) (e : Ev) :
    Agree x s b e fun a s' b' => ∃ c', Q a c' ∧ Tracks inp c' s' b' := by
  induction x generalizing c s b e with
  | ret a => exact ⟨b, rfl, c, h, ht⟩
  | byte k ih =>
    obtain ⟨b', h1, h2⟩ := ht.byte
    have := ih s.byte.1 (h s.byte.1) h2 e
    unfold Agree at this ⊢
    simp only [Prog.run, curM, bufM, h1]
    exact this
  | unread k ih =>
    obtain ⟨h1, h2⟩ := h
    obtain ⟨c, rfl⟩ : ∃ c', c = c' + 1 := ⟨c - 1, by omega⟩
    exact ih h2 ht.unread e
  | rune k ih => exact h.elim
  | unreadRune k ih => exact h.elim
  | getEv k ih => exact ih e (h e) ht e
  | setEv e' k ih => exact ih h ht e'
  | oof => exact rfl

/-! ## The lexer methods are safe -/
open Lex

/-- May be called anywhere and leaves at least as much room to step back. -/
def Safe {α : Type} (x : Prog α) : Prop := ∀ c, SafeC c (fun _ c' => min 2046 c ≤ c') x

theorem Safe.bind {α β : Type} {x : Prog α} {f : α → Prog β} (h : Safe x) (hf : ∀ a, Safe (f a)) : Safe (x >>= f) := by
  intro c
  refine (h c).bind fun a c' h' => ?_
  exact (hf a c').mono fun _ c'' h'' => by omega

theorem Safe.pure {α : Type} (a : α) : Safe (Pure.pure a : Prog α) := fun _ => Nat.min_le_right _ _

theorem Safe.oof {α : Type} : Safe (.oof : Prog α) := fun _ => trivial

section
variable {α β : Type} {c : Nat} {Q : β → Nat → Prop}

theorem safe_byte0 {f : UInt8 → Prog β} :
    SafeC c Q (byte0 >>= f) ↔ ∀ ch : Option UInt8, SafeC (min 2048 (c + 1)) Q (f (ch.getD 0)) := Iff.rfl
theorem safe_byteErr {f : Option UInt8 → Prog β} :
    SafeC c Q (byteErr >>= f) ↔ ∀ ch, SafeC (min 2048 (c + 1)) Q (f ch) := Iff.rfl
theorem safe_unread {f : Unit → Prog β} :
    SafeC c Q (unread >>= f) ↔ 1 ≤ c ∧ SafeC (c - 1) Q (f ()) := Iff.rfl
theorem safe_pure {a : β} : SafeC c Q (Pure.pure a) ↔ Q a c := Iff.rfl
theorem safe_pure_bind {a : α} {f : α → Prog β} : SafeC c Q (Pure.pure a >>= f) ↔ SafeC c Q (f a) := Iff.rfl
theorem safe_evAdd {v : Val} {f : Unit → Prog β} : SafeC c Q (evAdd v >>= f) ↔ Ev → SafeC c Q (f ()) := Iff.rfl
end

theorem Safe.use {α : Type} {x : Prog α} (h : Safe x) {c : Nat} {Q : α → Nat → Prop}
    (hq : ∀ a c', min 2046 c ≤ c' → Q a c') : SafeC c Q x := (h c).mono hq

theorem Safe.use_bind {α β : Type} {x : Prog α} {f : α → Prog β} (h : Safe x) {c : Nat} {Q : β → Nat → Prop}
    (hq : ∀ a c', min 2046 c ≤ c' → SafeC c' Q (f a)) : SafeC c Q (x >>= f) := (h c).bind hq

theorem byte0_safe : Safe byte0 := fun c _ => by show min 2046 c ≤ min 2048 (c + 1); omega

theorem peekByte_safe : Safe peekByte := by
  intro c
  simp only [peekByte, safe_byteErr]
  intro ch
  cases ch with
  | none => simp only [safe_pure]; omega
  | some d => simp only [safe_unread, safe_pure]; omega

theorem readWhile_safe (p : UInt8 → Bool) : ∀ (f c : Nat), SafeC c (fun w c' => min 2047 (c + w.length) ≤ c') (readWhile p f) := by
  intro f
  induction f with
  | zero => intro c; trivial
  | succ f ih =>
    intro c
    simp only [readWhile, safe_byte0]
    intro ch
    split
    · refine (ih _).bind fun w c' h => ?_
      simp only [safe_pure, List.length_cons]
      omega
    · simp only [safe_unread, safe_pure, List.length_nil]
      omega

theorem str_safe (L : Nat) : Safe (str L) := fun c => (readWhile_safe _ L c).mono fun _ _ h => by omega

theorem space_safe (L c : Nat) : SafeC c (fun w c' => min 2047 (c + w.1) ≤ c') (space L) := by
  refine (readWhile_safe _ L c).bind fun w c' h => ?_
  simpa [safe_pure] using h

theorem space_safe' (L : Nat) : Safe (space L) := fun c => (space_safe L c).mono fun _ _ h => by omega

theorem brk_safe : Safe brk := by
  intro c
  simp only [brk, safe_byte0]
  intro ch
  split
  · simp only [safe_byte0]
    intro d
    split
    · simp only [safe_pure]; omega
    · simp only [safe_unread, safe_pure]; omega
  · simp only [safe_pure_bind]
    split
    · simp only [safe_pure]; omega
    · simp only [safe_unread, safe_pure]; omega

theorem endp_safe : Safe endp := by
  intro c
  simp only [endp, safe_byteErr]
  intro ch
  cases ch with
  | none => simp only [safe_pure]; omega
  | some d =>
    simp only
    split
    · simp only [safe_pure]; omega
    · simp only [safe_unread, safe_pure]; omega

theorem spaceMaxLoop_safe (max : Nat) : ∀ (f a b : Nat), Safe (spaceMaxLoop max f a b) := by
  intro f
  induction f with
  | zero => intro a b c; trivial
  | succ f ih =>
    intro a b c
    simp only [spaceMaxLoop, safe_byte0]
    intro ch
    split
    · simp only [safe_unread, safe_pure]; omega
    · generalize (if (ch.getD 0 == 32) = true then a + 1 else a) = a'
      generalize (if (ch.getD 0 == 32) = true then b else b + 1) = b'
      split
      · simp only [safe_pure]; omega
      · exact (ih a' b').use fun _ _ h => by omega

theorem quotedLoop_safe (L ind : Nat) (c1 : UInt8) : ∀ (f : Nat) (buf : Bytes) (c2 : UInt8),
    Safe (quotedLoop L ind c1 f buf c2) := by
  intro f
  induction f with
  | zero => intro buf c2 c; trivial
  | succ f ih =>
    intro buf c2 c
    simp only [quotedLoop, safe_byte0]
    intro ch
    split
    · simp only [safe_pure]; omega
    split
    · simp only [safe_pure]; omega
    split
    · simp only [safe_pure]; omega
    split
    · exact (ih _ _).use fun _ _ h => by omega
    generalize (if (c2 == 92 && ch.getD 0 != 39 && ch.getD 0 != 34) = true then buf ++ [92] else buf) = buf'
    split
    · refine (spaceMaxLoop_safe ind L 0 0).use_bind fun a c' h => ?_
      split
      · simp only [safe_pure]; omega
      split
      · simp only [safe_pure]; omega
      · exact (ih _ _).use fun _ _ h => by omega
    · exact (ih _ _).use fun _ _ h => by omega

theorem quoted_safe (L ind : Nat) : Safe (quoted L ind) := by
  intro c
  simp only [quoted, safe_byte0]
  intro ch
  split
  · simp only [safe_unread, safe_pure]; omega
  · exact (quotedLoop_safe L ind _ L _ _).use fun _ _ h => by omega

theorem commentLoop_safe : ∀ (f : Nat), Safe (commentLoop f) := by
  intro f
  induction f with
  | zero => intro c; trivial
  | succ f ih =>
    intro c
    simp only [commentLoop, safe_byte0]
    intro ch
    split
    · simp only [safe_pure]; omega
    · exact ih.use fun _ _ h => by omega

theorem comment_safe (L : Nat) : Safe (comment L) := by
  intro c
  simp only [comment, safe_byte0]
  intro ch
  split
  · simp only [safe_byte0]
    intro d
    split
    · refine (commentLoop_safe L).use_bind fun a c' h => ?_
      simp only [safe_pure]; omega
    · simp only [safe_unread, safe_pure]; omega
  · simp only [safe_unread, safe_pure]; omega

theorem blockLine_safe : ∀ (f : Nat), Safe (blockLine f) := by
  intro f
  induction f with
  | zero => intro c; trivial
  | succ f ih =>
    intro c
    simp only [blockLine, safe_byte0]
    intro ch
    split
    · simp only [safe_pure]; omega
    split
    · exact ih.use fun _ _ h => by omega
    split
    · simp only [safe_pure]; omega
    · refine ih.use_bind fun a c' h => ?_
      simp only [safe_pure]; omega

theorem blockLoop_safe (L nsp : Nat) : ∀ (f : Nat), Safe (blockLoop L nsp f) := by
  intro f
  induction f with
  | zero => intro c; trivial
  | succ f ih =>
    intro c
    simp only [blockLoop]
    refine (space_safe' L).use_bind fun a c' h => ?_
    split
    · simp only [safe_pure]; omega
    · refine (blockLine_safe L).use_bind fun a c'' h' => ?_
      refine ih.use_bind fun a c'' h' => ?_
      simp only [safe_pure]; omega

theorem block_safe (L nsp : Nat) : Safe (block L nsp) := by
  intro c
  simp only [block, safe_byte0]
  intro ch
  split
  · simp only [safe_unread, safe_pure]; omega
  · simp only [safe_byte0]
    intro d
    split
    · simp only [safe_unread, safe_pure]; omega
    · split
      · simp only [safe_byte0]
        intro d
        refine (blockLoop_safe L nsp L).use_bind fun a c'' h' => ?_
        simp only [safe_pure]; omega
      · refine (blockLoop_safe L nsp L).use_bind fun a c'' h' => ?_
        simp only [safe_pure]; omega

theorem scalar_safe (L n : Nat) : Safe (scalar L n) := by
  refine (quoted_safe L n).bind fun a => ?_
  cases a with
  | some b => exact Safe.pure _
  | none => exact (str_safe L).bind fun a => Safe.pure _

theorem scalarType_safe (E : Ext) (L n : Nat) : Safe (scalarType E L n) := by
  refine (quoted_safe L n).bind fun a => ?_
  cases a with
  | some b => exact Safe.pure _
  | none => exact (str_safe L).bind fun a => Safe.pure _

theorem evAdd_safe (v : Val) : Safe (evAdd v) := fun _ _ => Nat.min_le_right _ _
theorem evInc_safe : Safe evInc := fun _ _ => Nat.min_le_right _ _
theorem evDec_safe : Safe evDec := fun _ _ => Nat.min_le_right _ _
theorem evLevel_safe : Safe evLevel := fun _ _ => Nat.min_le_right _ _
theorem evSetLevel_safe (l : Nat) : Safe (evSetLevel l) := fun _ _ => Nat.min_le_right _ _
theorem evDelete_safe : Safe evDelete := fun _ _ => Nat.min_le_right _ _

theorem lineScalar_safe (E : Ext) (L : Nat) (types : Bool) (n : Nat) : Safe (lineScalar E L types n) := by
  cases types with
  | true =>
    refine (scalarType_safe E L n).bind fun a => ?_
    cases a with
    | some v => exact evAdd_safe v
    | none => exact Safe.pure _
  | false =>
    refine (scalar_safe L n).bind fun a => ?_
    cases a with
    | some v => exact evAdd_safe _
    | none => exact Safe.pure _

theorem lineBody_safe (E : Ext) (L : Nat) (types : Bool) (n : Nat) : ∀ f, Safe (lineBody E L types n f) := by
  intro f
  induction f with
  | zero => exact Safe.oof
  | succ f ih =>
    simp only [lineBody]
    refine endp_safe.bind fun a => ?_
    split
    · exact Safe.pure _
    refine brk_safe.bind fun a => ?_
    split
    · exact Safe.pure _
    refine (comment_safe L).bind fun a => ?_
    split
    · exact Safe.pure _
    refine (block_safe L n).bind fun a => ?_
    cases a with
    | some s => exact (evAdd_safe _).bind fun _ => brk_safe.bind fun _ => Safe.pure _
    | none =>
      refine (lineScalar_safe E L types n).bind fun _ => brk_safe.bind fun a => ?_
      split
      · exact Safe.pure _
      · exact (space_safe' L).bind fun _ => evInc_safe.bind fun _ => ih

theorem lineHere_safe (E : Ext) (L : Nat) (types : Bool) (n : Nat) : Safe (lineHere E L types n) := by
  simp only [lineHere]
  refine evLevel_safe.bind fun lv => endp_safe.bind fun a => ?_
  split
  · exact Safe.pure _
  refine peekByte_safe.bind fun a => ?_
  have key : Safe (do
      if ← lineBody E L types n L then do
        evSetLevel lv
        Pure.pure true
      else Pure.pure false) := by
    refine (lineBody_safe E L types n L).bind fun a => ?_
    split
    · exact (evSetLevel_safe _).bind fun _ => Safe.pure _
    · exact Safe.pure _
  split
  · exact byte0_safe.bind fun _ => (space_safe' L).bind fun _ => key
  · exact key

end Ogdl
