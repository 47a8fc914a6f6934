import Verif.Spec.Fits
import Verif.Lemmas.Short
import Verif.Lemmas.Path
import Verif.Lemmas.BufferAgree

/-! The buffered lexer follows the cursor also when runes are read, on texts that fit. -/

namespace Ogdl
open Lex Spec

/-- `isTokenChar` of a byte is false. -/
def Quiet (d : UInt8) : Prop := d < 0x80 ∧ ∀ E : Ext, isTokenRune E d.toNat = false

theorem Spec.Separator.quiet {c : UInt8} (h : Separator c) : Quiet c := by
  obtain ⟨h1, h2, h3, h4, h5⟩ := h
  refine ⟨h1, fun E => ?_⟩
  have h1' : c.toNat < 128 := h1
  have h2' : ¬ (65 ≤ c.toNat ∧ c.toNat ≤ 90) := h2
  have h3' : ¬ (97 ≤ c.toNat ∧ c.toNat ≤ 122) := h3
  have h4' : ¬ (48 ≤ c.toNat ∧ c.toNat ≤ 57) := h4
  have h5' : c.toNat ≠ 95 := fun h => h5 (UInt8.toNat_inj.1 h)
  unfold isTokenRune
  rw [if_pos (by omega)]
  simp only [latinLetter, latinDigit, Bool.or_eq_false_iff, Bool.and_eq_false_iff, decide_eq_false_iff_not,
    beq_eq_false_iff_ne]
  omega

theorem quiet_zero : Quiet 0 := ⟨by decide, fun E => by simp [isTokenRune, latinLetter, latinDigit]⟩

/-- The conditions on the input. -/
structure Roomy (inp : Bytes) : Prop where
  tail : inp.length < 4096 → inp.length ≤ 4094
  rest : 4096 ≤ inp.length → inp.length % 2048 ≠ 2047
  stale : 4096 ≤ inp.length → ∀ j, j < 2 → ∀ c, inp[inp.length - 2048 + j]? = some c → Quiet c
  cut : ∀ k c, 2 ≤ k → inp[2048 * k]? = some c → isCont c = false

theorem Spec.Fits.roomy {s : Bytes} (h : Fits s) : Roomy s := by
  rcases h with h | ⟨h1, h2, h3⟩
  · refine ⟨fun _ => h, fun h' => by omega, fun h' => by omega, fun k c hk hc => ?_⟩
    rw [List.getElem?_eq_none (by omega)] at hc
    cases hc
  · refine ⟨fun h => ?_, fun _ => h1, fun hl j hj c hc => (h2 _ c ?_ hc).quiet, fun k c hk hc => ?_⟩
    · by_cases h' : s.length = 4095
      · exact absurd (by rw [h']) h1
      · omega
    · omega
    · have := h3 k c hk hc
      unfold Continuation at this
      unfold isCont
      simpa using this

/-- The bytes after the end of the data in the buffer are quiet. -/
def TailQuiet (b : Buf) : Prop :=
  b.last < 4096 → b.last ≤ 4094 ∧ ∀ j, j < 2 → ∃ d, b.buf[b.last + j]? = some d ∧ Quiet d

/-- The buffer follows the cursor, and the bytes after the end are quiet. -/
structure LRel (inp : Bytes) (c : Nat) (s : Cur) (b : Buf) (base : Nat) : Prop where
  rel : Rel inp c s b base
  step : base % 2048 = 0
  runes : b.runes = s.runes
  quiet : TailQuiet b
  plain : b.rd.eofWithData = false

def LTracks (inp : Bytes) (c : Nat) (s : Cur) (b : Buf) : Prop := ∃ base, LRel inp c s b base

theorem LRel.r_lt {inp : Bytes} {c : Nat} {s : Cur} {b : Buf} {base : Nat} (h : LRel inp c s b base) : b.r < 4096 := by
  rcases h.rel.win with ⟨_, _, _, _, h⟩ | ⟨h1, _, _, _, h2⟩
  · exact h
  · have := (h.quiet h1).1
    omega

theorem LTracks.mono {inp : Bytes} {c c' : Nat} {s : Cur} {b : Buf} (h : LTracks inp c s b) (hc : c' ≤ c) :
    LTracks inp c' s b := by
  obtain ⟨base, h⟩ := h
  exact ⟨base, { h with rel := { h.rel with credit := h.rel.credit.imp id (fun h => Nat.le_trans hc h) } }⟩

theorem fill_runes (b : Buf) : b.fill.runes = b.runes := by
  unfold Buf.fill
  split <;> rfl

/-- After a refill, what lies beyond the end is what was there 2048 bytes earlier. -/
theorem fill_quiet {inp : Bytes} (hi : Roomy inp) {c c' : Nat} {s s' : Cur} {b : Buf} {base : Nat} (h : Rel inp c s b base)
    (h4 : b.last = 4096) (hr : b.r + 1 = 4096) (hb : base % 2048 = 0) (hp : b.rd.eofWithData = false)
    (h' : Rel inp c' s' ({ b with r := b.r + 1 } : Buf).fill (base + 2048)) :
    TailQuiet ({ b with r := b.r + 1 } : Buf).fill := by
  intro hlt
  obtain ⟨hlen, hbuf⟩ : base + 4096 ≤ inp.length ∧ b.buf = (inp.drop base).take 4096 := by
    rcases h.win with ⟨_, h1, h2, h3, _⟩ | ⟨hlt, _⟩
    · exact ⟨h1, h2⟩
    · omega
  have hlast : base + 2048 + ({ b with r := b.r + 1 } : Buf).fill.last = inp.length := by
    rcases h'.win with ⟨h1, _⟩ | ⟨_, h1, _⟩
    · omega
    · exact h1
  have hle : ({ b with r := b.r + 1 } : Buf).fill.last ≤ 4094 := by
    have := hi.rest (by omega)
    omega
  refine ⟨hle, fun j hj => ?_⟩
  have hgt : inp.length - 2048 + j = base + (({ b with r := b.r + 1 } : Buf).fill.last + j) := by omega
  have hst := hi.stale (by omega) j hj
  revert hlast hle hgt
  rw [fill_large (by simp only; omega)]
  simp only
  have hd : (b.buf.drop 2048).length = 2048 := by simp [h.len]
  have hgl := read_le b.rd 2048
  have hn : (if (b.rd.read 2048).2.1 = false then 2048 else 2048 + (b.rd.read 2048).1.length) =
      2048 + (b.rd.read 2048).1.length := by
    split
    · rename_i hf
      have : b.rd.data = [] := by simpa [Reader.read, hp] using hf
      simp [Reader.read, this]
    · rfl
  rw [hn]
  generalize (b.rd.read 2048).1 = got at hgl
  intro hlast hle hgt
  have hval : (Buf.write (b.buf.drop 2048 ++ b.buf.drop 2048) 2048 got)[2048 + got.length + j]? =
      inp[inp.length - 2048 + j]? := by
    have e1 : (b.buf.drop 2048 ++ b.buf.drop 2048).take 2048 = b.buf.drop 2048 := by
      rw [List.take_append_of_le_length (by omega), List.take_of_length_le (by omega)]
    rw [Buf.write, e1, List.getElem?_append_right (by simp only [List.length_append, hd]; omega),
      List.getElem?_drop, List.getElem?_append_right (by simp only [List.length_append, hd]; omega), List.getElem?_drop]
    have e2 : 2048 + (2048 + got.length + (2048 + got.length + j - (b.buf.drop 2048 ++ got).length) - (b.buf.drop 2048).length) =
        2048 + got.length + j := by
      simp only [List.length_append, hd]; omega
    rw [e2, hbuf, List.getElem?_take, if_pos (by omega), List.getElem?_drop, hgt]
  rw [hval]
  have hlt' : inp.length - 2048 + j < inp.length := by omega
  rw [List.getElem?_eq_getElem hlt'] at hst ⊢
  exact ⟨_, rfl, hst _ rfl⟩

theorem fill_plain {b : Buf} (h : b.rd.eofWithData = false) : b.fill.rd.eofWithData = false := by
  by_cases hr : b.r < 4096
  · rw [fill_small hr]; exact h
  · rw [fill_large hr]; exact h

theorem LTracks.byte {inp : Bytes} (hi : Roomy inp) {c : Nat} {s : Cur} {b : Buf} (h : LTracks inp c s b) :
    ∃ b', b.byte = .ok (s.byte.1, b') ∧ LTracks inp (min 2048 (c + 1)) s.byte.2 b' ∧
      (s.post ≠ [] → b' = ({ b with r := b.r + 1 } : Buf).fill) := by
  obtain ⟨base, h⟩ := h
  obtain ⟨b', base', h1, h2, h3, h4⟩ := h.rel.byte
  have hs : s.byte.2.runes = s.runes := by
    unfold Cur.byte
    split <;> rfl
  have hpl : b'.rd.eofWithData = false := by
    have hb := h1
    unfold Buf.byte at hb
    split at hb
    · injection hb with hb
      rw [← (Prod.mk.inj hb).2]; exact h.plain
    · split at hb
      · cases hb
      · injection hb with hb
        rw [← (Prod.mk.inj hb).2]; exact fill_plain h.plain
  refine ⟨b', h1, ⟨base', h2, ?_, ?_, ?_, hpl⟩, h3⟩
  · rcases h4 with ⟨h4, _⟩ | ⟨h4, _⟩
    · rw [h4]; exact h.step
    · have := h.step; omega
  · rw [hs, ← h.runes]
    rcases h4 with ⟨_, _, _, h4⟩ | ⟨_, _, _, h4⟩
    · exact h4
    · rw [h4, fill_runes]
  · rcases h4 with ⟨_, h5, h6, _⟩ | ⟨h5, h6, h7, h8⟩
    · have := h.quiet
      unfold TailQuiet at this ⊢
      rwa [h5, h6]
    · subst h5
      rw [h8] at h2 ⊢
      exact fill_quiet hi h.rel h6 h7 h.step h.plain h2

theorem LTracks.unread {inp : Bytes} {c : Nat} {s : Cur} {b : Buf} (h : LTracks inp (c + 1) s b) :
    LTracks inp c s.unread b.unread := by
  obtain ⟨base, h⟩ := h
  refine ⟨base, h.rel.unread, h.step, ?_, h.quiet, h.plain⟩
  have : s.unread.runes = s.runes := by
    unfold Cur.unread
    split
    · rfl
    · split <;> rfl
  rw [this]; exact h.runes

/-- Running on both machines, with room to step back. -/
def LAgree {α : Type} (inp : Bytes) (c : Nat) (Q : α → Nat → Prop) (x : Prog α) : Prop :=
  ∀ s b e, LTracks inp c s b → Agree x s b e fun a s' b' => ∃ c', Q a c' ∧ LTracks inp c' s' b'

theorem SafeC.long {α : Type} {inp : Bytes} (hi : Roomy inp) {x : Prog α} {c : Nat} {Q : α → Nat → Prop} (h : SafeC c Q x) :
    LAgree inp c Q x := by
  intro s b e ht
  induction x generalizing c s b e with
  | ret a => exact ⟨b, rfl, c, h, ht⟩
  | byte k ih =>
    obtain ⟨b', h1, h2, _⟩ := ht.byte hi
    have := ih s.byte.1 (h s.byte.1) _ _ e h2
    unfold Agree at this ⊢
    simp only [Prog.run, curM, bufM, h1]
    exact this
  | unread k ih =>
    obtain ⟨h1, h2⟩ := h
    obtain ⟨c, rfl⟩ : ∃ c', c = c' + 1 := ⟨c - 1, by omega⟩
    exact ih h2 _ _ e ht.unread
  | rune k ih => exact h.elim
  | unreadRune k ih => exact h.elim
  | getEv k ih => exact ih e (h e) _ _ e ht
  | setEv e' k ih => exact ih h _ _ e' ht
  | oof => exact rfl

theorem LAgree.bind {α β : Type} {inp : Bytes} {x : Prog α} {f : α → Prog β} {c : Nat} {P : α → Nat → Prop} {Q : β → Nat → Prop}
    (h : LAgree inp c P x) (hf : ∀ a c', P a c' → LAgree inp c' Q (f a)) : LAgree inp c Q (x >>= f) := by
  intro s b e ht
  exact (h s b e ht).bind fun a s' b' e' ⟨c', h1, h2⟩ => hf a c' h1 s' b' e' h2

theorem LAgree.mono {α : Type} {inp : Bytes} {x : Prog α} {c : Nat} {P Q : α → Nat → Prop}
    (h : LAgree inp c P x) (hf : ∀ a c', P a c' → Q a c') : LAgree inp c Q x := by
  intro s b e ht
  exact (h s b e ht).mono fun a s' b' ⟨c', h1, h2⟩ => ⟨c', hf a c' h1, h2⟩

/-- Agrees wherever it is called, and leaves as much room to step back. -/
def Long {α : Type} (inp : Bytes) (x : Prog α) : Prop := ∀ c, LAgree inp c (fun _ c' => min 2046 c ≤ c') x

theorem Safe.long {α : Type} {inp : Bytes} (hi : Roomy inp) {x : Prog α} (h : Safe x) : Long inp x :=
  fun c => (h c).long hi

theorem Long.bind {α β : Type} {inp : Bytes} {x : Prog α} {f : α → Prog β} (h : Long inp x) (hf : ∀ a, Long inp (f a)) :
    Long inp (x >>= f) := by
  intro c
  refine (h c).bind fun a c' h' => ?_
  exact (hf a c').mono fun _ c'' h'' => by omega

/-! ## Runes -/

theorem decodeRune_take (l : Bytes) : ∀ (m : Nat), 1 ≤ m → (∀ d, l[m]? = some d → isCont d = false) →
    decodeRune (l.take m) = decodeRune l := by
  intro m hm hd
  match l, m, hm, hd with
  | [], m, hm, hd => simp
  | c0 :: t, 1, _, hd =>
    cases t with
    | nil => rfl
    | cons c1 t =>
      have := hd c1 rfl
      simp only [List.take_succ_cons, List.take_zero, decodeRune, this]
      repeat' split
      all_goals simp_all
  | c0 :: t, 2, _, hd =>
    match t, hd with
    | [], _ => rfl
    | [c1], _ => rfl
    | c1 :: c2 :: t, hd =>
      have := hd c2 rfl
      simp only [List.take_succ_cons, List.take_zero, decodeRune, this]
      repeat' split
      all_goals simp_all
  | c0 :: t, 3, _, hd =>
    match t, hd with
    | [], _ => rfl
    | [c1], _ => rfl
    | [c1, c2], _ => rfl
    | c1 :: c2 :: c3 :: t, hd =>
      have := hd c3 rfl
      simp only [List.take_succ_cons, List.take_zero, decodeRune, this]
      repeat' split
      all_goals simp_all
  | c0 :: t, m + 4, _, hd =>
    match t, hd with
    | [], _ => rfl
    | [c1], _ => rfl
    | [c1, c2], _ => rfl
    | c1 :: c2 :: c3 :: t, hd => simp only [List.take_succ_cons, decodeRune]

theorem forward_eq (n : Nat) (s : Cur) (h : n ≤ s.post.length) :
    Cur.forward n s = ⟨(s.post.take n).reverse ++ s.pre, s.post.drop n, s.over, s.runes⟩ := by
  obtain ⟨pre, post, over, runes⟩ := s
  have := Cur.forward_app (post.take n) pre (post.drop n) over runes
  rw [List.take_append_drop, List.length_take, Nat.min_eq_left h] at this
  exact this

theorem LTracks.advance {inp : Bytes} (hi : Roomy inp) : ∀ (n : Nat) {c : Nat} {s : Cur} {b : Buf}, LTracks inp c s b →
    n + 1 ≤ s.post.length → (b.last = 4096 → b.r + (n + 1) ≤ 4096) →
    ∃ c', min 2046 c ≤ c' ∧ LTracks inp c' (Cur.forward (n + 1) s) ({ b with r := b.r + (n + 1) } : Buf).fill := by
  intro n
  induction n with
  | zero =>
    intro c s b h hn hr
    obtain ⟨b', _, h2, h3⟩ := h.byte hi
    have hp : s.post ≠ [] := by intro h; rw [h] at hn; simp at hn
    rw [h3 hp] at h2
    refine ⟨min 2048 (c + 1), by omega, ?_⟩
    · have : Cur.forward (0 + 1) s = s.byte.2 := by
        obtain ⟨pre, post, over, runes⟩ := s
        cases post with
        | nil => exact absurd rfl hp
        | cons c t => rfl
      rw [this]; exact h2
  | succ n ih =>
    intro c s b h hn hr
    obtain ⟨b', _, h2, h3⟩ := h.byte hi
    have hp : s.post ≠ [] := by intro h; rw [h] at hn; simp at hn
    rw [h3 hp] at h2
    have hlt : b.r + 1 < 4096 := by
      obtain ⟨base, h⟩ := h
      rcases h.rel.win with ⟨h4, _⟩ | ⟨hlt, hlen, _, _, hr'⟩
      · have := hr h4; omega
      · have hpl : s.pre.length + s.post.length = inp.length := by rw [← h.rel.all]; simp
        have := h.rel.pos
        have hov0 : s.over = 0 := h.rel.wf.resolve_right hp
        omega
    rw [fill_small (by simpa using hlt)] at h2
    have hf : Cur.forward (n + 1 + 1) s = Cur.forward (n + 1) s.byte.2 := by
      obtain ⟨pre, post, over, runes⟩ := s
      cases post with
      | nil => exact absurd rfl hp
      | cons c t => rfl
    have hl : s.byte.2.post.length + 1 = s.post.length := by
      obtain ⟨pre, post, over, runes⟩ := s
      cases post with
      | nil => exact absurd rfl hp
      | cons c t => rfl
    obtain ⟨c', h4, h5⟩ := ih h2 (by omega) (by intro h; have := hr h; simp only; omega)
    refine ⟨c', by omega, ?_⟩
    rw [hf]
    simp only at h5
    rw [show b.r + (n + 1 + 1) = b.r + 1 + (n + 1) by omega]
    exact h5

theorem fill_with_runes (b : Buf) (l : List Nat) : ({ b with runes := l } : Buf).fill = { b.fill with runes := l } := by
  by_cases h : b.r < 4096
  · rw [fill_small h, fill_small (by simpa using h)]
  · rw [fill_large h, fill_large (by simpa using h)]

theorem LTracks.runes {inp : Bytes} {c : Nat} {s : Cur} {b : Buf} (h : LTracks inp c s b) (l : List Nat) :
    LTracks inp c { s with runes := l } { b with runes := l } := by
  obtain ⟨base, h⟩ := h
  exact ⟨base, ⟨h.rel.all, h.rel.wf, h.rel.over, h.rel.len, h.rel.pos, h.rel.credit, h.rel.win, h.rel.half⟩, h.step, rfl, h.quiet, h.plain⟩

theorem decodeRune_size (c : UInt8) (t : Bytes) : 1 ≤ (decodeRune (c :: t)).2 := by
  unfold decodeRune
  repeat' split
  all_goals simp_all

/-- A rune is a word character for both, or it ends the word for both and stepping back
restores the states. -/
theorem LTracks.rune {inp : Bytes} (hi : Roomy inp) (E : Ext) {c : Nat} {s : Cur} {b : Buf} (h : LTracks inp c s b) :
    (∃ d b', b.rune = .ok (d, b') ∧ isTokenRune E d = false ∧ isTokenRune E s.rune.1 = false ∧
      b'.unreadRune = b ∧ s.rune.2.unreadRune = s) ∨
    (∃ b' c', b.rune = .ok (s.rune.1, b') ∧ isTokenRune E s.rune.1 = true ∧ min 2046 c ≤ c' ∧ LTracks inp c' s.rune.2 b'.fill) := by
  have h0 := h
  obtain ⟨base, h⟩ := h
  have hr := h.r_lt
  have hpl : s.pre.length + s.post.length = inp.length := by rw [← h.rel.all]; simp
  have hpos := h.rel.pos
  have hov := h.rel.over
  have hru := h.runes
  have hfill : b.fill = b := fill_small hr
  unfold Buf.rune
  simp only [hfill]
  cases hp : s.post with
  | nil =>
    left
    rcases h.rel.win with ⟨_, hlen, _⟩ | ⟨hlt, hlen, _⟩
    · simp only [hp, List.length_nil] at hpl; omega
    simp only [hp, List.length_nil] at hpl
    obtain ⟨d, hd, hq⟩ := (h.quiet hlt).2 s.over (by omega)
    have hbr : b.buf[b.r]? = some d := by rw [← hd]; congr 1; omega
    refine ⟨d.toNat, { b with r := b.r + 1, runes := 1 :: b.runes }, ?_, hq.2 E, ?_, ?_, ?_⟩
    · simp only [hbr, if_pos hq.1]
    · simp only [Cur.rune, hp]; exact quiet_zero.2 E
    · obtain ⟨buf, r, last, rd, runes⟩ := b
      rfl
    · obtain ⟨pre, post, over, runes⟩ := s
      simp only at hp
      subst hp
      rfl
  | cons ch t =>
    have hov0 : s.over = 0 := by
      rcases h.rel.wf with h | h
      · exact h
      · rw [hp] at h; simp at h
    have hget : ∀ i, inp[s.pre.length + i]? = s.post[i]? := by
      intro i
      rw [← h.rel.all, List.getElem?_append_right (by simp)]
      simp
    have hwin : ∃ m, 1 ≤ m ∧ (b.buf.take b.last).drop b.r = s.post.take m ∧ (b.last = 4096 → b.r + m = 4096) ∧ b.r < b.last ∧
        ∀ d, s.post[m]? = some d → isCont d = false := by
      rcases h.rel.win with ⟨h4, hlen, hbuf, _, _⟩ | ⟨hlt, hlen, hbuf, _, _⟩
      · refine ⟨4096 - b.r, by omega, ?_, fun _ => by omega, by omega, fun d hd => ?_⟩
        · rw [h4, hbuf, List.take_take, Nat.min_self, List.drop_take, List.drop_drop, ← hpos, hov0, Nat.add_zero]
          congr 1
          rw [← h.rel.all]
          simp
        · rw [← hget, show s.pre.length + (4096 - b.r) = base + 4096 by omega] at hd
          have := h.step
          refine hi.cut ((base + 4096) / 2048) d (by omega) ?_
          rw [show 2048 * ((base + 4096) / 2048) = base + 4096 by omega]
          exact hd
      · simp only [hp, List.length_cons] at hpl
        refine ⟨s.post.length, by simp [hp], ?_, fun h => by omega, by omega, fun d hd => ?_⟩
        · rw [hbuf, List.drop_drop, ← hpos, hov0, Nat.add_zero, List.take_of_length_le (Nat.le_refl _), ← h.rel.all]
          simp
        · simp at hd
    obtain ⟨m, hm1, hm2, hm3, hm4, hm5⟩ := hwin
    have hbr : b.buf[b.r]? = some ch := by
      have : ((b.buf.take b.last).drop b.r)[0]? = some ch := by
        rw [hm2, List.getElem?_take, if_pos (by omega), hp]; rfl
      rwa [List.getElem?_drop, Nat.add_zero, List.getElem?_take, if_pos hm4] at this
    simp only [hbr]
    -- both read the same rune, of size `n`
    obtain ⟨n, r, hcur, hbuf, hn, hnm⟩ : ∃ n r, s.rune = (r, { (Cur.forward (n + 1) s) with runes := (n + 1) :: s.runes }) ∧
        (if ch < 128 then Res.ok (ch.toNat, ({ b with r := b.r + 1, runes := 1 :: b.runes } : Buf))
          else if b.r > b.last then Res.panic
          else Res.ok ((decodeRune ((b.buf.take b.last).drop b.r)).1,
            ({ b with r := b.r + (decodeRune ((b.buf.take b.last).drop b.r)).2,
                      runes := (decodeRune ((b.buf.take b.last).drop b.r)).2 :: b.runes } : Buf))) =
          .ok (r, { b with r := b.r + (n + 1), runes := (n + 1) :: b.runes }) ∧ n + 1 ≤ s.post.length ∧ n + 1 ≤ m := by
      by_cases hc : ch < 0x80
      · refine ⟨0, ch.toNat, ?_, ?_, by simp [hp], hm1⟩
        · simp only [Cur.rune, hp, if_pos hc, Cur.forward]
        · rw [if_pos hc]
      · have hde : decodeRune (s.post.take m) = decodeRune s.post := decodeRune_take _ m hm1 hm5
        obtain ⟨n, hn⟩ : ∃ n, (decodeRune s.post).2 = n + 1 := by
          have := decodeRune_size ch t
          rw [hp]
          exact ⟨(decodeRune (ch :: t)).2 - 1, by omega⟩
        have hle := decodeRune_le s.post
        have hle' := decodeRune_le (s.post.take m)
        rw [hde, List.length_take] at hle'
        refine ⟨n, (decodeRune s.post).1, ?_, ?_, by omega, by omega⟩
        · simp only [Cur.rune, hp, if_neg hc]
          rw [← hp, hn]
        · rw [if_neg hc, if_neg (by omega), hm2, hde, hn]
    rw [hbuf, hcur]
    simp only
    cases htok : isTokenRune E r with
    | true =>
      right
      obtain ⟨c', h1, h2⟩ := h0.advance hi n hn (fun h => by have := hm3 h; omega)
      refine ⟨_, c', rfl, rfl, h1, ?_⟩
      rw [show ({ b with r := b.r + (n + 1), runes := (n + 1) :: b.runes } : Buf) =
        { ({ b with r := b.r + (n + 1) } : Buf) with runes := (n + 1) :: b.runes } from rfl, fill_with_runes, ← hru]
      exact h2.runes _
    | false =>
      left
      refine ⟨r, _, rfl, htok, rfl, ?_, ?_⟩
      · obtain ⟨buf, r', last, rd, runes⟩ := b
        simp [Buf.unreadRune]
      · rw [forward_eq _ _ hn]
        obtain ⟨pre, post, over, runes⟩ := s
        simp only at hov0 hn ⊢
        subst hov0
        simp only [Cur.unreadRune]
        rw [Cur.back_app (n + 1) (post.take (n + 1)).reverse pre _ runes (by simp; omega), List.reverse_reverse, List.take_append_drop]

theorem rune_fill (b : Buf) : b.rune = b.fill.rune := by
  unfold Buf.rune
  have : b.fill.fill = b.fill := by
    by_cases h : b.r < 4096
    · rw [fill_small h, fill_small h]
    · rw [fill_large h]
      exact fill_small (by simp only; omega)
  rw [this]

theorem tokenLoop_long {inp : Bytes} (hi : Roomy inp) (E : Ext) : ∀ (L c : Nat) (s : Cur) (b : Buf) (e : Ev),
    LTracks inp c s b.fill → Agree (tokenLoop E L) s b e fun _ s' b' => ∃ c', min 2046 c ≤ c' ∧ LTracks inp c' s' b'
  | 0, _, _, _, _, _ => rfl
  | L + 1, c, s, b, e, h => by
    rw [tokenLoop]
    unfold Agree
    rw [show ∀ f : Nat → Prog (List Nat), (Lex.rune >>= f) = Prog.rune f from fun _ => rfl]
    simp only [Prog.run, curM, bufM]
    rw [rune_fill]
    rcases h.rune hi E with ⟨d, b', h1, h2, h3, h4, h5⟩ | ⟨b', c', h1, htok, h2, h3⟩
    · rw [h1]
      simp only [h2, h3, Bool.false_eq_true, ↓reduceIte]
      refine ⟨b.fill, ?_, c, Nat.min_le_right _ _, ?_⟩
      · show Prog.run bufM (Prog.unreadRune (Prog.ret [])) b' e = _
        simp only [Prog.run, bufM, h4]
      · show LTracks inp c (s.rune.2.unreadRune) _
        rw [h5]; exact h
    · rw [h1]
      simp only [htok, ↓reduceIte]
      have ih := tokenLoop_long hi E L c' s.rune.2 b' e h3
      exact Agree.bind ih fun a s' b'' e' ⟨c'', h5, h6⟩ => Agree.pure ⟨c'', by omega, h6⟩

/-! ## The programs of flow.go and template.go -/

section
variable {inp : Bytes} {α β : Type}

/-- Agrees after a byte has been read, and may step back over it. -/
def Long1 (inp : Bytes) (x : Prog α) : Prop := ∀ c, 1 ≤ c → LAgree inp c (fun _ c' => min 2046 (c - 1) ≤ c') x

/-- Does not move. -/
def Still (inp : Bytes) (x : Prog α) : Prop := ∀ c, LAgree inp c (fun _ c' => c' = c) x

theorem Long.long1 {x : Prog α} (h : Long inp x) : Long1 inp x := fun c _ => (h c).mono fun _ _ h => by omega

theorem Long.oof : Long inp (.oof : Prog α) := fun _ _ _ _ _ => rfl
theorem Long.pure (a : α) : Long inp (Pure.pure a : Prog α) := fun c _ _ _ h => Agree.pure ⟨c, Nat.min_le_right _ _, h⟩

theorem Still.long {x : Prog α} (h : Still inp x) : Long inp x := fun c => (h c).mono fun _ _ h => by omega

theorem Still.bind1 {x : Prog α} {f : α → Prog β} (h : Still inp x) (hf : ∀ a, Long1 inp (f a)) : Long1 inp (x >>= f) :=
  fun c hc => (h c).bind fun a c' h' => by subst h'; exact hf a _ hc

theorem byte0_bind (hi : Roomy inp) {f : UInt8 → Prog β} (hf : ∀ a, Long1 inp (f a)) : Long inp (byte0 >>= f) := by
  intro c
  have h : SafeC c (fun _ c' => c' = min 2048 (c + 1)) byte0 := fun _ => rfl
  refine (h.long hi).bind fun a c' h' => ?_
  subst h'
  exact (hf a _ (by omega)).mono fun _ _ h => by omega

theorem byte0_long (hi : Roomy inp) : Long inp byte0 := byte0_safe.long hi

theorem unread_long1 (hi : Roomy inp) : Long1 inp Lex.unread := by
  intro c hc
  have h : SafeC c (fun _ c' => c' = c - 1) Lex.unread := ⟨hc, rfl⟩
  exact (h.long hi).mono fun _ _ h => by omega

theorem unread_bind (hi : Roomy inp) {f : Unit → Prog β} (hf : Long inp (f ())) : Long1 inp (Lex.unread >>= f) := by
  intro c hc
  have h : SafeC c (fun _ c' => c' = c - 1) Lex.unread := ⟨hc, rfl⟩
  refine (h.long hi).bind fun a c' h' => ?_
  subst h'
  exact (hf _).mono fun _ _ h => by omega

theorem safeC_still (hi : Roomy inp) {x : Prog α} (h : ∀ c, SafeC c (fun _ c' => c' = c) x) : Still inp x :=
  fun c => (h c).long hi

theorem still_evAdd (hi : Roomy inp) (v : Val) : Still inp (evAdd v) := safeC_still hi fun _ _ => rfl
theorem still_evInc (hi : Roomy inp) : Still inp evInc := safeC_still hi fun _ _ => rfl
theorem still_evDec (hi : Roomy inp) : Still inp evDec := safeC_still hi fun _ _ => rfl
theorem still_evLevel (hi : Roomy inp) : Still inp evLevel := safeC_still hi fun _ _ => rfl
theorem still_evSetLevel (hi : Roomy inp) (l : Nat) : Still inp (evSetLevel l) := safeC_still hi fun _ _ => rfl
theorem still_evDelete (hi : Roomy inp) : Still inp evDelete := safeC_still hi fun _ _ => rfl
theorem still_pure (hi : Roomy inp) (a : α) : Still inp (Pure.pure a : Prog α) := safeC_still hi fun _ => rfl

theorem readWhile_long (hi : Roomy inp) (p : UInt8 → Bool) (L : Nat) : Long inp (readWhile p L) :=
  fun c => ((readWhile_safe p L c).mono fun _ _ h => by omega).long hi

theorem whiteSpace_long (hi : Roomy inp) (L : Nat) : Long inp (whiteSpace L) :=
  (readWhile_long hi _ L).bind fun _ => Long.pure _

theorem token8_long (hi : Roomy inp) (E : Ext) (L : Nat) : Long inp (token8 E L) := by
  refine Long.bind (fun c s b e h => ?_) fun _ => Long.pure _
  have hf : b.fill = b := by
    obtain ⟨base, h⟩ := h
    exact fill_small h.r_lt
  exact tokenLoop_long hi E L c s b e (by rw [hf]; exact h)

theorem numberLoop_safe : ∀ (L : Nat) (p : Bool), Safe (numberLoop L p)
  | 0, _ => fun _ => trivial
  | L + 1, p => by
    intro c
    have ih := numberLoop_safe L
    simp only [numberLoop, safe_byte0]
    intro ch
    split
    · refine (ih _).use_bind fun a c' h => ?_
      simp only [safe_pure]; omega
    · split
      · refine (ih _).use_bind fun a c' h => ?_
        simp only [safe_pure]; omega
      · simp only [safe_unread, safe_pure]; omega

theorem number_safe (L : Nat) : Safe (number L) := by
  have h := numberLoop_safe L false
  rw [number]
  refine peekByte_safe.bind fun c => ?_
  dsimp only
  split
  · refine Safe.bind (byte0_safe.bind fun _ => Safe.pure _) fun _ => h.bind fun _ => ?_
    split <;> exact Safe.pure _
  · refine h.bind fun _ => ?_
    split <;> exact Safe.pure _
end

/-- Decompose a program into its steps. -/
macro "long_ok" hi:ident : tactic => `(tactic|
  repeat' first
    | with_reducible assumption | with_reducible exact Long.pure _
    | with_reducible exact byte0_long $hi | with_reducible exact unread_long1 $hi
    | with_reducible exact (still_evAdd $hi _).long | with_reducible exact (still_evInc $hi).long | with_reducible exact (still_evDec $hi).long
    | with_reducible exact (still_evLevel $hi).long | with_reducible exact (still_evSetLevel $hi _).long | with_reducible exact (still_evDelete $hi).long
    | with_reducible refine byte0_bind $hi (fun _ => ?_)
    | with_reducible refine unread_bind $hi ?_
    | with_reducible refine Still.bind1 (still_evAdd $hi _) (fun _ => ?_) | with_reducible refine Still.bind1 (still_evInc $hi) (fun _ => ?_)
    | with_reducible refine Still.bind1 (still_evLevel $hi) (fun _ => ?_)
    | with_reducible refine Still.bind1 (still_pure $hi _) (fun _ => ?_)
    | with_reducible refine Long.bind ?_ (fun _ => ?_) | split | with_reducible refine Long.long1 ?_)

theorem long_flow {inp : Bytes} (hi : Roomy inp) (E : Ext) (L : Nat) : ∀ f,
    (∀ a b c, Long inp (bracket E L a b c f)) ∧ (∀ l s, Long inp (argLoop E L l s f)) ∧
    (∀ d, Long inp (args E L d f)) ∧ Long inp (expression E L f) ∧ Long inp (exprLoop E L f) ∧
    Long inp (unary E L f) ∧ Long inp (path E L f) ∧ (∀ a, Long inp (pathLoop E L a f)) ∧
    (∀ d a, Long inp (pathElem E L d a f))
  | 0 => by
    unfold bracket argLoop args expression exprLoop unary path pathLoop pathElem
    simp [Long.oof]
  | f + 1 => by
    obtain ⟨h1, h2, h3, h4, h5, h6, h7, h8, h9⟩ := long_flow hi E L f
    have hp := peekByte_safe.long hi
    have hs := (space_safe' L).long hi
    have hw := whiteSpace_long hi L
    have hq := (quoted_safe L 0).long hi
    have ht := token8_long hi E L
    have hn := (number_safe L).long hi
    have ho : Long inp (operator L) := readWhile_long hi _ L
    refine ⟨?_, ?_, ?_, ?_, ?_, ?_, ?_, ?_, ?_⟩
    · intro a b c; rw [bracket]; long_ok hi
    · intro l s; rw [argLoop]
      have := h2 l true
      long_ok hi
    · intro d; rw [args]
      refine hp.bind fun c => ?_
      split
      · exact Long.pure _
      · refine (byte0_long hi).bind fun _ => (still_evLevel hi).long.bind fun i => (still_evAdd hi _).long.bind fun _ =>
          (still_evInc hi).long.bind fun _ => hw.bind fun _ => (still_evLevel hi).long.bind fun l => (h2 l false).bind fun _ => ?_
        long_ok hi
    · rw [expression]; long_ok hi
    · rw [exprLoop]; long_ok hi
    · rw [unary]; long_ok hi
    · rw [path]; exact h9 _ _
    · intro a; rw [pathLoop]
      have g1 := h9 true a
      have g2 := h9 false a
      long_ok hi
    · intro d a; rw [pathElem]
      have b1 := h1 91 93 tyIndex
      have b2 := h1 123 125 tySelector
      have b3 := h3 d
      have b4 := h8 true
      long_ok hi

theorem long_path {inp : Bytes} (hi : Roomy inp) (E : Ext) (L f : Nat) : Long inp (path E L f) := (long_flow hi E L f).2.2.2.2.2.2.1
theorem long_expression {inp : Bytes} (hi : Roomy inp) (E : Ext) (L f : Nat) : Long inp (expression E L f) := (long_flow hi E L f).2.2.2.1

theorem long_variable {inp : Bytes} (hi : Roomy inp) (E : Ext) (L f : Nat) : Long inp (variable' E L f) := by
  have h1 := long_path hi E L f
  have h2 := long_expression hi E L f
  have hs := (space_safe' L).long hi
  unfold variable'
  long_ok hi

theorem long_template {inp : Bytes} (hi : Roomy inp) (E : Ext) (L g : Nat) : ∀ f, Long inp (template E L g f)
  | 0 => Long.oof
  | f + 1 => by
    have ih := long_template hi E L g f
    have h1 := long_variable hi E L g
    have h2 : Long inp (templateText L) := readWhile_long hi _ L
    rw [template]
    long_ok hi

/-! ## Running a parser -/

theorem start_ltracks {inp : Bytes} (hi : Roomy inp) : LTracks inp 0 (Cur.start inp) (Buf.start { data := inp }) := by
  have hdel : delivered { data := inp } = inp := delivered_full _ ⟨rfl, by simp⟩
  obtain ⟨base, h⟩ := start_tracks { data := inp }
  rw [hdel] at h
  have hbase : base = 0 := by
    have := h.pos
    simp only [Cur.start, Buf.start] at this
    simp at this
    omega
  subst hbase
  refine ⟨0, h, rfl, rfl, ?_, ?_⟩
  · intro hlt
    have hl : (Buf.start { data := inp }).last = inp.length := by
      rcases h.win with ⟨h1, _⟩ | ⟨_, h1, _⟩
      · omega
      · omega
    rw [hl] at hlt ⊢
    have hle := hi.tail hlt
    have hb := (SRel.start (inp := inp) (by omega)).hbuf
    refine ⟨hle, fun j hj => ⟨0, ?_, quiet_zero⟩⟩
    rw [hb, List.getElem?_append_right (by omega), List.getElem?_replicate_of_lt (by omega)]
  · have key : ∀ i buf off (rd : Reader), rd.eofWithData = false → (Buf.fillLoop i buf off rd).2.2.eofWithData = false := by
      intro i
      induction i with
      | zero => intro buf off rd h; exact h
      | succ i ih =>
        intro buf off rd h
        rw [Buf.fillLoop]
        dsimp only
        split
        · exact h
        · split
          · exact h
          · exact ih _ _ _ h
    exact key 100 (List.replicate bufSize 0) 0 { data := inp } rfl

/-- The same result as on the cursor. -/
theorem runParser_fits {α : Type} (x : Prog α) (inp : Bytes) (hf : Fits inp) (hx : ∀ inp, Roomy inp → Long inp x) :
    runParser x inp = (do let r ← x.run curM (Cur.start inp) {}; r.2.2.tree) := by
  unfold runParser
  have h := hx inp hf.roomy 0 (Cur.start inp) (Buf.start { data := inp }) {} (start_ltracks hf.roomy)
  unfold Agree at h
  revert h
  cases x.run curM (Cur.start inp) {} with
  | ok r => rintro ⟨b', h1, _⟩; rw [h1]; rfl
  | panic => intro h; simp only at h; rw [h]; rfl
  | oof => intro h; simp only at h; rw [h]; rfl

theorem Spec.Fits.short {s : Bytes} (h : s.length ≤ 4093) : Fits s := .inl (by omega)

end Ogdl
