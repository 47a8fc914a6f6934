import Verif.Lemmas.LexRunes

/-! Runes of texts that do not fit in the buffer. -/

namespace Ogdl
open Spec Spec.LexRunes LexRunes

namespace LexRunesLong

theorem size_le (inp : Bytes) (i : Nat) : size inp i ≤ 4 := by
  unfold size
  split
  · unfold decodeRune
    repeat' split
    all_goals simp
  · omega

theorem off_succ (inp : Bytes) (i : Nat) : off inp (i + 1) = off inp i + size inp i := rfl

theorem off_mono (inp : Bytes) (i k : Nat) : off inp i ≤ off inp (i + k) ∧ off inp (i + k) ≤ off inp i + 4 * k := by
  induction k with
  | zero => exact ⟨Nat.le_refl _, Nat.le_refl _⟩
  | succ k ih =>
    have := size_le inp (i + k)
    rw [← Nat.add_assoc, off_succ]
    omega

theorem off_le {inp : Bytes} {i f : Nat} (h : i ≤ f) : off inp i ≤ off inp f ∧ off inp f ≤ off inp i + 4 * (f - i) := by
  have := off_mono inp i (f - i)
  rwa [show i + (f - i) = f by omega] at this

/-- The window of the buffer on the text. -/
structure WinAt (inp : Bytes) (i f base : Nat) (b : Buf) : Prop where
  step : base % 2048 = 0
  low : base = 0 ∨ base + 2048 ≤ off inp f
  hr : base + b.r = off inp i
  hr2 : b.r ≤ 4096
  hrunes : b.runes = sizes inp i
  len : b.buf.length = 4096
  win : b.buf.take b.last = (inp.drop base).take 4096
  last : b.last = min 4096 (inp.length - base)
  rd : inp.length < 4096 ∨ b.rd = { data := inp.drop (base + 4096) }
  hif : i ≤ f

def Win (inp : Bytes) (i f : Nat) (b : Buf) : Prop := ∃ base, WinAt inp i f base b

theorem start_win (inp : Bytes) : Win inp 0 0 (Buf.start { data := inp }) := by
  rcases Nat.lt_or_ge inp.length 4096 with h | h
  · have hs := SRel.start (inp := inp) (by omega)
    have h1 := hs.hlast
    have h2 := hs.hr
    simp only [Cur.start, List.length_nil] at h2
    refine ⟨0, rfl, .inl rfl, by rw [h2]; rfl, by omega, hs.hrunes, ?_, ?_, ?_, .inl h, Nat.le_refl _⟩
    · rw [hs.hbuf, List.length_append, List.length_replicate]; omega
    · rw [hs.hbuf, h1, List.take_left' rfl, List.drop_zero, List.take_of_length_le (by omega)]
    · rw [h1]; omega
  · have h1 : (inp.take 4096).length = 4096 := by rw [List.length_take]; omega
    have h2 := start_more (inp.take 4096) (inp.drop 4096) h1
    rw [List.take_append_drop] at h2
    rw [h2]
    refine ⟨0, rfl, .inl rfl, rfl, Nat.zero_le _, rfl, h1, ?_, ?_, .inr rfl, Nat.le_refl _⟩
    · simp only [List.drop_zero, List.take_take, Nat.min_self]
    · simp only; omega

theorem Win.fill {inp : Bytes} {i f : Nat} {b : Buf} (h : Win inp i f b) (hi : off inp i < inp.length) :
    Win inp i f b.fill ∧ b.fill.r < 4096 := by
  obtain ⟨base, h⟩ := h
  by_cases hr : b.r < 4096
  · rw [fill_small hr]
    exact ⟨⟨base, h⟩, hr⟩
  · have hr4 : b.r = 4096 := by have := h.hr2; omega
    have hpos := h.hr
    have hlast := h.last
    have hl4 : b.last = 4096 := by omega
    have hrd : b.rd = { data := inp.drop (base + 4096) } := by
      rcases h.rd with g | g
      · omega
      · exact g
    have hbuf : b.buf = (inp.drop base).take 4096 := by
      have := h.win
      rwa [hl4, List.take_of_length_le (by rw [h.len]; omega)] at this
    have hD : b.buf.drop 2048 = (inp.drop (base + 2048)).take 2048 := by
      rw [hbuf, List.drop_take, List.drop_drop]
    have hDl : (b.buf.drop 2048).length = 2048 := by rw [List.length_drop, h.len]
    have hread : b.rd.read 2048 = ((inp.drop (base + 4096)).take 2048, !(inp.drop (base + 4096)).isEmpty,
        { data := inp.drop (base + 6144) }) := by
      rw [hrd]
      simp only [Reader.read, List.tail_nil, List.drop_drop, Bool.false_and, Bool.or_false]
    have hn : (if (b.rd.read 2048).2.1 = false then 2048 else 2048 + (b.rd.read 2048).1.length) =
        2048 + ((inp.drop (base + 4096)).take 2048).length := by
      rw [hread]
      simp only
      split
      · rename_i hf
        have : inp.drop (base + 4096) = [] := by simpa using hf
        rw [this]; rfl
      · rfl
    rw [fill_large hr, hn, hread]
    simp only
    have hgl : ((inp.drop (base + 4096)).take 2048).length = min 2048 (inp.length - (base + 4096)) := by
      rw [List.length_take, List.length_drop]
    have hwin : b.buf.drop 2048 ++ (inp.drop (base + 4096)).take 2048 = (inp.drop (base + 2048)).take 4096 := by
      have e : inp.drop (base + 4096) = (inp.drop (base + 2048)).drop 2048 := by rw [List.drop_drop]
      rw [hD, e]
      exact (List.take_add (l := inp.drop (base + 2048)) (i := 2048) (j := 2048)).symm
    have e1 : (b.buf.drop 2048 ++ b.buf.drop 2048).take 2048 = b.buf.drop 2048 := List.take_left' hDl
    refine ⟨⟨base + 2048, ?_, ?_, ?_, by show 2048 ≤ 4096; omega, h.hrunes, ?_, ?_, ?_, .inr ?_, h.hif⟩, by show 2048 < 4096; omega⟩
    · have := h.step; omega
    · right; have := (off_le (inp := inp) h.hif).1; omega
    · simp only; omega
    · simp only [Buf.write, e1, List.length_append, List.length_drop, hDl, hgl]; have := h.len; omega
    · simp only [Buf.write, e1]
      rw [List.take_left' (by rw [List.length_append, hDl]), hwin]
    · simp only [hgl]; omega
    · simp only [show base + 2048 + 4096 = base + 6144 by omega]

theorem Win.rune {inp : Bytes} {rs : List Nat} (h : Runes inp rs) (hu : Uncut inp) {i f : Nat} {b : Buf} (hb : Win inp i f b)
    (hi : i < rs.length) : ∃ b', b.rune = .ok (rs[i]?.getD 0, b') ∧ Win inp (i + 1) (max f (i + 1)) b' := by
  have hri : rs[i]? = some rs[i] := List.getElem?_eq_getElem hi
  obtain ⟨hlt, hdec⟩ := off_at h hri
  obtain ⟨⟨base, hw⟩, hr⟩ := hb.fill hlt
  rw [rune_fill]
  generalize b.fill = b at hw hr
  have hff : b.fill = b := fill_small hr
  have hpos := hw.hr
  have hlast := hw.last
  obtain ⟨c, t, hct⟩ : ∃ c t, inp.drop (off inp i) = c :: t := by
    cases hd : inp.drop (off inp i) with
    | nil => exact absurd (List.drop_eq_nil_iff.1 hd) (by omega)
    | cons c t => exact ⟨c, t, rfl⟩
  have hwin : (b.buf.take b.last).drop b.r = (c :: t).take (4096 - b.r) := by
    rw [hw.win, List.drop_take, List.drop_drop, hpos, hct]
  have hrl : b.r < b.last := by omega
  have hc : b.buf[b.r]? = some c := by
    have := congrArg List.head? hwin
    rw [List.head?_drop, List.getElem?_take, if_pos hrl, List.head?_take, if_neg (by omega)] at this
    exact this
  have hcont : ∀ d, (c :: t)[4096 - b.r]? = some d → isCont d = false := by
    intro d hd
    rw [← hct, List.getElem?_drop, show off inp i + (4096 - b.r) = base + 4096 by omega] at hd
    have hst := hw.step
    have := hu ((base + 4096) / 2048) d (by omega) (by rw [show 2048 * ((base + 4096) / 2048) = base + 4096 by omega]; exact hd)
    cases hk : isCont d with
    | false => rfl
    | true =>
      simp only [isCont, Bool.and_eq_true, decide_eq_true_eq] at hk
      exact absurd hk this
  have hde : decodeRune ((c :: t).take (4096 - b.r)) = decodeRune (c :: t) := decodeRune_take _ _ (by omega) hcont
  have hle := decodeRune_le ((c :: t).take (4096 - b.r))
  rw [hde, List.length_take] at hle
  have hs : size inp i = (decodeRune (c :: t)).2 := by rw [size, if_pos hlt, hct]
  rw [hct] at hdec
  have hval : b.rune = .ok (rs[i], { b with r := b.r + size inp i, runes := size inp i :: b.runes }) := by
    unfold Buf.rune
    simp only [hff, hc]
    by_cases h8 : c < 0x80
    · rw [decodeRune_ascii c t h8] at hdec hs
      rw [if_pos h8, hs, ← hdec]
    · rw [if_neg h8, if_neg (by omega), hwin, hde, hs, hdec]
  rw [hval, hri]
  refine ⟨_, rfl, base, hw.step, ?_, ?_, ?_, ?_, hw.len, hw.win, hw.last, hw.rd, Nat.le_max_right _ _⟩
  · refine hw.low.imp id fun g => Nat.le_trans g (off_le (Nat.le_max_left _ _)).1
  · show base + (b.r + size inp i) = off inp i + size inp i
    omega
  · show b.r + size inp i ≤ 4096
    omega
  · show size inp i :: b.runes = size inp i :: sizes inp i
    rw [hw.hrunes]

theorem Win.back {inp : Bytes} {i f : Nat} {b : Buf} (hb : Win inp (i + 1) f b) (hf : f ≤ i + 512) : Win inp i f b.unreadRune := by
  obtain ⟨base, hw⟩ := hb
  have hpos : base + b.r = off inp i + size inp i := hw.hr
  have hrunes : b.runes = size inp i :: sizes inp i := hw.hrunes
  have hif := hw.hif
  have hr2 := hw.hr2
  have hb : base ≤ off inp i := by
    rcases hw.low with g | g
    · omega
    · have := (off_le (inp := inp) (i := i) (f := f) (by omega)).2
      omega
  unfold Buf.unreadRune
  rw [hrunes]
  refine ⟨base, hw.step, hw.low, ?_, ?_, rfl, hw.len, hw.win, hw.last, hw.rd, by omega⟩
  · show base + (b.r - size inp i) = off inp i
    omega
  · show b.r - size inp i ≤ 4096
    omega

theorem Win.none {inp : Bytes} {f : Nat} {b : Buf} (hb : Win inp 0 f b) : Win inp 0 f b.unreadRune := by
  obtain ⟨base, hw⟩ := hb
  have : b.runes = [] := hw.hrunes
  unfold Buf.unreadRune
  rw [this]
  exact ⟨base, hw⟩

theorem calls_walk {inp : Bytes} {rs : List Nat} (h : Runes inp rs) (hu : Uncut inp) :
    ∀ (cs : List RuneCall) (i f : Nat) (b : Buf), Win inp i f b → f ≤ i + 512 → Near rs.length i f cs →
      runeCalls cs b = .ok (walk rs i cs) := by
  intro cs
  induction cs with
  | nil => intro i f b _ _ _; cases i <;> rfl
  | cons c cs ih =>
    intro i f b hb hf hs
    cases c with
    | rune =>
      have hs' : i < rs.length ∧ Near rs.length (i + 1) (max f (i + 1)) cs := hs
      obtain ⟨b', h1, h2⟩ := hb.rune h hu hs'.1
      have h3 := ih _ _ _ h2 (by omega) hs'.2
      simp only [runeCalls, RuneCall.run, h1, Res.ok_bind, h3]
      cases i <;> rfl
    | peek =>
      have hs' : i < rs.length ∧ Near rs.length i (max f (i + 1)) cs := hs
      obtain ⟨b', h1, h2⟩ := hb.rune h hu hs'.1
      have h3 := ih _ _ _ (h2.back (by omega)) (by omega) hs'.2
      simp only [runeCalls, RuneCall.run, h1, Res.ok_bind, h3]
      cases i <;> rfl
    | unread =>
      have hs' : f ≤ (i - 1) + 512 ∧ Near rs.length (i - 1) f cs := hs
      cases i with
      | zero =>
        have h3 := ih _ _ _ hb.none hs'.1 hs'.2
        have : b.runes = [] := by obtain ⟨_, hw⟩ := hb; exact hw.hrunes
        simp only [runeCalls, RuneCall.run, this, Res.ok_bind, h3]
        rfl
      | succ i =>
        have h3 := ih _ _ _ (hb.back hs'.1) hs'.1 hs'.2
        have : b.runes = size inp i :: sizes inp i := by obtain ⟨_, hw⟩ := hb; exact hw.hrunes
        simp only [runeCalls, RuneCall.run, this, Res.ok_bind, h3]
        rfl

end LexRunesLong
end Ogdl
