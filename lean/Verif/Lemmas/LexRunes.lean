import Verif.Spec.LexRunes
import Verif.Lemmas.LexWords
import Verif.Lemmas.PathParse

/-! Runes read one after the other. -/

namespace Ogdl
open Spec Spec.LexRunes

namespace LexRunes

/-- The offset of the rune at a place; beyond the end each place is one byte. -/
def off (inp : Bytes) : Nat → Nat
  | 0 => 0
  | i + 1 => off inp i + if off inp i < inp.length then (decodeRune (inp.drop (off inp i))).2 else 1

def size (inp : Bytes) (i : Nat) : Nat := if off inp i < inp.length then (decodeRune (inp.drop (off inp i))).2 else 1

def sizes (inp : Bytes) : Nat → List Nat
  | 0 => []
  | i + 1 => size inp i :: sizes inp i

theorem runes_cons {c : UInt8} {t : Bytes} {rs : List Nat} (h : Runes (c :: t) rs) :
    ∃ rs', rs = (decodeRune (c :: t)).1 :: rs' ∧ Runes ((c :: t).drop (decodeRune (c :: t)).2) rs' := by
  generalize hs : c :: t = s at h
  cases h with
  | nil => cases hs
  | valid hv ht =>
    rw [decode_encode _ hv]
    exact ⟨_, rfl, by rw [List.drop_left]; exact ht⟩
  | invalid hv ht =>
    cases hs
    rcases LexWords.encode_decode c t with h | ⟨h1, h2⟩
    · rw [h]; exact ⟨_, rfl, ht⟩
    · exact absurd (by rw [h2, List.take_append_drop]) (hv _ ((c :: t).drop (decodeRune (c :: t)).2) h1)

theorem exists_runes : ∀ (n : Nat) (s : Bytes), s.length ≤ n → ∃ rs, Runes s rs := by
  intro n
  induction n with
  | zero =>
    intro s hs
    have : s = [] := by simpa using hs
    subst this
    exact ⟨_, .nil⟩
  | succ n ih =>
    intro s hs
    cases s with
    | nil => exact ⟨_, .nil⟩
    | cons c t =>
      by_cases h : ∃ r u, ValidRune r ∧ c :: t = encodeRune r ++ u
      · obtain ⟨r, u, hr, hu⟩ := h
        have hl : 0 < (encodeRune r).length := List.length_pos_iff.2 (encodeRune_ne_nil r)
        rw [hu, List.length_append] at hs
        obtain ⟨rs, hrs⟩ := ih u (by omega)
        rw [hu]
        exact ⟨_, .valid hr hrs⟩
      · rw [List.length_cons] at hs
        obtain ⟨rs, hrs⟩ := ih t (by omega)
        exact ⟨_, .invalid (fun r u hr hu => h ⟨r, u, hr, hu⟩) hrs⟩

theorem runes_one : ∀ (n : Nat) (s : Bytes) (rs rs' : List Nat), s.length ≤ n → Runes s rs → Runes s rs' → rs = rs' := by
  intro n
  induction n with
  | zero =>
    intro s rs rs' hs h h'
    have : s = [] := by simpa using hs
    subst this
    have key : ∀ {s rs}, Runes s rs → s = [] → rs = [] := by
      intro s rs h hs
      cases h with
      | nil => rfl
      | valid _ _ => exact absurd (List.append_eq_nil_iff.1 hs).1 (encodeRune_ne_nil _)
      | invalid _ _ => cases hs
    rw [key h rfl, key h' rfl]
  | succ n ih =>
    intro s rs rs' hs h h'
    cases s with
    | nil => exact ih [] rs rs' (by simp) h h'
    | cons c t =>
      obtain ⟨a, rfl, ha⟩ := runes_cons h
      obtain ⟨b, rfl, hb⟩ := runes_cons h'
      have := decodeRune_pos c t
      rw [ih _ a b (by rw [List.length_drop]; omega) ha hb]

theorem runes_nil {rs : List Nat} (h : Runes [] rs) : rs = [] := runes_one 0 [] rs [] (by simp) h .nil

/-- What is left at a place. -/
theorem off_runes {inp : Bytes} {rs : List Nat} (h : Runes inp rs) : ∀ i, i ≤ rs.length →
    off inp i ≤ inp.length ∧ Runes (inp.drop (off inp i)) (rs.drop i) := by
  intro i
  induction i with
  | zero => exact fun _ => ⟨by simp [off], by simpa [off] using h⟩
  | succ i ih =>
    intro hi
    obtain ⟨h1, h2⟩ := ih (by omega)
    have hlt : off inp i < inp.length := by
      rcases Nat.lt_or_ge (off inp i) inp.length with g | g
      · exact g
      · rw [List.drop_eq_nil_of_le g] at h2
        have := congrArg List.length (runes_nil h2)
        rw [List.length_drop, List.length_nil] at this
        omega
    obtain ⟨c, t, hct⟩ : ∃ c t, inp.drop (off inp i) = c :: t := by
      cases hd : inp.drop (off inp i) with
      | nil => exact absurd (List.drop_eq_nil_iff.1 hd) (by omega)
      | cons c t => exact ⟨c, t, rfl⟩
    rw [hct] at h2
    obtain ⟨rs', hrs, h3⟩ := runes_cons h2
    rw [← hct] at h3 hrs
    have hle := decodeRune_le (inp.drop (off inp i))
    rw [List.length_drop] at hle
    simp only [off, if_pos hlt]
    refine ⟨by omega, ?_⟩
    rw [List.drop_drop] at h3
    have : rs.drop (i + 1) = rs' := by
      rw [← List.drop_drop, hrs]; rfl
    rw [this]
    exact h3

theorem off_at {inp : Bytes} {rs : List Nat} (h : Runes inp rs) {i r : Nat} (hr : rs[i]? = some r) :
    off inp i < inp.length ∧ (decodeRune (inp.drop (off inp i))).1 = r := by
  have hi : i < rs.length := (List.getElem?_eq_some_iff.1 hr).1
  obtain ⟨h1, h2⟩ := off_runes h i (by omega)
  have hrd : rs.drop i = r :: rs.drop (i + 1) := by
    rw [List.drop_eq_getElem_cons hi]
    rw [(List.getElem?_eq_some_iff.1 hr).2]
  cases hd : inp.drop (off inp i) with
  | nil =>
    rw [hd] at h2
    rw [hrd] at h2
    cases runes_nil h2
  | cons c t =>
    refine ⟨?_, ?_⟩
    · rcases Nat.lt_or_ge (off inp i) inp.length with g | g
      · exact g
      · rw [List.drop_eq_nil_of_le g] at hd; cases hd
    · rw [hd] at h2
      obtain ⟨rs', hrs, _⟩ := runes_cons h2
      rw [hrd] at hrs
      exact (List.cons.inj hrs).1.symm

theorem off_end {inp : Bytes} {rs : List Nat} (h : Runes inp rs) (k : Nat) : off inp (rs.length + k) = inp.length + k := by
  induction k with
  | zero =>
    obtain ⟨h1, h2⟩ := off_runes h rs.length (Nat.le_refl _)
    rw [List.drop_length] at h2
    cases hd : inp.drop (off inp rs.length) with
    | nil =>
      have := List.drop_eq_nil_iff.1 hd
      simp only [Nat.add_zero]; omega
    | cons c t =>
      rw [hd] at h2
      obtain ⟨_, h3, _⟩ := runes_cons h2
      cases h3
  | succ k ih =>
    rw [← Nat.add_assoc, off, ih, if_neg (by omega), Nat.add_assoc]

theorem off_bound {inp : Bytes} {rs : List Nat} (h : Runes inp rs) {i k : Nat} (hi : i ≤ rs.length + k) : off inp i ≤ inp.length + k := by
  rcases Nat.le_total i rs.length with g | g
  · exact Nat.le_trans (off_runes h i g).1 (by omega)
  · obtain ⟨j, rfl⟩ : ∃ j, i = rs.length + j := ⟨i - rs.length, by omega⟩
    rw [off_end h]; omega

/-- The lexer at a place. -/
structure At (inp : Bytes) (i : Nat) (b : Buf) : Prop where
  hbuf : b.buf = inp ++ List.replicate (4096 - inp.length) 0
  hlast : b.last = inp.length
  hr : b.r = off inp i
  hrunes : b.runes = sizes inp i

theorem At.rune {inp : Bytes} {rs : List Nat} (h : Runes inp rs) {i : Nat} {b : Buf} (hb : At inp i b) (hi : off inp i ≤ 4095) :
    ∃ b', b.rune = .ok (rs[i]?.getD 0, b') ∧ At inp (i + 1) b' := by
  have hf : b.fill = b := fill_small (by rw [hb.hr]; show _ < 4096; omega)
  unfold Buf.rune
  simp only [hf]
  rcases Nat.lt_or_ge (off inp i) inp.length with hlt | hge
  · have hr : ∃ r, rs[i]? = some r := by
      rcases Nat.lt_or_ge i rs.length with g | g
      · exact ⟨_, List.getElem?_eq_getElem g⟩
      · obtain ⟨j, rfl⟩ : ∃ j, i = rs.length + j := ⟨i - rs.length, by omega⟩
        rw [off_end h] at hlt; omega
    obtain ⟨r, hr⟩ := hr
    have hd := (off_at h hr).2
    obtain ⟨c, t, hct⟩ : ∃ c t, inp.drop (off inp i) = c :: t := by
      cases hd : inp.drop (off inp i) with
      | nil => exact absurd (List.drop_eq_nil_iff.1 hd) (by omega)
      | cons c t => exact ⟨c, t, rfl⟩
    have hc : b.buf[b.r]? = some c := by
      rw [hb.hbuf, hb.hr, List.getElem?_append_left hlt]
      have := congrArg List.head? hct
      rw [List.head?_drop] at this
      exact this
    have hs : size inp i = (decodeRune (c :: t)).2 := by rw [size, if_pos hlt, hct]
    rw [hct] at hd
    simp only [hc, hr, Option.getD_some]
    by_cases h8 : c < 0x80
    · rw [decodeRune_ascii c t h8] at hd hs
      simp only [if_pos h8]
      refine ⟨{ b with r := b.r + 1, runes := 1 :: b.runes }, by rw [← hd], ⟨hb.hbuf, hb.hlast, ?_, ?_⟩⟩
      · show b.r + 1 = off inp i + size inp i
        rw [hb.hr, hs]
      · show 1 :: b.runes = size inp i :: sizes inp i
        rw [hb.hrunes, hs]
    · simp only [if_neg h8]
      rw [if_neg (by rw [hb.hr, hb.hlast]; omega)]
      have hx : (b.buf.take b.last).drop b.r = c :: t := by
        rw [hb.hbuf, hb.hlast, hb.hr, List.take_left' rfl, hct]
      rw [hx, hd]
      refine ⟨_, rfl, ⟨hb.hbuf, hb.hlast, ?_, ?_⟩⟩
      · show b.r + _ = off inp i + size inp i
        rw [hb.hr, hs]
      · show _ :: b.runes = size inp i :: sizes inp i
        rw [hb.hrunes, hs]
  · have hn : rs[i]? = none := by
      rcases hr : rs[i]? with _ | r
      · rfl
      · exact absurd (off_at h hr).1 (by omega)
    have hc : b.buf[b.r]? = some 0 := by
      rw [hb.hbuf, hb.hr, List.getElem?_append_right hge, List.getElem?_replicate_of_lt (by omega)]
    have hs : size inp i = 1 := by rw [size, if_neg (by omega)]
    simp only [hc, hn]
    refine ⟨{ b with r := b.r + 1, runes := 1 :: b.runes }, rfl, ⟨hb.hbuf, hb.hlast, ?_, ?_⟩⟩
    · show b.r + 1 = off inp i + size inp i
      rw [hb.hr, hs]
    · show 1 :: b.runes = size inp i :: sizes inp i
      rw [hb.hrunes, hs]

theorem At.back {inp : Bytes} {i : Nat} {b : Buf} (hb : At inp (i + 1) b) : At inp i b.unreadRune := by
  obtain ⟨h1, h2, h3, h4⟩ := hb
  have h3 : b.r = off inp i + size inp i := h3
  unfold Buf.unreadRune
  rw [h4]
  exact ⟨h1, h2, by show b.r - size inp i = off inp i; omega, rfl⟩

theorem At.none {inp : Bytes} {b : Buf} (hb : At inp 0 b) : At inp 0 b.unreadRune := by
  obtain ⟨h1, h2, h3, h4⟩ := hb
  unfold Buf.unreadRune
  rw [h4]
  exact ⟨h1, h2, h3, h4⟩

theorem calls_walk {inp : Bytes} {rs : List Nat} (h : Runes inp rs) {k : Nat} (hk : inp.length + k ≤ 4095) :
    ∀ (cs : List RuneCall) (i : Nat) (b : Buf), At inp i b → Stays (rs.length + k) i cs → runeCalls cs b = .ok (walk rs i cs) := by
  intro cs
  induction cs with
  | nil => intros; cases ‹Nat› <;> rfl
  | cons c cs ih =>
    intro i b hb hs
    cases c with
    | rune =>
      have hs' : i ≤ rs.length + k ∧ Stays (rs.length + k) (i + 1) cs := hs
      obtain ⟨b', h1, h2⟩ := hb.rune h (by have := off_bound h hs'.1; omega)
      have h3 := ih _ _ h2 hs'.2
      simp only [runeCalls, RuneCall.run, h1, Res.ok_bind, h3]
      cases i <;> rfl
    | peek =>
      have hs' : i ≤ rs.length + k ∧ Stays (rs.length + k) i cs := hs
      obtain ⟨b', h1, h2⟩ := hb.rune h (by have := off_bound h hs'.1; omega)
      have h3 := ih _ _ h2.back hs'.2
      simp only [runeCalls, RuneCall.run, h1, Res.ok_bind, h3]
      cases i <;> rfl
    | unread =>
      have hs' : i ≤ rs.length + k ∧ Stays (rs.length + k) (i - 1) cs := hs
      cases i with
      | zero =>
        have h3 := ih _ _ hb.none hs'.2
        have : b.runes = [] := hb.hrunes
        simp only [runeCalls, RuneCall.run, this, Res.ok_bind, h3]
        rfl
      | succ i =>
        have h3 := ih _ _ hb.back hs'.2
        have : b.runes = size inp i :: sizes inp i := hb.hrunes
        simp only [runeCalls, RuneCall.run, this, Res.ok_bind, h3]
        rfl

theorem start_at {inp : Bytes} (hn : inp.length ≤ 4095) : At inp 0 (Buf.start { data := inp }) := by
  have h := SRel.start hn
  exact ⟨h.hbuf, h.hlast, by simpa [Cur.start, off] using h.hr, h.hrunes⟩

/-! ## Texts of 4096 bytes and more -/

theorem full_calls : ∀ (n : Nat) (b : Buf), FullA b → runeCalls (List.replicate n .rune) b = .ok (List.replicate n (.rune 97))
  | 0, _, _ => rfl
  | n + 1, b, h => by
    obtain ⟨b', h1, h2⟩ := h.rune
    simp only [List.replicate_succ, runeCalls, RuneCall.run, h1, Res.ok_bind, full_calls n b' h2]

theorem start_more (A t : Bytes) (h : A.length = 4096) :
    Buf.start { data := A ++ t } = { buf := A, r := 0, last := 4096, rd := { data := t } } := by
  have hne : A ++ t ≠ [] := fun h0 => by
    rw [(List.append_eq_nil_iff.1 h0).1] at h; exact absurd h (by decide)
  have hrd : Reader.read { data := A ++ t } 4096 = (A, true, { data := t }) := by
    have h1 : (A ++ t).take 4096 = A := List.take_left' h
    have h2 : (A ++ t).drop 4096 = t := List.drop_left' h
    simp only [Reader.read, h1, h2, List.isEmpty_eq_false_iff.2 hne]
    rfl
  have : Buf.fillLoop 100 (List.replicate bufSize 0) 0 { data := A ++ t } = (A, 4096, { data := t }) := by
    rw [Buf.fillLoop]
    simp only [bufSize, Nat.sub_zero, hrd]
    simp only [Buf.write, List.take_zero, List.nil_append, h, Nat.zero_add, List.drop_replicate, Nat.sub_self,
      List.replicate_zero, List.append_nil]
    rfl
  simp only [Buf.start]
  rw [this]

/-- A rune that begins at the last byte of the buffer is cut. -/
theorem cut_calls (A t : Bytes) (h : A.length = 4096) (ha : ∀ i, i < 4095 → A[i]? = some 97) (hl : A.drop 4095 = [0xC3]) :
    ∀ (n i : Nat) (rn : List Nat), i + n = 4095 →
    runeCalls (List.replicate n .rune ++ [.rune]) { buf := A, r := i, last := 4096, rd := { data := t }, runes := rn } =
      .ok (List.replicate n (.rune 97) ++ [.rune 0xFFFD])
  | 0, i, rn, hi => by
    obtain rfl : i = 4095 := by omega
    have hb : A[4095]? = some 0xC3 := by
      have := congrArg List.head? hl
      rw [List.head?_drop] at this
      exact this
    have hr : Buf.rune { buf := A, r := 4095, last := 4096, rd := { data := t }, runes := rn } =
        .ok (0xFFFD, { buf := A, r := 4096, last := 4096, rd := { data := t }, runes := 1 :: rn }) := by
      unfold Buf.rune
      simp only [fill_small (b := { buf := A, r := 4095, last := 4096, rd := { data := t }, runes := rn }) (by simp only; omega), hb]
      rw [if_neg (by decide), if_neg (by omega), List.take_of_length_le (by omega), hl]
      rfl
    simp only [List.replicate_zero, List.nil_append, runeCalls, RuneCall.run, hr, Res.ok_bind]
  | n + 1, i, rn, hi => by
    have hr : Buf.rune { buf := A, r := i, last := 4096, rd := { data := t }, runes := rn } =
        .ok (97, { buf := A, r := i + 1, last := 4096, rd := { data := t }, runes := 1 :: rn }) := by
      unfold Buf.rune
      simp only [fill_small (b := { buf := A, r := i, last := 4096, rd := { data := t }, runes := rn }) (by simp only; omega), ha i (by omega)]
      rfl
    have := cut_calls A t h ha hl n (i + 1) (1 :: rn) (by omega)
    simp only [List.replicate_succ, List.cons_append, runeCalls, RuneCall.run, hr, Res.ok_bind, this]

theorem runes_as (n : Nat) {t : Bytes} {rs : List Nat} (h : Runes t rs) :
    Runes (List.replicate n 97 ++ t) (List.replicate n 97 ++ rs) := by
  induction n with
  | zero => exact h
  | succ n ih =>
    rw [List.replicate_succ, List.replicate_succ]
    exact .valid (r := 97) (.inl (by decide)) ih

end LexRunes
end Ogdl
