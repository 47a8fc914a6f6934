import Verif.Spec.LexWords
import Verif.Lemmas.LexCalls
import Verif.Lemmas.FlowTotal
import Verif.Lemmas.Long

/-! What the methods of a lexer read, with words. -/

namespace Ogdl
open Lex Spec Spec.Lexing Spec.LexWords LexCalls

namespace LexWords

theorem ofNat_toNat' {c : UInt8} {n : Nat} (h : n = c.toNat) : UInt8.ofNat n = c := by
  rw [h]; exact UInt8.ofNat_toNat

theorem enc2 {c0 c1 : UInt8} (h2 : ¬ c0 < 0xC2) (h3 : c0 < 0xE0) (hc : isCont c1 = true) :
    ValidRune ((c0.toNat % 0x20) * 0x40 + c1.toNat % 0x40) ∧
      encodeRune ((c0.toNat % 0x20) * 0x40 + c1.toNat % 0x40) = [c0, c1] := by
  simp only [isCont, Bool.and_eq_true, decide_eq_true_eq, UInt8.lt_iff_toNat_lt, UInt8.le_iff_toNat_le, UInt8.reduceToNat] at *
  refine ⟨.inl (by omega), ?_⟩
  unfold encodeRune
  rw [if_neg (by omega), if_pos (by omega), ofNat_toNat' (c := c0) (by omega), ofNat_toNat' (c := c1) (by omega)]

theorem enc3 {c0 c1 c2 : UInt8} (h2 : ¬ c0 < 0xE0) (h3 : c0 < 0xF0) (h1 : isCont c1 = true) (hc : isCont c2 = true)
    (ha : ¬ (c0 = 0xE0 ∧ c1 < 0xA0)) (hb : ¬ (c0 = 0xED ∧ c1 > 0x9F)) :
    ValidRune ((c0.toNat % 0x10) * 0x1000 + (c1.toNat % 0x40) * 0x40 + c2.toNat % 0x40) ∧
      encodeRune ((c0.toNat % 0x10) * 0x1000 + (c1.toNat % 0x40) * 0x40 + c2.toNat % 0x40) = [c0, c1, c2] := by
  simp only [isCont, Bool.and_eq_true, decide_eq_true_eq, UInt8.lt_iff_toNat_lt, UInt8.le_iff_toNat_le, gt_iff_lt,
    ← UInt8.toNat_inj, UInt8.reduceToNat] at *
  refine ⟨by unfold ValidRune; omega, ?_⟩
  unfold encodeRune
  rw [if_neg (by omega), if_neg (by omega), if_neg (by simp; omega), if_pos (by omega), ofNat_toNat' (c := c0) (by omega),
    ofNat_toNat' (c := c1) (by omega), ofNat_toNat' (c := c2) (by omega)]

theorem enc4 {c0 c1 c2 c3 : UInt8} (h2 : ¬ c0 < 0xF0) (h3 : c0 < 0xF5) (h1 : isCont c1 = true) (hc : isCont c2 = true)
    (hd : isCont c3 = true) (ha : ¬ (c0 = 0xF0 ∧ c1 < 0x90)) (hb : ¬ (c0 = 0xF4 ∧ c1 > 0x8F)) :
    ValidRune ((c0.toNat % 8) * 0x40000 + (c1.toNat % 0x40) * 0x1000 + (c2.toNat % 0x40) * 0x40 + c3.toNat % 0x40) ∧
      encodeRune ((c0.toNat % 8) * 0x40000 + (c1.toNat % 0x40) * 0x1000 + (c2.toNat % 0x40) * 0x40 + c3.toNat % 0x40) =
        [c0, c1, c2, c3] := by
  simp only [isCont, Bool.and_eq_true, decide_eq_true_eq, UInt8.lt_iff_toNat_lt, UInt8.le_iff_toNat_le, gt_iff_lt,
    ← UInt8.toNat_inj, UInt8.reduceToNat] at *
  refine ⟨by unfold ValidRune; omega, ?_⟩
  unfold encodeRune
  rw [if_neg (by omega), if_neg (by omega), if_neg (by simp; omega), if_neg (by omega), ofNat_toNat' (c := c0) (by omega),
    ofNat_toNat' (c := c1) (by omega), ofNat_toNat' (c := c2) (by omega), ofNat_toNat' (c := c3) (by omega)]

/-- A rune other than the one for invalid bytes is written as it was read. -/
theorem encode_decode (c : UInt8) (t : Bytes) : decodeRune (c :: t) = (runeError, 1) ∨
    (ValidRune (decodeRune (c :: t)).1 ∧ encodeRune (decodeRune (c :: t)).1 = (c :: t).take (decodeRune (c :: t)).2) := by
  simp only [decodeRune]
  split
  · rename_i h
    right
    simp only [UInt8.lt_iff_toNat_lt, UInt8.reduceToNat] at h
    refine ⟨.inl (by simp only; omega), ?_⟩
    simp [encodeRune, h]
  · split
    · exact .inl rfl
    · split
      · split
        · split
          · rename_i h2 h3 _ _ _ hc
            exact .inr (enc2 h2 h3 hc)
          · exact .inl rfl
        · exact .inl rfl
      · split
        · split
          · split
            · rename_i h2 h3 _ _ _ _ hc
              simp only [Bool.and_eq_true, Bool.not_eq_true', Bool.and_eq_false_iff, beq_eq_false_iff_ne, decide_eq_false_iff_not] at hc
              exact .inr (enc3 h2 h3 hc.1.1.1 hc.1.1.2 (by grind) (by grind))
            · exact .inl rfl
          · exact .inl rfl
        · split
          · split
            · split
              · rename_i h2 h3 _ _ _ _ _ hc
                simp only [Bool.and_eq_true, Bool.not_eq_true', Bool.and_eq_false_iff, beq_eq_false_iff_ne, decide_eq_false_iff_not] at hc
                exact .inr (enc4 h2 h3 hc.1.1.1.1 hc.1.1.1.2 hc.1.1.2 (by grind) (by grind))
              · exact .inl rfl
            · exact .inl rfl
          · exact .inl rfl

theorem name_isTokenRune {E : Ext} {r : Nat} (hv : ValidRune r) (h : isTokenRune E r = true) : NameRune E r := by
  refine ⟨hv, ?_⟩
  simp only [isTokenRune, Bool.or_eq_true, beq_iff_eq] at h
  rcases h with h | h
  · right
    split at h <;> rename_i hr
    · simp only [Bool.or_eq_true, latinDigit, Bool.and_eq_true, decide_eq_true_eq] at h
      rw [if_pos hr]; exact h
    · simp only [Bool.or_eq_true] at h
      rw [if_neg hr]; exact h
  · exact .inl h

theorem error_isTokenRune {E : Ext} (hE : NoReplacement E) : isTokenRune E runeError = false := by
  simp [isTokenRune, runeError, hE.1, hE.2]

/-- The loop reads the runes of a word. -/
theorem tokenLoop_lands {E : Ext} (hE : NoReplacement E) {rest : Bytes} (hr : ∀ r u, NameRune E r → rest ≠ encodeRune r ++ u) :
    ∀ (rs : List Nat) (L : Nat), (∀ r ∈ rs, NameRune E r) → (rs.flatMap encodeRune ++ rest).length < L →
    Lands (tokenLoop E L) (rs.flatMap encodeRune ++ rest) rs rest := by
  intro rs
  induction rs with
  | nil =>
    rintro L - hL ⟨pre, post, o, r⟩ hw rfl
    obtain ⟨L, rfl⟩ : ∃ k, L = k + 1 := ⟨L - 1, by omega⟩
    refine ⟨⟨pre, post, o, r⟩, fun e => ?_, hw, rfl⟩
    cases post with
    | nil =>
      have h0 : isTokenRune E 0 = false := by simp [isTokenRune]; decide
      simp only [tokenLoop, Prog.run_bind, rune, Prog.run, curM, Cur.rune, h0]
      simp [unreadRune, Prog.run, Cur.unreadRune, Cur.back, Cur.unread, Prog.run_bind, Prog.run_pure]
    | cons c t =>
      have ho : o = 0 := by simpa [Cur.Wf] using hw
      subst ho
      have hle := decodeRune_le (c :: t)
      have hru : ∀ e, (rune).run curM ⟨pre, c :: t, 0, r⟩ e = .ok ((decodeRune (c :: t)).1,
        ⟨((c :: t).take (decodeRune (c :: t)).2).reverse ++ pre, (c :: t).drop (decodeRune (c :: t)).2, 0,
          (decodeRune (c :: t)).2 :: r⟩, e) := fun e => by
        simp only [rune, Prog.run, curM, Cur.rune_cons]
      have hk : isTokenRune E (decodeRune (c :: t)).1 = false := by
        rcases encode_decode c t with h | ⟨h1, h2⟩
        · rw [h]; exact error_isTokenRune hE
        · cases hk : isTokenRune E (decodeRune (c :: t)).1 with
          | false => rfl
          | true =>
            refine absurd ?_ (hr _ ((c :: t).drop (decodeRune (c :: t)).2) (name_isTokenRune h1 hk))
            rw [h2, List.take_append_drop]
      simp only [List.flatMap_nil, List.nil_append, tokenLoop]
      rw [Prog.run_bind_ok (hru e)]
      simp only [hk, Bool.false_eq_true, ↓reduceIte, Prog.run_bind, unreadRune, Prog.run, curM, Cur.unreadRune]
      have := Cur.back_app (decodeRune (c :: t)).2 ((c :: t).take (decodeRune (c :: t)).2).reverse pre
        ((c :: t).drop (decodeRune (c :: t)).2) r (by rw [List.length_reverse, List.length_take, Nat.min_eq_left hle])
      rw [List.reverse_reverse, List.take_append_drop] at this
      simp [this, Prog.run_pure]
  | cons x rs ih =>
    intro L hrs hL
    obtain ⟨L, rfl⟩ : ∃ k, L = k + 1 := ⟨L - 1, by omega⟩
    have hx := hrs x (by simp)
    have hd := decode_encode x hx.1 (rs.flatMap encodeRune ++ rest)
    have hne := encodeRune_ne_nil x
    rw [List.flatMap_cons, List.append_assoc] at hL ⊢
    simp only [tokenLoop]
    have hl : 0 < (encodeRune x).length := List.length_pos_iff.2 hne
    rw [List.length_append] at hL
    refine Lands.bind (a := x) (t := rs.flatMap encodeRune ++ rest) ?_ ?_
    · rintro ⟨pre, post, o, r⟩ hw hp
      simp only at hp
      cases post with
      | nil =>
        exact absurd hp.symm (by simp [hne])
      | cons c t =>
        have ho : o = 0 := by simpa [Cur.Wf] using hw
        subst ho
        refine ⟨_, fun e => by simp only [rune, Prog.run, curM, Cur.rune_cons]; rw [hp, hd], .inl rfl, ?_⟩
        simp only [List.drop_left]
    · rw [if_pos (isTokenRune_name hx)]
      exact (ih L (fun r h => hrs r (by simp [h])) (by omega)).map

theorem token8_lands {E : Ext} (hE : NoReplacement E) {L : Nat} {s w rest : Bytes} (h : LongestWord E s w rest) (hL : s.length < L) :
    Lands (token8 E L) s w rest := by
  obtain ⟨rfl, hw, hr⟩ := h
  obtain ⟨rs, hrs, rfl⟩ : ∃ rs : List Nat, (∀ r ∈ rs, NameRune E r) ∧ w = rs.flatMap encodeRune := by
    rcases hw with rfl | ⟨rs, _, h, rfl⟩
    · exact ⟨[], by simp, rfl⟩
    · exact ⟨rs, h, rfl⟩
  exact (tokenLoop_lands hE hr rs L hrs hL).map

theorem exists_word (E : Ext) : ∀ (n : Nat) (s : Bytes), s.length ≤ n → ∃ (rs : List Nat) (rest : Bytes), s = rs.flatMap encodeRune ++ rest ∧
    (∀ r ∈ rs, NameRune E r) ∧ ∀ r u, NameRune E r → rest ≠ encodeRune r ++ u := by
  intro n
  induction n with
  | zero =>
    intro s hs
    have : s = [] := by simpa using hs
    subst this
    exact ⟨[], [], rfl, by simp, fun r u _ h => encodeRune_ne_nil r (List.append_eq_nil_iff.1 h.symm).1⟩
  | succ n ih =>
    intro s hs
    by_cases h : ∃ r u, NameRune E r ∧ s = encodeRune r ++ u
    · obtain ⟨r, u, hr, rfl⟩ := h
      have hl : 0 < (encodeRune r).length := List.length_pos_iff.2 (encodeRune_ne_nil r)
      rw [List.length_append] at hs
      obtain ⟨rs, rest, rfl, h1, h2⟩ := ih u (by omega)
      exact ⟨r :: rs, rest, by rw [List.flatMap_cons, List.append_assoc], by simpa using ⟨hr, h1⟩, h2⟩
    · exact ⟨[], s, rfl, by simp, fun r u hr hu => h ⟨r, u, hr, hu⟩⟩

theorem exists_longest (E : Ext) (s : Bytes) : ∃ w rest, LongestWord E s w rest := by
  obtain ⟨rs, rest, rfl, h1, h2⟩ := exists_word E s.length s (Nat.le_refl _)
  refine ⟨rs.flatMap encodeRune, rest, rfl, ?_, h2⟩
  cases rs with
  | nil => exact .inl rfl
  | cons r rs => exact .inr ⟨r :: rs, by simp, h1, rfl⟩

theorem exists_words (E : Ext) (cs : List WordCall) : ∀ s : Bytes, ∃ os t, ScansWords E cs s os t := by
  induction cs with
  | nil => exact fun s => ⟨_, _, .nil s⟩
  | cons c cs ih =>
    intro s
    obtain ⟨o, t, h⟩ : ∃ o t, ScansWord E c s o t := by
      cases c with
      | token8 =>
        obtain ⟨w, rest, h⟩ := exists_longest E s
        exact ⟨_, _, .word h⟩
      | other c =>
        obtain ⟨o, t, h⟩ := exists_reads E c s
        exact ⟨_, _, .other h⟩
    obtain ⟨os, u, h'⟩ := ih t
    exact ⟨_, _, .cons h h'⟩

theorem words_lands {E : Ext} (hE : NoReplacement E) {L : Nat} {cs : List WordCall} {s t : Bytes} {os : List LexOut}
    (h : ScansWords E cs s os t) : s.length < L → Lands (wordCalls E L cs) s os t := by
  induction h with
  | nil s => exact fun _ => Lands.pure _ _
  | cons h _ ih =>
    intro hL
    cases h with
    | word h =>
      refine (token8_lands hE h hL).map.bind ((ih ?_).bind (Lands.pure _ _))
      have := congrArg List.length h.1
      rw [List.length_append] at this
      omega
    | other h => exact (reads_lands hL h).bind ((ih (by have := reads_len h; omega)).bind (Lands.pure _ _))

theorem wordCalls_long {inp : Bytes} (hi : Roomy inp) (E : Ext) (L : Nat) : ∀ cs, Long inp (wordCalls E L cs)
  | [] => Long.pure _
  | .token8 :: cs => ((token8_long hi E L).bind fun _ => Long.pure _).bind fun _ => (wordCalls_long hi E L cs).bind fun _ => Long.pure _
  | .other c :: cs => ((prog_safe E L c).long hi).bind fun _ => (wordCalls_long hi E L cs).bind fun _ => Long.pure _

theorem words_eq {E : Ext} (hE : NoReplacement E) {L : Nat} {inp : Bytes} (hf : Fits inp) (hL : inp.length < L) {cs : List WordCall}
    {os : List LexOut} {t : Bytes} (h : ScansWords E cs inp os t) : newLexerWords E L inp cs = .ok os := by
  have ha := wordCalls_long hf.roomy E L cs 0 (Cur.start inp) (Buf.start { data := inp }) {} (start_ltracks hf.roomy)
  obtain ⟨cur', h1, _, _⟩ := words_lands hE h hL (Cur.start inp) (.inl rfl) rfl
  unfold Agree at ha
  rw [h1] at ha
  obtain ⟨b', h2, _⟩ := ha
  simp only [newLexerWords, h2, Res.ok_bind]

end LexWords
end Ogdl
