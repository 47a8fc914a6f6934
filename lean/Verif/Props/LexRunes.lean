import Verif.Lemmas.LexRunesLong

/-!
# C115: a lexer as a cursor over the runes of a text
-/

namespace Ogdl
open Spec Spec.LexRunes LexRunes

/-- Every text has runes, and in one way only. -/
theorem C115_one (s : Bytes) : ∃ rs, Runes s rs ∧ ∀ rs', Runes s rs' → rs' = rs := by
  obtain ⟨rs, h⟩ := exists_runes _ s (Nat.le_refl _)
  exact ⟨rs, h, fun rs' h' => runes_one _ s rs' rs (Nat.le_refl _) h' h⟩

/-- C115 for texts of at most 4095 bytes: `Rune`, `PeekRune` and `UnreadRune`, in any order and any
number, return what a cursor over the runes of the text returns, if it stays within the text or goes
at most `k` places beyond its end, where the buffer has room for them. -/
theorem C115_partial {inp : Bytes} {rs : List Nat} (h : Runes inp rs) (k : Nat) (hk : inp.length + k ≤ 4095) (cs : List RuneCall)
    (hs : Stays (rs.length + k) 0 cs) : newLexerRunes inp cs = .ok (walk rs 0 cs) :=
  calls_walk h hk cs 0 _ (start_at (by omega)) hs

/-- C115 for texts of any length in which no rune is cut at an end of the buffer: `Rune`, `PeekRune` and
`UnreadRune` return what a cursor over the runes of the text returns, if nothing is read at the end of
the text, and the cursor is never more than 512 runes behind the furthest it has been. -/
theorem C115_long_partial {inp : Bytes} {rs : List Nat} (h : Runes inp rs) (hu : Uncut inp) (cs : List RuneCall)
    (hs : Near rs.length 0 0 cs) : newLexerRunes inp cs = .ok (walk rs 0 cs) :=
  LexRunesLong.calls_walk h hu cs 0 0 _ (LexRunesLong.start_win inp) (by omega) hs

/-- C115: `Rune`, as often as there are runes, reads them all, in a text of any length in which no rune is
cut at an end of the buffer. -/
theorem C115_all_partial {inp : Bytes} {rs : List Nat} (h : Runes inp rs) (hu : Uncut inp) :
    newLexerRunes inp (List.replicate rs.length .rune) = .ok (rs.map .rune) := by
  have key : ∀ (n i : Nat), i + n = rs.length →
      Near rs.length i i (List.replicate n .rune) ∧ walk rs i (List.replicate n .rune) = (rs.drop i).map .rune := by
    intro n
    induction n with
    | zero =>
      intro i hi
      refine ⟨by cases i <;> trivial, ?_⟩
      rw [List.drop_eq_nil_of_le (by omega)]
      cases i <;> rfl
    | succ n ih =>
      intro i hi
      obtain ⟨h1, h2⟩ := ih (i + 1) (by omega)
      refine ⟨⟨by omega, by rw [Nat.max_eq_right (by omega)]; exact h1⟩, ?_⟩
      have hlt : i < rs.length := by omega
      rw [List.drop_eq_getElem_cons hlt, List.map_cons, ← h2]
      have : walk rs i (.rune :: List.replicate n .rune) = .rune (rs[i]?.getD 0) :: walk rs (i + 1) (List.replicate n .rune) := by
        cases i <;> rfl
      rw [List.replicate_succ, this, List.getElem?_eq_getElem hlt, Option.getD_some]
  obtain ⟨h1, h2⟩ := key rs.length 0 (by omega)
  rw [C115_long_partial h hu _ h1, h2]
  rfl

/-- C115 is refuted for the end of the text, which `Rune` does not report: it reads a rune 0, as in a
text that has one. -/
theorem C115_end_refuted : newLexerRunes b!"a" [.rune, .rune] = .ok [.rune 97, .rune 0] ∧
    newLexerRunes [97, 0] [.rune, .rune] = .ok [.rune 97, .rune 0] := ⟨by rfl, by rfl⟩

/-- C115 is refuted for a text of 4096 bytes: after the end, `Rune` reads the second half again, as
often as it is called. -/
theorem C115_again_refuted (n : Nat) :
    newLexerRunes (List.replicate 4096 97) (List.replicate n .rune) = .ok (List.replicate n (.rune 97)) := by
  unfold newLexerRunes
  rw [start_full _ List.length_replicate]
  exact full_calls n _ ⟨rfl, rfl, by simp only; omega⟩

/-- C115 is refuted for a rune that begins at the last byte of the buffer: it is not read, although the
reader has the rest of it. -/
theorem C115_cut_refuted : ∃ inp : Bytes, Runes inp (List.replicate 4095 97 ++ [0xE9]) ∧
    newLexerRunes inp (List.replicate 4095 .rune ++ [.rune]) = .ok (List.replicate 4095 (.rune 97) ++ [.rune 0xFFFD]) := by
  refine ⟨List.replicate 4095 97 ++ [0xC3, 0xA9], runes_as _ (.valid (r := 0xE9) (.inl (by decide)) .nil), ?_⟩
  have hlen : (List.replicate 4095 (97 : UInt8)).length = 4095 := List.length_replicate
  have hget : ∀ i, i < 4095 → (List.replicate 4095 (97 : UInt8))[i]? = some 97 := fun i hi => List.getElem?_replicate_of_lt hi
  have key := cut_calls (List.replicate 4095 97 ++ [0xC3]) [0xA9] (by rw [List.length_append, hlen]; rfl)
    (fun i hi => by rw [List.getElem?_append_left (by rw [hlen]; exact hi)]; exact hget i hi)
    (List.drop_left' hlen) 4095 0 [] rfl
  unfold newLexerRunes
  rw [show (List.replicate 4095 97 ++ [0xC3, 0xA9] : Bytes) = (List.replicate 4095 97 ++ [0xC3]) ++ [0xA9] by rw [List.append_assoc]; rfl,
    start_more _ _ (by rw [List.length_append, hlen]; rfl)]
  exact key

/-! The hypotheses are met, and the calls say something. -/

example : Runes (b!"añ" ++ [0xFF, 0xE2, 0x82]) [97, 241, 0xFFFD, 0xFFFD, 0xFFFD] := by
  refine .valid (r := 97) (.inl (by decide)) (.valid (r := 241) (.inl (by decide)) ?_)
  have key : ∀ (c : UInt8) (t : Bytes) (rs : List Nat), decodeRune (c :: t) = (0xFFFD, 1) → Runes t rs → Runes (c :: t) (0xFFFD :: rs) := by
    intro c t rs hd h
    refine .invalid (fun r u hr hu => ?_) h
    rw [hu, decode_encode r hr] at hd
    simp only [Prod.mk.injEq] at hd
    rw [hd.1] at hd
    exact absurd hd.2 (by decide)
  exact key _ _ _ rfl (key _ _ _ rfl (key _ _ _ rfl .nil))

example : newLexerRunes (b!"añ" ++ [0xFF]) [.rune, .peek, .rune, .rune, .unread, .unread, .rune, .unread, .unread, .unread, .rune] =
    .ok [.rune 97, .rune 241, .rune 241, .rune 0xFFFD, .unread false, .unread false, .rune 241, .unread false, .unread false, .unread true,
      .rune 97] := by rfl

example (n : Nat) : Uncut (List.replicate n 97) ∧ Runes (List.replicate n 97) (List.replicate n 97) := by
  refine ⟨fun k c _ hc => ?_, by simpa using runes_as n .nil⟩
  rw [List.getElem?_replicate] at hc
  split at hc
  · cases hc; decide
  · cases hc

example : Near 3 0 0 [.rune, .peek, .rune, .rune, .unread, .unread, .rune, .unread, .unread, .unread, .rune] := by
  simp [Near]

example : Stays 3 0 [.rune, .peek, .rune, .rune, .unread, .unread, .rune, .unread, .unread, .unread, .rune] := by
  simp [Stays]

end Ogdl
