import Verif.Lemmas.LexWords

/-!
# C113: what the methods of a lexer read, with words
-/

namespace Ogdl
open Lex Spec Spec.Lexing Spec.LexWords LexWords

variable {E : Ext}

/-- C113 with `Token8`, for a text that fits the buffer of the lexer: methods called one after the
other return what they return of the bytes that the ones before them left, and `Token8` reads the
longest word of letters, digits and underscores in UTF-8.  Texts that do not fit are left out. -/
theorem C113_words_partial (hE : NoReplacement E) {L : Nat} (inp : Bytes) (hf : Fits inp) (hL : inp.length < L)
    (cs : List WordCall) (os : List LexOut) :
    newLexerWords E L inp cs = .ok os ↔ ∃ rest, ScansWords E cs inp os rest := by
  constructor
  · intro h
    obtain ⟨os', t, h'⟩ := exists_words E cs inp
    have := words_eq hE hf hL h'
    rw [h] at this
    cases this
    exact ⟨t, h'⟩
  · rintro ⟨t, h⟩
    exact words_eq hE hf hL h

/-- The longest word, and what it leaves, is said, once, of every input. -/
theorem C113_word_one (hE : NoReplacement E) (s : Bytes) :
    ∃ w t, LongestWord E s w t ∧ ∀ w' t', LongestWord E s w' t' → w' = w ∧ t' = t := by
  obtain ⟨w, t, h⟩ := exists_longest E s
  refine ⟨w, t, h, fun w' t' h' => ?_⟩
  obtain ⟨c1, h1, _, h3⟩ := token8_lands hE h (Nat.lt_succ_self _) (Cur.start s) (.inl rfl) rfl
  obtain ⟨c2, g1, _, g3⟩ := token8_lands hE h' (Nat.lt_succ_self _) (Cur.start s) (.inl rfl) rfl
  have := (h1 {}).symm.trans (g1 {})
  simp only [Res.ok.injEq, Prod.mk.injEq] at this
  obtain ⟨rfl, rfl, _⟩ := this
  exact ⟨rfl, by rw [← g3, h3]⟩

/-- C113: bytes that are not UTF-8 end a word, and are left. -/
theorem C113_word_invalid (hE : NoReplacement E) {w : Bytes} (hw : w = [] ∨ Name E w) {c : UInt8} (hc : 0x80 ≤ c ∧ c ≤ 0xBF)
    (t : Bytes) : LongestWord E (w ++ c :: t) w (c :: t) := by
  refine ⟨rfl, hw, fun r u hr h => ?_⟩
  have hd := decode_encode r hr.1 u
  rw [← h] at hd
  have h1 : ¬ c < 0x80 := by
    simp only [UInt8.lt_iff_toNat_lt, UInt8.le_iff_toNat_le, UInt8.reduceToNat] at *; omega
  have h2 : c < 0xC2 := by
    simp only [UInt8.lt_iff_toNat_lt, UInt8.le_iff_toNat_le, UInt8.reduceToNat] at *; omega
  simp only [decodeRune, h1, h2, ↓reduceIte, Prod.mk.injEq] at hd
  have := isTokenRune_name hr
  rw [← hd.1, error_isTokenRune hE] at this
  cases this

/-! The hypotheses are met, and the calls say something: `ñ` is a letter. -/

example : NoReplacement { E with runeLetter := fun r => r == 0x3B1, runeDigit := fun _ => false } := ⟨rfl, rfl⟩

example : Fits b!"añ_1.b c" := .inl (by decide)

example : newLexerWords E 99 b!"añ_1.b c" [.token8, .token8, .other .byte, .token8, .other .space, .token8, .token8, .other .byte] =
    .ok [.text b!"añ_1", .text [], .byte (some 46), .text b!"b", .blanks 1 32, .text b!"c", .text [], .byte none] := by rfl

example (hE : NoReplacement E) : ∃ rest, ScansWords E [.token8, .other .byte] b!"añ_1.b c" [.text b!"añ_1", .byte (some 46)] rest :=
  (C113_words_partial hE (L := 99) _ (.inl (by decide)) (by decide) _ _).1 (by rfl)

example : Name E b!"añ" := ⟨[97, 241], by simp, by
  intro r hr
  simp at hr
  rcases hr with rfl | rfl <;> exact ⟨.inl (by decide), .inr (by rw [if_pos (by decide)]; decide)⟩, by decide⟩

end Ogdl
