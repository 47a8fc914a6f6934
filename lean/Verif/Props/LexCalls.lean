import Verif.Lemmas.LexCalls

/-!
# C113: what the methods of a lexer read
-/

namespace Ogdl
open Lex Spec.Lexing LexCalls

variable {E : Ext}

/-- C113: over a reader that fills its buffer, whatever the length of the input, methods called one
after the other return what they return of the bytes that the ones before them left. -/
theorem C113 {L : Nat} (rd : Reader) (hf : rd.Full) (hL : rd.data.length < L) (cs : List LexCall) (os : List LexOut) :
    newLexerCalls E L rd cs = .ok os ↔ ∃ rest, ScansAll E cs rd.data os rest := by
  constructor
  · intro h
    obtain ⟨os', t, h'⟩ := exists_all E cs rd.data
    have := calls_eq hf hL h'
    rw [h] at this
    cases this
    exact ⟨t, h'⟩
  · rintro ⟨t, h⟩
    exact calls_eq hf hL h

/-- The calls return. -/
theorem C113_returns {L : Nat} (rd : Reader) (hf : rd.Full) (hL : rd.data.length < L) (cs : List LexCall) :
    ∃ os, newLexerCalls E L rd cs = .ok os := by
  obtain ⟨os, t, h⟩ := exists_all E cs rd.data
  exact ⟨os, calls_eq hf hL h⟩

/-- What a method returns and what it leaves is said, once, of every input. -/
theorem C113_one (c : LexCall) (s : Bytes) : ∃ o t, Scans E c s o t ∧ ∀ o' t', Scans E c s o' t' → o' = o ∧ t' = t := by
  obtain ⟨o, t, h⟩ := exists_reads E c s
  refine ⟨o, t, h, fun o' t' h' => ?_⟩
  obtain ⟨c1, h1, _, h3⟩ := reads_lands (Nat.lt_succ_self _) h (Cur.start s) (.inl rfl) rfl
  obtain ⟨c2, g1, _, g3⟩ := reads_lands (Nat.lt_succ_self _) h' (Cur.start s) (.inl rfl) rfl
  have := (h1 {}).symm.trans (g1 {})
  simp only [Res.ok.injEq, Prod.mk.injEq] at this
  obtain ⟨rfl, rfl, _⟩ := this
  exact ⟨rfl, by rw [← g3, h3]⟩

/-- C113: a method other than `Break` and `Number` that says that it has found nothing
leaves the input as it was, unless it begins with a quote. -/
theorem C113_nothing_partial {c : LexCall} {s t : Bytes} {o : LexOut} (h : Scans E c s o t) (h1 : c ≠ .brk) (h2 : c ≠ .number)
    (ho : o = .found false ∨ o = .text [] ∨ (∃ k, o = .blanks 0 k) ∨ o = .byte none ∨
      ((o = .value none ∨ o = .typed none) ∧ ∀ q, s.head? = some q → ¬ Quote q)) : t = s := by
  have hl : ∀ {P : UInt8 → Prop} {s w rest : Bytes}, Longest P s w rest → w = [] → rest = s := by
    intro P s w rest h hw
    rw [h.1, hw]; rfl
  cases h with
  | string h => exact hl h (by simpa using ho)
  | stringStop h => exact hl h (by simpa using ho)
  | whiteSpace h => exact hl h (by simpa using ho)
  | space h => exact hl h (by simpa using ho)
  | integer h => exact hl h (by simpa using ho)
  | operator h => exact hl h (by simpa using ho)
  | templateText h => exact hl h (by simpa using ho)
  | number => exact absurd rfl h2
  | break_nl => exact absurd rfl h1
  | break_crnl => exact absurd rfl h1
  | break_cr => exact absurd rfl h1
  | break_none => exact absurd rfl h1
  | spaceMax h =>
    cases h with
    | stop h => simp [h] at ho
    | all h => exact hl h (by simpa using ho)
  | quoted hq h => simp [hq] at ho
  | scalar hq h => simp at ho
  | scalar_text hq h => exact hl h (by simp at ho; exact ho.1)
  | scalar_bad hq h => simp [hq] at ho
  | typed_none hu h =>
    cases hu with
    | none _ => exact hl h rfl
    | bad hq _ => simp [hq] at ho
  | _ => first | rfl | simp at ho

/-- C113 is not what the comments say of `Break`: a CR that is not followed by NL is not a break,
and it is lost. -/
theorem C113_break_refuted : newLexerCalls E 9 { data := b!"\ra" } [.brk, .byte, .byte] =
    .ok [.found false, .byte (some 97), .byte none] := by
  refine (C113 _ ⟨rfl, by simp⟩ (by decide) _ _).2 ⟨[], .cons (.break_cr (by decide)) (.cons (.byte _ _) (.cons .byte_end (.nil _)))⟩

/-- `Number` finds no number and has read the sign. -/
theorem C113_number_refuted : newLexerCalls E 9 { data := b!"-x" } [.number, .string] = .ok [.number none, .text b!"x"] := by
  refine (C113 _ ⟨rfl, by simp⟩ (by decide) _ _).2 ⟨[], .cons (t := b!"x") ?_ (.cons (.string ⟨rfl, by decide, by simp⟩) (.nil _))⟩
  exact .number (w := []) (.minus b!"x") (.whole ⟨rfl, by simp, by simp [Digit]⟩ (by decide))

/-- `Quoted` finds no quoted text and has read what there is. -/
theorem C113_quoted_refuted : newLexerCalls E 9 { data := b!"'ab" } [.quoted 0, .byte] = .ok [.value none, .byte none] := by rfl

/-- C113: `Quoted` and `Scalar` read the text between double quotes, in which a double quote is
written with a backslash before it, and leave what comes after. -/
theorem C113_quoted (ind : Nat) (s rest : Bytes) (h : ∀ c ∈ s, ¬ Ends c ∧ c ≠ 92 ∧ c ≠ 10) :
    Scans E (.quoted ind) (34 :: (s.flatMap fun c => if c = 34 then [92, 34] else [c]) ++ 34 :: rest) (.value (some s)) rest ∧
    Scans E (.scalar ind) (34 :: (s.flatMap fun c => if c = 34 then [92, 34] else [c]) ++ 34 :: rest) (.value (some s)) rest := by
  have hb : Body ind 34 ((s.flatMap fun c => if c = 34 then [92, 34] else [c]) ++ 34 :: rest) (some s) rest := by
    induction s with
    | nil => exact .close 0 rest (.inl rfl)
    | cons c s ih =>
      have := ih fun d hd => h d (by simp [hd])
      obtain ⟨h1, h2, h3⟩ := h c (by simp)
      rw [List.flatMap_cons, List.append_assoc]
      by_cases hc : c = 34
      · subst hc
        exact .piece (.escaped 0 (.inl rfl)) this
      · rw [if_neg hc]
        exact .piece (.plain h1 hc h2 h3) this
  exact ⟨.quoted (.inl rfl) hb, .scalar (.inl rfl) hb⟩

/-- C113: `ScalarType` reads a word of an input that does not begin with a quote, and returns the
value that C63 says: a number, a boolean or the word. -/
theorem C113_typed (ind : Nat) (w rest : Bytes) (v : Val) (h : ∀ c ∈ w, 32 < c) (hw : w ≠ []) (hq : ∀ c, w.head? = some c → ¬ Quote c)
    (hr : ∀ c, rest.head? = some c → ¬ 32 < c) (hv : Spec.TypedWord E w v) : Scans E (.scalarType ind) (w ++ rest) (.typed (some v)) rest := by
  refine .typed_word (.none fun c hc => hq c ?_) ⟨rfl, h, hr⟩ hw hv
  cases w with
  | nil => exact absurd rfl hw
  | cons a w => exact hc

/-- `SpaceMax` of two reads three blanks. -/
theorem C113_spaceMax_refuted : newLexerCalls E 9 { data := b!" \t  x" } [.spaceMax 2, .space] = .ok [.blanks 3 0, .blanks 1 32] := by
  refine (C113 _ ⟨rfl, by simp⟩ (by decide) _ _).2 ⟨b!"x", .cons (t := b!" x") ?_ (.cons ?_ (.nil _))⟩
  · refine .spaceMax (w := b!" \t ") (.stop (w := b!" \t ") (by decide) (by simp [Blank]) (by decide) ?_)
    intro p hp h0 hne
    have : p = b!" " ∨ p = b!" \t" := by
      obtain ⟨t, ht⟩ := hp
      match p, h0 with
      | [a], _ => simp at ht; left; simp [ht.1]
      | [a, b], _ => simp at ht; right; simp [ht.1, ht.2.1]
      | [a, b, c], _ => simp at ht; exact absurd (by simp [ht.1, ht.2.1, ht.2.2]) hne
      | a :: b :: c :: d :: _, _ => simp at ht
    rcases this with rfl | rfl <;> decide
  · exact .space (w := b!" ") ⟨rfl, by simp [Blank], by simp [Blank]⟩

/-- `SpaceMax` of zero reads one. -/
theorem C113_spaceMax_zero_refuted (t : Bytes) : Scans E (.spaceMax 0) (32 :: t) (.blanks 1 32) t := by
  refine .spaceMax (w := [32]) (.stop (w := [32]) (by simp) (by simp [Blank]) (by decide) ?_)
  intro p hp h1 h2
  obtain ⟨u, hu⟩ := hp
  match p, h1 with
  | [a], _ => simp at hu; exact absurd (by simp [hu.1]) h2
  | a :: b :: _, _ => simp at hu

/-- C113: `SpaceMax` reads at most the number of blanks it is given if that is not zero and there
are no tabs. -/
theorem C113_spaceMax_partial {max n : Nat} {k : UInt8} {s t : Bytes} (h : Scans E (.spaceMax max) s (.blanks n k) t) (h0 : 0 < max)
    (ht : 9 ∉ s) : n ≤ max ∧ k = 32 ∧ s = List.replicate n 32 ++ t ∧ (n < max → t.head? ≠ some 32) := by
  have hk : ∀ {w : Bytes}, (∀ c ∈ w, Blank c) → 9 ∉ w → w.count 32 = w.length ∧ kindOf w = 32 ∧ w = List.replicate w.length 32 := by
    intro w hb h9
    refine ⟨?_, by simp [kindOf, h9], List.eq_replicate_iff.2 ⟨rfl, fun c hc => ?_⟩⟩
    · rw [← counts_length hb, List.count_eq_zero.2 h9]; rfl
    · rcases hb c hc with rfl | rfl
      · rfl
      · exact absurd hc h9
  cases h with
  | @spaceMax _ w _ _ h =>
  cases h with
  | stop hne hb he hp =>
    have h9 : 9 ∉ w := fun hw => ht (by simp [hw])
    obtain ⟨h1, h2, h3⟩ := hk hb h9
    rw [h1, List.count_eq_zero.2 h9] at he
    refine ⟨by omega, h2, congrArg (· ++ t) h3, by omega⟩
  | all hl hp =>
    obtain ⟨rfl, hb, hr⟩ := hl
    have h9 : 9 ∉ w := fun hw => ht (by simp [hw])
    obtain ⟨h1, h2, h3⟩ := hk hb h9
    refine ⟨?_, h2, congrArg (· ++ t) h3, fun _ g => hr 32 g (.inl rfl)⟩
    rcases Nat.le_total w.length max with g | g
    · exact g
    · have h4 := hp (w.take max) (List.take_prefix _ _) (fun h => by
        have := congrArg List.length h
        rw [List.length_take, List.length_nil] at this
        omega)
      have := hk (w := w.take max) (fun c hc => hb c (List.mem_of_mem_take hc)) (fun hc => h9 (List.mem_of_mem_take hc))
      rw [this.1, List.length_take] at h4
      omega

/-! The hypotheses are met, and the calls say something. -/

example : newLexerCalls E 99 { data := b!"\"a \\\"b\\\" c\" 'x\n  y' z" } [.quoted 0, .space, .scalar 2, .space, .scalar 0] =
    .ok [.value (some b!"a \"b\" c"), .blanks 1 32, .value (some b!"x\ny"), .blanks 1 32, .value (some b!"z")] := by rfl

example : newLexerCalls E 99 { data := b!"\\\n  a b\n  c\n\nd" } [.block 1, .brk, .string] =
    .ok [.value (some b!"a b\nc"), .found true, .text b!"d"] := by rfl

example : newLexerCalls E 99 { data := b!"'a\\'b' 12 " } [.scalarType 0, .space, .scalarType 0, .scalarType 0] =
    .ok [.typed (some (.str b!"a'b")), .blanks 1 32, .typed (some (.int .int64 12)), .typed none] := by rfl

example : ∀ c ∈ b!"a \"b\" c", ¬ Ends c ∧ c ≠ 92 ∧ c ≠ 10 := by simp [Ends]

example : newLexerCalls E 99 { data := b!"ab,c -1.5.2 # x\ny" }
    [.stringStop b!",", .byte, .string, .space, .number, .number, .whiteSpace, .comment, .peekByte, .endp, .brk, .string, .endp] =
    .ok [.text b!"ab", .byte (some 44), .text b!"c", .blanks 1 32, .number (some b!"-1.5"), .number (some b!".2"), .found true,
      .found true, .byte (some 121), .found false, .found false, .text b!"y", .found true] := by rfl

example : ∃ n k t, Scans E (.spaceMax 2) b!"   x" (.blanks n k) t ∧ n = 2 := by
  have h : newLexerCalls E 9 { data := b!"   x" } [.spaceMax 2] = .ok [.blanks 2 32] := by rfl
  obtain ⟨t, h⟩ := (C113 _ ⟨rfl, by simp⟩ (by decide) _ _).1 h
  cases h with
  | cons h _ => exact ⟨2, 32, _, h, rfl⟩

end Ogdl
