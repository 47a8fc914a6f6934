import Verif.Lemmas.LexErr

/-!
# C116: the error of the reader of a lexer

`Error` is meant to return the error of the reader once, so that a client of a lexer (or a parser, which
is one) can see whether the text has been read to its end.
-/

namespace Ogdl
open LexErr

theorem last_of_append {α : Type} (xs : List α) (y : α) : (xs ++ [y]).getLast? = some y := by simp

/-- An error is returned once: after any calls on any reader, `Error` called twice returns nil the second
time. -/
theorem C116_once (rd : Reader) (cs : List ErrCall) (os : List ErrOut) (l : ErrLexer)
    (h : errCalls (cs ++ [.error, .error]) (ErrLexer.start rd) = .ok (os, l)) : os.getLast? = some (.error false) := by
  rw [calls_append] at h
  cases h1 : errCalls cs (ErrLexer.start rd) with
  | ok r =>
    rw [h1] at h
    simp only [Res.bind, errCalls, ErrCall.run, Res.ok_bind, Res.ok.injEq, Prod.mk.injEq] at h
    rw [← h.1, show r.1 ++ [ErrOut.error r.2.err, ErrOut.error false] = (r.1 ++ [ErrOut.error r.2.err]) ++ [ErrOut.error false] by simp]
    exact last_of_append _ _
  | panic => rw [h1] at h; cases h
  | oof => rw [h1] at h; cases h

/-- An error is not made up: if `Error` returns one, after any calls, nothing is left in the reader.  This is
for readers that return `io.EOF` alone, whatever they deliver at each call. -/
theorem C116_partial (rd : Reader) (hrd : rd.eofWithData = false) (cs : List ErrCall) (os : List ErrOut) (l : ErrLexer)
    (h : errCalls (cs ++ [.error]) (ErrLexer.start rd) = .ok (os, l)) (he : os.getLast? = some (.error true)) : l.b.rd.data = [] := by
  rw [calls_append] at h
  cases h1 : errCalls cs (ErrLexer.start rd) with
  | ok r =>
    have hh := calls_honest cs (start_honest hrd) (l' := r.2) (os := r.1) (by rw [h1])
    rw [h1] at h
    simp only [Res.bind, errCalls, ErrCall.run, Res.ok_bind, Res.ok.injEq, Prod.mk.injEq] at h
    obtain ⟨h2, h3⟩ := h
    rw [← h2, last_of_append] at he
    simp only [Option.some.injEq, ErrOut.error.injEq] at he
    rw [← h3]
    exact hh.2 he
  | panic => rw [h1] at h; cases h
  | oof => rw [h1] at h; cases h

/-- What `Error` returns of a new lexer: the end of the text, if that has less than 2048 bytes. -/
theorem C116_start (s : Bytes) : (errCalls [.error] (ErrLexer.start { data := s })).bind (fun r => .ok r.1) =
    .ok [.error (decide (s.length < 2048))] := by
  show Res.ok [ErrOut.error (readFails 100 0 { data := s })] = _
  rw [start_fails]

/-- What `Error` returns when all bytes of the text have been read: the end, if the text has less than 2048
bytes, or at least 4096 and a multiple of 2048. -/
theorem C116_end (s : Bytes) :
    (errCalls (List.replicate s.length .byte ++ [.error]) (ErrLexer.start { data := s })).bind (fun r => .ok r.1) =
      .ok (s.map (fun c => .byte (some c)) ++ [.error (decide (s.length < 2048 ∨ (4096 ≤ s.length ∧ s.length % 2048 = 0)))]) := by
  obtain ⟨b', base', h1, h2⟩ := bytes_calls s.length 0 0 _ (readFails 100 0 { data := s }) (start_atByte s) (by omega)
  rw [List.drop_zero, List.take_length] at h1
  rw [calls_append]
  unfold ErrLexer.start
  rw [h1]
  simp only [Res.bind, errCalls, ErrCall.run, Res.ok_bind, start_fails]
  congr 4
  by_cases ha : s.length < 2048
  · simp [ha]
  · simp only [ha, decide_false, Bool.false_or, false_or, Nat.zero_add, true_and]
    have : 0 < s.length := by omega
    simp [this]

/-- For all other texts the end is never returned: `Byte` reports it, as often as it is called, and `Error`
returns nil. -/
theorem C116_never (s : Bytes) (h2 : 2048 ≤ s.length) (h4 : ¬ (4096 ≤ s.length ∧ s.length % 2048 = 0)) (k : Nat) :
    (errCalls (List.replicate s.length .byte ++ (List.replicate k .byte ++ [.error])) (ErrLexer.start { data := s })).bind
      (fun r => .ok r.1) = .ok (s.map (fun c => .byte (some c)) ++ (List.replicate k (.byte none) ++ [.error false])) := by
  obtain ⟨b', base', h1, h5⟩ := bytes_calls s.length 0 0 _ (readFails 100 0 { data := s }) (start_atByte s) (by omega)
  rw [List.drop_zero, List.take_length] at h1
  have hlast := h5.last
  have hpos := h5.pos
  have hroom := h5.room
  rw [calls_append]
  unfold ErrLexer.start
  rw [h1]
  have herr : (readFails 100 0 { data := s } || (decide (0 < s.length) &&
      decide (0 + s.length = s.length ∧ 4096 ≤ s.length ∧ s.length % 2048 = 0))) = false := by
    rw [start_fails]
    have hn : ¬ s.length < 2048 := by omega
    have hz : ¬ (0 + s.length = s.length ∧ 4096 ≤ s.length ∧ s.length % 2048 = 0) := fun h => h4 h.2
    simp only [hn, decide_false, Bool.false_or, hz, Bool.and_false]
  rw [herr]
  obtain ⟨l', h6, h7⟩ := end_calls (l := ⟨b', false⟩) ⟨by simp only; omega, by simp only; omega⟩ k
  simp only [Res.bind, calls_append, h6, errCalls, ErrCall.run, Res.ok_bind, h7]

/-- C116 is refuted: of the text `a`, the end is returned before the first byte is. -/
theorem C116_early_refuted :
    (errCalls [.error, .byte] (ErrLexer.start { data := b!"a" })).bind (fun r => .ok r.1) = .ok [.error true, .byte (some 97)] := by
  rfl

/-- C116 is refuted: there are texts of which the end is never returned. -/
theorem C116_never_refuted : ∃ s : Bytes, ∀ k,
    (errCalls (List.replicate s.length .byte ++ (List.replicate k .byte ++ [.error])) (ErrLexer.start { data := s })).bind
      (fun r => .ok r.1) = .ok (s.map (fun c => .byte (some c)) ++ (List.replicate k (.byte none) ++ [.error false])) :=
  ⟨List.replicate 3000 97, C116_never _ (by rw [List.length_replicate]; omega) (by rw [List.length_replicate]; omega)⟩

/-! ## The hypotheses are met -/

/-- Two bytes are read and one is read again; the error of the reader is returned once. -/
example : (errCalls ([.byte, .unread, .byte, .rune] ++ [.error, .error]) (ErrLexer.start { data := b!"ab", sizes := [1] })).bind (fun r => .ok r.1) =
    .ok [.byte (some 97), .unread, .byte (some 97), .rune 98, .error true, .error false] := by rfl

end Ogdl
