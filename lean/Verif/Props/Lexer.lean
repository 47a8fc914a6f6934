import Verif.Spec.Cursor
import Verif.Lemmas.BufferAgree

/-!
# C10, C14, C15: reading the input
-/

namespace Ogdl
open Lex

/-! ## C15: the lexer is a cursor -/

theorem lexerRun_cursor (inp : Bytes) : ∀ (ops : List LexOp) (pos hi c : Nat) (s : Cur) (b : Buf),
    pos ≤ hi → hi ≤ pos + 2048 → Tracks inp c s b → s.pre.length + s.over = pos →
    min pos (2048 - (hi - pos)) ≤ c → nearBack inp pos hi ops = true →
    lexerRun b ops = .ok (cursorRun inp pos ops) := by
  intro ops
  induction ops with
  | nil => intro pos hi c s b _ _ _ _ _ _; rfl
  | cons op ops ih =>
    intro pos hi c s b h1 h2 ht hp hc hn
    have hwf : s.Wf := by obtain ⟨_, h⟩ := ht; exact h.wf
    have hov : s.over ≤ 1 := by obtain ⟨_, h⟩ := ht; exact h.over
    have hall : s.pre.reverse ++ s.post = inp := by obtain ⟨_, h⟩ := ht; exact h.all
    have hlen : s.pre.length + s.post.length = inp.length := by rw [← hall]; simp
    cases op with
    | byte =>
      obtain ⟨b', g1, g2⟩ := ht.byte
      simp only [nearBack] at hn
      have hs : s.byte.1 = inp[pos]? ∧ s.byte.2.pre.length + s.byte.2.over = min (pos + 1) (inp.length + 1) := by
        cases hpost : s.post with
        | nil =>
          simp only [hpost, List.length_nil] at hlen
          simp only [Cur.byte, hpost]
          refine ⟨?_, by omega⟩
          rw [List.getElem?_eq_none (by omega)]
        | cons d t =>
          have ho : s.over = 0 := by
            rcases hwf with h | h
            · exact h
            · rw [hpost] at h; simp at h
          simp only [hpost, List.length_cons] at hlen
          simp only [Cur.byte, hpost, List.length_cons]
          refine ⟨?_, by omega⟩
          rw [← hall, hpost, List.getElem?_append_right (by simp; omega)]
          simp [← hp, ho]
      simp only [lexerRun, cursorRun, g1, Res.ok_bind]
      rw [ih _ _ _ _ b' (by omega) (by omega) g2 hs.2 (by omega) hn, hs.1]
      rfl
    | unread =>
      simp only [nearBack, Bool.and_eq_true, decide_eq_true_eq] at hn
      simp only [lexerRun, cursorRun]
      have hpos' : s.unread.pre.length + s.unread.over = pos - 1 := by
        obtain ⟨pre, post, o, r⟩ := s
        simp only at hp hov
        cases o with
        | succ n => simp only [Cur.unread]; omega
        | zero =>
          cases pre with
          | nil => simp [Cur.unread] at hp ⊢; omega
          | cons d p => simp [Cur.unread] at hp ⊢; omega
      by_cases h0 : pos = 0
      · have hb : ∃ c', 1 ≤ c' ∧ Tracks inp c' s b := by
          obtain ⟨base, h⟩ := ht
          have := h.pos
          exact ⟨1, Nat.le_refl _, base, { h with credit := .inl (by omega) }⟩
        obtain ⟨c', hc', ht'⟩ := hb
        have := (ht'.mono (c' := 0 + 1) (by omega)).unread
        exact ih _ hi _ _ _ (by omega) (by omega) this hpos' (by omega) hn.2
      · have := (ht.mono (c' := (min pos (2048 - (hi - pos)) - 1) + 1) (by omega)).unread
        exact ih _ hi _ _ _ (by omega) (by omega) this hpos' (by omega) hn.2

/-- C15: over a reader that fills its buffer (such as the one `FromBytes` and
`FromString` use) every sequence of `Byte` and `UnreadByte` calls that stays within
half a buffer behind the furthest position sees exactly the bytes of the input,
whatever its length. -/
theorem C15_cursor (rd : Reader) (hf : rd.Full) (ops : List LexOp) (h : nearBack rd.data 0 0 ops = true) :
    lexerRun (Buf.start rd) ops = .ok (cursorRun rd.data 0 ops) := by
  have ht := start_tracks rd
  rw [delivered_full rd hf] at ht
  exact lexerRun_cursor rd.data ops 0 0 0 _ _ (by omega) (by omega) ht (by simp [Cur.start]) (by omega) h

/-- Every read sees the input: without `UnreadByte`, the calls see all bytes in order. -/
theorem C15_sequential (inp : Bytes) :
    lexerRun (Buf.start { data := inp }) (List.replicate inp.length .byte) = .ok (inp.map some) := by
  have hn : ∀ n pos hi, nearBack inp pos hi (List.replicate n .byte) = true := by
    intro n
    induction n with
    | zero => intros; rfl
    | succ n ih => intro pos hi; exact ih _ _
  rw [C15_cursor _ ⟨rfl, by simp⟩ _ (hn _ _ _)]
  congr 1
  have : ∀ n pos, pos + n = inp.length → cursorRun inp pos (List.replicate n .byte) = (inp.drop pos).map some := by
    intro n
    induction n with
    | zero => intro pos h; simp [cursorRun, List.drop_of_length_le (show inp.length ≤ pos by omega)]
    | succ n ih =>
      intro pos h
      simp only [List.replicate_succ, cursorRun]
      rw [show min (pos + 1) (inp.length + 1) = pos + 1 by omega, ih (pos + 1) (by omega),
        List.drop_eq_getElem_cons (show pos < inp.length by omega), List.getElem?_eq_getElem (show pos < inp.length by omega)]
      rfl
  simpa using this inp.length 0 (by omega)

example : nearBack b!"ab" 0 0 [.byte, .byte, .byte, .unread, .unread, .byte] = true ∧
    cursorRun b!"ab" 0 [.byte, .byte, .byte, .unread, .unread, .byte] = [some 97, some 98, none, some 98] := by decide

/-! ## C14: delivery of the bytes -/

/-- Parsing depends only on the part of the reader's data that `delivered`
describes. -/
theorem C14_only_delivered (E : Ext) (types : Bool) (rd : Reader) :
    fromReader E types rd = fromReader E types { data := delivered rd } := fromReader_delivered E types rd

/-- C14, part: input under 2048 bytes may come in any pieces, empty ones too, as
long as it takes no more than 100 reads and `io.EOF` comes alone; input of any
length may come from a reader that always fills the space it is given.
Missing: larger input in smaller pieces (see the refutations). -/
theorem C14_chunks_partial (E : Ext) (types : Bool) (rd : Reader) (he : rd.eofWithData = false)
    (h : (rd.data.length < 2048 ∧ rd.sizes.length < 100) ∨ ∀ n ∈ rd.sizes, 4096 ≤ n) :
    fromReader E types rd = fromReader E types { data := rd.data } := by
  have hd : delivered rd = rd.data := by
    rcases h with ⟨h1, h2⟩ | h
    · exact delivered_small rd he h2 h1
    · exact delivered_full rd ⟨he, h⟩
  rw [fromReader_delivered, hd]

example : ({ data := b!"a b\nc", sizes := [1, 0, 2, 1] } : Reader).eofWithData = false ∧
    (({ data := b!"a b\nc", sizes := [1, 0, 2, 1] } : Reader).data.length < 2048 ∧
    ({ data := b!"a b\nc", sizes := [1, 0, 2, 1] } : Reader).sizes.length < 100) := by decide

theorem shortSpaces_of_length {inp : Bytes} (h : inp.length ≤ 2047) : ShortSpaces inp := by
  intro t ht
  have := ht.length_le
  have := (List.takeWhile_prefix isSpaceChar (l := t)).length_le
  unfold indent
  omega

/-- 100 letters and one more line. -/
def longLine : Bytes := List.replicate 100 97 ++ b!"\nb"

/-- C14 is refuted: a reader that delivers one byte per read loses everything after
the first hundred bytes. -/
theorem C14_one_byte_reads_refuted (E : Ext) :
    ∃ rd : Reader, rd.eofWithData = false ∧ (∀ n ∈ rd.sizes, n = 1) ∧
      fromReader E false rd ≠ fromReader E false { data := rd.data } := by
  refine ⟨{ data := longLine, sizes := List.replicate 102 1 }, rfl, by simp, ?_⟩
  have hd : delivered { data := longLine, sizes := List.replicate 102 1 } = List.replicate 100 97 := by decide
  rw [fromReader_parseText _ _ _ (by rw [hd]; exact shortSpaces_of_length (by simp)), hd,
    fromReader_parseText _ _ { data := longLine } (by
      rw [delivered_full _ ⟨rfl, by simp⟩]; exact shortSpaces_of_length (by decide)),
    delivered_full _ ⟨rfl, by simp⟩]
  intro h
  have h1 : parseText E false (List.replicate 100 97) = .ok (.node (.str b!"_") [.node (.str (List.replicate 100 97)) []]) := by
    rfl
  have h2 : parseText E false longLine = .ok (.node (.str b!"_") [.node (.str (List.replicate 100 97)) [], .node (.str b!"b") []]) := by
    rfl
  simp only at h
  rw [h1, h2] at h
  simp at h

/-- C14 is refuted: bytes that come together with `io.EOF` are lost. -/
theorem C14_data_with_eof_refuted (E : Ext) :
    ∃ rd : Reader, fromReader E false rd ≠ fromReader E false { data := rd.data } := by
  refine ⟨{ data := b!"a", eofWithData := true }, ?_⟩
  have hd : delivered { data := b!"a", eofWithData := true } = [] := by decide
  rw [fromReader_parseText _ _ _ (by rw [hd]; exact shortSpaces_of_length (by simp)), hd,
    fromReader_parseText _ _ { data := b!"a" } (by
      rw [delivered_full _ ⟨rfl, by simp⟩]; exact shortSpaces_of_length (by decide)),
    delivered_full _ ⟨rfl, by simp⟩]
  intro h
  have h1 : parseText E false [] = .ok (.node (.str b!"_") []) := by rfl
  have h2 : parseText E false b!"a" = .ok (.node (.str b!"_") [.node (.str b!"a") []]) := by rfl
  simp only at h
  rw [h1, h2] at h
  simp at h

/-! ## C10: parsing returns -/

/-- C10: `FromReader`, hence `FromBytes`, `FromString` and `FromStringTypes`, returns
a graph for every input and every way the reader delivers it, without a panic. -/
theorem C10_returns (E : Ext) (types : Bool) (rd : Reader) : ∃ g, fromReader E types rd = .ok g :=
  fromReader_ok E types rd

/-- The number of loop iterations and calls is linear in the size of the input: any
larger allowance gives the same result. -/
theorem C10_linear (E : Ext) (types : Bool) (s : Bytes) (L F : Nat)
    (hL : s.length + 2 ≤ L) (hF : 3 * s.length + 5 ≤ F) :
    (do let r ← (ogdl E L types F).run bufM (Buf.start { data := s }) {}; r.2.2.tree) =
      fromReader E types { data := s } := by
  have hd : delivered { data := s } = s := delivered_full _ ⟨rfl, by simp⟩
  obtain ⟨a, s', b', e', h1, _⟩ := ogdl_buf E types s (L := loopFuel s) (F := treeFuel s)
    (by simp only [loopFuel]; omega) (by simp only [treeFuel]; omega) (Buf.start { data := s }) {}
    (by have := start_tracks { data := s }; rwa [hd] at this) Ev.ok_empty
  have h2 := (ogdl_le E (L := loopFuel s) (F := treeFuel s) hL types hF).run (Buf.start { data := s }) {} (by rw [h1]; simp)
  rw [fromReader, h2]

example (E : Ext) : fromString E b!"a\n  \"b c" =
    .ok (.node (.str b!"_") [.node (.str b!"a") []]) := by
  rw [fromString, fromReader_parseText _ _ _ (by
    rw [delivered_full _ ⟨rfl, by simp⟩]; exact shortSpaces_of_length (by decide)), delivered_full _ ⟨rfl, by simp⟩]
  rfl

end Ogdl
