import Verif.Model.LexErr
import Verif.Lemmas.LexRunesLong

/-! What a lexer reports of its reader. -/

namespace Ogdl
namespace LexErr

/-- A reader that returns `io.EOF` alone. -/
theorem read_eof {rd : Reader} (h : rd.eofWithData = false) (k : Nat) :
    (rd.read k).2.1 = !rd.data.isEmpty ∧ (rd.read k).2.2.eofWithData = false ∧ (rd.data = [] → (rd.read k).2.2.data = []) := by
  refine ⟨by simp [Reader.read, h], by simp [Reader.read, h], fun hd => by simp [Reader.read, hd]⟩

theorem readFails_succ (i off : Nat) (rd : Reader) : readFails (i + 1) off rd =
    if (rd.read (4096 - off)).2.1 = false then true
    else if 2048 ≤ off + (rd.read (4096 - off)).1.length then false
    else readFails i (off + (rd.read (4096 - off)).1.length) (rd.read (4096 - off)).2.2 := by
  have h1 : bufSize - off = 4096 - off := rfl
  rw [readFails, h1]
  obtain ⟨got, ok, rd'⟩ := rd.read (4096 - off)
  cases ok <;> rfl

theorem fillLoop_reader : ∀ (i : Nat) (buf : Bytes) (off : Nat) (rd : Reader), rd.eofWithData = false →
    (Buf.fillLoop i buf off rd).2.2.eofWithData = false ∧
    (rd.data = [] → (Buf.fillLoop i buf off rd).2.2.data = []) ∧
    (readFails i off rd = true → (Buf.fillLoop i buf off rd).2.2.data = [])
  | 0, _, _, _, h => ⟨h, id, by simp [readFails]⟩
  | i + 1, buf, off, rd, h => by
    obtain ⟨h1, h2, h3⟩ := read_eof h (4096 - off)
    have ih := fillLoop_reader i (Buf.write buf off (rd.read (4096 - off)).1) (off + (rd.read (4096 - off)).1.length) _ h2
    rw [fillLoop_succ, readFails_succ]
    split
    · rename_i hf
      rw [h1] at hf
      have hd : rd.data = [] := by simpa using hf
      exact ⟨h2, h3, fun _ => h3 hd⟩
    · split
      · exact ⟨h2, h3, by simp⟩
      · exact ⟨ih.1, fun hd => ih.2.1 (h3 hd), ih.2.2⟩

/-- What holds of a lexer at all times. -/
def Honest (l : ErrLexer) : Prop := l.b.rd.eofWithData = false ∧ (l.err = true → l.b.rd.data = [])

theorem fill_honest {b : Buf} {e : Bool} (h : Honest ⟨b, e⟩) : Honest ⟨b.fill, e || fillFails b⟩ := by
  unfold Honest at h ⊢
  unfold Buf.fill fillFails
  split
  · simpa using h
  · obtain ⟨h1, h2, h3⟩ := fillLoop_reader 100 (b.buf.drop halfSize ++ b.buf.drop halfSize) halfSize b.rd h.1
    refine ⟨h1, fun he => ?_⟩
    simp only [Bool.or_eq_true] at he
    exact he.elim (fun he => h2 (h.2 he)) h3

theorem start_honest {rd : Reader} (h : rd.eofWithData = false) : Honest (ErrLexer.start rd) := by
  obtain ⟨h1, _, h3⟩ := fillLoop_reader 100 (List.replicate bufSize 0) 0 rd h
  exact ⟨h1, h3⟩

theorem run_honest {c : ErrCall} {l l' : ErrLexer} {o : ErrOut} (h : Honest l) (hr : c.run l = .ok (o, l')) : Honest l' := by
  cases c with
  | byte =>
    simp only [ErrCall.run] at hr
    unfold Buf.byte at hr
    split at hr
    · simp only [Res.ok_bind, Res.ok.injEq, Prod.mk.injEq] at hr
      obtain ⟨_, rfl⟩ := hr
      exact ⟨h.1, fun he => h.2 (by simpa using he)⟩
    · split at hr
      · simp at hr
      · simp only [Res.ok_bind, Res.ok.injEq, Prod.mk.injEq, Option.isSome_some, Bool.true_and] at hr
        obtain ⟨_, rfl⟩ := hr
        exact fill_honest (b := { l.b with r := l.b.r + 1 }) h
  | unread =>
    simp only [ErrCall.run, Res.ok.injEq, Prod.mk.injEq] at hr
    obtain ⟨_, rfl⟩ := hr
    exact h
  | rune =>
    simp only [ErrCall.run] at hr
    have hf := fill_honest (b := l.b) (e := l.err) h
    unfold Buf.rune at hr
    simp only at hr
    split at hr
    · simp at hr
    · split at hr
      · simp only [Res.ok_bind, Res.ok.injEq, Prod.mk.injEq] at hr
        obtain ⟨_, rfl⟩ := hr
        exact hf
      · split at hr
        · simp at hr
        · simp only [Res.ok_bind, Res.ok.injEq, Prod.mk.injEq] at hr
          obtain ⟨_, rfl⟩ := hr
          exact hf
  | error =>
    simp only [ErrCall.run, Res.ok.injEq, Prod.mk.injEq] at hr
    obtain ⟨_, rfl⟩ := hr
    exact ⟨h.1, by simp⟩

theorem calls_honest : ∀ (cs : List ErrCall) {l l' : ErrLexer} {os : List ErrOut}, Honest l → errCalls cs l = .ok (os, l') → Honest l'
  | [], l, l', os, h, hr => by
    simp only [errCalls, Res.ok.injEq, Prod.mk.injEq] at hr
    obtain ⟨_, rfl⟩ := hr
    exact h
  | c :: cs, l, l', os, h, hr => by
    simp only [errCalls] at hr
    cases h1 : c.run l with
    | ok r =>
      obtain ⟨o, l1⟩ := r
      rw [h1] at hr
      simp only [Res.ok_bind] at hr
      cases h2 : errCalls cs l1 with
      | ok r =>
        obtain ⟨os', l2⟩ := r
        rw [h2] at hr
        simp only [Res.ok_bind, Res.ok.injEq, Prod.mk.injEq] at hr
        obtain ⟨_, rfl⟩ := hr
        exact calls_honest cs (run_honest h h1) h2
      | panic => rw [h2] at hr; simp at hr
      | oof => rw [h2] at hr; simp at hr
    | panic => rw [h1] at hr; simp at hr
    | oof => rw [h1] at hr; simp at hr

/-- What is known of the lexer after `i` bytes of a text of `n` bytes have been read. -/
structure AtByte (inp : Bytes) (i base : Nat) (b : Buf) : Prop where
  step : base % 2048 = 0
  pos : base + b.r = i
  room : b.r < 4096
  low : base = 0 ∨ 2048 ≤ b.r
  len : b.buf.length = 4096
  win : b.buf.take b.last = (inp.drop base).take 4096
  last : b.last = min 4096 (inp.length - base)
  rd : inp.length < 4096 ∨ b.rd = { data := inp.drop (base + 4096) }

theorem start_atByte (inp : Bytes) : AtByte inp 0 0 (Buf.start { data := inp }) := by
  obtain ⟨base, h⟩ := LexRunesLong.start_win inp
  have h0 : base = 0 := by
    have := h.hr
    rw [show LexRunes.off inp 0 = 0 from rfl] at this
    omega
  subst h0
  have hr := h.hr
  rw [show LexRunes.off inp 0 = 0 from rfl] at hr
  exact ⟨rfl, hr, by omega, .inl rfl, h.len, h.win, h.last, h.rd⟩

theorem start_fails (inp : Bytes) : readFails 100 0 { data := inp } = decide (inp.length < 2048) := by
  have e : ∀ k, ({ data := inp } : Reader).read k = (inp.take k, !inp.isEmpty, { data := inp.drop k }) := by
    intro k; simp [Reader.read]
  rw [readFails_succ, e]
  simp only
  cases inp with
  | nil => rfl
  | cons c t =>
    rw [if_neg (by simp)]
    by_cases hl : (c :: t).length < 2048
    · have h1 : ((c :: t).take (4096 - 0)).length = (c :: t).length := by rw [List.length_take]; omega
      have h2 : (c :: t).drop (4096 - 0) = [] := List.drop_eq_nil_of_le (by omega)
      rw [if_neg (by omega), readFails_succ, h2]
      rw [if_pos (by simp [Reader.read])]
      simp only [hl, decide_true]
    · have h1 : 2048 ≤ 0 + ((c :: t).take (4096 - 0)).length := by rw [List.length_take]; omega
      rw [if_pos h1]
      simp only [hl, decide_false]

theorem half_fails (rd : Reader) : readFails 100 halfSize rd = !(rd.read 2048).2.1 := by
  rw [show halfSize = 2048 from rfl, readFails_succ, show 4096 - 2048 = 2048 from rfl]
  cases (rd.read 2048).2.1 with
  | false => rfl
  | true =>
    rw [if_neg (by simp), if_pos (by omega)]
    rfl

theorem byte_step {inp : Bytes} {i base : Nat} {b : Buf} (h : AtByte inp i base b) (hi : i < inp.length) :
    ∃ b' base', b.byte = .ok (some inp[i], b') ∧ AtByte inp (i + 1) base' b' ∧
      fillFails { b with r := b.r + 1 } = decide (i + 1 = inp.length ∧ 4096 ≤ inp.length ∧ inp.length % 2048 = 0) := by
  have hp := h.pos
  have hroom := h.room
  have hlast := h.last
  have hc : b.buf[b.r]? = some inp[i] := by
    have h1 := congrArg (fun l => l[b.r]?) h.win
    simp only [List.getElem?_take] at h1
    rw [if_pos (by omega), if_pos hroom, List.getElem?_drop, hp, List.getElem?_eq_getElem hi] at h1
    exact h1
  have hbyte : b.byte = .ok (some inp[i], ({ b with r := b.r + 1 } : Buf).fill) := by
    unfold Buf.byte
    rw [if_neg (by simp only [bufSize]; omega), hc]
  by_cases hr : b.r + 1 < 4096
  · refine ⟨_, base, hbyte, ?_, ?_⟩
    · rw [fill_small (b := { b with r := b.r + 1 }) hr]
      exact ⟨h.step, by simp only; omega, hr, h.low.imp id fun g => by simp only; omega, h.len, h.win, h.last, h.rd⟩
    · unfold fillFails
      rw [if_pos (show b.r + 1 < bufSize from hr)]
      symm
      simp only [decide_eq_false_iff_not]
      rintro ⟨h1, h2, h3⟩
      have := h.step
      have := h.low
      omega
  · have hr4 : b.r + 1 = 4096 := by omega
    have hn : ¬ (({ b with r := b.r + 1 } : Buf).r < 4096) := hr
    have hrd : b.rd = { data := inp.drop (base + 4096) } := by
      rcases h.rd with g | g
      · omega
      · exact g
    have hread : b.rd.read 2048 = ((inp.drop (base + 4096)).take 2048, !(inp.drop (base + 4096)).isEmpty,
        { data := inp.drop (base + 6144) }) := by
      rw [hrd]
      simp only [Reader.read, List.tail_nil, List.drop_drop, Bool.false_and, Bool.or_false]
    have hgl : ((inp.drop (base + 4096)).take 2048).length = min 2048 (inp.length - (base + 4096)) := by
      rw [List.length_take, List.length_drop]
    have hlast' : (if (b.rd.read 2048).2.1 = false then 2048 else 2048 + (b.rd.read 2048).1.length) =
        min 4096 (inp.length - (base + 2048)) := by
      rw [hread]
      simp only
      split
      · rename_i hf
        have : inp.drop (base + 4096) = [] := by simpa using hf
        have := List.drop_eq_nil_iff.1 this
        omega
      · rw [hgl]; omega
    refine ⟨_, base + 2048, hbyte, ?_, ?_⟩
    · rw [fill_large hn, show ({ b with r := b.r + 1 } : Buf).rd = b.rd from rfl, hlast', hread]
      refine ⟨?_, ?_, by show 2048 < 4096; omega, .inr (Nat.le_refl _), ?_, ?_, rfl, .inr rfl⟩
      · have := h.step; omega
      · simp only; omega
      · have hDl : (b.buf.drop 2048).length = 2048 := by rw [List.length_drop, h.len]
        simp only
        rw [write_length, List.length_append, hDl]
        rw [List.length_append, hDl, hgl]; omega
      · have hDl : (b.buf.drop 2048).length = 2048 := by rw [List.length_drop, h.len]
        have hl4 : b.last = 4096 := by omega
        have hbuf : b.buf = (inp.drop base).take 4096 := by
          have := h.win
          rwa [hl4, List.take_of_length_le (by rw [h.len]; omega)] at this
        have hD : b.buf.drop 2048 = (inp.drop (base + 2048)).take 2048 := by
          rw [hbuf, List.drop_take, List.drop_drop]
        have hwin : b.buf.drop 2048 ++ (inp.drop (base + 4096)).take 2048 = (inp.drop (base + 2048)).take 4096 := by
          have e : inp.drop (base + 4096) = (inp.drop (base + 2048)).drop 2048 := by rw [List.drop_drop]
          rw [hD, e]
          exact (List.take_add (l := inp.drop (base + 2048)) (i := 2048) (j := 2048)).symm
        have e1 : (b.buf.drop 2048 ++ b.buf.drop 2048).take 2048 = b.buf.drop 2048 := List.take_left' hDl
        simp only [Buf.write, e1]
        rw [List.take_left' (by rw [List.length_append, hDl, hgl]; omega), hwin]
    · unfold fillFails
      rw [if_neg (show ¬ b.r + 1 < bufSize from hr), half_fails]
      simp only [hread, Bool.not_not]
      have := h.step
      by_cases hd : inp.length ≤ base + 4096
      · rw [List.drop_eq_nil_of_le hd]
        symm
        simp only [List.isEmpty_nil, decide_eq_true_eq]
        omega
      · have hne : (inp.drop (base + 4096)).isEmpty = false := by
          rw [List.isEmpty_eq_false_iff]
          intro h0
          exact hd (List.drop_eq_nil_iff.1 h0)
        rw [hne]
        symm
        simp only [decide_eq_false_iff_not]
        omega

theorem calls_append : ∀ (cs ds : List ErrCall) (l : ErrLexer), errCalls (cs ++ ds) l =
    (errCalls cs l).bind (fun r => (errCalls ds r.2).bind (fun r' => .ok (r.1 ++ r'.1, r'.2)))
  | [], ds, l => by
    simp only [List.nil_append, errCalls, Res.bind]
    cases errCalls ds l <;> rfl
  | c :: cs, ds, l => by
    simp only [List.cons_append, errCalls]
    cases c.run l with
    | ok r =>
      simp only [Res.ok_bind, calls_append cs ds]
      cases errCalls cs r.2 with
      | ok r' =>
        simp only [Res.bind, Res.ok_bind]
        cases errCalls ds r'.2 <;> rfl
      | panic => rfl
      | oof => rfl
    | panic => rfl
    | oof => rfl

/-- Reading on, up to the end of the text. -/
theorem bytes_calls {inp : Bytes} : ∀ (k i base : Nat) (b : Buf) (e : Bool), AtByte inp i base b → i + k ≤ inp.length →
    ∃ b' base', errCalls (List.replicate k .byte) ⟨b, e⟩ =
      .ok (((inp.drop i).take k).map (fun c => .byte (some c)), ⟨b', e || (decide (0 < k) && decide (i + k = inp.length ∧ 4096 ≤ inp.length ∧ inp.length % 2048 = 0))⟩) ∧
      AtByte inp (i + k) base' b'
  | 0, i, base, b, e, h, _ => ⟨b, base, by simp [errCalls], h⟩
  | k + 1, i, base, b, e, h, hk => by
    have hi : i < inp.length := by omega
    obtain ⟨b1, base1, h1, h2, h3⟩ := byte_step h hi
    obtain ⟨b2, base2, h4, h5⟩ := bytes_calls k (i + 1) base1 b1 (e || fillFails { b with r := b.r + 1 }) h2 (by omega)
    refine ⟨b2, base2, ?_, by rwa [show i + (k + 1) = i + 1 + k by omega]⟩
    rw [List.drop_eq_getElem_cons hi, List.take_succ_cons, List.map_cons]
    simp only [List.replicate_succ, errCalls, ErrCall.run, h1, Res.ok_bind, Option.isSome_some, Bool.true_and, h4]
    rw [h3, show i + (k + 1) = i + 1 + k by omega]
    congr 3
    by_cases hk0 : k = 0
    · subst hk0
      simp
    · have h7 : ¬ (i + 1 = inp.length ∧ 4096 ≤ inp.length ∧ inp.length % 2048 = 0) := by omega
      simp [h7, Nat.pos_of_ne_zero hk0]

/-- At the end `Byte` reports the end and reads nothing. -/
theorem end_calls {l : ErrLexer} (h : l.b.last < 4096 ∧ l.b.last ≤ l.b.r) : ∀ k,
    ∃ l', errCalls (List.replicate k .byte) l = .ok (List.replicate k (.byte none), l') ∧ l'.err = l.err := by
  intro k
  induction k generalizing l with
  | zero => exact ⟨l, rfl, rfl⟩
  | succ k ih =>
    have hb : l.b.byte = .ok (none, { l.b with r := l.b.last + 1 }) := by
      unfold Buf.byte
      rw [if_pos (by simp only [bufSize]; omega)]
    obtain ⟨l', h1, h2⟩ := ih (l := ⟨{ l.b with r := l.b.last + 1 }, l.err⟩) ⟨h.1, by simp only; omega⟩
    refine ⟨l', ?_, h2⟩
    simp only [List.replicate_succ, errCalls, ErrCall.run, hb, Res.ok_bind, Option.isSome_none, Bool.false_and, Bool.or_false, h1]

end LexErr
end Ogdl
