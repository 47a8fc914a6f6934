import Verif.Lemmas.Buffer
import Verif.Lemmas.ParseTotal

/-! Parsing over the 4096 byte buffer: termination for every reader, and
agreement with the cursor. -/

namespace Ogdl
open Lex

/-! ## The first fill -/

theorem firstFill_succ (i off : Nat) (rd : Reader) : firstFill (i + 1) off rd =
    if (rd.read (4096 - off)).2.1 = false then ([], (rd.read (4096 - off)).2.2)
    else if 2048 ≤ off + (rd.read (4096 - off)).1.length then ((rd.read (4096 - off)).1, (rd.read (4096 - off)).2.2)
    else ((rd.read (4096 - off)).1 ++ (firstFill i (off + (rd.read (4096 - off)).1.length) (rd.read (4096 - off)).2.2).1,
      (firstFill i (off + (rd.read (4096 - off)).1.length) (rd.read (4096 - off)).2.2).2) := by
  rw [firstFill]
  obtain ⟨got, ok, rd'⟩ := rd.read (4096 - off)
  cases ok <;> rfl

theorem fillLoop_succ (i off : Nat) (buf : Bytes) (rd : Reader) : Buf.fillLoop (i + 1) buf off rd =
    if (rd.read (4096 - off)).2.1 = false then
      (Buf.write buf off (rd.read (4096 - off)).1, off, (rd.read (4096 - off)).2.2)
    else if 2048 ≤ off + (rd.read (4096 - off)).1.length then
      (Buf.write buf off (rd.read (4096 - off)).1, off + (rd.read (4096 - off)).1.length, (rd.read (4096 - off)).2.2)
    else Buf.fillLoop i (Buf.write buf off (rd.read (4096 - off)).1) (off + (rd.read (4096 - off)).1.length)
      (rd.read (4096 - off)).2.2 := by
  have h1 : bufSize - off = 4096 - off := rfl
  rw [Buf.fillLoop, h1]
  obtain ⟨got, ok, rd'⟩ := rd.read (4096 - off)
  cases ok <;> rfl

theorem firstFill_length (i : Nat) : ∀ (off : Nat) (rd : Reader), off ≤ 4096 →
    off + (firstFill i off rd).1.length ≤ 4096 := by
  induction i with
  | zero => intro off rd h; simpa [firstFill] using h
  | succ i ih =>
    intro off rd h
    have := read_le rd (4096 - off)
    rw [firstFill_succ]
    generalize rd.read (4096 - off) = x at *
    obtain ⟨got, ok, rd'⟩ := x
    simp only at this ⊢
    split
    · simpa using h
    · split
      · simp only; omega
      · have := ih (off + got.length) rd' (by omega)
        simp only [List.length_append]; omega

theorem firstFill_data (i : Nat) : ∀ (off : Nat) (rd : Reader),
    ∃ x, (firstFill i off rd).1 ++ x ++ (firstFill i off rd).2.data = rd.data := by
  induction i with
  | zero => intro off rd; exact ⟨[], by simp [firstFill]⟩
  | succ i ih =>
    intro off rd
    have := read_data rd (4096 - off)
    rw [firstFill_succ]
    generalize rd.read (4096 - off) = x at *
    obtain ⟨got, ok, rd'⟩ := x
    simp only at this ⊢
    split
    · exact ⟨got, by simpa using this⟩
    · split
      · exact ⟨[], by simpa using this⟩
      · obtain ⟨x, hx⟩ := ih (off + got.length) rd'
        exact ⟨x, by rw [← this, ← hx]; simp⟩

theorem refills_prefix : ∀ (f : Nat) (rd : Reader), refills f rd <+: rd.data := by
  intro f
  induction f with
  | zero => intro rd; exact List.nil_prefix
  | succ f ih =>
    intro rd
    have := read_data rd 2048
    rw [refills]
    generalize rd.read 2048 = x at *
    obtain ⟨got, ok, rd'⟩ := x
    simp only at this ⊢
    split
    · exact List.nil_prefix
    · split
      · rw [← this]
        exact (List.prefix_append_right_inj _).2 (ih rd')
      · exact ⟨_, this⟩

theorem delivered_length (rd : Reader) : (delivered rd).length ≤ rd.data.length := by
  obtain ⟨x, hx⟩ := firstFill_data 100 0 rd
  have hl := congrArg List.length hx
  simp only [List.length_append] at hl
  have hr := (refills_prefix ((firstFill 100 0 rd).2.data.length + 1) (firstFill 100 0 rd).2).length_le
  simp only [delivered]
  split
  · simp only [List.length_append]; omega
  · omega

theorem fillLoop_first (i : Nat) : ∀ (buf : Bytes) (off : Nat) (rd : Reader), buf.length = 4096 → off ≤ 4096 →
    (Buf.fillLoop i buf off rd).2 = (off + (firstFill i off rd).1.length, (firstFill i off rd).2) ∧
    (Buf.fillLoop i buf off rd).1.length = 4096 ∧
    (Buf.fillLoop i buf off rd).1.take (off + (firstFill i off rd).1.length) = buf.take off ++ (firstFill i off rd).1 := by
  induction i with
  | zero => intro buf off rd hb ho; simp [Buf.fillLoop, firstFill, hb]
  | succ i ih =>
    intro buf off rd hb ho
    have hl := read_le rd (4096 - off)
    have hwt := write_take (buf := buf) (off := off) (w := (rd.read (4096 - off)).1) (by omega)
    have hwl := write_length (buf := buf) (off := off) (w := (rd.read (4096 - off)).1) (by omega)
    rw [fillLoop_succ, firstFill_succ]
    generalize rd.read (4096 - off) = x at *
    obtain ⟨got, ok, rd'⟩ := x
    simp only at hl hwt hwl ⊢
    cases ok with
    | false =>
      simp only [↓reduceIte, List.length_nil, Nat.add_zero, List.append_nil, hwl, hb, true_and]
      rw [Buf.write, List.append_assoc, List.take_append_of_le_length (by simp; omega), List.take_take, Nat.min_self]
    | true =>
      simp only [Bool.true_eq_false, ↓reduceIte]
      split
      · exact ⟨rfl, hwl.trans hb, hwt⟩
      · obtain ⟨h1, h2, h3⟩ := ih (Buf.write buf off got) (off + got.length) rd' (by omega) (by omega)
        refine ⟨?_, h2, ?_⟩
        · rw [h1]; simp [Nat.add_assoc]
        · simp only [List.length_append]
          rw [← Nat.add_assoc, h3, hwt, List.append_assoc]

theorem start_tracks (rd : Reader) : Tracks (delivered rd) 0 (Cur.start (delivered rd)) (Buf.start rd) := by
  have hff := fillLoop_first 100 (List.replicate bufSize 0) 0 rd List.length_replicate (by omega)
  have hlen := firstFill_length 100 0 rd (by omega)
  refine ⟨0, ?_⟩
  have hb : (Buf.start rd).buf = (Buf.fillLoop 100 (List.replicate bufSize 0) 0 rd).1 := rfl
  have hl : (Buf.start rd).last = (Buf.fillLoop 100 (List.replicate bufSize 0) 0 rd).2.1 := rfl
  have hrd : (Buf.start rd).rd = (Buf.fillLoop 100 (List.replicate bufSize 0) 0 rd).2.2 := rfl
  have hr : (Buf.start rd).r = 0 := rfl
  obtain ⟨h1, h2, h3⟩ := hff
  rw [h1] at hl hrd
  simp only [Nat.zero_add, List.take_zero, List.nil_append] at *
  refine ⟨by simp [Cur.start], .inl rfl, by simp [Cur.start], by rw [hb, h2], by simp [Cur.start, hr], .inl rfl, ?_, by omega⟩
  by_cases hfull : (firstFill 100 0 rd).1.length = 4096
  · left
    have hd : delivered rd = (firstFill 100 0 rd).1 ++ refill (firstFill 100 0 rd).2 := by
      simp only [delivered]; rw [if_pos hfull]; rfl
    rw [hfull] at h3
    rw [List.take_of_length_le (by omega)] at h3
    refine ⟨by rw [hl, hfull], by rw [hd]; simp; omega, ?_, ?_, by omega⟩
    · rw [hb, h3, hd, List.drop_zero, List.take_append_of_le_length (by omega), List.take_of_length_le (by omega)]
    · rw [hrd, hd, Nat.zero_add, List.drop_append_of_le_length (by omega), List.drop_of_length_le (by omega), List.nil_append]
  · right
    have hd : delivered rd = (firstFill 100 0 rd).1 := by
      simp only [delivered]; rw [if_neg hfull]
    refine ⟨by omega, by rw [hl, hd]; simp, ?_, .inl rfl, by omega⟩
    rw [hb, hl, h3, hd, List.drop_zero]

/-! ## Total correctness over the buffer -/

/-- Over the buffer the program returns, further on in the input `inp`. -/
def BufTot {α : Type} (inp : Bytes) (x : Prog α) (s : Cur) (Q : α → Cur → Prop) : Prop :=
  ∀ (b : Buf) (e : Ev), Tracks inp 0 s b → e.Ok →
    ∃ a s' b' e', x.run bufM b e = .ok (a, b', e') ∧ e'.Ok ∧ s.Adv s' ∧ Tracks inp 0 s' b' ∧ Q a s'

namespace BufTot

theorem pure {α : Type} {inp : Bytes} {a : α} {s : Cur} {Q : α → Cur → Prop} (hw : s.Wf) (h : Q a s) :
    BufTot inp (Pure.pure a : Prog α) s Q := fun b e ht he => ⟨a, s, b, e, rfl, he, Cur.Adv.refl hw, ht, h⟩

theorem mono {α : Type} {inp : Bytes} {x : Prog α} {s : Cur} {P Q : α → Cur → Prop}
    (h : BufTot inp x s P) (hpq : ∀ a s', s.Adv s' → P a s' → Q a s') : BufTot inp x s Q := fun b e ht he => by
  obtain ⟨a, s', b', e', h1, h2, h3, h4, h5⟩ := h b e ht he
  exact ⟨a, s', b', e', h1, h2, h3, h4, hpq a s' h3 h5⟩

theorem bind {α β : Type} {inp : Bytes} {x : Prog α} {f : α → Prog β} {s : Cur}
    {P : α → Cur → Prop} {Q : β → Cur → Prop} (h : BufTot inp x s P)
    (hf : ∀ a s', s.Adv s' → P a s' → BufTot inp (f a) s' Q) : BufTot inp (x >>= f) s Q := fun b e ht he => by
  obtain ⟨a, s', b', e', h1, h2, h3, h4, h5⟩ := h b e ht he
  obtain ⟨a', s'', b'', e'', g1, g2, g3, g4, g5⟩ := hf a s' h3 h5 b' e' h4 h2
  exact ⟨a', s'', b'', e'', by rw [Prog.run_bind_ok h1, g1], g2, h3.trans g3, g4, g5⟩

theorem lift {α : Type} {inp : Bytes} {x : Prog α} {s : Cur} {P : α → Cur → Prop} (h : ParTot x s P) (hs : Safe x) :
    BufTot inp x s P := fun b e ht he => by
  obtain ⟨a, s', e', h1, h2, h3, h4⟩ := h e he
  have := (hs 0).agree ht e
  unfold Agree at this
  rw [h1] at this
  obtain ⟨b', g1, c', _, g2⟩ := this
  exact ⟨a, s', b', e', g1, h2, h3, g2.mono (Nat.zero_le _), h4⟩

end BufTot

theorem Tracks.unread_any {inp : Bytes} {s : Cur} {b : Buf} (h : Tracks inp 0 s b) :
    Tracks inp 0 s.unread b.unread ∨ Tracks inp 0 s b.unread := by
  obtain ⟨base, h⟩ := h
  by_cases h0 : base = 0 ∨ 1 ≤ b.r
  · exact .inl (Tracks.unread ⟨base, { h with credit := h0 }⟩)
  · right
    have hb : b.unread = b := by
      have : b.r = 0 := by omega
      cases b
      simp only at this
      simp [Buf.unread, this]
    rw [hb]
    exact ⟨base, h⟩

/-- Stepping back over a run of bytes ends somewhere inside it. -/
theorem buf_unreadN {inp : Bytes} (rs : List Nat) (e : Ev) : ∀ (n : Nat) (w pre post : Bytes) (b : Buf), w.length = n →
    Tracks inp 0 ⟨w.reverse ++ pre, post, 0, rs⟩ b →
    ∃ w1 w2 b', w1 ++ w2 = w ∧ (unreadN n).run bufM b e = .ok ((), b', e) ∧
      Tracks inp 0 ⟨w1.reverse ++ pre, w2 ++ post, 0, rs⟩ b' := by
  intro n
  induction n with
  | zero =>
    intro w pre post b hw ht
    have : w = [] := List.length_eq_zero_iff.mp hw
    subst this
    exact ⟨[], [], b, rfl, rfl, ht⟩
  | succ n ih =>
    intro w pre post b hw ht
    have hne : w ≠ [] := by intro h; simp [h] at hw
    obtain ⟨v, d, rfl⟩ : ∃ v d, w = v ++ [d] := ⟨w.dropLast, w.getLast hne, (List.dropLast_concat_getLast hne).symm⟩
    have hv : v.length = n := by simpa using hw
    have hun : (⟨(v ++ [d]).reverse ++ pre, post, 0, rs⟩ : Cur).unread = ⟨v.reverse ++ pre, d :: post, 0, rs⟩ := by
      simp [Cur.unread]
    have hrun : (unreadN (n + 1)).run bufM b e = (unreadN n).run bufM b.unread e := rfl
    rcases ht.unread_any with h | h
    · rw [hun] at h
      obtain ⟨w1, w2, b', h1, h2, h3⟩ := ih v pre (d :: post) b.unread hv h
      exact ⟨w1, w2 ++ [d], b', by rw [← h1]; simp, by rw [hrun, h2], by simpa using h3⟩
    · cases v with
      | nil =>
        subst hv
        exact ⟨[d], [], b.unread, rfl, rfl, by simpa using h⟩
      | cons c v =>
        obtain ⟨w1, w2, b', h1, h2, h3⟩ := ih (v ++ [d]) (c :: pre) post b.unread (by simpa using hv) (by simpa using h)
        exact ⟨c :: w1, w2, b', by rw [List.cons_append, h1]; rfl, by rw [hrun, h2], by simpa using h3⟩

/-- Reading the indentation and stepping back: the position is at, or inside, the
indentation. -/
theorem buf_unspace {inp : Bytes} {L : Nat} {s : Cur} {b : Buf} {e : Ev} (hw : s.Wf) (hL : s.post.length < L)
    (ht : Tracks inp 0 s b) :
    ∃ u b1, (space L).run bufM b e = .ok ((indent s.post, u), b1, e) ∧
      Tracks inp 0 ⟨(s.post.takeWhile isSpaceChar).reverse ++ s.pre, s.post.dropWhile isSpaceChar, 0, s.runes⟩ b1 ∧
      ∃ s2 b2, (unreadN (indent s.post)).run bufM b1 e = .ok ((), b2, e) ∧ s.Adv s2 ∧ Tracks inp 0 s2 b2 ∧
        (s2.post.length = s.post.length → s2.post = s.post) := by
  obtain ⟨pre, post, o, rs⟩ := s
  have h1 := run_space L post pre o rs e hw hL
  have := (space_safe L 0).agree ht e
  unfold Agree at this
  rw [h1] at this
  obtain ⟨b1, g1, c', _, g2⟩ := this
  have g3 := g2.mono (Nat.zero_le _)
  refine ⟨_, b1, g1, g3, ?_⟩
  obtain ⟨w1, w2, b2, k1, k2, k3⟩ := buf_unreadN rs e _ _ _ _ _ rfl g3
  have hsuf : w2 ++ post.dropWhile isSpaceChar <:+ post := by
    conv => rhs; rw [← List.takeWhile_append_dropWhile (p := isSpaceChar) (l := post), ← k1, List.append_assoc]
    exact List.suffix_append _ _
  exact ⟨_, b2, k2, ⟨hsuf, .inl rfl⟩, k3, fun h => hsuf.eq_of_length h⟩

theorem tree_buf (E : Ext) (types : Bool) {inp : Bytes} {L : Nat} : ∀ (r : Nat) {F ns : Nat} {s : Cur},
    s.post.length ≤ r → s.Wf → s.post.length < L → 3 * r + 3 ≤ F →
    BufTot inp (tree E L types F ns) s fun _ _ => True := by
  intro r
  induction r using Nat.strongRecOn with
  | ind r ih =>
  -- a line with the expected indentation
  have exact_ : ∀ {F ns : Nat} {s : Cur}, s.Wf → s.post.length < L → indent s.post = ns →
      BufTot inp (line E L types (F + 1) ns) s fun b s' =>
        (b = true → s'.post.length < s.post.length) ∧ (1 ≤ ns → s'.post.length < s.post.length) := by
    intro F ns s hw hL hn b e ht he
    obtain ⟨u, b1, g1, g2, _⟩ := buf_unspace (e := e) hw hL ht
    have hlen : 1 ≤ ns → (s.post.dropWhile isSpaceChar).length < s.post.length :=
      fun h => dropWhile_len_lt (by unfold indent at hn; omega)
    have hle := (List.dropWhile_suffix (l := s.post) isSpaceChar).length_le
    obtain ⟨a, s', b', e', k1, k2, k3, k4, k5⟩ := BufTot.lift (inp := inp)
      (lineHere_tot E types ns (s := ⟨(s.post.takeWhile isSpaceChar).reverse ++ s.pre, s.post.dropWhile isSpaceChar, 0, s.runes⟩)
        (.inl rfl) (by simp only; omega)) (lineHere_safe E L types ns) b1 e g2 he
    have hl3 := k3.len
    simp only at hl3 k5
    refine ⟨a, s', b', e', ?_, k2, ⟨k3.1.trans (List.dropWhile_suffix _), k3.2⟩, k4, fun h => ?_, fun h => ?_⟩
    · simp only [line, Prog.run_bind, g1, hn, Nat.lt_irrefl, ↓reduceIte, k1]
    · have := k5 h; omega
    · have := hlen h; omega
  have nested : ∀ {F ns : Nat} {s : Cur}, s.post.length ≤ r → s.Wf → s.post.length < L → 3 * r + 1 ≤ F →
      indent s.post = ns → 1 ≤ ns →
      BufTot inp (tree E L types F ns) s fun _ s' => s'.post.length < s.post.length := by
    intro F ns s hr hw hL hF hn h1
    have hpos : 0 < s.post.length := by
      have : indent s.post ≤ s.post.length := by
        have := congrArg List.length (List.takeWhile_append_dropWhile (p := isSpaceChar) (l := s.post))
        simp only [List.length_append] at this
        unfold indent; omega
      omega
    obtain ⟨F, rfl⟩ : ∃ k, F = k + 2 := ⟨F - 2, by omega⟩
    simp only [tree]
    refine BufTot.bind (exact_ (F := F) hw hL hn) fun b s1 ha hq => ?_
    have hlt := hq.2 h1
    cases b with
    | true =>
      simp only [↓reduceIte]
      exact (ih (r - 1) (by omega) (F := F + 1) (by omega) ha.2 (by omega) (by omega)).mono fun _ _ h _ => by
        have := h.len; omega
    | false =>
      simp only [Bool.false_eq_true, ↓reduceIte]
      refine BufTot.bind (BufTot.lift (ParTot.lex (endp_tot ha.2)) endp_safe) fun _ s2 h2 _ => ?_
      exact BufTot.pure h2.2 (by have := h2.len; omega)
  have hline : ∀ {F ns : Nat} {s : Cur}, s.post.length ≤ r → s.Wf → s.post.length < L → 3 * r + 2 ≤ F →
      BufTot inp (line E L types F ns) s fun b s' => b = true → s'.post.length < s.post.length := by
    intro F ns s hr hw hL hF
    obtain ⟨F, rfl⟩ : ∃ k, F = k + 1 := ⟨F - 1, by omega⟩
    by_cases hn : indent s.post = ns
    · exact (exact_ hw hL hn).mono fun _ _ _ h => h.1
    · intro b e ht he
      obtain ⟨u, b1, g1, g2, s2, b2, g3, g4, g5, g6⟩ := buf_unspace (e := e) hw hL ht
      have hl4 := g4.len
      by_cases hlt : indent s.post < ns
      · refine ⟨false, s2, b2, e, ?_, he, g4, g5, by simp⟩
        simp only [line, Prog.run_bind, g1, hlt, ↓reduceIte, g3, Prog.run_pure]
      · have hgt : ns < indent s.post := by omega
        have htree : BufTot inp (tree E L types F (indent s.post)) s2 fun _ s' => s'.post.length < s.post.length := by
          by_cases hsame : s2.post.length = s.post.length
          · have := nested (F := F) (s := s2) (by omega) g4.2 (by omega) (by omega)
              (by rw [g6 hsame] : indent s2.post = indent s.post) (by omega)
            exact this.mono fun _ _ _ h => by omega
          · exact (ih (r - 1) (by omega) (F := F) (by omega) g4.2 (by omega) (by omega)).mono fun _ _ h _ => by
              have := h.len; omega
        obtain ⟨a, s', b', e', k1, k2, k3, k4, k5⟩ := htree b2 e.inc g5 he.inc
        refine ⟨true, s', b', e'.dec, ?_, k2.dec, g4.trans k3, k4, fun _ => k5⟩
        have hrun : (evInc >>= fun _ => tree E L types F (indent s.post) >>= fun _ => evDec >>= fun _ =>
            (Pure.pure true : Prog Bool)).run bufM b2 e = .ok (true, b', e'.dec) := by
          show (tree E L types F (indent s.post) >>= fun _ => evDec >>= fun _ =>
            (Pure.pure true : Prog Bool)).run bufM b2 e.inc = _
          rw [Prog.run_bind_ok k1]
          rfl
        simp only [line, Prog.run_bind_ok g1, hlt, hgt, ↓reduceIte, Prog.run_bind_ok g3]
        exact hrun
  intro F ns s hr hw hL hF
  obtain ⟨F, rfl⟩ : ∃ k, F = k + 1 := ⟨F - 1, by omega⟩
  simp only [tree]
  refine BufTot.bind (hline hr hw hL (by omega)) fun b s1 h1 hq => ?_
  cases b with
  | true =>
    have := hq rfl
    simp only [↓reduceIte]
    exact ih (r - 1) (by omega) (by omega) h1.2 (by omega) (by omega)
  | false =>
    simp only [Bool.false_eq_true, ↓reduceIte]
    refine BufTot.bind (BufTot.lift (ParTot.lex (endp_tot h1.2)) endp_safe) fun _ s2 h2 _ => ?_
    exact BufTot.pure h2.2 trivial

theorem ogdl_buf (E : Ext) (types : Bool) (inp : Bytes) {L F : Nat} (hL : inp.length < L) (hF : 3 * inp.length + 3 ≤ F) :
    BufTot inp (ogdl E L types F) (Cur.start inp) fun _ _ => True := by
  intro b e ht he
  obtain ⟨u, b1, g1, g2, s2, b2, g3, g4, g5, _⟩ := buf_unspace (e := e) (L := L) (.inl rfl) (by simpa [Cur.start] using hL) ht
  have hl := g4.len
  simp only [Cur.start] at hl
  by_cases hu : u = 0
  · subst hu
    refine ⟨(), _, b1, e, ?_, he, ?_, g2, trivial⟩
    · simp only [ogdl, Prog.run_bind, g1]
      rfl
    · exact ⟨List.dropWhile_suffix _, .inl rfl⟩
  · obtain ⟨a, s', b', e', k1, k2, k3, k4, _⟩ := tree_buf E types (inp := inp) (L := L) inp.length (F := F)
      (ns := indent (Cur.start inp).post) (s := s2) hl g4.2 (by omega) hF b2 e g5 he
    refine ⟨a, s', b', e', ?_, k2, g4.trans k3, k4, trivial⟩
    simp only [ogdl, Prog.run_bind_ok g1]
    simp only [beq_iff_eq, hu, ↓reduceIte, Prog.run_bind_ok g3]
    exact k1

theorem fromReader_ok (E : Ext) (types : Bool) (rd : Reader) : ∃ g, fromReader E types rd = .ok g := by
  have hd := delivered_length rd
  obtain ⟨a, s', b', e', h1, h2, _⟩ := ogdl_buf E types (delivered rd) (L := loopFuel rd.data) (F := treeFuel rd.data)
    (by simp only [loopFuel]; omega) (by simp only [treeFuel]; omega) (Buf.start rd) {} (start_tracks rd) Ev.ok_empty
  obtain ⟨g, hg⟩ := Ev.tree_ok e' h2.2
  exact ⟨g, by simp [fromReader, h1, hg]⟩

end Ogdl
