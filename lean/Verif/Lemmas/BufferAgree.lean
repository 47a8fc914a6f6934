import Verif.Lemmas.BufferTotal
import Verif.Lemmas.Fuel

/-! Parsing depends only on the bytes delivered, and agrees with the cursor if no
run of spaces is longer than half a buffer. -/

namespace Ogdl
open Lex

/-! ## Agreement with the cursor -/

theorem readWhile_ok (p : UInt8 → Bool) (h0 : p 0 = false) : ∀ (f : Nat) {s s' : Cur} {e e' : Ev} {w : Bytes},
    (readWhile p f).run curM s e = .ok (w, s', e') → w <+: s.post.takeWhile p := by
  intro f
  induction f with
  | zero => intro s s' e e' w h; cases h
  | succ f ih =>
    intro s s' e e' w h
    obtain ⟨pre, post, o, r⟩ := s
    cases post with
    | nil =>
      have : (readWhile p (f + 1)).run curM ⟨pre, [], o, r⟩ e = .ok ([], ⟨pre, [], 0, r⟩, e) := by
        simp only [readWhile, Prog.run_bind, run_byte0_nil, h0]
        rfl
      rw [this] at h
      simp only [Res.ok.injEq, Prod.mk.injEq] at h
      rw [← h.1]; exact List.nil_prefix
    | cons c t =>
      by_cases hc : p c
      · have : (readWhile p (f + 1)).run curM ⟨pre, c :: t, o, r⟩ e =
            (readWhile p f >>= fun r => Pure.pure (c :: r)).run curM ⟨c :: pre, t, o, r⟩ e := by
          simp only [readWhile, Prog.run_bind, run_byte0_cons, hc, ↓reduceIte]
        rw [this, Prog.run_bind] at h
        cases hr : (readWhile p f).run curM ⟨c :: pre, t, o, r⟩ e with
        | ok x =>
          obtain ⟨w', s'', e''⟩ := x
          rw [hr] at h
          simp only [Prog.run_pure, Res.ok.injEq, Prod.mk.injEq] at h
          rw [← h.1, List.takeWhile_cons, if_pos hc]
          exact (List.cons_prefix_cons).2 ⟨rfl, ih hr⟩
        | panic => rw [hr] at h; cases h
        | oof => rw [hr] at h; cases h
      · have : (readWhile p (f + 1)).run curM ⟨pre, c :: t, o, r⟩ e = .ok ([], Cur.unread ⟨c :: pre, t, o, r⟩, e) := by
          simp only [readWhile, Prog.run_bind, run_byte0_cons, hc]
          rfl
        rw [this] at h
        simp only [Res.ok.injEq, Prod.mk.injEq] at h
        rw [← h.1]; exact List.nil_prefix

theorem unreadN_safe : ∀ (n c : Nat), n ≤ c → SafeC c (fun _ c' => c' = c - n) (unreadN n) := by
  intro n
  induction n with
  | zero => intro c _; rfl
  | succ n ih =>
    intro c h
    simp only [unreadN, safe_unread]
    exact ⟨by omega, (ih (c - 1) (by omega)).mono fun _ _ h => by omega⟩

theorem Agree.and_ok {α : Type} {x : Prog α} {s : Cur} {b : Buf} {e : Ev} {P : α → Cur → Buf → Prop}
    {R : α → Cur → Prop} (h : Agree x s b e P) (hr : ∀ a s' e', x.run curM s e = .ok (a, s', e') → R a s') :
    Agree x s b e fun a s' b' => P a s' b' ∧ R a s' := by
  unfold Agree at h ⊢
  cases hx : x.run curM s e with
  | ok r =>
    rw [hx] at h
    obtain ⟨b', h1, h2⟩ := h
    exact ⟨b', h1, h2, hr _ _ _ hx⟩
  | panic => rw [hx] at h; exact h
  | oof => rw [hx] at h; exact h

/-- No run of spaces and tabs in the input is longer than 2047 bytes. -/
def ShortSpaces (inp : Bytes) : Prop := ∀ t, t <:+ inp → indent t ≤ 2047

theorem Tracks.suffix {inp : Bytes} {c : Nat} {s : Cur} {b : Buf} (h : Tracks inp c s b) : s.post <:+ inp := by
  obtain ⟨_, h⟩ := h
  exact ⟨_, h.all⟩

theorem space_agree {inp : Bytes} (hs : ShortSpaces inp) (L : Nat) {s : Cur} {b : Buf} (ht : Tracks inp 0 s b) (e : Ev) :
    Agree (space L) s b e fun a s' b' => Tracks inp a.1 s' b' := by
  have h1 := ((readWhile_safe isSpaceChar L 0).agree ht e).and_ok (R := fun w _ => w.length ≤ 2047) fun w s' e' h => by
    have := (readWhile_ok isSpaceChar (by rfl) L h).length_le
    have := hs s.post ht.suffix
    unfold indent at this
    omega
  refine Agree.bind h1 fun w s' b' e' h => ?_
  obtain ⟨⟨c', h2, h3⟩, h4⟩ := h
  exact Agree.pure (h3.mono (by simp only; omega))

theorem Safe.agree {α : Type} {inp : Bytes} {x : Prog α} (h : Safe x)
    {s : Cur} {b : Buf} (ht : Tracks inp 0 s b) (e : Ev) :
    Agree x s b e fun _ s' b' => Tracks inp 0 s' b' :=
  ((h 0).agree ht e).mono fun _ _ _ ⟨_, _, h⟩ => h.mono (Nat.zero_le _)

theorem unreadN_agree {inp : Bytes} {n : Nat} {s : Cur} {b : Buf} (ht : Tracks inp n s b) (e : Ev) :
    Agree (unreadN n) s b e fun _ s' b' => Tracks inp 0 s' b' :=
  ((unreadN_safe n n (Nat.le_refl _)).agree ht e).mono fun _ _ _ ⟨_, _, h⟩ => h.mono (Nat.zero_le _)

theorem tree_line_agree (E : Ext) (types : Bool) {inp : Bytes} (hs : ShortSpaces inp) (L : Nat) :
    ∀ (F ns : Nat) (s : Cur) (b : Buf) (e : Ev), Tracks inp 0 s b →
    Agree (tree E L types F ns) s b e (fun _ s' b' => Tracks inp 0 s' b') ∧
    Agree (line E L types F ns) s b e (fun _ s' b' => Tracks inp 0 s' b') := by
  intro F
  induction F with
  | zero => intro ns s b e ht; rw [tree, line]; exact ⟨rfl, rfl⟩
  | succ F ih =>
    intro ns s b e ht
    simp only [tree, line]
    constructor
    · refine Agree.bind (ih ns s b e ht).2 fun a s' b' e' h => ?_
      split
      · exact (ih ns s' b' e' h).1
      · exact Agree.bind (endp_safe.agree h e') fun _ _ _ _ h => Agree.pure h
    · refine Agree.bind (space_agree hs L ht e) fun a s' b' e' h => ?_
      obtain ⟨n, u⟩ := a
      simp only at h ⊢
      split
      · exact Agree.bind (unreadN_agree h e') fun _ _ _ _ h => Agree.pure h
      · split
        · refine Agree.bind (unreadN_agree h e') fun _ s2 b2 e2 h2 => ?_
          refine Agree.bind (evInc_safe.agree h2 e2) fun _ s3 b3 e3 h3 => ?_
          refine Agree.bind (ih n s3 b3 e3 h3).1 fun _ s4 b4 e4 h4 => ?_
          exact Agree.bind (evDec_safe.agree h4 e4) fun _ _ _ _ h => Agree.pure h
        · exact (lineHere_safe E L types n).agree (h.mono (Nat.zero_le _)) e'

theorem ogdl_agree (E : Ext) (types : Bool) {inp : Bytes} (hs : ShortSpaces inp) (L F : Nat) {s : Cur} {b : Buf} (e : Ev)
    (ht : Tracks inp 0 s b) : Agree (ogdl E L types F) s b e (fun _ s' b' => Tracks inp 0 s' b') := by
  simp only [ogdl]
  refine Agree.bind (space_agree hs L ht e) fun a s' b' e' h => ?_
  split
  · exact Agree.pure (h.mono (Nat.zero_le _))
  · exact Agree.bind (unreadN_agree h e') fun _ _ _ _ h => (tree_line_agree E types hs L _ _ _ _ _ h).1

/-! ## The cursor and the fuel -/

theorem parse_fuel (E : Ext) (types : Bool) (s : Bytes) {L F : Nat} (hL : loopFuel s ≤ L) (hF : treeFuel s ≤ F) :
    (do let r ← (ogdl E L types F).run curM (Cur.start s) {}; r.2.2.tree) = parseText E types s := by
  obtain ⟨a, s', e', h1, _⟩ := ogdl_tot E types s (L := loopFuel s) (F := treeFuel s)
    (by simp [loopFuel]) (by simp [treeFuel]) {} Ev.ok_empty
  rw [parseText, (ogdl_le E hL types hF).run _ _ (by rw [h1]; simp)]

theorem fromReader_parseText (E : Ext) (types : Bool) (rd : Reader) (hs : ShortSpaces (delivered rd)) :
    fromReader E types rd = parseText E types (delivered rd) := by
  have hd := delivered_length rd
  have h1 := ogdl_agree E types hs (loopFuel rd.data) (treeFuel rd.data) {} (start_tracks rd)
  rw [← parse_fuel E types (delivered rd) (L := loopFuel rd.data) (F := treeFuel rd.data)
    (by simp only [loopFuel]; omega) (by simp only [treeFuel]; omega), fromReader]
  unfold Agree at h1
  cases hx : (ogdl E (loopFuel rd.data) types (treeFuel rd.data)).run curM (Cur.start (delivered rd)) {} with
  | ok r =>
    rw [hx] at h1
    obtain ⟨b', h2, _⟩ := h1
    rw [h2]; rfl
  | panic => rw [hx] at h1; simp only at h1; rw [h1]; rfl
  | oof => rw [hx] at h1; simp only at h1; rw [h1]; rfl

/-! ## Two readers that deliver the same bytes -/

/-- Two buffers in the same position with the same bytes to come. -/
structure Same (b b' : Buf) : Prop where
  r : b.r = b'.r
  last : b.last = b'.last
  le : b.last ≤ 4096
  len : b.buf.length = 4096
  len' : b'.buf.length = 4096
  shown : b.buf.take b.last = b'.buf.take b.last
  pos : b.r ≤ b.last + 1
  more : b.last = 4096 → b.r < 4096 ∧ refill b.rd = refill b'.rd

theorem refill_read (rd : Reader) :
    (if (rd.read 2048).2.1 = false then [] else (rd.read 2048).1) = (refill rd).take 2048 ∧
    (2048 ≤ (refill rd).length → refill (rd.read 2048).2.2 = (refill rd).drop 2048) := by
  have hl := read_le rd 2048
  rw [refill_eq]
  split
  · simp
  · split
    · rename_i h
      constructor
      · rw [List.take_append_of_le_length (by omega), List.take_of_length_le (by omega)]
      · intro _
        rw [List.drop_append_of_le_length (by omega), List.drop_of_length_le (by omega), List.nil_append]
    · constructor
      · rw [List.take_of_length_le (by omega)]
      · intro h; omega

theorem fill_shown {b : Buf} (hr : ¬ b.r < 4096) (hlen : b.buf.length = 4096) :
    b.fill.r = 2048 ∧ b.fill.last = 2048 + min 2048 (refill b.rd).length ∧ b.fill.buf.length = 4096 ∧
    b.fill.buf.take b.fill.last = b.buf.drop 2048 ++ (refill b.rd).take 2048 ∧
    (b.fill.last = 4096 → refill b.fill.rd = (refill b.rd).drop 2048) := by
  have hl := read_le b.rd 2048
  have hdlen : (b.buf.drop 2048).length = 2048 := by simp [hlen]
  obtain ⟨h1, h2⟩ := refill_read b.rd
  have hlast : b.fill.last = 2048 + min 2048 (refill b.rd).length := by
    rw [fill_large hr]
    have := congrArg List.length h1
    rw [List.length_take] at this
    simp only
    split
    · rename_i h; rw [if_pos h] at this; simp at this; omega
    · rename_i h; rw [if_neg h] at this; omega
  refine ⟨by rw [fill_large hr], hlast, ?_, ?_, ?_⟩
  · rw [fill_large hr]
    simp only
    rw [write_length] <;> simp only [List.length_append, hdlen] <;> omega
  · rw [fill_large hr]
    simp only
    have ht : (b.buf.drop 2048 ++ b.buf.drop 2048).take 2048 = b.buf.drop 2048 := by
      rw [List.take_append_of_le_length (by omega), List.take_of_length_le (by omega)]
    rw [← h1]
    split
    · rw [Buf.write, List.append_assoc, List.take_append_of_le_length (by rw [ht, hdlen]; exact Nat.le_refl _), ht,
        List.append_nil, List.take_of_length_le (by omega)]
    · rw [write_take (by simp only [List.length_append, hdlen]; omega), ht]
  · intro h
    have := h2 (by omega)
    rw [fill_large hr]
    exact this

theorem Same.byte {b b' : Buf} (h : Same b b') :
    ∃ c x x', b.byte = .ok (c, x) ∧ b'.byte = .ok (c, x') ∧ Same x x' := by
  by_cases hend : b.last < 4096 ∧ b.r ≥ b.last
  · refine ⟨none, _, _, if_pos hend, if_pos ⟨by rw [← h.last]; exact hend.1, by rw [← h.last, ← h.r]; exact hend.2⟩, ?_⟩
    exact ⟨by simp [h.last], h.last, h.le, h.len, h.len', h.shown, Nat.le_refl _, fun h => by simp only at h; omega⟩
  · have hend' : ¬ (b'.last < bufSize ∧ b'.r ≥ b'.last) := by rw [← h.last, ← h.r]; exact hend
    have hpos := h.pos
    have hle := h.le
    have hlt : b.r < b.last := by
      by_cases h4 : b.last = 4096
      · have := (h.more h4).1; omega
      · omega
    obtain ⟨c, hc⟩ : ∃ c, b.buf[b.r]? = some c := by
      have : b.r < b.buf.length := by rw [h.len]; omega
      exact ⟨_, List.getElem?_eq_getElem this⟩
    have hc' : b'.buf[b'.r]? = some c := by
      have h1 : (b.buf.take b.last)[b.r]? = some c := by rw [List.getElem?_take, if_pos hlt, hc]
      rw [h.shown, List.getElem?_take, if_pos hlt] at h1
      rw [← h.r, h1]
    refine ⟨some c, _, _, by rw [Buf.byte, if_neg (show ¬ (b.last < bufSize ∧ b.r ≥ b.last) from hend), hc], by rw [Buf.byte, if_neg hend', hc'], ?_⟩
    by_cases hf : b.r + 1 < 4096
    · rw [fill_small (b := { b with r := b.r + 1 }) hf, fill_small (b := { b' with r := b'.r + 1 }) (by rw [← h.r]; exact hf)]
      exact ⟨by simp [h.r], h.last, h.le, h.len, h.len', h.shown, by simp only; omega, fun h4 => ⟨hf, (h.more h4).2⟩⟩
    · have h4 : b.last = 4096 := by omega
      have hf' : ¬ b'.r + 1 < 4096 := by rw [← h.r]; exact hf
      obtain ⟨f1, f2, f3, f4, f5⟩ := fill_shown (b := { b with r := b.r + 1 }) hf h.len
      obtain ⟨g1, g2, g3, g4, g5⟩ := fill_shown (b := { b' with r := b'.r + 1 }) hf' h.len'
      have hre := (h.more h4).2
      simp only at f2 f4 f5 g2 g4 g5
      rw [← hre] at g2 g4 g5
      have hbuf : b.buf = b'.buf := by
        have h1 := h.shown
        rwa [h4, List.take_of_length_le (by rw [h.len]; omega), List.take_of_length_le (by rw [h.len']; omega)] at h1
      have hl : ({ b with r := b.r + 1 } : Buf).fill.last = ({ b' with r := b'.r + 1 } : Buf).fill.last := by rw [f2, g2]
      refine ⟨by rw [f1, g1], hl, by omega, f3, g3, ?_, by omega, fun h => ⟨by omega, ?_⟩⟩
      · rw [f4]
        conv => rhs; rw [hl]
        rw [g4, hbuf]
      · rw [f5 h, g5 (by omega)]

theorem Same.unread {b b' : Buf} (h : Same b b') : Same b.unread b'.unread :=
  ⟨by simp [Buf.unread, h.r], h.last, h.le, h.len, h.len', h.shown, by have := h.pos; simp only [Buf.unread]; omega,
    fun h4 => ⟨by have := (h.more h4).1; simp only [Buf.unread]; omega, (h.more h4).2⟩⟩

/-- A program without `Rune`. -/
def NoRune {α : Type} : Prog α → Prop
  | .ret _ => True
  | .byte k => ∀ ch, NoRune (k ch)
  | .unread k => NoRune k
  | .rune _ => False
  | .unreadRune _ => False
  | .getEv k => ∀ e, NoRune (k e)
  | .setEv _ k => NoRune k
  | .oof => True

theorem NoRune.bind {α β : Type} {x : Prog α} {f : α → Prog β} (h : NoRune x) (hf : ∀ a, NoRune (f a)) :
    NoRune (x >>= f) := by
  show NoRune (Prog.bind x f)
  induction x with
  | ret a => exact hf a
  | byte k ih => exact fun ch => ih ch (h ch)
  | unread k ih => exact ih h
  | rune k ih => exact h.elim
  | unreadRune k ih => exact h.elim
  | getEv k ih => exact fun e => ih e (h e)
  | setEv e k ih => exact ih h
  | oof => trivial

theorem SafeC.noRune {α : Type} {x : Prog α} {c : Nat} {Q : α → Nat → Prop} (h : SafeC c Q x) : NoRune x := by
  induction x generalizing c with
  | ret a => trivial
  | byte k ih => exact fun ch => ih ch (h ch)
  | unread k ih => exact ih h.2
  | rune k ih => exact h.elim
  | unreadRune k ih => exact h.elim
  | getEv k ih => exact fun e => ih e (h e)
  | setEv e k ih => exact ih h
  | oof => trivial

theorem NoRune.same {α : Type} {x : Prog α} (h : NoRune x) {b b' : Buf} (hb : Same b b') (e : Ev) :
    (match x.run bufM b e with | .ok (a, _, e') => .ok (a, e') | .panic => .panic | .oof => .oof : Res (α × Ev)) =
    (match x.run bufM b' e with | .ok (a, _, e') => .ok (a, e') | .panic => .panic | .oof => .oof) := by
  induction x generalizing b b' e with
  | ret a => rfl
  | byte k ih =>
    obtain ⟨c, x, x', h1, h2, h3⟩ := hb.byte
    simp only [Prog.run, bufM, h1, h2]
    exact ih c (h c) h3 e
  | unread k ih => exact ih h hb.unread e
  | rune k ih => exact h.elim
  | unreadRune k ih => exact h.elim
  | getEv k ih => exact ih e (h e) hb e
  | setEv e' k ih => exact ih h hb e'
  | oof => rfl

theorem unreadN_noRune : ∀ n, NoRune (unreadN n)
  | 0 => trivial
  | n + 1 => unreadN_noRune n

theorem tree_line_noRune (E : Ext) (types : Bool) (L : Nat) : ∀ (F ns : Nat),
    NoRune (tree E L types F ns) ∧ NoRune (line E L types F ns) := by
  intro F
  induction F with
  | zero => intro ns; rw [tree, line]; exact ⟨trivial, trivial⟩
  | succ F ih =>
    intro ns
    simp only [tree, line]
    constructor
    · refine NoRune.bind (ih ns).2 fun a => ?_
      split
      · exact (ih ns).1
      · exact NoRune.bind (endp_safe 0).noRune fun _ => trivial
    · refine NoRune.bind (space_safe L 0).noRune fun a => ?_
      split
      · exact NoRune.bind (unreadN_noRune _) fun _ => trivial
      split
      · refine NoRune.bind (unreadN_noRune _) fun _ => ?_
        refine NoRune.bind (evInc_safe 0).noRune fun _ => ?_
        refine NoRune.bind (ih _).1 fun _ => ?_
        exact NoRune.bind (evDec_safe 0).noRune fun _ => trivial
      · exact (lineHere_safe E L types _ 0).noRune

theorem ogdl_noRune (E : Ext) (types : Bool) (L F : Nat) : NoRune (ogdl E L types F) := by
  simp only [ogdl]
  refine NoRune.bind (space_safe L 0).noRune fun a => ?_
  split
  · trivial
  · exact NoRune.bind (unreadN_noRune _) fun _ => (tree_line_noRune E types L _ _).1

theorem start_same {rd rd' : Reader} (h : delivered rd = delivered rd') : Same (Buf.start rd) (Buf.start rd') := by
  obtain ⟨b1, h1⟩ := start_tracks rd
  obtain ⟨b2, h2⟩ := start_tracks rd'
  have hz1 : b1 = 0 := by have := h1.pos; simp [Cur.start, Buf.start] at this; omega
  have hz2 : b2 = 0 := by have := h2.pos; simp [Cur.start, Buf.start] at this; omega
  subst hz1 hz2
  have hw1 := h1.win
  have hw2 := h2.win
  rw [← h] at hw2
  simp only [Nat.zero_add, List.drop_zero] at hw1 hw2
  have hr1 : (Buf.start rd).r = 0 := rfl
  have hr2 : (Buf.start rd').r = 0 := rfl
  rcases hw1 with ⟨k1, k2, k3, k4, k5⟩ | ⟨k1, k2, k3, k4, k5⟩ <;>
    rcases hw2 with ⟨l1, l2, l3, l4, l5⟩ | ⟨l1, l2, l3, l4, l5⟩
  · exact ⟨by omega, by omega, by omega, h1.len, h2.len, by rw [k3, l3], by omega, fun _ => ⟨k5, by rw [k4, l4]⟩⟩
  · omega
  · omega
  · have hl : (Buf.start rd).last = (Buf.start rd').last := by omega
    exact ⟨by omega, hl, by omega, h1.len, h2.len, by rw [k3, hl, l3], by omega, fun h => by omega⟩

/-- A reader whose reads return at least 4096 bytes, unless fewer are left, and no
data together with `io.EOF`. -/
def Reader.Full (rd : Reader) : Prop := rd.eofWithData = false ∧ ∀ n ∈ rd.sizes, 4096 ≤ n

theorem read_full {rd : Reader} (h : rd.Full) {k : Nat} (hk : k ≤ 4096) :
    rd.read k = (rd.data.take k, !rd.data.isEmpty, ⟨rd.data.drop k, rd.sizes.tail, false⟩) := by
  obtain ⟨data, sizes, ewd⟩ := rd
  obtain ⟨h1, h2⟩ := h
  simp only at h1 h2
  subst h1
  cases sizes with
  | nil => simp [Reader.read]
  | cons n t =>
    have := h2 n (by simp)
    have : min n k = k := by omega
    simp [Reader.read, this]

theorem Reader.Full.rest {rd : Reader} (h : rd.Full) (d : Bytes) : (⟨d, rd.sizes.tail, false⟩ : Reader).Full :=
  ⟨rfl, fun n hn => h.2 n (List.mem_of_mem_tail hn)⟩

theorem refills_full : ∀ (f : Nat) (rd : Reader), rd.Full → rd.data.length < f → refills f rd = rd.data := by
  intro f
  induction f with
  | zero => intro rd _ h; omega
  | succ f ih =>
    intro rd h hf
    rw [refills, read_full h (by omega)]
    by_cases hd : rd.data = []
    · simp [hd]
    · have : rd.data.isEmpty = false := by simp [hd]
      have hpos : 0 < rd.data.length := List.length_pos_iff.2 hd
      simp only [this, Bool.not_false, Bool.not_true, Bool.false_eq_true, ↓reduceIte]
      split
      · rw [ih _ (h.rest _) (by simp; omega)]
        exact List.take_append_drop _ _
      · rename_i h
        rw [List.length_take] at h
        exact List.take_of_length_le (by omega)

theorem firstFill_full (i : Nat) (rd : Reader) (h : rd.Full) : ∃ sz, firstFill (i + 1 + 1) 0 rd =
    (rd.data.take 4096, ⟨rd.data.drop 4096, sz, false⟩) ∧ (∀ n ∈ sz, 4096 ≤ n) := by
  rw [firstFill_succ, read_full h (by omega)]
  simp only [Nat.sub_zero, Nat.zero_add]
  by_cases hd : rd.data = []
  · exact ⟨_, by simp [hd], (h.rest []).2⟩
  · have hne : (!rd.data.isEmpty) = true := by simp [hd]
    rw [hne, if_neg (by simp)]
    by_cases hl : 2048 ≤ rd.data.length
    · exact ⟨_, if_pos (by rw [List.length_take]; omega), (h.rest []).2⟩
    · rw [if_neg (by rw [List.length_take]; omega), firstFill_succ, read_full (h.rest _) (by omega)]
      have hn : rd.data.drop 4096 = [] := List.drop_of_length_le (by omega)
      simp only [hn]
      exact ⟨_, by simp, ((h.rest []).rest []).2⟩

theorem delivered_full (rd : Reader) (h : rd.Full) : delivered rd = rd.data := by
  obtain ⟨sz, h1, h2⟩ := firstFill_full 98 rd h
  simp only [delivered]
  rw [h1]
  simp only
  split
  · rw [refills_full _ _ ⟨rfl, h2⟩ (by simp)]
    exact List.take_append_drop _ _
  · rename_i hx
    rw [List.length_take] at hx
    exact List.take_of_length_le (by omega)

theorem firstFill_small : ∀ (i off : Nat) (rd : Reader), rd.eofWithData = false → rd.sizes.length < i →
    off + rd.data.length < 2048 → (firstFill i off rd).1 = rd.data := by
  intro i
  induction i with
  | zero => intro off rd _ h; omega
  | succ i ih =>
    intro off rd he hs hl
    obtain ⟨data, sizes, ewd⟩ := rd
    simp only at he hs hl
    subst he
    rw [firstFill_succ]
    by_cases hd : data = []
    · subst hd
      rfl
    · have hok : ((⟨data, sizes, false⟩ : Reader).read (4096 - off)).2.1 = true := by
        simp [Reader.read, hd]
      rw [if_neg (by rw [hok]; simp)]
      have h1 := read_data ⟨data, sizes, false⟩ (4096 - off)
      have h2 := congrArg List.length h1
      simp only [List.length_append] at h1 h2
      rw [if_neg (by omega)]
      simp only
      cases sizes with
      | nil =>
        have hr : (⟨data, [], false⟩ : Reader).read (4096 - off) = (data, !data.isEmpty, ⟨[], [], false⟩) := by
          simp only [Reader.read, List.take_of_length_le (show data.length ≤ 4096 - off by omega),
            List.drop_of_length_le (show data.length ≤ 4096 - off by omega)]
          simp
        rw [hr]
        simp only
        cases i with
        | zero => simp [firstFill]
        | succ i => rw [firstFill_succ]; simp [Reader.read]
      | cons n t =>
        rw [ih _ _ rfl (by simpa [Reader.read] using hs) (by omega)]
        exact h1

theorem delivered_small (rd : Reader) (he : rd.eofWithData = false) (hs : rd.sizes.length < 100)
    (hl : rd.data.length < 2048) : delivered rd = rd.data := by
  have h := firstFill_small 100 0 rd he hs (by omega)
  simp only [delivered]
  rw [h, if_neg (by omega)]

theorem fromReader_delivered (E : Ext) (types : Bool) (rd : Reader) :
    fromReader E types rd = fromReader E types { data := delivered rd } := by
  have hd := delivered_length rd
  have hdel : delivered { data := delivered rd } = delivered rd := delivered_full _ ⟨rfl, by simp⟩
  have hsame := start_same (rd := rd) (rd' := { data := delivered rd }) hdel.symm
  have h1 := (ogdl_noRune E types (loopFuel rd.data) (treeFuel rd.data)).same hsame {}
  obtain ⟨a, s', b', e', h2, h3, _⟩ := ogdl_buf E types (delivered rd) (L := loopFuel (delivered rd)) (F := treeFuel (delivered rd))
    (by simp only [loopFuel]; omega) (by simp only [treeFuel]; omega) (Buf.start { data := delivered rd }) {}
    (by have := start_tracks { data := delivered rd }; rwa [hdel] at this) Ev.ok_empty
  have h4 := (ogdl_le E (L := loopFuel (delivered rd)) (M := loopFuel rd.data) (by simp only [loopFuel]; omega) types
    (F := treeFuel (delivered rd)) (G := treeFuel rd.data) (by simp only [treeFuel]; omega)).run
    (M := bufM) (Buf.start { data := delivered rd }) {} (by rw [h2]; simp)
  rw [h4, h2] at h1
  simp only at h1
  simp only [fromReader, h2]
  cases hx : (ogdl E (loopFuel rd.data) types (treeFuel rd.data)).run bufM (Buf.start rd) {} with
  | ok r =>
    rw [hx] at h1
    simp only [Res.ok.injEq, Prod.mk.injEq] at h1
    simp [h1.2]
  | panic => rw [hx] at h1; simp at h1
  | oof => rw [hx] at h1; simp at h1

end Ogdl
