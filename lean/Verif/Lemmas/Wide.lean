import Verif.Lemmas.Text
import Verif.Lemmas.BufferTotal

/-! Indentation that is wider than the lexer can step back over. -/

namespace Ogdl
open Lex Spec

variable {E : Ext} {inp : Bytes}

/-- The rest of the input is `post`. -/
def Rest (inp post : Bytes) (b : Buf) : Prop := ∃ s, s.post = post ∧ Tracks inp 0 s b

theorem rest_endp {c : UInt8} {t : Bytes} {b : Buf} (h : Rest inp (c :: t) b) (hc : isEndChar c = false) (e : Ev) :
    ∃ b', endp.run bufM b e = .ok (false, b', e) ∧ Rest inp (c :: t) b' := by
  obtain ⟨⟨pre, post, o, rs⟩, rfl, ht⟩ := h
  obtain ⟨base, hrel⟩ := ht
  have hw : o = 0 := by
    rcases hrel.wf with h | h
    · exact h
    · cases h
  subst hw
  have := endp_safe.agree ⟨base, hrel⟩ e
  unfold Agree at this
  rw [run_endp_false pre t c rs e hc] at this
  obtain ⟨b', h1, h2⟩ := this
  exact ⟨b', h1, _, rfl, h2⟩

theorem rest_endp_nil {b : Buf} (h : Rest inp [] b) (e : Ev) :
    ∃ b', endp.run bufM b e = .ok (true, b', e) ∧ Rest inp [] b' := by
  obtain ⟨⟨pre, post, o, rs⟩, rfl, ht⟩ := h
  have := endp_safe.agree ht e
  unfold Agree at this
  rw [run_endp_nil] at this
  obtain ⟨b', h1, h2⟩ := this
  exact ⟨b', h1, _, rfl, h2⟩

theorem takeWhile_run {p : UInt8 → Bool} : ∀ {sp t : Bytes}, (∀ x ∈ sp, p x = true) → (∀ c, t.head? = some c → p c = false) →
    (sp ++ t).takeWhile p = sp ∧ (sp ++ t).dropWhile p = t
  | [], [], _, _ => ⟨rfl, rfl⟩
  | [], c :: t, _, h => by simp [h c rfl]
  | x :: sp, t, h, ht => by
    obtain ⟨h1, h2⟩ := takeWhile_run (sp := sp) (fun y hy => h y (by simp [hy])) ht
    simp [h x (by simp), h1, h2]

theorem rest_space {sp t : Bytes} {b : Buf} (h : Rest inp (sp ++ t) b) (hsp : ∀ x ∈ sp, isSpaceChar x = true) (ht : ∀ c, t.head? = some c → isSpaceChar c = false)
    {L : Nat} (hL : inp.length < L) (e : Ev) : ∃ b' pre rs, (space L).run bufM b e = .ok ((sp.length, spaceKind sp), b', e) ∧
      Tracks inp (min 2047 sp.length) ⟨sp.reverse ++ pre, t, 0, rs⟩ b' := by
  obtain ⟨⟨pre, post, o, rs⟩, hp, base, hrel⟩ := h
  dsimp only at hp
  subst hp
  have hl := congrArg List.length hrel.all
  simp only [List.length_append, List.length_reverse] at hl
  have h1 := run_space L (sp ++ t) pre o rs e hrel.wf (by simp; omega)
  obtain ⟨h2, h3⟩ := takeWhile_run hsp ht
  rw [h2, h3] at h1
  have := (space_safe L 0).agree ⟨base, hrel⟩ e
  unfold Agree at this
  rw [h1] at this
  obtain ⟨b1, g1, c', g3, g2⟩ := this
  exact ⟨b1, pre, rs, g1, g2.mono (by simpa using g3)⟩

theorem Spec.Rest.mk {s : Cur} {b : Buf} {c : Nat} (h : Tracks inp c s b) : Rest inp s.post b := ⟨s, rfl, h.mono (Nat.zero_le _)⟩

theorem unreadN_buf (e : Ev) : ∀ (n : Nat) (b : Buf), (unreadN n).run bufM b e = .ok ((), { b with r := b.r - n }, e)
  | 0, b => rfl
  | n + 1, b => by
    have : (unreadN (n + 1)).run bufM b e = (unreadN n).run bufM b.unread e := rfl
    rw [this, unreadN_buf e n]
    simp only [Buf.unread]
    rw [show b.r - 1 - n = b.r - (n + 1) by omega]

theorem rel_back : ∀ (w pre post : Bytes) (rs : List Nat) (b : Buf) (base : Nat), Rel inp w.length ⟨w ++ pre, post, 0, rs⟩ b base →
    Rel inp 0 ⟨pre, w.reverse ++ post, 0, rs⟩ { b with r := b.r - w.length } base
  | [], _, _, _, _, _, h => h
  | d :: w, pre, post, rs, b, base, h => by
    have h1 := h.unread
    have e1 : (⟨d :: w ++ pre, post, 0, rs⟩ : Cur).unread = ⟨w ++ pre, d :: post, 0, rs⟩ := by simp [Cur.unread]
    rw [e1] at h1
    have h2 := rel_back w pre (d :: post) rs _ base h1
    simp only [Buf.unread, List.length_cons, List.reverse_cons, List.append_assoc, List.singleton_append] at h2 ⊢
    rwa [show b.r - (w.length + 1) = b.r - 1 - w.length by omega]

/-- Stepping back over `u ++ v` stops after `u`, where the window starts. -/
theorem wide_back {u v t pre : Bytes} {rs : List Nat} {q n : Nat} {c : UInt8} {b : Buf} (h : Tracks inp 2047 ⟨(u ++ v).reverse ++ pre, c :: t, 0, rs⟩ b)
    (hq : 1 ≤ q) (hv : (v ++ c :: t).length + 2048 * q = inp.length) (h1 : 2048 ≤ v.length) (h2 : v.length < 4095) (hn : v.length ≤ n) (e : Ev) :
    ∃ b', (unreadN n).run bufM b e = .ok ((), b', e) ∧ Rest inp (v ++ c :: t) b' := by
  obtain ⟨base, hrel⟩ := h
  have hl := congrArg List.length hrel.all
  have hpos := hrel.pos
  simp only [List.length_append, List.length_reverse, List.length_cons] at hl hpos hv
  have hhalf := hrel.half
  have hr : b.r < 4096 := by
    rcases hrel.win with ⟨_, _, _, _, h⟩ | ⟨h1, h2, _, _, h3⟩
    · exact h
    · omega
  have hb : b.r = v.length := by
    rcases hrel.credit with h | h
    · omega
    · omega
  refine ⟨_, unreadN_buf e n b, ⟨u.reverse ++ pre, v ++ c :: t, 0, rs⟩, rfl, base, ?_⟩
  have h3 : Rel inp v.reverse.length ⟨v.reverse ++ (u.reverse ++ pre), c :: t, 0, rs⟩ b base := by
    rw [← List.append_assoc, ← List.reverse_append]
    exact { hrel with credit := .inr (by simp; omega) }
  have := rel_back v.reverse (u.reverse ++ pre) (c :: t) rs b base h3
  rw [List.reverse_reverse, List.length_reverse] at this
  rwa [show b.r - n = b.r - v.length by omega]

/-! Lines. -/

variable {L F ns n : Nat} {k : UInt8} {b b1 b2 b3 : Buf} {e e1 : Ev}

theorem line_lt (h1 : (space L).run bufM b e = .ok ((n, k), b1, e)) (hn : n < ns) (h2 : (unreadN n).run bufM b1 e = .ok ((), b2, e)) :
    (line E L false (F + 1) ns).run bufM b e = .ok (false, b2, e) := by
  simp only [line, Prog.run_bind, h1, hn, ↓reduceIte, h2, Prog.run_pure]

theorem line_gt (h1 : (space L).run bufM b e = .ok ((n, k), b1, e)) (hn : ns < n) (h2 : (unreadN n).run bufM b1 e = .ok ((), b2, e))
    (h3 : (tree E L false F n).run bufM b2 e.inc = .ok ((), b3, e1)) : (line E L false (F + 1) ns).run bufM b e = .ok (true, b3, e1.dec) := by
  have hn' : ¬ n < ns := by omega
  have hrun : (evInc >>= fun _ => tree E L false F n >>= fun _ => evDec >>= fun _ => (Pure.pure true : Prog Bool)).run bufM b2 e = .ok (true, b3, e1.dec) := by
    show (tree E L false F n >>= fun _ => evDec >>= fun _ => (Pure.pure true : Prog Bool)).run bufM b2 e.inc = _
    rw [Prog.run_bind_ok h3]
    rfl
  simp only [line, Prog.run_bind_ok h1, hn', hn, ↓reduceIte, Prog.run_bind_ok h2]
  exact hrun

theorem tree_true (h1 : (line E L false F ns).run bufM b e = .ok (true, b1, e1)) : (tree E L false (F + 1) ns).run bufM b e = (tree E L false F ns).run bufM b1 e1 := by
  simp only [tree, Prog.run_bind_ok h1, ↓reduceIte]

theorem tree_false {x : Bool} (h1 : (line E L false F ns).run bufM b e = .ok (false, b1, e1)) (h2 : endp.run bufM b1 e1 = .ok (x, b2, e1)) :
    (tree E L false (F + 1) ns).run bufM b e = .ok ((), b2, e1) := by
  simp only [tree, Prog.run_bind_ok h1, Bool.false_eq_true, ↓reduceIte, Prog.run_bind_ok h2]
  rfl

/-- A line with the expected indentation. -/
theorem line_word {w sp rest : Bytes} (hw : Word w) (h92 : w ≠ [92]) (h : Rest inp (sp ++ (w ++ [10] ++ rest)) b) (hsp : ∀ x ∈ sp, isSpaceChar x = true)
    (hw0 : ∀ c, (w ++ [10] ++ rest).head? = some c → isSpaceChar c = false) (hL : inp.length < L) (he : e.Ok) :
    ∃ b' e', (line E L false (F + 1) sp.length).run bufM b e = .ok (true, b', e') ∧ Rest inp rest b' ∧ e'.Ok ∧ e'.items = e.items ++ [(e.current, .str w)] ∧
      e'.current = e.current := by
  obtain ⟨b1, pre, rs, h1, h2⟩ := rest_space h hsp hw0 hL e
  obtain ⟨base, hrel⟩ := h2.mono (Nat.zero_le _)
  have hl := congrArg List.length hrel.all
  rw [List.length_append] at hl
  dsimp only at hl
  obtain ⟨pre', e', g1, g2, g3, g4⟩ := run_lineHere (E := E) (types := false) (n := sp.length) (vs := [.str w]) (t := w) (.last (word_scal hw h92)) [10] rest (.inl rfl)
    (L := L) rs (sp.reverse ++ pre) e he (by omega)
  have := (lineHere_safe E L false sp.length).agree (⟨base, hrel⟩ : Tracks inp 0 _ b1) e
  unfold Agree at this
  rw [g1] at this
  obtain ⟨b', k1, k2⟩ := this
  refine ⟨b', e', ?_, ⟨_, rfl, k2⟩, g2, g3, g4⟩
  simp only [line, Prog.run_bind_ok h1, Nat.lt_irrefl, ↓reduceIte, k1]

/-- A line whose indentation is too wide is taken for the start of a tree without lines. -/
theorem line_wide {u v t : Bytes} {q : Nat} {c : UInt8} (h : Rest inp (u ++ v ++ c :: t) b) (hb : ∀ x ∈ u ++ v, isSpaceChar x = true) (hc : isSpaceChar c = false)
    (hq : 1 ≤ q) (hv : (v ++ c :: t).length + 2048 * q = inp.length) (h1 : 2048 ≤ v.length) (h2 : v.length < 4095) (hu : u ≠ []) (hns : ns < v.length) (hL : inp.length < L)
    (he : e.Ok) :
    ∃ b', (line E L false (F + 3) ns).run bufM b e = .ok (true, b', e.inc.dec) ∧ Rest inp (v ++ c :: t) b' := by
  have hu0 : 0 < u.length := List.length_pos_iff.2 hu
  have hh : ∀ d, (c :: t).head? = some d → isSpaceChar d = false := fun d hd => by cases hd; exact hc
  obtain ⟨b1, pre, rs, g1, g2⟩ := rest_space h hb hh hL e
  obtain ⟨b2, g3, g4⟩ := wide_back (n := (u ++ v).length) (g2.mono (by simp; omega)) hq hv h1 h2 (by simp) e
  have hvb : ∀ x ∈ v, isSpaceChar x = true := fun x hx => hb x (by simp [hx])
  obtain ⟨b3, pre', rs', g5, g6⟩ := rest_space g4 hvb hh hL e.inc
  obtain ⟨b4, g7, g8⟩ := wide_back (u := []) (n := v.length) (g6.mono (by omega)) hq hv h1 h2 (Nat.le_refl _) e.inc
  obtain ⟨d, w, hd⟩ : ∃ d w, v = d :: w := by cases v with | nil => simp at h1 | cons d w => exact ⟨d, w, rfl⟩
  have hdb := hvb d (by rw [hd]; simp)
  have hde : isEndChar d = false := by
    simp only [isSpaceChar, Bool.or_eq_true, beq_iff_eq] at hdb
    rcases hdb with rfl | rfl <;> decide
  rw [hd, List.cons_append] at g8
  obtain ⟨b5, g9, g10⟩ := rest_endp g8 hde e.inc
  refine ⟨b5, line_gt g1 (by simp; omega) g3 (tree_false (line_lt g5 (by simp; omega) g7) g9), ?_⟩
  rw [hd]
  exact g10

/-- From inside the indentation, the line starts a tree of its own. -/
theorem line_in {v w rest : Bytes} {q : Nat} {Q : Buf → Ev → Prop} (hw : Word w) (h92 : w ≠ [92]) (h : Rest inp (v ++ (w ++ [10] ++ rest)) b)
    (hb : ∀ x ∈ v, isSpaceChar x = true) (hw0 : ∀ c, (w ++ [10] ++ rest).head? = some c → isSpaceChar c = false) (hq : 1 ≤ q)
    (hv : (v ++ (w ++ [10] ++ rest)).length + 2048 * q = inp.length) (h1 : 2048 ≤ v.length)
    (h2 : v.length < 4095) (hns : ns < v.length) (hL : inp.length < L) (he : e.Ok)
    (next : ∀ b e1, Rest inp rest b → e1.Ok → e1.items = e.items ++ [(e.current + 1, .str w)] → e1.current = e.current + 1 →
      ∃ b' e', (tree E L false (F + 1) v.length).run bufM b e1 = .ok ((), b', e') ∧ Q b' e'.dec) :
    ∃ b' e', (line E L false (F + 3) ns).run bufM b e = .ok (true, b', e') ∧ Q b' e' := by
  obtain ⟨b1, pre, rs, g1, g2⟩ := rest_space h hb hw0 hL e
  obtain ⟨c, t, ht⟩ : ∃ c t, w ++ [10] ++ rest = c :: t := by
    cases hx : w ++ [10] ++ rest with
    | nil => simp at hx
    | cons c t => exact ⟨c, t, rfl⟩
  rw [ht] at g2
  obtain ⟨b2, g3, g4⟩ := wide_back (u := []) (n := v.length) (g2.mono (by omega)) hq (by rw [← ht]; exact hv) h1 h2 (Nat.le_refl _) e
  rw [← ht] at g4
  obtain ⟨b3, e3, g5, g6, g7, g8, g9⟩ := line_word (E := E) (F := F) hw h92 g4 hb hw0 hL he.inc
  obtain ⟨b4, e4, g10, g11⟩ := next b3 e3 g6 g7 g8 g9
  exact ⟨b4, e4.dec, line_gt g1 hns g3 ((tree_true g5).trans g10), g11⟩

/-- At the end of the input, a tree inside another one ends. -/
theorem tree_end (h : Rest inp [] b) (hn : 0 < ns) (hL : inp.length < L) (e : Ev) :
    ∃ b', (tree E L false (F + 2) ns).run bufM b e = .ok ((), b', e) ∧ Rest inp [] b' := by
  obtain ⟨b1, pre, rs, g1, g2⟩ := rest_space (sp := []) (t := []) h nofun nofun hL e
  obtain ⟨b2, g3, g4⟩ := rest_endp_nil (Spec.Rest.mk g2) e
  exact ⟨b2, tree_false (line_lt g1 hn rfl) g3, g4⟩

theorem tree_end0 (h : Rest inp [] b) (hL : inp.length < L) (e : Ev) :
    ∃ b', (tree E L false (F + 2) 0).run bufM b e = .ok ((), b', e) := by
  obtain ⟨b1, pre, rs, g1, g2⟩ := rest_space (sp := []) (t := []) h nofun nofun hL e
  have hl : (lineHere E L false 0).run curM ⟨[].reverse ++ pre, [], 0, rs⟩ e = .ok (false, ⟨[].reverse ++ pre, [], 1, rs⟩, e) := by
    simp only [lineHere, Prog.run_bind, run_evLevel, run_endp_nil, ↓reduceIte, Prog.run_pure]
  have := (lineHere_safe E L false 0).agree (g2.mono (Nat.zero_le _)) e
  unfold Agree at this
  rw [hl] at this
  obtain ⟨b2, g3, g4⟩ := this
  obtain ⟨b3, g5, _⟩ := rest_endp_nil ⟨_, rfl, g4⟩ e
  refine ⟨b3, tree_false (b1 := b2) ?_ g5⟩
  simp only [line, Prog.run_bind_ok g1, List.length_nil, Nat.lt_irrefl, ↓reduceIte, g3]

/-- Three lines, of which the second and the third have the same indentation. -/
theorem wide_run {sp u1 v1 u2 v2 : Bytes} (hsp : ∀ x ∈ sp, isSpaceChar x = true) (e1 : sp = u1 ++ v1) (e2 : sp = u2 ++ v2) (l1 : u1.length = 2046) (l2 : v1.length = 2049)
    (l3 : u2.length = 2045) (l4 : v2.length = 2050) (hi : inp = b!"a\n" ++ (sp ++ (b!"b\n" ++ (sp ++ b!"c\n")))) (hL : inp.length < L) (hb : Tracks inp 0 (Cur.start inp) b) :
    ∃ b' e', (ogdl E L false (F + 20)).run bufM b {} = .ok ((), b', e') ∧ e'.Ok ∧ e'.items = [(0, .str b!"a"), (1, .str b!"b"), (2, .str b!"c")] := by
  have hwa : Word b!"a" := ⟨by decide, _, _, rfl, by decide, by decide, by decide, by decide⟩
  have hwb : Word b!"b" := ⟨by decide, _, _, rfl, by decide, by decide, by decide, by decide⟩
  have hwc : Word b!"c" := ⟨by decide, _, _, rfl, by decide, by decide, by decide, by decide⟩
  have hl : inp.length = 8196 := by
    rw [hi]
    simp only [List.length_append, List.length_cons, List.length_nil]
    have := congrArg List.length e1
    rw [List.length_append] at this
    omega
  have ls : sp.length = 4095 := by rw [e1, List.length_append]; omega
  have hs1 : ∀ x ∈ v1, isSpaceChar x = true := fun x hx => hsp x (by rw [e1]; simp [hx])
  have hs2 : ∀ x ∈ v2, isSpaceChar x = true := fun x hx => hsp x (by rw [e2]; simp [hx])
  have h0 : Rest inp ([] ++ (b!"a" ++ [10] ++ (sp ++ (b!"b\n" ++ (sp ++ b!"c\n"))))) b := ⟨_, hi, hb⟩
  obtain ⟨b0, pre, rs, g1, g2⟩ := rest_space h0 nofun (by intro c hc; cases hc; rfl) hL {}
  have hend : ∀ b e, Rest inp [] b → ∃ b', (tree E L false (F + 17) 0).run bufM b e = .ok ((), b', e) := fun b e h => tree_end0 (F := F + 15) h hL e
  have hogdl : (ogdl E L false (F + 20)).run bufM b {} = (tree E L false (F + 20) 0).run bufM b0 {} := by
    simp only [ogdl, Prog.run_bind_ok g1]
    rfl
  rw [hogdl]
  obtain ⟨b1, x1, g3, g4, g5, g6, g7⟩ := line_word (E := E) (F := F + 18) (e := {}) hwa (by decide) (sp := []) (Spec.Rest.mk g2) nofun (by intro c hc; cases hc; rfl) hL Ev.ok_empty
  have t1 : (tree E L false (F + 20) 0).run bufM b0 {} = (tree E L false (F + 19) 0).run bufM b1 x1 := tree_true g3
  rw [t1]
  rw [show sp ++ (b!"b\n" ++ (sp ++ b!"c\n")) = u1 ++ v1 ++ 98 :: 10 :: (sp ++ b!"c\n") by rw [← e1]; rfl] at g4
  obtain ⟨b2, g8, g9⟩ := line_wide (E := E) (F := F + 15) (ns := 0) (q := 1) (e := x1) g4 (by rw [← e1]; exact hsp) (by decide) (by omega)
    (by simp only [List.length_append, List.length_cons, List.length_nil]; omega) (by omega) (by omega) (by rintro rfl; simp at l1) (by omega) hL g5
  have t2 : (tree E L false (F + 19) 0).run bufM b1 x1 = (tree E L false (F + 18) 0).run bufM b2 x1.inc.dec := tree_true g8
  rw [t2]
  obtain ⟨b3, x3, g10, g11, g12, g13⟩ := line_in (E := E) (F := F + 14) (ns := 0) (q := 1) (e := x1.inc.dec) (rest := sp ++ b!"c\n")
    (Q := fun b' e' => Rest inp [] b' ∧ e'.Ok ∧ e'.items = [(0, .str b!"a"), (1, .str b!"b"), (2, .str b!"c")]) hwb (by decide) g9 hs1 (by intro c hc; cases hc; rfl) (by omega)
    (by simp only [List.length_append, List.length_cons, List.length_nil]; omega) (by omega) (by omega) (by omega) hL g5.inc.dec (by
      intro b4 x4 k1 k2 k3 k4
      rw [show sp ++ b!"c\n" = u2 ++ v2 ++ 99 :: 10 :: [] by rw [← e2]] at k1
      obtain ⟨b5, k5, k6⟩ := line_wide (E := E) (F := F + 11) (ns := v1.length) (q := 3) (e := x4) k1 (by rw [← e2]; exact hsp) (by decide) (by omega)
        (by simp only [List.length_append, List.length_cons, List.length_nil]; omega) (by omega) (by omega) (by rintro rfl; simp at l3) (by omega) hL k2
      have t4 : (tree E L false (F + 14 + 1) v1.length).run bufM b4 x4 = (tree E L false (F + 14) v1.length).run bufM b5 x4.inc.dec := tree_true k5
      rw [t4]
      obtain ⟨b6, x6, k7, k8, k9, k10⟩ := line_in (E := E) (F := F + 10) (ns := v1.length) (q := 3) (e := x4.inc.dec) (rest := [])
        (Q := fun b' e' => Rest inp [] b' ∧ e'.Ok ∧ e'.items = [(0, .str b!"a"), (1, .str b!"b"), (2, .str b!"c")]) hwc (by decide) k6 hs2 (by intro c hc; cases hc; rfl) (by omega)
        (by simp only [List.length_append, List.length_cons, List.length_nil]; omega) (by omega) (by omega) (by omega) hL k2.inc.dec (by
          intro b7 x7 m1 m2 m3 m4
          obtain ⟨b8, m5, m6⟩ := tree_end (E := E) (F := F + 9) (ns := v2.length) m1 (by omega) hL x7
          refine ⟨b8, x7, m5, m6, m2.dec, ?_⟩
          show x7.items = _
          rw [m3]
          show x4.items ++ [(x4.current + 1 - 1 + 1, _)] = _
          rw [k3, k4]
          show x1.items ++ [(x1.current + 1 - 1 + 1, _)] ++ [(x1.current + 1 - 1 + 1 + 1 - 1 + 1, _)] = _
          rw [g6, g7]
          rfl)
      have t5 : (tree E L false (F + 14) v1.length).run bufM b5 x4.inc.dec = (tree E L false (F + 13) v1.length).run bufM b6 x6 := tree_true k7
      rw [t5]
      obtain ⟨b9, m7, m8⟩ := tree_end (E := E) (F := F + 11) (ns := v1.length) k8 (by omega) hL x6
      exact ⟨b9, x6, m7, m8, k9.dec, k10⟩)
  have t3 : (tree E L false (F + 18) 0).run bufM b2 x1.inc.dec = (tree E L false (F + 17) 0).run bufM b3 x3 := tree_true g10
  rw [t3]
  obtain ⟨b10, g14⟩ := hend b3 x3 g11
  exact ⟨b10, x3, g14, g12, g13⟩

end Ogdl
