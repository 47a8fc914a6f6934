import Verif.Lemmas.ParseExact
import Verif.Lemmas.Truncate
import Verif.Lemmas.Text
import Verif.Spec.Indent

/-!
# Lemmas on indentation
-/

namespace Ogdl.Indent
open Spec Spec.Indent Lex

theorem spread_eq : ∀ (vs : List Val) (d : Nat), spread d vs = lineItems d vs
  | [], _ => rfl
  | v :: vs, d => by simp [spread, lineItems, spread_eq vs]

theorem rank_skip (bef : List Nat) (j : Nat) : ∀ P : List Nat, (∀ c ∈ P, j ≤ c) → rank (P ++ bef) j = rank bef j
  | [], _ => rfl
  | c :: P, h => by
    have hc := h c (by simp)
    simp only [List.cons_append, rank, show ¬ c < j by omega, ↓reduceIte]
    exact rank_skip bef j P fun c hc => h c (by simp [hc])

theorem items_append : ∀ (P Q : List (Nat × List Val)) (bef : List Nat),
    items bef (P ++ Q) = items bef P ++ items ((P.map (·.1)).reverse ++ bef) Q
  | [], _, _ => rfl
  | (i, vs) :: P, Q, bef => by
    simp [items, items_append P Q]

/-! ## What the parser does -/

/-- What follows the indentation of a line is not blank. -/
theorem written_head {E : Ext} {types : Bool} {n : Nat} {vs : List Val} {b : Bytes} (h : Written E types n vs b) :
    ∃ c t', b = c :: t' ∧ isSpaceChar c = false ∧ isEndChar c = false := by
  cases h with
  | values hl _ =>
    obtain ⟨c, t', rfl, hc, _⟩ := lineOf_head hl
    exact ⟨c, _, rfl, not_space_of_lt hc, not_end_of_lt (.inl (UInt8.le_of_lt hc))⟩
  | @noted _ t c b hp _ _ =>
    obtain ⟨x, t', hx, hc, _⟩ := prefixOf_head hp (35 :: b :: c ++ [10]) ⟨35, _, rfl, by decide, by decide⟩
    refine ⟨x, t', by simpa using hx, not_space_of_lt hc, not_end_of_lt (.inl (UInt8.le_of_lt hc))⟩
  | empty he =>
    rcases he with rfl | rfl
    · exact ⟨10, _, rfl, by decide, by decide⟩
    · exact ⟨13, _, rfl, by decide, by decide⟩
  | comma => exact ⟨44, _, rfl, by decide, by decide⟩

theorem rows_head {E : Ext} {types : Bool} {i : Nat} {vs : List Val} {ls : List (Nat × List Val)} {t : Bytes}
    (h : Rows E types ((i, vs) :: ls) t) :
    indent t = i ∧ t ≠ [] ∧ (∀ c, t.head? = some c → isEndChar c = false) ∧ Blank (t.take i) := by
  have key : ∀ (s : Bytes) (c : UInt8) (t' : Bytes), Blank s → isSpaceChar c = false → isEndChar c = false →
      indent (s ++ c :: t') = s.length ∧ s ++ c :: t' ≠ [] ∧ (∀ d, (s ++ c :: t').head? = some d → isEndChar d = false) ∧
        Blank ((s ++ c :: t').take s.length) := by
    intro s c t' hs hc he
    refine ⟨by rw [indent_app hs (by simpa using hc)], by simp, ?_, by simpa using hs⟩
    intro d hd
    cases s with
    | nil => simp at hd; rw [← hd]; exact he
    | cons x s =>
      simp at hd
      subst hd
      rcases hs x (by simp) with rfl | rfl <;> decide
  cases h with
  | cons hs hb _ =>
    obtain ⟨c, t', rfl, h1, h2⟩ := written_head hb
    exact key _ c _ hs h1 h2
  | @block t eol b rest vs bs k _ hp =>
    obtain ⟨x, t', hx, hc, _⟩ := prefixOf_head hp (92 :: (eol ++ (b ++ rest))) ⟨92, _, rfl, by decide, by decide⟩
    rw [hx]
    exact key [] x t' (by simp [Blank]) (not_space_of_lt hc) (not_end_of_lt (.inl (UInt8.le_of_lt hc)))
  | last hs hl =>
    obtain ⟨c, t', rfl, hc, _⟩ := lineOf_head hl
    exact key _ c _ hs (not_space_of_lt hc) (not_end_of_lt (.inl (UInt8.le_of_lt hc)))

theorem rows_nil {E : Ext} {types : Bool} {t : Bytes} (h : Rows E types [] t) : t = [] := by
  cases h; rfl

/-- A line. -/
theorem run_written {E : Ext} {types : Bool} {n : Nat} {vs : List Val} {b : Bytes} (h : Written E types n vs b)
    (rest : Bytes) {L : Nat} (rs : List Nat) (pre : Bytes) (e : Ev) (he : e.Ok) (hL : (b ++ rest).length < L) :
    ∃ pre' e', (lineHere E L types n).run curM ⟨pre, b ++ rest, 0, rs⟩ e =
        .ok (true, ⟨pre', rest, 0, rs⟩, e') ∧ e'.Ok ∧ e'.items = e.items ++ spread e.current vs ∧
        e'.current = e.current := by
  rw [spread_eq]
  cases h with
  | values hl heol => exact run_lineHere hl _ rest heol rs pre e he hL
  | @noted _ t c b hp hb hc =>
    have := run_lineHere_noted hp c rest b hb hc (L := L) rs pre e he (by simpa using hL)
    simpa using this
  | empty heol =>
    refine ⟨_, _, run_lineHere_blank b rest heol rs pre e (by omega), he.setLevel _, ?_, rfl⟩
    simp [lineItems, Ev.setLevel]
  | @comma _ sp t eol hsp hl heol =>
    obtain ⟨c, t', hct, hc, h44⟩ := lineOf_head hl
    simp only [List.cons_append, List.append_assoc, List.length_cons, List.length_append] at hL ⊢
    obtain ⟨k, hs⟩ := run_space_app (t := t ++ (eol ++ rest)) hsp (by simpa [hct] using not_space_of_lt hc) (44 :: pre) rs e (L := L) (by simp; omega)
    obtain ⟨pre', e', h1, h2, h3⟩ := run_lineBody hl eol rest heol (L := L) rs (sp.reverse ++ 44 :: pre) e L he (by simp; omega) (by simp; omega)
    refine ⟨pre', e'.setLevel e.current, ?_, h2.setLevel _, h3, rfl⟩
    rw [List.append_assoc] at h1
    simp only [lineHere, Prog.run_bind, run_evLevel, run_endp_false _ _ 44 rs e (by decide), Bool.false_eq_true, ↓reduceIte,
      run_peekByte_cons, beq_self_eq_true, run_byte0_cons, hs, h1, run_evSetLevel, Prog.run_pure]

/-- The indentation of the next line, if it is more than `ns`. -/
def deeper (ns : Nat) : List (Nat × List Val) → Nat
  | [] => 0
  | (i, _) :: _ => if ns < i then 1 else 0

theorem deeper_le (ns : Nat) (ls : List (Nat × List Val)) : deeper ns ls ≤ 1 := by
  cases ls with
  | nil => simp [deeper]
  | cons a ls => simp only [deeper]; split <;> omega

/-- `tree` reads the lines that are indented by `ns` or more. -/
theorem rows_run {E : Ext} {types : Bool} {L : Nat} : ∀ (k : Nat) (ls : List (Nat × List Val)) (t : Bytes) (ns : Nat)
    (bef : List Nat) (pre : Bytes) (o : Nat) (rs : List Nat) (e : Ev),
    2 * ls.length + deeper ns ls < k → Rows E types ls t → e.Ok → (o = 0 ∨ t = []) → t.length < L →
    (ls ≠ [] → rank bef ns = e.current) →
    (∀ i vs ls', ls = (i, vs) :: ls' → ∀ j, ns < j → j ≤ i → rank bef j = e.current + 1) →
    ∃ pre' o' e' t', Rows E types (ls.dropWhile (ns ≤ ·.1)) t' ∧ t'.length ≤ t.length ∧ (o' = 0 ∨ t' = []) ∧ e'.Ok ∧
      (t' ≠ [] → e'.current = e.current) ∧ e'.items = e.items ++ items bef (ls.takeWhile (ns ≤ ·.1)) ∧
      TreeRuns E L types ns ⟨pre, t, o, rs⟩ e ⟨pre', t', o', rs⟩ e' := by
  intro k
  induction k with
  | zero => intro _ _ _ _ _ _ _ _ h; omega
  | succ k ih =>
    intro ls t ns bef pre o rs e hk hr he ho hL hd hj
    cases ls with
    | nil =>
      obtain rfl := rows_nil hr
      exact ⟨pre, 1, e, [], .nil, by simp, .inr rfl, he, by simp, by simp [items], TreeRuns.eof (by omega)⟩
    | cons row ls =>
      obtain ⟨i, vs⟩ := row
      obtain ⟨h1, h2, h3, -⟩ := rows_head hr
      have ho : o = 0 := ho.resolve_right h2
      subst ho
      have hd := hd (by simp)
      rcases Nat.lt_trichotomy i ns with hlt | rfl | hgt
      · -- less indented
        obtain ⟨c, t', rfl⟩ := List.exists_cons_of_ne_nil h2
        refine ⟨pre, 0, e, c :: t', ?_, Nat.le_refl _, .inl rfl, he, fun _ => rfl, ?_, ?_⟩
        · rw [List.dropWhile_cons_of_neg (by simpa using hlt)]; exact hr
        · rw [List.takeWhile_cons_of_neg (by simpa using hlt)]; simp [items]
        · exact TreeRuns.done (run_line_less (F := 0) (.inl rfl) (by omega) hL) (run_endp_false _ _ _ _ _ (h3 c rfl))
      · -- the same indentation
        rw [List.dropWhile_cons_of_pos (by simp), List.takeWhile_cons_of_pos (by simp)]
        simp only [items, hd]
        cases hr with
        | @last s u _ hs hl =>
          obtain ⟨c, u', rfl, hc, _⟩ := lineOf_head hl
          obtain ⟨pre', e', g1, g2, g3⟩ := run_lineHere_open hl (L := L) rs (s.reverse ++ pre) e he (by simp at hL ⊢; omega)
          refine ⟨pre', 1, e', [], by simpa using Rows.nil, by simp, .inr rfl, g2, by simp, ?_, ?_⟩
          · rw [g3, spread_eq]; simp [items]
          · refine TreeRuns.done (F := 1) (s1 := ⟨pre', [], 1, rs⟩) ?_ (run_endp_nil _ _ _ _)
            rw [run_line_here hs rfl (by simpa using not_space_of_lt hc) hL]
            exact g1
        | @block t eol b rest vs bs k _ hp heol hlast hb hrest hr =>
          obtain ⟨pre0, e0, g1, g2, g3, g4⟩ := run_lineHere_block (types := types) hp heol hlast hb
            (fun c hc => by have := hrest c hc; simp [isSpaceChar, this.1, this.2.1]) (fun c hc => (hrest c hc).2.2)
            (L := L) rs pre e he hL
          have hfirst : (line E L types 1 0).run curM ⟨pre, t ++ (92 :: (eol ++ (b ++ rest))), 0, rs⟩ e = .ok (true, ⟨pre0, rest, 0, rs⟩, e0) := by
            have hh := run_line_here (E := E) (types := types) (F := 0) (n := 0) (L := L) (s := []) (t := t ++ (92 :: (eol ++ (b ++ rest)))) (pre := pre) (rs := rs) (e := e)
              (by simp [Blank]) rfl (by
                obtain ⟨x, t', hx, hc, _⟩ := prefixOf_head hp (92 :: (eol ++ (b ++ rest))) ⟨92, _, rfl, by decide, by decide⟩
                rw [hx]
                simpa using not_space_of_lt hc) hL
            simp only [List.nil_append, List.reverse_nil] at hh
            rw [hh]
            exact g1
          obtain ⟨pre1, o1, e1, t1, k1, k2, k3, k4, k5, k6, k7⟩ := ih ls rest 0 (0 :: bef) pre0 0 rs e0
            (by have := deeper_le 0 ls; simp [deeper] at hk; omega) hr g2 (.inl rfl) (by simp at hL; omega)
            (fun _ => by simp [rank, hd, g4])
            (fun i vs ls' _ j hj _ => by simp [rank, hj, hd, g4])
          refine ⟨pre1, o1, e1, t1, k1, by simp; omega, k3, k4, fun h => by rw [k5 h, g4], ?_, TreeRuns.step hfirst k7⟩
          rw [k6, g3, spread_eq]; simp
        | @cons s b t _ _ hs hb hr =>
          obtain ⟨c, b', hbc, hsp, _⟩ := written_head hb
          obtain ⟨pre0, e0, g1, g2, g3, g4⟩ := run_written hb t (L := L) rs (s.reverse ++ pre) e he (by simp at hL ⊢; omega)
          have hfirst : (line E L types 1 s.length).run curM ⟨pre, s ++ (b ++ t), 0, rs⟩ e = .ok (true, ⟨pre0, t, 0, rs⟩, e0) := by
            rw [run_line_here hs rfl (by simpa [hbc] using hsp) hL]
            exact g1
          obtain ⟨pre1, o1, e1, t1, k1, k2, k3, k4, k5, k6, k7⟩ := ih ls t s.length (s.length :: bef) pre0 0 rs e0
            (by have := deeper_le s.length ls; simp [deeper] at hk; omega) hr g2 (.inl rfl) (by simp at hL; omega)
            (fun _ => by simp [rank, hd, g4])
            (fun i vs ls' _ j hj _ => by simp [rank, hj, hd, g4])
          refine ⟨pre1, o1, e1, t1, k1, by simp; omega, k3, k4, fun h => by rw [k5 h, g4], ?_, TreeRuns.step hfirst k7⟩
          rw [k6, g3]; simp
      · -- more indented
        have hfr := hj i vs ls rfl
        obtain ⟨pre1, o1, e1, t1, k1, k2, k3, k4, k5, k6, k7⟩ := ih ((i, vs) :: ls) t i bef pre 0 rs e.inc
          (by simp [deeper, hgt] at hk ⊢; omega) hr he.inc (.inl rfl) hL
          (fun _ => by simpa [Ev.inc] using hfr i hgt (Nat.le_refl _))
          (fun i' vs' ls' h j hj1 hj2 => by simp at h; omega)
        -- the lines of the subtree, and those after it
        have hsplit := List.takeWhile_append_dropWhile (p := fun r : Nat × List Val => decide (i ≤ r.1)) (l := (i, vs) :: ls)
        generalize hP : ((i, vs) :: ls).takeWhile (fun r => decide (i ≤ r.1)) = P at hsplit k6
        generalize hQ : ((i, vs) :: ls).dropWhile (fun r => decide (i ≤ r.1)) = Q at hsplit k1
        have hPi : ∀ r ∈ P, i ≤ r.1 := by
          intro r hr
          have := List.all_takeWhile (p := fun r : Nat × List Val => decide (i ≤ r.1)) (l := (i, vs) :: ls)
          rw [hP, List.all_eq_true] at this
          simpa using this r hr
        have hPn : ∀ r ∈ P, decide (ns ≤ r.1) = true := by
          intro r hr
          have := hPi r hr
          simp; omega
        have hlen : Q.length + 1 ≤ ((i, vs) :: ls).length := by
          rw [← hsplit]
          have : P ≠ [] := by rw [← hP]; simp
          have := List.length_pos_iff.2 this
          simp; omega
        have hQi : ∀ i' vs' ls', Q = (i', vs') :: ls' → i' < i := by
          intro i' vs' ls' h
          have := List.head?_dropWhile_not (fun r : Nat × List Val => decide (i ≤ r.1)) ((i, vs) :: ls)
          rw [hQ, h] at this
          simpa using this
        have hbef : ∀ j, j ≤ i → rank ((P.map (·.1)).reverse ++ bef) j = rank bef j := by
          intro j hj
          refine rank_skip bef j _ fun c hc => ?_
          simp only [List.mem_reverse, List.mem_map] at hc
          obtain ⟨r, hr, rfl⟩ := hc
          have := hPi r hr
          omega
        have hQne : Q ≠ [] → t1 ≠ [] := by
          intro hne
          obtain ⟨q, Q', rfl⟩ := List.exists_cons_of_ne_nil hne
          exact (rows_head (i := q.1) (vs := q.2) k1).2.1
        obtain ⟨pre2, o2, e2, t2, l1, l2, l3, l4, l5, l6, l7⟩ := ih Q t1 ns ((P.map (·.1)).reverse ++ bef) pre1 o1 rs e1.dec
          (by have := deeper_le ns Q; simp [deeper, hgt] at hk hlen; omega) k1 k4.dec k3 (by omega)
          (fun hne => by
            rw [hbef ns (by omega), hd]
            simp [Ev.dec, k5 (hQne hne), Ev.inc])
          (fun i' vs' ls' h j hj1 hj2 => by
            have := hQi _ _ _ h
            rw [hbef j (by omega), hfr j hj1 (by omega)]
            simp [Ev.dec, k5 (hQne (by rw [h]; simp)), Ev.inc])
        refine ⟨pre2, o2, e2, t2, ?_, by omega, l3, l4, ?_, ?_, ?_⟩
        · rw [← hsplit, List.dropWhile_append_of_pos hPn]; exact l1
        · intro hne
          rw [l5 hne]
          have : t1 ≠ [] := by rintro rfl; simp at l2; exact hne l2
          simp [Ev.dec, k5 this, Ev.inc]
        · rw [← hsplit, List.takeWhile_append_of_pos hPn, items_append, l6]
          simp [Ev.dec, k6, Ev.inc]
        · obtain ⟨F, hF⟩ := k7
          refine TreeRuns.step (F := F + 1) (s1 := ⟨pre1, t1, o1, rs⟩) (e1 := e1.dec) ?_ l7
          rw [run_line_more (by omega) hL, h1]
          simp only [Prog.run_bind, hF, run_evDec, Prog.run_pure]

/-- The tree of a text. -/
theorem parseText_rows {E : Ext} {types : Bool} {i : Nat} {vs : List Val} {ls : List (Nat × List Val)} {t : Bytes}
    (h : Rows E types ((i, vs) :: ls) t) (hu : (∀ c ∈ t.take i, c = 32) ∨ (∀ c ∈ t.take i, c = 9)) :
    parseText E types t = .ok (.node (.str b!"_") (below 0 (items [] (((i, vs) :: ls).takeWhile (i ≤ ·.1))))) := by
  obtain ⟨a, s', e', hrun, _⟩ := ogdl_tot E types t (L := loopFuel t) (F := treeFuel t)
    (by simp [loopFuel]) (by simp [treeFuel]) {} Ev.ok_empty
  have hL : t.length < loopFuel t := by simp [loopFuel]
  obtain ⟨hind, -, -, -⟩ := rows_head h
  obtain ⟨pre1, o1, e1, t1, -, -, -, k4, -, k6, F, k7⟩ := rows_run (E := E) (types := types) (L := loopFuel t) _ _ t i [] [] 0 [] {}
    (Nat.lt_succ_self _) h Ev.ok_empty (.inl rfl) hL (fun _ => rfl) (fun _ _ _ h j hj1 hj2 => by simp at h; omega)
  have hkind : spaceKind (t.takeWhile isSpaceChar) ≠ 0 := by
    rw [takeWhile_eq_take]
    change spaceKind (t.take (indent t)) ≠ 0
    rw [hind]
    exact hu.elim spaceKind_spaces spaceKind_tabs
  have hopen : ∀ F, (ogdl E (loopFuel t) types F).run curM (Cur.start t) {} =
      (tree E (loopFuel t) types F i).run curM (Cur.start t) {} := by
    intro F
    simp only [ogdl, Prog.run_bind, Cur.start, run_space (loopFuel t) t [] 0 [] {} (.inl rfl) hL]
    simp only [beq_iff_eq, hkind, ↓reduceIte, Prog.run_bind, run_unspace]
    rw [← hind]; rfl
  have h3 : (ogdl E (loopFuel t) types F).run curM (Cur.start t) {} = .ok ((), ⟨pre1, t1, o1, []⟩, e1) := by
    rw [hopen]; exact k7
  have hle := Nat.le_max_left (treeFuel t) F
  have hle2 := Nat.le_max_right (treeFuel t) F
  have r1 := (ogdl_le E (Nat.le_refl (loopFuel t)) types hle).run (Cur.start t) {} (by rw [hrun]; simp)
  have r2 := (ogdl_le E (Nat.le_refl (loopFuel t)) types hle2).run (Cur.start t) {} (by rw [h3]; simp)
  rw [r1, hrun, h3] at r2
  simp only [Res.ok.injEq, Prod.mk.injEq] at r2
  obtain ⟨-, -, rfl⟩ := r2
  simp only [parseText, hrun]
  have k6 : e'.items = items [] (((i, vs) :: ls).takeWhile (i ≤ ·.1)) := by simpa using k6
  rw [← k6]
  exact tree_below e' k4.2

theorem fromReader_rows {E : Ext} {types : Bool} {i : Nat} {vs : List Val} {ls : List (Nat × List Val)} {t : Bytes}
    (h : Rows E types ((i, vs) :: ls) t) (hu : (∀ c ∈ t.take i, c = 32) ∨ (∀ c ∈ t.take i, c = 9)) (hs : ShortRuns t) :
    fromReader E types { data := t } =
      .ok (.node (.str b!"_") (below 0 (items [] (((i, vs) :: ls).takeWhile (i ≤ ·.1))))) := by
  have hd : delivered { data := t } = t := delivered_full _ ⟨rfl, by simp⟩
  rw [fromReader_parseText _ _ _ (by rw [hd]; exact Spec.ShortRuns.spaces hs), hd]
  exact parseText_rows h hu

/-! ## The trees of lines -/

theorem harmless_tail {r : Nat × List Val} {ls : List (Nat × List Val)} (h : Harmless (r :: ls)) : Harmless ls := by
  cases ls with
  | nil => trivial
  | cons q ls => exact h.2

theorem harmless_left : ∀ {P Q : List (Nat × List Val)}, Harmless (P ++ Q) → Harmless P
  | [], _, _ => trivial
  | [_], _, _ => trivial
  | (i, vs) :: (j, ws) :: P, Q, h => ⟨h.1, harmless_left (P := (j, ws) :: P) h.2⟩

theorem harmless_right : ∀ {P Q : List (Nat × List Val)}, Harmless (P ++ Q) → Harmless Q
  | [], _, h => h
  | _ :: P, _, h => harmless_right (P := P) (harmless_tail h)

theorem items_trees : ∀ (k : Nat) (ls : List (Nat × List Val)) (bef : List Nat) (m d : Nat), ls.length < k → Harmless ls →
    (∀ r ∈ ls, m ≤ r.1) → (∀ i vs ls', ls = (i, vs) :: ls' → ∀ j, m ≤ j → j ≤ i → rank bef j = d) →
    items bef ls = preorderL d (trees ls) := by
  intro k
  induction k with
  | zero => intro _ _ _ _ h; omega
  | succ k ih =>
    intro ls bef m d hk hh hm hd
    match ls, hk, hh, hm, hd with
    | [], _, _, _, _ => simp [items, trees, preorderL]
    | (i, []) :: ls, hk, hh, hm, hd =>
      have hd0 := hd _ _ _ rfl
      rw [items, trees, spread, List.nil_append]
      refine ih ls (i :: bef) m d (by simp at hk; omega) (harmless_tail hh) (fun r hr => hm r (by simp [hr])) ?_
      rintro i' vs' ls' rfl j hj1 hj2
      have : i' ≤ i := hh.1 rfl
      simp only [rank, show ¬ i < j by omega, ↓reduceIte]
      exact hd0 j hj1 (by omega)
    | (i, v :: vs) :: ls, hk, hh, hm, hd =>
      have hd := hd _ _ _ rfl
      have hmi := hm _ (by simp : (i, v :: vs) ∈ _)
      simp only at hmi
      have hsplit := List.takeWhile_append_dropWhile (p := fun r : Nat × List Val => decide (i < r.1)) (l := ls)
      rw [items, trees, hd i hmi (Nat.le_refl _)]
      generalize hP : ls.takeWhile (fun r => decide (i < r.1)) = P at hsplit
      generalize hQ : ls.dropWhile (fun r => decide (i < r.1)) = Q at hsplit
      have hPi : ∀ r ∈ P, i + 1 ≤ r.1 := by
        intro r hr
        have := List.all_takeWhile (p := fun r : Nat × List Val => decide (i < r.1)) (l := ls)
        rw [hP, List.all_eq_true] at this
        exact Nat.succ_le_of_lt (by simpa using this r hr)
      have hQi : ∀ i' vs' ls', Q = (i', vs') :: ls' → i' ≤ i := by
        intro i' vs' ls' h
        have := List.head?_dropWhile_not (fun r : Nat × List Val => decide (i < r.1)) ls
        rw [hQ, h] at this
        simpa using this
      have hh := harmless_tail hh
      rw [← hsplit] at hh hk hm ⊢
      rw [items_append, ih P (i :: bef) (i + 1) (d + 1) (by simp at hk; omega) (harmless_left hh) hPi
          (fun _ _ _ _ j hj _ => by simp only [rank, show i < j by omega, ↓reduceIte, hd i hmi (Nat.le_refl _)]),
        ih Q _ m d (by simp at hk; omega) (harmless_right hh) (fun r hr => hm r (by simp [hr]))
          (fun i' vs' ls' h j hj1 hj2 => by
            have := hQi _ _ _ h
            rw [rank_skip _ j]
            · simp only [rank, show ¬ i < j by omega, ↓reduceIte]
              exact hd j hj1 (by omega)
            · intro c hc
              simp only [List.mem_reverse, List.mem_map] at hc
              obtain ⟨r, hr, rfl⟩ := hc
              have := hPi r hr
              omega)]
      simp [spread_eq, preorderL, preorder, preorderL_append, preorderL_chain, lineItems]

theorem trees_noNil : ∀ (k : Nat) (ls : List (Nat × List Val)), ls.length < k → NoNilL (trees ls) := by
  intro k
  induction k with
  | zero => intro _ h; omega
  | succ k ih =>
    intro ls hk
    match ls, hk with
    | [], _ => simp [trees, NoNilL]
    | (i, []) :: ls, hk => rw [trees]; exact ih ls (by simp at hk; omega)
    | (i, v :: vs) :: ls, hk =>
      rw [trees]
      have h1 := (List.takeWhile_prefix (l := ls) (i < ·.1)).length_le
      have h2 := (List.dropWhile_suffix (l := ls) (i < ·.1)).length_le
      simp only [List.length_cons] at hk
      exact ⟨noNilL_append _ _ (noNilL_chain _) (ih _ (by omega)), ih _ (by omega)⟩

/-- The items of the lines are those of their trees. -/
theorem below_items {ls : List (Nat × List Val)} (h : Harmless ls) : below 0 (items [] ls) = trees ls := by
  rw [items_trees _ ls [] 0 0 (Nat.lt_succ_self _) h (fun _ _ => Nat.zero_le _) (fun _ _ _ _ _ _ _ => rfl)]
  exact below_preorder _ (trees_noNil _ ls (Nat.lt_succ_self _))

/-! ## Lines without values -/

theorem items_filter : ∀ (ls : List (Nat × List Val)) (bef bef' : List Nat), Harmless ls →
    (∀ i vs ls', ls = (i, vs) :: ls' → ∀ j, j ≤ i → rank bef j = rank bef' j) →
    items bef ls = items bef' (ls.filter (!·.2.isEmpty))
  | [], _, _, _, _ => rfl
  | (i, []) :: ls, bef, bef', hh, hr => by
    have hr0 := hr _ _ _ rfl
    rw [items, spread, List.nil_append, List.filter_cons_of_neg (by simp)]
    refine items_filter ls (i :: bef) bef' (harmless_tail hh) ?_
    rintro i' vs' ls' rfl j hj
    have : i' ≤ i := hh.1 rfl
    simp only [rank, show ¬ i < j by omega, ↓reduceIte]
    exact hr0 j (by omega)
  | (i, v :: vs) :: ls, bef, bef', hh, hr => by
    have hr0 := hr _ _ _ rfl
    rw [items, List.filter_cons_of_pos (by simp), items, hr0 i (Nat.le_refl _)]
    congr 1
    refine items_filter ls (i :: bef) (i :: bef') (harmless_tail hh) ?_
    intro _ _ _ _ j _
    simp only [rank]
    split
    · rw [hr0 i (Nat.le_refl _)]
    · exact hr0 j (by omega)

theorem harmless_of_values : ∀ ls : List (Nat × List Val), (∀ r ∈ ls, r.2 ≠ []) → Harmless ls
  | [], _ => trivial
  | [_], _ => trivial
  | (i, vs) :: (j, ws) :: ls, h =>
    ⟨fun hv => absurd hv (h (i, vs) (by simp)), harmless_of_values ((j, ws) :: ls) fun r hr => h r (by simp [hr])⟩

theorem trees_filter {ls : List (Nat × List Val)} (h : Harmless ls) : trees ls = trees (ls.filter (!·.2.isEmpty)) := by
  rw [← below_items h, ← below_items (harmless_of_values _ fun r hr => by simpa using (List.mem_filter.1 hr).2),
    items_filter ls [] [] h fun _ _ _ _ _ _ => rfl]

theorem fromReader_trees {E : Ext} {types : Bool} {i : Nat} {vs : List Val} {ls : List (Nat × List Val)} {t : Bytes}
    (h : Rows E types ((i, vs) :: ls) t) (hu : (∀ c ∈ t.take i, c = 32) ∨ (∀ c ∈ t.take i, c = 9)) (hs : ShortRuns t)
    (hi : ∀ r ∈ ls, i ≤ r.1) (hh : Harmless ((i, vs) :: ls)) :
    fromReader E types { data := t } = .ok (.node (.str b!"_") (trees ((i, vs) :: ls))) := by
  have : ((i, vs) :: ls).takeWhile (fun r => decide (i ≤ r.1)) = (i, vs) :: ls := by
    have h1 := List.takeWhile_append_of_pos (p := fun r : Nat × List Val => decide (i ≤ r.1)) (l₁ := (i, vs) :: ls) (l₂ := [])
      (by
        intro r hr
        rcases List.mem_cons.1 hr with rfl | hr
        · simp
        · simpa using hi r hr)
    simpa using h1
  rw [fromReader_rows h hu hs, this, below_items hh]

/-! ## Other widths -/

theorem trees_map {f : Nat → Nat} (hf : ∀ i j, i < j ↔ f i < f j) : ∀ (k : Nat) (ls : List (Nat × List Val)), ls.length < k →
    trees (ls.map fun r => (f r.1, r.2)) = trees ls := by
  intro k
  induction k with
  | zero => intro _ h; omega
  | succ k ih =>
    intro ls hk
    match ls, hk with
    | [], _ => rfl
    | (i, []) :: ls, hk =>
      rw [List.map_cons, trees, trees]
      exact ih ls (by simp at hk; omega)
    | (i, v :: vs) :: ls, hk =>
      have h1 := (List.takeWhile_prefix (l := ls) (i < ·.1)).length_le
      have h2 := (List.dropWhile_suffix (l := ls) (i < ·.1)).length_le
      simp only [List.length_cons] at hk
      rw [List.map_cons, trees, trees, List.takeWhile_map, List.dropWhile_map]
      have hc : ((fun r : Nat × List Val => decide (f i < r.1)) ∘ fun r : Nat × List Val => (f r.1, r.2)) = fun r : Nat × List Val => decide (i < r.1) := by
        funext r
        simp only [Function.comp_apply, ← hf i r.1]
      rw [hc, ih _ (by omega), ih _ (by omega)]

theorem harmless_map {f : Nat → Nat} (hf : ∀ i j, i < j ↔ f i < f j) : ∀ ls : List (Nat × List Val), Harmless ls →
    Harmless (ls.map fun r => (f r.1, r.2))
  | [], _ => trivial
  | [_], _ => trivial
  | (i, vs) :: (j, ws) :: ls, h =>
    ⟨fun hv => by have := hf i j; have := h.1 hv; simp only; omega, harmless_map hf ((j, ws) :: ls) h.2⟩

/-- A line with one word. -/
theorem rows_word {E : Ext} {s w t : Bytes} {ls : List (Nat × List Val)} (hs : Blank s) (hw : Word w) (h92 : w ≠ [92])
    (h : Rows E false ls t) : Rows E false ((s.length, [.str w]) :: ls) (s ++ ((w ++ [10]) ++ t)) :=
  .cons hs (.values (.last (word_scal hw h92)) (.inl rfl)) h

theorem word_one {c : UInt8} (h : 97 ≤ c ∧ c ≤ 122) : Word [c] := by
  have h1 : 32 < c := by simp only [UInt8.lt_iff_toNat_lt, UInt8.le_iff_toNat_le] at *; simp at *; omega
  have h2 : ∀ d : UInt8, d < 97 → c ≠ d := by rintro d hd rfl; exact absurd (UInt8.lt_of_lt_of_le hd h.1) (UInt8.lt_irrefl _)
  exact ⟨by simpa using h1, c, [], rfl, h2 _ (by decide), h2 _ (by decide), h2 _ (by decide), h2 _ (by decide)⟩

end Ogdl.Indent
