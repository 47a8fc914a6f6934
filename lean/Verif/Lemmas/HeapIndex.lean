import Verif.Lemmas.HeapGet
import Verif.Lemmas.Calc

/-!
# Paths that end with an index
-/

namespace Ogdl
open HM Spec

variable {E : Ext} {grow : Nat → Nat → Nat}

theorem walk_append {step : Graph → HPathSt → HM (HPathStep α)} : ∀ (es es' : List Graph) {s s' : HPathSt} {h h' : Heap},
    (hWalkPath step es s).run h = (.ok (.next s'), h') → (hWalkPath step (es ++ es') s).run h = (hWalkPath step es' s').run h'
  | [], es', s, s', h, h', hr => by
    unfold hWalkPath at hr
    cases hr
    rfl
  | e :: es, es', s, s', h, h', hr => by
    rw [List.cons_append]
    rw [hWalkPath.eq_def] at hr
    rw [hWalkPath.eq_def step (e :: _)]
    dsimp only at hr ⊢
    cases hc : s.ctx with
    | none =>
      rw [hc] at hr
      cases hr
      rw [hWalkPath.eq_def]
      cases es' with
      | nil => rfl
      | cons e' es' => simp only [hc]
    | some a =>
      rw [hc] at hr
      dsimp only at hr ⊢
      obtain ⟨r, h1, h2, h3⟩ := hm_ok hr
      rw [ok_bind' h2]
      cases r with
      | done r => cases h3
      | next s1 => exact walk_append es es' h3

theorem evalExpr_number {h : Heap} {fuel f : Nat} {root : Ptr} {b : Bool} (i : Int64) :
    (hEvalExpr grow E fuel root (f + 1) (leaf (itoa i.toInt)) b).run h = (.ok (.val (ofInt64 i), none), h) := by
  have h1 : (itoa i.toInt).isEmpty = false := by simp [itoa_ne_nil]
  unfold hEvalExpr leaf
  dsimp only
  rw [vstr_str, if_neg (by rw [h1]; simp), if_pos (isNumber_itoa _)]
  simp only [number', vfloat, vint, vstr, h1, isInteger_itoa, parseInt_itoa i.le_toInt i.toInt_lt,
    Bool.false_eq_true, ↓reduceIte]
  rfl

/-- The index of an element. -/
theorem indexOf_number {h : Heap} {fuel f : Nat} {root : Ptr} {v : Val} (k : Nat) (hk : k < 2 ^ 63 - 1) :
    (hIndexOf grow E fuel root (f + 2) (.node v [leaf (itoa k)])).run h = (.ok (k : Int), h) := by
  have hi : (Int64.ofInt (k : Int)).toInt = k := Int64.toInt_ofInt_of_le (by omega) (by omega)
  have h1 := evalExpr_number (E := E) (grow := grow) (h := h) (fuel := fuel) (f := f) (root := root) (b := true) (Int64.ofInt k)
  rw [hi] at h1
  unfold hIndexOf
  dsimp only
  rw [ok_bind' h1]
  have h2 : hint (.val (ofInt64 (Int64.ofInt k))) = some (k : Int) := by
    unfold hint
    simp [ofInt64, vint, hi]
    unfold wrap64
    omega
  simp only [Option.isSome_none, Bool.false_eq_true, ↓reduceIte, h2]
  rw [if_neg (by omega)]
  rfl

theorem getAt_leads {h : Heap} (hs : Solid h) {a : Nat} {x : HVal} {ps : List Ptr} (hl : look h a = some (x, ps)) {k : Nat} {q : Ptr} (hq : ps[k]? = some q) :
    (hGetAt (some a) k).run h = (.ok q, h) := by
  obtain ⟨c, hc, hld, _, hlen, _⟩ := load_look hs hl
  have hk := (List.getElem?_eq_some_iff.1 hq).1
  unfold hGetAt
  rw [ok_bind' hld, if_neg (by omega)]
  exact index_look hs hl hc hq

/-- The node above the node found. -/
theorem bracket_leads {h : Heap} (hs : Solid h) (b : Nat) :
    ∃ r h', (hBracket grow (some b)).run h = (.ok (some r), h') ∧ Turns [] h h' ∧ look h' r = some (.val (.str b!"["), [some b]) := by
  obtain ⟨h1, hr1, t1, hl1, hlen1, _⟩ := alloc_turns hs (.val (.str b!"["))
  obtain ⟨h2, hr2, c2⟩ := add_ptr (grow := grow) (b := b) t1.solid hl1
  refine ⟨h.nodes.length, h2, ?_, (t1.trans c2.turns fun x hx => .inr ?_), ?_⟩
  · unfold hBracket hNew
    rw [ok_bind' (ok_bind' hr1), ok_bind' hr2]
    rfl
  · simp only [List.mem_singleton] at hx; omega
  · rw [c2.look]; unfold upd; rw [if_pos rfl]; rfl

/-- `Get` of a path that ends with an index. -/
theorem get_index {h : Heap} (hs : Solid h) {ids : List Bytes} {g : Graph} {a b : Nat} {n : Nat} {F X : List Nat} {x : HVal} {ps : List Ptr}
    (ld : Leads E grow h ids g (some a) F (some n) X) (hl : look h n = some (x, ps)) {k : Nat} (hk : k < 2 ^ 63 - 1) (hq : ps[k]? = some (some b)) :
    ∃ r h', (∀ fuel, (hGet grow E fuel (some a) (.node (.str tyPath) (ids.map leaf ++ [.node (.str tyIndex) [leaf (itoa k)]]))).run h = (.ok (some r), h')) ∧
      Turns [] h h' ∧ look h' r = some (.val (.str b!"["), [some b]) := by
  obtain ⟨r, h', hr, t, hlr⟩ := bracket_leads (grow := grow) hs b
  refine ⟨r, h', fun fuel => ?_, t, hlr⟩
  generalize hpg : Graph.node (.str tyPath) (ids.map leaf ++ [.node (.str tyIndex) [leaf (itoa k)]]) = pg
  show (hGetPath grow E fuel (some a) (evalFuel pg) pg >>= _).run h = _
  obtain ⟨f, hf⟩ : ∃ f, evalFuel pg = f + 4 := ⟨evalFuel pg - 4, by
    have : 4 ≤ evalFuel pg := by
      unfold evalFuel
      omega
    omega⟩
  rw [hf]
  unfold hGetPath
  have hlen : ¬ (pg.len = 0 ∨ (some a : Ptr) = none) := by
    subst hpg
    simp [Graph.len]
    omega
  rw [if_neg hlen]
  obtain ⟨s', hw, hs'⟩ := ld.get fuel (f + 1) pg (some a) { ctx := some a } rfl
  have hstep : (hGetStep grow E fuel (some a) (f + 3) pg (.node (.str tyIndex) [leaf (itoa k)]) s').run h =
      (.ok (.next { s' with ctx := some r, prev := s'.ctx }), h') := by
    unfold hGetStep
    have he : (Graph.node (.str tyIndex) [leaf (itoa k)]).thisString E = tyIndex := rfl
    simp only [he, ↓reduceIte]
    rw [ok_bind' (indexOf_number k hk), if_neg (by omega), hs', ok_bind' (getAt_leads hs hl hq), ok_bind' hr]
    rfl
  have e0 : (hWalkPath (hGetStep grow E fuel (some a) (f + 3) pg) pg.out { ctx := some a } >>= fun r =>
      match r with
      | .done r => (Pure.pure r : HM (Ptr × Option Err))
      | .next s => Pure.pure (s.ctx, none)).run h = (.ok (some r, none), h') := by
    have hw2 : (hWalkPath (hGetStep grow E fuel (some a) (f + 3) pg) pg.out { ctx := some a }).run h =
        (.ok (.next { s' with ctx := some r, prev := s'.ctx }), h') := by
      have ho : pg.out = ids.map leaf ++ [.node (.str tyIndex) [leaf (itoa k)]] := by rw [← hpg]; rfl
      rw [ho, walk_append _ _ hw]
      unfold hWalkPath
      rw [hs'] at hstep ⊢
      dsimp only
      rw [ok_bind' hstep]
      unfold hWalkPath
      rfl
    refine (ok_bind' hw2).trans ?_
    rfl
  subst hpg
  exact ok_bind' e0

/-- `Get` of a path with an index inside, followed by the name of the node found. -/
theorem get_through {h : Heap} (hs : Solid h) {ids : List Bytes} {g : Graph} {a b : Nat} {n : Nat} {F X : List Nat} {x : HVal} {ps : List Ptr}
    (ld : Leads E grow h ids g (some a) F (some n) X) (hl : look h n = some (x, ps)) {k : Nat} (hk : k < 2 ^ 63 - 1) (hq : ps[k]? = some (some b))
    {sub : Graph} {Fk : List Nat} (hh : Holds h sub (some b) Fk) (hn : NoNil sub) {id : Bytes} (hid : id ∉ stepMarks) (hname : sub.thisString E = id)
    {rest : List Bytes} (hrest : ∀ id ∈ rest, id ∉ stepMarks) (hlk : lookup E rest sub ≠ .nil) :
    ∃ q h' Y, (∀ fuel, (hGet grow E fuel (some a) (.node (.str tyPath) (ids.map leaf ++ [.node (.str tyIndex) [leaf (itoa k)]] ++ leaf id :: rest.map leaf))).run h = (.ok q, h')) ∧
      Turns [] h h' ∧ Leads E grow h' rest sub (some b) Fk q Y := by
  obtain ⟨r, h', hr, t, hlr⟩ := bracket_leads (grow := grow) hs b
  have hh' := hh.turns t nofun
  obtain ⟨q, Y, ld2⟩ := path_leads (E := E) (grow := grow) t.solid rest hrest hh' hn hlk
  have hfind : findName E id [sub] = .ok (some 0) := by
    rcases findName_first (E := E) id (fun g => g) (show NoNilL [sub] from ⟨hn, trivial⟩) with ⟨_, h2, _⟩ | ⟨i, hi, hlt, _⟩
    · have : firstNamed E id [sub] = sub := by simp [firstNamed, hname]
      rw [this] at h2
      rw [h2] at hn
      exact absurd hn (by simp [NoNil])
    · have : i = 0 := by simp at hlt; exact hlt
      rw [hi, this]
  have hnode : ∀ fuel, (hNode E fuel (some r) id).run h' = (.ok (some b), h') := by
    intro fuel
    obtain ⟨q', hq', hr⟩ := node_leads (E := E) t.solid hlr (Spec.HoldsL.one hh') hfind fuel
    cases hq'
    exact hr
  have hlen := len_leads t.solid hlr
  refine ⟨q, h', Y, fun fuel => ?_, t, ld2⟩
  generalize hpg : Graph.node (.str tyPath) (ids.map leaf ++ [.node (.str tyIndex) [leaf (itoa k)]] ++ leaf id :: rest.map leaf) = pg
  show (hGetPath grow E fuel (some a) (evalFuel pg) pg >>= _).run h = _
  obtain ⟨f, hf⟩ : ∃ f, evalFuel pg = f + 4 := ⟨evalFuel pg - 4, by
    have : 4 ≤ evalFuel pg := by
      unfold evalFuel
      omega
    omega⟩
  rw [hf]
  unfold hGetPath
  have hlen0 : ¬ (pg.len = 0 ∨ (some a : Ptr) = none) := by
    subst hpg
    simp [Graph.len]
    omega
  rw [if_neg hlen0]
  obtain ⟨s', hw, hs'⟩ := ld.get fuel (f + 1) pg (some a) { ctx := some a } rfl
  have hstep : (hGetStep grow E fuel (some a) (f + 3) pg (.node (.str tyIndex) [leaf (itoa k)]) s').run h =
      (.ok (.next { s' with ctx := some r, prev := s'.ctx }), h') := by
    unfold hGetStep
    have he : (Graph.node (.str tyIndex) [leaf (itoa k)]).thisString E = tyIndex := rfl
    simp only [he, ↓reduceIte]
    rw [ok_bind' (indexOf_number k hk), if_neg (by omega), hs', ok_bind' (getAt_leads hs hl hq), ok_bind' hr]
    rfl
  have hw2 : ∃ s2, (hWalkPath (hGetStep grow E fuel (some a) (f + 3) pg) pg.out { ctx := some a }).run h = (.ok (.next s2), h') ∧ s2.ctx = q := by
    have ho : pg.out = ids.map leaf ++ ([.node (.str tyIndex) [leaf (itoa k)]] ++ leaf id :: rest.map leaf) := by rw [← hpg, ← List.append_assoc]; rfl
    rw [ho, walk_append _ _ hw]
    have hw1 : (hWalkPath (hGetStep grow E fuel (some a) (f + 3) pg) [.node (.str tyIndex) [leaf (itoa k)]] s').run h =
        (.ok (.next { s' with ctx := some r, prev := s'.ctx }), h') := by
      unfold hWalkPath
      rw [hs'] at hstep ⊢
      dsimp only
      rw [ok_bind' hstep]
      unfold hWalkPath
      rfl
    rw [walk_append _ _ hw1]
    have hst := getStep_leads (grow := grow) (f := f + 1) (root := some a) (pg := pg) (s := { s' with ctx := some r, prev := s'.ctx }) hid (hnode fuel) hlen
    rw [walk_step rfl hst]
    exact ld2.get fuel (f + 1) pg (some a) _ rfl
  obtain ⟨s2, hw2, hs2⟩ := hw2
  have e0 : (hWalkPath (hGetStep grow E fuel (some a) (f + 3) pg) pg.out { ctx := some a } >>= fun r =>
      match r with
      | .done r => (Pure.pure r : HM (Ptr × Option Err))
      | .next s => Pure.pure (s.ctx, none)).run h = (.ok (q, none), h') := by
    refine (ok_bind' hw2).trans ?_
    rw [← hs2]
    rfl
  subst hpg
  exact ok_bind' e0

/-! ## Selectors -/

theorem thisString_holds {h : Heap} (hs : Solid h) {g : Graph} {p : Ptr} {F : List Nat} (hg : Holds h g p F) (fuel : Nat) :
    (hThisString E fuel p none).run h = (.ok (g.thisString E), h) := by
  cases g with
  | nil =>
    unfold Holds at hg
    rw [hg.1]
    rfl
  | node t o =>
    obtain ⟨a, x, ps, F', rfl, rfl, haF, hl, hc, ho⟩ := hg.parts
    obtain ⟨c, hc', hld, hthis, _, _⟩ := load_look hs hl
    unfold hThisString
    rw [ok_bind' hld, hthis]
    exact hstring_content hc fuel h

/-- The node `j` is the `m`-th of its name, from 0. -/
theorem nth_run {key : Bytes} {h : Heap} {a : Nat} {c : HNode} {z : HVal} {ps : List Ptr} (hs : Solid h) (hc : h.nodes[a]? = some c)
    (hl : look h a = some (z, ps)) (fuel : Nat) : ∀ (xs : List Graph) (ps2 : List Ptr) (F2 : List Nat) (i m j : Nat) (g : Graph) (q : Ptr), ps.drop i = ps2 → HoldsL h xs ps2 F2 →
      xs[j]? = some g → g.thisString E = key → ((xs.take j).filter fun g => g.thisString E = key).length = m → ps2[j]? = some q →
      (hNthNamed E fuel c.out key m xs.length i).run h = (.ok q, h)
  | [], _, _, _, _, j, g, _, _, _, hj, _, _, _ => by simp at hj
  | x :: xs, ps2, F2, i, m, j, g, q, hps, ho, hj, hk, hm, hq => by
    unfold HoldsL at ho
    obtain ⟨p, ps', F1, F2, rfl, rfl, hd, hg, hr⟩ := ho
    obtain ⟨hpi, hps'⟩ := getElem?_of_drop hps
    rw [List.length_cons]
    unfold hNthNamed
    rw [ok_bind' (index_look hs hl hc hpi), ok_bind' (thisString_holds hs hg fuel)]
    cases j with
    | zero =>
      simp only [List.getElem?_cons_zero, Option.some.injEq] at hj hq
      subst hj hq
      simp only [List.take_zero, List.filter_nil, List.length_nil] at hm
      subst hm
      simp only [hk, ↓reduceIte]
      rfl
    | succ j =>
      simp only [List.getElem?_cons_succ] at hj hq
      simp only [List.take_succ_cons, List.filter_cons] at hm
      by_cases hx : x.thisString E = key
      · simp only [hx, decide_true, ↓reduceIte, List.length_cons] at hm
        subst hm
        simp only [hx, ↓reduceIte]
        exact nth_run hs hc hl fuel xs ps' _ (i + 1) _ j g q hps' hr hj hk rfl hq
      · simp only [hx, decide_false, Bool.false_eq_true, ↓reduceIte] at hm
        simp only [hx, ↓reduceIte]
        exact nth_run hs hc hl fuel xs ps' _ (i + 1) _ j g q hps' hr hj hk hm hq

/-- A path leads to the same node from another node with the same subnodes. -/
theorem leads_twin {h : Heap} (hs : Solid h) {id : Bytes} {ids : List Bytes} (hids : ∀ x ∈ id :: ids, x ∉ stepMarks) {t : Val} {o : List Graph} {a r : Nat} {F : List Nat}
    {x y : HVal} {ps : List Ptr} (hg : Holds h (.node t o) (some a) F) (hla : look h a = some (x, ps)) (hlr : look h r = some (y, ps)) (hno : NoNilL o)
    (hl : lookup E (id :: ids) (.node t o) ≠ .nil) :
    ∃ q X, Leads E grow h (id :: ids) (.node t o) (some a) F q X ∧ ∀ (fuel f : Nat) (pg : Graph) (root : Ptr) (s : HPathSt), s.ctx = some r →
      ∃ s', (hWalkPath (hGetStep grow E fuel root (f + 2) pg) ((id :: ids).map leaf) s).run h = (.ok (.next s'), h) ∧ s'.ctx = q := by
  obtain ⟨a', x', ps', F', e, rfl, haF, hla', hc, ho⟩ := hg.parts
  cases e
  rw [hla] at hla'
  cases hla'
  have hl' : lookup E ids (firstNamed E id o) ≠ .nil := hl
  rcases findName_first (E := E) id (fun g => g) hno with ⟨_, h2, _⟩ | ⟨i, hi, hlt, hgd, hnf, _⟩
  · rw [h2] at hl'
    exact absurd (lookup_nil E ids) hl'
  obtain ⟨q, Fg, hq, hgq, hsub, hrest⟩ := ho.focus (List.getElem?_eq_getElem hlt)
  have hgi : o[i] = firstNamed E id o := by rw [← hgd, List.getD_eq_getElem?_getD, List.getElem?_eq_getElem hlt]; rfl
  rw [hgi] at hgq
  obtain ⟨b, rfl⟩ : ∃ b, q = some b := by
    cases hf : firstNamed E id o with
    | nil => rw [hf] at hnf; exact absurd hnf (by simp [NoNil])
    | node t' o' =>
      rw [hf] at hgq
      obtain ⟨b, _, _, _, rfl, _⟩ := hgq.parts
      exact ⟨b, rfl⟩
  obtain ⟨q, X, ld⟩ := path_leads (E := E) (grow := grow) hs ids (fun x hx => hids x (List.mem_cons_of_mem _ hx)) hgq hnf hl'
  have hnode : ∀ {n : Nat} {z : HVal}, look h n = some (z, ps) → ∀ fuel, (hNode E fuel (some n) id).run h = (.ok (some b), h) := by
    intro n z hln fuel
    obtain ⟨q', hq', hr⟩ := node_leads (E := E) hs hln ho hi fuel
    rw [hq] at hq'
    cases hq'
    exact hr
  have hget : ∀ {n : Nat} {z : HVal}, look h n = some (z, ps) → ∀ (fuel f : Nat) (pg : Graph) (root : Ptr) (s : HPathSt), s.ctx = some n →
      ∃ s', (hWalkPath (hGetStep grow E fuel root (f + 2) pg) ((id :: ids).map leaf) s).run h = (.ok (.next s'), h) ∧ s'.ctx = q := by
    intro n z hln fuel f pg root s hsc
    have hst := getStep_leads (grow := grow) (f := f) (root := root) (pg := pg) (s := s) (hids id (List.mem_cons_self ..)) (by rw [hsc]; exact hnode hln fuel)
      (by rw [hsc]; exact len_leads hs hln)
    rw [List.map_cons, walk_step hsc hst]
    exact ld.get fuel f pg root _ rfl
  refine ⟨q, X, ⟨ld.holds, fun y hy => List.mem_cons_of_mem _ (hsub y (ld.sub y hy)), hget hla, ?_, ?_⟩, hget hlr⟩
  · intro fuel f pg root s hsc _
    have hst := evalStep_leads (grow := grow) (f := f) (root := root) (pg := pg) (s := s) (hids id (List.mem_cons_self ..)) (by rw [hsc]; exact hnode hla fuel)
      (by rw [hsc]; exact len_leads hs hla)
    rw [List.map_cons, walk_step hsc hst]
    exact ld.eval fuel f pg root _ rfl rfl
  · intro h' r' X' tn hr hw
    obtain ⟨Fn, hn1, hw1⟩ := ld.frame h' r' X' tn hr hw
    rcases findName_first (E := E) id (replaceAt E ids r') hno with ⟨h1, _, _⟩ | ⟨j, hj, _, _, _, hu⟩
    · rw [hi] at h1; cases h1
    rw [hi] at hj
    cases hj
    obtain ⟨F1, h1, hw2⟩ := hrest h' X [] _ Fn tn (fun y hy => .inl (ld.sub y hy)) nofun hn1 (by rw [List.append_nil]; exact hw1)
    have hax : a ∉ X := fun hx => haF (hsub a (ld.sub a hx))
    obtain ⟨F2, h2, hw3⟩ := back (j := i) (g' := replaceAt E ids r' (firstNamed E id o)) (o := o) hla hc haF tn hax (Y := []) nofun ⟨F1, h1, hw2⟩
    refine ⟨F2, ?_, by rw [List.append_nil] at hw3; exact hw3⟩
    unfold replaceAt
    rw [hu, hgd]
    exact h2

theorem succ_facts (m : Nat) : ((m : Int) + 1).toNat - 1 = m ∧ ¬ ((m : Int) + 1 < 0) ∧ (m : Int) + 1 ≠ 0 := by omega

theorem succ_wrap {m : Nat} (h : m < 2 ^ 63 - 1) : wrap64 ((m : Int) + 1) = m + 1 := wrap64_id (by omega) (by omega)

theorem select_eq {fuel : Nat} {s : HPathSt} {ix w : Int} (hw : wrap64 (ix + 1) = w) (h0 : ¬ w < 0) (h1 : w ≠ 0) :
    hSelect grow E fuel s ix = (do
      let r ← hNew (.val (.str b!"{"))
      let c ← load s.prev
      let n ← hNthNamed E fuel c.out s.elem (w.toNat - 1) c.out.len 0
      let _ ← hAddNodes grow r n
      pure (some r)) := by
  subst hw
  rw [hSelect.eq_def]
  simp only [if_neg h0, if_neg h1]

/-- The node that a selector makes. -/
theorem select_leads {h : Heap} (hs : Solid h) {n b : Nat} {x y : HVal} {ps qs : List Ptr} {o : List Graph} {F : List Nat} (hl : look h n = some (x, ps)) (ho : HoldsL h o ps F)
    {id : Bytes} {m j : Nat} {g : Graph} (hj : o[j]? = some g) (hname : g.thisString E = id) (hm : ((o.take j).filter fun g => g.thisString E = id).length = m) (hm63 : m < 2 ^ 63 - 1)
    (hq : ps[j]? = some (some b)) (hlb : look h b = some (y, qs)) :
    ∃ r h', (∀ fuel (s : HPathSt), s.prev = some n → s.elem = id → (hSelect grow E fuel s m).run h = (.ok (some (some r)), h')) ∧ Turns [] h h' ∧
      look h' r = some (.val (.str b!"{"), qs) := by
  obtain ⟨h1, hr1, t1, hl1, hlen1, _⟩ := alloc_turns hs (.val (.str b!"{"))
  have hl' : look h1 n = some (x, ps) := (t1.keep n (look_lt hl) nofun).2.trans hl
  have hlb' : look h1 b = some (y, qs) := (t1.keep b (look_lt hlb) nofun).2.trans hlb
  obtain ⟨c, hc, hld, _, hlen, _⟩ := load_look t1.solid hl'
  obtain ⟨cb, hcb, hldb, _, _, hel⟩ := load_look t1.solid hlb'
  obtain ⟨h2, hr2, c2⟩ := kids_append (grow := grow) t1.solid hl1 qs (some h.nodes.length : Ptr)
  obtain ⟨ca, hca, hlda, _, _, _⟩ := load_look t1.solid hl1
  have hadd : (hAddNodes grow (some h.nodes.length) (some b)).run h1 = (.ok (some h.nodes.length), h2) := by
    unfold hAddNodes
    dsimp only
    rw [ok_bind' hlda] at hr2 ⊢
    rw [ok_bind' hldb, ok_bind' (elems_run hel)]
    exact hr2
  refine ⟨h.nodes.length, h2, fun fuel s hp he => ?_, t1.trans c2.turns fun x hx => .inr ?_, ?_⟩
  · have hw := succ_wrap hm63
    clear hm63
    have hnth := nth_run (E := E) t1.solid hc hl' fuel o ps F 0 m j g (some b) rfl (ho.turns t1 nofun) hj hname hm hq
    have e0 : (hNew (.val (.str b!"{"))).run h = (.ok (some h.nodes.length), h1) := ok_bind' hr1
    obtain ⟨e1, e2, e3⟩ := succ_facts m
    rw [select_eq hw e2 e3, ok_bind' e0, hp, ok_bind' hld, he, e1, hlen, ← ho.length, ok_bind' hnth, ok_bind' hadd]
    rfl
  · simp only [List.mem_singleton] at hx; omega
  · rw [c2.look]; unfold upd; rw [if_pos rfl]; rfl

/-- `Get` of a path with a selector inside. -/
theorem get_select {h : Heap} (hs : Solid h) {ids : List Bytes} {g : Graph} {a b : Nat} {n : Nat} {F X Fn : List Nat} {x : HVal} {ps : List Ptr} {o : List Graph}
    (ld : Leads E grow h ids g (some a) F (some n) X) (hl : look h n = some (x, ps)) (ho : HoldsL h o ps Fn) (hno : NoNilL o)
    {id : Bytes} (hid : id ∉ stepMarks) (hid0 : id ≠ []) {m j : Nat} {t : Val} {os : List Graph} (hj : o[j]? = some (.node t os)) (hname : (Graph.node t os).thisString E = id)
    (hm : ((o.take j).filter fun g => g.thisString E = id).length = m) (hm63 : m < 2 ^ 63 - 1) (hq : ps[j]? = some (some b)) {Fk : List Nat} (hh : Holds h (.node t os) (some b) Fk)
    {id2 : Bytes} {rest : List Bytes} (hrest : ∀ id ∈ id2 :: rest, id ∉ stepMarks) (hlk : lookup E (id2 :: rest) (.node t os) ≠ .nil) :
    ∃ q h' Y, (∀ fuel, (hGet grow E fuel (some a) (.node (.str tyPath) (ids.map leaf ++ [leaf id, .node (.str tySelector) [leaf (itoa m)]] ++ (id2 :: rest).map leaf))).run h = (.ok q, h')) ∧
      Turns [] h h' ∧ Leads E grow h' (id2 :: rest) (.node t os) (some b) Fk q Y := by
  obtain ⟨b', y, qs, Fb, e, rfl, _, hlb, _, _⟩ := hh.parts
  cases e
  have hnos : NoNilL os := noNilL_of_mem hno (List.mem_of_getElem? hj)
  obtain ⟨i0, hi0, hlt0, b1, hb1⟩ : ∃ i0, findName E id o = .ok (some i0) ∧ i0 < o.length ∧ ∃ b1, ps[i0]? = some (some b1) := by
    rcases findName_first (E := E) id (fun g => g) hno with ⟨_, h2, _⟩ | ⟨i, hi, hlt, hgd, hnf, _⟩
    · unfold firstNamed at h2
      cases hf : o.find? fun g => decide (g.thisString E = id) with
      | none => exact absurd (List.find?_eq_none.1 hf _ (List.mem_of_getElem? hj)) (by simp [hname])
      | some x =>
        rw [hf] at h2
        have hx := noNilL_of_mem hno (List.mem_of_find?_eq_some hf)
        obtain rfl : x = .nil := h2
        exact absurd hx (by simp [NoNil])
    · refine ⟨i, hi, hlt, ?_⟩
      obtain ⟨q, _, hq, hgq, _⟩ := ho.focus (List.getElem?_eq_getElem hlt)
      have hn := noNilL_of_mem hno (List.getElem_mem hlt)
      cases hoi : o[i] with
      | nil => rw [hoi] at hn; exact absurd hn (by simp [NoNil])
      | node t' o' =>
        rw [hoi] at hgq
        obtain ⟨b1, _, _, _, rfl, _⟩ := hgq.parts
        exact ⟨b1, hq⟩
  have hnode : ∀ fuel, (hNode E fuel (some n) id).run h = (.ok (some b1), h) := by
    intro fuel
    obtain ⟨q', hq', hr⟩ := node_leads (E := E) hs hl ho hi0 fuel
    rw [hb1] at hq'
    cases hq'
    exact hr
  have hlen := len_leads hs hl
  obtain ⟨r, h', hsel, t1, hlr⟩ := select_leads (E := E) (grow := grow) hs hl ho hj hname hm hm63 hq hlb
  obtain ⟨q, Y, ld2, hget2⟩ := leads_twin (E := E) (grow := grow) t1.solid hrest (hh.turns t1 nofun) ((t1.keep b (look_lt hlb) nofun).2.trans hlb) hlr hnos hlk
  refine ⟨q, h', Y, fun fuel => ?_, t1, ld2⟩
  generalize hpg : Graph.node (.str tyPath) (ids.map leaf ++ [leaf id, .node (.str tySelector) [leaf (itoa m)]] ++ (id2 :: rest).map leaf) = pg
  show (hGetPath grow E fuel (some a) (evalFuel pg) pg >>= _).run h = _
  obtain ⟨f, hf⟩ : ∃ f, evalFuel pg = f + 4 := ⟨evalFuel pg - 4, by
    have : 4 ≤ evalFuel pg := by
      unfold evalFuel
      omega
    omega⟩
  rw [hf]
  unfold hGetPath
  have hlen0 : ¬ (pg.len = 0 ∨ (some a : Ptr) = none) := by
    subst hpg
    simp [Graph.len]
    omega
  rw [if_neg hlen0]
  obtain ⟨s', hw, hs'⟩ := ld.get fuel (f + 1) pg (some a) { ctx := some a } rfl
  have hst := getStep_leads (grow := grow) (f := f + 1) (root := some a) (pg := pg) (s := s') hid (by rw [hs']; exact hnode fuel) (by rw [hs']; exact hlen)
  have hstep : (hGetStep grow E fuel (some a) (f + 3) pg (.node (.str tySelector) [leaf (itoa m)]) { ctx := some b1, prev := s'.ctx, elem := id }).run h =
      (.ok (.next { ctx := some r, prev := some b1, elem := id }), h') := by
    unfold hGetStep
    have he : (Graph.node (.str tySelector) [leaf (itoa m)]).thisString E = tySelector := rfl
    have h0 : id.isEmpty = false := by cases id with | nil => exact absurd rfl hid0 | cons => rfl
    simp only [he, show ¬ tySelector = tyIndex by decide, ↓reduceIte, hs', Option.isNone_some, h0, Bool.or_false, Bool.false_eq_true]
    rw [ok_bind' (indexOf_number m hm63), ok_bind' (hsel fuel _ rfl rfl)]
    rfl
  have hw2 : ∃ s2, (hWalkPath (hGetStep grow E fuel (some a) (f + 3) pg) pg.out { ctx := some a }).run h = (.ok (.next s2), h') ∧ s2.ctx = q := by
    have ho : pg.out = ids.map leaf ++ ([leaf id, .node (.str tySelector) [leaf (itoa m)]] ++ (id2 :: rest).map leaf) := by rw [← hpg, ← List.append_assoc]; rfl
    rw [ho, walk_append _ _ hw]
    have hw1 : (hWalkPath (hGetStep grow E fuel (some a) (f + 3) pg) [leaf id, .node (.str tySelector) [leaf (itoa m)]] s').run h =
        (.ok (.next { ctx := some r, prev := some b1, elem := id }), h') := by
      rw [walk_step hs' hst]
      unfold hWalkPath
      dsimp only
      rw [ok_bind' hstep]
      unfold hWalkPath
      rfl
    rw [walk_append _ _ hw1]
    exact hget2 fuel (f + 1) pg (some a) _ rfl
  obtain ⟨s2, hw2, hs2⟩ := hw2
  have e0 : (hWalkPath (hGetStep grow E fuel (some a) (f + 3) pg) pg.out { ctx := some a } >>= fun r =>
      match r with
      | .done r => (Pure.pure r : HM (Ptr × Option Err))
      | .next s => Pure.pure (s.ctx, none)).run h = (.ok (q, none), h') := by
    refine (ok_bind' hw2).trans ?_
    rw [← hs2]
    rfl
  subst hpg
  exact ok_bind' e0

end Ogdl
