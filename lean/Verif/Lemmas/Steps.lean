import Verif.Spec.Steps
import Verif.Lemmas.Call

/-! Paths with indexes and selectors. -/

namespace Ogdl
open Spec

section
variable {E : Ext}

theorem elemsOf_trees : ∀ es : List Elem, (elemsOf es).trees = es.map Elem.tree
  | [] => rfl
  | e :: es => by simp [elemsOf, Elems.trees, elemsOf_trees es]

theorem elemsOf_ok : ∀ {es : List Elem}, (∀ e ∈ es, e.Ok E) → (elemsOf es).Ok E
  | [], _ => trivial
  | e :: es, h => ⟨h e (by simp), elemsOf_ok fun x hx => h x (by simp [hx])⟩

theorem elemsOf_noArgs : ∀ {es : List Elem}, (∀ e ∈ es, e.NoArgs) → (elemsOf es).NoArgs
  | [], _ => trivial
  | e :: es, h => ⟨h e (by simp), elemsOf_noArgs fun x hx => h x (by simp [hx])⟩

theorem step_elems_ok {g : Graph} {s : PStep} (h : s.Ok E g) : ∀ e ∈ s.elems, e.Ok E := by
  cases s with
  | name s => simpa [PStep.elems, Elem.Ok, PStep.Ok] using h
  | all s => simpa [PStep.elems, Elem.Ok, PStep.Ok] using h
  | nth s o k => simpa [PStep.elems, Elem.Ok, Expr.Ok] using ⟨h.1, h.2.1⟩
  | index o i => simpa [PStep.elems, Elem.Ok, Expr.Ok] using h.1

theorem step_elems_noArgs {g : Graph} {s : PStep} (h : s.Ok E g) : ∀ e ∈ s.elems, e.NoArgs := by
  cases s with
  | name s => simp [PStep.elems, Elem.NoArgs]
  | all s => simp [PStep.elems, Elem.NoArgs]
  | nth s o k =>
    obtain ⟨_, _, _, v, h1, _⟩ := h
    simpa [PStep.elems, Elem.NoArgs, Expr.NoArgs, Grouping.NoArgs] using means_noArgs h1
  | index o i =>
    obtain ⟨_, _, v, h1, _⟩ := h
    simpa [PStep.elems, Elem.NoArgs, Expr.NoArgs, Grouping.NoArgs] using means_noArgs h1

/-- The node of a path with these steps. -/
def stepsPath (ss : List PStep) : Graph := .node (.str b!"!p") ((ss.flatMap PStep.elems).map Elem.tree)

theorem newPath_steps {g : Graph} {ss : List PStep} (hne : ss ≠ []) (hs : ∀ s ∈ ss, s.Ok E g) (hl : Fits (stepsText ss)) :
    newPath E (stepsText ss) = .ok (stepsPath ss) := by
  have hok : ∀ e ∈ ss.flatMap PStep.elems, e.Ok E := by
    intro e he
    obtain ⟨s, h1, h2⟩ := List.mem_flatMap.1 he
    exact step_elems_ok (hs s h1) e h2
  have hna : ∀ e ∈ ss.flatMap PStep.elems, e.NoArgs := by
    intro e he
    obtain ⟨s, h1, h2⟩ := List.mem_flatMap.1 he
    exact step_elems_noArgs (hs s h1) e h2
  unfold stepsText stepsPath at *
  cases hf : ss.flatMap PStep.elems with
  | nil =>
    cases ss with
    | nil => exact absurd rfl hne
    | cons s ss => cases s <;> simp [PStep.elems] at hf
  | cons e es =>
    rw [hf] at hok hna hl
    simp only at hl ⊢
    rw [newPath_exact E e (elemsOf es) (hok e (by simp)) (elemsOf_ok fun x hx => hok x (by simp [hx])) ?_ hl, elemsOf_trees]
    · rfl
    · intro as h
      subst h
      exact hna (.call as) (by simp)

/-- The value of an index or selector (only its first operand is looked at). -/
theorem indexOf_value {g : Graph} {o : Opnd} {k : Nat} {t : Val} (rest : List Graph := []) (hg : NoNil g) (h : HasIndex E g o k) {f : Nat}
    (hf : evalFuel o.tree + 1 ≤ f) : indexOf E f (.node t (o.tree :: rest)) g = .ok ((k : Int), g) := by
  obtain ⟨hok, hk, v, hm, hv⟩ := h
  obtain ⟨f, rfl⟩ : ∃ j, f = j + 1 := ⟨f - 1, by omega⟩
  have h1 := (means_evals hg hm hok).enough (k := f) (by simpa [Grouping.tree] using hf)
  simp only [Grouping.tree] at h1
  have hi : (Int64.ofInt (k : Int)).toInt = k := Int64.toInt_ofInt_of_le (by omega) (by omega)
  have h2 := asInt_vint hv
  rw [hi] at h2
  simp only [indexOf, bind, h1, Option.isSome_none, Bool.false_eq_true, ↓reduceIte, h2, pure]
  rw [if_neg (by omega)]

theorem wrap64_small {i : Int} (h1 : -2 ^ 63 ≤ i) (h2 : i < 2 ^ 63) : wrap64 i = i := by
  unfold wrap64; omega

theorem nthNamed_eq (s : Bytes) : ∀ (k : Nat) (gs : List Graph), nthNamed E s k gs = ((allNamed E s gs)[k]?).getD .nil
  | _, [] => rfl
  | k, n :: ns => by
    by_cases h : n.thisString E = s
    · cases k with
      | zero => simp [nthNamed, allNamed, h]
      | succ k =>
        have := nthNamed_eq s k ns
        simp only [nthNamed, h, ↓reduceIte, this]
        simp [allNamed, h]
    · have := nthNamed_eq s k ns
      simp only [nthNamed, h, ↓reduceIte, this]
      simp [allNamed, h]

theorem addEqual_loop (s : Bytes) : ∀ (gs : List Graph) (t : Val) (o : List Graph), NoNilL gs →
    Graph.addEqualNodes.loop E s (.node t o) gs = .ok (.node t (o ++ (allNamed E s gs).flatMap Graph.out))
  | [], t, o, _ => by simp [Graph.addEqualNodes.loop, allNamed]
  | .nil :: _, _, _, h => absurd h.1 (by simp [NoNil])
  | .node t' o' :: gs, t, o, h => by
    by_cases hs : vstr E t' = s
    · have hs' : s = vstr E t' := hs.symm
      simp only [Graph.addEqualNodes.loop, hs', ↓reduceIte, Graph.addNodes]
      rw [addEqual_loop (vstr E t') gs t (o ++ o') h.2]
      simp [allNamed, Graph.thisString]
    · have hs' : ¬ s = vstr E t' := fun h => hs h.symm
      simp only [Graph.addEqualNodes.loop, hs', ↓reduceIte]
      rw [addEqual_loop s gs t o h.2]
      simp [allNamed, Graph.thisString, hs]

theorem selectNodes_all {st : PathSt} (h : NoNil st.prev) :
    selectNodes E st (-1) = .ok (some (.node (.str b!"{") (selected E st.elem none st.prev.out))) := by
  have hn : NoNilL st.prev.out := by
    cases hp : st.prev with
    | nil => exact trivial
    | node t o => rw [hp] at h; exact h
  have : wrap64 (-1 + 1) = 0 := by decide
  simp only [selectNodes, this, Graph.new, Graph.addEqualNodes]
  rw [addEqual_loop _ _ _ _ hn]
  rfl

theorem selectNodes_nth {st : PathSt} {k : Nat} (hk : k < 2 ^ 63 - 1) :
    selectNodes E st k = .ok (some (.node (.str b!"{") (selected E st.elem (some k) st.prev.out))) := by
  have hw : wrap64 ((k : Int) + 1) = k + 1 := wrap64_small (by omega) (by omega)
  simp only [selectNodes, hw]
  rw [if_neg (by omega), if_neg (by omega)]
  have : ((k : Int) + 1).toNat - 1 = k := by omega
  rw [this, nthNamed_eq]
  simp only [selected, Graph.new]
  cases (allNamed E st.elem st.prev.out)[k]? with
  | none => rfl
  | some n => cases n <;> rfl

theorem noNil_node {t : Val} {o : List Graph} : NoNil (.node t o) ↔ NoNilL o := Iff.rfl

theorem noNilL_out {g : Graph} (h : NoNil g) : NoNilL g.out := by
  cases g with
  | nil => exact trivial
  | node t o => exact h

theorem allThisL_append {P : Val → Prop} {a b : List Graph} (ha : AllThisL P a) (hb : AllThisL P b) : AllThisL P (a ++ b) := by
  induction a with
  | nil => exact hb
  | cons x xs ih => exact ⟨ha.1, ih ha.2⟩

theorem allThisL_out {P : Val → Prop} {g : Graph} (h : AllThis P g) : AllThisL P g.out := by
  cases g with
  | nil => exact trivial
  | node t o => exact h.2

theorem allThisL_of_mem {P : Val → Prop} {g : Graph} {o : List Graph} (h : AllThisL P o) (hg : g ∈ o) : AllThis P g := by
  induction o with
  | nil => simp at hg
  | cons x xs ih =>
    rcases List.mem_cons.1 hg with rfl | hg
    · exact h.1
    · exact ih h.2 hg

theorem data_selected {g : Graph} (h : Data E g) (s : Bytes) (k : Option Nat) : Data E (.node (.str b!"{") (selected E s k g.out)) := by
  have hmem : ∀ x ∈ allNamed E s g.out, NoNil x ∧ AllThis (Inert E) x := fun x hx => by
    have hx := (List.mem_filter.1 hx).1
    exact ⟨noNilL_of_mem (noNilL_out h.1) hx, allThisL_of_mem (allThisL_out h.2) hx⟩
  have key : NoNilL (selected E s k g.out) ∧ AllThisL (Inert E) (selected E s k g.out) := by
    cases k with
    | none =>
      simp only [selected]
      generalize allNamed E s g.out = l at hmem
      induction l with
      | nil => exact ⟨trivial, trivial⟩
      | cons x xs ih =>
        obtain ⟨h1, h2⟩ := ih fun y hy => hmem y (by simp [hy])
        obtain ⟨h3, h4⟩ := hmem x (by simp)
        exact ⟨noNilL_append _ _ (noNilL_out h3) h1, allThisL_append (allThisL_out h4) h2⟩
    | some k =>
      simp only [selected]
      cases hk : (allNamed E s g.out)[k]? with
      | none => exact ⟨trivial, trivial⟩
      | some x =>
        obtain ⟨h3, h4⟩ := hmem x (List.mem_of_getElem? hk)
        exact ⟨noNilL_out h3, allThisL_out h4⟩
  exact ⟨key.1, trivial, key.2⟩

/-! ## Get -/

theorem EvalM.bind_eq {α β : Type} {x : EvalM α} {f : α → EvalM β} {g g' : Graph} {a : α} (h : x g = .ok (a, g')) : (x >>= f) g = f a g' := by
  simp only [bind, h]


theorem getStep_index {g : Graph} {o : Opnd} {i F : Nat} {p : Graph} {st : PathSt} {x : Graph} (hg : NoNil g) (h : HasIndex E g o i)
    (hF : evalFuel o.tree + 2 ≤ F) (hn : NoNil st.ctx) (hx : st.ctx.out[i]? = some x) :
    getStep E F p (Elem.tree (.index (.one o))) st g = .ok (.next { st with ctx := .node (.str b!"[") [x], prev := st.ctx }, g) := by
  obtain ⟨F, rfl⟩ : ∃ j, F = j + 1 := ⟨F - 1, by omega⟩
  have hix := indexOf_value (rest := []) (t := .str b!"!i") hg h (f := F) (by omega)
  have hts : (Graph.node (.str b!"!i") [o.tree]).thisString E = tyIndex := by simp [Graph.thisString, vstr, tyIndex]
  have hi0 : ¬ ((i : Int) < 0) := by omega
  simp only [Elem.tree, Expr.trees, getStep, hts, ↓reduceIte, bind, hix, hi0]
  cases hc : st.ctx with
  | nil => rw [hc] at hn; exact absurd hn (by simp [NoNil])
  | node t os =>
    rw [hc] at hx hn
    simp only [Graph.out_node] at hx
    have hlt := (List.getElem?_eq_some_iff.1 hx).1
    have hget : (Graph.node t os).getAt (i : Int) = .ok x := by
      simp only [Graph.getAt]
      rw [if_neg (by omega)]
      simp [hx]
    simp only [hget, EvalM.lift, pure]
    have hxn : NoNil x := noNilL_of_mem hn (List.mem_of_getElem? hx)
    cases x with
    | nil => exact absurd hxn (by simp [NoNil])
    | node t' o' => rfl

theorem getStep_select {g : Graph} {x : Elem} {s : Bytes} {k : Option Nat} {F : Nat} {p : Graph} {st : PathSt}
    (hx : (x = .all ∧ k = none) ∨ ∃ o j, x = .select (.one o) ∧ k = some j ∧ HasIndex E g o j ∧ evalFuel o.tree + 2 ≤ F)
    (hF : 2 ≤ F) (hg : NoNil g) (hp : NoNil st.prev) (he : st.elem = s) (hs : s ≠ []) :
    getStep E F p x.tree st g = .ok (.next { st with ctx := .node (.str b!"{") (selected E s k st.prev.out), prev := st.ctx }, g) := by
  obtain ⟨F, rfl⟩ : ∃ j, F = j + 1 := ⟨F - 1, by omega⟩
  have hts : x.tree.thisString E = tySelector := by
    rcases hx with ⟨rfl, _⟩ | ⟨o, j, rfl, _⟩ <;> simp [Elem.tree, leaf, Graph.thisString, vstr, tySelector]
  have hprev : st.prev.isNil = false := by
    cases hc : st.prev with
    | nil => rw [hc] at hp; exact absurd hp (by simp [NoNil])
    | node t os => rfl
  have hel : st.elem.isEmpty = false := by rw [he]; cases s <;> simp at hs ⊢
  have hne : ¬ tySelector = tyIndex := by decide
  simp only [getStep, hts, hprev, hel, hne, Bool.or_false, Bool.false_eq_true, ↓reduceIte]
  subst he
  rcases hx with ⟨rfl, rfl⟩ | ⟨o, j, rfl, rfl, h1, h2⟩
  · obtain ⟨F, rfl⟩ : ∃ j, F = j + 1 := ⟨F - 1, by omega⟩
    simp only [Elem.tree, leaf, indexOf, bind, pure, EvalM.lift, selectNodes_all hp]
  · have hix := indexOf_value (rest := []) (t := .str b!"!s") hg h1 (f := F) (by omega)
    have hsel : EvalM.lift (selectNodes E st (j : Int)) g = .ok (some (.node (.str b!"{") (selected E st.elem (some j) st.prev.out)), g) := by
      rw [selectNodes_nth h1.2.1]; rfl
    rw [show Elem.tree (.select (.one o)) = .node (.str b!"!s") [o.tree] from rfl, EvalM.bind_eq hix, EvalM.bind_eq hsel]
    rfl


theorem data_nil_or {g : Graph} (h : Data E g) : g.isNil = false := by
  cases g with
  | nil => exact absurd h.1 (by simp [NoNil])
  | node t o => rfl

/-- A name that is found. -/
theorem getStep_found {F : Nat} {p : Graph} {id : Bytes} {st : PathSt} {g : Graph} (hid : Name E id) (hF : 2 ≤ F)
    (hd : NoNil st.ctx) (hn : (firstNamed E id st.ctx.out).isNil = false) :
    getStep E F p (leaf id) st g = .ok (.next { ctx := firstNamed E id st.ctx.out, prev := st.ctx, elem := id }, g) := by
  obtain ⟨F, rfl⟩ : ∃ j, F = j + 2 := ⟨F - 2, by omega⟩
  obtain ⟨h1, h2, h3, h4⟩ := not_ty hid
  simp only [getStep, leaf_thisString, h1, h2, h3, h4, ↓reduceIte]
  cases hs : st.ctx with
  | nil => rw [hs] at hd; exact absurd hd (by simp [NoNil])
  | node t o =>
    rw [hs] at hd hn
    simp only [Graph.out_node] at hn ⊢
    simp only [getName, Graph.nodeNamed, nodeLoop_eq id (gs := o) hd, bind, EvalM.lift, pure, hs, hn, Bool.false_and, Bool.false_eq_true,
      ↓reduceIte]

/-- A name that is not found ends the walk with nil. -/
theorem getStep_missing {F : Nat} {p : Graph} {id : Bytes} {st : PathSt} {g : Graph} (hid : Name E id) (hF : 3 ≤ F)
    (hd : Data E st.ctx) (hn : (firstNamed E id st.ctx.out).isNil = true) :
    (∃ s', getStep E F p (leaf id) st g = .ok (.next s', g) ∧ s'.ctx = .nil) ∨
    (∃ err, getStep E F p (leaf id) st g = .ok (.done (.nil, some err), g)) := by
  obtain ⟨F, rfl⟩ : ∃ j, F = j + 3 := ⟨F - 3, by omega⟩
  have hnn : st.ctx.nodeNamed E id = .ok .nil := by
    cases hs : st.ctx with
    | nil => rfl
    | node t o =>
      have hd1 := hd.1
      rw [hs] at hd1 hn
      simp only [Graph.nodeNamed, nodeLoop_eq id (gs := o) hd1]
      rw [Graph.out_node] at hn
      rw [isNil_eq hn]
  rcases getStep_name (f := F) (p := p) (g := g) hid hd.2 (data_nil_or hd) with ⟨h, _⟩ | ⟨n, h1, ⟨s', h2, h3⟩ | ⟨err, h2, _⟩⟩
  · rw [hnn] at h; cases h
  · rw [hnn] at h1; cases h1; exact .inl ⟨s', h2, h3⟩
  · exact .inr ⟨err, h2⟩

/-- The operand of a step has fuel. -/
def StepFuel (F : Nat) : PStep → Prop
  | .nth _ o _ => evalFuel o.tree + 2 ≤ F
  | .index o _ => evalFuel o.tree + 2 ≤ F
  | _ => True

theorem walkPath_nil {α : Type} {step : Graph → PathSt → EvalM (PathStep α)} {es : List Graph} {st : PathSt} (h : st.ctx = .nil) {g : Graph} :
    walkPath step es st g = .ok (.next st, g) := by
  cases es with
  | nil => rfl
  | cons e es => simp [walkPath, h, pure]

theorem walkPath_cons {α : Type} {step : Graph → PathSt → EvalM (PathStep α)} {e : Graph} {es : List Graph} {st st' : PathSt} {g : Graph}
    (h : st.ctx.isNil = false) (hs : step e st g = .ok (.next st', g)) : walkPath step (e :: es) st g = walkPath step es st' g := by
  simp only [walkPath, h, Bool.false_eq_true, ↓reduceIte, bind, hs]

theorem walkPath_done {α : Type} {step : Graph → PathSt → EvalM (PathStep α)} {e : Graph} {es : List Graph} {st : PathSt} {r : α} {g : Graph}
    (h : st.ctx.isNil = false) (hs : step e st g = .ok (.done r, g)) : walkPath step (e :: es) st g = .ok (.done r, g) := by
  simp only [walkPath, h, Bool.false_eq_true, ↓reduceIte, bind, hs, pure]

theorem walkGet_missing {F : Nat} {p g : Graph} {id : Bytes} {st : PathSt} {es : List Graph} (hid : Name E id) (hF : 3 ≤ F) (hd : Data E st.ctx)
    (hn : (firstNamed E id st.ctx.out).isNil = true) :
    ∃ r, walkPath (getStep E F p) (leaf id :: es) st g = .ok (r, g) ∧ r.result = .nil := by
  rcases getStep_missing (p := p) (g := g) hid hF hd hn with ⟨s', h1, h2⟩ | ⟨err, h1⟩
  · exact ⟨.next s', by rw [walkPath_cons (data_nil_or hd) h1, walkPath_nil h2], h2⟩
  · exact ⟨.done (.nil, some err), walkPath_done (data_nil_or hd) h1, rfl⟩

/-- A walk along steps. -/
theorem walk_follow {F : Nat} {p g n : Graph} (hF : 3 ≤ F) (hg : NoNil g) : ∀ (ss : List PStep) (st : PathSt), (∀ s ∈ ss, s.Ok E g) →
    (∀ s ∈ ss, StepFuel F s) → (st.ctx = .nil ∨ Data E st.ctx) → follow E ss st.ctx = some n →
    ∃ r, walkPath (getStep E F p) ((ss.flatMap PStep.elems).map Elem.tree) st g = .ok (r, g) ∧ r.result = n
  | [], st, _, _, _, h => by
    simp only [follow, Option.some.injEq] at h
    exact ⟨.next st, rfl, h⟩
  | s :: ss, st, hok, hfu, hd, h => by
    rcases hd with hnil | hd
    · rw [hnil] at h
      simp only [follow, Option.some.injEq] at h
      exact ⟨.next st, walkPath_nil hnil, by rw [← h]; exact hnil⟩
    have hnil := data_nil_or hd
    have hok' : ∀ s ∈ ss, s.Ok E g := fun x hx => hok x (by simp [hx])
    have hfu' : ∀ s ∈ ss, StepFuel F s := fun x hx => hfu x (by simp [hx])
    have hs := hok s (by simp)
    have hf := hfu s (by simp)
    obtain ⟨ctx, prev, elem, ar⟩ := st
    simp only at hnil hd h ⊢
    cases ctx with
    | nil => simp at hnil
    | node t o =>
    cases s with
    | name id =>
      simp only [List.flatMap_cons, PStep.elems, List.cons_append, List.nil_append, List.map_cons, Elem.tree]
      simp only [follow, Graph.out_node] at h
      cases hc : (firstNamed E id o).isNil with
      | true =>
        obtain ⟨r, h1, h2⟩ := walkGet_missing (p := p) (g := g) (st := ⟨.node t o, prev, elem, ar⟩)
          (es := (ss.flatMap PStep.elems).map Elem.tree) hs hF hd hc
        refine ⟨r, h1, ?_⟩
        rw [isNil_eq hc] at h
        rw [h2]
        cases ss <;> simpa [follow] using h
      | false =>
        have h1 := getStep_found (p := p) (g := g) (st := ⟨.node t o, prev, elem, ar⟩) hs (F := F) (by omega) hd.1 hc
        rw [walkPath_cons rfl h1]
        exact walk_follow hF hg ss _ hok' hfu' (hd.child id) h
    | all id =>
      simp only [List.flatMap_cons, PStep.elems, List.cons_append, List.nil_append, List.map_cons, Elem.tree]
      simp only [follow, Graph.out_node] at h
      cases hc : (firstNamed E id o).isNil with
      | true =>
        obtain ⟨r, h1, h2⟩ := walkGet_missing (p := p) (g := g) (st := ⟨.node t o, prev, elem, ar⟩)
          (es := leaf b!"!s" :: (ss.flatMap PStep.elems).map Elem.tree) hs hF hd hc
        refine ⟨r, h1, ?_⟩
        simp only [hc, ↓reduceIte, Option.some.injEq] at h
        rw [h2]; exact h
      | false =>
        simp only [hc, Bool.false_eq_true, ↓reduceIte] at h
        have h1 := getStep_found (p := p) (g := g) (st := ⟨.node t o, prev, elem, ar⟩) hs (F := F) (by omega) hd.1 hc
        have h2 := getStep_select (E := E) (p := p) (g := g) (F := F) (x := .all) (k := none) (s := id)
          (st := { ctx := firstNamed E id o, prev := .node t o, elem := id }) (.inl ⟨rfl, rfl⟩) (by omega) hg hd.1 rfl (name_ne_nil hs)
        obtain ⟨r, h3, h4⟩ := walk_follow (p := p) hF hg ss ⟨.node (.str b!"{") (selected E id none o), firstNamed E id o, id, false⟩ hok' hfu'
          (.inr (data_selected hd id none)) h
        exact ⟨r, ((walkPath_cons rfl h1).trans (walkPath_cons hc h2)).trans h3, h4⟩
    | nth id x k =>
      simp only [List.flatMap_cons, PStep.elems, List.cons_append, List.nil_append, List.map_cons]
      simp only [follow, Graph.out_node] at h
      cases hc : (firstNamed E id o).isNil with
      | true =>
        obtain ⟨r, h1, h2⟩ := walkGet_missing (p := p) (g := g) (st := ⟨.node t o, prev, elem, ar⟩)
          (es := Elem.tree (.select (.one x)) :: (ss.flatMap PStep.elems).map Elem.tree) hs.1 hF hd hc
        refine ⟨r, h1, ?_⟩
        simp only [hc, ↓reduceIte, Option.some.injEq] at h
        rw [h2]; exact h
      | false =>
        simp only [hc, Bool.false_eq_true, ↓reduceIte] at h
        have h1 := getStep_found (p := p) (g := g) (st := ⟨.node t o, prev, elem, ar⟩) hs.1 (F := F) (by omega) hd.1 hc
        have h2 := getStep_select (E := E) (p := p) (g := g) (F := F) (x := .select (.one x)) (k := some k) (s := id)
          (st := { ctx := firstNamed E id o, prev := .node t o, elem := id }) (.inr ⟨x, k, rfl, rfl, hs.2, hf⟩) (by omega) hg hd.1 rfl
          (name_ne_nil hs.1)
        obtain ⟨r, h3, h4⟩ := walk_follow (p := p) hF hg ss ⟨.node (.str b!"{") (selected E id (some k) o), firstNamed E id o, id, false⟩ hok' hfu'
          (.inr (data_selected hd id (some k))) h
        exact ⟨r, ((walkPath_cons rfl h1).trans (walkPath_cons hc h2)).trans h3, h4⟩
    | index x i =>
      simp only [List.flatMap_cons, PStep.elems, List.cons_append, List.nil_append, List.map_cons]
      simp only [follow, Graph.out_node] at h
      cases hx : o[i]? with
      | none => rw [hx] at h; cases h
      | some y =>
        rw [hx] at h
        have h1 := getStep_index (p := p) (F := F) (st := ⟨.node t o, prev, elem, ar⟩) hg hs hf hd.1 hx
        rw [walkPath_cons rfl h1]
        have hy := List.mem_of_getElem? hx
        exact walk_follow hF hg ss _ hok' hfu'
          (.inr ⟨⟨noNilL_of_mem hd.1 hy, trivial⟩, trivial, allThisL_of_mem hd.2.2 hy, trivial⟩) h

theorem steps_fuel {ss : List PStep} : ∀ s ∈ ss, StepFuel (evalFuel (stepsPath ss) - 2) s := by
  intro s hs
  have key : ∀ e ∈ s.elems, ∀ t x, e.tree = .node t [x] → evalFuel x + 16 ≤ evalFuel (stepsPath ss) := by
    intro e he t x hx
    have hm : e.tree ∈ (ss.flatMap PStep.elems).map Elem.tree := List.mem_map.2 ⟨e, List.mem_flatMap.2 ⟨s, hs, he⟩, rfl⟩
    have h1 := evalFuel_child (t := .str b!"!p") hm
    have h2 := evalFuel_child (t := t) (o := [x]) (x := x) (by simp)
    rw [← hx] at h2
    unfold stepsPath
    omega
  cases s with
  | name id => trivial
  | all id => trivial
  | nth id x k =>
    have := key (.select (.one x)) (by simp [PStep.elems]) (.str b!"!s") x.tree (by simp [Elem.tree, Expr.trees])
    simp only [StepFuel]; omega
  | index x i =>
    have := key (.index (.one x)) (by simp [PStep.elems]) (.str b!"!i") x.tree (by simp [Elem.tree, Expr.trees])
    simp only [StepFuel]; omega

theorem steps_len {ss : List PStep} (hne : ss ≠ []) : ¬ (stepsPath ss).len = 0 := by
  cases ss with
  | nil => exact absurd rfl hne
  | cons s ss => cases s <;> simp [stepsPath, Graph.len, PStep.elems] <;> omega

theorem StepFuel.mono {F F' : Nat} (h : F ≤ F') {s : PStep} (hs : StepFuel F s) : StepFuel F' s := by
  cases s <;> simp only [StepFuel] at hs ⊢ <;> omega

/-- `Get` along steps. -/
theorem get_steps {ss : List PStep} {g n : Graph} (hne : ss ≠ []) (hs : ∀ s ∈ ss, s.Ok E g) (hl : Fits (stepsText ss))
    (hd : Data E g) (h : follow E ss g = some n) : g.get E (stepsText ss) = .ok (n, g) := by
  cases g with
  | nil => exact absurd hd.1 (by simp [NoNil])
  | node t o =>
    have hF : 8 ≤ evalFuel (stepsPath ss) := by simp [evalFuel]
    obtain ⟨F, hFe⟩ : ∃ k, evalFuel (stepsPath ss) = k + 1 := ⟨evalFuel (stepsPath ss) - 1, by omega⟩
    obtain ⟨r, h1, h2⟩ := walk_follow (p := stepsPath ss) (F := F) (by omega) hd.1 ss { ctx := .node t o } hs
      (fun s hx => (steps_fuel s hx).mono (by omega)) (.inr hd) h
    simp only [Graph.get, newPath_steps hne hs hl, Res.ok_bind, hFe]
    have : getPath E (F + 1) (stepsPath ss) (.node t o) =
        match walkPath (getStep E F (stepsPath ss)) ((ss.flatMap PStep.elems).map Elem.tree) { ctx := .node t o } (.node t o) with
        | .ok (.next s, g') => .ok ((s.ctx, none), g')
        | .ok (.done r, g') => .ok (r, g')
        | .panic => .panic
        | .oof => .oof := by
      simp only [getPath, bind, EvalM.ctx, steps_len hne, Graph.isNil_node, Bool.false_eq_true, false_or, ↓reduceIte]
      simp only [stepsPath, Graph.out]
      generalize walkPath _ _ _ (Graph.node t o) = w
      cases w with
      | ok r => obtain ⟨st, g'⟩ := r; cases st <;> rfl
      | panic => rfl
      | oof => rfl
    rw [this, h1]
    cases r with
    | next s => simp only [Res.ok_bind]; rw [← h2]; rfl
    | done r => simp only [Res.ok_bind]; rw [← h2]; rfl

/-! ## Eval -/

theorem noNil_isNil {g : Graph} (h : NoNil g) : g.isNil = false := by
  cases g with
  | nil => exact absurd h (by simp [NoNil])
  | node t o => rfl

theorem evalStep_index {g : Graph} {o : Opnd} {i F : Nat} {p : Graph} {st : PathSt} {x : Graph} (hg : NoNil g) (h : HasIndex E g o i)
    (hF : evalFuel o.tree + 2 ≤ F) (hx : st.ctx.out[i]? = some x) :
    evalStep E F p (Elem.tree (.index (.one o))) st g = .ok (.next { st with ctx := x, prev := st.ctx, addRoot := true }, g) := by
  obtain ⟨F, rfl⟩ : ∃ j, F = j + 1 := ⟨F - 1, by omega⟩
  have hix := indexOf_value (rest := []) (t := .str b!"!i") hg h (f := F) (by omega)
  have hts : (Graph.node (.str b!"!i") [o.tree]).thisString E = tyIndex := by simp [Graph.thisString, vstr, tyIndex]
  have hi0 : ¬ ((i : Int) < 0) := by omega
  rw [show Elem.tree (.index (.one o)) = .node (.str b!"!i") [o.tree] from rfl, evalStep.eq_def]
  dsimp only
  rw [hts, if_pos rfl, EvalM.bind_eq hix, if_neg hi0]
  have hget : st.ctx.getAt (i : Int) = .ok x := by
    cases hc : st.ctx with
    | nil => rw [hc] at hx; simp [Graph.out] at hx
    | node t os =>
      rw [hc] at hx
      simp only [Graph.out_node] at hx
      have hlt := (List.getElem?_eq_some_iff.1 hx).1
      simp only [Graph.getAt]
      rw [if_neg (by omega)]
      simp [hx]
  rw [hget]
  rfl

theorem evalStep_select {g : Graph} {x : Elem} {s : Bytes} {k : Option Nat} {F : Nat} {p : Graph} {st : PathSt}
    (hx : (x = .all ∧ k = none) ∨ ∃ o j, x = .select (.one o) ∧ k = some j ∧ HasIndex E g o j ∧ evalFuel o.tree + 2 ≤ F)
    (hF : 2 ≤ F) (hg : NoNil g) (hp : NoNil st.prev) (he : st.elem = s) (hs : s ≠ []) :
    evalStep E F p x.tree st g =
      .ok (.next { st with ctx := .node (.str b!"{") (selected E s k st.prev.out), prev := st.ctx, addRoot := false }, g) := by
  obtain ⟨F, rfl⟩ : ∃ j, F = j + 1 := ⟨F - 1, by omega⟩
  have hts : x.tree.thisString E = tySelector := by
    rcases hx with ⟨rfl, _⟩ | ⟨o, j, rfl, _⟩ <;> simp [Elem.tree, leaf, Graph.thisString, vstr, tySelector]
  have hel : st.elem.isEmpty = false := by rw [he]; cases s <;> simp at hs ⊢
  rw [evalStep.eq_def]
  dsimp only
  have hc : ¬ (st.prev.isNil || st.elem.isEmpty) = true := by rw [noNil_isNil hp, hel]; simp
  rw [hts, if_neg (by decide), if_pos rfl, if_neg hc]
  subst he
  rcases hx with ⟨rfl, rfl⟩ | ⟨o, j, rfl, rfl, h1, h2⟩
  · obtain ⟨F, rfl⟩ : ∃ j, F = j + 1 := ⟨F - 1, by omega⟩
    simp only [Elem.tree, leaf, indexOf, bind, pure, EvalM.lift, selectNodes_all hp]
  · have hix := indexOf_value (rest := []) (t := .str b!"!s") hg h1 (f := F) (by omega)
    have hsel : EvalM.lift (selectNodes E st (j : Int)) g = .ok (some (.node (.str b!"{") (selected E st.elem (some j) st.prev.out)), g) := by
      rw [selectNodes_nth h1.2.1]; rfl
    rw [show Elem.tree (.select (.one o)) = .node (.str b!"!s") [o.tree] from rfl, EvalM.bind_eq hix, EvalM.bind_eq hsel]
    rfl

theorem noNil_selected {g : Graph} (h : NoNil g) (s : Bytes) (k : Option Nat) : NoNil (.node (.str b!"{") (selected E s k g.out)) := by
  have hmem : ∀ x ∈ allNamed E s g.out, NoNil x := fun x hx => noNilL_of_mem (noNilL_out h) (List.mem_filter.1 hx).1
  rw [noNil_node]
  cases k with
  | none =>
    simp only [selected]
    generalize allNamed E s g.out = l at hmem
    induction l with
    | nil => exact trivial
    | cons x xs ih => exact noNilL_append _ _ (noNilL_out (hmem x (by simp))) (ih fun y hy => hmem y (by simp [hy]))
  | some k =>
    simp only [selected]
    cases hk : (allNamed E s g.out)[k]? with
    | none => exact trivial
    | some x => exact noNilL_out (hmem x (List.mem_of_getElem? hk))

theorem noNil_child {g : Graph} (h : NoNil g) {id : Bytes} (hc : (firstNamed E id g.out).isNil = false) : NoNil (firstNamed E id g.out) := by
  rcases noNilL_find (E := E) (id := id) (noNilL_out h) with h' | h'
  · rw [h'] at hc; simp at hc
  · exact h'

theorem endsWithIndex_cons {s s' : PStep} {ss : List PStep} : endsWithIndex (s :: s' :: ss) = endsWithIndex (s' :: ss) := by
  simp [endsWithIndex, List.getLast?_cons_cons]

/-- A walk along steps that all find something. -/
theorem walk_reach {F : Nat} {p g n : Graph} (hF : 2 ≤ F) (hg : NoNil g) : ∀ (ss : List PStep) (st : PathSt), (∀ s ∈ ss, s.Ok E g) →
    (∀ s ∈ ss, s.NotReserved) → (∀ s ∈ ss, StepFuel F s) → NoNil st.ctx → reach E ss st.ctx = some n →
    ∃ st', walkPath (evalStep E F p) ((ss.flatMap PStep.elems).map Elem.tree) st g = .ok (.next st', g) ∧ st'.ctx = n ∧ NoNil n ∧
      st'.addRoot = if ss = [] then st.addRoot else endsWithIndex ss
  | [], st, _, _, _, hd, h => by
    simp only [reach, Option.some.injEq] at h
    exact ⟨st, rfl, h, h ▸ hd, by simp⟩
  | s :: ss, st, hok, hnr, hfu, hd, h => by
    have hok' : ∀ s ∈ ss, s.Ok E g := fun x hx => hok x (by simp [hx])
    have hfu' : ∀ s ∈ ss, StepFuel F s := fun x hx => hfu x (by simp [hx])
    have hnr' : ∀ s ∈ ss, s.NotReserved := fun x hx => hnr x (by simp [hx])
    have hs := hok s (by simp)
    have hf := hfu s (by simp)
    have hr := hnr s (by simp)
    have hnil := noNil_isNil hd
    have last : ∀ b : Bool, endsWithIndex [s] = b → (if ss = [] then b else endsWithIndex ss) = if s :: ss = [] then st.addRoot else endsWithIndex (s :: ss) := by
      intro b hb
      cases ss with
      | nil => simp [hb]
      | cons s' ss => simp [endsWithIndex_cons]
    obtain ⟨F, rfl⟩ : ∃ j, F = j + 2 := ⟨F - 2, by omega⟩
    cases s with
    | name id =>
      simp only [reach] at h
      cases hc : (firstNamed E id st.ctx.out).isNil with
      | true => simp [hc] at h
      | false =>
        simp only [hc, Bool.false_eq_true, ↓reduceIte] at h
        have h1 := evalStep_name (p := p) (g := g) (f := F) hs hr hd hc
        obtain ⟨st', h2, h3, h4, h5⟩ := walk_reach (p := p) hF hg ss ⟨firstNamed E id st.ctx.out, st.ctx, id, false⟩ hok' hnr' hfu' (noNil_child hd hc) h
        exact ⟨st', (walkPath_cons hnil h1).trans h2, h3, h4, h5.trans (last _ rfl)⟩
    | all id =>
      simp only [reach] at h
      cases hc : (firstNamed E id st.ctx.out).isNil with
      | true => simp [hc] at h
      | false =>
        simp only [hc, Bool.false_eq_true, ↓reduceIte] at h
        have h1 := evalStep_name (p := p) (g := g) (f := F) hs hr hd hc
        have h1' := evalStep_select (E := E) (p := p) (g := g) (F := F + 2) (x := .all) (k := none) (s := id)
          (st := { ctx := firstNamed E id st.ctx.out, prev := st.ctx, elem := id }) (.inl ⟨rfl, rfl⟩) (by omega) hg hd rfl (name_ne_nil hs)
        obtain ⟨st', h2, h3, h4, h5⟩ := walk_reach (p := p) hF hg ss
          ⟨.node (.str b!"{") (selected E id none st.ctx.out), firstNamed E id st.ctx.out, id, false⟩ hok' hnr' hfu' (noNil_selected hd id none) h
        exact ⟨st', ((walkPath_cons hnil h1).trans (walkPath_cons hc h1')).trans h2, h3, h4, h5.trans (last _ rfl)⟩
    | nth id x k =>
      simp only [reach] at h
      cases hc : (firstNamed E id st.ctx.out).isNil with
      | true => simp [hc] at h
      | false =>
        simp only [hc, Bool.false_eq_true, ↓reduceIte] at h
        have h1 := evalStep_name (p := p) (g := g) (f := F) hs.1 hr hd hc
        have h1' := evalStep_select (E := E) (p := p) (g := g) (F := F + 2) (x := .select (.one x)) (k := some k) (s := id)
          (st := { ctx := firstNamed E id st.ctx.out, prev := st.ctx, elem := id }) (.inr ⟨x, k, rfl, rfl, hs.2, hf⟩) (by omega) hg hd rfl
          (name_ne_nil hs.1)
        obtain ⟨st', h2, h3, h4, h5⟩ := walk_reach (p := p) hF hg ss
          ⟨.node (.str b!"{") (selected E id (some k) st.ctx.out), firstNamed E id st.ctx.out, id, false⟩ hok' hnr' hfu'
          (noNil_selected hd id (some k)) h
        exact ⟨st', ((walkPath_cons hnil h1).trans (walkPath_cons hc h1')).trans h2, h3, h4, h5.trans (last _ rfl)⟩
    | index x i =>
      simp only [reach] at h
      cases hx : st.ctx.out[i]? with
      | none => rw [hx] at h; cases h
      | some y =>
        rw [hx] at h
        have h1 := evalStep_index (p := p) (F := F + 2) (st := st) hg hs hf hx
        obtain ⟨st', h2, h3, h4, h5⟩ := walk_reach (p := p) hF hg ss ⟨y, st.ctx, st.elem, true⟩ hok' hnr' hfu'
          (noNilL_of_mem (noNilL_out hd) (List.mem_of_getElem? hx)) h
        exact ⟨st', (walkPath_cons hnil h1).trans h2, h3, h4, h5.trans (last _ rfl)⟩

theorem walkPath_append {α : Type} {step : Graph → PathSt → EvalM (PathStep α)} {g : Graph} {fs : List Graph} {st' : PathSt}
    (hn : st'.ctx.isNil = false) : ∀ (es : List Graph) (st : PathSt) (g1 : Graph), walkPath step es st g1 = .ok (.next st', g) →
    walkPath step (es ++ fs) st g1 = walkPath step fs st' g
  | [], st, g1, h => by cases h; rfl
  | e :: es, st, g1, h => by
    simp only [walkPath, List.cons_append] at h ⊢
    cases hc : st.ctx.isNil with
    | true =>
      simp only [hc, ↓reduceIte] at h
      cases h
      rw [hc] at hn; cases hn
    | false =>
      simp only [hc, Bool.false_eq_true, ↓reduceIte, bind] at h ⊢
      cases hs : step e st g1 with
      | ok r =>
        obtain ⟨r, g2⟩ := r
        rw [hs] at h
        cases r with
        | next s2 => exact walkPath_append hn es s2 g2 h
        | done r => cases h
      | panic => rw [hs] at h; cases h
      | oof => rw [hs] at h; cases h

theorem valueOf_simplify (n : Graph) : simplify n = valueOf n := by
  match n with
  | .nil => rfl
  | .node _ [] => rfl
  | .node _ [.nil] => rfl
  | .node _ [.node _ []] => rfl
  | .node _ [.node _ (_ :: _)] => rfl
  | .node _ (_ :: _ :: _) => rfl

/-- The value of a path node in the context. -/
theorem evals_stepsNode {ss : List PStep} {g : Graph} {es : List Graph} {v : Val} {F : Nat} (hne : ss ≠ []) (hg : NoNil g)
    (hw : walkPath (evalStep E F (.node (.str b!"!p") ((ss.flatMap PStep.elems).map Elem.tree ++ es))) ((ss.flatMap PStep.elems).map Elem.tree ++ es)
      { ctx := g } g = .ok (.done (v, none), g) ∨
      ∃ st, walkPath (evalStep E F (.node (.str b!"!p") ((ss.flatMap PStep.elems).map Elem.tree ++ es)))
        ((ss.flatMap PStep.elems).map Elem.tree ++ es) { ctx := g } g = .ok (.next st, g) ∧
        v = valueOf (if st.addRoot then ((Graph.new (.str b!"[")).add (.graph st.ctx)).1 else st.ctx)) :
    Evals E (.node (.str b!"!p") ((ss.flatMap PStep.elems).map Elem.tree ++ es)) g v g := by
  refine Evals.of (f := F + 2) ?_
  rw [evalExpr.eq_def]
  dsimp only
  rw [vstr_str, if_neg (by decide), if_neg (by decide), if_neg (by decide), if_neg (by decide), if_pos (by rfl), evalPath]
  have hlen : ¬ (Graph.node (.str b!"!p") ((ss.flatMap PStep.elems).map Elem.tree ++ es)).len = 0 := by
    cases ss with
    | nil => exact absurd rfl hne
    | cons s ss => cases s <;> simp [Graph.len, PStep.elems] <;> omega
  have hc : ¬ ((Graph.node (.str b!"!p") ((ss.flatMap PStep.elems).map Elem.tree ++ es)).len = 0 ∨ g.isNil = true) := by
    rw [noNil_isNil hg]; simp only [hlen, Bool.false_eq_true, or_self, not_false_eq_true]
  rw [EvalM.bind_eq (x := EvalM.ctx) (g := g) (g' := g) (a := g) rfl, if_neg hc]
  dsimp only
  rw [Graph.out_node]
  rcases hw with hw | ⟨st, hw, rfl⟩
  · rw [EvalM.bind_eq hw]; rfl
  · rw [EvalM.bind_eq hw]
    simp only [↓reduceIte, valueOf_simplify]
    rfl

theorem add_graph {t : Val} {n : Graph} (h : NoNil n) : ((Graph.new t).add (.graph n)).1 = .node t [n] := by
  cases n with
  | nil => exact absurd h (by simp [NoNil])
  | node t o => rfl

theorem evals_steps {ss : List PStep} {g n : Graph} (hne : ss ≠ []) (hs : ∀ s ∈ ss, s.Ok E g) (hnr : ∀ s ∈ ss, s.NotReserved) (hg : NoNil g)
    (h : reach E ss g = some n) : Evals E (stepsPath ss) g (pathValue ss n) g := by
  have hF : 8 ≤ evalFuel (stepsPath ss) := by simp [evalFuel]
  obtain ⟨st, h1, h2, h3, h4⟩ := walk_reach (p := stepsPath ss) (F := evalFuel (stepsPath ss)) (by omega) hg ss { ctx := g } hs hnr
    (fun s hx => (steps_fuel s hx).mono (by omega)) hg h
  have key := evals_stepsNode (E := E) (ss := ss) (g := g) (es := []) (v := pathValue ss n) (F := evalFuel (stepsPath ss)) hne hg
    (.inr ⟨st, by rw [List.append_nil]; exact h1, by
      rw [if_neg hne] at h4
      rw [h4, h2, add_graph h3, pathValue]
      cases endsWithIndex ss <;> rfl⟩)
  rw [List.append_nil] at key
  exact key

/-- The special element `_len` and the like at the end of a path. -/
theorem evals_special {ss : List PStep} {g n : Graph} {w : Bytes} {v : Val} (hne : ss ≠ []) (hs : ∀ s ∈ ss, s.Ok E g)
    (hnr : ∀ s ∈ ss, s.NotReserved) (hg : NoNil g) (h : reach E ss g = some n)
    (hw : ∀ F p st, st.ctx = n → evalStep E (F + 1) p (leaf w) st g = .ok (.done (v, none), g)) :
    Evals E (.node (.str b!"!p") ((ss.flatMap PStep.elems).map Elem.tree ++ [leaf w])) g v g := by
  have hF : 8 ≤ evalFuel (stepsPath ss) := by simp [evalFuel]
  obtain ⟨st, h1, h2, h3, _⟩ := walk_reach (p := .node (.str b!"!p") ((ss.flatMap PStep.elems).map Elem.tree ++ [leaf w]))
    (F := evalFuel (stepsPath ss)) (by omega) hg ss { ctx := g } hs hnr (fun s hx => (steps_fuel s hx).mono (by omega)) hg h
  have hn : st.ctx.isNil = false := by rw [h2]; exact noNil_isNil h3
  refine evals_stepsNode (F := evalFuel (stepsPath ss)) hne hg (.inl ?_)
  rw [walkPath_append hn _ _ _ h1]
  obtain ⟨F, hFe⟩ : ∃ j, evalFuel (stepsPath ss) = j + 1 := ⟨evalFuel (stepsPath ss) - 1, by omega⟩
  rw [hFe]
  exact walkPath_done hn (hw F _ st h2)

/-! ## Set with an index -/

theorem stepsText_indexed : ∀ (p : List Bytes) (i : Nat), stepsText (p.map PStep.name ++ [litIndex i]) = indexed p i := by
  intro p i
  have key : ∀ q : List Bytes, (elemsOf ((q.map PStep.name ++ [litIndex i]).flatMap PStep.elems)).text =
      q.flatMap (fun s => 46 :: s) ++ b!"[" ++ itoa i ++ b!"]" := by
    intro q
    induction q with
    | nil => simp [litIndex, PStep.elems, elemsOf, Elems.text, Elem.text, Expr.text, Opnd.text]
    | cons s q ih =>
      simp only [List.map_cons, List.cons_append, List.flatMap_cons, PStep.elems, List.nil_append, elemsOf, Elems.text, Elem.text, ih]
      simp
  cases p with
  | nil => simp [stepsText, litIndex, PStep.elems, indexed, dotted, elemsOf, Elems.text, Elem.text, Expr.text, Opnd.text, List.intercalate]
  | cons s q =>
    have hd : ∀ (s : Bytes) (q : List Bytes), dotted (s :: q) = s ++ q.flatMap (fun s => 46 :: s) := by
      intro s q
      induction q generalizing s with
      | nil => simp [dotted, List.intercalate]
      | cons t q ih =>
        have := ih t
        simp only [dotted, List.intercalate, List.intersperse, List.flatten_cons] at this ⊢
        rw [this]; simp
    simp only [stepsText, List.map_cons, List.cons_append, List.flatMap_cons, PStep.elems, List.nil_append, key, Elem.text, ↓reduceIte, indexed, hd]
    simp

theorem lit_ok {g : Graph} {i : Nat} (hi : i < 2 ^ 63 - 1) : (litIndex i).Ok E g := by
  refine ⟨itoa_num _, hi, ofInt64 (Int64.ofInt i), ?_, ?_⟩
  · have h := Means.int (E := E) (g := g) (Int64.ofInt (i : Int))
    rwa [Int64.toInt_ofInt_of_le (by omega) (by omega)] at h
  · simp only [asInt, ofInt64, Int64.ofInt_toInt]

theorem lit_int64 {i : Nat} (hi : i < 2 ^ 63 - 1) : (Elem.tree (.index (.one (.num (itoa i))))).int64 E = .ok (i : Int) := by
  have h : parseInt (itoa (i : Int)) = some (i : Int) := parseInt_itoa (by omega) (by omega)
  simp only [Elem.tree, Expr.trees, Opnd.tree, leaf, Graph.int64, Graph.interface, Res.ok_bind, vintf, vintf.go, h]

theorem putAt_eq {o : List Graph} {i : Nat} {v t : Val} (hi : i < 2 ^ 63 - 1) :
    putAt o i (Graph.new v) = .ok (putIndex v i (.node t o)).out := by
  unfold putAt
  have hn : ¬ ((i : Int) < 0 ∨ ((i : Int) ≥ o.length ∧ (i : Int) ≥ 2 ^ 63 - 1)) := by omega
  rw [if_neg hn]
  simp only [putIndex, Graph.out_node, Int.toNat_natCast, Graph.new]
  by_cases h : i < o.length
  · simp only [h, ↓reduceIte]
    have : i + 1 - o.length = 0 := by omega
    simp [this]
  · simp only [h, ↓reduceIte]
    have h1 : i + 1 - o.length = (i - o.length) + 1 := by omega
    rw [h1, List.replicate_succ', ← List.append_assoc]
    congr 1
    rw [List.set_append_right _ _ (by simp; omega)]
    have : i - (o ++ List.replicate (i - o.length) Graph.nil).length = 0 := by simp; omega
    rw [this]
    rfl

theorem setNew_index {i : Nat} (v : Val) (hi : i < 2 ^ 63 - 1) : ∀ (ids : List Bytes) (t : Val), (∀ id ∈ ids, Name E id) →
    ∃ r, setNew E v (ids.map leaf ++ [Elem.tree (.index (.one (.num (itoa i))))]) (.node t []) =
      .ok (changeAt E (putIndex v i) ids (.node t []), r)
  | [], t, _ => by
    have hts : (Elem.tree (.index (.one (.num (itoa i))))).thisString E = tyIndex := by
      simp [Elem.tree, Graph.thisString, vstr, tyIndex]
    refine ⟨Graph.new v, ?_⟩
    simp only [List.map_nil, List.nil_append, setNew, hts, ↓reduceIte, lit_int64 hi, Res.ok_bind, putAt_eq (t := t) (v := v) hi]
    rfl
  | id :: ids, t, hn => by
    obtain ⟨r, hr⟩ := setNew_index v hi ids (.str id) (fun i hi => hn i (by simp [hi]))
    refine ⟨r, ?_⟩
    simp only [List.map_cons, List.cons_append, setNew, leaf_thisString]
    rw [if_neg (show ¬ id = tyIndex from name_not_bang (hn id (by simp)) _)]
    simp only [leaf, addedNode] at hr ⊢
    simp only [hr, Res.ok_bind, changeAt, Graph.out, updateFirst, leaf, Graph.this, List.nil_append]

theorem setPath_index {i : Nat} (v : Val) (hi : i < 2 ^ 63 - 1) : ∀ (ids : List Bytes) (g : Graph), (∀ id ∈ ids, Name E id) → NoNil g →
    ∃ r, setPath E v (ids.map leaf ++ [Elem.tree (.index (.one (.num (itoa i))))]) g = .ok (changeAt E (putIndex v i) ids g, r)
  | _, .nil, _, h => absurd h (by simp [NoNil])
  | [], .node t o, _, _ => by
    have hts : (Elem.tree (.index (.one (.num (itoa i))))).thisString E = tyIndex := by
      simp [Elem.tree, Graph.thisString, vstr, tyIndex]
    refine ⟨Graph.new v, ?_⟩
    simp only [List.map_nil, List.nil_append, setPath, hts, ↓reduceIte, lit_int64 hi, Res.ok_bind, putAt_eq (t := t) (v := v) hi]
    rfl
  | id :: ids, .node t o, hn, hg => by
    have hb := name_not_bang (hn id (by simp))
    simp only [List.map_cons, List.cons_append, setPath, leaf_thisString]
    rw [if_neg (show ¬ id = tyIndex from hb _)]
    rcases findName_first (E := E) id (changeAt E (putIndex v i) ids) hg with ⟨h1, _, h3⟩ | ⟨j, h1, h2, h3, h4, h5⟩
    · obtain ⟨r, hr⟩ := setNew_index (E := E) v hi ids (.str id) (fun i hi => hn i (by simp [hi]))
      refine ⟨r, ?_⟩
      simp only [h1, Res.ok_bind, setNew, leaf_thisString]
      rw [if_neg (show ¬ id = tyIndex from hb _)]
      simp only [changeAt, Graph.out, h3, Graph.this]
      simp only [leaf, addedNode] at hr ⊢
      simp only [hr, Res.ok_bind]
    · obtain ⟨r, hr⟩ := setPath_index v hi ids (o.getD j .nil) (fun i hi => hn i (by simp [hi])) (by rw [h3]; exact h4)
      refine ⟨r, ?_⟩
      simp only [h1, Res.ok_bind, hr, changeAt, Graph.out, Graph.this, h5]

theorem names_lit_ok {g : Graph} {p : List Bytes} {i : Nat} (hp : ∀ id ∈ p, Name E id) (hi : i < 2 ^ 63 - 1) :
    ∀ s ∈ p.map PStep.name ++ [litIndex i], s.Ok E g := by
  intro s hs
  rcases List.mem_append.1 hs with h | h
  · obtain ⟨id, h1, rfl⟩ := List.mem_map.1 h
    exact hp id h1
  · rw [List.mem_singleton.1 h]; exact lit_ok hi

theorem set_indexed {p : List Bytes} {g : Graph} {i : Nat} (v : Val) (hp : ∀ id ∈ p, Name E id) (hi : i < 2 ^ 63 - 1)
    (hl : Fits (indexed p i)) (hg : NoNil g) : ∃ r, g.set E (indexed p i) v = .ok (changeAt E (putIndex v i) p g, r) := by
  cases g with
  | nil => exact absurd hg (by simp [NoNil])
  | node t o =>
    obtain ⟨r, hr⟩ := setPath_index (E := E) v hi p (.node t o) hp hg
    refine ⟨r, ?_⟩
    have hnp := newPath_steps (E := E) (g := .nil) (ss := p.map PStep.name ++ [litIndex i]) (by simp) (names_lit_ok hp hi)
      (by rw [stepsText_indexed]; exact hl)
    rw [stepsText_indexed] at hnp
    have he : ((p.map PStep.name ++ [litIndex i]).flatMap PStep.elems).map Elem.tree = p.map leaf ++ [Elem.tree (.index (.one (.num (itoa i))))] := by
      rw [List.flatMap_append, List.map_append]
      congr 1
      clear hnp hr hp hl
      induction p with
      | nil => rfl
      | cons a p ih => simp only [List.map_cons, List.flatMap_cons, PStep.elems, List.cons_append, List.nil_append, ih]; rfl
    simp only [Graph.set, hnp, Res.ok_bind, stepsPath, Graph.out_node, he]
    exact hr

/-! ## Texts of paths as expressions -/

theorem newExpression_elems {s : Bytes} {es : List Elem} (hs : ∀ e ∈ Elem.name s :: es, e.Ok E) (hc : ∃ c t, s = c :: t ∧ AsciiLetter c)
    (hna : ∀ e ∈ es, e.NoArgs) (hl : Fits (s ++ (elemsOf es).text)) :
    newExpression E (s ++ (elemsOf es).text) = .ok (exprOf (.node (.str b!"!p") ((Elem.name s :: es).map Elem.tree))) := by
  have hok : (Expr.one (.path s (elemsOf es))).Ok E :=
    ⟨by simpa [Elem.Ok] using hs (.name s) (by simp), hc, elemsOf_ok fun e he => hs e (by simp [he])⟩
  have h := newExpression_exact (E := E) (x := .one (.path s (elemsOf es))) hok (by simpa [Expr.text, Opnd.text] using hl)
    (t := .atom (.path s (elemsOf es))) hok rfl rfl
  simpa [Expr.text, Opnd.text, Grouping.full, Opnd.tree, elemsOf_trees, exprOf, Elem.tree] using h

theorem elemsOf_append : ∀ (as bs : List Elem), (elemsOf (as ++ bs)).text = (elemsOf as).text ++ (elemsOf bs).text
  | [], bs => by simp [elemsOf, Elems.text]
  | a :: as, bs => by simp [elemsOf, Elems.text, elemsOf_append as bs]

/-- A path that starts with a name, followed by further names. -/
theorem newExpression_steps {g : Graph} {ss : List PStep} {ws : List Bytes} (hf : StartsWithName ss) (hs : ∀ s ∈ ss, s.Ok E g) (hw : ∀ w ∈ ws, Name E w)
    (hl : Fits (stepsText ss ++ ws.flatMap (fun w => 46 :: w))) :
    newExpression E (stepsText ss ++ ws.flatMap (fun w => 46 :: w)) =
      .ok (exprOf (.node (.str b!"!p") ((ss.flatMap PStep.elems).map Elem.tree ++ ws.map leaf))) := by
  obtain ⟨s, es, he, hc⟩ : ∃ s es, ss.flatMap PStep.elems = .name s :: es ∧ ∃ c t, s = c :: t ∧ AsciiLetter c := by
    match ss, hf with
    | .name s :: ss, h => exact ⟨s, _, rfl, h⟩
    | .all s :: ss, h => exact ⟨s, _, rfl, h⟩
    | .nth s o k :: ss, h => exact ⟨s, _, rfl, h⟩
  have hok : ∀ e ∈ Elem.name s :: es, e.Ok E := by
    intro e h
    rw [← he] at h
    obtain ⟨s, h1, h2⟩ := List.mem_flatMap.1 h
    exact step_elems_ok (hs s h1) e h2
  have hna : ∀ e ∈ es, e.NoArgs := by
    intro e h
    have h : e ∈ Elem.name s :: es := by simp [h]
    rw [← he] at h
    obtain ⟨s, h1, h2⟩ := List.mem_flatMap.1 h
    exact step_elems_noArgs (hs s h1) e h2
  have htx : (elemsOf (ws.map Elem.name)).text = ws.flatMap (fun w => 46 :: w) := by
    clear hw hl
    induction ws with
    | nil => rfl
    | cons w ws ih => simp [elemsOf, Elems.text, Elem.text, ih]
  have ht : stepsText ss ++ ws.flatMap (fun w => 46 :: w) = s ++ (elemsOf (es ++ ws.map Elem.name)).text := by
    rw [elemsOf_append, htx]
    simp [stepsText, he, Elem.text]
  have htr : (ws.map Elem.name).map Elem.tree = ws.map leaf := by rw [List.map_map]; rfl
  rw [ht] at hl ⊢
  rw [newExpression_elems (es := es ++ ws.map Elem.name) ?_ hc ?_ hl, he, ← htr, ← List.map_append, List.cons_append]
  · intro e h
    rw [← List.cons_append, List.mem_append] at h
    rcases h with h | h
    · exact hok e h
    · obtain ⟨w, h1, rfl⟩ := List.mem_map.1 h
      simpa [Elem.Ok] using hw w h1
  · intro e h
    rcases List.mem_append.1 h with h | h
    · exact hna e h
    · obtain ⟨w, h1, rfl⟩ := List.mem_map.1 h
      simp [Elem.NoArgs]

/-! ## What is found after a change -/

theorem firstNamed_cons (id : Bytes) (g : Graph) (gs : List Graph) :
    firstNamed E id (g :: gs) = if g.thisString E = id then g else firstNamed E id gs := by
  by_cases h : g.thisString E = id <;> simp [firstNamed, h]

theorem firstNamed_update {f : Graph → Graph} (id : Bytes) (hf : ∀ t o, (f (.node t o)).this = t ∧ (f (.node t o)).isNil = false) : ∀ o : List Graph,
    NoNilL o → ∃ t o', firstNamed E id (updateFirst E id f o) = f (.node t o') ∧ o' = (firstNamed E id o).out ∧ NoNilL o'
  | [], _ => by
    obtain ⟨h1, h2⟩ := hf (.str id) []
    refine ⟨.str id, [], ?_, rfl, trivial⟩
    have : (f (leaf id)).thisString E = id := by
      cases h : f (leaf id) with
      | nil => rw [show leaf id = .node (.str id) [] from rfl] at h; rw [h] at h2; cases h2
      | node t o => rw [show leaf id = .node (.str id) [] from rfl] at h; rw [h] at h1; simp only [Graph.this] at h1; subst h1; simp [Graph.thisString, vstr]
    simp only [updateFirst, firstNamed_cons, this, ↓reduceIte]; rfl
  | .nil :: _, h => absurd h.1 (by simp [NoNil])
  | .node t k :: gs, h => by
    by_cases hid : (Graph.node t k).thisString E = id
    · obtain ⟨h1, h2⟩ := hf t k
      have : (f (.node t k)).thisString E = id := by
        cases hh : f (.node t k) with
        | nil => rw [hh] at h2; cases h2
        | node t' o => rw [hh] at h1; simp only [Graph.this] at h1; subst h1; simpa [Graph.thisString] using hid
      refine ⟨t, k, ?_, ?_, h.1⟩
      · simp only [updateFirst, hid, ↓reduceIte, firstNamed_cons, this]
      · simp only [firstNamed_cons, hid, ↓reduceIte, Graph.out_node]
    · obtain ⟨t', o', h1, h2, h3⟩ := firstNamed_update id hf gs h.2
      refine ⟨t', o', ?_, ?_, h3⟩
      · simp only [updateFirst, hid, ↓reduceIte, firstNamed_cons, h1]
      · simpa only [firstNamed_cons, hid, ↓reduceIte] using h2

theorem changeAt_this {f : Graph → Graph} (hf : ∀ t o, (f (.node t o)).this = t ∧ (f (.node t o)).isNil = false) :
    ∀ (p : List Bytes) (t : Val) (o : List Graph), (changeAt E f p (.node t o)).this = t ∧ (changeAt E f p (.node t o)).isNil = false
  | [], t, o => hf t o
  | _ :: _, _, _ => ⟨rfl, rfl⟩

/-- After a change of the node at `p`, steps that begin with `p` go on from the changed node. -/
theorem follow_changeAt {f : Graph → Graph} (hf : ∀ t o, (f (.node t o)).this = t ∧ (f (.node t o)).isNil = false) (ss : List PStep) :
    ∀ (p : List Bytes) (t : Val) (o : List Graph), NoNilL o →
    ∃ t', follow E (p.map PStep.name ++ ss) (changeAt E f p (.node t o)) = follow E ss (f (.node t' (lookup E p (.node t o)).out))
  | [], t, o, _ => ⟨t, rfl⟩
  | id :: p, t, o, h => by
    obtain ⟨t1, o1, h1, h2, h3⟩ := firstNamed_update (E := E) id (changeAt_this hf p) o h
    obtain ⟨t2, h4⟩ := follow_changeAt hf ss p t1 o1 h3
    refine ⟨t2, ?_⟩
    have e : follow E ((id :: p).map PStep.name ++ ss) (changeAt E f (id :: p) (.node t o)) =
        follow E (p.map PStep.name ++ ss) (firstNamed E id (updateFirst E id (changeAt E f p) o)) := rfl
    rw [e, h1, h4]
    congr 2
    show _ = Graph.node t2 (lookup E p (firstNamed E id o)).out
    subst h2
    congr 1
    cases hq : firstNamed E id o with
    | node t3 o3 =>
      cases p with
      | nil => rfl
      | cons i p => rfl
    | nil =>
      cases p with
      | nil => rfl
      | cons i p => rfl

theorem putIndex_get {v : Val} {i : Nat} {t : Val} {o : List Graph} (h : i ≤ o.length) :
    (putIndex v i (.node t o)).out[i]? = some (.node v []) := by
  have e : (putIndex v i (.node t o)).out = if i < o.length then o.set i (.node v []) else o ++ List.replicate (i - o.length) .nil ++ [.node v []] := rfl
  rw [e]
  split
  · simp [*]
  · have : i = o.length := by omega
    subst this
    simp

theorem noNilL_of_all {o : List Graph} (h : ∀ g ∈ o, NoNil g) : NoNilL o := by
  induction o with
  | nil => trivial
  | cons x xs ih => exact ⟨h x (by simp), ih fun g hg => h g (by simp [hg])⟩

theorem allThisL_of_all {P : Val → Prop} {o : List Graph} (h : ∀ g ∈ o, AllThis P g) : AllThisL P o := by
  induction o with
  | nil => trivial
  | cons x xs ih => exact ⟨h x (by simp), ih fun g hg => h g (by simp [hg])⟩

theorem putIndex_data {v : Val} {i : Nat} {t : Val} {o : List Graph} (hv : Inert E v) (h : i ≤ o.length) (hd : Data E (.node t o)) :
    Data E (putIndex v i (.node t o)) := by
  have hmem : ∀ x ∈ (putIndex v i (.node t o)).out, x ∈ o ∨ x = .node v [] := by
    intro x hx
    have e : (putIndex v i (.node t o)).out = if i < o.length then o.set i (.node v []) else o ++ List.replicate (i - o.length) .nil ++ [.node v []] := rfl
    rw [e] at hx
    split at hx
    · exact List.mem_or_eq_of_mem_set hx
    · rw [show i - o.length = 0 by omega] at hx
      simpa using hx
  refine ⟨noNilL_of_all fun x hx => ?_, ⟨hd.2.1, allThisL_of_all fun x hx => ?_⟩⟩
  · rcases hmem x hx with h | rfl
    · exact noNilL_of_mem hd.1 h
    · exact trivial
  · rcases hmem x hx with h | rfl
    · exact allThisL_of_mem hd.2.2 h
    · exact ⟨hv, trivial⟩

theorem changeAt_data {f : Graph → Graph} : ∀ (p : List Bytes) (t : Val) (o : List Graph), (∀ id ∈ p, Inert E (.str id)) → Data E (.node t o) →
    (∀ t', Inert E t' → Data E (f (.node t' (lookup E p (.node t o)).out))) → Data E (changeAt E f p (.node t o))
  | [], t, o, _, h, hf => hf t h.2.1
  | id :: p, t, o, hs, h, hf => by
    have key : ∀ o, Data E (.node t o) → (∀ t', Inert E t' → Data E (f (.node t' (lookup E (id :: p) (.node t o)).out))) →
        Data E (.node t (updateFirst E id (changeAt E f p) o)) := by
      intro o
      induction o with
      | nil =>
        intro h hf
        have := changeAt_data (f := f) p (.str id) [] (fun x hx => hs x (by simp [hx])) ⟨trivial, hs id (by simp), trivial⟩ (by
          intro t' ht'
          have := hf t' ht'
          cases p <;> exact this)
        exact ⟨⟨this.1, trivial⟩, h.2.1, this.2, trivial⟩
      | cons g gs ih =>
        intro h hf
        cases g with
        | nil => exact absurd h.1.1 (by simp [NoNil])
        | node t1 o1 =>
          by_cases hid : (Graph.node t1 o1).thisString E = id
          · have := changeAt_data (f := f) p t1 o1 (fun x hx => hs x (by simp [hx])) ⟨h.1.1, h.2.2.1⟩ (by
              intro t' ht'
              have := hf t' ht'
              simpa only [lookup, Graph.out_node, firstNamed_cons, hid, ↓reduceIte] using this)
            simp only [updateFirst, hid, ↓reduceIte]
            exact ⟨⟨this.1, h.1.2⟩, h.2.1, this.2, h.2.2.2⟩
          · have := ih ⟨h.1.2, h.2.1, h.2.2.2⟩ (by
              intro t' ht'
              have := hf t' ht'
              simpa only [lookup, Graph.out_node, firstNamed_cons, hid, ↓reduceIte] using this)
            simp only [updateFirst, hid, ↓reduceIte]
            exact ⟨⟨h.1.1, this.1⟩, h.2.1, h.2.2.1, this.2.2⟩
    exact key o h hf

end
end Ogdl
