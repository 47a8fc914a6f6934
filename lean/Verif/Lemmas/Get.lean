import Verif.Props.Path
import Verif.Lemmas.EvalTotal

/-! `Get` and `Set` with paths made of names. -/

namespace Ogdl
open Spec

section
variable {E : Ext}

/-- A name does not begin with an exclamation mark. -/
theorem name_not_bang {s : Bytes} (h : Name E s) (t : Bytes) : s ≠ 33 :: t := by
  obtain ⟨rs, hne, hr, rfl⟩ := h
  cases rs with
  | nil => exact absurd rfl hne
  | cons r rs =>
    intro heq
    obtain ⟨c, w, hw, hc⟩ := encodeRune_head r
    rw [List.flatMap_cons, hw] at heq
    simp only [List.cons_append, List.cons.injEq] at heq
    obtain ⟨rfl, _⟩ := heq
    obtain ⟨hv, hn⟩ := hr r (by simp)
    by_cases h80 : r < 0x80
    · rw [if_pos h80] at hc
      have : r = 33 := by rw [← hc.1]; rfl
      subst this
      rcases hn with h | h
      · exact absurd h (by decide)
      · rw [if_pos (by decide)] at h
        rcases h with h | h
        · exact absurd h (by decide)
        · omega
    · rw [if_neg h80] at hc
      exact absurd hc (by decide)

theorem name_ne_nil {s : Bytes} (h : Name E s) : s ≠ [] := by
  obtain ⟨c, t, rfl, _⟩ := name_head h
  simp

theorem leaf_thisString (s : Bytes) : (leaf s).thisString E = s := by
  simp [leaf, Graph.thisString, vstr]

theorem noNilL_find {E : Ext} {id : Bytes} : ∀ {gs : List Graph}, NoNilL gs → firstNamed E id gs = .nil ∨ NoNil (firstNamed E id gs)
  | [], _ => .inl rfl
  | g :: gs, h => by
    simp only [firstNamed, List.find?]
    split
    · exact .inr h.1
    · exact noNilL_find h.2

theorem allThisL_find {P : Val → Prop} {id : Bytes} : ∀ {gs : List Graph}, AllThisL P gs → AllThis P (firstNamed E id gs)
  | [], _ => trivial
  | g :: gs, h => by
    simp only [firstNamed, List.find?]
    split
    · exact h.1
    · exact allThisL_find h.2

theorem nodeLoop_eq (id : Bytes) : ∀ {gs : List Graph}, NoNilL gs → nodeLoop E id gs = .ok (firstNamed E id gs)
  | [], _ => rfl
  | .nil :: _, h => absurd h.1 (by simp [NoNil])
  | .node t o :: gs, h => by
    have ht : (Graph.node t o).thisString E = vstr E t := rfl
    simp only [nodeLoop, firstNamed, List.find?, ht]
    by_cases hid : vstr E t = id
    · simp [hid]
    · rw [if_neg (fun h => hid h.symm), nodeLoop_eq id h.2]
      simp [hid, firstNamed]

theorem Spec.Data.child {g : Graph} (h : Data E g) (id : Bytes) :
    firstNamed E id g.out = .nil ∨ Data E (firstNamed E id g.out) := by
  obtain ⟨h1, h2⟩ := h
  cases g with
  | nil => exact absurd h1 (by simp [NoNil])
  | node t o =>
    rcases noNilL_find (E := E) (id := id) h1 with h | h
    · exact .inl h
    · exact .inr ⟨h, allThisL_find h2.2⟩

theorem lookup_nil (E : Ext) : ∀ ids, lookup E ids .nil = .nil
  | [] => rfl
  | _ :: ids => lookup_nil E ids

theorem lookup_append (E : Ext) : ∀ (p q : List Bytes) (g : Graph), lookup E (p ++ q) g = lookup E q (lookup E p g)
  | [], _, _ => rfl
  | _ :: p, q, _ => lookup_append E p q _

theorem lookup_data : ∀ (ids : List Bytes) {g : Graph}, Data E g → lookup E ids g = .nil ∨ Data E (lookup E ids g)
  | [], _, h => .inr h
  | id :: ids, g, h => by
    rcases h.child id with h' | h'
    · exact .inl (by rw [lookup, h', lookup_nil])
    · exact lookup_data ids h'

/-- Follow names as the code does: a nil subnode met on the way is a panic. -/
def lookupR (E : Ext) : List Bytes → Graph → Res Graph
  | [], g => .ok g
  | id :: ids, g => if g.isNil then .ok .nil else (g.nodeNamed E id).bind (lookupR E ids)

theorem lookupR_nil (E : Ext) : ∀ ids, lookupR E ids .nil = .ok .nil
  | [] => rfl
  | _ :: _ => rfl

theorem lookupR_append (E : Ext) : ∀ (p q : List Bytes) (g : Graph),
    lookupR E (p ++ q) g = (lookupR E p g).bind (lookupR E q)
  | [], _, _ => rfl
  | id :: p, q, g => by
    simp only [List.cons_append, lookupR]
    split
    · simp [Res.bind, lookupR_nil]
    · cases g.nodeNamed E id with
      | ok n => exact lookupR_append E p q n
      | panic => rfl
      | oof => rfl

theorem lookupR_noNil : ∀ (ids : List Bytes) (g : Graph), g = .nil ∨ NoNil g → lookupR E ids g = .ok (lookup E ids g)
  | [], _, _ => rfl
  | id :: ids, .nil, _ => by rw [lookupR_nil, lookup_nil]
  | id :: ids, .node t o, h => by
    have h : NoNilL o := by rcases h with h | h; cases h; exact h
    have hn : (Graph.node t o).nodeNamed E id = .ok (firstNamed E id o) := nodeLoop_eq id h
    simp only [lookupR, Graph.isNil_node, Bool.false_eq_true, ↓reduceIte, hn, Res.bind]
    exact lookupR_noNil ids _ (noNilL_find h)

theorem nodeLoop_allThis {P : Val → Prop} {id : Bytes} : ∀ {o : List Graph} {n : Graph}, AllThisL P o → nodeLoop E id o = .ok n → AllThis P n
  | [], n, _, h => by cases h; trivial
  | .nil :: _, _, _, h => by cases h
  | .node t k :: gs, n, ha, h => by
    simp only [nodeLoop] at h
    split at h
    · cases h; exact ha.1
    · exact nodeLoop_allThis ha.2 h

/-- The node a walk ends with. -/
def PathStep.result : PathStep (Graph × Option Err) → Graph
  | .next s => s.ctx
  | .done r => r.1

theorem isNil_eq {g : Graph} (h : g.isNil = true) : g = .nil := by
  cases g with
  | nil => rfl
  | node a b => simp at h

theorem getStep_name {f : Nat} {p : Graph} {id : Bytes} {s : PathSt} {g : Graph} (hid : Name E id)
    (hd : AllThis (Inert E) s.ctx) (hnn : s.ctx.isNil = false) :
    (s.ctx.nodeNamed E id = .panic ∧ getStep E (f + 3) p (leaf id) s g = .panic) ∨
    ∃ n, s.ctx.nodeNamed E id = .ok n ∧
      ((∃ s', getStep E (f + 3) p (leaf id) s g = .ok (.next s', g) ∧ s'.ctx = n) ∨
       (∃ err, getStep E (f + 3) p (leaf id) s g = .ok (.done (.nil, some err), g) ∧ n = .nil)) := by
  have hb := name_not_bang hid
  have hstep : getStep E (f + 3) p (leaf id) s g = getName E (f + 2) p id s g := by
    simp only [getStep, leaf_thisString]
    rw [if_neg (show ¬ id = tyIndex from hb _), if_neg (show ¬ id = tySelector from hb _),
      if_neg (show ¬ id = tyArguments from hb _), if_neg (show ¬ id = tyGroup from hb _)]
  rw [hstep]
  obtain ⟨sctx, prev, elem, ar⟩ := s
  cases sctx with
  | nil => simp at hnn
  | node t o =>
    cases hnode : (Graph.node t o).nodeNamed E id with
    | oof => exact absurd hnode nodeLoop_ne_oof
    | panic =>
      left
      refine ⟨rfl, ?_⟩
      simp only [getName, bind, EvalM.lift, hnode]
    | ok n =>
      right
      refine ⟨n, rfl, ?_⟩
      by_cases hc : n.isNil = true ∧ (Graph.node t o).len > 0
      · right
        cases o with
        | nil => simp [Graph.len] at hc
        | cons x xs =>
          cases x with
          | nil => cases hnode
          | node t' o' =>
            have hcall : callableOf E t' = .none := by
              have h' : Inert E t' := hd.2.1.1
              cases t' <;> first | rfl | exact h'
            refine ⟨.functionNoGraph, ?_, isNil_eq hc.1⟩
            simp only [getName, bind, EvalM.lift, hnode, hc.1, hc.2, decide_true, Bool.and_true, ↓reduceIte, firstThis, function,
              hcall, pure]
      · left
        refine ⟨{ ctx := n, prev := .node t o, elem := id }, ?_, rfl⟩
        have hc' : (n.isNil && decide ((Graph.node t o).len > 0)) = false := by
          rw [Bool.eq_false_iff]
          intro h
          simp only [Bool.and_eq_true, decide_eq_true_eq] at h
          exact hc h
        simp only [getName, bind, EvalM.lift, hnode, hc', Bool.false_eq_true, ↓reduceIte, pure]

theorem walk_names {f : Nat} {p g : Graph} : ∀ (ids : List Bytes) (s : PathSt), (∀ id ∈ ids, Name E id) →
    AllThis (Inert E) s.ctx →
    (lookupR E ids s.ctx = .panic ∧ walkPath (getStep E (f + 3) p) (ids.map leaf) s g = .panic) ∨
    ∃ st, walkPath (getStep E (f + 3) p) (ids.map leaf) s g = .ok (st, g) ∧ lookupR E ids s.ctx = .ok st.result
  | [], s, _, _ => .inr ⟨.next s, rfl, rfl⟩
  | id :: ids, s, hn, hd => by
    cases hnil : s.ctx.isNil with
    | true =>
      right
      refine ⟨.next s, ?_, ?_⟩
      · simp [walkPath, hnil, pure]
      · simp only [PathStep.result, isNil_eq hnil, lookupR_nil]
    | false =>
      simp only [List.map_cons, walkPath, hnil, Bool.false_eq_true, ↓reduceIte, lookupR]
      rcases getStep_name (f := f) (p := p) (g := g) (hn id (by simp)) hd hnil with ⟨h1, h2⟩ | ⟨n, h0, ⟨s', h1, h2⟩ | ⟨err, h1, h2⟩⟩
      · left
        rw [h1]
        refine ⟨rfl, ?_⟩
        simp only [bind, h2]
      · have hs' : AllThis (Inert E) s'.ctx := by
          rw [h2]
          cases hc : s.ctx with
          | nil => rw [hc] at hnil; simp at hnil
          | node t o => rw [hc] at h0 hd; exact nodeLoop_allThis hd.2 h0
        rcases walk_names (f := f) (p := p) (g := g) ids s' (fun i hi => hn i (by simp [hi])) hs' with ⟨h3, h4⟩ | ⟨st, h3, h4⟩
        · left
          rw [h0, Res.bind, ← h2]
          refine ⟨h3, ?_⟩
          simp only [bind, h1, h4]
        · right
          refine ⟨st, ?_, ?_⟩
          · simp only [bind, h1, h3]
          · rw [h0, Res.bind, ← h2, h4]
      · right
        refine ⟨.done (.nil, some err), ?_, ?_⟩
        · simp only [bind, h1, pure]
        · rw [h0, Res.bind, h2, lookupR_nil]; rfl

theorem getPath_names {f : Nat} {ids : List Bytes} {g : Graph} (hp : Path E ids) (hd : AllThis (Inert E) g) (hg : g.isNil = false) :
    (lookupR E ids g = .panic ∧ getPath E (f + 4) (pathOf ids) g = .panic) ∨
    ∃ n err, lookupR E ids g = .ok n ∧ getPath E (f + 4) (pathOf ids) g = .ok ((n, err), g) := by
  have hlen : ¬ ((pathOf ids).len = 0 ∨ g.isNil = true) := by
    rw [hg]
    have := hp.1
    simp [pathOf, Graph.len, this]
  have hstep : getPath E (f + 4) (pathOf ids) g =
      match walkPath (getStep E (f + 3) (pathOf ids)) (ids.map leaf) { ctx := g } g with
      | .ok (.next s, g') => .ok ((s.ctx, none), g')
      | .ok (.done r, g') => .ok (r, g')
      | .panic => .panic
      | .oof => .oof := by
    simp only [getPath, bind, EvalM.ctx, hlen, ↓reduceIte]
    simp only [pathOf, Graph.out]
    generalize walkPath _ _ _ g = w
    cases w with
    | ok r =>
      obtain ⟨st, g'⟩ := r
      cases st <;> rfl
    | panic => rfl
    | oof => rfl
  rw [hstep]
  rcases walk_names (E := E) (f := f) (p := pathOf ids) (g := g) ids { ctx := g } hp.2 hd with ⟨h1, h2⟩ | ⟨st, h1, h2⟩
  · exact .inl ⟨h1, by rw [h2]⟩
  · right
    cases st with
    | next s => exact ⟨s.ctx, none, h2, by rw [h1]⟩
    | done r => exact ⟨r.1, r.2, h2, by rw [h1]⟩

/-- `Get` with names joined by dots, in any graph without functions. -/
theorem get_namesR {ids : List Bytes} {g : Graph} (hp : Path E ids) (hl : Fits (dotted ids)) (hd : AllThis (Inert E) g) :
    g.get E (dotted ids) = (lookupR E ids g).bind fun n => .ok (n, g) := by
  cases g with
  | nil => simp [Graph.get, lookupR_nil, Res.bind]
  | node t o =>
    have hf : evalFuel (pathOf ids) = (evalFuel (pathOf ids) - 4) + 4 := by simp only [evalFuel]; omega
    have h := getPath_names (E := E) (f := evalFuel (pathOf ids) - 4) hp hd rfl
    rw [← hf] at h
    simp only [Graph.get, C16_partial E ids hp.1 hp.2 hl, Res.ok_bind]
    rcases h with ⟨h1, h2⟩ | ⟨n, err, h1, h2⟩
    · rw [h1, h2]; rfl
    · rw [h1, h2]; rfl

/-- `Get` with names joined by dots, in a graph of data. -/
theorem get_names {ids : List Bytes} {g : Graph} (hp : Path E ids) (hl : Fits (dotted ids)) (hd : g = .nil ∨ Data E g) :
    g.get E (dotted ids) = .ok (lookup E ids g, g) := by
  have ha : AllThis (Inert E) g := by
    rcases hd with rfl | h
    · trivial
    · exact h.2
  rw [get_namesR hp hl ha, lookupR_noNil ids g (hd.imp id (·.1))]
  rfl

/-! ## Set -/

theorem findName_first (id : Bytes) (F : Graph → Graph) : ∀ {o : List Graph}, NoNilL o →
    (findName E id o = .ok none ∧ firstNamed E id o = .nil ∧ updateFirst E id F o = o ++ [F (leaf id)]) ∨
    (∃ i, findName E id o = .ok (some i) ∧ i < o.length ∧ o.getD i .nil = firstNamed E id o ∧ NoNil (firstNamed E id o) ∧
      updateFirst E id F o = o.set i (F (o.getD i .nil)))
  | [], _ => .inl ⟨rfl, rfl, rfl⟩
  | .nil :: _, h => absurd h.1 (by simp [NoNil])
  | .node t k :: gs, h => by
    by_cases hid : vstr E t = id
    · right
      refine ⟨0, ?_, by simp, ?_, ?_, ?_⟩
      · simp [findName, hid]
      · simp [firstNamed, Graph.thisString, hid]
      · simp [firstNamed, Graph.thisString, hid, h.1]
      · simp [updateFirst, Graph.thisString, hid]
    · have hid' : ¬ id = vstr E t := fun h => hid h.symm
      rcases findName_first id F h.2 with ⟨h1, h2, h3⟩ | ⟨i, h1, h2, h3, h4, h5⟩
      · left
        refine ⟨?_, ?_, ?_⟩
        · simp [findName, hid', h1]
        · simpa [firstNamed, Graph.thisString, hid] using h2
        · simp [updateFirst, Graph.thisString, hid, h3]
      · right
        have hf : firstNamed E id (.node t k :: gs) = firstNamed E id gs := by simp [firstNamed, Graph.thisString, hid]
        refine ⟨i + 1, ?_, by simpa using h2, ?_, ?_, ?_⟩
        · simp [findName, hid', h1]
        · rw [hf, ← h3]; simp
        · rw [hf]; exact h4
        · simp only [updateFirst, Graph.thisString, hid, ↓reduceIte, h5]
          simp

theorem setLast_eq (v : Val) (t : Val) (o : List Graph) : ∃ r, setLast v (.node t o) = .ok (.node t (subnodesOf v), r) := by
  cases v with
  | graph g => cases g <;> exact ⟨_, by simp [setLast, Graph.addNodesVal, subnodesOf]; rfl⟩
  | _ => exact ⟨_, by simp [setLast, Graph.addNodesVal, subnodesOf]; rfl⟩

theorem setNew_names (v : Val) : ∀ (ids : List Bytes) (t : Val) (o : List Graph), (∀ id ∈ ids, Name E id) → o = [] →
    ∃ r, setNew E v (ids.map leaf) (.node t o) = .ok (store E v ids (.node t o), r)
  | [], t, o, _, _ => by simpa [setNew, store, Graph.this] using setLast_eq v t o
  | id :: ids, t, o, hn, ho => by
    subst ho
    obtain ⟨r, hr⟩ := setNew_names v ids (.str id) [] (fun i hi => hn i (by simp [hi])) rfl
    refine ⟨r, ?_⟩
    simp only [List.map_cons, setNew, leaf_thisString]
    rw [if_neg (show ¬ id = tyIndex from name_not_bang (hn id (by simp)) _)]
    simp only [leaf, addedNode] at hr ⊢
    simp only [hr, Res.ok_bind, store, Graph.out, updateFirst, leaf, Graph.this, List.nil_append]

theorem setPath_names (v : Val) : ∀ (ids : List Bytes) (g : Graph), (∀ id ∈ ids, Name E id) → NoNil g →
    ∃ r, setPath E v (ids.map leaf) g = .ok (store E v ids g, r)
  | _, .nil, _, h => absurd h (by simp [NoNil])
  | [], .node t o, _, _ => by simpa [setPath, store, Graph.this] using setLast_eq v t o
  | id :: ids, .node t o, hn, hg => by
    have hb := name_not_bang (hn id (by simp))
    simp only [List.map_cons, setPath, leaf_thisString]
    rw [if_neg (show ¬ id = tyIndex from hb _)]
    rcases findName_first (E := E) id (store E v ids) hg with ⟨h1, _, h3⟩ | ⟨i, h1, h2, h3, h4, h5⟩
    · obtain ⟨r, hr⟩ := setNew_names (E := E) v ids (.str id) [] (fun i hi => hn i (by simp [hi])) rfl
      refine ⟨r, ?_⟩
      simp only [h1, Res.ok_bind, setNew, leaf_thisString]
      rw [if_neg (show ¬ id = tyIndex from hb _)]
      simp only [store, Graph.out, h3, Graph.this]
      simp only [leaf, addedNode] at hr ⊢
      simp only [hr, Res.ok_bind]
    · obtain ⟨r, hr⟩ := setPath_names v ids (o.getD i .nil) (fun i hi => hn i (by simp [hi])) (by rw [h3]; exact h4)
      refine ⟨r, ?_⟩
      simp only [h1, Res.ok_bind, hr, store, Graph.out, Graph.this, h5]

/-- `Set` with names joined by dots. -/
theorem set_names {ids : List Bytes} {g : Graph} (v : Val) (hp : Path E ids) (hl : Fits (dotted ids)) (hg : NoNil g) :
    ∃ r, g.set E (dotted ids) v = .ok (store E v ids g, r) := by
  cases g with
  | nil => exact absurd hg (by simp [NoNil])
  | node t o =>
    obtain ⟨r, hr⟩ := setPath_names (E := E) v ids (.node t o) hp.2 hg
    refine ⟨r, ?_⟩
    simp only [Graph.set, C16_partial E ids hp.1 hp.2 hl, Res.ok_bind]
    exact hr

/-! ## Facts about the specification -/

theorem store_thisString (v : Val) (ids : List Bytes) (g : Graph) (hg : NoNil g) :
    (store E v ids g).thisString E = g.thisString E := by
  cases g with
  | nil => exact absurd hg (by simp [NoNil])
  | node t o => cases ids <;> rfl

theorem noNilL_of_mem {g : Graph} {o : List Graph} (h : NoNilL o) (hg : g ∈ o) : NoNil g := by
  induction o with
  | nil => simp at hg
  | cons x xs ih =>
    rcases List.mem_cons.1 hg with rfl | hg
    · exact h.1
    · exact ih h.2 hg

/-- The node that was changed is the first with its text. -/
theorem firstNamed_updateFirst (id : Bytes) (v : Val) (ids : List Bytes) : ∀ o : List Graph, NoNilL o →
    ∃ g, NoNil g ∧ firstNamed E id (updateFirst E id (store E v ids) o) = store E v ids g ∧
      (g = firstNamed E id o ∨ (g = leaf id ∧ firstNamed E id o = .nil))
  | [], _ => ⟨leaf id, by simp [leaf, NoNil, NoNilL], by
      have := store_thisString (E := E) v ids (leaf id) (by simp [leaf, NoNil, NoNilL])
      simp [updateFirst, firstNamed, this, leaf_thisString], .inr ⟨rfl, rfl⟩⟩
  | g :: gs, h => by
    by_cases hid : g.thisString E = id
    · refine ⟨g, h.1, ?_, .inl ?_⟩
      · have := store_thisString (E := E) v ids g h.1
        simp [updateFirst, firstNamed, this, hid]
      · simp [firstNamed, hid]
    · obtain ⟨g', h1, h2, h3⟩ := firstNamed_updateFirst id v ids gs h.2
      refine ⟨g', h1, ?_, ?_⟩
      · rw [← h2]
        simp [updateFirst, firstNamed, hid]
      · rcases h3 with h3 | h3
        · left; rw [h3]; simp [firstNamed, hid]
        · exact .inr ⟨h3.1, by rw [← h3.2]; simp [firstNamed, hid]⟩

theorem firstNamed_other {id id' : Bytes} (hne : id' ≠ id) (v : Val) (ids : List Bytes) : ∀ o : List Graph, NoNilL o →
    firstNamed E id' (updateFirst E id (store E v ids) o) = firstNamed E id' o
  | [], _ => by
    have := store_thisString (E := E) v ids (leaf id) (by simp [leaf, NoNil, NoNilL])
    have hne' : ¬ id = id' := fun h => hne h.symm
    simp [updateFirst, firstNamed, this, leaf_thisString, hne']
  | g :: gs, h => by
    have ih := firstNamed_other hne v ids gs h.2
    simp only [firstNamed] at ih
    by_cases hid : g.thisString E = id
    · have := store_thisString (E := E) v ids g h.1
      have hne' : ¬ id = id' := fun h => hne h.symm
      simp [updateFirst, firstNamed, this, hid, hne']
    · by_cases hid' : g.thisString E = id'
      · simp [updateFirst, firstNamed, hid', hne]
      · simp [updateFirst, firstNamed, hid', hid, ih]

theorem noNil_subnodes {v : Val} (hv : ∀ g, v = .graph g → NoNil g ∨ g = .nil) : NoNilL (subnodesOf v) := by
  cases v with
  | graph g =>
    cases g with
    | nil => simp [subnodesOf, NoNil, NoNilL]
    | node t o => rcases hv _ rfl with h | h
                  · exact h
                  · cases h
  | _ => simp [subnodesOf, NoNil, NoNilL]

theorem updateFirst_noNil {id : Bytes} {F : Graph → Graph} (hF : ∀ g, NoNil g → NoNil (F g)) : ∀ {o : List Graph}, NoNilL o →
    NoNilL (updateFirst E id F o)
  | [], _ => ⟨hF _ (by simp [leaf, NoNil, NoNilL]), trivial⟩
  | g :: gs, h => by
    simp only [updateFirst]
    split
    · exact ⟨hF _ h.1, h.2⟩
    · exact ⟨h.1, updateFirst_noNil hF h.2⟩

theorem updateFirst_allThis {P : Val → Prop} {id : Bytes} {F : Graph → Graph} (hid : P (.str id)) (hF : ∀ g, AllThis P g → AllThis P (F g)) :
    ∀ {o : List Graph}, AllThisL P o → AllThisL P (updateFirst E id F o)
  | [], _ => ⟨hF _ ⟨hid, trivial⟩, trivial⟩
  | g :: gs, h => by
    simp only [updateFirst]
    split
    · exact ⟨hF _ h.1, h.2⟩
    · exact ⟨h.1, updateFirst_allThis hid hF h.2⟩

theorem store_noNil {v : Val} (hv : NoNilL (subnodesOf v)) : ∀ (ids : List Bytes) (g : Graph), NoNil g → NoNil (store E v ids g)
  | [], _, _ => hv
  | _ :: ids, .node _ _, h => updateFirst_noNil (fun g hg => store_noNil hv ids g hg) h
  | _ :: _, .nil, h => absurd h (by simp [NoNil])

theorem store_allThis {v : Val} {P : Val → Prop} (hs : ∀ s, P (.str s)) (hn : P .nil) (hv : AllThisL P (subnodesOf v)) :
    ∀ (ids : List Bytes) (g : Graph), AllThis P g → AllThis P (store E v ids g)
  | [], .node _ _, h => ⟨h.1, hv⟩
  | [], .nil, _ => ⟨hn, hv⟩
  | _ :: ids, .node _ _, h => ⟨h.1, updateFirst_allThis (hs _) (fun g hg => store_allThis hs hn hv ids g hg) h.2⟩
  | _ :: ids, .nil, _ => ⟨hn, updateFirst_allThis (hs _) (fun g hg => store_allThis hs hn hv ids g hg) trivial⟩

theorem lookup_store (v : Val) : ∀ (ids : List Bytes) (g : Graph), NoNil g →
    ∃ t, lookup E ids (store E v ids g) = .node t (subnodesOf v)
  | [], g, _ => ⟨g.this, rfl⟩
  | id :: ids, .node t o, h => by
    obtain ⟨g', h1, h2, _⟩ := firstNamed_updateFirst (E := E) id v ids o h
    obtain ⟨t', ht⟩ := lookup_store v ids g' h1
    exact ⟨t', by simp only [lookup, store, Graph.out, h2, ht]⟩
  | _ :: _, .nil, h => absurd h (by simp [NoNil])

/-- Paths that part at some point do not meet again. -/
theorem lookup_store_other (v : Val) : ∀ (p q : List Bytes) (g : Graph), NoNil g → ¬ p <+: q → ¬ q <+: p →
    lookup E q (store E v p g) = lookup E q g
  | _, _, .nil, h, _, _ => absurd h (by simp [NoNil])
  | [], q, _, _, h, _ => absurd (List.nil_prefix) h
  | _ :: _, [], _, _, _, h => absurd (List.nil_prefix) h
  | id :: p, id' :: q, .node t o, hg, h1, h2 => by
    simp only [lookup, store, Graph.out]
    by_cases hid : id' = id
    · subst hid
      have h1' : ¬ p <+: q := fun h => h1 (by simpa using h)
      have h2' : ¬ q <+: p := fun h => h2 (by simpa using h)
      obtain ⟨g', hn, he, hg'⟩ := firstNamed_updateFirst (E := E) id' v p o hg
      rw [he, lookup_store_other v p q g' hn h1' h2']
      rcases hg' with rfl | ⟨rfl, hnil⟩
      · rfl
      · rw [hnil, lookup_nil]
        cases q with
        | nil => exact absurd (List.nil_prefix) h2'
        | cons a q => exact lookup_nil E q
    · rw [firstNamed_other hid v p o hg]

theorem lookupR_allThis {P : Val → Prop} : ∀ (ids : List Bytes) (g : Graph) {n : Graph}, AllThis P g → lookupR E ids g = .ok n → AllThis P n
  | [], g, n, h, hr => by cases hr; exact h
  | id :: ids, .nil, n, _, hr => by cases hr; trivial
  | id :: ids, .node t o, n, h, hr => by
    simp only [lookupR, Graph.isNil_node, Bool.false_eq_true, ↓reduceIte] at hr
    cases hn : (Graph.node t o).nodeNamed E id with
    | ok m =>
      rw [hn] at hr
      exact lookupR_allThis ids m (nodeLoop_allThis h.2 hn) hr
    | panic => rw [hn] at hr; cases hr
    | oof => rw [hn] at hr; cases hr

theorem dotted_not_empty {p : List Bytes} (hp : Path E p) : (dotted p).isEmpty = false := by
  obtain ⟨h1, h2⟩ := hp
  cases p with
  | nil => exact absurd rfl h1
  | cons x xs =>
    obtain ⟨c, t, rfl, _⟩ := name_head (h2 x (by simp))
    cases xs <;> simp [dotted, List.intercalate, List.intersperse]

theorem updateFirst_filter (id : Bytes) (v : Val) (ids : List Bytes) : ∀ o : List Graph, NoNilL o →
    (updateFirst E id (store E v ids) o).filter (fun n => decide (n.thisString E ≠ id)) = o.filter (fun n => decide (n.thisString E ≠ id)) ∧
    ((updateFirst E id (store E v ids) o).filter (fun n => decide (n.thisString E = id))).tail =
      (o.filter (fun n => decide (n.thisString E = id))).tail
  | [], _ => by
    have := store_thisString (E := E) v ids (leaf id) (by simp [leaf, NoNil, NoNilL])
    simp [updateFirst, this, leaf_thisString]
  | g :: gs, h => by
    have := store_thisString (E := E) v ids g h.1
    by_cases hid : g.thisString E = id
    · simp [updateFirst, this, hid]
    · have ih := updateFirst_filter id v ids gs h.2
      simp only [updateFirst, hid, ↓reduceIte, List.filter_cons]
      simp only [ne_eq, hid, not_false_eq_true, decide_true, decide_false, ↓reduceIte, Bool.false_eq_true]
      exact ⟨by rw [ih.1], ih.2⟩

theorem store_along (v : Val) : ∀ (pre post : List Bytes) (id : Bytes) (g : Graph), NoNil g →
    (lookup E pre (store E v (pre ++ id :: post) g)).out.filter (fun n => decide (n.thisString E ≠ id)) =
      (lookup E pre g).out.filter (fun n => decide (n.thisString E ≠ id)) ∧
    ((lookup E pre (store E v (pre ++ id :: post) g)).out.filter (fun n => decide (n.thisString E = id))).tail =
      ((lookup E pre g).out.filter (fun n => decide (n.thisString E = id))).tail
  | [], post, id, .node t o, h => updateFirst_filter id v post o h
  | _, _, _, .nil, h => absurd h (by simp [NoNil])
  | x :: pre, post, id, .node t o, h => by
    obtain ⟨g', h1, h2, h3⟩ := firstNamed_updateFirst (E := E) x v (pre ++ id :: post) o h
    have ih := store_along v pre post id g' h1
    simp only [lookup, List.cons_append, store, Graph.out_node, h2]
    rcases h3 with rfl | ⟨rfl, hnil⟩
    · exact ih
    · rw [hnil, lookup_nil]
      have he : (lookup E pre (leaf x)).out = [] := by
        cases pre with
        | nil => rfl
        | cons a pre => simp only [lookup, leaf, Graph.out_node, firstNamed, List.find?, Option.getD, lookup_nil]; rfl
      rw [he] at ih
      exact ih

theorem updateFirst_idem (id : Bytes) (F : Graph → Graph) (hF : ∀ g, NoNil g → (F g).thisString E = g.thisString E)
    (hFF : ∀ g, NoNil g → F (F g) = F g) : ∀ o : List Graph, NoNilL o →
    updateFirst E id F (updateFirst E id F o) = updateFirst E id F o
  | [], _ => by
    have := hF (leaf id) (by simp [leaf, NoNil, NoNilL])
    simp [updateFirst, this, leaf_thisString, hFF (leaf id) (by simp [leaf, NoNil, NoNilL])]
  | g :: gs, h => by
    by_cases hid : g.thisString E = id
    · simp [updateFirst, hid, hF g h.1, hFF g h.1]
    · simp [updateFirst, hid, updateFirst_idem id F hF hFF gs h.2]

theorem store_idem (v : Val) : ∀ (ids : List Bytes) (g : Graph), NoNil g → store E v ids (store E v ids g) = store E v ids g
  | [], _, _ => rfl
  | id :: ids, .node t o, h => by
    simp only [store, Graph.out_node, Graph.this_node]
    rw [updateFirst_idem id _ (fun g hg => store_thisString v ids g hg) (fun g hg => store_idem v ids g hg) o h]
  | _ :: _, .nil, h => absurd h (by simp [NoNil])

end

end Ogdl
