import Verif.Lemmas.Steps

/-! Assignments to a path of names followed by an index. -/

namespace Ogdl
open Spec

section
variable {E : Ext}

/-- `getPath` along steps, with any fuel that is large enough. -/
theorem getPath_steps {ss : List PStep} {g n : Graph} {F : Nat} (hne : ss ≠ []) (hs : ∀ s ∈ ss, s.Ok E g)
    (hd : Data E g) (h : follow E ss g = some n) (hF : evalFuel (stepsPath ss) ≤ F) :
    ∃ err, getPath E (F + 1) (stepsPath ss) g = .ok ((n, err), g) := by
  cases g with
  | nil => exact absurd hd.1 (by simp [NoNil])
  | node t o =>
    have h8 : 8 ≤ evalFuel (stepsPath ss) := by simp [evalFuel]
    obtain ⟨r, h1, h2⟩ := walk_follow (p := stepsPath ss) (F := F) (by omega) hd.1 ss { ctx := .node t o } hs
      (fun s hx => (steps_fuel s hx).mono (by omega)) (.inr hd) h
    have : getPath E (F + 1) (stepsPath ss) (.node t o) =
        match walkPath (getStep E F (stepsPath ss)) ((ss.flatMap PStep.elems).map Elem.tree) { ctx := .node t o } (.node t o) with
        | .ok (.next s, g') => .ok ((s.ctx, none), g')
        | .ok (.done r, g') => .ok (r, g')
        | .panic => .panic
        | .oof => .oof := by
      simp only [getPath, bind, EvalM.ctx, steps_len hne, Graph.isNil_node, Bool.false_eq_true, false_or, ↓reduceIte]
      simp only [stepsPath, Graph.out]
      generalize walkPath _ _ _ (Graph.node t o) = w
      cases w with
      | ok r => obtain ⟨st, g'⟩ := r; cases st <;> rfl
      | panic => rfl
      | oof => rfl
    rw [this, h1]
    cases r with
    | next s => exact ⟨none, by simp only [← h2]; rfl⟩
    | done r => exact ⟨r.2, by simp only [← h2]; rfl⟩

/-- The tree of `a.b[3]`. -/
theorem stepsPath_lit (p : List Bytes) (i : Nat) :
    stepsPath (p.map PStep.name ++ [litIndex i]) = .node (.str b!"!p") (p.map leaf ++ [Elem.tree (.index (.one (.num (itoa i))))]) := by
  have he : ((p.map PStep.name ++ [litIndex i]).flatMap PStep.elems).map Elem.tree = p.map leaf ++ [Elem.tree (.index (.one (.num (itoa i))))] := by
    rw [List.flatMap_append, List.map_append]
    congr 1
    induction p with
    | nil => rfl
    | cons a p ih => simp only [List.map_cons, List.flatMap_cons, PStep.elems, List.cons_append, List.nil_append, ih]; rfl
  rw [stepsPath, he]

theorem put_index (v : Val) {p : List Bytes} {i : Nat} {g : Graph} (hn : ∀ id ∈ p, Name E id) (hi : i < 2 ^ 63 - 1) (hg : NoNil g) :
    ∃ r, assign.put E (stepsPath (p.map PStep.name ++ [litIndex i])) v g = .ok (.graph r, changeAt E (putIndex v i) p g) := by
  obtain ⟨r, hr⟩ := setPath_index (E := E) v hi p g hn hg
  refine ⟨r, ?_⟩
  rw [stepsPath_lit]
  simp only [assign.put, bind, EvalM.modify, Graph.out_node, hr, pure]

/-- `x[i] = e` -/
theorem evals_assign_index {p : List Bytes} {i : Nat} {n g g1 : Graph} {v : Val} (hn : ∀ id ∈ p, Name E id) (hi : i < 2 ^ 63 - 1)
    (hv : Evals E n g v g1) (hg : NoNil g1) :
    ∃ r, Evals E (.node (.str b!"=") [stepsPath (p.map PStep.name ++ [litIndex i]), n]) g (.graph r) (changeAt E (putIndex v i) p g1) := by
  obtain ⟨r, hr⟩ := put_index (E := E) v hn hi hg
  refine ⟨r, Evals.of (f := evalFuel n + 3) ?_⟩
  rw [evalExpr_op (by simp [Op]), evalBinary]
  have h1 := hv.enough (k := evalFuel n + 1) (by omega)
  have h2 : (Graph.node (.str b!"=") [stepsPath (p.map PStep.name ++ [litIndex i]), n]).thisString E = b!"=" := by simp [Graph.thisString, vstr]
  simp only [Graph.out_node, bind, h1, h2, show binOp b!"=" = some (.assign none) from by decide, assign, hr, pure]

/-- `x[i] += e` and the like for a place that exists. -/
theorem evals_assign_op_index {p : List Bytes} {i : Nat} {n g g1 : Graph} {v w u : Val} {s : Bytes} {op : ArithOp} {t : Val} {k o : List Graph}
    (hn : ∀ id ∈ p, Name E id) (hi : i < 2 ^ 63 - 1)
    (hs : Op s) (hb : binOp s = some (.assign (some op))) (hv : Evals E n g v g1) (hg : Data E g1)
    (hf : follow E (p.map PStep.name ++ [litIndex i]) g1 = some (.node t (.node w k :: o))) (hc : calc' E w v op = .ok u) :
    ∃ r, Evals E (.node (.str s) [stepsPath (p.map PStep.name ++ [litIndex i]), n]) g (.graph r) (changeAt E (putIndex u i) p g1) := by
  obtain ⟨r, hr⟩ := put_index (E := E) u hn hi hg.1
  refine ⟨r, Evals.of (f := evalFuel n + evalFuel (stepsPath (p.map PStep.name ++ [litIndex i])) + 4) ?_⟩
  obtain ⟨err, hget⟩ := getPath_steps (E := E) (F := evalFuel n + evalFuel (stepsPath (p.map PStep.name ++ [litIndex i]))) (by simp)
    (names_lit_ok hn hi) hg hf (by omega)
  rw [evalExpr_op hs, evalBinary]
  have h1 := hv.enough (k := evalFuel n + evalFuel (stepsPath (p.map PStep.name ++ [litIndex i])) + 2) (by omega)
  have h2 : (Graph.node (.str s) [stepsPath (p.map PStep.name ++ [litIndex i]), n]).thisString E = s := by simp [Graph.thisString, vstr]
  simp only [Graph.out_node, bind, h1, h2, hb, assign, hget, firstThis, EvalM.lift, hc, hr, pure]

/-- The tree of the text of an assignment to `a.b[i]`. -/
theorem newExpression_assign_index {id s : Bytes} {ids : List Bytes} {i : Nat} {t : Grouping} {g : Graph} {v : Val} (hs : s ∈ assignments)
    (hid : ∀ x ∈ id :: ids, Name E x) (hc : ∃ c r, id = c :: r ∧ AsciiLetter c) (hi : i < 2 ^ 63 - 1) (ht : t.Ok E) (h1 : t.AtLeast 1)
    (hm : Means E g t v) (hl : Fits (indexed (id :: ids) i ++ 32 :: s ++ 32 :: t.text)) :
    newExpression E (indexed (id :: ids) i ++ 32 :: s ++ 32 :: t.text) =
      .ok (exprOf (.node (.str s) [stepsPath ((id :: ids).map PStep.name ++ [litIndex i]), t.tree])) := by
  obtain ⟨h0, ho⟩ := assignments_level hs
  have hst : ∀ st ∈ (id :: ids).map PStep.name ++ [litIndex i], st.Ok E .nil := names_lit_ok hid hi
  obtain ⟨es, he⟩ : ∃ es, ((id :: ids).map PStep.name ++ [litIndex i]).flatMap PStep.elems = .name id :: es := ⟨_, rfl⟩
  have hok' : ∀ e ∈ Elem.name id :: es, e.Ok E := by
    intro e h
    rw [← he] at h
    obtain ⟨s, h1, h2⟩ := List.mem_flatMap.1 h
    exact step_elems_ok (hst s h1) e h2
  have hna : ∀ e ∈ es, e.NoArgs := by
    intro e h
    have h : e ∈ Elem.name id :: es := by simp [h]
    rw [← he] at h
    obtain ⟨s, h1, h2⟩ := List.mem_flatMap.1 h
    exact step_elems_noArgs (hst s h1) e h2
  have htx : id ++ (elemsOf es).text = indexed (id :: ids) i := by
    rw [← stepsText_indexed]
    simp only [stepsText, he, Elem.text]
    try rfl
  have hok : (Grouping.bin s (.atom (.path id (elemsOf es))) t).Ok E :=
    ⟨ho, trivial, by rw [h0]; exact h1, ⟨hid id (by simp), hc, elemsOf_ok fun e h => hok' e (by simp [h])⟩, ht⟩
  have htext : (Grouping.bin s (.atom (.path id (elemsOf es))) t).text = indexed (id :: ids) i ++ 32 :: s ++ 32 :: t.text := by
    simp only [Grouping.text, Opnd.text, htx]
  have hn : (Grouping.bin s (.atom (.path id (elemsOf es))) t).NoArgs := ⟨elemsOf_noArgs hna, means_noArgs hm⟩
  have h := newExpression_grouping hok hn (by rw [htext]; exact hl)
  rw [htext] at h
  rw [h]
  simp only [Grouping.tree, Opnd.tree, elemsOf_trees, exprOf, stepsPath]
  rw [he]
  rfl

/-! ## What stays as it was -/

theorem firstNamed_change_other {f : Graph → Graph} (hf : ∀ t o, (f (.node t o)).this = t ∧ (f (.node t o)).isNil = false) {id id' : Bytes} (hne : id' ≠ id) :
    ∀ o : List Graph, NoNilL o → firstNamed E id' (updateFirst E id f o) = firstNamed E id' o := by
  have hth : ∀ t o, (f (.node t o)).thisString E = (Graph.node t o).thisString E := by
    intro t o
    obtain ⟨h1, h2⟩ := hf t o
    cases h : f (.node t o) with
    | nil => rw [h] at h2; cases h2
    | node t' o' => rw [h] at h1; simp only [Graph.this] at h1; subst h1; simp [Graph.thisString]
  intro o
  induction o with
  | nil =>
    intro _
    have := hth (.str id) []
    have hne' : ¬ id = id' := fun h => hne h.symm
    rw [show Graph.node (.str id) [] = leaf id from rfl, leaf_thisString] at this
    simp [updateFirst, firstNamed, this, hne']
  | cons g gs ih =>
    intro h
    cases g with
    | nil => exact absurd h.1 (by simp [NoNil])
    | node t k =>
      by_cases hid : (Graph.node t k).thisString E = id
      · have hne' : ¬ id = id' := fun h => hne h.symm
        simp only [updateFirst, hid, ↓reduceIte, firstNamed_cons, hth, hne']
      · simp only [updateFirst, hid, ↓reduceIte, firstNamed_cons, ih h.2]

theorem firstNamed_change_noNil {id : Bytes} : ∀ o : List Graph, NoNilL o → firstNamed E id o = .nil ∨ NoNil (firstNamed E id o)
  | [], _ => .inl rfl
  | g :: gs, h => by
    rw [firstNamed_cons]
    split
    · exact .inr h.1
    · exact firstNamed_change_noNil gs h.2

/-- Paths that are neither a prefix nor an extension of the changed one lead where they did. -/
theorem lookup_changeAt_other {f : Graph → Graph} (hf : ∀ t o, (f (.node t o)).this = t ∧ (f (.node t o)).isNil = false) :
    ∀ (p q : List Bytes) (g : Graph), NoNil g → ¬ p <+: q → ¬ q <+: p → lookup E q (changeAt E f p g) = lookup E q g
  | _, _, .nil, h, _, _ => absurd h (by simp [NoNil])
  | [], q, _, _, h, _ => absurd (List.nil_prefix) h
  | _ :: _, [], _, _, _, h => absurd (List.nil_prefix) h
  | id :: p, id' :: q, .node t o, hg, h1, h2 => by
    simp only [lookup, changeAt, Graph.out]
    by_cases hid : id' = id
    · subst hid
      have h1' : ¬ p <+: q := fun h => h1 (by simpa using h)
      have h2' : ¬ q <+: p := fun h => h2 (by simpa using h)
      have key : ∀ o : List Graph, NoNilL o →
          lookup E q (firstNamed E id' (updateFirst E id' (changeAt E f p) o)) = lookup E q (firstNamed E id' o) := by
        intro o
        induction o with
        | nil =>
          intro _
          have hth := changeAt_this (E := E) hf p (.str id') []
          have e : (changeAt E f p (leaf id')).thisString E = id' := by
            cases h : changeAt E f p (.node (.str id') []) with
            | nil => rw [h] at hth; cases hth.2
            | node t' o' =>
              rw [h] at hth
              have := hth.1
              simp only [Graph.this] at this
              subst this
              rw [show leaf id' = .node (.str id') [] from rfl, h]
              simp [Graph.thisString, vstr]
          simp only [updateFirst, firstNamed_cons, e, ↓reduceIte]
          rw [lookup_changeAt_other hf p q (leaf id') (by simp [leaf, NoNil, NoNilL]) h1' h2']
          cases q with
          | nil => exact absurd (List.nil_prefix) h2'
          | cons a q => rw [show firstNamed E id' [] = .nil from rfl, lookup_nil]; exact lookup_nil E q
        | cons x o ih =>
          intro h
          cases x with
          | nil => exact absurd h.1 (by simp [NoNil])
          | node t k =>
            by_cases hx : (Graph.node t k).thisString E = id'
            · have hth := changeAt_this (E := E) hf p t k
              have e : (changeAt E f p (.node t k)).thisString E = id' := by
                cases hh : changeAt E f p (.node t k) with
                | nil => rw [hh] at hth; cases hth.2
                | node t' o' =>
                  rw [hh] at hth
                  have := hth.1
                  simp only [Graph.this] at this
                  subst this
                  simpa [Graph.thisString] using hx
              simp only [updateFirst, hx, ↓reduceIte, firstNamed_cons, e]
              exact lookup_changeAt_other hf p q _ h.1 h1' h2'
            · simp only [updateFirst, hx, ↓reduceIte, firstNamed_cons]
              exact ih h.2
      exact key o hg
    · rw [firstNamed_change_other (changeAt_this hf p) hid o hg]

/-- The other places of the node with the changed place. -/
theorem putIndex_other {v : Val} {i j : Nat} {t : Val} {o : List Graph} (h : i ≤ o.length) (hj : j < o.length) (hne : j ≠ i) :
    (putIndex v i (.node t o)).out[j]? = o[j]? := by
  have e : (putIndex v i (.node t o)).out = if i < o.length then o.set i (.node v []) else o ++ List.replicate (i - o.length) .nil ++ [.node v []] := rfl
  rw [e]
  split
  · rw [List.getElem?_set_ne (fun h => hne h.symm)]
  · have : i = o.length := by omega
    subst this
    simp only [Nat.sub_self, List.replicate_zero, List.append_nil]
    rw [List.getElem?_append_left hj]

theorem follow_names_index : ∀ (p : List Bytes) (g : Graph) (i : Nat), i < (lookup E p g).out.length →
    ∃ x, (lookup E p g).out[i]? = some x ∧ follow E (p.map PStep.name ++ [litIndex i]) g = some (.node (.str b!"[") [x])
  | [], g, i, h => by
    refine ⟨_, List.getElem?_eq_getElem h, ?_⟩
    cases g with
    | nil => exact absurd h (by simp [lookup, Graph.out])
    | node t o =>
      simp only [lookup] at h
      have e : follow E (([] : List Bytes).map PStep.name ++ [litIndex i]) (.node t o) =
        (match (Graph.node t o).out[i]? with
            | some x => follow E [] (.node (.str b!"[") [x])
            | none => none) := rfl
      rw [e, List.getElem?_eq_getElem h]
      rfl
  | id :: p, .nil, i, h => by rw [lookup_nil] at h; exact absurd h (by simp [Graph.out])
  | id :: p, .node t o, i, h => follow_names_index p (firstNamed E id o) i h

end
end Ogdl
