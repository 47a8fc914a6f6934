import Verif.Lemmas.TemplateProc
import Verif.Lemmas.Assign
import Verif.Props.Graph

/-! What the directives of a template do. -/

namespace Ogdl
open Spec Lex

section
variable {E : Ext}

/-! ## Pieces one after another -/

theorem append_trees (b : Items) : ∀ a : Items, (a.append b).trees = a.trees ++ b.trees
  | .nil => by simp [Items.append, Items.trees]
  | .cons i is => by simp [Items.append, Items.trees, append_trees b is]

theorem append_text (b : Items) : ∀ a : Items, (a.append b).text = a.text ++ b.text
  | .nil => by simp [Items.append, Items.text]
  | .cons i is => by simp [Items.append, Items.text, append_text b is]

theorem append_ok {b : Items} {rest : Bytes} : ∀ {a : Items}, (a.append b).Ok E rest → a.Ok E (b.text ++ rest) ∧ b.Ok E rest
  | .nil, h => ⟨by simp only [Items.Ok], by simpa only [Items.append] using h⟩
  | .cons i is, h => by
    simp only [Items.append, Items.Ok, append_text] at h
    have := append_ok (a := is) h.2
    refine ⟨?_, this.2⟩
    simp only [Items.Ok]
    exact ⟨by simpa using h.1, this.1⟩

theorem append_breaks {b : Items} : ∀ {a : Items}, a.breaks = false → (a.append b).breaks = b.breaks
  | .nil, _ => rfl
  | .cons i is, h => by
    by_cases hi : i = .brk
    · subst hi; cases h
    · rw [breaks_cons hi] at h
      rw [Items.append, breaks_cons hi, append_breaks h]

/-- One template after another, run in sequence. -/
theorem renders_append {a b : Items} {rest : Bytes} (h : (a.append b).Ok E rest) (hl : Fits (a.text ++ b.text)) (hla : Fits a.text) (hlb : Fits b.text) (hb : a.breaks = false)
    {g g1 g2 : Graph} {o1 o2 : Bytes} (h1 : Renders E a.text g o1 g1) (h2 : Renders E b.text g1 o2 g2) :
    Renders E (a.text ++ b.text) g (o1 ++ o2) g2 := by
  have ha := (append_ok h).1
  have hb' := (append_ok h).2
  obtain ⟨b1, l1, h1⟩ := (renders_iff ha hla).1 h1
  obtain ⟨b2, l2, h2⟩ := (renders_iff hb' hlb).1 h2
  have e1 : b1 = false := by
    have := items_brk a ha h1
    rw [hb] at this; exact this
  obtain ⟨y, hy⟩ := procNodes_append (procAll E) h1 e1
  have h3 := hy b.trees
  rw [← append_text, renders_iff h (by rw [append_text]; exact hl), append_trees]
  unfold procList
  have h2' : procNodes E (procAll E) b.trees y g1 = .ok (⟨b2, o2, l2⟩, g2) := by
    rw [show procNodes E (procAll E) b.trees y = procList E b.trees y from rfl, items_yes b rest hb' y false]; exact h2
  rw [h3, EvalM.bind_ok h2']
  exact ⟨_, _, rfl⟩

theorem items_noBreak : ∀ {a : Items} {rest : Bytes}, a.Ok E rest → a.breaks = false → ∀ n ∈ a.trees, n.thisString E ≠ b!"!break"
  | .nil, _, _, _, n, hn => by simp [Items.trees] at hn
  | .cons i is, rest, hok, hb, n, hn => by
    simp only [Items.Ok] at hok
    by_cases hi : i = .brk
    · subst hi; cases hb
    · rw [breaks_cons hi] at hb
      simp only [Items.trees, List.mem_append] at hn
      rcases hn with hn | hn
      · exact item_noBreak hok.1 hi n hn
      · exact items_noBreak hok.2 hb n hn

/-- and the other way round -/
theorem append_renders {a b : Items} {rest : Bytes} (h : (a.append b).Ok E rest) (hl : Fits (a.text ++ b.text)) (hla : Fits a.text) (hlb : Fits b.text) (hb : a.breaks = false)
    {g g2 : Graph} {o : Bytes} (h1 : Renders E (a.text ++ b.text) g o g2) :
    ∃ o1 g1 o2, o = o1 ++ o2 ∧ Renders E a.text g o1 g1 ∧ Renders E b.text g1 o2 g2 := by
  have ha := (append_ok h).1
  have hb' := (append_ok h).2
  rw [← append_text] at h1
  obtain ⟨k, ls, h1⟩ := (renders_iff h (by rw [append_text]; exact hl)).1 h1
  rw [append_trees] at h1
  obtain ⟨⟨b1, o1, l1⟩, y, c1, ⟨b2, o2, l2⟩, h2, _, h3, h4⟩ := procNodes_split _ (items_noBreak ha hb) h1
  have h3 : procList E b.trees y c1 = .ok (⟨b2, o2, l2⟩, g2) := h3
  rw [items_yes b rest hb' y false] at h3
  refine ⟨o1, c1, o2, ?_, (renders_iff ha hla).2 ⟨_, _, h2⟩, (renders_iff hb' hlb).2 ⟨_, _, h3⟩⟩
  simp only [Proc.andThen, Proc.mk.injEq] at h4
  exact h4.2.1

/-- Nothing after a break. -/
theorem break_run {pre post : Items} {rest : Bytes} (h : (pre.append (.cons .brk post)).Ok E rest) (hb : pre.breaks = false) {g c : Graph} {r : Proc}
    (hp : procList E pre.trees false g = .ok (r, c)) :
    procList E (pre.append (.cons .brk post)).trees false g = .ok ({ r with brk := true }, c) := by
  have ha := (append_ok h).1
  rw [append_trees]
  unfold procList
  have hr := items_brk pre ha hp
  rw [hb] at hr
  obtain ⟨y, hy⟩ := procNodes_append (procAll E) hp hr
  rw [hy]
  simp only [Items.trees, Item.trees, List.cons_append, List.nil_append]
  rw [procNodes_break _ (by simp [Graph.thisString, vstr])]
  simp only [pure_bind, Proc.andThen, List.append_nil]
  rfl

theorem run_break {pre post : Items} {rest : Bytes} (h : (pre.append (.cons .brk post)).Ok E rest) (hb : pre.breaks = false) {g c : Graph} {r : Proc}
    (hp : procList E (pre.append (.cons .brk post)).trees false g = .ok (r, c)) :
    r.brk = true ∧ ∃ k ls, procList E pre.trees false g = .ok (⟨k, r.out, ls⟩, c) := by
  have ha := (append_ok h).1
  rw [append_trees] at hp
  obtain ⟨⟨b1, o1, l1⟩, y, c1, r2, h2, _, h3, rfl⟩ := procNodes_split _ (items_noBreak ha hb) hp
  simp only [Items.trees, Item.trees, List.cons_append, List.nil_append] at h3
  rw [procNodes_break _ (by simp [Graph.thisString, vstr])] at h3
  cases h3
  exact ⟨rfl, b1, l1, by unfold procList; simpa [Proc.andThen] using h2⟩

/-! ## Conditions -/

theorem tests_cond {c : Grouping} (hw : WritableExpr E c) (hl : Fits c.text) {g g' : Graph} {b : Bool} (h : Tests E c.text g b g')
    (t : Val) (o : List Graph) : procCond E (.node t (.node (.str b!"!a") [exprOf c.full] :: o)) g = .ok (b, g') := by
  obtain ⟨e, v, err, h1, h2, h3⟩ := h
  rw [newExpression_full hw hl] at h1
  cases h1
  unfold procCond
  rw [getAt_zero, lift_ok, getAt_zero, lift_ok, evalBool, EvalM.bind_ok (show eval E (evalFuel (exprOf c.full)) (exprOf c.full) g = _ from h2)]
  dsimp only
  rw [truth_vboolf]
  have : (if err.isSome then false else (truth v).getD false) = b := by
    cases err with
    | some x =>
      simp only [reduceCtorEq, false_and, iff_false] at h3
      simp at h3
      simp [h3]
    | none =>
      simp only [true_and] at h3
      cases ht : truth v with
      | none => rw [ht] at h3; simp at h3; simp [h3]
      | some x => rw [ht] at h3; cases x <;> cases b <;> simp_all
  rw [this]; rfl

theorem procNode_elseif {sub : Graph → EvalM Proc} {n : Graph} (h : n.thisString E = b!"!elseif") (y : Bool) :
    procNode E sub n y = (if y then pure (⟨false, [], []⟩, true) else do
      let b ← procCond E n
      if b then do
        let t ← .lift (n.getAt 1)
        let r ← sub t
        pure (r, true)
      else pure (⟨false, [], []⟩, false)) := by
  unfold procNode
  dsimp only
  rw [if_neg (by rw [h]; decide), if_neg (by rw [h]; decide), if_neg (by rw [h]; decide), if_pos (by rw [h]; decide)]

theorem procNode_else {sub : Graph → EvalM Proc} {n : Graph} (h : n.thisString E = b!"!else") (y : Bool) :
    procNode E sub n y = (if y then pure (⟨false, [], []⟩, true) else do
      let t ← .lift (n.getAt 0)
      let r ← sub t
      pure (r, false)) := by
  unfold procNode
  dsimp only
  rw [if_neg (by rw [h]; decide), if_neg (by rw [h]; decide), if_neg (by rw [h]; decide), if_neg (by rw [h]; decide), if_pos (by rw [h]; decide)]

/-- After a branch that was taken the others do nothing. -/
theorem branches_skip (g : Graph) : ∀ more : Branches, procList E more.trees true g = .ok (⟨false, [], []⟩, g)
  | .done => by simp only [Branches.trees, procList, procNodes]; rfl
  | .els body => by
    simp only [Branches.trees, procList]
    rw [procNodes_cons _ (by simp [Graph.thisString, vstr]), procNode_else (by simp [Graph.thisString, vstr])]
    simp only [↓reduceIte, pure_bind, procNodes]; rfl
  | .elif c body more => by
    simp only [Branches.trees, procList]
    have h1 : procNode E (procAll E) (.node (.str b!"!elseif") [.node (.str b!"!a") [exprOf c.full], .node (.str b!"!t") body.trees]) true g =
        .ok ((⟨false, [], []⟩, true), g) := by
      rw [procNode_elseif (by simp [Graph.thisString, vstr])]
      simp only [↓reduceIte]; rfl
    rw [procNodes_cons _ (by simp [Graph.thisString, vstr]), EvalM.bind_ok h1]
    dsimp only
    rw [EvalM.bind_ok (show procNodes E (procAll E) more.trees true g = _ from branches_skip g more)]; rfl

/-- The output of a body that was selected, or nothing. -/
def Selected (E : Ext) (r : Option Items) (g : Graph) (o : Bytes) (g' : Graph) : Prop :=
  match r with
  | none => o = [] ∧ g' = g
  | some b => ∃ k ls, procList E b.trees false g = .ok (⟨k, o, ls⟩, g')

theorem procNodes_seq {sub : Graph → EvalM Proc} {n : Graph} {ns : List Graph} {y y1 : Bool} {c c1 c' : Graph} {r1 r2 : Proc}
    (hn : n.thisString E ≠ b!"!break") (h1 : procNode E sub n y c = .ok ((r1, y1), c1)) (h2 : procNodes E sub ns y1 c1 = .ok (r2, c')) :
    procNodes E sub (n :: ns) y c = .ok (r1.andThen r2, c') := by
  rw [procNodes_cons sub hn, EvalM.bind_ok h1]
  dsimp only
  rw [EvalM.bind_ok h2]; rfl

theorem taken {n : Graph} {i : Int} {body : Items} {z : Bool} {g g' : Graph} {r : Proc}
    (ht : n.getAt i = .ok (.node (.str b!"!t") body.trees)) (h : procList E body.trees false g = .ok (r, g')) :
    (do let t ← EvalM.lift (n.getAt i); let r ← procAll E t; (pure (r, z) : EvalM (Proc × Bool))) g = .ok ((r, z), g') := by
  rw [ht, lift_ok, procAll_node, EvalM.bind_ok h]; rfl

/-- The branches after an if that was not taken. -/
theorem branches_select {g g1 g2 : Graph} {o rest : Bytes} : ∀ {more : Branches} {r : Option Items}, more.Ok E rest → more.Fit →
    Selects E more g r g1 → Selected E r g1 o g2 → ∃ ls, procList E more.trees false g = .ok (⟨false, o, ls⟩, g2) := by
  intro more r hok hl hs hb
  induction hs with
  | done =>
    obtain ⟨rfl, rfl⟩ := hb
    exact ⟨[], by simp only [Branches.trees, procList, procNodes]; rfl⟩
  | @els body g =>
    obtain ⟨k, ls, hb⟩ := hb
    have h1 : procNode E (procAll E) (.node (.str b!"!else") [.node (.str b!"!t") body.trees]) false g = .ok ((⟨k, o, ls⟩, false), g2) := by
      rw [procNode_else (by simp [Graph.thisString, vstr])]
      simp only [Bool.false_eq_true, ↓reduceIte]
      exact taken (getAt_zero _ _ _) hb
    refine ⟨ls, ?_⟩
    simp only [Branches.trees, procList]
    rw [procNodes_seq (by simp [Graph.thisString, vstr]) h1 (by simp only [procNodes]; rfl)]
    simp [Proc.andThen]
  | @yes c body more g g' ht =>
    obtain ⟨k, ls, hb⟩ := hb
    simp only [Branches.Ok] at hok
    have hc := tests_cond hok.1 hl.1 ht (.str b!"!elseif") [.node (.str b!"!t") body.trees]
    have h1 : procNode E (procAll E) (.node (.str b!"!elseif") [.node (.str b!"!a") [exprOf c.full], .node (.str b!"!t") body.trees]) false g =
        .ok ((⟨k, o, ls⟩, true), g2) := by
      rw [procNode_elseif (by simp [Graph.thisString, vstr])]
      simp only [Bool.false_eq_true, ↓reduceIte]
      rw [EvalM.bind_ok hc]
      simp only [↓reduceIte]
      exact taken (getAt_one _ _ _ _) hb
    refine ⟨ls, ?_⟩
    simp only [Branches.trees, procList]
    rw [procNodes_seq (by simp [Graph.thisString, vstr]) h1 (branches_skip g2 more)]
    simp [Proc.andThen]
  | @no c body more g g' g'' r ht hs ih =>
    simp only [Branches.Ok] at hok
    have hc := tests_cond hok.1 hl.1 ht (.str b!"!elseif") [.node (.str b!"!t") body.trees]
    obtain ⟨ls, ih⟩ := ih hok.2.2.2 hl.2.2 hb
    have h1 : procNode E (procAll E) (.node (.str b!"!elseif") [.node (.str b!"!a") [exprOf c.full], .node (.str b!"!t") body.trees]) false g =
        .ok ((⟨false, [], []⟩, false), g') := by
      rw [procNode_elseif (by simp [Graph.thisString, vstr])]
      simp only [Bool.false_eq_true, ↓reduceIte]
      rw [EvalM.bind_ok hc]
      simp only [Bool.false_eq_true, ↓reduceIte]; rfl
    refine ⟨ls, ?_⟩
    simp only [Branches.trees, procList]
    rw [procNodes_seq (by simp [Graph.thisString, vstr]) h1 ih]
    simp [Proc.andThen]

/-- A whole if. -/
theorem cond_select {c : Grouping} {body : Items} {more : Branches} {g g1 g2 : Graph} {o rest : Bytes} {r : Option Items}
    (hok : (Item.cond c body more).Ok E rest) (hl : (Branches.elif c body more).Fit)
    (hs : Selects E (.elif c body more) g r g1) (hb : Selected E r g1 o g2) :
    ∃ ls, procList E (Item.cond c body more).trees false g = .ok (⟨false, o, ls⟩, g2) := by
  simp only [Item.Ok] at hok
  cases hs with
  | yes ht =>
    obtain ⟨k, ls, hb⟩ := hb
    have hc := tests_cond hok.1 hl.1 ht (.str b!"!if") [.node (.str b!"!t") body.trees]
    have h1 : procNode E (procAll E) (.node (.str b!"!if") [.node (.str b!"!a") [exprOf c.full], .node (.str b!"!t") body.trees]) false g =
        .ok ((⟨k, o, ls⟩, true), g2) := by
      rw [procNode_if (by simp [Graph.thisString, vstr]), EvalM.bind_ok hc]
      simp only [↓reduceIte]
      exact taken (getAt_one _ _ _ _) hb
    refine ⟨ls, ?_⟩
    simp only [Item.trees, procList]
    rw [procNodes_seq (by simp [Graph.thisString, vstr]) h1 (branches_skip g2 more)]
    simp [Proc.andThen]
  | @no _ _ _ _ g' _ _ ht hs =>
    have hc := tests_cond hok.1 hl.1 ht (.str b!"!if") [.node (.str b!"!t") body.trees]
    obtain ⟨ls, ih⟩ := branches_select hok.2.2.2 hl.2.2 hs hb
    have h1 : procNode E (procAll E) (.node (.str b!"!if") [.node (.str b!"!a") [exprOf c.full], .node (.str b!"!t") body.trees]) false g =
        .ok ((⟨false, [], []⟩, false), g') := by
      rw [procNode_if (by simp [Graph.thisString, vstr]), EvalM.bind_ok hc]
      simp only [Bool.false_eq_true, ↓reduceIte]; rfl
    refine ⟨ls, ?_⟩
    simp only [Item.trees, procList]
    rw [procNodes_seq (by simp [Graph.thisString, vstr]) h1 ih]
    simp [Proc.andThen]

/-! ## The other way round -/

theorem cond_tests {c : Grouping} (hw : WritableExpr E c) (hl : Fits c.text) {g g' : Graph} {b : Bool} {t : Val} {o : List Graph}
    (h : procCond E (.node t (.node (.str b!"!a") [exprOf c.full] :: o)) g = .ok (b, g')) : Tests E c.text g b g' := by
  unfold procCond at h
  rw [getAt_zero, lift_ok, getAt_zero, lift_ok, evalBool] at h
  obtain ⟨⟨v, err⟩, g1, h1, h⟩ := EvalM.ok_of_bind h
  have h1 : g.eval E (exprOf c.full) = .ok ((v, err), g1) := h1
  dsimp only at h
  rw [truth_vboolf] at h
  obtain ⟨hb, rfl⟩ : b = (if err.isSome then false else (truth v).getD false) ∧ g' = g1 := by cases h; exact ⟨rfl, rfl⟩
  refine ⟨_, v, err, newExpression_full hw hl, h1, ?_⟩
  cases err with
  | some x => simp [hb]
  | none =>
    cases ht : truth v with
    | none => simp [hb, ht]
    | some x => cases x <;> simp [hb, ht]

theorem taken_inv {n : Graph} {i : Int} {body : Items} {z y : Bool} {g g' : Graph} {r : Proc}
    (ht : n.getAt i = .ok (.node (.str b!"!t") body.trees))
    (h : (do let t ← EvalM.lift (n.getAt i); let r ← procAll E t; (pure (r, z) : EvalM (Proc × Bool))) g = .ok ((r, y), g')) :
    procList E body.trees false g = .ok (r, g') ∧ y = z := by
  rw [ht, lift_ok, procAll_node] at h
  obtain ⟨r1, g1, h1, h⟩ := EvalM.ok_of_bind h
  cases h
  exact ⟨h1, rfl⟩

/-- The node of an if or elseif that was reached. -/
theorem tested {c : Grouping} {body : Items} {k : Bytes} {g g1 : Graph} {r : Proc} {y : Bool} (hw : WritableExpr E c) (hl : Fits c.text)
    (h : (do
      let b ← procCond E (.node (.str k) [.node (.str b!"!a") [exprOf c.full], .node (.str b!"!t") body.trees])
      if b then do
        let t ← .lift ((Graph.node (.str k) [.node (.str b!"!a") [exprOf c.full], .node (.str b!"!t") body.trees]).getAt 1)
        let r ← procAll E t
        pure (r, true)
      else pure (⟨false, [], []⟩, false) : EvalM (Proc × Bool)) g = .ok ((r, y), g1)) :
    (y = true ∧ ∃ g', Tests E c.text g true g' ∧ procList E body.trees false g' = .ok (r, g1)) ∨
    (y = false ∧ Tests E c.text g false g1 ∧ r = ⟨false, [], []⟩) := by
  obtain ⟨b, g', h1, h⟩ := EvalM.ok_of_bind h
  have ht := cond_tests hw hl h1
  cases b with
  | true =>
    simp only [↓reduceIte] at h
    obtain ⟨h2, rfl⟩ := taken_inv (getAt_one _ _ _ _) h
    exact .inl ⟨rfl, g', ht, h2⟩
  | false =>
    simp only [Bool.false_eq_true, ↓reduceIte] at h
    cases h
    exact .inr ⟨rfl, ht, rfl⟩

theorem branches_selected : ∀ {more : Branches} {rest : Bytes} {g g2 : Graph} {r : Proc}, more.Ok E rest → more.Fit →
    procList E more.trees false g = .ok (r, g2) → ∃ sel g1, Selects E more g sel g1 ∧ Selected E sel g1 r.out g2
  | .done, _, g, g2, r, _, _, h => by
    simp only [Branches.trees, procList, procNodes] at h
    cases h
    exact ⟨none, g, .done, rfl, rfl⟩
  | .els body, _, g, g2, r, _, _, h => by
    obtain ⟨r1, y1, c1, r2, h1, h2, rfl⟩ := procList_cons (by simp [Graph.thisString, vstr]) h
    rw [show procList E [] y1 = pure ⟨false, [], []⟩ from by simp only [procList, procNodes]] at h2
    cases h2
    rw [procNode_else (by simp [Graph.thisString, vstr])] at h1
    simp only [Bool.false_eq_true, ↓reduceIte] at h1
    obtain ⟨h1, _⟩ := taken_inv (getAt_zero _ _ _) h1
    obtain ⟨b, o, ls⟩ := r1
    exact ⟨some body, g, .els, b, ls, by simpa [Proc.andThen] using h1⟩
  | .elif c body more, rest, g, g2, r, hok, hl, h => by
    obtain ⟨r1, y1, c1, r2, h1, h2, rfl⟩ := procList_cons (by simp [Graph.thisString, vstr]) h
    rw [procNode_elseif (by simp [Graph.thisString, vstr])] at h1
    simp only [Bool.false_eq_true, ↓reduceIte] at h1
    simp only [Branches.Ok] at hok
    rcases tested hok.1 hl.1 h1 with ⟨rfl, g', ht, hb⟩ | ⟨rfl, ht, rfl⟩
    · rw [branches_skip] at h2
      cases h2
      obtain ⟨b, o, ls⟩ := r1
      exact ⟨some body, g', .yes ht, b, ls, by simpa [Proc.andThen] using hb⟩
    · obtain ⟨sel, g1, h3, h4⟩ := branches_selected hok.2.2.2 hl.2.2 h2
      exact ⟨sel, g1, .no ht h3, by simpa [Proc.andThen] using h4⟩

theorem cond_selected {c : Grouping} {body : Items} {more : Branches} {g g2 : Graph} {rest : Bytes} {r : Proc}
    (hok : (Item.cond c body more).Ok E rest) (hl : (Branches.elif c body more).Fit)
    (h : procList E (Item.cond c body more).trees false g = .ok (r, g2)) :
    ∃ sel g1, Selects E (.elif c body more) g sel g1 ∧ Selected E sel g1 r.out g2 := by
  simp only [Item.Ok] at hok
  obtain ⟨r1, y1, c1, r2, h1, h2, rfl⟩ := procList_cons (by simp [Graph.thisString, vstr]) h
  rw [procNode_if (by simp [Graph.thisString, vstr])] at h1
  rcases tested hok.1 hl.1 h1 with ⟨rfl, g', ht, hb⟩ | ⟨rfl, ht, rfl⟩
  · rw [branches_skip] at h2
    cases h2
    obtain ⟨b, o, ls⟩ := r1
    exact ⟨some body, g', .yes ht, b, ls, by simpa [Proc.andThen] using hb⟩
  · obtain ⟨sel, g1, h3, h4⟩ := branches_selected hok.2.2.2 hl.2.2 h2
    exact ⟨sel, g1, .no ht h3, by simpa [Proc.andThen] using h4⟩

/-- Any body that can be selected. -/
theorem selects_ok {more : Branches} {g g1 : Graph} {b : Items} {sel : Option Items} (h : Selects E more g sel g1) (hb : sel = some b) :
    ∀ {rest : Bytes}, more.Ok E rest → (∃ rest, b.Ok E rest) ∧ (more.Fit → Fits b.text) := by
  induction h with
  | done => cases hb
  | els =>
    cases hb
    intro rest hok
    simp only [Branches.Ok] at hok
    exact ⟨⟨_, hok.2.1⟩, id⟩
  | yes _ =>
    cases hb
    intro rest hok
    simp only [Branches.Ok] at hok
    exact ⟨⟨_, hok.2.2.1⟩, fun hf => hf.2.1⟩
  | no _ _ ih =>
    intro rest hok
    simp only [Branches.Ok] at hok
    obtain ⟨h1, h2⟩ := ih hb hok.2.2.2
    exact ⟨h1, fun hf => h2 hf.2.2⟩

/-! ## Loops -/

theorem setVar_eq {v : Bytes} {e : Graph} (he : e ≠ .nil) : ∀ o : List Graph, setVar v e o = assignVar v e o
  | [] => rfl
  | n :: o => by
    have ha : addedNode (.graph e) = e := by cases e <;> first | exact absurd rfl he | rfl
    cases n with
    | nil => simp [setVar, assignVar, isVar, Graph.this, setVar_eq he o]
    | node t k =>
      cases t with
      | str s =>
        by_cases hs : s = v
        · subst hs; simp [setVar, assignVar, isVar, ha]
        · simp [setVar, assignVar, isVar, hs, setVar_eq he o]
      | _ => simp [setVar, assignVar, isVar, setVar_eq he o]

theorem forLoop_iterates {v : Bytes} {body : Items} {rest : Bytes} (hok : body.Ok E rest) (hl : Fits body.text)
    (hb : body.breaks = false) (hv : v ∉ body.loopVars) {es : List Graph} {g g' : Graph} {o : Bytes} (h : Iterates E v body es g o g') :
    (∀ e ∈ es, e ≠ .nil) → ∃ ls, forLoop v (procList E body.trees false) es false g = .ok (⟨false, o, ls⟩, g') := by
  induction h with
  | nil => exact fun _ => ⟨[], by simp only [forLoop]; rfl⟩
  | @cons e es k t g1 g2 s1 s2 h1 h2 ih =>
    intro he
    obtain ⟨ls, ih⟩ := ih fun x hx => he x (by simp [hx])
    obtain ⟨b, l1, h1⟩ := (renders_iff hok hl).1 h1
    have hbrk := items_brk body hok h1
    rw [hb] at hbrk
    simp only at hbrk
    subst hbrk
    have hls := items_loops body hok _ _ _ _ h1
    have hc : l1.contains v = false := by
      rw [Bool.eq_false_iff]
      intro hc
      exact hv (hls v (by simpa using hc))
    refine ⟨l1 ++ ls, ?_⟩
    rw [forLoop]
    simp only [Bool.not_false, ↓reduceIte]
    have hbind : bindVar v e (.node t k) = .ok ((), .node t (assignVar v e k)) := by
      simp only [bindVar, setVar_eq (he e (by simp))]
    rw [EvalM.bind_ok hbind]
    rw [EvalM.bind_ok h1]
    simp only [Bool.false_eq_true, ↓reduceIte, hc, Bool.or_false]
    rw [EvalM.bind_ok ih]; rfl

theorem iterates_forLoop {v : Bytes} {body : Items} {rest : Bytes} (hok : body.Ok E rest) (hl : Fits body.text)
    (hb : body.breaks = false) (hv : v ∉ body.loopVars) : ∀ {es : List Graph} {g g' : Graph} {r : Proc},
    (∀ e ∈ es, e ≠ .nil) → forLoop v (procList E body.trees false) es false g = .ok (r, g') → Iterates E v body es g r.out g'
  | [], g, g', r, _, h => by
    simp only [forLoop] at h
    cases h
    exact .nil
  | e :: es, g, g', r, he, h => by
    rw [forLoop] at h
    simp only [Bool.not_false, ↓reduceIte] at h
    obtain ⟨_, c1, h1, h⟩ := EvalM.ok_of_bind h
    cases g with
    | nil => cases h1
    | node t o =>
      simp only [bindVar, setVar_eq (he e (by simp))] at h1
      cases h1
      obtain ⟨⟨b, o1, l1⟩, c2, h2, h⟩ := EvalM.ok_of_bind h
      have hbrk := items_brk body hok h2
      rw [hb] at hbrk
      simp only at hbrk
      subst hbrk
      have hls := items_loops body hok _ _ _ _ h2
      have hc : l1.contains v = false := by
        rw [Bool.eq_false_iff]
        intro hc
        exact hv (hls v (by simpa using hc))
      simp only [Bool.false_eq_true, ↓reduceIte, hc, Bool.or_false] at h
      obtain ⟨r2, c3, h3, h⟩ := EvalM.ok_of_bind h
      cases h
      exact .cons ((renders_iff hok hl).2 ⟨_, _, h2⟩) (iterates_forLoop hok hl hb hv (fun x hx => he x (by simp [hx])) h3)

/-- The loop when the body ends with a break. -/
theorem forLoop_breaks {v : Bytes} {body : Items} {e : Graph} {es o : List Graph} {t : Val} {g' : Graph} {s : Bytes} {ls : List Bytes} (he : e ≠ .nil)
    (h : procList E body.trees false (.node t (assignVar v e o)) = .ok (⟨true, s, ls⟩, g')) :
    forLoop v (procList E body.trees false) (e :: es) false (.node t o) = .ok (⟨false, s, ls⟩, g') := by
  rw [forLoop]
  simp only [Bool.not_false, ↓reduceIte]
  have hbind : bindVar v e (.node t o) = .ok ((), .node t (assignVar v e o)) := by
    simp only [bindVar, setVar_eq he]
  rw [EvalM.bind_ok hbind, EvalM.bind_ok h]
  simp only [↓reduceIte]; rfl

theorem breaks_forLoop {v : Bytes} {body : Items} {e : Graph} {es o : List Graph} {t : Val} {g' : Graph} {r : Proc} (he : e ≠ .nil)
    (hb : ∀ g g' r, procList E body.trees false g = .ok (r, g') → r.brk = true)
    (h : forLoop v (procList E body.trees false) (e :: es) false (.node t o) = .ok (r, g')) :
    ∃ k ls, procList E body.trees false (.node t (assignVar v e o)) = .ok (⟨k, r.out, ls⟩, g') := by
  rw [forLoop] at h
  simp only [Bool.not_false, ↓reduceIte] at h
  have hbind : bindVar v e (.node t o) = .ok ((), .node t (assignVar v e o)) := by
    simp only [bindVar, setVar_eq he]
  rw [EvalM.bind_ok hbind] at h
  obtain ⟨⟨k, o1, l1⟩, c2, h2, h⟩ := EvalM.ok_of_bind h
  rw [if_pos (hb _ _ _ h2)] at h
  cases h
  exact ⟨k, l1, h2⟩

theorem declare_eq {v : Bytes} {g : Graph} (hg : NoNil g) :
    (do let c ← g.delete E (.str v); (.ok ((c.add (.str v)).1, ()) : Res (Graph × Unit))) = .ok (declare v g, ()) := by
  cases g with
  | nil => exact absurd hg (by simp [NoNil])
  | node t o =>
    rw [C25_delete_partial E t (.str v) o (by simp [Plain]) (by simpa only [NoNil] using hg) (fun n => !isVar v n) (by
      intro n
      cases n with
      | nil => simp [isVar, Graph.this]
      | node t k => cases t <;> simp [isVar, Graph.this])]
    simp [Graph.add, declare, addedNode, leaf, Graph.this, Graph.out]

theorem firstNamed_this {id : Bytes} {gs : List Graph} (h : (firstNamed E id gs).isNil = false) : (firstNamed E id gs).thisString E = id := by
  unfold firstNamed at h ⊢
  cases hf : gs.find? fun g => decide (g.thisString E = id) with
  | none => rw [hf] at h; cases h
  | some g => simpa using List.find?_some hf

theorem lookup_nil' : ∀ (ids : List Bytes) {g : Graph}, g.isNil = true → (lookup E ids g).isNil = true
  | [], g, h => h
  | id :: ids, g, h => by
    cases g with
    | nil => exact lookup_nil' ids rfl
    | node t o => cases h

theorem lookup_this : ∀ (ids : List Bytes) {g : Graph} (hne : ids ≠ []), (lookup E ids g).isNil = false → (lookup E ids g).thisString E = ids.getLast hne
  | [id], g, _, h => by
    simp only [lookup] at h ⊢
    exact firstNamed_this h
  | id :: id' :: ids, g, _, h => by
    rw [lookup] at h ⊢
    rw [List.getLast_cons (by simp)]
    exact lookup_this (id' :: ids) (by simp) h

theorem name_not_bracket {id : Bytes} (h : Name E id) : id ≠ b!"[" := by
  obtain ⟨rs, hne, hr, rfl⟩ := h
  cases rs with
  | nil => exact absurd rfl hne
  | cons r rs =>
    intro heq
    obtain ⟨c, w, hw, hc⟩ := encodeRune_head r
    rw [List.flatMap_cons, hw] at heq
    simp only [List.cons_append, List.cons.injEq] at heq
    obtain ⟨rfl, _⟩ := heq
    obtain ⟨hv, hn⟩ := hr r (by simp)
    by_cases h80 : r < 0x80
    · rw [if_pos h80] at hc
      have : r = 91 := by rw [← hc.1]; rfl
      subst this
      rcases hn with h | h
      · exact absurd h (by decide)
      · rw [if_pos (by decide)] at h
        rcases h with h | h
        · exact absurd h (by decide)
        · omega
    · rw [if_neg h80] at hc
      exact absurd hc (by decide)

theorem eval_path_expr {id : Bytes} {ids : List Bytes} {g : Graph} (hn : ∀ x ∈ id :: ids, Name E x ∧ x ∉ reserved)
    (hg : NoNil g) (hl : (lookup E (id :: ids) g).isNil = false) :
    eval E (evalFuel (exprOf (pathOf (id :: ids)))) (exprOf (pathOf (id :: ids))) g = .ok ((simplify (lookup E (id :: ids) g), none), g) :=
  eval_expression (evals_path (by simp) hn hg hl)

theorem modify_ok {α : Type} {f : Graph → Res (Graph × α)} {g g' : Graph} {a : α} (h : f g = .ok (g', a)) : EvalM.modify f g = .ok (a, g') := by
  unfold EvalM.modify
  rw [h]

/-- A loop, from what its body does. -/
theorem loop_eq {v id : Bytes} {ids : List Bytes} {body : Items} {g : Graph} {t : Val} {es : List Graph}
    (hn : ∀ x ∈ id :: ids, Name E x ∧ x ∉ reserved) (hg : NoNil g) (hl : lookup E (id :: ids) g = .node t es) (he : es ≠ []) (h1 : ∀ u, es ≠ [.node u []])
    (y : Bool) : procList E [loopNode v id ids body] y g =
      (forLoop v (procList E body.trees false) es false >>= fun r => (pure ⟨false, r.out, v :: r.loops⟩ : EvalM Proc)) (declare v g) := by
  have hnil : (lookup E (id :: ids) g).isNil = false := by rw [hl]; rfl
  have hsimp : simplify (lookup E (id :: ids) g) = .graph (.node t es) := by
    rw [hl]
    unfold simplify
    split
    · rename_i h; cases h; exact absurd rfl (h1 _)
    · rfl
  have hts := lookup_this (E := E) (id :: ids) (by simp) hnil
  have hll : loopList E (.node t es) = .node t es := by
    rw [loopList, if_neg]
    rw [← hl, hts]
    exact name_not_bracket (hn _ (List.getLast_mem _)).1
  have hfor : forNode E (procAll E) (loopNode v id ids body) g =
      (forLoop v (procList E body.trees false) es false >>= fun r => (pure { r with loops := v :: r.loops } : EvalM Proc)) (declare v g) := by
    rw [forNode_loop, EvalM.bind_ok (eval_path_expr hn hg hnil), hsimp]
    dsimp only
    rw [if_neg (by
      cases es with
      | nil => exact absurd rfl he
      | cons e es => simp [Graph.isNil, Graph.len]; omega)]
    rw [hll]
    rw [EvalM.bind_ok (modify_ok (declare_eq (E := E) (v := v) hg))]
    simp only [Graph.isNil, Bool.false_eq_true, ↓reduceIte, procAll_node, Graph.out_node]
  unfold procList
  rw [procNodes_cons _ (by simp [loopNode, Graph.thisString, vstr]), procNode_for (by simp [loopNode, Graph.thisString, vstr])]
  simp only [bind_assoc, pure_bind, procNodes]
  rw [EvalM.bind_left hfor]
  simp only [bind_assoc, pure_bind, Proc.andThen, List.append_nil]
  rfl

theorem loop_run {v id : Bytes} {ids : List Bytes} {body : Items} {g g' : Graph} {t : Val} {es : List Graph} {o : Bytes} {ls : List Bytes}
    (hn : ∀ x ∈ id :: ids, Name E x ∧ x ∉ reserved) (hg : NoNil g) (hl : lookup E (id :: ids) g = .node t es) (he : es ≠ []) (h1 : ∀ u, es ≠ [.node u []])
    (hb : forLoop v (procList E body.trees false) es false (declare v g) = .ok (⟨false, o, ls⟩, g')) (y : Bool) :
    procList E [loopNode v id ids body] y g = .ok (⟨false, o, v :: ls⟩, g') := by
  rw [loop_eq hn hg hl he h1, EvalM.bind_ok hb]; rfl

/-- and the other way round -/
theorem run_loop {v id : Bytes} {ids : List Bytes} {body : Items} {g g' : Graph} {t : Val} {es : List Graph} {r : Proc} {y : Bool}
    (hn : ∀ x ∈ id :: ids, Name E x ∧ x ∉ reserved) (hg : NoNil g) (hl : lookup E (id :: ids) g = .node t es) (he : es ≠ []) (h1 : ∀ u, es ≠ [.node u []])
    (h : procList E [loopNode v id ids body] y g = .ok (r, g')) :
    ∃ r1, forLoop v (procList E body.trees false) es false (declare v g) = .ok (r1, g') ∧ r.out = r1.out := by
  rw [loop_eq hn hg hl he h1] at h
  obtain ⟨r1, g1, h2, h⟩ := EvalM.ok_of_bind h
  cases h
  exact ⟨r1, h2, rfl⟩

/-! ## Paths that lead nowhere -/

theorem evalStep_missing {f : Nat} {p : Graph} {id : Bytes} {s : PathSt} {g : Graph} (hid : Name E id) (hr : id ∉ reserved)
    (hd : Data E s.ctx) (hn : (firstNamed E id s.ctx.out).isNil = true) :
    (∃ s', evalStep E (f + 3) p (leaf id) s g = .ok (.next s', g) ∧ s'.ctx = .nil ∧ s'.addRoot = false) ∨
    evalStep E (f + 3) p (leaf id) s g = .ok (.done (.nil, none), g) := by
  obtain ⟨h1, h2, h3, h4⟩ := not_ty hid
  simp only [reserved, List.mem_cons, List.not_mem_nil, or_false, not_or] at hr
  obtain ⟨r1, r2, r3, r4, r5⟩ := hr
  rw [evalStep.eq_def]
  dsimp only
  rw [leaf_thisString, if_neg h1, if_neg h2, if_neg r1, if_neg r2, if_neg r3, if_neg r4, if_neg r5, if_neg h3, if_neg h4, evalName]
  cases hs : s.ctx with
  | nil => rw [hs] at hd; exact absurd hd.1 (by simp [NoNil])
  | node t o =>
    rw [hs] at hd hn
    have hnil := isNil_eq hn
    simp only [Graph.out_node] at hnil
    simp only [Graph.nodeNamed, nodeLoop_eq id (gs := o) hd.1, bind, EvalM.lift, pure, hnil]
    cases o with
    | nil => left; exact ⟨_, by simp [Graph.len]; rfl, rfl, rfl⟩
    | cons x xs =>
      right
      cases x with
      | nil => exact absurd hd.1.1 (by simp [NoNil])
      | node t' o' =>
        have hcall : callableOf E t' = .none := by
          have h' : Inert E t' := hd.2.2.1.1
          cases t' <;> first | rfl | exact h'
        have : (Graph.node t (Graph.node t' o' :: xs)).len > 0 := by simp [Graph.len]
        simp only [Graph.isNil, this, decide_true, Bool.and_true, ↓reduceIte, firstThis, function, hcall, pure]

theorem firstNamed_data {id : Bytes} {g : Graph} (h : Data E g) (hf : (firstNamed E id g.out).isNil = false) : Data E (firstNamed E id g.out) := by
  cases g with
  | nil => exact absurd h.1 (by simp [NoNil])
  | node t o =>
    refine ⟨?_, ?_⟩
    · rcases noNilL_find (E := E) (id := id) (gs := o) h.1 with h | h
      · simp only [Graph.out_node] at hf; rw [h] at hf; exact absurd hf (by simp)
      · exact h
    · have := nodeLoop_eq (E := E) id (gs := o) h.1
      exact nodeLoop_allThis (id := id) h.2.2 this

theorem walk_missing {f : Nat} {p g : Graph} : ∀ (ids : List Bytes) (s : PathSt), (∀ id ∈ ids, Name E id ∧ id ∉ reserved) →
    Data E s.ctx → (lookup E ids s.ctx).isNil = true → s.addRoot = false →
    (∃ s', walkPath (evalStep E (f + 3) p) (ids.map leaf) s g = .ok (.next s', g) ∧ s'.ctx = .nil ∧ s'.addRoot = false) ∨
    walkPath (evalStep E (f + 3) p) (ids.map leaf) s g = .ok (.done (.nil, none), g)
  | [], s, _, hd, hl, _ => by
    simp only [lookup] at hl
    rw [isNil_eq hl] at hd
    exact absurd hd.1 (by simp [NoNil])
  | id :: ids, s, hn, hd, hl, ha => by
    have hc : s.ctx.isNil = false := by
      cases h : s.ctx with
      | nil => rw [h] at hd; exact absurd hd.1 (by simp [NoNil])
      | node t o => rfl
    simp only [List.map_cons, walkPath, hc, Bool.false_eq_true, ↓reduceIte, bind]
    cases hf : (firstNamed E id s.ctx.out).isNil with
    | true =>
      rcases evalStep_missing (f := f) (p := p) (g := g) (hn id (by simp)).1 (hn id (by simp)).2 hd hf with ⟨s', h1, h2, h3⟩ | h1
      · left
        refine ⟨s', ?_, h2, h3⟩
        simp only [h1]
        cases ids with
        | nil => rfl
        | cons i is => simp [walkPath, h2, pure]
      · right
        simp only [h1, pure]
    | false =>
      simp only [evalStep_name (f := f + 1) (p := p) (g := g) (hn id (by simp)).1 (hn id (by simp)).2 hd.1 hf]
      exact walk_missing ids _ (fun x hx => hn x (by simp [hx])) (firstNamed_data hd hf) hl rfl

/-- The value of a path that leads nowhere: nothing. -/
theorem evalPath_missing {f : Nat} {ids : List Bytes} {g : Graph} (hne : ids ≠ []) (hn : ∀ id ∈ ids, Name E id ∧ id ∉ reserved)
    (hg : Data E g) (hl : (lookup E ids g).isNil = true) :
    ∃ v, evalPath E (f + 4) (pathOf ids) true g = .ok ((v, none), g) ∧ (v = .nil ∨ v = .graph .nil) := by
  have hnil : g.isNil = false := by
    cases g with
    | nil => exact absurd hg.1 (by simp [NoNil])
    | node t o => rfl
  have hlen : ¬ (pathOf ids).len = 0 := by
    cases ids with
    | nil => exact absurd rfl hne
    | cons a as => simp [pathOf, Graph.len]; omega
  rcases walk_missing (f := f) (p := pathOf ids) (g := g) ids { ctx := g } hn hg hl rfl with ⟨s', h1, h2, h3⟩ | h1
  · refine ⟨.graph .nil, ?_, .inr rfl⟩
    rw [evalPath]
    simp only [bind, EvalM.ctx, hlen, hnil, false_or, Bool.false_eq_true, ↓reduceIte]
    simp only [pathOf, Graph.out_node] at h1 ⊢
    simp only [h1, h3, h2, pure, Bool.false_eq_true, ↓reduceIte, simplify]
  · refine ⟨.nil, ?_, .inl rfl⟩
    rw [evalPath]
    simp only [bind, EvalM.ctx, hlen, hnil, false_or, Bool.false_eq_true, ↓reduceIte]
    simp only [pathOf, Graph.out_node] at h1 ⊢
    simp only [h1, pure]

/-! ## Variables and silent expressions -/

theorem evalFuel_pos (p : Graph) : ∃ k, evalFuel p = k + 5 := ⟨evalFuel p - 5, by simp only [evalFuel]; omega⟩

theorem eval_pathOf (ids : List Bytes) : ∃ k, eval E (evalFuel (pathOf ids)) (pathOf ids) = evalPath E (k + 4) (pathOf ids) true := by
  obtain ⟨k, hk⟩ := evalFuel_pos (pathOf ids)
  refine ⟨k, ?_⟩
  rw [hk]
  rfl

theorem var_run {ids : List Bytes} {g : Graph} {v : Val} {err : Option Err} {o : Bytes}
    (h : eval E (evalFuel (pathOf ids)) (pathOf ids) g = .ok ((v, err), g)) (ht : vtext E v = .ok o) (y : Bool) :
    procList E [pathOf ids] y g = .ok (⟨false, o, []⟩, g) := by
  have h1 : procNode E (procAll E) (pathOf ids) y g = .ok ((⟨false, o, []⟩, y), g) := by
    unfold procNode
    dsimp only
    rw [if_pos (by simp [pathOf, Graph.thisString, vstr, tyPath]), EvalM.bind_ok h]
    dsimp only
    rw [ht, lift_ok]; rfl
  unfold procList
  rw [procNodes_seq (by simp [pathOf, Graph.thisString, vstr]) h1 (by simp only [procNodes]; rfl)]
  simp [Proc.andThen]

theorem expr_run {n : Graph} {g g' : Graph} {r : Val × Option Err}
    (h : g.eval E (exprOf n) = .ok (r, g')) (y : Bool) :
    procList E [exprOf n] y g = .ok (⟨false, [], []⟩, g') := by
  have h1 : procNode E (procAll E) (exprOf n) y g = .ok ((⟨false, [], []⟩, y), g') := by
    unfold procNode
    dsimp only
    rw [if_neg (by simp [exprOf, Graph.thisString, vstr, tyPath]), if_pos (by simp [exprOf, Graph.thisString, vstr, tyExpression]),
      EvalM.bind_ok (show eval E (evalFuel (exprOf n)) (exprOf n) g = _ from h)]; rfl
  unfold procList
  rw [procNodes_seq (by simp [exprOf, Graph.thisString, vstr]) h1 (by simp only [procNodes]; rfl)]
  simp [Proc.andThen]

theorem expr_run_inv {n : Graph} {g g' : Graph} {y : Bool} {r : Proc} (h : procList E [exprOf n] y g = .ok (r, g')) :
    ∃ v, g.eval E (exprOf n) = .ok (v, g') ∧ r.out = [] := by
  have h0 := h
  unfold procList at h
  rw [procNodes_cons (procAll E) (by simp [exprOf, Graph.thisString, vstr])] at h
  obtain ⟨_, g1, h1, _⟩ := EvalM.ok_of_bind h
  unfold procNode at h1
  dsimp only at h1
  rw [if_neg (by simp [exprOf, Graph.thisString, vstr, tyPath]), if_pos (by simp [exprOf, Graph.thisString, vstr, tyExpression])] at h1
  obtain ⟨v, g2, h2, _⟩ := EvalM.ok_of_bind h1
  rw [expr_run (show g.eval E (exprOf n) = _ from h2) y] at h0
  cases h0
  exact ⟨v, h2, rfl⟩

/-! ## Processing ends -/

theorem vtext_ne_oof {v : Val} : vtext E v ≠ .oof := by
  have : ∀ s, finishText s ≠ .oof := by
    intro s
    unfold finishText
    repeat' split
    all_goals simp
  unfold vtext
  split
  · rename_i g
    cases g <;> simp only [Graph.text]
    · simp
    · exact this _
  · simp

theorem itfEq_ne_oof {a b : Val} : itfEq E a b ≠ .oof := by
  unfold itfEq
  repeat' split
  all_goals simp

theorem deleteLoop_ne_oof {n : Val} : ∀ (f i : Nat) (o : List Graph), deleteLoop E n f i o ≠ .oof
  | 0, i, o => by simp [deleteLoop]
  | f + 1, i, o => by
    simp only [deleteLoop]
    split
    · simp
    · simp
    · refine Res.bind_ne_oof itfEq_ne_oof fun b => ?_
      split
      · exact deleteLoop_ne_oof f _ _
      · exact deleteLoop_ne_oof f _ _

theorem delete_ne_oof {n : Val} {g : Graph} : g.delete E n ≠ .oof := by
  cases g with
  | nil => simp [Graph.delete]
  | node t o => exact Res.bind_ne_oof (deleteLoop_ne_oof _ _ _) fun _ => by simp

theorem modify_neverOof {α : Type} {f : Graph → Res (Graph × α)} (h : ∀ g, f g ≠ .oof) : NeverOof (EvalM.modify f) := by
  intro g hg
  simp only [EvalM.modify] at hg
  split at hg
  · cases hg
  · cases hg
  next hs => exact h g hs

theorem forLoop_neverOof {v : Bytes} {b : EvalM Proc} (hb : NeverOof b) : ∀ (es : List Graph) (away : Bool), NeverOof (forLoop v b es away)
  | [], away => by simp only [forLoop]; exact neverOof_pred.pure _
  | e :: es, away => by
    have ih := forLoop_neverOof (v := v) hb es
    have key : NeverOof (do
        let r ← b
        if r.brk then pure ⟨false, r.out, r.loops⟩
        else do
          let r' ← forLoop v b es (away || r.loops.contains v)
          pure ⟨false, r.out ++ r'.out, r.loops ++ r'.loops⟩ : EvalM Proc) := by
      refine neverOof_pred.bind hb fun r => ?_
      split
      · exact neverOof_pred.pure _
      · exact neverOof_pred.bind (ih _) fun _ => neverOof_pred.pure _
    rw [forLoop]
    cases away with
    | true => simp only [Bool.not_true, Bool.false_eq_true, ↓reduceIte]; exact key
    | false =>
      simp only [Bool.not_false, ↓reduceIte]
      refine neverOof_pred.bind ?_ fun _ => key
      intro g hg
      unfold bindVar at hg
      split at hg <;> cases hg

theorem forNode_neverOof {sub : Graph → EvalM Proc} {n : Graph} (hs : ∀ i x, n.getAt i = .ok x → NeverOof (sub x)) : NeverOof (forNode E sub n) := by
  unfold forNode
  refine neverOof_pred.bind (neverOof_pred.lift getAt_ne_oof) fun args => neverOof_pred.bind (neverOof_pred.lift getAt_ne_oof) fun src =>
    neverOof_pred.bind (eval_neverOof _ (Nat.le_refl _)) fun ⟨v, e⟩ => ?_
  cases v with
  | graph gi =>
    dsimp only
    split
    · exact neverOof_pred.pure _
    · refine neverOof_pred.bind (neverOof_pred.lift getAt_ne_oof) fun args => neverOof_pred.bind (neverOof_pred.lift getAt_ne_oof) fun a =>
        neverOof_pred.bind (neverOof_pred.lift getAt_ne_oof) fun a => neverOof_pred.bind (neverOof_pred.lift string_ne_oof) fun name =>
        neverOof_pred.bind (modify_neverOof fun g => Res.bind_ne_oof delete_ne_oof fun _ => by simp) fun _ => ?_
      intro g
      cases hx : n.getAt 1 with
      | oof => exact absurd hx getAt_ne_oof
      | panic => intro h; cases h
      | ok x =>
        rw [lift_ok]
        have key : ∀ l : Graph, NeverOof (if l.isNil then EvalM.panic else do
            let r ← forLoop name (sub x) l.out false
            (pure { r with loops := name :: r.loops } : EvalM Proc)) := by
          intro l
          split
          · exact neverOof_pred.panic
          · exact neverOof_pred.bind (forLoop_neverOof (hs 1 x hx) _ _) fun _ => neverOof_pred.pure _
        exact key _ g
  | _ => exact neverOof_pred.pure _

theorem procCond_neverOof (n : Graph) : NeverOof (procCond E n) :=
  neverOof_pred.bind (neverOof_pred.lift getAt_ne_oof) fun _ => neverOof_pred.bind (neverOof_pred.lift getAt_ne_oof) fun _ =>
    evalBool_neverOof _ (by omega)

theorem procNode_neverOof {sub : Graph → EvalM Proc} {n : Graph} (hs : ∀ i x, n.getAt i = .ok x → NeverOof (sub x)) (y : Bool) :
    NeverOof (procNode E sub n y) := by
  have hbody : ∀ (i : Int) (z : Bool), NeverOof (do let t ← EvalM.lift (n.getAt i); let r ← sub t; (pure (r, z) : EvalM (Proc × Bool))) := by
    intro i z g
    cases hx : n.getAt i with
    | oof => exact absurd hx getAt_ne_oof
    | panic => intro h; cases h
    | ok x => exact neverOof_pred.bind (hs i x hx) (fun _ => neverOof_pred.pure _) g
  have hcond : NeverOof (do
      let b ← procCond E n
      if b then do
        let t ← .lift (n.getAt 1)
        let r ← sub t
        pure (r, true)
      else pure (⟨false, [], []⟩, false) : EvalM (Proc × Bool)) := by
    refine neverOof_pred.bind (procCond_neverOof n) fun b => ?_
    split
    · exact hbody 1 true
    · exact neverOof_pred.pure _
  unfold procNode
  dsimp only
  split
  · exact neverOof_pred.bind (eval_neverOof _ (Nat.le_refl _)) fun _ => neverOof_pred.bind (neverOof_pred.lift vtext_ne_oof) fun _ => neverOof_pred.pure _
  split
  · exact neverOof_pred.bind (eval_neverOof _ (Nat.le_refl _)) fun _ => neverOof_pred.pure _
  split
  · exact hcond
  split
  · split
    · exact neverOof_pred.pure _
    · exact hcond
  split
  · split
    · exact neverOof_pred.pure _
    · exact hbody 0 false
  split
  · exact neverOof_pred.bind (forNode_neverOof hs) fun _ => neverOof_pred.pure _
  · exact neverOof_pred.pure _

theorem procNodes_neverOof {sub : Graph → EvalM Proc} : ∀ {as : List Graph}, (∀ n ∈ as, ∀ i x, n.getAt i = .ok x → NeverOof (sub x)) →
    ∀ y, NeverOof (procNodes E sub as y)
  | [], _, y => by simp only [procNodes]; exact neverOof_pred.pure _
  | n :: as, h, y => by
    by_cases hn : n.thisString E = b!"!break"
    · rw [procNodes_break sub hn]; exact neverOof_pred.pure _
    · rw [procNodes_cons sub hn]
      exact neverOof_pred.bind (procNode_neverOof (h n (by simp)) y) fun ⟨r, z⟩ =>
        neverOof_pred.bind (procNodes_neverOof (fun m hm => h m (by simp [hm])) z) fun _ => neverOof_pred.pure _

theorem process_neverOof : ∀ (f : Nat) (t : Graph), t.height < f → NeverOof (process E f t)
  | f + 1, .nil, _ => by simp only [process]; exact neverOof_pred.pure _
  | f + 1, .node t o, hf => by
    simp only [process]
    refine procNodes_neverOof (fun n hn i x hx => ?_) false
    have h1 := height_mem hn
    simp only [Graph.height] at hf
    rcases getAt_height hx with rfl | h2
    · cases f with
      | zero => omega
      | succ f => simp only [process]; exact neverOof_pred.pure _
    · exact process_neverOof f x (by omega)
  | 0, _, hf => by omega

end
end Ogdl
