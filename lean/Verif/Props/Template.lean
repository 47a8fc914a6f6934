import Verif.Lemmas.TemplatePlain
import Verif.Lemmas.TemplateRun
import Verif.Props.Expr

/-!
# Templates (C38 – C42, C60 – C62)

`Renders E s g o g'`: `NewTemplate(s).Process(g)` returns `o` and leaves the context
as `g'`.  `Spec.Items` describes templates as text; `Items.text` is what is handed to
`NewTemplate`.
-/

namespace Ogdl
open Spec

/-- Compute a template from the tree of its text. -/
theorem newTemplate_tree {E : Ext} {s : Bytes} {t : Val} {o o' : List Graph} (hl : s.length ≤ 4093)
    (h : (do let r ← (template E (loopFuel s) (flowFuel s) (flowFuel s)).run curM (Cur.start s) {}; r.2.2.tree) = .ok (.node t o))
    (ha : Graph.astList E o = .ok o') :
    newTemplate E s = (do
      let (h, prev, _) ← flow E ((o'.map (simplifyNode E)).length + 1) (o'.map (simplifyNode E))
      .ok (.node (.str []) (h ++ prev))) := by
  unfold newTemplate
  rw [runParser_short _ _ hl (runeOk_template E _ _ _), h]
  simp only [Res.ok_bind, Graph.ast, ha, Graph.out_node]

/-- Processing has one result. -/
theorem Spec.Renders.unique {E : Ext} {s : Bytes} {g g1 g2 : Graph} {o1 o2 : Bytes} (h1 : Renders E s g o1 g1) (h2 : Renders E s g o2 g2) :
    o1 = o2 ∧ g1 = g2 := by
  obtain ⟨t, a1, b1⟩ := h1
  obtain ⟨t', a2, b2⟩ := h2
  rw [a1] at a2; cases a2
  rw [b1] at b2; cases b2
  exact ⟨rfl, rfl⟩

/-! ## C38 -/

/-- A text of any length without a dollar sign and control characters is rendered
unchanged and leaves the context alone; missing: the eight texts with a meaning in the
tree of a template, for which it is false (`C38_refuted`). -/
theorem C38_partial (E : Ext) (s : Bytes) (g : Graph) (hp : ∀ c ∈ s, PlainByte c) (hm : s ∉ markers) : Renders E s g s g := by
  by_cases hne : s = []
  · subst hne
    exact (renders_iff (is := .nil) (rest := []) (by simp only [Items.Ok]) (.short (by simp [Items.text]))).2 ⟨false, [], by simp only [Items.trees, procList, procNodes]; rfl⟩
  · refine ⟨_, newTemplate_plain hne hp hm, ?_⟩
    rw [graph_process_node]
    simp only [markers, List.mem_cons, List.not_mem_nil, or_false, not_or] at hm
    have h1 : procNode E (procAll E) (leaf s) false g = .ok ((⟨false, s, []⟩, false), g) := by
      unfold procNode
      dsimp only
      rw [leaf_thisString, if_neg (show ¬ s = tyPath from hm.1), if_neg (show ¬ s = tyExpression from hm.2.1), if_neg (show ¬ s = tyIf from hm.2.2.1),
        if_neg (show ¬ s = tyElseIf from hm.2.2.2.2.2.1), if_neg (show ¬ s = tyElse from hm.2.2.2.2.1), if_neg (show ¬ s = tyFor from hm.2.2.2.2.2.2.1)]
      rfl
    unfold procList
    rw [procNodes_seq (by rw [leaf_thisString]; exact hm.2.2.2.2.2.2.2) h1 (by simp only [procNodes]; rfl)]
    simp [Proc.andThen]

/-- C38 does not hold: the plain text `!p` is not rendered at all. -/
theorem C38_refuted (E : Ext) (g : Graph) : (∀ c ∈ b!"!p", PlainByte c) ∧ Renders E b!"!p" g [] g := by
  refine ⟨by intro c hc; simp only [List.mem_cons, List.not_mem_nil, or_false] at hc; rcases hc with rfl | rfl <;> (unfold PlainByte; decide), ?_⟩
  refine ⟨.node (.str []) [leaf b!"!p"], ?_, ?_⟩
  · rw [newTemplate_tree (t := .str b!"_") (o := [leaf b!"!p"]) (by decide) (by rfl) (by simp [Graph.astList, Graph.astBody, Graph.astEach, leaf, pathOf, vstr, tyExpression]; rfl)]
    rfl
  · rfl

/-! ## C39 -/

/-- A chain of `$if`, `$elseif` and `$else` renders exactly the body of the first
condition that is true, in the context the conditions tested so far leave, or the body of
`$else`, or nothing; and it renders at all only if that does.  Missing: templates that
do not fit (`Fits`). -/
theorem C39_partial (E : Ext) (c : Grouping) (body : Items) (more : Branches) (g g2 : Graph) (o : Bytes)
    (hok : (Item.cond c body more).Ok E []) (hl : Fits (Item.cond c body more).text)
    (hf : (Branches.elif c body more).Fit) :
    Renders E (Item.cond c body more).text g o g2 ↔
      ∃ sel g1, Selects E (.elif c body more) g sel g1 ∧
        match sel with
        | none => o = [] ∧ g2 = g1
        | some b => Renders E b.text g1 o g2 := by
  have hok' : (Items.cons (.cond c body more) .nil).Ok E [] := by
    simp only [Items.Ok, Items.text, List.append_nil]
    exact ⟨hok, trivial⟩
  have et : (Items.cons (.cond c body more) .nil).text = (Item.cond c body more).text := by simp only [Items.text, List.append_nil]
  have ee : (Items.cons (.cond c body more) .nil).trees = (Item.cond c body more).trees := by simp only [Items.trees, List.append_nil]
  have hr := renders_iff hok' (by rw [et]; exact hl) (g := g) (g' := g2) (o := o)
  rw [et, ee] at hr
  rw [hr]
  have hbok : (Branches.elif c body more).Ok E [] := by
    simp only [Item.Ok] at hok
    simp only [Branches.Ok]
    exact hok
  have hsel : ∀ {b : Items} {g1 : Graph}, Selects E (.elif c body more) g (some b) g1 → (∃ rest, b.Ok E rest) ∧ Fits b.text :=
    fun h => ⟨(selects_ok h rfl hbok).1, (selects_ok h rfl hbok).2 hf⟩
  constructor
  · rintro ⟨b, ls, h⟩
    obtain ⟨sel, g1, h1, h2⟩ := cond_selected hok hf h
    refine ⟨sel, g1, h1, ?_⟩
    cases sel with
    | none => exact h2
    | some b =>
      obtain ⟨⟨rest, hb⟩, hbl⟩ := hsel h1
      exact (renders_iff hb hbl).2 h2
  · rintro ⟨sel, g1, h1, h2⟩
    have : Selected E sel g1 o g2 := by
      cases sel with
      | none => exact h2
      | some b =>
        obtain ⟨⟨rest, hb⟩, hbl⟩ := hsel h1
        exact (renders_iff hb hbl).1 h2
    obtain ⟨ls, h⟩ := cond_select hok hf h1 this
    exact ⟨_, _, h⟩

/-! ## C40 -/

section
variable {E : Ext}

theorem loop_item {v id : Bytes} {ids : List Bytes} {body : Items} {g g' : Graph} {o : Bytes} (hok : (Item.loop v id ids body).Ok E [])
    (hl : Fits (Item.loop v id ids body).text) : Renders E (Item.loop v id ids body).text g o g' ↔
      ∃ b ls, procList E [loopNode v id ids body] false g = .ok (⟨b, o, ls⟩, g') := by
  have hok' : (Items.cons (.loop v id ids body) .nil).Ok E [] := by
    simp only [Items.Ok, Items.text, List.append_nil]
    exact ⟨hok, trivial⟩
  have et : (Items.cons (.loop v id ids body) .nil).text = (Item.loop v id ids body).text := by simp only [Items.text, List.append_nil]
  have ee : (Items.cons (.loop v id ids body) .nil).trees = [loopNode v id ids body] := by simp only [Items.trees, Item.trees, List.append_nil, loopNode]
  have hr := renders_iff hok' (by rw [et]; exact hl) (g := g) (g' := g') (o := o)
  rw [et, ee] at hr
  exact hr

theorem noNilL_ne : ∀ {es : List Graph}, NoNilL es → ∀ e ∈ es, e ≠ .nil
  | e :: es, h, x, hx => by
    rcases List.mem_cons.1 hx with rfl | hx
    · rintro rfl; exact absurd h.1 (by simp [NoNil])
    · exact noNilL_ne h.2 x hx

theorem lookup_noNil : ∀ (ids : List Bytes) {g : Graph}, NoNil g → (lookup E ids g).isNil = false → NoNil (lookup E ids g)
  | [], g, h, _ => h
  | id :: ids, g, h, hl => by
    rw [lookup] at hl ⊢
    cases g with
    | nil => exact absurd h (by simp [NoNil])
    | node t o =>
      rcases noNilL_find (E := E) (id := id) (gs := o) h with h | h
      · simp only [Graph.out_node, h, lookup_nil] at hl; exact absurd hl (by simp)
      · exact lookup_noNil ids h hl
end

/-- A loop over a node with subnodes renders its body once for each subnode, in order,
each time with the variable bound to that subnode, in the context the time before left;
the variable is new.  It renders only if all of these do.  Missing: a list of one
value without subnodes (`C40_refuted`), bodies with a `$break` (C41) or with another loop
on the same variable, paths that are not just names, templates that do not fit (`Spec.Fits`).
This is about trees: in memory the elements are shared, and it is so for bodies without
assignments (C104). -/
theorem C40_partial (E : Ext) (v id : Bytes) (ids : List Bytes) (body : Items) (g g' : Graph) (t : Val) (es : List Graph) (o : Bytes)
    (hok : (Item.loop v id ids body).Ok E []) (hl : Fits (Item.loop v id ids body).text) (hbl : Fits body.text)
    (hr : ∀ x ∈ id :: ids, x ∉ reserved) (hg : NoNil g) (hes : lookup E (id :: ids) g = .node t es) (hne : es ≠ []) (h1 : ∀ u, es ≠ [.node u []])
    (hb : body.breaks = false) (hv : v ∉ body.loopVars) :
    Renders E (Item.loop v id ids body).text g o g' ↔ Iterates E v body es (declare v g) o g' := by
  rw [loop_item hok hl]
  simp only [Item.Ok] at hok
  have hn : ∀ x ∈ id :: ids, Name E x ∧ x ∉ reserved := fun x hx => ⟨hok.2.2.1.2 x hx, hr x hx⟩
  have hnil : ∀ e ∈ es, e ≠ .nil := by
    have := lookup_noNil (id :: ids) hg (by rw [hes]; rfl)
    rw [hes] at this
    exact noNilL_ne this
  constructor
  · rintro ⟨b, ls, h⟩
    obtain ⟨r1, h2, h3⟩ := run_loop hn hg hes hne h1 h
    have := iterates_forLoop hok.2.2.2.2.2.1 hbl hb hv hnil h2
    simp only at h3
    rw [h3]; exact this
  · intro h
    obtain ⟨ls, h2⟩ := forLoop_iterates hok.2.2.2.2.2.1 hbl hb hv h hnil
    exact ⟨_, _, loop_run hn hg hes hne h1 h2 false⟩

/-- A loop over a node without subnodes, or over nothing, renders nothing. -/
theorem C40_empty (E : Ext) (v id : Bytes) (ids : List Bytes) (body : Items) (g : Graph)
    (hok : (Item.loop v id ids body).Ok E []) (hl : Fits (Item.loop v id ids body).text)
    (hr : ∀ x ∈ id :: ids, x ∉ reserved) (hg : Data E g) (hes : (lookup E (id :: ids) g).out = []) :
    Renders E (Item.loop v id ids body).text g [] g := by
  rw [loop_item hok hl]
  simp only [Item.Ok] at hok
  have hn : ∀ x ∈ id :: ids, Name E x ∧ x ∉ reserved := fun x hx => ⟨hok.2.2.1.2 x hx, hr x hx⟩
  have hval : ∃ x, eval E (evalFuel (exprOf (pathOf (id :: ids)))) (exprOf (pathOf (id :: ids))) g = .ok ((x, none), g) ∧
      (x = .nil ∨ x = .graph .nil ∨ ∃ t, x = .graph (.node t [])) := by
    cases hnil : (lookup E (id :: ids) g).isNil with
    | false =>
      refine ⟨_, eval_path_expr hn hg.1 hnil, ?_⟩
      cases hk : lookup E (id :: ids) g with
      | nil => rw [hk] at hnil; cases hnil
      | node t k =>
        rw [hk] at hes
        simp only [Graph.out_node] at hes
        subst hes
        exact .inr (.inr ⟨t, rfl⟩)
    | true =>
      obtain ⟨x, h1, h2⟩ := evalPath_missing (f := 0) (by simp) hn hg hnil
      have hE : Evals E (pathOf (id :: ids)) g x g := by
        refine Evals.of (f := 5) ?_
        rw [pathOf, evalExpr.eq_def]
        dsimp only
        rw [vstr_str, if_neg (by decide), if_neg (by decide), if_neg (by decide), if_neg (by decide), if_pos (by rfl)]
        exact h1
      exact ⟨x, eval_expression hE, by rcases h2 with h2 | h2 <;> simp [h2]⟩
  obtain ⟨x, hx, hx'⟩ := hval
  have hfor : forNode E (procAll E) (loopNode v id ids body) g = .ok (⟨false, [], []⟩, g) := by
    rw [forNode_loop, EvalM.bind_ok hx]
    rcases hx' with rfl | rfl | ⟨t, rfl⟩ <;> rfl
  refine ⟨false, [], ?_⟩
  unfold procList
  rw [procNodes_seq (r1 := ⟨false, [], []⟩) (y1 := false) (c1 := g) (by simp [loopNode, Graph.thisString, vstr])
    (by rw [procNode_for (by simp [loopNode, Graph.thisString, vstr]), EvalM.bind_ok hfor]; rfl) (by simp only [procNodes]; rfl)]
  simp [Proc.andThen]

/-- C40 does not hold: a loop over a list with a single value renders nothing.  The
context has one node `a` with the subnode `b`. -/
theorem C40_refuted (E : Ext) : Renders E b!"$for(v, a)x$end" (.node .nil [.node (.str b!"a") [leaf b!"b"]]) []
    (.node .nil [.node (.str b!"a") [leaf b!"b"]]) := by
  refine ⟨.node (.str []) [loopNode b!"v" b!"a" [] (.cons (.plain b!"x") .nil)], ?_, ?_⟩
  · rw [newTemplate_tree (t := .str b!"_") (o := [.node (.str b!"!p") [leaf b!"for", .node (.str b!"!a") [.node (.str b!"!e") [pathOf [b!"v"]], .node (.str b!"!e") [pathOf [b!"a"]]]],
      leaf b!"x", pathOf [b!"end"]]) (by decide) (by rfl) (by simp [Graph.astList, Graph.astBody, Graph.astEach, leaf, pathOf, vstr, tyExpression]; rfl)]
    rfl
  · rfl

/-! ## C41 -/

/-- A `$break` in the body of a loop ends it: the first subnode is rendered up to the
`$break` and no other.  Missing: a `$break` inside an `$if` (`C41_refuted`; what it does is `C41_if`). -/
theorem C41_partial (E : Ext) (v id : Bytes) (ids : List Bytes) (pre post : Items) (g g' : Graph) (t : Val) (e : Graph) (es : List Graph) (o : Bytes)
    (hok : (Item.loop v id ids (pre.append (.cons .brk post))).Ok E [])
    (hl : Fits (Item.loop v id ids (pre.append (.cons .brk post))).text) (hpl : Fits pre.text)
    (hr : ∀ x ∈ id :: ids, x ∉ reserved) (hg : NoNil g) (hes : lookup E (id :: ids) g = .node t (e :: es)) (h1 : ∀ u, e :: es ≠ [.node u []])
    (hb : pre.breaks = false) :
    Renders E (Item.loop v id ids (pre.append (.cons .brk post))).text g o g' ↔
      Renders E pre.text (.node g.this (assignVar v e (declare v g).out)) o g' := by
  rw [loop_item hok hl]
  simp only [Item.Ok] at hok
  have hn : ∀ x ∈ id :: ids, Name E x ∧ x ∉ reserved := fun x hx => ⟨hok.2.2.1.2 x hx, hr x hx⟩
  have hnil : ∀ x ∈ e :: es, x ≠ .nil := by
    have := lookup_noNil (id :: ids) hg (by rw [hes]; rfl)
    rw [hes] at this
    exact noNilL_ne this
  have hbok := hok.2.2.2.2.2.1
  rw [renders_iff (append_ok hbok).1 hpl]
  have hd : declare v g = .node g.this (declare v g).out := rfl
  constructor
  · rintro ⟨b, ls, h⟩
    obtain ⟨r1, h2, h3⟩ := run_loop hn hg hes (by simp) h1 h
    rw [hd] at h2
    obtain ⟨k, ls, h4⟩ := breaks_forLoop (hnil e (by simp)) (fun g g' r h => (run_break hbok hb h).1) h2
    obtain ⟨k', ls', h5⟩ := (run_break hbok hb h4).2
    simp only at h3 h5
    rw [h3]; exact ⟨k', ls', h5⟩
  · rintro ⟨k, ls, h⟩
    have h2 := forLoop_breaks (v := v) (e := e) (es := es) (hnil e (by simp)) (break_run hbok hb h)
    exact ⟨_, _, loop_run hn hg hes (by simp) h1 h2 false⟩

/-- C41 does not hold: a `$break` inside an `$if` does not end the loop. -/
theorem C41_refuted (E : Ext) : Renders E b!"$for(v, a)$if(1==1)$break$end x$end" (.node .nil [.node (.str b!"a") [leaf b!"b", leaf b!"c"]])
    b!" x x" (.node .nil [.node (.str b!"a") [leaf b!"b", leaf b!"c"], .node (.str b!"v") [leaf b!"c"]]) := by
  refine ⟨.node (.str []) [loopNode b!"v" b!"a" [] (.cons (.cond (.bin b!"==" (.atom (.num b!"1")) (.atom (.num b!"1"))) (.cons .brk .nil) .done) (.cons (.plain b!" x") .nil))], ?_, ?_⟩
  · rw [newTemplate_tree (t := .str b!"_") (o := [.node (.str b!"!p") [leaf b!"for", .node (.str b!"!a") [.node (.str b!"!e") [pathOf [b!"v"]], .node (.str b!"!e") [pathOf [b!"a"]]]],
      .node (.str b!"!p") [leaf b!"if", .node (.str b!"!a") [.node (.str b!"!e") [leaf b!"1", leaf b!"==", leaf b!"1"]]], pathOf [b!"break"], pathOf [b!"end"],
      leaf b!" x", pathOf [b!"end"]]) (by decide) (by rfl) (by simp [Graph.astList, Graph.astBody, Graph.astEach, leaf, pathOf, vstr, tyExpression]; rfl)]
    rfl
  · rfl

/-- A `$break` outside of loops ends the template: what follows it is not rendered. -/
theorem C41_top (E : Ext) (pre post : Items) (g g' : Graph) (o : Bytes) (hok : (pre.append (.cons .brk post)).Ok E [])
    (hl : Fits (pre.append (.cons .brk post)).text) (hpl : Fits pre.text) (hb : pre.breaks = false) :
    Renders E (pre.append (.cons .brk post)).text g o g' ↔ Renders E pre.text g o g' := by
  rw [renders_iff hok hl, renders_iff (append_ok hok).1 hpl]
  constructor
  · rintro ⟨b, ls, h⟩
    exact (run_break hok hb h).2
  · rintro ⟨b, ls, h⟩
    exact ⟨_, _, break_run hok hb h⟩

/-! ## C42 -/

/-- Processing any graph as a template, in any context, ends (it does not loop for
ever) on trees.  In memory it ends without assignments and without loops over `_this` or
over a group (`C42_memory_partial`), and need not end otherwise (`C42_endless_refuted`).
Missing: that it does not panic, which is false (`C42_refuted`), and that `NewTemplate` ends. -/
theorem C42_partial (E : Ext) (t ctx : Graph) : t.process E ctx ≠ .oof := by
  unfold Graph.process
  exact Res.bind_ne_oof (process_neverOof _ t (by omega) ctx) fun _ => by simp

/-- C42 does not hold: the template `$()` panics in every context. -/
theorem C42_refuted (E : Ext) (ctx : Graph) : ∃ t, newTemplate E b!"$()" = .ok t ∧ t.process E ctx = .panic := by
  refine ⟨.node (.str []) [.node (.str b!"!e") []], ?_, rfl⟩
  rw [newTemplate_tree (t := .str b!"_") (o := [.node (.str b!"!e") []]) (by decide) (by rfl) (by simp [Graph.astList, Graph.astBody, leaf, vstr, tyExpression]; rfl)]
  rfl

/-! ## C60 -/

/-- Processing two templates written one after the other is processing the first and
then the second, in the context the first has left.  Missing: a first part with a
`$break` outside of loops (`C41_top`); texts that do not fit (`Spec.Fits`). -/
theorem C60_partial (E : Ext) (a b : Items) (g g2 : Graph) (o : Bytes) (hok : (a.append b).Ok E []) (hl : Fits (a.text ++ b.text))
    (hla : Fits a.text) (hlb : Fits b.text) (hb : a.breaks = false) :
    Renders E (a.text ++ b.text) g o g2 ↔ ∃ o1 g1 o2, o = o1 ++ o2 ∧ Renders E a.text g o1 g1 ∧ Renders E b.text g1 o2 g2 := by
  constructor
  · exact append_renders hok hl hla hlb hb
  · rintro ⟨o1, g1, o2, rfl, h1, h2⟩
    exact renders_append hok hl hla hlb hb h1 h2

/-! ## C61 -/

section
variable {E : Ext}

theorem var_item {id : Bytes} {ids : List Bytes} {br : Bool} {g g' : Graph} {o : Bytes} (hok : (Item.var id ids br).Ok E [])
    (hl : Fits (Item.var id ids br).text) : Renders E (Item.var id ids br).text g o g' ↔
      ∃ b ls, procList E [pathOf (id :: ids)] false g = .ok (⟨b, o, ls⟩, g') := by
  have hok' : (Items.cons (.var id ids br) .nil).Ok E [] := by
    simp only [Items.Ok, Items.text, List.append_nil]
    exact ⟨hok, trivial⟩
  have et : (Items.cons (.var id ids br) .nil).text = (Item.var id ids br).text := by simp only [Items.text, List.append_nil]
  have ee : (Items.cons (.var id ids br) .nil).trees = [pathOf (id :: ids)] := by simp only [Items.trees, Item.trees, List.append_nil]
  have hr := renders_iff hok' (by rw [et]; exact hl) (g := g) (g' := g') (o := o)
  rw [et, ee] at hr
  exact hr
end

/-- `$a.b.c` and `${a.b.c}` render the value under the node that the path leads to. -/
theorem C61_value (E : Ext) (id : Bytes) (ids : List Bytes) (br : Bool) (g : Graph) (t v : Val) (hok : (Item.var id ids br).Ok E [])
    (hl : Fits (Item.var id ids br).text) (hr : ∀ x ∈ id :: ids, x ∉ reserved) (hg : NoNil g)
    (h : lookup E (id :: ids) g = .node t [.node v []]) (hv : ∀ x, v ≠ .graph x) :
    Renders E (Item.var id ids br).text g (vstr E v) g := by
  rw [var_item hok hl]
  simp only [Item.Ok] at hok
  have hn : ∀ x ∈ id :: ids, Name E x ∧ x ∉ reserved := fun x hx => ⟨hok.1.2 x hx, hr x hx⟩
  obtain ⟨k, hk⟩ := eval_pathOf (E := E) (id :: ids)
  have h1 := evalPath_names (f := k + 1) (by simp) hn hg (by rw [h]; rfl) true
  rw [← hk, h] at h1
  simp only [simplify] at h1
  refine ⟨_, _, var_run h1 ?_ false⟩
  cases v <;> first | exact absurd rfl (hv _) | rfl

/-- A path that leads to a node with none or several subnodes, or with subnodes of
subnodes, renders the text of what is below it. -/
theorem C61_text (E : Ext) (id : Bytes) (ids : List Bytes) (br : Bool) (g : Graph) (t : Val) (es : List Graph) (o : Bytes) (hok : (Item.var id ids br).Ok E [])
    (hl : Fits (Item.var id ids br).text) (hr : ∀ x ∈ id :: ids, x ∉ reserved) (hg : NoNil g)
    (h : lookup E (id :: ids) g = .node t es) (h1 : ∀ v, es ≠ [.node v []]) (ho : (Graph.node t es).text E = .ok o) :
    Renders E (Item.var id ids br).text g o g := by
  rw [var_item hok hl]
  simp only [Item.Ok] at hok
  have hn : ∀ x ∈ id :: ids, Name E x ∧ x ∉ reserved := fun x hx => ⟨hok.1.2 x hx, hr x hx⟩
  obtain ⟨k, hk⟩ := eval_pathOf (E := E) (id :: ids)
  have h2 := evalPath_names (f := k + 1) (by simp) hn hg (by rw [h]; rfl) true
  have hsimp : simplify (.node t es) = .graph (.node t es) := by
    unfold simplify
    split
    · rename_i h; cases h; exact absurd rfl (h1 _)
    · rfl
  rw [← hk, h] at h2
  simp only [↓reduceIte, hsimp] at h2
  exact ⟨_, _, var_run h2 ho false⟩

/-- A path that leads nowhere renders nothing. -/
theorem C61_missing (E : Ext) (id : Bytes) (ids : List Bytes) (br : Bool) (g : Graph) (hok : (Item.var id ids br).Ok E [])
    (hl : Fits (Item.var id ids br).text) (hr : ∀ x ∈ id :: ids, x ∉ reserved) (hg : Data E g) (h : lookup E (id :: ids) g = .nil) :
    Renders E (Item.var id ids br).text g [] g := by
  rw [var_item hok hl]
  simp only [Item.Ok] at hok
  have hn : ∀ x ∈ id :: ids, Name E x ∧ x ∉ reserved := fun x hx => ⟨hok.1.2 x hx, hr x hx⟩
  obtain ⟨k, hk⟩ := eval_pathOf (E := E) (id :: ids)
  obtain ⟨v, h1, h2⟩ := evalPath_missing (f := k) (by simp) hn hg (by rw [h]; rfl)
  rw [← hk] at h1
  refine ⟨_, _, var_run h1 ?_ false⟩
  rcases h2 with rfl | rfl <;> rfl

/-- `$\` renders a dollar sign. -/
theorem C61_dollar (E : Ext) (g : Graph) : Renders E b!"$\\" g b!"$" g := by
  refine ⟨.node (.str []) [leaf b!"$"], ?_, rfl⟩
  rw [newTemplate_tree (t := .str b!"_") (o := [leaf b!"$"]) (by decide) (by rfl) (by simp [Graph.astList, Graph.astBody, leaf, vstr, tyExpression]; rfl)]
  rfl

/-! ## C62 -/

/-- `$(x)` renders nothing, and its effect on the context is that of evaluating the
expression `x`; it renders at all only if `x` can be evaluated.  Missing: texts that do
not fit (`Spec.Fits`). -/
theorem C62_partial (E : Ext) (x : Grouping) (g g' : Graph) (o : Bytes) (hok : WritableExpr E x) (hl : Fits (b!"$(" ++ x.text ++ b!")"))
    (hx : Fits x.text) :
    Renders E (b!"$(" ++ x.text ++ b!")") g o g' ↔
      o = [] ∧ ∃ e r, newExpression E x.text = .ok e ∧ g.eval E e = .ok (r, g') := by
  have hok' : (Items.cons (.expr x) .nil).Ok E [] := by
    simp only [Items.Ok, Item.Ok]
    exact ⟨hok, trivial⟩
  have et : (Items.cons (.expr x) .nil).text = b!"$(" ++ x.text ++ b!")" := by simp only [Items.text, Item.text, List.append_nil]
  have ee : (Items.cons (.expr x) .nil).trees = [exprOf x.full] := by simp only [Items.trees, Item.trees, List.append_nil]
  rw [← et, renders_iff hok' (by rw [et]; exact hl), ee]
  constructor
  · rintro ⟨f, u, h⟩
    obtain ⟨v, hv, ho⟩ := expr_run_inv h
    exact ⟨ho, _, _, newExpression_full hok hx, hv⟩
  · rintro ⟨rfl, e, r, he, hv⟩
    rw [newExpression_full hok hx] at he
    cases he
    exact ⟨_, _, expr_run hv false⟩

/-! ## The hypotheses are met -/

section
variable (E : Ext)

theorem ends_byte {c : UInt8} (r : Bytes) (h : c < 0x80 ∧ ¬ AsciiLetter c ∧ ¬ Digit c ∧ c ≠ 46 ∧ c ≠ 91 ∧ c ≠ 40 ∧ c ≠ 123) : Ends (c :: r) := by
  intro c' h'
  simp only [List.head?_cons, Option.some.injEq] at h'
  subst h'; exact h

theorem ends_space (r : Bytes) : Ends (32 :: r) := ends_byte r (by unfold AsciiLetter Digit; decide)
theorem ends_dollar (r : Bytes) : Ends (36 :: r) := ends_byte r (by unfold AsciiLetter Digit; decide)
theorem ends_bracket (r : Bytes) : Ends (93 :: r) := ends_byte r (by unfold AsciiLetter Digit; decide)
theorem ends_nil : Ends [] := by intro c h; cases h

instance : DecidablePred PlainByte := fun c => by unfold PlainByte; infer_instance

/-- C38: a greeting on two lines. -/
example (g : Graph) : Renders E b!"Dear !if,\nhello" g b!"Dear !if,\nhello" g := C38_partial E _ g (by decide) (by decide)

/-- `1 == 2`, or with other numbers. -/
def sampleTest (i j : Int64) : Grouping := .bin b!"==" (lit i) (lit j)

theorem sampleTest_ok (i j : Int64) : WritableExpr E (sampleTest i j) :=
  ⟨by simp [Op], trivial, trivial, itoa_num _, itoa_num _⟩

/-- `$if(1 == 2) x$elseif(3 == 3) y$else z$end` -/
def sampleCond : Item :=
  .cond (sampleTest 1 2) (.cons (.plain b!" x") .nil) (.elif (sampleTest 3 3) (.cons (.plain b!" y") .nil) (.els (.cons (.plain b!" z") .nil)))

example : sampleCond.text = b!"$if(1 == 2) x$elseif(3 == 3) y$else z$end" := by decide

theorem samplePlain_ok {s rest : Bytes} (h : s ≠ [] ∧ (∀ c ∈ s, PlainByte c) ∧ s ∉ markers) : (Items.cons (.plain s) .nil).Ok E (36 :: rest) := by
  simp only [Items.Ok, Item.Ok, Items.text]
  exact ⟨⟨h.1, h.2.1, h.2.2, .inr rfl⟩, trivial⟩

theorem sampleCond_ok : sampleCond.Ok E [] := by
  simp only [sampleCond, Item.Ok, Branches.Ok]
  exact ⟨sampleTest_ok E 1 2, ends_space _, samplePlain_ok E (by decide), sampleTest_ok E 3 3, ends_space _, samplePlain_ok E (by decide),
    ends_space _, samplePlain_ok E (by decide), ends_nil⟩

theorem sampleTest_tests (i j : Int64) (g : Graph) (hg : NoNil g) : Tests E (sampleTest i j).text g (i == j) g := by
  have hm : Means E g (sampleTest i j) (.bool (i == j)) := by
    refine .bin _ _ _ _ _ _ (.int i) (.int j) (.compare (a := i) (b := j) (by simp [asInt, ofInt64]) (by simp [asInt, ofInt64]) ?_)
    simp [comparison, BEq.beq]
  have hl : Fits (sampleTest i j).text := by
    refine .short ?_
    have h1 := itoa_length i
    have h2 := itoa_length j
    simp only [sampleTest, lit, Grouping.text, Opnd.text, List.length_append, List.length_cons, List.length_nil]
    omega
  obtain ⟨e, h1, h2⟩ := C32_value_partial E g (sampleTest i j) _ (sampleTest_ok E i j) hg hm hl
  exact ⟨e, _, none, h1, h2, by cases i == j <;> decide⟩

/-- C39: the sample writes ` y`. -/
example (g : Graph) (hg : NoNil g) : Renders E b!"$if(1 == 2) x$elseif(3 == 3) y$else z$end" g b!" y" g :=
  (C39_partial E _ _ _ g g b!" y" (sampleCond_ok E) (.short (by decide))
    ⟨.short (by decide), .short (by decide), .short (by decide), .short (by decide), .short (by decide)⟩).2
    ⟨_, g, .no (sampleTest_tests E 1 2 g hg) (.yes (sampleTest_tests E 3 3 g hg)), C38_partial E _ g (by decide) (by decide)⟩

/-- `$for(v, a) [$v]$end` -/
def sampleLoop : Item := .loop b!"v" b!"a" [] (.cons (.plain b!" [") (.cons (.var b!"v" [] false) (.cons (.plain b!"]") .nil)))

example : sampleLoop.text = b!"$for(v, a) [$v]$end" := by decide

theorem sampleName (c : UInt8) (h : AsciiLetter c) : Path E [[c]] := ⟨by simp, by simpa using nameA E c h⟩

theorem sampleLoop_ok : sampleLoop.Ok E [] := by
  have hv := sampleName E 118 (by unfold AsciiLetter; decide)
  have ha := sampleName E 97 (by unfold AsciiLetter; decide)
  simp only [sampleLoop, Item.Ok, Items.Ok, Items.text, Item.text]
  exact ⟨hv, ⟨118, [], rfl, by unfold AsciiLetter; decide⟩, ha, ⟨97, [], rfl, by unfold AsciiLetter; decide⟩, ends_space _,
    ⟨⟨by decide, by decide, by decide, .inr rfl⟩, ⟨hv, by decide, fun _ => ends_bracket _⟩, ⟨by decide, by decide, by decide, .inr rfl⟩, trivial⟩, ends_nil⟩

/-- A context with a list `a` of two values. -/
def sampleList : Graph := .node .nil [.node (.str b!"a") [leaf b!"b", leaf b!"c"]]

/-- C40: the loop writes both values, and the variable stays. -/
example : Renders E b!"$for(v, a) [$v]$end" sampleList b!" [b] [c]"
    (.node .nil [.node (.str b!"a") [leaf b!"b", leaf b!"c"], .node (.str b!"v") [leaf b!"c"]]) := by
  refine (C40_partial E _ _ _ _ sampleList _ (.str b!"a") [leaf b!"b", leaf b!"c"] _ (sampleLoop_ok E) (.short (by decide)) (.short (by decide)) (by decide) ?_ ?_
    (by simp) (by simp) rfl (by simp [Items.loopVars, Item.loopVars])).2 ?_
  · simp [sampleList, NoNil, NoNilL, leaf]
  · simp [lookup, firstNamed, Graph.thisString, vstr, sampleList]
  · have hb := (sampleLoop_ok E)
    simp only [sampleLoop, Item.Ok] at hb
    rw [show b!" [b] [c]" = b!" [b]" ++ (b!" [c]" ++ []) from rfl]
    refine .cons (g1 := .node .nil [.node (.str b!"a") [leaf b!"b", leaf b!"c"], .node (.str b!"v") [leaf b!"b"]])
      ((renders_iff hb.2.2.2.2.2.1 (.short (by decide))).2 ⟨false, [], rfl⟩) ?_
    exact .cons ((renders_iff hb.2.2.2.2.2.1 (.short (by decide))).2 ⟨false, [], rfl⟩) .nil

/-- `$for(v, a) x$break y$end` -/
def sampleBreak : Items := (Items.cons (.plain b!" x") .nil).append (.cons .brk (.cons (.plain b!" y") .nil))

theorem sampleBreak_ok : (Item.loop b!"v" b!"a" [] sampleBreak).Ok E [] := by
  have hv := sampleName E 118 (by unfold AsciiLetter; decide)
  have ha := sampleName E 97 (by unfold AsciiLetter; decide)
  simp only [sampleBreak, Item.Ok, Items.append, Items.Ok, Items.text, Item.text]
  exact ⟨hv, ⟨118, [], rfl, by unfold AsciiLetter; decide⟩, ha, ⟨97, [], rfl, by unfold AsciiLetter; decide⟩, ends_space _,
    ⟨⟨by decide, by decide, by decide, .inr rfl⟩, ends_space _, ⟨by decide, by decide, by decide, .inr rfl⟩, trivial⟩, ends_nil⟩

/-- C41: one round, up to the break. -/
example : Renders E b!"$for(v, a) x$break y$end" sampleList b!" x"
    (.node .nil [.node (.str b!"a") [leaf b!"b", leaf b!"c"], .node (.str b!"v") [leaf b!"b"]]) := by
  refine (C41_partial E _ _ _ _ _ sampleList _ (.str b!"a") (leaf b!"b") [leaf b!"c"] _ (sampleBreak_ok E) (.short (by decide)) (.short (by decide)) (by decide) ?_ ?_
    (by simp) rfl).2 (C38_partial E b!" x" _ (by decide) (by decide))
  · simp [sampleList, NoNil, NoNilL, leaf]
  · simp [lookup, firstNamed, Graph.thisString, vstr, sampleList]

/-- C41_top, C60: texts with a break and a variable. -/
example (g : Graph) : Renders E b!" x$break y" g b!" x" g := by
  refine (C41_top E (.cons (.plain b!" x") .nil) (.cons (.plain b!" y") .nil) g g _ ?_ (.short (by decide)) (.short (by decide)) rfl).2 (C38_partial E _ g (by decide) (by decide))
  simp only [Item.Ok, Items.append, Items.Ok, Items.text, Item.text]
  exact ⟨⟨by decide, by decide, by decide, .inr rfl⟩, ends_space _, ⟨by decide, by decide, by decide, .inl rfl⟩, trivial⟩

/-- A context with the value `b` under `a`. -/
def sampleOne : Graph := .node .nil [.node (.str b!"a") [leaf b!"b"]]

theorem sampleVar_ok (br : Bool) (rest : Bytes) (h : Ends rest) : (Item.var b!"a" [] br).Ok E rest := by
  simp only [Item.Ok]
  exact ⟨sampleName E 97 (by unfold AsciiLetter; decide), by decide, fun _ => h⟩

/-- C61_value: in braces. -/
theorem sampleOne_value : Renders E b!"${a}" sampleOne b!"b" sampleOne :=
  C61_value E b!"a" [] true sampleOne (.str b!"a") (.str b!"b") (sampleVar_ok E true _ ends_nil) (.short (by decide)) (by decide)
    (by simp [sampleOne, NoNil, NoNilL, leaf]) (by simp [lookup, firstNamed, Graph.thisString, vstr, sampleOne, leaf]) (by simp)

/-- C60: text and a variable. -/
example : Renders E b!"x ${a}" sampleOne b!"x b" sampleOne := by
  refine (C60_partial E (.cons (.plain b!"x ") .nil) (.cons (.var b!"a" [] true) .nil) sampleOne sampleOne _ ?_ (.short (by decide)) (.short (by decide)) (.short (by decide)) rfl).2
    ⟨b!"x ", sampleOne, b!"b", rfl, C38_partial E _ _ (by decide) (by decide), sampleOne_value E⟩
  simp only [Items.append, Items.Ok, Items.text, Item.text]
  exact ⟨by simp only [Item.Ok]; exact ⟨by decide, by decide, by decide, .inr rfl⟩, sampleVar_ok E true _ ends_nil, trivial⟩

/-- C61_text: a list of two values, each on a line. -/
example : Renders E b!"$a" sampleList b!"b\nc" sampleList :=
  C61_text E b!"a" [] false sampleList (.str b!"a") [leaf b!"b", leaf b!"c"] _ (sampleVar_ok E false _ ends_nil) (.short (by decide)) (by decide)
    (by simp [sampleList, NoNil, NoNilL, leaf]) (by simp [lookup, firstNamed, Graph.thisString, vstr, sampleList]) (by simp) (by rfl)

/-- C40_empty, C61_missing: there is no `a`. -/
example : Renders E b!"$for(v, a) [$v]$end" (.node .nil [leaf b!"b"]) [] (.node .nil [leaf b!"b"]) ∧
    Renders E b!"$a" (.node .nil [leaf b!"b"]) [] (.node .nil [leaf b!"b"]) := by
  have hd : Data E (.node .nil [leaf b!"b"]) := by
    refine ⟨by simp [NoNil, NoNilL, leaf], ?_⟩
    simp [AllThis, AllThisL, leaf, Inert]
  have hl : lookup E [b!"a"] (.node .nil [leaf b!"b"]) = .nil := by simp [lookup, firstNamed, Graph.thisString, vstr, leaf]
  have h1 := C40_empty E _ _ _ _ (.node .nil [leaf b!"b"]) (sampleLoop_ok E) (.short (by decide)) (by decide) hd (by rw [hl]; rfl)
  exact ⟨h1,
    C61_missing E b!"a" [] false _ (sampleVar_ok E false _ ends_nil) (.short (by decide)) (by decide) hd hl⟩

/-- C39, C62: the expression `f(1 + 2 * 3, x) - 4`. -/
example : WritableExpr E sampleCall := sampleCall_ok E

/-- C62: `$(a.d + 2 * 3)` in the sample graph. -/
example : Renders E b!"$(a.d + 2 * 3)" sampleGraph [] sampleGraph := by
  obtain ⟨e, h1, h2⟩ := C32_value_partial E sampleGraph sampleSum _ (sampleSum_ok E) (sampleGraph_data E).1 (sampleSum_means E) (.short (by decide))
  exact (C62_partial E sampleSum _ _ _ (sampleSum_ok E) (.short (by decide)) (.short (by decide))).mpr ⟨rfl, e, _, h1, h2⟩

end
end Ogdl
