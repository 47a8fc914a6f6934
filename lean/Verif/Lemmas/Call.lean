import Verif.Lemmas.Assign

/-! Calls, groups and negation. -/

namespace Ogdl
open Spec

section
variable {E : Ext}

/-- An expression node inside another one. -/
theorem evalExpr_wrap {n g g' : Graph} {v : Val} (h : Evals E n g v g') {k : Nat} (hk : evalFuel n + 1 ≤ k) :
    evalExpr E k (exprOf n) true g = .ok ((v, none), g') := by
  obtain ⟨k, rfl⟩ : ∃ j, k = j + 1 := ⟨k - 1, by omega⟩
  rw [exprOf, evalExpr.eq_def]
  dsimp only
  rw [vstr_str, if_neg (by decide), if_neg (by decide), if_neg (by decide), if_pos (by rfl)]
  exact h.enough (by omega)

/-- Arguments, from left to right. -/
theorem evalEach_args {g : Graph} {k : Nat} : ∀ {as : List (Graph × Val)}, (∀ a ∈ as, Evals E a.1 g a.2 g) →
    (∀ a ∈ as, evalFuel a.1 + 1 ≤ k) → evalEach (fun a => evalExpr E k a true) ((as.map (·.1)).map exprOf) g = .ok (as.map (·.2), g)
  | [], _, _ => rfl
  | a :: as, h, hk => by
    have ih := evalEach_args (as := as) (fun m hm => h m (by simp [hm])) fun m hm => hk m (by simp [hm])
    simp only [List.map_cons, evalEach, bind, evalExpr_wrap (h a (by simp)) (hk a (by simp)), ih, pure]

theorem zeroArgs_eq : ∀ {ins : List Bytes} {vs : List Val}, (∀ v ∈ vs, v ≠ .nil) → zeroArgs E ins vs = .ok vs
  | _, [], _ => by cases ‹List Bytes› <;> rfl
  | [], v :: vs, h => by
    have ih := zeroArgs_eq (ins := []) (vs := vs) fun w hw => h w (by simp [hw])
    have hv := h v (by simp)
    cases v <;> first | exact absurd rfl hv | simp [zeroArgs, ih]
  | i :: is, v :: vs, h => by
    have ih := zeroArgs_eq (ins := is) (vs := vs) fun w hw => h w (by simp [hw])
    have hv := h v (by simp)
    cases v <;> first | exact absurd rfl hv | simp [zeroArgs, ih]

theorem argsMatch_eq : ∀ {vs : List Val}, (∀ v ∈ vs, v ≠ .nil) → argsMatch E (vs.map (typeName E)) vs = true
  | [], _ => rfl
  | v :: vs, h => by
    have ih := argsMatch_eq (vs := vs) fun w hw => h w (by simp [hw])
    have hv := h v (by simp)
    cases v <;> first | exact absurd rfl hv | simp [argsMatch, ih]

theorem callFunc_eq {ins : List Bytes} {vs : List Val} {fn : List Val → Option (Option Val)} (h : ∀ v ∈ vs, v ≠ .nil)
    (ht : ins = vs.map (typeName E)) : callFunc E ins fn vs = callResult (fn vs) := by
  subst ht
  simp [callFunc, zeroArgs_eq h, argsMatch_eq h]

/-- The node of the call `id(n1, n2, …)`. -/
def callTree (id : Bytes) (ns : List Graph) : Graph :=
  .node (.str b!"!p") [leaf id, .node (.str b!"!a") (ns.map exprOf)]

theorem evals_call {g : Graph} {id : Bytes} {as : List (Graph × Val)} {tag : Nat} {ins : List Bytes}
    {fn : List Val → Option (Option Val)} {t : Val} {k rest : List Graph} {r : Val} (hid : Name E id) (hr : id ∉ reserved) (hg : NoNil g)
    (hl : lookup E [id] g = .node t (.node (.other tag) k :: rest)) (hc : E.callable (.other tag) = .func false ins fn)
    (ha : ∀ a ∈ as, Evals E a.1 g a.2 g) (hv : ∀ a ∈ as, a.2 ≠ .nil) (ht : ins = as.map (fun a => typeName E a.2))
    (hfn : fn (as.map (·.2)) = some (some r)) (hr' : ∀ h, r ≠ .graph h) :
    Evals E (callTree id (as.map (·.1))) g r g := by
  have hv' : ∀ v ∈ as.map (·.2), v ≠ .nil := by
    intro v hv2
    obtain ⟨a, h1, rfl⟩ := List.mem_map.1 hv2
    exact hv a h1
  have ht' : ins = (as.map (·.2)).map (typeName E) := by rw [ht, List.map_map]; rfl
  have hF0 : ∀ a ∈ as, evalFuel a.1 + 1 ≤ evalFuel (.node (.str b!"!a") (as.map (·.1))) := fun a h => by
    have := evalFuel_child (t := .str b!"!a") (List.mem_map.2 ⟨a, h, rfl⟩ : a.1 ∈ as.map (·.1)); omega
  generalize hns : as.map (·.1) = ns at *
  generalize hFe : evalFuel (.node (.str b!"!a") ns) = F at *
  refine Evals.of (f := F + 4) ?_
  have hnil : g.isNil = false := by
    cases g with
    | nil => exact absurd hg (by simp [NoNil])
    | node t o => rfl
  rw [callTree, evalExpr.eq_def]
  dsimp only
  rw [vstr_str, if_neg (by decide), if_neg (by decide), if_neg (by decide), if_neg (by decide), if_pos (by rfl), evalPath]
  have hlen : ¬ (Graph.node (.str b!"!p") [leaf id, .node (.str b!"!a") (ns.map exprOf)]).len = 0 := by simp [Graph.len]
  have hf : firstNamed E id g.out = .node t (.node (.other tag) k :: rest) := hl
  have h1 := evalStep_name (E := E) (f := F) (p := .node (.str b!"!p") [leaf id, .node (.str b!"!a") (ns.map exprOf)])
    (s := { ctx := g }) (g := g) hid hr hg (by rw [hf]; rfl)
  have h2 : ∀ s : PathSt, s.ctx = .node t (.node (.other tag) k :: rest) →
      evalStep E (F + 2) (.node (.str b!"!p") [leaf id, .node (.str b!"!a") (ns.map exprOf)]) (.node (.str b!"!a") (ns.map exprOf)) s g =
      .ok (.done (r, none), g) := by
    intro s hs
    have hts : (Graph.node (.str b!"!a") (ns.map exprOf)).thisString E = b!"!a" := by simp [Graph.thisString, vstr]
    have hargs := evalEach_args (g := g) ha hF0
    rw [hns] at hargs
    have hfun : function E (F + 1) (.node (.str b!"!p") [leaf id, .node (.str b!"!a") (ns.map exprOf)]) (.other tag) g = .ok ((r, none), g) := by
      rw [function]
      simp only [callableOf, hc, Graph.out_node, Bool.false_eq_true, ↓reduceIte, bind, hargs,
        EvalM.lift, callFunc_eq hv' ht', hfn, callResult]
    rw [evalStep.eq_def]
    dsimp only
    rw [hts, if_neg (by decide), if_neg (by decide), if_neg (by decide), if_neg (by decide), if_neg (by decide), if_neg (by decide),
      if_neg (by decide), if_pos (by rfl), hs, if_pos (by simp [Graph.len])]
    simp only [bind, EvalM.lift, firstThis, hfun]
    cases r <;> first | exact absurd rfl (hr' _) | rfl
  simp only [bind, EvalM.ctx, hlen, hnil, false_or, Bool.false_eq_true, ↓reduceIte, Graph.out_node, walkPath, h1, hf,
    show ∀ t o, (Graph.node t o).isNil = false from fun _ _ => rfl,
    h2 ⟨.node t (.node (.other tag) k :: rest), g, id, false⟩ rfl, pure]

/-- `!` on a node. -/
theorem evalExpr_not {n g g' : Graph} {v : Val} (h : g.eval E n = .ok ((v, none), g')) :
    Evals E (.node (.str b!"!") [n]) g (.bool !((truth v).getD false)) g' := by
  refine Evals.of (f := evalFuel n + 2) ?_
  rw [evalExpr.eq_def]
  dsimp only
  rw [vstr_str, if_neg (by decide), if_neg (by decide), if_pos (by rfl)]
  have : eval E (evalFuel n) n g = .ok ((v, none), g') := h
  simp only [evalBool, bind, this, pure, truth_vboolf, Option.isSome_none, Bool.false_eq_true, ↓reduceIte]

/-- A group with an operator among its members. -/
theorem evalExpr_group {n g g' : Graph} {v : Val} {s : Bytes} {rest : List Graph} (hs : Op s) (h : Evals E n g v g') :
    g.eval E (exprOf (.node (.str b!"!g") (n :: leaf s :: rest))) = .panic := by
  rw [exprOf, eval_expression_eq]
  have hc := evalFuel_child (t := .str b!"!g") (o := n :: leaf s :: rest) (x := n) (by simp)
  obtain ⟨f, hf⟩ : ∃ k, evalFuel (.node (.str b!"!g") (n :: leaf s :: rest)) = k + 3 := ⟨_ - 3, (Nat.sub_add_cancel (by omega)).symm⟩
  rw [hf, evalExpr.eq_def]
  dsimp only
  rw [vstr_str, if_neg (by decide), if_neg (by decide), if_neg (by decide), if_neg (by decide), if_neg (by decide), if_pos (by rfl)]
  simp only [evalGroup, bind, h.enough (k := f + 2) (by omega), leaf, evalExpr_op hs, evalBinary, Graph.out_node, EvalM.panic]

theorem evalExpr_group_one {n g g' : Graph} {v : Val} (h : Evals E n g v g') :
    g.eval E (exprOf (.node (.str b!"!g") [n])) = .ok ((.graph ((Graph.new (.str b!"!g")).add v).1, none), g') := by
  rw [exprOf, eval_expression_eq]
  have hc := evalFuel_child (t := .str b!"!g") (o := [n]) (x := n) (by simp)
  obtain ⟨f, hf⟩ : ∃ k, evalFuel (.node (.str b!"!g") [n]) = k + 3 := ⟨_ - 3, (Nat.sub_add_cancel (by omega)).symm⟩
  rw [hf, evalExpr.eq_def]
  dsimp only
  rw [vstr_str, if_neg (by decide), if_neg (by decide), if_neg (by decide), if_neg (by decide), if_neg (by decide), if_pos (by rfl)]
  simp only [evalGroup, bind, h.enough (k := f + 2) (by omega), Option.isNone_none, ↓reduceIte, pure]
  rfl

end
end Ogdl
