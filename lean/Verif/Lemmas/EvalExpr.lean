import Verif.Spec.Calc
import Verif.Lemmas.Ast
import Verif.Lemmas.Decimal
import Verif.Lemmas.EvalMono
import Verif.Lemmas.Get

/-! Values of expressions. -/

namespace Ogdl
open Spec

section
variable {E : Ext}

/-- The node has the value `v` in the context `g`, which becomes `g'`. -/
def Evals (E : Ext) (n g : Graph) (v : Val) (g' : Graph) : Prop := evalExpr E (evalFuel n) n true g = .ok ((v, none), g')

theorem Evals.enough {n g g' : Graph} {v : Val} (h : Evals E n g v g') {k : Nat} (hk : evalFuel n ≤ k) :
    evalExpr E k n true g = .ok ((v, none), g') := by
  rw [evalExpr_enough (f := evalFuel n) (by rw [h]; simp) hk]; exact h

theorem Evals.of {n g g' : Graph} {v : Val} {f : Nat} (h : evalExpr E f n true g = .ok ((v, none), g')) : Evals E n g v g' := by
  unfold Evals
  rw [evalExpr_enough (f := f) (by rw [h]; simp) (Nat.le_refl _)]; exact h

theorem Evals.unique {n g g1 g2 : Graph} {v w : Val} (h1 : Evals E n g v g1) (h2 : Evals E n g w g2) : v = w ∧ g1 = g2 := by
  unfold Evals at h1 h2
  rw [h1] at h2
  cases h2
  exact ⟨rfl, rfl⟩

theorem evalFuel_child {t : Val} {o : List Graph} {x : Graph} (hx : x ∈ o) : evalFuel x + 8 ≤ evalFuel (.node t o) := by
  have := height_mem hx
  simp only [evalFuel, Graph.height]; omega

theorem op_kind {s : Bytes} (h : Op s) : s.isEmpty = false ∧ isNumber s = false ∧ s ≠ b!"!" ∧ s ≠ tyExpression ∧ s ≠ tyPath ∧ s ≠ tyGroup ∧
    s ≠ tyString ∧ isOperatorText s = true := by
  simp only [Op, List.mem_cons, List.not_mem_nil, or_false] at h
  rcases h with rfl | rfl | rfl | rfl | rfl | rfl | rfl | rfl | rfl | rfl | rfl | rfl | rfl | rfl | rfl | rfl | rfl | rfl | rfl <;> decide

theorem vstr_str (s : Bytes) : vstr E (.str s) = s := by simp [vstr]

theorem evalExpr_op {s : Bytes} (h : Op s) (f : Nat) (o : List Graph) (b : Bool) :
    evalExpr E (f + 1) (.node (.str s) o) b = (do let v ← evalBinary E f (.node (.str s) o); pure (v, none)) := by
  obtain ⟨h1, h2, h3, h4, h5, h6, h7, h8⟩ := op_kind h
  rw [evalExpr.eq_def]
  dsimp only
  rw [vstr_str, if_neg (by rw [h1]; simp), if_neg (by rw [h2]; simp), if_neg h3, if_neg h4, if_neg h5, if_neg h6, if_neg h7, if_pos h8]

/-- What an operator that is not an assignment does with two values. -/
def applyOp (E : Ext) (s : Bytes) (v1 v2 : Val) : Res Val :=
  match binOp s with
  | some (.arith o) => calc' E v1 v2 o
  | some (.cmp o) => do let b ← compare' E v1 v2 o; .ok (.bool b)
  | some .and => .ok (.bool (logic v1 v2 true))
  | some .or => .ok (.bool (logic v1 v2 false))
  | _ => .ok .nil

/-- An operator node: the right side is evaluated, then the left side. -/
theorem evalExpr_bin {s : Bytes} (hs : Op s) (ha : ∀ o, binOp s ≠ some (.assign o)) {l r g g1 g2 : Graph} {v1 v2 : Val} {o : List Graph}
    (hr : Evals E r g v2 g2) (hl : Evals E l g2 v1 g1) {f : Nat} (hf : evalFuel (.node (.str s) (l :: r :: o)) ≤ f) :
    evalExpr E f (.node (.str s) (l :: r :: o)) true g =
      (match applyOp E s v1 v2 with | .ok v => .ok ((v, none), g1) | .panic => .panic | .oof => .oof) := by
  have h1 := evalFuel_child (t := .str s) (o := l :: r :: o) (x := l) (by simp)
  have h2 := evalFuel_child (t := .str s) (o := l :: r :: o) (x := r) (by simp)
  obtain ⟨f, rfl⟩ : ∃ k, f = k + 2 := ⟨f - 2, by omega⟩
  have hts : (Graph.node (.str s) (l :: r :: o)).thisString E = s := by simp [Graph.thisString, vstr]
  have hr' := hr.enough (k := f) (by omega)
  have hl' := hl.enough (k := f) (by omega)
  rw [evalExpr_op hs, show f + 1 = (f) + 1 from rfl, evalBinary]
  simp only [Graph.out_node, bind, hr', hts, applyOp]
  cases hb : binOp s with
  | none => simp only [hl', pure]
  | some op =>
    cases op with
    | assign op => exact absurd hb (ha op)
    | arith op => simp only [hl', EvalM.lift, pure]; cases calc' E v1 v2 op <;> rfl
    | cmp op => simp only [hl', EvalM.lift, pure]; cases compare' E v1 v2 op <;> rfl
    | and => simp only [hl', pure]
    | or => simp only [hl', pure]

theorem Evals.bin {s : Bytes} (hs : Op s) (ha : ∀ o, binOp s ≠ some (.assign o)) {l r g g1 g2 : Graph} {v1 v2 v : Val} {o : List Graph}
    (hr : Evals E r g v2 g2) (hl : Evals E l g2 v1 g1) (hv : applyOp E s v1 v2 = .ok v) : Evals E (.node (.str s) (l :: r :: o)) g v g1 := by
  unfold Evals
  rw [evalExpr_bin hs ha hr hl (Nat.le_refl _), hv]

/-- An expression node stands for its content. -/
theorem eval_expression_eq (n g : Graph) : g.eval E (.node (.str b!"!e") [n]) = evalExpr E (evalFuel n) n true g := by
  have hc := evalFuel_child (t := .str b!"!e") (o := [n]) (x := n) (by simp)
  unfold Graph.eval
  obtain ⟨f, hf⟩ : ∃ k, evalFuel (.node (.str b!"!e") [n]) = k + 2 := ⟨evalFuel (.node (.str b!"!e") [n]) - 2, by omega⟩
  rw [hf, Ogdl.eval.eq_def]
  dsimp only
  have hts : (Graph.node (.str b!"!e") [n]).thisString E = b!"!e" := by simp [Graph.thisString, vstr]
  rw [hts, if_neg (by decide), if_pos (by rfl), evalExpr.eq_def]
  dsimp only
  rw [vstr_str, if_neg (by decide), if_neg (by decide), if_neg (by decide), if_pos (by rfl)]
  exact evalExpr_enough (p := n) (f := evalFuel n) (evalExpr_neverOof n true (Nat.le_refl _) g) (by omega)

theorem eval_expression {n g g' : Graph} {v : Val} (h : Evals E n g v g') : (g.eval E (.node (.str b!"!e") [n])) = .ok ((v, none), g') := by
  rw [eval_expression_eq]; exact h

theorem Evals.of_eval {n g g' : Graph} {v : Val} (h : g.eval E (exprOf n) = .ok ((v, none), g')) : Evals E n g v g' := by
  rw [exprOf, eval_expression_eq] at h; exact h

/-! ## Operands -/

theorem evals_int (i : Int64) (g : Graph) : Evals E (leaf (itoa i.toInt)) g (ofInt64 i) g := by
  refine Evals.of (f := 1) ?_
  have h1 : (itoa i.toInt).isEmpty = false := by simp [itoa_ne_nil]
  rw [leaf, evalExpr.eq_def]
  dsimp only
  rw [vstr_str, if_neg (by rw [h1]; simp), if_pos (isNumber_itoa _)]
  simp only [number', vfloat, vint, vstr, h1, isInteger_itoa, parseInt_itoa i.le_toInt i.toInt_lt, bind, EvalM.lift, pure,
    Bool.false_eq_true, ↓reduceIte, Res.bind]
  rfl

theorem evals_str (s : Bytes) (g : Graph) : Evals E (.node (.str b!"!string") [leaf s]) g (.str s) g := by
  refine Evals.of (f := 1) ?_
  rw [evalExpr.eq_def]
  dsimp only
  rw [vstr_str, if_neg (by decide), if_neg (by decide), if_neg (by decide), if_neg (by decide), if_neg (by decide), if_neg (by decide), if_pos (by rfl)]
  rfl

theorem not_ty {id : Bytes} (h : Name E id) : id ≠ tyIndex ∧ id ≠ tySelector ∧ id ≠ tyArguments ∧ id ≠ tyGroup :=
  ⟨name_not_bang h _, name_not_bang h _, name_not_bang h _, name_not_bang h _⟩

/-- A name that is found. -/
theorem evalStep_name {f : Nat} {p : Graph} {id : Bytes} {s : PathSt} {g : Graph} (hid : Name E id) (hr : id ∉ reserved)
    (hd : NoNil s.ctx) (hn : (firstNamed E id s.ctx.out).isNil = false) :
    evalStep E (f + 2) p (leaf id) s g =
      .ok (.next { ctx := firstNamed E id s.ctx.out, prev := s.ctx, elem := id, addRoot := false }, g) := by
  obtain ⟨h1, h2, h3, h4⟩ := not_ty hid
  simp only [reserved, List.mem_cons, List.not_mem_nil, or_false, not_or] at hr
  obtain ⟨r1, r2, r3, r4, r5⟩ := hr
  rw [evalStep.eq_def]
  dsimp only
  rw [leaf_thisString, if_neg h1, if_neg h2, if_neg r1, if_neg r2, if_neg r3, if_neg r4, if_neg r5, if_neg h3, if_neg h4, evalName]
  cases hs : s.ctx with
  | nil => rw [hs] at hd; exact absurd hd (by simp [NoNil])
  | node t o =>
    rw [hs] at hd hn
    simp only [Graph.nodeNamed, nodeLoop_eq id (gs := o) hd, bind, EvalM.lift, pure]
    simp only [Graph.out_node] at hn ⊢
    simp [hn]

theorem walk_eval {f : Nat} {p g : Graph} : ∀ (ids : List Bytes) (s : PathSt), (∀ id ∈ ids, Name E id ∧ id ∉ reserved) →
    NoNil s.ctx → (lookup E ids s.ctx).isNil = false → s.addRoot = false →
    ∃ s', walkPath (evalStep E (f + 2) p) (ids.map leaf) s g = .ok (.next s', g) ∧ s'.ctx = lookup E ids s.ctx ∧ s'.addRoot = false
  | [], s, _, _, _, ha => ⟨s, rfl, rfl, ha⟩
  | id :: ids, s, hn, hd, hl, ha => by
    have hc : s.ctx.isNil = false := by
      cases h : s.ctx with
      | nil => rw [h] at hd; exact absurd hd (by simp [NoNil])
      | node t o => rfl
    have hf : (firstNamed E id s.ctx.out).isNil = false := by
      cases h : firstNamed E id s.ctx.out with
      | nil => simp only [lookup, h, lookup_nil] at hl; exact absurd hl (by simp)
      | node t o => rfl
    have hnn : NoNil (firstNamed E id s.ctx.out) := by
      have : NoNilL s.ctx.out := by
        cases h : s.ctx with
        | nil => exact trivial
        | node t o => rw [h] at hd; exact hd
      rcases noNilL_find (E := E) (id := id) this with h | h
      · rw [h] at hf; exact absurd hf (by simp)
      · exact h
    obtain ⟨s', h1, h2, h3⟩ := walk_eval (f := f) (p := p) (g := g) ids { ctx := firstNamed E id s.ctx.out, prev := s.ctx, elem := id, addRoot := false }
      (fun x hx => hn x (by simp [hx])) hnn hl rfl
    refine ⟨s', ?_, h2, h3⟩
    simp only [List.map_cons, walkPath, hc, Bool.false_eq_true, ↓reduceIte, bind,
      evalStep_name (f := f) (p := p) (g := g) (hn id (by simp)).1 (hn id (by simp)).2 hd hf, h1]

/-- A path that exists. -/
theorem evalPath_names {f : Nat} {ids : List Bytes} {g : Graph} (hne : ids ≠ []) (hn : ∀ id ∈ ids, Name E id ∧ id ∉ reserved)
    (hg : NoNil g) (hl : (lookup E ids g).isNil = false) (b : Bool) :
    evalPath E (f + 3) (pathOf ids) b g = .ok ((if b then simplify (lookup E ids g) else .graph (lookup E ids g), none), g) := by
  have hnil : g.isNil = false := by
    cases g with
    | nil => exact absurd hg (by simp [NoNil])
    | node t o => rfl
  obtain ⟨s', h1, h2, h3⟩ := walk_eval (f := f) (p := pathOf ids) (g := g) ids { ctx := g } hn hg hl rfl
  have hlen : ¬ (pathOf ids).len = 0 := by
    cases ids with
    | nil => exact absurd rfl hne
    | cons a as => simp [pathOf, Graph.len]; omega
  rw [evalPath]
  simp only [bind, EvalM.ctx, hlen, hnil, false_or, Bool.false_eq_true, ↓reduceIte]
  simp only [pathOf, Graph.out_node] at h1 ⊢
  simp only [h1, h3, h2, pure, Bool.false_eq_true, ↓reduceIte]

theorem evals_path {ids : List Bytes} {g : Graph} (hne : ids ≠ []) (hn : ∀ id ∈ ids, Name E id ∧ id ∉ reserved)
    (hg : NoNil g) (hl : (lookup E ids g).isNil = false) : Evals E (pathOf ids) g (simplify (lookup E ids g)) g := by
  refine Evals.of (f := 4) ?_
  have h := evalPath_names (f := 0) hne hn hg hl true
  rw [pathOf, evalExpr.eq_def]
  dsimp only
  rw [vstr_str, if_neg (by decide), if_neg (by decide), if_neg (by decide), if_neg (by decide), if_pos (by rfl)]
  exact h

end
end Ogdl
