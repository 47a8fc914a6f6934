import Verif.Spec.Call
import Verif.Lemmas.Steps
import Verif.Lemmas.ScalarText

/-! Calls that are refused, and calls of methods. -/

namespace Ogdl
open Spec

section
variable {E : Ext}

/-- A call of a Go function that returns an error. -/
theorem eval_call_err {g : Graph} {id : Bytes} {as : List (Graph × Val)} {tag : Nat} {ins : List Bytes}
    {fn : List Val → Option (Option Val)} {t : Val} {k rest : List Graph} {e : Err} (hid : Name E id) (hr : id ∉ reserved) (hg : NoNil g)
    (hl : lookup E [id] g = .node t (.node (.other tag) k :: rest)) (hc : E.callable (.other tag) = .func false ins fn)
    (ha : ∀ a ∈ as, Evals E a.1 g a.2 g) (hfn : callFunc E ins fn (as.map (·.2)) = .ok (.nil, some e)) :
    g.eval E (exprOf (callTree id (as.map (·.1)))) = .ok ((.nil, some e), g) := by
  rw [exprOf, eval_expression_eq]
  have hF0 : ∀ a ∈ as, evalFuel a.1 + 1 ≤ evalFuel (.node (.str b!"!a") (as.map (·.1))) := fun a h => by
    have := evalFuel_child (t := .str b!"!a") (List.mem_map.2 ⟨a, h, rfl⟩ : a.1 ∈ as.map (·.1)); omega
  generalize hns : as.map (·.1) = ns at *
  generalize hFe : evalFuel (.node (.str b!"!a") ns) = F at *
  suffices h : evalExpr E (F + 4) (callTree id ns) true g = .ok ((.nil, some e), g) by
    rw [evalExpr_enough (f := F + 4) (by rw [h]; simp) (Nat.le_refl _)]; exact h
  have hnil : g.isNil = false := by
    cases g with
    | nil => exact absurd hg (by simp [NoNil])
    | node t o => rfl
  rw [callTree, evalExpr.eq_def]
  dsimp only
  rw [vstr_str, if_neg (by decide), if_neg (by decide), if_neg (by decide), if_neg (by decide), if_pos (by rfl), evalPath]
  have hlen : ¬ (Graph.node (.str b!"!p") [leaf id, .node (.str b!"!a") (ns.map exprOf)]).len = 0 := by simp [Graph.len]
  have hf : firstNamed E id g.out = .node t (.node (.other tag) k :: rest) := hl
  have h1 := evalStep_name (E := E) (f := F) (p := .node (.str b!"!p") [leaf id, .node (.str b!"!a") (ns.map exprOf)])
    (s := { ctx := g }) (g := g) hid hr hg (by rw [hf]; rfl)
  have h2 : ∀ s : PathSt, s.ctx = .node t (.node (.other tag) k :: rest) →
      evalStep E (F + 2) (.node (.str b!"!p") [leaf id, .node (.str b!"!a") (ns.map exprOf)]) (.node (.str b!"!a") (ns.map exprOf)) s g =
      .ok (.done (.nil, some e), g) := by
    intro s hs
    have hts : (Graph.node (.str b!"!a") (ns.map exprOf)).thisString E = b!"!a" := by simp [Graph.thisString, vstr]
    have hargs := evalEach_args (g := g) ha hF0
    rw [hns] at hargs
    have hfun : function E (F + 1) (.node (.str b!"!p") [leaf id, .node (.str b!"!a") (ns.map exprOf)]) (.other tag) g = .ok ((.nil, some e), g) := by
      rw [function]
      simp only [callableOf, hc, Graph.out_node, Bool.false_eq_true, ↓reduceIte, bind, hargs, EvalM.lift, hfn]
    rw [evalStep.eq_def]
    dsimp only
    rw [hts, if_neg (by decide), if_neg (by decide), if_neg (by decide), if_neg (by decide), if_neg (by decide), if_neg (by decide),
      if_neg (by decide), if_pos (by rfl), hs, if_pos (by simp [Graph.len])]
    simp only [bind, EvalM.lift, firstThis, hfun]
    rfl
  simp only [bind, EvalM.ctx, hlen, hnil, false_or, Bool.false_eq_true, ↓reduceIte, Graph.out_node, walkPath, h1, hf,
    show ∀ t o, (Graph.node t o).isNil = false from fun _ _ => rfl,
    h2 ⟨.node t (.node (.other tag) k :: rest), g, id, false⟩ rfl, pure]

theorem argsMatch_false : ∀ {ins : List Bytes} {vs : List Val}, (∀ v ∈ vs, v ≠ .nil) → ins.length = vs.length → ins ≠ vs.map (typeName E) →
    argsMatch E ins vs = false
  | [], [], _, _, h => absurd rfl h
  | i :: is, v :: vs, hv, hl, h => by
    have e : argsMatch E (i :: is) (v :: vs) = (i == typeName E v && argsMatch E is vs) := by
      have := hv v (by simp)
      cases v <;> first | exact absurd rfl this | rfl
    rw [e]
    by_cases hi : i = typeName E v
    · have ih := argsMatch_false (ins := is) (vs := vs) (fun w hw => hv w (by simp [hw])) (by simpa using hl) (by
        intro h'
        exact h (by simp [hi, h']))
      simp [ih]
    · simp [hi]

theorem callFunc_count {ins : List Bytes} {vs : List Val} {fn : List Val → Option (Option Val)} (h : ∀ v ∈ vs, v ≠ .nil)
    (hn : ins.length ≠ vs.length) : callFunc E ins fn vs = .ok (.nil, some .argCount) := by
  simp [callFunc, zeroArgs_eq h, hn]

theorem callFunc_types {ins : List Bytes} {vs : List Val} {fn : List Val → Option (Option Val)} (h : ∀ v ∈ vs, v ≠ .nil)
    (hn : ins.length = vs.length) (ht : ins ≠ vs.map (typeName E)) : callFunc E ins fn vs = .ok (.nil, some .argTypes) := by
  simp [callFunc, zeroArgs_eq h, hn, argsMatch_false h hn ht]

/-! ## Methods -/

theorem parseDigits_big {ds : Bytes} (hd : ∀ c ∈ ds, Digit c) (h : 2 ^ 63 ≤ decimal ds) : parseDigits ds = some (decimal ds) := by
  refine parseDigits_some.2 ⟨?_, hd, rfl⟩
  rintro rfl
  exact absurd h (by decide)

theorem parseIntAny_big {s ds : Bytes} (hs : s = ds ∨ s = 43 :: ds) (hd : ∀ c ∈ ds, Digit c) (h : 2 ^ 63 ≤ decimal ds) : parseIntAny s = 2 ^ 63 - 1 := by
  have hp := parseDigits_big hd h
  have h1 : ¬ decimal ds < 2 ^ 63 := by omega
  rcases hs with rfl | rfl
  · cases s with
    | nil => exact absurd h (by decide)
    | cons c t =>
      obtain ⟨h43, h45⟩ := digit_not_sign (hd c (by simp))
      simp only [parseIntAny, parseInt, beq_iff_eq, h43, h45, Bool.or_eq_true, or_self, ↓reduceIte, hp, h1]
  · have h2 : ((43 : UInt8) == 43 || (43 : UInt8) == 45) = true := rfl
    have h3 : ((43 : UInt8) == 45) = false := rfl
    unfold parseIntAny parseInt
    dsimp only
    rw [h2, h3]
    simp only [↓reduceIte, hp, h1, Bool.false_eq_true]

theorem parseIntAny_small {ds : Bytes} (hd : ∀ c ∈ ds, Digit c) (h : 2 ^ 63 < decimal ds) : parseIntAny (45 :: ds) = -2 ^ 63 := by
  have hp := parseDigits_big hd (by omega)
  have h1 : ¬ decimal ds ≤ 2 ^ 63 := by omega
  have h2 : ((45 : UInt8) == 43 || (45 : UInt8) == 45) = true := rfl
  have h3 : ((45 : UInt8) == 45) = true := rfl
  unfold parseIntAny parseInt
  dsimp only
  rw [h2, h3]
  simp only [↓reduceIte, hp, h1]

theorem digits_of_value {t : Bytes} {a n : Nat} (h : digitsVal t a = some n) : ∀ c ∈ t, Digit c := by
  induction t generalizing a with
  | nil => nofun
  | cons c t ih =>
    rw [digitsVal] at h
    split at h
    next hc =>
      rw [Bool.and_eq_true, decide_eq_true_eq, decide_eq_true_eq] at hc
      intro d hd
      rcases List.mem_cons.1 hd with rfl | hd
      · exact hc
      · exact ih h d hd
    · cases h

theorem parseIntAny_zero {s : Bytes} (h : ∀ sign ds : Bytes, (sign = [] ∨ sign = b!"+" ∨ sign = b!"-") → ds ≠ [] → (∀ c ∈ ds, Digit c) → s ≠ sign ++ ds) :
    parseIntAny s = 0 := by
  have hd : ∀ sign t : Bytes, (sign = [] ∨ sign = b!"+" ∨ sign = b!"-") → s = sign ++ t → parseDigits t = none := by
    intro sign t hs e
    cases ht : parseDigits t with
    | none => rfl
    | some n =>
      unfold parseDigits at ht
      split at ht
      · cases ht
      next hn => exact absurd e (h sign t hs (by rintro rfl; exact hn rfl) (digits_of_value ht))
  cases s with
  | nil => rfl
  | cons c t =>
    have h1 : parseDigits (if c == 43 || c == 45 then t else c :: t) = none := by
      split
      next hc =>
        rw [Bool.or_eq_true, beq_iff_eq, beq_iff_eq] at hc
        rcases hc with rfl | rfl
        · exact hd b!"+" t (.inr (.inl rfl)) rfl
        · exact hd b!"-" t (.inr (.inr rfl)) rfl
      · exact hd [] _ (.inl rfl) rfl
    simp only [parseIntAny, parseInt, h1]

theorem adapted_convert {v w : Val} {ty : Bytes} (h : Adapted E v ty w) : convert E v ty = .ok (some w) := by
  cases h with
  | same => simp [convert]
  | strBool s =>
    simp only [convert, typeName, parseBoolAny, List.mem_cons, List.not_mem_nil, or_false]
    rfl
  | nodeInt64 n i h => simp [convert, typeName, h]
  | nodeInt n i h => simp [convert, typeName, h]
  | nodeBool n b h => simp [convert, typeName, h]
  | nodeString n s h => simp [convert, typeName, h]
  | nodeStrings n l h => simp [convert, typeName, h]
  | nodeFloat n f h => simp [convert, typeName, h]
  | strFloat s f h => simp [convert, typeName, h]
  | strInt s i h => simp [convert, typeName, parseInt_some.2 h, parseIntAny]
  | strBig s ds hs hd h => simp [convert, typeName, parseIntAny_big hs hd h]
  | strSmall ds hd h => simp [convert, typeName, parseIntAny_small hd h]
  | strZero s h => simp [convert, typeName, parseIntAny_zero h]
  | _ => simp [convert, typeName]

theorem methodArgs_eq {ins : List Bytes} {vs ws : List Val} (h : MethodArgs E ins vs ws) : methodArgs E ins vs = .ok (some ws) := by
  induction h with
  | done vs => cases vs <;> rfl
  | zero ty tys ws _ ih => simp [methodArgs, ih]
  | arg ty tys v w vs ws hv ha _ ih =>
    have e : methodArgs E (ty :: tys) (v :: vs) = (do
        let c ← convert E v ty
        let r ← methodArgs E tys vs
        match c, r with
        | some c, some r => .ok (some (c :: r))
        | _, _ => .ok none) := by
      cases v <;> first | exact absurd rfl hv | rfl
    rw [e, adapted_convert ha, ih]
    rfl

/-- An operand as argument of a method: the tree below an expression node. -/
theorem argValue_eval {g : Graph} (hg : NoNil g) {o : Opnd} {v : Val} (h : ArgValue E g o v) (ho : o.Ok E) {k : Nat} (hk : evalFuel o.tree + 1 ≤ k) :
    evalExpr E k (exprOf o.tree) false g = .ok ((v, none), g) := by
  obtain ⟨k, rfl⟩ : ∃ j, k = j + 1 := ⟨k - 1, by omega⟩
  rw [exprOf, evalExpr.eq_def]
  dsimp only
  rw [vstr_str, if_neg (by decide), if_neg (by decide), if_neg (by decide), if_pos (by rfl), List.headD_cons]
  obtain ⟨k, rfl⟩ : ∃ j, k = j + 1 := ⟨k - 1, by simp only [evalFuel] at hk; omega⟩
  cases h with
  | int i =>
    have h1 : (itoa i.toInt).isEmpty = false := by simp [itoa_ne_nil]
    rw [Opnd.tree, leaf, evalExpr.eq_def]
    dsimp only
    rw [vstr_str, if_neg (by rw [h1]; simp), if_pos (isNumber_itoa _)]
    simp only [number', vfloat, vint, vstr, h1, isInteger_itoa, parseInt_itoa i.le_toInt i.toInt_lt, bind, EvalM.lift, pure,
      Bool.false_eq_true, ↓reduceIte, Res.bind]
    rfl
  | float s f hn hd hp =>
    obtain ⟨c, hc, hcb⟩ : ∃ c ∈ s, ¬ SpaceOrTab c := ⟨46, hd, by simp [SpaceOrTab]⟩
    have h1 : s.isEmpty = false := by
      cases s with
      | nil => simp at hd
      | cons => rfl
    have h2 := isInteger_not ⟨c, hc, hcb⟩ (point_not_integer hd)
    rw [Opnd.tree, leaf, evalExpr.eq_def]
    dsimp only
    rw [vstr_str, if_neg (by rw [h1]; simp), if_pos (num_isNumber hn)]
    simp only [number', vfloat, vint, vstr, h1, h2, hp, bind, EvalM.lift, pure, Bool.false_eq_true, ↓reduceIte, Res.bind]
  | str s =>
    rw [Opnd.tree, evalExpr.eq_def]
    dsimp only
    rw [vstr_str, if_neg (by decide), if_neg (by decide), if_neg (by decide), if_neg (by decide), if_neg (by decide), if_neg (by decide), if_pos (by rfl)]
    rfl
  | path id ids hr hl =>
    obtain ⟨h1, _, h2⟩ := ho
    have hn := names_ok h2
    have hnn : ∀ x ∈ id :: ids, Name E x ∧ x ∉ reserved := fun x hx =>
      ⟨by rcases List.mem_cons.1 hx with rfl | hx; exact h1; exact hn x hx, hr x hx⟩
    have ht : (Opnd.path id (names ids)).tree = pathOf (id :: ids) := by simp [Opnd.tree, names_trees, pathOf]
    rw [ht] at hk ⊢
    rw [pathOf, evalExpr.eq_def]
    dsimp only
    rw [vstr_str, if_neg (by decide), if_neg (by decide), if_neg (by decide), if_neg (by decide), if_pos (by rfl)]
    obtain ⟨k, rfl⟩ : ∃ j, k = j + 3 := ⟨k - 3, by simp only [evalFuel] at hk; omega⟩
    obtain ⟨s', h3, h4, h5⟩ := walk_eval (E := E) (f := k) (p := pathOf (id :: ids)) (g := g) (id :: ids) { ctx := g } hnn hg hl rfl
    rw [evalPath, EvalM.bind_eq (x := EvalM.ctx) (g := g) (g' := g) (a := g) rfl,
      if_neg (by rw [noNil_isNil hg]; simp [Graph.len]; omega)]
    refine (EvalM.bind_eq h3).trans ?_
    simp only [h5, Bool.false_eq_true, ↓reduceIte, h4]
    rfl

theorem evalEach_method {g : Graph} (hg : NoNil g) {k : Nat} : ∀ {as : List (Opnd × Val)}, (∀ a ∈ as, a.1.Ok E ∧ ArgValue E g a.1 a.2) →
    (∀ a ∈ as, evalFuel a.1.tree + 1 ≤ k) →
    evalEach (fun a => evalExpr E k a false) ((as.map (·.1.tree)).map exprOf) g = .ok (as.map (·.2), g)
  | [], _, _ => rfl
  | a :: as, h, hk => by
    have ih := evalEach_method hg (as := as) (fun m hm => h m (by simp [hm])) fun m hm => hk m (by simp [hm])
    have h1 := argValue_eval hg (h a (by simp)).2 (h a (by simp)).1 (hk a (by simp))
    simp only [List.map_cons, evalEach, bind, h1, ih, pure]

/-- The node of the call `obj.m(n1, n2, …)`. -/
def methodTree (obj m : Bytes) (ns : List Graph) : Graph :=
  .node (.str b!"!p") [leaf obj, leaf m, .node (.str b!"!a") (ns.map exprOf)]

/-- A call of a method of an object. -/
theorem evals_method {g : Graph} {obj m : Bytes} {as : List (Opnd × Val)} {tag : Nat} {method : Bytes → Option (List Bytes × (List Val → Option (Option Val)))}
    {ins : List Bytes} {fn : List Val → Option (Option Val)} {ws : List Val} {t r : Val} {k rest : List Graph} (hobj : Name E obj) (hr : obj ∉ reserved)
    (hm : Name E m) (hr' : m ∉ reserved) (hg : NoNil g)
    (hl : lookup E [obj] g = .node t (.node (.other tag) k :: rest)) (hnot : firstNamed E m (.node (.other tag) k :: rest) = .nil)
    (hc : E.callable (.other tag) = .ptr method) (hme : method m = some (ins, fn)) (ha : ∀ a ∈ as, a.1.Ok E ∧ ArgValue E g a.1 a.2)
    (hw : MethodArgs E ins (as.map (·.2)) ws) (hfn : fn ws = some (some r)) :
    Evals E (methodTree obj m (as.map (·.1.tree))) g r g := by
  have hF0 : ∀ a ∈ as, evalFuel a.1.tree + 1 ≤ evalFuel (.node (.str b!"!a") (as.map (·.1.tree))) := fun a h => by
    have := evalFuel_child (t := .str b!"!a") (List.mem_map.2 ⟨a, h, rfl⟩ : a.1.tree ∈ as.map (·.1.tree)); omega
  have hargs := evalEach_method hg ha hF0
  generalize hns : as.map (·.1.tree) = ns at *
  generalize hFe : evalFuel (.node (.str b!"!a") ns) = F at *
  refine Evals.of (f := F + 5) ?_
  rw [methodTree, evalExpr.eq_def]
  dsimp only
  rw [vstr_str, if_neg (by decide), if_neg (by decide), if_neg (by decide), if_neg (by decide), if_pos (by rfl), evalPath]
  generalize hp : [leaf obj, leaf m, Graph.node (.str b!"!a") (ns.map exprOf)] = es
  have hf : firstNamed E obj g.out = .node t (.node (.other tag) k :: rest) := hl
  have h1 := evalStep_name (E := E) (f := F + 1) (p := .node (.str b!"!p") es) (s := { ctx := g }) (g := g) hobj hr hg (by rw [hf]; rfl)
  rw [hf] at h1
  have hfun : function E (F + 1) (.node (.str b!"!p") es) (.other tag) g = .ok ((r, none), g) := by
    subst hp
    rw [function]
    simp only [callableOf, hc, Graph.out_node, leaf_thisString, hme, show (leaf m).isNil = false from rfl, Bool.false_eq_true, ↓reduceIte, bind, hargs,
      EvalM.lift, callMethod, methodArgs_eq hw, Res.ok_bind, Res.bind, hfn, callResult]
  have h2 : evalStep E (F + 3) (.node (.str b!"!p") es) (leaf m) { ctx := .node t (.node (.other tag) k :: rest), prev := g, elem := obj, addRoot := false } g =
      .ok (.done (r, none), g) := by
    have hnn : NoNilL (.node (.other tag) k :: rest) := by
      have := noNil_child hg (E := E) (id := obj) (by rw [hf]; rfl)
      rw [hf] at this
      exact this
    obtain ⟨t1, t2, t3, t4⟩ := not_ty hm
    simp only [reserved, List.mem_cons, List.not_mem_nil, or_false, not_or] at hr'
    obtain ⟨r1, r2, r3, r4, r5⟩ := hr'
    rw [evalStep.eq_def]
    dsimp only
    rw [leaf_thisString, if_neg t1, if_neg t2, if_neg r1, if_neg r2, if_neg r3, if_neg r4, if_neg r5, if_neg t3, if_neg t4, evalName]
    have hnode : (Graph.node t (.node (.other tag) k :: rest)).nodeNamed E m = .ok .nil := by
      rw [Graph.nodeNamed, nodeLoop_eq m hnn]
      exact congrArg Res.ok hnot
    rw [hnode]
    rw [EvalM.bind_eq (x := EvalM.lift (.ok Graph.nil)) (g := g) (g' := g) (a := .nil) rfl, if_pos (by simp [Graph.len, Graph.isNil])]
    rw [EvalM.bind_eq (x := EvalM.lift (firstThis (.node t (.node (.other tag) k :: rest)))) (g := g) (g' := g) (a := .other tag) rfl]
    exact (EvalM.bind_eq hfun).trans rfl
  rw [EvalM.bind_eq (x := EvalM.ctx) (g := g) (g' := g) (a := g) rfl, if_neg (by rw [noNil_isNil hg, ← hp]; simp [Graph.len])]
  refine (EvalM.bind_eq (g' := g) (a := .done (r, none)) ?_).trans rfl
  rw [Graph.out_node]
  conv => lhs; arg 2; rw [← hp]
  rw [walkPath_cons (noNil_isNil hg) h1, walkPath_done rfl h2]

end
end Ogdl
