import Verif.Lemmas.CalmItems
import Verif.Spec.Confined

/-!
# What assignments and loops leave alone
-/

namespace Ogdl
open Spec

variable {E : Ext} {V : List Bytes}

theorem outside_refl (g : Graph) : Outside E V g g := by
  cases g with
  | nil => exact .inl ⟨rfl, rfl⟩
  | node t o => exact .inr ⟨t, o, o, rfl, rfl, rfl⟩

theorem outside_trans {a b c : Graph} (h1 : Outside E V a b) (h2 : Outside E V b c) : Outside E V a c := by
  rcases h1 with ⟨rfl, rfl⟩ | ⟨t, o, o', rfl, rfl, h1⟩
  · exact h2
  · rcases h2 with ⟨h, _⟩ | ⟨t2, o2, o2', h, rfl, h2⟩
    · cases h
    · cases h
      exact .inr ⟨_, _, _, rfl, rfl, h2.trans h1⟩

theorem outside_node {t : Val} {o o' : List Graph} (h : (o'.filter fun n => n.thisString E ∉ V) = o.filter fun n => n.thisString E ∉ V) :
    Outside E V (.node t o) (.node t o') := .inr ⟨t, o, o', rfl, rfl, h⟩

/-- What does not touch the other subnodes of the context. -/
def Spares (E : Ext) (V : List Bytes) {α : Type} (x : EvalM α) : Prop := ∀ g a g', x g = .ok (a, g') → Outside E V g g'

theorem spares_pred : EvalPred (fun {α} (x : EvalM α) => Spares E V x) where
  pure _ := fun g a g' h => by cases h; exact outside_refl _
  bind hx hf := fun g a g' h => by
    simp only [Bind.bind] at h
    split at h
    next b g'' hxg => exact outside_trans (hx g b g'' hxg) (hf b g'' a g' h)
    · cases h
    · cases h
  panic := fun g a g' h => by cases h
  lift hr := fun g a g' h => by
    simp only [EvalM.lift] at h
    split at h <;> cases h
    exact outside_refl _
  ctx := fun g a g' h => by cases h; exact outside_refl _

theorem spares_oof {α : Type} : Spares E V (EvalM.oof (α := α)) := fun _ _ _ h => by cases h

theorem spares_lift {α : Type} (r : Res α) : Spares E V (EvalM.lift r) := fun g a g' h => by
  simp only [EvalM.lift] at h
  split at h <;> cases h
  exact outside_refl _

/-! ## Assignments -/

theorem filter_set {α : Type} (p : α → Bool) : ∀ {l : List α} {i : Nat} {x y : α}, l[i]? = some x → p x = false → p y = false → (l.set i y).filter p = l.filter p
  | [], i, x, y, h, _, _ => by simp at h
  | a :: l, 0, x, y, h, hx, hy => by
    simp only [List.getElem?_cons_zero, Option.some.injEq] at h
    subst h
    simp [hx, hy]
  | a :: l, i + 1, x, y, h, hx, hy => by
    simp only [List.getElem?_cons_succ] at h
    rw [List.set_cons_succ, List.filter_cons, List.filter_cons, filter_set p h hx hy]

theorem setLast_this {v : Val} {t : Val} {o : List Graph} {n r : Graph} (h : setLast v (.node t o) = .ok (n, r)) : ∃ o', n = .node t o' := by
  unfold setLast at h
  cases h
  cases v with
  | nil => exact ⟨_, rfl⟩
  | graph g => cases g <;> exact ⟨_, rfl⟩
  | _ => exact ⟨_, rfl⟩

theorem setNew_this {v : Val} : ∀ {es : List Graph} {t : Val} {o : List Graph} {n r : Graph}, setNew E v es (.node t o) = .ok (n, r) → ∃ o', n = .node t o'
  | [], t, o, n, r, h => setLast_this h
  | e :: es, t, o, n, r, h => by
    simp only [setNew] at h
    split at h
    · obtain ⟨_, _, h⟩ := res_bind_ok h
      obtain ⟨_, _, h⟩ := res_bind_ok h
      cases h; exact ⟨_, rfl⟩
    · split at h
      · cases h
      · cases h
      · obtain ⟨_, _, h⟩ := res_bind_ok h
        cases h; exact ⟨_, rfl⟩

theorem setPath_this {v : Val} {es : List Graph} {t : Val} {o : List Graph} {n r : Graph} (h : setPath E v es (.node t o) = .ok (n, r)) : ∃ o', n = .node t o' := by
  cases es with
  | nil => exact setLast_this h
  | cons e es =>
    simp only [setPath] at h
    split at h
    · obtain ⟨_, _, h⟩ := res_bind_ok h
      obtain ⟨_, _, h⟩ := res_bind_ok h
      cases h; exact ⟨_, rfl⟩
    · obtain ⟨_, _, h⟩ := res_bind_ok h
      split at h
      · exact setNew_this h
      · obtain ⟨_, _, h⟩ := res_bind_ok h
        cases h; exact ⟨_, rfl⟩

theorem findName_text {m : Bytes} : ∀ {o : List Graph} {i : Nat}, findName E m o = .ok (some i) → ∃ t k, o[i]? = some (.node t k) ∧ vstr E t = m
  | [], i, h => by simp [findName] at h
  | .nil :: _, i, h => by simp [findName] at h
  | .node t k :: gs, i, h => by
    rw [findName] at h
    split at h
    next hx => cases h; exact ⟨t, k, rfl, hx.symm⟩
    · cases hf : findName E m gs with
      | ok r =>
        rw [hf] at h
        cases r with
        | none => cases h
        | some j =>
          cases h
          obtain ⟨t', k', h1, h2⟩ := findName_text hf
          exact ⟨t', k', by simpa using h1, h2⟩
      | panic => rw [hf] at h; cases h
      | oof => rw [hf] at h; cases h

theorem setPath_outside {v : Val} {m : Bytes} {k es : List Graph} (hm : m ∈ V) (hi : m ≠ b!"!i") {g g' r : Graph}
    (h : setPath E v (.node (.str m) k :: es) g = .ok (g', r)) : Outside E V g g' := by
  cases g with
  | nil => cases h
  | node t o =>
    simp only [setPath, if_neg (show ¬ (Graph.node (.str m) k).thisString E = tyIndex from hi)] at h
    obtain ⟨j, hj, h⟩ := res_bind_ok h
    split at h
    · simp only [setNew, if_neg (show ¬ (Graph.node (.str m) k).thisString E = tyIndex from hi)] at h
      obtain ⟨⟨n, r'⟩, hn, h⟩ := res_bind_ok h
      cases h
      obtain ⟨o', e⟩ := setNew_this hn
      refine outside_node ?_
      rw [List.filter_append, e]
      simp [Graph.thisString, vstr, hm]
    next i =>
      obtain ⟨t', k', h1, h2⟩ := findName_text hj
      have hd : o.getD i .nil = .node t' k' := by rw [List.getD_eq_getElem?_getD, h1]; rfl
      rw [hd] at h
      have h2 : vstr E t' = m := h2
      obtain ⟨⟨n, r'⟩, hn, h⟩ := res_bind_ok h
      cases h
      obtain ⟨o', e⟩ := setPath_this hn
      subst e
      refine outside_node (filter_set _ h1 ?_ ?_) <;> simp [Graph.thisString, h2, hm]

theorem put_spares {p : Val} {m : Bytes} {k es : List Graph} (hm : m ∈ V) (hi : m ≠ b!"!i") (v : Val) :
    Spares E V (assign.put E (.node p (.node (.str m) k :: es)) v) := by
  intro g a g' h
  unfold assign.put at h
  simp only [Bind.bind, EvalM.modify, Graph.out_node] at h
  split at h
  next x g1 hx =>
    cases h
    split at hx
    next r g2 hs =>
      cases hx
      exact setPath_outside hm hi hs
    · cases hx
    · cases hx
  · cases h
  · cases h

mutual
theorem AssignsTo.lefts : ∀ {p : Graph}, AssignsTo E V p → AllLefts E (fun q => ∀ v, Spares E V (assign.put E q v)) p
  | .nil, _ => trivial
  | .node t o, h => by
    unfold AssignsTo at h
    refine ⟨fun op hop q hq v => ?_, AssignsToL.lefts h.2⟩
    obtain ⟨p, m, k, es, rest, rfl, hm, hi⟩ := h.1 (binOp_assign hop)
    cases hq
    exact put_spares hm hi v
theorem AssignsToL.lefts : ∀ {o : List Graph}, AssignsToL E V o → AllLeftsL E (fun q => ∀ v, Spares E V (assign.put E q v)) o
  | [], _ => trivial
  | g :: gs, h => by
    unfold AssignsToL at h
    exact ⟨AssignsTo.lefts h.1, AssignsToL.lefts h.2⟩
end

theorem eval_spares {p : Graph} {f : Nat} (h : AssignsTo E V p) : Spares E V (eval E f p) :=
  (evalAll spares_pred f).eval p (.inl fun _ => spares_oof) (AssignsTo.lefts h)

theorem evalBool_spares {p : Graph} {f : Nat} (h : AssignsTo E V p) : Spares E V (evalBool E f p) :=
  (evalAll spares_pred f).evalBool p (.inl fun _ => spares_oof) (AssignsTo.lefts h)

/-! ## Loops -/

theorem setVar_filter {v : Bytes} (hv : v ∈ V) {ee : Graph} : ∀ o : List Graph, ((setVar v ee o).filter fun n => n.thisString E ∉ V) = o.filter fun n => n.thisString E ∉ V
  | [] => rfl
  | n :: ns => by
    unfold setVar
    split
    · split
      next hs =>
        subst hs
        simp [Graph.thisString, vstr, hv]
      · rw [List.filter_cons, List.filter_cons, setVar_filter hv ns]
    · rw [List.filter_cons, List.filter_cons, setVar_filter hv ns]

theorem bindVar_spares {v : Bytes} (hv : v ∈ V) (ee : Graph) : Spares E V (bindVar v ee) := by
  intro g a g' h
  unfold bindVar at h
  split at h
  · cases h
  · cases h
    exact outside_node (setVar_filter hv _)

theorem filter_eraseIdx {α : Type} (p : α → Bool) : ∀ {l : List α} {i : Nat} {x : α}, l[i]? = some x → p x = false → (l.eraseIdx i).filter p = l.filter p
  | [], i, x, h, _ => by simp at h
  | a :: l, 0, x, h, hx => by
    simp only [List.getElem?_cons_zero, Option.some.injEq] at h
    subst h
    simp [hx]
  | a :: l, i + 1, x, h, hx => by
    simp only [List.getElem?_cons_succ] at h
    rw [List.eraseIdx_cons_succ, List.filter_cons, List.filter_cons, filter_eraseIdx p h hx]

theorem deleteLoop_filter {v : Bytes} (hv : v ∈ V) : ∀ {f i : Nat} {o o' : List Graph}, deleteLoop E (.str v) f i o = .ok o' →
    (o'.filter fun n => n.thisString E ∉ V) = o.filter fun n => n.thisString E ∉ V
  | 0, i, o, o', h => by cases h; rfl
  | f + 1, i, o, o', h => by
    rw [deleteLoop] at h
    split at h
    · cases h; rfl
    · cases h
    next t k hx =>
      rw [itfEq_str] at h
      simp only [Res.ok_bind] at h
      split at h
      next hs =>
        rw [deleteLoop_filter hv h]
        refine filter_eraseIdx _ hx ?_
        rw [isStr_iff.1 hs]
        simp [Graph.thisString, vstr, hv]
      · exact deleteLoop_filter hv h

theorem delete_outside {v : Bytes} (hv : v ∈ V) {g g' : Graph} (h : g.delete E (.str v) = .ok g') : Outside E V g g' := by
  cases g with
  | nil => cases h; exact outside_refl _
  | node t o =>
    unfold Graph.delete at h
    simp only [Bind.bind, Res.bind] at h
    split at h
    next o' ho => cases h; exact outside_node (deleteLoop_filter hv ho)
    · cases h
    · cases h

theorem fresh_spares {v : Bytes} (hv : v ∈ V) : Spares E V (EvalM.modify fun c => do
    let c ← c.delete E (.str v)
    .ok ((c.add (.str v)).1, ())) := by
  intro g a g' h
  unfold EvalM.modify at h
  simp only [Bind.bind, Res.bind] at h
  cases hd : g.delete E (.str v) with
  | ok c =>
    rw [hd] at h
    cases h
    refine outside_trans (delete_outside hv hd) ?_
    cases c with
    | nil => exact outside_refl _
    | node t o =>
      refine outside_node ?_
      simp [List.filter_append, addedNode, Graph.thisString, vstr, hv]
  | panic => rw [hd] at h; cases h
  | oof => rw [hd] at h; cases h

theorem forLoop_spares {v : Bytes} (hv : v ∈ V) {body : EvalM Proc} (hb : Spares E V body) : ∀ (es : List Graph) (away : Bool), Spares E V (forLoop v body es away)
  | [], _ => spares_pred.pure _
  | ee :: es, away => by
    have hr : Spares E V (do
        let r ← body
        if r.brk then pure (⟨false, r.out, r.loops⟩ : Proc)
        else do
          let r' ← forLoop v body es (away || r.loops.contains v)
          pure (⟨false, r.out ++ r'.out, r.loops ++ r'.loops⟩ : Proc)) := by
      refine spares_pred.bind hb fun r => ?_
      split
      · exact spares_pred.pure _
      · exact spares_pred.bind (forLoop_spares hv hb es _) fun _ => spares_pred.pure _
    unfold forLoop
    dsimp only
    split
    · exact spares_pred.bind (bindVar_spares hv ee) fun _ => hr
    · exact hr

/-- A result that is taken for granted in what follows. -/
theorem spares_need {α β : Type} {r : Res α} {f : α → EvalM β} (h : ∀ a, r = .ok a → Spares E V (f a)) : Spares E V (EvalM.lift r >>= f) := by
  intro g x g' hx
  cases r with
  | ok a => exact h a rfl g x g' hx
  | panic => cases hx
  | oof => cases hx

theorem forNode_spares {sub : Graph → EvalM Proc} (hs : ∀ t, Confined E V t → Spares E V (sub t)) {n : Graph}
    (h1 : ∀ l e, n.getAt 0 = .ok l → l.getAt 1 = .ok e → AssignsTo E V e)
    (h2 : ∀ l e x v, n.getAt 0 = .ok l → l.getAt 0 = .ok e → e.getAt 0 = .ok x → x.string E = .ok v → v ∈ V)
    (h3 : ∀ t, n.getAt 1 = .ok t → Confined E V t) : Spares E V (forNode E sub n) := by
  unfold forNode
  refine spares_need fun l hl => spares_need fun e he => spares_pred.bind (eval_spares (h1 l e hl he)) fun r => ?_
  dsimp only
  split
  · split
    · exact spares_pred.pure _
    · refine spares_need fun l' hl' => spares_need fun e' he' => spares_need fun x hx => spares_need fun v hv => ?_
      have hm := h2 l' e' x v hl' he' hx hv
      refine spares_pred.bind (fresh_spares hm) fun _ => spares_need fun t ht => ?_
      generalize ite (Graph.thisString E _ = b!"[") _ _ = gi
      by_cases hg : gi.isNil = true
      · rw [if_pos hg]; exact spares_pred.panic
      · rw [if_neg hg]; exact spares_pred.bind (forLoop_spares hm (hs t (h3 t ht)) _ _) fun _ => spares_pred.pure _
  · exact spares_pred.pure _

theorem procNodes_spares {sub : Graph → EvalM Proc} (hs : ∀ t, Confined E V t → Spares E V (sub t)) : ∀ (ns : List Graph) (yes : Bool),
    (∀ n ∈ ns, ConfinedPiece E V n) → Spares E V (procNodes E sub ns yes)
  | [], _, _ => spares_pred.pure _
  | n :: ns, yes, h => by
    have ih := fun yes => procNodes_spares hs ns yes fun x hx => h x (by simp [hx])
    have hn := h n (by simp)
    unfold procNodes
    dsimp only
    split
    next ht =>
      have ha : AssignsTo E V n := by
        cases hn with
        | text h => rw [ht] at h; exact absurd h (by decide)
        | value _ h => exact h
        | cond h => rw [ht] at h; exact absurd h (by decide)
        | els h => rw [ht] at h; exact absurd h (by decide)
        | loop h => rw [ht] at h; exact absurd h (by decide)
      exact spares_pred.bind (eval_spares ha) fun _ => spares_pred.bind (spares_lift _) fun _ => spares_pred.bind (ih _) fun _ => spares_pred.pure _
    split
    next ht =>
      have ha : AssignsTo E V n := by
        cases hn with
        | text h => rw [ht] at h; exact absurd h (by decide)
        | value _ h => exact h
        | cond h => rw [ht] at h; exact absurd h (by decide)
        | els h => rw [ht] at h; exact absurd h (by decide)
        | loop h => rw [ht] at h; exact absurd h (by decide)
      exact spares_pred.bind (eval_spares ha) fun _ => spares_pred.bind (ih _) fun _ => spares_pred.pure _
    have cnd : (n.thisString E = b!"!if" ∨ n.thisString E = b!"!elseif") → Spares E V (do
        let a ← EvalM.lift (n.getAt 0)
        let x ← EvalM.lift (a.getAt 0)
        evalBool E (evalFuel x + 1) x) ∧ ∀ t, n.getAt 1 = .ok t → Confined E V t := by
      intro ht
      cases hn with
      | text h => rcases ht with ht | ht <;> rw [ht] at h <;> exact absurd h (by decide)
      | value h => rcases ht with ht | ht <;> rw [ht] at h <;> exact absurd h (by decide)
      | cond _ h1 h2 => exact ⟨spares_need fun l hl => spares_need fun e he => evalBool_spares (h1 l e hl he), h2⟩
      | els h => rcases ht with ht | ht <;> rw [ht] at h <;> exact absurd h (by decide)
      | loop h => rcases ht with ht | ht <;> rw [ht] at h <;> exact absurd h (by decide)
    split
    next ht =>
      obtain ⟨c1, c2⟩ := cnd (.inl ht)
      refine spares_pred.bind c1 fun b => ?_
      split
      · exact spares_need fun t hg => spares_pred.bind (hs t (c2 t hg)) fun r => spares_pred.bind (ih _) fun _ => spares_pred.pure _
      · exact spares_pred.bind (ih _) fun _ => spares_pred.pure _
    split
    next ht =>
      obtain ⟨c1, c2⟩ := cnd (.inr ht)
      split
      · exact spares_pred.bind (ih _) fun _ => spares_pred.pure _
      · refine spares_pred.bind c1 fun b => ?_
        split
        · exact spares_need fun t hg => spares_pred.bind (hs t (c2 t hg)) fun r => spares_pred.bind (ih _) fun _ => spares_pred.pure _
        · exact spares_pred.bind (ih _) fun _ => spares_pred.pure _
    split
    next ht =>
      have ha : ∀ t, n.getAt 0 = .ok t → Confined E V t := by
        cases hn with
        | text h => rw [ht] at h; exact absurd h (by decide)
        | value h => rw [ht] at h; exact absurd h (by decide)
        | cond h => rw [ht] at h; exact absurd h (by decide)
        | els _ h => exact h
        | loop h => rw [ht] at h; exact absurd h (by decide)
      split
      · exact spares_pred.bind (ih _) fun _ => spares_pred.pure _
      · exact spares_need fun t hg => spares_pred.bind (hs t (ha t hg)) fun r => spares_pred.bind (ih _) fun _ => spares_pred.pure _
    split
    next ht =>
      have hf : Spares E V (forNode E sub n) := by
        cases hn with
        | text h => rw [ht] at h; exact absurd h (by decide)
        | value h => rw [ht] at h; exact absurd h (by decide)
        | cond h => rw [ht] at h; exact absurd h (by decide)
        | els h => rw [ht] at h; exact absurd h (by decide)
        | loop _ h1 h2 h3 => exact forNode_spares hs h1 h2 h3
      exact spares_pred.bind hf fun r => spares_pred.bind (ih _) fun _ => spares_pred.pure _
    split
    · exact spares_pred.pure _
    · exact spares_pred.bind (ih _) fun _ => spares_pred.pure _

theorem process_spares : ∀ (f : Nat) (t : Graph), Confined E V t → Spares E V (process E f t)
  | 0, _, _ => spares_oof
  | _ + 1, .nil, _ => spares_pred.pure _
  | f + 1, .node _ o, h => by
    cases h with
    | node h => exact procNodes_spares (process_spares f) o false h

theorem template_outside {t g g' : Graph} {out : Bytes} (ht : Confined E V t) (h : t.process E g = .ok (out, g')) : Outside E V g g' := by
  unfold Graph.process at h
  obtain ⟨⟨r, c⟩, h1, h2⟩ := res_bind_ok h
  cases h2
  exact process_spares _ t ht _ _ _ h1

/-! ## Texts -/

mutual
theorem noAssignment_to : ∀ {p : Graph}, NoAssignment E p → AssignsTo E V p
  | .nil, _ => trivial
  | .node t o, h => by
    unfold AssignsTo
    exact ⟨fun ha => absurd ha h.1, noAssignmentL_to h.2⟩
theorem noAssignmentL_to : ∀ {o : List Graph}, AllThisL (fun v => vstr E v ∉ assignments) o → AssignsToL E V o
  | [], _ => trivial
  | g :: gs, h => by
    unfold AssignsToL
    exact ⟨noAssignment_to h.1, noAssignmentL_to h.2⟩
end

theorem exprOf_to {x : Graph} (h : AssignsTo E V x) : AssignsTo E V (exprOf x) := by
  unfold exprOf AssignsTo AssignsToL AssignsToL
  exact ⟨fun ha => absurd ha (by show b!"!e" ∉ _; decide), h, trivial⟩

theorem confined_cond {s : Bytes} {x : Graph} {ts : List Graph} (hs : s = b!"!if" ∨ s = b!"!elseif") (ha : AssignsTo E V x) (hts : ∀ n ∈ ts, ConfinedPiece E V n) :
    ConfinedPiece E V (.node (.str s) [.node (.str b!"!a") [exprOf x], .node (.str b!"!t") ts]) := by
  refine .cond hs (fun l e hl he => ?_) fun t ht => ?_
  · cases hl
    cases he
    exact exprOf_to ha
  · cases ht
    exact .node hts

mutual
theorem item_confined : ∀ {i : Item} {rest : Bytes}, i.Ok E rest → i.Confined E V → ∀ n ∈ i.trees, ConfinedPiece E V n
  | .plain s, rest, ho, _, n, hn => by
    simp only [Item.trees, List.mem_singleton] at hn
    subst hn
    unfold Item.Ok at ho
    have hm := ho.2.2.1
    simp only [markers, List.mem_cons, List.not_mem_nil, or_false, not_or] at hm
    refine .text ?_
    show s ∉ _
    simp only [List.mem_cons, List.not_mem_nil, or_false, not_or]
    exact ⟨hm.1, hm.2.1, hm.2.2.1, hm.2.2.2.2.2.1, hm.2.2.2.2.1, hm.2.2.2.2.2.2.1⟩
  | .dollar, rest, _, _, n, hn => by
    simp only [Item.trees, List.mem_singleton] at hn
    subst hn
    exact .text (by show b!"$" ∉ _; decide)
  | .var id ids br, rest, ho, _, n, hn => by
    simp only [Item.trees, List.mem_singleton] at hn
    subst hn
    unfold Item.Ok at ho
    exact .value (.inl rfl) (noAssignment_to (pathOf_asks ho.1.2).2)
  | .expr x, rest, _, hc, n, hn => by
    simp only [Item.trees, List.mem_singleton] at hn
    subst hn
    unfold Item.Confined at hc
    exact .value (.inr rfl) (exprOf_to hc)
  | .cond c body more, rest, ho, hc, n, hn => by
    unfold Item.Ok at ho
    unfold Item.Confined at hc
    unfold Item.trees at hn
    rcases List.mem_cons.1 hn with rfl | hn
    · exact confined_cond (.inl rfl) hc.1 (items_confined ho.2.2.1 hc.2.1)
    · exact branches_confined ho.2.2.2 hc.2.2 n hn
  | .loop v id ids body, rest, ho, hc, n, hn => by
    simp only [Item.trees, List.mem_singleton] at hn
    subst hn
    unfold Item.Ok at ho
    unfold Item.Confined at hc
    refine .loop rfl (fun l e hl he => ?_) (fun l e x w hl he hx hw => ?_) fun t ht => ?_
    · cases hl
      cases he
      exact exprOf_to (noAssignment_to (pathOf_asks ho.2.2.1.2).2)
    · cases hl
      cases he
      cases hx
      cases hw
      exact hc.1
    · cases ht
      exact .node (items_confined ho.2.2.2.2.2.1 hc.2)
  | .brk, rest, _, _, n, hn => by
    simp only [Item.trees, List.mem_singleton] at hn
    subst hn
    exact .text (by show b!"!break" ∉ _; decide)
theorem items_confined : ∀ {is : Items} {rest : Bytes}, is.Ok E rest → is.Confined E V → ∀ n ∈ is.trees, ConfinedPiece E V n
  | .nil, _, _, _, n, hn => by simp [Items.trees] at hn
  | .cons i is, rest, ho, hc, n, hn => by
    unfold Items.Ok at ho
    unfold Items.Confined at hc
    unfold Items.trees at hn
    rcases List.mem_append.1 hn with hn | hn
    · exact item_confined ho.1 hc.1 n hn
    · exact items_confined ho.2 hc.2 n hn
theorem branches_confined : ∀ {b : Branches} {rest : Bytes}, b.Ok E rest → b.Confined E V → ∀ n ∈ b.trees, ConfinedPiece E V n
  | .done, _, _, _, n, hn => by simp [Branches.trees] at hn
  | .els body, rest, ho, hc, n, hn => by
    simp only [Branches.trees, List.mem_singleton] at hn
    subst hn
    unfold Branches.Ok at ho
    unfold Branches.Confined at hc
    refine .els rfl fun t ht => ?_
    cases ht
    exact .node (items_confined ho.2.1 hc)
  | .elif c body more, rest, ho, hc, n, hn => by
    unfold Branches.Ok at ho
    unfold Branches.Confined at hc
    unfold Branches.trees at hn
    rcases List.mem_cons.1 hn with rfl | hn
    · exact confined_cond (.inr rfl) hc.1 (items_confined ho.2.2.1 hc.2.1)
    · exact branches_confined ho.2.2.2 hc.2.2 n hn
end

end Ogdl
