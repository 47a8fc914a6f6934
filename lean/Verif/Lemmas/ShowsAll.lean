import Verif.Lemmas.ShowsEval

/-!
# Evaluation without assignments: all functions
-/

namespace Ogdl
open Spec HM

variable {E : Ext} {grow : Nat → Nat → Nat} {P : Nat → Prop} {F : List Nat}

/-- An expression without nil nodes and without assignments. -/
structure Fit (E : Ext) (e : Graph) : Prop where
  whole : Whole e
  keep : AllThis (NotAssign E) e

theorem whole_mem : ∀ {o : List Graph}, WholeL o → ∀ {x : Graph}, x ∈ o → x ≠ .nil ∧ Whole x
  | [], _, x, hx => by simp at hx
  | y :: ys, hw, x, hx => by
    unfold WholeL at hw
    rcases List.mem_cons.1 hx with rfl | hx
    · exact ⟨hw.1, hw.2.1⟩
    · exact whole_mem hw.2.2 hx

theorem Fit.child {t : Val} {o : List Graph} (hf : Fit E (.node t o)) {x : Graph} (hx : x ∈ o) : Fit E x := by
  have hw := hf.whole
  unfold Whole at hw
  exact ⟨(whole_mem hw.2 hx).2, allThis_mem hx hf.keep.2⟩

theorem Fit.solidChild {t : Val} {o : List Graph} (hf : Fit E (.node t o)) {x : Graph} (hx : x ∈ o) : x ≠ .nil := by
  have hw := hf.whole
  unfold Whole at hw
  exact (whole_mem hw.2 hx).1

theorem number_whole {v n : Val} (hn : number' E v = .ok n) : NoGraph n := by
  cases number_content hn with
  | val h => exact h

theorem scalar_whole {v r : Val} (hv : WholeV v) (hr : scalarOf E v = .ok r) : WholeV r := by
  unfold scalarOf at hr
  cases hn : number' E v with
  | oof => rw [hn] at hr; cases hr
  | panic => rw [hn] at hr; cases hr
  | ok n =>
    rw [hn, Res.ok_bind] at hr
    have hg := number_whole hn
    cases n with
    | nil =>
      dsimp only at hr
      split at hr
      · cases hr; trivial
      · cases hr; exact hv
    | graph g => exact absurd rfl (hg g)
    | _ => cases hr; trivial

theorem callResult_whole {r : Option (Option Val)} {v : Val} {e : Option Err} (hr : ∀ x, r = some (some x) → WholeV x) (h : callResult r = .ok (v, e)) : WholeV v := by
  unfold callResult at h
  split at h
  · cases h
  · cases h; trivial
  · cases h; exact hr _ rfl

theorem callFunc_whole {ins : List Bytes} {fn : List Val → Option (Option Val)} {args : List Val} {v : Val} {e : Option Err}
    (hr : ∀ args x, fn args = some (some x) → WholeV x) (h : callFunc E ins fn args = .ok (v, e)) : WholeV v := by
  unfold callFunc at h
  cases hz : zeroArgs E ins args with
  | oof => rw [hz] at h; cases h
  | panic => rw [hz] at h; cases h
  | ok l =>
    rw [hz, Res.ok_bind] at h
    split at h
    · cases h; trivial
    · split at h
      · cases h; trivial
      · exact callResult_whole (fun x => hr _ x) h

theorem callMethod_whole {ins : List Bytes} {fn : List Val → Option (Option Val)} {args : List Val} {v : Val} {e : Option Err}
    (hr : ∀ args x, fn args = some (some x) → WholeV x) (h : callMethod E ins fn args = .ok (v, e)) : WholeV v := by
  unfold callMethod at h
  cases hz : methodArgs E ins args with
  | oof => rw [hz] at h; cases h
  | panic => rw [hz] at h; cases h
  | ok l =>
    rw [hz, Res.ok_bind] at h
    split at h
    · cases h
    · exact callResult_whole (fun x => hr _ x) h

theorem result_comes {h : Heap} (hs : Solid h) (hf : Fresh P h) {r : Res (Val × Option Err)} (hw : ∀ v e, r = .ok (v, e) → WholeV v) :
    Comes F (fun _ => hResult grow r) h r (Both P) := by
  unfold hResult
  cases r with
  | ok ve =>
    obtain ⟨v, e⟩ := ve
    obtain ⟨x, h', hr, t, hv⟩ := putVal_run (grow := grow) v (hw v e rfl) hs hf
    refine ⟨0, (x, e), h', fun _ _ => ?_, t.any, rfl, hv⟩
    rw [ok_bind' (show (HM.lift (.ok (v, e))).run h = (.ok (v, e), h) from rfl)]
    dsimp only
    rw [ok_bind' hr]
    rfl
  | panic => exact ⟨0, h, fun _ _ => rfl, .refl hs⟩
  | oof => trivial

theorem calcInt_plain {i j : Int} {r : Val} {op : ArithOp} (h : calcInt i j op = .ok r) : NoGraph r := by
  intro g e
  subst e
  cases op <;> simp only [calcInt] at h <;> (try split at h) <;> cases h

theorem calcFloat_plain {i j : UInt64} {r : Val} {op : ArithOp} (h : calcFloat E i j op = .ok r) : NoGraph r := by
  intro g e
  subst e
  cases op <;> simp only [calcFloat] at h <;> (try split at h) <;> cases h

theorem calc_plain {v w r : Val} {op : ArithOp} (h : calc' E v w op = .ok r) : NoGraph r := by
  unfold calc' at h
  split at h
  · exact calcInt_plain h
  · exact calcFloat_plain h
  · split at h
    · split at h <;> cases h <;> exact nofun
    · cases h; exact nofun
    · exact calcFloat_plain h
    · exact calcFloat_plain h

/-- All functions agree, with fuel `f` for the expression. -/
structure AllSim (E : Ext) (grow : Nat → Nat → Nat) (f : Nat) : Prop where
  eval : ∀ {P h g p}, Ctx P h g p → ∀ e, Fit E e → Sim [] (fun n => hEval grow E n p f e) h (eval E f e) g (Both P)
  evalBool : ∀ {P h g p}, Ctx P h g p → ∀ e, Fit E e → Sim [] (fun n => hEvalBool grow E n p f e) h (evalBool E f e) g fun b a _ => b = a
  indexOf : ∀ {P h g p}, Ctx P h g p → ∀ e, Fit E e → Sim [] (fun n => hIndexOf grow E n p f e) h (indexOf E f e) g fun b a _ => b = a
  function : ∀ {P Q h g p}, Ctx P h g p → Fresh Q h → ∀ e, Fit E e → ∀ x v, ShowsV P h v x → Sim [] (fun n => hFunction grow E n p f e x) h (function E f e v) g (Both Q)
  getName : ∀ {P h g p}, Ctx P h g p → ∀ e, Fit E e → ∀ nm s t, StShows P h s t →
    Sim [] (fun n => hGetName grow E n p f e nm s) h (getName E f e nm t) g (StepShows P (BothP P))
  getStep : ∀ {P h g p}, Ctx P h g p → ∀ e, Fit E e → ∀ k, Fit E k → ∀ s t, StShows P h s t →
    Sim [] (fun n => hGetStep grow E n p f e k s) h (getStep E f e k t) g (StepShows P (BothP P))
  getPath : ∀ {P h g p}, Ctx P h g p → ∀ e, Fit E e → Sim [] (fun n => hGetPath grow E n p f e) h (getPath E f e) g (BothP P)
  evalName : ∀ {P h g p}, Ctx P h g p → ∀ e, Fit E e → ∀ nm s t, StShows P h s t →
    Sim [] (fun n => hEvalName grow E n p f e nm s) h (evalName E f e nm t) g (StepShows P (Both P))
  evalStep : ∀ {P h g p}, Ctx P h g p → ∀ e, Fit E e → ∀ k, Fit E k → ∀ s t, StShows P h s t →
    Sim [] (fun n => hEvalStep grow E n p f e k s) h (evalStep E f e k t) g (StepShows P (Both P))
  evalPath : ∀ {P h g p}, Ctx P h g p → ∀ e, Fit E e → ∀ b, Sim [] (fun n => hEvalPath grow E n p f e b) h (evalPath E f e b) g (Both P)
  evalBinary : ∀ {P h g p}, Ctx P h g p → ∀ e, Fit E e → Sim [] (fun n => hEvalBinary grow E n p f e) h (evalBinary E f e) g fun x v _ => NoGraph v ∧ x = .val v
  evalExpr : ∀ {P h g p}, Ctx P h g p → ∀ e, Fit E e → ∀ b, Sim [] (fun n => hEvalExpr grow E n p f e b) h (evalExpr E f e b) g (Both P)

theorem sim_zero : AllSim E grow 0 := by
  constructor
  all_goals intros
  all_goals simp only [hEval, hEvalBool, hIndexOf, hFunction, hGetName, hGetStep, hGetPath, hEvalName, hEvalStep, hEvalPath, hEvalBinary, hEvalExpr,
    Ogdl.function, Ogdl.getName, Ogdl.evalName, Ogdl.indexOf, Ogdl.getStep, Ogdl.evalStep, Ogdl.getPath, Ogdl.evalPath,
    Ogdl.evalBinary, Ogdl.evalExpr, Ogdl.eval, Ogdl.evalBool]
  all_goals trivial

section
variable {f : Nat} (ih : AllSim E grow f) {h : Heap} {g : Graph} {p : Ptr}
include ih

theorem eval_sim (c : Ctx P h g p) (e : Graph) (he : Fit E e) : Sim [] (fun n => hEval grow E n p (f + 1) e) h (eval E (f + 1) e) g (Both P) := by
  unfold hEval eval
  refine .ite (fun _ => ih.evalPath c e he true) fun _ => .ite (fun _ => ih.evalExpr c e he true) fun _ => ?_
  have hwhole : Sim [] (fun _ => do let q ← hPut grow e; pure (HVal.ptr q, none)) h (pure (.graph e, none)) g (Both P) := by
    refine .have' (put_comes c.solid c.fresh he.whole) fun q h' t hq => ?_
    exact .ret t.solid ⟨rfl, .graph hq⟩
  cases e with
  | nil => exact hwhole
  | node t o =>
    cases o with
    | cons x xs => exact hwhole
    | nil =>
      have hlift : Comes [] (fun _ => HM.lift ((Graph.node t []).thisScalar E)) h ((Graph.node t []).thisScalar E) fun a b h' => a = b ∧ WholeV b := by
        refine .lifted c.solid fun a ha => ⟨rfl, ?_⟩
        have hw := he.whole
        unfold Whole at hw
        cases t <;> (unfold Graph.thisScalar at ha; exact scalar_whole hw.1 ha)
      refine .bind (.lift hlift) fun b a h' t hq => ?_
      obtain ⟨rfl, hw⟩ := hq
      refine .have' (putVal_comes t.solid (c.fresh.turns t) hw) fun x h'' t' hq => ?_
      exact .ret t'.solid ⟨rfl, hq⟩

theorem evalBool_sim (c : Ctx P h g p) (e : Graph) (he : Fit E e) : Sim [] (fun n => hEvalBool grow E n p (f + 1) e) h (evalBool E (f + 1) e) g fun b a _ => b = a := by
  unfold hEvalBool evalBool
  refine .bind (ih.eval c e he) fun b a h' t hq => ?_
  obtain ⟨x, er⟩ := b
  obtain ⟨v, er'⟩ := a
  obtain ⟨rfl, hv⟩ := hq
  cases er with
  | some _ => exact .ret t.solid rfl
  | none =>
    refine .have' (boolf_comes t.solid hv) fun b h'' t' hq => ?_
    obtain ⟨_, rfl⟩ := hq
    exact .ret t'.solid rfl

theorem indexOf_sim (c : Ctx P h g p) (e : Graph) (he : Fit E e) : Sim [] (fun n => hIndexOf grow E n p (f + 1) e) h (indexOf E (f + 1) e) g fun b a _ => b = a := by
  unfold hIndexOf indexOf
  cases e with
  | nil => exact .halt c.solid
  | node t o =>
    cases o with
    | nil => exact .ret c.solid rfl
    | cons x xs =>
      refine .bind (ih.evalExpr c x (he.child (List.mem_cons_self ..)) true) fun b a h' t hq => ?_
      obtain ⟨x, er⟩ := b
      obtain ⟨v, er'⟩ := a
      obtain ⟨rfl, hv⟩ := hq
      cases er with
      | some _ => exact .ret t.solid rfl
      | none =>
        dsimp only
        rw [hint_shows hv]
        cases vint v with
        | none => exact .ret t.solid rfl
        | some i => exact .ret t.solid rfl

theorem args_sim (c : Ctx P h g p) {w : Val} {o : List Graph} (he : Fit E (.node w o)) (b : Bool) :
    Sim [] (fun n => hEvalEach n (fun a => hEvalExpr grow E n p f a b) o) h (evalEach (fun a => evalExpr E f a b) o) g fun vs ws _ => vs = ws :=
  each_sim o h (fun _ hx _ c' => ih.evalExpr c' _ (he.child hx) b) c

theorem function_sim (hE : WholeCalls E) {Q : Nat → Prop} (c : Ctx P h g p) (hQ : Fresh Q h) (e : Graph) (he : Fit E e) (x : HVal) (v : Val) (hv : ShowsV P h v x) :
    Sim [] (fun n => hFunction grow E n p (f + 1) e x) h (function E (f + 1) e v) g (Both Q) := by
  unfold hFunction function
  refine .have' (callable_comes c.solid hv) fun k h' t hq => ?_
  obtain ⟨e1, rfl⟩ := hq
  subst e1
  have hcall : match callableOf E v with
      | .none => True
      | .func _ _ fn => ∀ args r, fn args = some (some r) → WholeV r
      | .ptr method => ∀ s ins fn args r, method s = some (ins, fn) → fn args = some (some r) → WholeV r := by
    cases v with
    | graph g => exact hE (.graph g)
    | other n => exact hE (.other n)
    | _ => trivial
  cases hk : callableOf E v with
  | none => exact .ret c.solid ⟨rfl, .plain nofun⟩
  | func remote ins fn =>
    rw [hk] at hcall
    dsimp only at hcall ⊢
    cases e with
    | nil => exact .halt c.solid
    | node w o =>
      dsimp only [Graph.out_node]
      match o with
      | [] => exact .halt c.solid
      | [_] => exact .halt c.solid
      | _ :: .nil :: _ => exact .halt c.solid
      | _ :: .node t o :: rest =>
        dsimp only
        cases remote with
        | true =>
          simp only [↓reduceIte]
          match rest with
          | [] => exact .lift (result_comes c.solid hQ fun v e hr => callFunc_whole hcall hr)
          | .nil :: _ => exact .halt c.solid
          | .node _ _ :: _ =>
            refine .bind (args_sim ih c (he.child (List.mem_cons_of_mem _ (List.mem_cons_of_mem _ (List.mem_cons_self ..)))) true) fun vs ws h2 t2 hq => ?_
            subst hq
            exact .lift (result_comes t2.solid (hQ.turns t2) fun v e hr => callFunc_whole hcall hr)
        | false =>
          simp only [Bool.false_eq_true, ↓reduceIte]
          refine .bind (args_sim ih c (w := t) (o := o) (he.child (by simp)) true) fun vs ws h2 t2 hq => ?_
          subst hq
          exact .lift (result_comes t2.solid (hQ.turns t2) fun v e hr => callFunc_whole hcall hr)
  | ptr method =>
    rw [hk] at hcall
    dsimp only at hcall ⊢
    cases e with
    | nil => exact .ret c.solid ⟨rfl, .plain nofun⟩
    | node w o =>
      dsimp only [Graph.out_node]
      match o with
      | [] => exact .ret c.solid ⟨rfl, .plain nofun⟩
      | [_] => exact .ret c.solid ⟨rfl, .plain nofun⟩
      | _ :: fnode :: rest =>
        dsimp only
        cases hfn : fnode.isNil with
        | true => exact .ret c.solid ⟨rfl, .plain nofun⟩
        | false =>
          simp only [Bool.false_eq_true, ↓reduceIte]
          cases hm : method (fnode.thisString E) with
          | none => exact .ret c.solid ⟨rfl, .plain nofun⟩
          | some r =>
            obtain ⟨ins, fn⟩ := r
            dsimp only
            match rest with
            | [] => exact .lift (result_comes c.solid hQ fun v e hr => callMethod_whole (fun args r hr => hcall _ _ _ args r hm hr) hr)
            | .nil :: _ => exact .halt c.solid
            | .node _ _ :: _ =>
              refine .bind (args_sim ih c (he.child (List.mem_cons_of_mem _ (List.mem_cons_of_mem _ (List.mem_cons_self ..)))) false) fun vs ws h2 t2 hq => ?_
              subst hq
              exact .lift (result_comes t2.solid (hQ.turns t2) fun v e hr => callMethod_whole (fun args r hr => hcall _ _ _ args r hm hr) hr)

theorem getName_sim (c : Ctx P h g p) (e : Graph) (he : Fit E e) (nm : Bytes) (s : HPathSt) (t : PathSt) (hst : StShows P h s t) :
    Sim [] (fun n => hGetName grow E n p (f + 1) e nm s) h (getName E (f + 1) e nm t) g (StepShows P (BothP P)) := by
  unfold hGetName getName
  refine .bind (.lift (node_comes c.solid hst.ctx nm)) fun q n h' tn hq => ?_
  obtain ⟨e1, hn⟩ := hq
  subst e1
  refine .step (fun _ => len_run c.solid hst.ctx) ?_
  rw [hn.isNone]
  refine .ite (fun _ => ?_) fun _ => .ret c.solid ⟨hn, hst.ctx, rfl, rfl⟩
  refine .bind (.lift (firstThis_comes c.solid hst.ctx)) fun x v h' t1 hq => ?_
  obtain ⟨e1, hv⟩ := hq
  subst e1
  refine .bind (ih.function c c.fresh e he x v hv) fun b a h2 t2 hq => ?_
  obtain ⟨y, er⟩ := b
  obtain ⟨w, er'⟩ := a
  obtain ⟨rfl, hw⟩ := hq
  cases er with
  | some err => exact .ret t2.solid ⟨rfl, by unfold Shows; rfl⟩
  | none =>
    dsimp only at hw ⊢
    rcases hw.cases with ⟨hn, rfl⟩ | ⟨gr, q, rfl, rfl, hg⟩
    · have : Sim (g := g) [] (fun _ => (pure (HPathStep.done (none, some Err.functionNoGraph)) : HM (HPathStep (Ptr × Option Err)))) h2
          (pure (PathStep.done (Graph.nil, some Err.functionNoGraph))) (StepShows P (BothP P)) := .ret t2.solid ⟨rfl, by unfold Shows; rfl⟩
      cases w <;> first | exact this | exact absurd rfl (hn _)
    · exact .ret t2.solid ⟨hg, hst.ctx.turns t2, rfl, rfl⟩

theorem evalName_sim (c : Ctx P h g p) (e : Graph) (he : Fit E e) (nm : Bytes) (s : HPathSt) (t : PathSt) (hst : StShows P h s t) :
    Sim [] (fun n => hEvalName grow E n p (f + 1) e nm s) h (evalName E (f + 1) e nm t) g (StepShows P (Both P)) := by
  unfold hEvalName evalName
  refine .bind (.lift (node_comes c.solid hst.ctx nm)) fun q n h' tn hq => ?_
  obtain ⟨e1, hn⟩ := hq
  subst e1
  refine .step (fun _ => len_run c.solid hst.ctx) ?_
  rw [hn.isNone]
  refine .ite (fun _ => ?_) fun _ => .ret c.solid ⟨hn, hst.ctx, rfl, rfl⟩
  refine .bind (.lift (firstThis_comes c.solid hst.ctx)) fun x v h' t1 hq => ?_
  obtain ⟨e1, hv⟩ := hq
  subst e1
  refine .bind (ih.function c c.fresh e he x v hv) fun b a h2 t2 hq => ?_
  obtain ⟨y, er⟩ := b
  obtain ⟨w, er'⟩ := a
  obtain ⟨rfl, hw⟩ := hq
  cases er with
  | some err => exact .ret t2.solid ⟨rfl, .plain nofun⟩
  | none => exact .ret t2.solid ⟨rfl, hw⟩

omit ih in
theorem prev_isNone {P : Nat → Prop} {h : Heap} {s : HPathSt} {t : PathSt} (hst : StShows P h s t) : (s.prev.isNone || s.elem.isEmpty) = (t.prev.isNil || t.elem.isEmpty) := by
  rw [hst.prev.isNone, hst.elem]

theorem getStep_sim (c : Ctx P h g p) (e : Graph) (he : Fit E e) (k : Graph) (hk : Fit E k) (s : HPathSt) (t : PathSt) (hst : StShows P h s t) :
    Sim [] (fun n => hGetStep grow E n p (f + 1) e k s) h (getStep E (f + 1) e k t) g (StepShows P (BothP P)) := by
  have hnil : ∀ {h : Heap}, Shows P h .nil none := by intro h; unfold Shows; rfl
  unfold hGetStep getStep
  dsimp only
  refine .ite (fun _ => ?_) fun _ => .ite (fun _ => ?_) fun _ => .ite (fun _ => ?_) fun _ => .ite (fun _ => ?_) fun _ => ih.getName c e he _ s t hst
  · refine .bind (ih.indexOf c k hk) fun b a h1 t1 hq => ?_
    subst hq
    refine .ite (fun _ => .ret t1.solid ⟨rfl, hnil⟩) fun _ => ?_
    have hst := hst.turns t1
    refine .bind (.lift (getAt_comes t1.solid hst.ctx _)) fun q x h2 t2 hq => ?_
    obtain ⟨e2, hx⟩ := hq
    subst e2
    refine .have' (bracket_comes t1.solid (c.turns t1).fresh hx) fun r h3 t3 hr => ?_
    exact .ret t3.solid ⟨hr, hst.ctx.turns t3, hst.elem, hst.addRoot⟩
  · rw [prev_isNone hst]
    refine .ite (fun _ => .ret c.solid ⟨rfl, hnil⟩) fun hp => ?_
    have hp : t.prev ≠ .nil := by intro hn; rw [hn] at hp; exact hp rfl
    refine .bind (ih.indexOf c k hk) fun b a h1 t1 hq => ?_
    subst hq
    have hst := hst.turns t1
    refine .bind (.lift (select_comes t1.solid (c.turns t1).fresh hst hp _)) fun q x h2 t2 hq => ?_
    cases q with
    | none =>
      cases x with
      | none => exact .ret t2.solid ⟨rfl, hnil⟩
      | some x => exact hq.elim
    | some q =>
      cases x with
      | none => exact hq.elim
      | some x => exact .ret t2.solid ⟨hq, hst.ctx.turns t2, hst.elem, hst.addRoot⟩
  · refine .step (fun _ => len_run c.solid hst.ctx) ?_
    refine .ite (fun _ => ?_) fun _ => .ret c.solid ⟨rfl, hnil⟩
    refine .bind (.lift (firstThis_comes c.solid hst.ctx)) fun x v h' t1 hq => ?_
    obtain ⟨e1, hv⟩ := hq
    subst e1
    refine .bind (ih.function c c.fresh e he x v hv) fun b a h2 t2 hq => ?_
    obtain ⟨y, er⟩ := b
    obtain ⟨w, er'⟩ := a
    obtain ⟨rfl, hw⟩ := hq
    cases er with
    | some err => exact .ret t2.solid ⟨rfl, hnil⟩
    | none =>
      dsimp only at hw ⊢
      rcases hw.cases with ⟨hn, rfl⟩ | ⟨gr, q, rfl, rfl, hg⟩
      · have : Sim (g := g) [] (fun _ => (pure (HPathStep.done (none, some Err.functionNoGraph)) : HM (HPathStep (Ptr × Option Err)))) h2
            (pure (PathStep.done (Graph.nil, some Err.functionNoGraph))) (StepShows P (BothP P)) := .ret t2.solid ⟨rfl, hnil⟩
        cases w <;> first | exact this | exact absurd rfl (hn _)
      · exact .ret t2.solid ⟨hg, hst.ctx.turns t2, hst.elem, hst.addRoot⟩
  · cases k with
    | nil => exact .halt c.solid
    | node w o =>
      cases o with
      | nil => exact .halt c.solid
      | cons x xs =>
        dsimp only [Graph.out_node]
        refine .bind (ih.eval c x (hk.child (List.mem_cons_self ..))) fun b a h2 t2 hq => ?_
        obtain ⟨y, er⟩ := b
        obtain ⟨w, er'⟩ := a
        obtain ⟨rfl, hw⟩ := hq
        cases er with
        | some err => exact .ret t2.solid ⟨rfl, hnil⟩
        | none =>
          dsimp only at hw ⊢
          refine .have' (string_comes t2.solid hw) fun q h3 t3 hq => ?_
          obtain ⟨e3, rfl⟩ := hq
          subst e3
          refine .ite (fun _ => .ret t2.solid ⟨rfl, hnil⟩) fun _ => ih.getName (c.turns t2) e he _ s t (hst.turns t2)

theorem evalStep_sim (c : Ctx P h g p) (e : Graph) (he : Fit E e) (k : Graph) (hk : Fit E k) (s : HPathSt) (t : PathSt) (hst : StShows P h s t) :
    Sim [] (fun n => hEvalStep grow E n p (f + 1) e k s) h (evalStep E (f + 1) e k t) g (StepShows P (Both P)) := by
  unfold hEvalStep evalStep
  dsimp only
  refine .ite (fun _ => ?_) fun _ => .ite (fun _ => ?_) fun _ => .ite (fun _ => ?_) fun _ => .ite (fun _ => ?_) fun _ => .ite (fun _ => ?_) fun _ =>
    .ite (fun _ => ?_) fun _ => .ite (fun _ => ?_) fun _ => .ite (fun _ => ?_) fun _ => .ite (fun _ => ?_) fun _ => ih.evalName c e he _ s t hst
  · refine .bind (ih.indexOf c k hk) fun b a h1 t1 hq => ?_
    subst hq
    refine .ite (fun _ => .ret t1.solid ⟨rfl, .plain nofun⟩) fun _ => ?_
    have hst := hst.turns t1
    refine .bind (.lift (getAt_comes t1.solid hst.ctx _)) fun q x h2 t2 hq => ?_
    obtain ⟨e2, hx⟩ := hq
    subst e2
    exact .ret t1.solid ⟨hx, hst.ctx, hst.elem, rfl⟩
  · rw [prev_isNone hst]
    refine .ite (fun _ => .ret c.solid ⟨rfl, .plain nofun⟩) fun hp => ?_
    have hp : t.prev ≠ .nil := by intro hn; rw [hn] at hp; exact hp rfl
    refine .bind (ih.indexOf c k hk) fun b a h1 t1 hq => ?_
    subst hq
    have hst := hst.turns t1
    refine .bind (.lift (select_comes t1.solid (c.turns t1).fresh hst hp _)) fun q x h2 t2 hq => ?_
    cases q with
    | none =>
      cases x with
      | none => exact .ret t2.solid ⟨rfl, .plain nofun⟩
      | some x => exact hq.elim
    | some q =>
      cases x with
      | none => exact hq.elim
      | some x => exact .ret t2.solid ⟨hq, hst.ctx.turns t2, hst.elem, rfl⟩
  · refine .step (fun _ => len_run c.solid hst.ctx) ?_
    exact .ret c.solid ⟨rfl, .plain nofun⟩
  · exact .ret c.solid ⟨rfl, .graph hst.ctx⟩
  · refine .have' (thisString_comes c.solid hst.ctx) fun q h' t1 hq => ?_
    obtain ⟨e1, rfl⟩ := hq
    subst e1
    exact .ret c.solid ⟨rfl, .plain nofun⟩
  · refine .bind (.lift (stringDef_comes c.solid hst.ctx)) fun q x h' t1 hq => ?_
    obtain ⟨e1, rfl⟩ := hq
    subst e1
    exact .ret c.solid ⟨rfl, .plain nofun⟩
  · refine .have' (tree_comes c.solid hst.ctx) fun q h' t1 hq => ?_
    obtain ⟨e1, rfl⟩ := hq
    subst e1
    refine .bind (.lift (.lifted (Q := fun a b _ => a = b) c.solid fun a _ => rfl)) fun q x h' t2 hq => ?_
    subst hq
    exact .ret t2.solid ⟨rfl, .plain nofun⟩
  · refine .step (fun _ => len_run c.solid hst.ctx) ?_
    refine .ite (fun _ => ?_) fun _ => .ret c.solid ⟨rfl, .plain nofun⟩
    refine .bind (.lift (firstThis_comes c.solid hst.ctx)) fun x v h' t1 hq => ?_
    obtain ⟨e1, hv⟩ := hq
    subst e1
    refine .bind (ih.function c c.fresh e he x v hv) fun b a h2 t2 hq => ?_
    obtain ⟨y, er⟩ := b
    obtain ⟨w, er'⟩ := a
    obtain ⟨rfl, hw⟩ := hq
    cases er with
    | some err => exact .ret t2.solid ⟨rfl, .plain nofun⟩
    | none =>
      dsimp only at hw ⊢
      rcases hw.cases with ⟨hn, rfl⟩ | ⟨gr, q, rfl, rfl, hg⟩
      · have : Sim (g := g) [] (fun _ => (pure (HPathStep.done (HVal.val w, none)) : HM (HPathStep (HVal × Option Err)))) h2
            (pure (PathStep.done (w, none))) (StepShows P (Both P)) := .ret t2.solid ⟨rfl, hw⟩
        cases w <;> first | exact this | exact absurd rfl (hn _)
      · exact .ret t2.solid ⟨hg, hst.ctx.turns t2, hst.elem, rfl⟩
  · cases k with
    | nil => exact .halt c.solid
    | node w o =>
      cases o with
      | nil => exact .halt c.solid
      | cons x xs =>
        dsimp only [Graph.out_node]
        refine .bind (ih.eval c x (hk.child (List.mem_cons_self ..))) fun b a h2 t2 hq => ?_
        obtain ⟨y, er⟩ := b
        obtain ⟨w, er'⟩ := a
        obtain ⟨rfl, hw⟩ := hq
        cases er with
        | some err => exact .ret t2.solid ⟨rfl, .plain nofun⟩
        | none =>
          dsimp only at hw ⊢
          refine .have' (string_comes t2.solid hw) fun q h3 t3 hq => ?_
          obtain ⟨e3, rfl⟩ := hq
          subst e3
          refine .ite (fun _ => .ret t2.solid ⟨rfl, .plain nofun⟩) fun _ => ih.evalName (c.turns t2) e he _ s t (hst.turns t2)

omit ih in
theorem ctx_cond (c : Ctx P h g p) (e : Graph) : (e.len = 0 ∨ g.isNil) ↔ (e.len = 0 ∨ p = none) := by
  rw [← c.shows.isNone, Option.isNone_iff_eq_none]

omit ih in
theorem start_shows (c : Ctx P h g p) : StShows P h { ctx := p } { ctx := g } := ⟨c.shows, by unfold Shows; rfl, rfl, rfl⟩

theorem getPath_sim (c : Ctx P h g p) (e : Graph) (he : Fit E e) : Sim [] (fun n => hGetPath grow E n p (f + 1) e) h (getPath E (f + 1) e) g (BothP P) := by
  unfold hGetPath getPath
  show Sim [] _ h (if e.len = 0 ∨ g.isNil then _ else _) g _
  simp only [ctx_cond c]
  refine .ite (fun _ => .ret c.solid ⟨rfl, by unfold Shows; rfl⟩) fun _ => ?_
  cases e with
  | nil => exact .halt c.solid
  | node w o =>
    dsimp only [Graph.out_node]
    refine .bind (walk_sim o h _ _ (fun k hk h s t c' hst => ih.getStep c' _ he k (he.child hk) s t hst) c (start_shows c)) fun b a h1 t1 hq => ?_
    cases b with
    | next s =>
      cases a with
      | next t => exact .ret t1.solid ⟨rfl, hq.ctx⟩
      | done r => exact hq.elim
    | done r =>
      cases a with
      | next t => exact hq.elim
      | done r' => exact .ret t1.solid hq

theorem evalPath_sim (c : Ctx P h g p) (e : Graph) (he : Fit E e) (b : Bool) :
    Sim [] (fun n => hEvalPath grow E n p (f + 1) e b) h (evalPath E (f + 1) e b) g (Both P) := by
  unfold hEvalPath evalPath
  show Sim [] _ h (if e.len = 0 ∨ g.isNil then _ else _) g _
  simp only [ctx_cond c]
  refine .ite (fun _ => .ret c.solid ⟨rfl, .plain nofun⟩) fun _ => ?_
  cases e with
  | nil => exact .halt c.solid
  | node w o =>
    dsimp only [Graph.out_node]
    refine .bind (walk_sim o h _ _ (fun k hk h s t c' hst => ih.evalStep c' _ he k (he.child hk) s t hst) c (start_shows c)) fun b' a h1 t1 hq => ?_
    have fin : ∀ {h1 : Heap} {q : Ptr} {g' : Graph}, Solid h1 → Shows P h1 g' q → Sim [] (fun _ => if b = true then do let x ← hSimplify q; pure (x, none) else pure (HVal.ptr q, none)) h1
        (pure (if b = true then simplify g' else .graph g', none)) g (Both P) := by
      intro h1 q g' hs hq
      cases b with
      | true =>
        simp only [↓reduceIte]
        refine .have' (simplify_comes hs hq) fun x h2 t2 hx => ?_
        obtain ⟨e2, hx⟩ := hx
        subst e2
        exact .ret hs ⟨rfl, hx⟩
      | false => exact .ret hs ⟨rfl, .graph hq⟩
    cases b' with
    | next s =>
      cases a with
      | next t =>
        dsimp only
        have hq : StShows P h1 s t := hq
        rw [hq.addRoot]
        cases t.addRoot with
        | true =>
          simp only [↓reduceIte]
          refine .have' (bracket_comes t1.solid (c.turns t1).fresh hq.ctx) fun r h3 t3 hr => ?_
          exact fin t3.solid hr
        | false =>
          simp only [Bool.false_eq_true, ↓reduceIte]
          exact fin t1.solid hq.ctx
      | done r => exact hq.elim
    | done r =>
      cases a with
      | next t => exact hq.elim
      | done r' => exact .ret t1.solid hq

theorem evalBinary_sim (c : Ctx P h g p) (e : Graph) (he : Fit E e) :
    Sim [] (fun n => hEvalBinary grow E n p (f + 1) e) h (evalBinary E (f + 1) e) g fun x v _ => NoGraph v ∧ x = .val v := by
  unfold hEvalBinary evalBinary
  cases e with
  | nil => exact .halt c.solid
  | node w o =>
    match o, he with
    | [], _ => exact .halt c.solid
    | [_], _ => exact .halt c.solid
    | n1 :: n2 :: rest, he =>
      dsimp only [Graph.out_node]
      refine .bind (ih.evalExpr c n2 (he.child (by simp)) true) fun b a h1 t1 hq => ?_
      obtain ⟨x2, er⟩ := b
      obtain ⟨v2, er'⟩ := a
      obtain ⟨rfl, hv2⟩ := hq
      cases er with
      | some err => exact .ret t1.solid ⟨nofun, rfl⟩
      | none =>
        dsimp only at hv2 ⊢
        have hna : ∀ op, binOp ((Graph.node w (n1 :: n2 :: rest)).thisString E) ≠ some (.assign op) := by
          intro op
          have := he.keep.1
          exact this op
        generalize binOp ((Graph.node w (n1 :: n2 :: rest)).thisString E) = bo at hna ⊢
        have key : ∀ bo : Option BinOp, Sim [] (fun n => do
            let (v1, err) ← hEvalExpr grow E n p f n1 true
            match err with
            | some err => pure (HVal.val (.other (E.errTag err)))
            | none =>
              match bo with
              | some (.arith o) => do
                let r ← hCalc E n v1 x2 o
                pure (HVal.val r)
              | some (.cmp o) => do
                let b ← hCompare E n v1 x2 o
                pure (HVal.val (.bool b))
              | some .and => do
                let b ← hLogic v1 x2 true
                pure (HVal.val (.bool b))
              | some .or => do
                let b ← hLogic v1 x2 false
                pure (HVal.val (.bool b))
              | _ => pure (HVal.val .nil)) h1 (do
            let (v1, err) ← evalExpr E f n1 true
            match err with
            | some err => pure (.other (E.errTag err))
            | none =>
              match bo with
              | some (.arith o) => .lift (calc' E v1 v2 o)
              | some (.cmp o) => do
                let b ← .lift (compare' E v1 v2 o)
                pure (.bool b)
              | some .and => pure (.bool (logic v1 v2 true))
              | some .or => pure (.bool (logic v1 v2 false))
              | _ => pure .nil) g fun x v _ => NoGraph v ∧ x = .val v := by
          intro bo
          refine .bind (ih.evalExpr (c.turns t1) n1 (he.child (by simp)) true) fun b a h2 t2 hq => ?_
          obtain ⟨x1, er⟩ := b
          obtain ⟨v1, er'⟩ := a
          obtain ⟨rfl, hv1⟩ := hq
          cases er with
          | some err => exact .ret t2.solid ⟨nofun, rfl⟩
          | none =>
            dsimp only at hv1 ⊢
            have hv2 := hv2.turns t2
            match bo with
            | none => exact .ret t2.solid ⟨nofun, rfl⟩
            | some (.assign _) => exact .ret t2.solid ⟨nofun, rfl⟩
            | some (.arith o) =>
              have := calc_comes (E := E) (F := []) t2.solid hv1 hv2 o
              have hg : ∀ r, calc' E v1 v2 o = .ok r → NoGraph r := fun r hr => calc_plain hr
              show Sim [] _ h2 (EvalM.lift (calc' E v1 v2 o)) g _
              refine .lift ?_
              cases hr : calc' E v1 v2 o with
              | oof => trivial
              | panic =>
                rw [hr] at this
                obtain ⟨N, h3, hN, t3⟩ := this
                exact ⟨N, h3, fun n hn => panic_bind' (hN n hn), t3⟩
              | ok r =>
                rw [hr] at this
                obtain ⟨N, r', h3, hN, t3, e3, e4⟩ := this
                subst e4
                exact ⟨N, _, h3, fun n hn => by rw [ok_bind' (hN n hn)]; rfl, t3, hg _ hr, rfl⟩
            | some (.cmp o) =>
              refine .bind (.lift (compare_comes t2.solid hv1 hv2 o)) fun b a h3 t3 hq => ?_
              obtain ⟨_, rfl⟩ := hq
              exact .ret t3.solid ⟨nofun, rfl⟩
            | some .and =>
              refine .have' (logic_comes t2.solid hv1 hv2 true) fun b h3 t3 hq => ?_
              obtain ⟨_, rfl⟩ := hq
              exact .ret t3.solid ⟨nofun, rfl⟩
            | some .or =>
              refine .have' (logic_comes t2.solid hv1 hv2 false) fun b h3 t3 hq => ?_
              obtain ⟨_, rfl⟩ := hq
              exact .ret t3.solid ⟨nofun, rfl⟩
        match bo with
        | none => exact key none
        | some (.assign op) => exact absurd rfl (hna op)
        | some (.arith o) => exact key (some (.arith o))
        | some (.cmp o) => exact key (some (.cmp o))
        | some .and => exact key (some .and)
        | some .or => exact key (some .or)

omit ih in
theorem headD_fit {w : Val} {o : List Graph} (he : Fit E (.node w o)) : Fit E (o.headD .nil) := by
  cases o with
  | nil => exact ⟨by simp [Whole], by simp [AllThis]⟩
  | cons x xs => exact he.child (List.mem_cons_self ..)

theorem evalExpr_sim (c : Ctx P h g p) (e : Graph) (he : Fit E e) (b : Bool) :
    Sim [] (fun n => hEvalExpr grow E n p (f + 1) e b) h (evalExpr E (f + 1) e b) g (Both P) := by
  cases e with
  | nil =>
    unfold hEvalExpr evalExpr
    exact .halt c.solid
  | node w o =>
    cases w with
    | nil =>
      unfold hEvalExpr evalExpr
      exact .ret c.solid ⟨rfl, .plain nofun⟩
    | _ =>
      unfold hEvalExpr evalExpr
      dsimp only
      refine .ite (fun _ => .ret c.solid ⟨rfl, .plain nofun⟩) fun _ => .ite (fun _ => ?num) fun _ => .ite (fun _ => ?not) fun _ =>
        .ite (fun _ => ih.evalExpr c _ (headD_fit he) b) fun _ => .ite (fun _ => ih.evalPath c _ he b) fun _ => .ite (fun _ => ?group) fun _ =>
        .ite (fun _ => .ret c.solid ⟨rfl, .plain nofun⟩) fun _ => .ite (fun _ => ?bin) fun _ => .ite (fun _ => .ret c.solid ⟨rfl, .plain nofun⟩) fun _ =>
        .ite (fun _ => .ite (fun _ => .ret c.solid ⟨rfl, .plain nofun⟩) fun _ => .ite (fun _ => .ret c.solid ⟨rfl, .plain nofun⟩) fun _ => .ret c.solid ⟨rfl, .plain nofun⟩)
          fun _ => ?self
      case num =>
        refine .bind (.lift (.lifted (Q := fun a b _ => a = b ∧ NoGraph a) c.solid fun a ha => ⟨rfl, number_whole ha⟩)) fun q x h' t2 hq => ?_
        obtain ⟨rfl, hg⟩ := hq
        have hw : WholeV q := by cases q <;> first | trivial | exact absurd rfl (hg _)
        refine .have' (putVal_comes t2.solid (c.turns t2).fresh hw) fun x h'' t' hq => ?_
        exact .ret t'.solid ⟨rfl, hq⟩
      case not =>
        cases o with
        | nil => exact .halt c.solid
        | cons x xs =>
          refine .bind (ih.evalBool c x (he.child (List.mem_cons_self ..))) fun q x h' t2 hq => ?_
          subst hq
          exact .ret t2.solid ⟨rfl, .plain nofun⟩
      case group =>
        obtain ⟨h1, hr1, t1, own1, hlen⟩ := new_own (P := P) c.solid (.val (.str tyGroup))
        have c1 : Ctx (Off P h.nodes.length) h1 g p := ⟨t1.solid, fun b hb => ⟨c.fresh b (by omega), by omega⟩, c.shows.off.turns t1⟩
        refine .go (fun _ => hr1) t1 (F' := [h.nodes.length]) (fun a ha => Or.inr (by simp at ha; omega)) ?_
        refine .bind (group_sim (t := .str tyGroup) o h1 [] (fun k hk h' c' => ih.evalExpr c' k (he.child hk) b) c1 own1) fun q r h2 t2 hq => ?_
        obtain ⟨o', rfl, own2⟩ := hq
        exact .ret t2.solid ⟨rfl, .graph (own2.shows (c.fresh _ (Nat.le_refl _)) (.plain nofun))⟩
      case bin =>
        refine .bind (ih.evalBinary c _ he) fun q r h2 t2 hq => ?_
        exact .ret t2.solid ⟨rfl, by rw [hq.2]; exact .plain hq.1⟩
      case self =>
        refine .have' (put_comes c.solid c.fresh he.whole) fun q h' t hq => ?_
        exact .ret t.solid ⟨rfl, .graph hq⟩

end

theorem allSim (hE : WholeCalls E) : ∀ f, AllSim E grow f
  | 0 => sim_zero
  | f + 1 =>
    have ih := allSim hE f
    { eval := eval_sim ih
      evalBool := evalBool_sim ih
      indexOf := indexOf_sim ih
      function := function_sim ih hE
      getName := getName_sim ih
      getStep := getStep_sim ih
      getPath := getPath_sim ih
      evalName := evalName_sim ih
      evalStep := evalStep_sim ih
      evalPath := evalPath_sim ih
      evalBinary := evalBinary_sim ih
      evalExpr := evalExpr_sim ih }

end Ogdl
