import Verif.Model.ConcTemplate
import Verif.Lemmas.Conc
import Verif.Spec.HeapTemplate

/-!
# A goroutine that runs alone processes templates as `Process` does
-/

namespace Ogdl
open Spec

variable {α β : Type}

/-- Alone, the goroutine does what `m` does. -/
def AloneIs (x : Job α) (m : HM α) : Prop := ∀ h, x.alone h = m.run h

namespace AloneIs

theorem ret (a : α) : AloneIs (Job.ret a) (pure a) := fun _ => rfl

theorem atom (m : HM α) : AloneIs (Job.atom m) m := fun h => Thread.alone_act m.run h

theorem lift (r : Res α) : AloneIs (Job.lift r) (HM.lift r) := fun h => by cases r <;> rfl

theorem bind {x : Job α} {m : HM α} {f : α → Job β} {k : α → HM β} (h1 : AloneIs x m) (h2 : ∀ a, AloneIs (f a) (k a)) : AloneIs (x.andThen f) (m >>= k) := fun h => by
  unfold Job.andThen
  rw [Thread.alone_bind, h1 h]
  show _ = (match m.run h with | (.ok a, h') => (k a).run h' | (.panic, h') => (.panic, h') | (.oof, h') => (.oof, h'))
  rcases m.run h with ⟨_ | _ | _, h'⟩
  · exact h2 _ _
  · rfl
  · rfl

theorem ite {p : Prop} [Decidable p] {x y : Job α} {m k : HM α} (h1 : AloneIs x m) (h2 : AloneIs y k) : AloneIs (if p then x else y) (if p then m else k) := by
  split
  · exact h1
  · exact h2

end AloneIs

variable {grow : Nat → Nat → Nat} {E : Ext} {fuel : Nat} {c : Ptr}

theorem forLoop_alone {s : Slice} {it : Ptr} {body : Job (Bool × Bytes)} {mb : HM (Bool × Bytes)} (hb : AloneIs body mb) : ∀ k i, AloneIs (tForLoop grow s it body k i) (hForLoop grow s it mb k i)
  | 0, _ => .ret _
  | k + 1, i => by
    unfold tForLoop hForLoop
    refine .bind (.atom _) fun ee => .bind (.atom _) fun _ => .bind (.atom _) fun _ => .bind hb fun r => ?_
    obtain ⟨brk, o⟩ := r
    exact .ite (.ret _) (.bind (forLoop_alone hb k (i + 1)) fun o' => .ret _)

theorem forOver_alone {sub : Graph → Job (Bool × Bytes)} {ms : Graph → HM (Bool × Bytes)} (hb : ∀ t, AloneIs (sub t) (ms t)) (n : Graph) (gi : Ptr) :
    AloneIs (tForOver grow E c sub n gi) (hForOver grow E c ms n gi) := by
  unfold tForOver hForOver
  exact .bind (.lift _) fun _ => .bind (.lift _) fun _ => .bind (.lift _) fun _ => .bind (.lift _) fun _ => .bind (.atom _) fun _ => .bind (.atom _) fun _ =>
    .bind (.lift _) fun _ => .bind (.atom _) fun _ => forLoop_alone (hb _) _ _

theorem forNode_alone {sub : Graph → Job (Bool × Bytes)} {ms : Graph → HM (Bool × Bytes)} (hb : ∀ t, AloneIs (sub t) (ms t)) (n : Graph) :
    AloneIs (tForNode grow E fuel c sub n) (hForNode grow E fuel c ms n) := by
  unfold tForNode hForNode
  refine .bind (.lift _) fun _ => .bind (.lift _) fun _ => .bind (.atom _) fun v => ?_
  obtain ⟨v, b⟩ := v
  cases v with
  | val v => exact .ret _
  | ptr gi =>
    exact .bind (.atom _) fun k => .ite (.ret _) (.bind (.atom _) fun t => .ite (.bind (.atom _) fun l => .bind (.atom _) fun gi => forOver_alone hb n gi) (forOver_alone hb n gi))

theorem procNodes_alone {sub : Graph → Job (Bool × Bytes)} {ms : Graph → HM (Bool × Bytes)} (hb : ∀ t, AloneIs (sub t) (ms t)) : ∀ (ns : List Graph) (yes : Bool),
    AloneIs (tProcNodes grow E fuel c sub ns yes) (hProcNodes grow E fuel c ms ns yes)
  | [], _ => by unfold tProcNodes hProcNodes; exact .ret _
  | n :: rest, yes => by
    unfold tProcNodes hProcNodes
    have more : ∀ (o : Bytes) (y : Bool), AloneIs ((tProcNodes grow E fuel c sub rest y).andThen fun r => Job.ret (r.1, o ++ r.2))
        (do let r ← hProcNodes grow E fuel c ms rest y; pure (r.1, o ++ r.2)) := fun o y => .bind (procNodes_alone hb rest y) fun r => .ret _
    have into : ∀ (i : Int) (y : Bool), AloneIs ((Job.lift (n.getAt i)).andThen fun t => (sub t).andThen fun r => (tProcNodes grow E fuel c sub rest y).andThen fun r' => Job.ret (r'.1, r.2 ++ r'.2))
        (do let t ← HM.lift (n.getAt i); let r ← ms t; let r' ← hProcNodes grow E fuel c ms rest y; pure (r'.1, r.2 ++ r'.2)) :=
      fun i y => .bind (.lift _) fun t => .bind (hb t) fun r => more r.2 y
    have cond : AloneIs ((Job.lift (n.getAt 0)).andThen fun a => (Job.lift (a.getAt 0)).andThen fun x => Job.atom (hEvalBool grow E fuel c (evalFuel x + 1) x))
        (do let a ← HM.lift (n.getAt 0); let x ← HM.lift (a.getAt 0); hEvalBool grow E fuel c (evalFuel x + 1) x) := .bind (.lift _) fun a => .bind (.lift _) fun x => .atom _
    refine .ite (.bind (.atom _) fun x => ?_) (.ite (.bind (.atom _) fun _ => more _ _) (.ite (.bind cond fun b => .ite (into 1 true) (more _ _))
      (.ite (.ite (more _ _) (.bind cond fun b => .ite (into 1 true) (more _ _))) (.ite (.ite (more _ _) (into 0 false)) (.ite (.bind (forNode_alone hb n) fun o => more o yes)
        (.ite (.ret _) (more _ _)))))))
    obtain ⟨x, b⟩ := x
    exact .bind (.atom _) fun v => .bind (.lift _) fun t => more t yes

theorem proc_alone : ∀ (f : Nat) (t : Graph), AloneIs (tProc grow E fuel c f t) (hProc grow E fuel c f t)
  | 0, _ => fun _ => rfl
  | _ + 1, .nil => .ret _
  | f + 1, .node _ o => by
    unfold tProc hProc
    exact procNodes_alone (fun t => proc_alone f t) o false

theorem process_alone (t : Graph) : AloneIs (tProcess grow E fuel c t) (hProcess grow E fuel c t) :=
  .bind (proc_alone _ t) fun _ => .ret _

theorem renders_alone : ∀ (ts : List Graph), AloneIs (tRenders grow E fuel c ts) (rendersMem E grow fuel c ts)
  | [] => .ret _
  | t :: ts => .bind (process_alone t) fun _ => .bind (renders_alone ts) fun _ => .ret _

end Ogdl
