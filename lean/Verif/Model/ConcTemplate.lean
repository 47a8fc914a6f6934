import Verif.Model.Conc
import Verif.Model.HeapTemplate

/-!
# template.go: templates processed by several goroutines

`Process` in memory that is shared with other goroutines.  Other goroutines may run between
any two of the steps.  Simplification: a call of a method on a graph (`Eval`, `Delete`,
`Add`, `Len`, `ThisString`), the text of a value, and a load or store of the slice of a node
are one step each; memory is sequentially consistent.  The program goes on when a goroutine
panics; that it ends then only makes the schedules shorter.
-/

namespace Ogdl
open HM hiding lift

/-- A goroutine that may panic. A goroutine of a user that calls template.go:70-76. -/
abbrev Job (α : Type) := Thread Heap (Res α)

namespace Job
variable {α β : Type}

/-- It returns. Go's sequencing of statements. -/
def ret (a : α) : Job α := .done (.ok a)

/-- `x; y`, unless `x` panics. Go's sequencing of statements. -/
def andThen (x : Job α) (f : α → Job β) : Job β :=
  Thread.bind x fun r =>
    match r with
    | .ok a => f a
    | .panic => .done .panic
    | .oof => .done .oof

/-- One step. One evaluation of template.go:79-169. -/
def atom (m : HM α) : Job α := .act m.run

/-- A computation that does not look at memory. Go's sequencing of statements. -/
def lift (r : Res α) : Job α := .done r

end Job

open Job

section
variable (grow : Nat → Nat → Nat) (E : Ext) (fuel : Nat) (c : Ptr)

/-- template.go:146-155: the loop over `k` elements of the slice from index `i` on. -/
def tForLoop (s : Slice) (it : Ptr) (body : Job (Bool × Bytes)) : Nat → Nat → Job Bytes
  | 0, _ => ret []
  | k + 1, i =>
    (atom (index s i)).andThen fun ee =>
    (atom (putOut it {})).andThen fun _ =>
    (atom (hAdd grow it (.ptr ee))).andThen fun _ =>
    body.andThen fun r =>
    if r.1 then ret r.2
    else (tForLoop s it body k (i + 1)).andThen fun o' => ret (r.2 ++ o')

/-- template.go:128-155: the loop variable and the loop over the subnodes of `gi`. -/
def tForOver (sub : Graph → Job (Bool × Bytes)) (n : Graph) (gi : Ptr) : Job Bytes :=
  (lift (n.getAt 0)).andThen fun args =>
  (lift (args.getAt 0)).andThen fun a =>
  (lift (a.getAt 0)).andThen fun a =>
  (lift (a.string E)).andThen fun name =>
  (atom (hDelete E grow c (.val (.str name)))).andThen fun _ =>
  (atom (hAdd grow c (.val (.str name)))).andThen fun it =>
  (lift (n.getAt 1)).andThen fun body =>
  (atom (load gi)).andThen fun l =>
  tForLoop grow l.out it (sub body) l.out.len 0

/-- template.go:111-155: one `for` node. -/
def tForNode (sub : Graph → Job (Bool × Bytes)) (n : Graph) : Job Bytes :=
  (lift (n.getAt 0)).andThen fun args =>
  (lift (args.getAt 1)).andThen fun src =>
  (atom (hEval grow E fuel c (evalFuel src) src)).andThen fun v =>
  match v.1 with
  | .ptr gi =>
    (atom (hLen gi)).andThen fun k =>
    if gi.isNone || k == 0 then ret []
    else
      (atom (hThisString E fuel gi none)).andThen fun t =>
      if t = b!"[" then
        (atom (load gi)).andThen fun l =>
        (atom (index l.out 0)).andThen fun gi =>
        tForOver grow E c sub n gi
      else tForOver grow E c sub n gi
  | _ => ret []

/-- template.go:79-169 `process`: the loop over the nodes; `yes` is the variable of that
name and `sub` is `process` of a subtemplate. -/
def tProcNodes (sub : Graph → Job (Bool × Bytes)) : List Graph → Bool → Job (Bool × Bytes)
  | [], _ => ret (false, [])
  | n :: rest, yes =>
    let s := n.thisString E
    /- the rest of the loop, after `o` -/
    let more (o : Bytes) (yes : Bool) : Job (Bool × Bytes) :=
      (tProcNodes sub rest yes).andThen fun r => ret (r.1, o ++ r.2)
    /- a subtemplate, then the rest -/
    let into (i : Int) (yes : Bool) : Job (Bool × Bytes) :=
      (lift (n.getAt i)).andThen fun t => (sub t).andThen fun r => more r.2 yes
    let cond : Job Bool :=
      (lift (n.getAt 0)).andThen fun a =>
      (lift (a.getAt 0)).andThen fun x =>
      atom (hEvalBool grow E fuel c (evalFuel x + 1) x)
    if s = tyPath then
      (atom (hEval grow E fuel c (evalFuel n) n)).andThen fun x =>
      (atom (hValue fuel x.1)).andThen fun v =>
      (lift (vtext E v)).andThen fun t =>
      more t yes
    else if s = tyExpression then
      (atom (hEval grow E fuel c (evalFuel n) n)).andThen fun _ => more [] yes
    else if s = tyIf then
      cond.andThen fun b => if b then into 1 true else more [] false
    else if s = tyElseIf then
      if yes then more [] true
      else cond.andThen fun b => if b then into 1 true else more [] false
    else if s = tyElse then
      if yes then more [] true
      else into 0 false
    else if s = tyFor then
      (tForNode grow E fuel c sub n).andThen fun o => more o yes
    else if s = tyBreak then ret (true, [])
    else more s yes

/-- template.go:79-169 `process` of a template (nil and no subnodes: nothing to do). -/
def tProc : Nat → Graph → Job (Bool × Bytes)
  | 0, _ => lift .oof
  | _ + 1, .nil => ret (false, [])
  | f + 1, .node _ o => tProcNodes grow E fuel c (tProc f) o false

/-- template.go:70-77 `Process`: the text written. -/
def tProcess (t : Graph) : Job Bytes :=
  (tProc grow E fuel c (t.height + 1) t).andThen fun r => ret r.2

/-- Calls of `Process` in the same context one after the other. template.go:70-76. -/
def tRenders : List Graph → Job (List Bytes)
  | [] => ret []
  | t :: ts =>
    (tProcess grow E fuel c t).andThen fun o =>
    (tRenders ts).andThen fun os => ret (o :: os)

end
end Ogdl
