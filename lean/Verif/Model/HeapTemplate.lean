import Verif.Model.HeapEval
import Verif.Model.Template

/-!
# template.go: processing a template with pointers

`Process` in explicit memory: the context is the pointer `c`, and the values of paths, the
list a loop walks through and the loop variable point into it.  The template is a tree, since
processing does not change it.

Simplification: the text of a value is made from the tree that is read from memory; for a
node that is below itself this takes more fuel than any number.
-/

namespace Ogdl
open HM

section
variable (grow : Nat → Nat → Nat) (E : Ext) (fuel : Nat) (c : Ptr)

/-- template.go:146-155: the loop over `k` elements of the slice from index `i` on.  The slice is
that of the list when the loop begins; its elements are read one by one. -/
def hForLoop (s : Slice) (it : Ptr) (body : HM (Bool × Bytes)) : Nat → Nat → HM Bytes
  | 0, _ => pure []
  | k + 1, i => do
    let ee ← index s i
    putOut it {}
    let _ ← hAdd grow it (.ptr ee)
    let (brk, o) ← body
    if brk then pure o
    else do
      let o' ← hForLoop s it body k (i + 1)
      pure (o ++ o')

/-- template.go:128-155: the loop variable and the loop over the subnodes of `gi`. -/
def hForOver (sub : Graph → HM (Bool × Bytes)) (n : Graph) (gi : Ptr) : HM Bytes := do
  let args ← lift (n.getAt 0)
  let a ← lift (args.getAt 0)
  let a ← lift (a.getAt 0)
  let name ← lift (a.string E)
  hDelete E grow c (.val (.str name))
  let it ← hAdd grow c (.val (.str name))
  let body ← lift (n.getAt 1)
  let l ← load gi
  hForLoop grow l.out it (sub body) l.out.len 0

/-- template.go:111-155: one `for` node. -/
def hForNode (sub : Graph → HM (Bool × Bytes)) (n : Graph) : HM Bytes := do
  let args ← lift (n.getAt 0)
  let src ← lift (args.getAt 1)
  let (v, _) ← hEval grow E fuel c (evalFuel src) src
  match v with
  | .ptr gi => do
    let k ← hLen gi
    if gi.isNone || k == 0 then pure []
    else do
      let t ← hThisString E fuel gi none
      if t = b!"[" then do
        let l ← load gi
        let gi ← index l.out 0
        hForOver grow E c sub n gi
      else hForOver grow E c sub n gi
  | _ => pure []

/-- template.go:79-169 `process`: the loop over the nodes; `yes` is the variable of that
name and `sub` is `process` of a subtemplate.  The result: whether it met a `$break`, and what
it wrote. -/
def hProcNodes (sub : Graph → HM (Bool × Bytes)) : List Graph → Bool → HM (Bool × Bytes)
  | [], _ => pure (false, [])
  | n :: rest, yes =>
    let s := n.thisString E
    /- the rest of the loop, after `o` -/
    let andThen (o : Bytes) (yes : Bool) : HM (Bool × Bytes) := do
      let r ← hProcNodes sub rest yes
      pure (r.1, o ++ r.2)
    let cond : HM Bool := do
      let a ← lift (n.getAt 0)
      let x ← lift (a.getAt 0)
      hEvalBool grow E fuel c (evalFuel x + 1) x
    if s = tyPath then do
      let (x, _) ← hEval grow E fuel c (evalFuel n) n
      let v ← hValue fuel x
      let t ← lift (vtext E v)
      andThen t yes
    else if s = tyExpression then do
      let _ ← hEval grow E fuel c (evalFuel n) n
      andThen [] yes
    else if s = tyIf then do
      let b ← cond
      if b then do
        let t ← lift (n.getAt 1)
        let r ← sub t
        andThen r.2 true
      else andThen [] false
    else if s = tyElseIf then
      if yes then andThen [] true
      else do
        let b ← cond
        if b then do
          let t ← lift (n.getAt 1)
          let r ← sub t
          andThen r.2 true
        else andThen [] false
    else if s = tyElse then
      if yes then andThen [] true
      else do
        let t ← lift (n.getAt 0)
        let r ← sub t
        andThen r.2 false
    else if s = tyFor then do
      let o ← hForNode grow E fuel c sub n
      andThen o yes
    else if s = tyBreak then pure (true, [])
    else andThen s yes

/-- template.go:79-169 `process` of a template (nil and no subnodes: nothing to do). -/
def hProc : Nat → Graph → HM (Bool × Bytes)
  | 0, _ => oof
  | _ + 1, .nil => pure (false, [])
  | f + 1, .node _ o => hProcNodes grow E fuel c (hProc f) o false

/-- template.go:70-77 `Process`: the text written. -/
def hProcess (t : Graph) : HM Bytes := do
  let r ← hProc grow E fuel c (t.height + 1) t
  pure r.2

end
end Ogdl
