import Verif.Model.Ast
import Verif.Model.Eval

/-!
# template.go: building and processing templates

The text of a template is read by `template` (Verif/Model/Flow.lean).  Graphs are
values here: the nodes of the template, of the list a loop walks through and of the
context are not shared.  For templates without assignments or with assignments of numbers,
texts and operations to names, and with no loops over `_this` or over a group, that this is
the same as in the code is C104.  It is not the same when a
loop body assigns to something below an element of the list it walks through
(`C104_sharing_refuted`), when a loop walks through the context itself (`C104_refuted`), or
when the context is made to hold nodes of the template.
-/

namespace Ogdl

section
variable (E : Ext)

/-- template.go:172-205 `simplify`: one node.  `GetAt(0)` of a path node without
subnodes is nil and has the empty text. -/
def simplifyNode (n : Graph) : Graph :=
  if n.thisString E = tyPath then
    let s := (n.out.headD .nil).thisString E
    if s = b!"if" then (n.setThis (.str tyIf)).deleteAt 0
    else if s = b!"end" then (n.setThis (.str tyEnd)).deleteAt 0
    else if s = b!"else" then (n.setThis (.str tyElse)).deleteAt 0
    else if s = b!"elseif" then (n.setThis (.str tyElseIf)).deleteAt 0
    else if s = b!"for" then (n.setThis (.str tyFor)).deleteAt 0
    else if s = b!"break" then (n.setThis (.str tyBreak)).deleteAt 0
    else n
  else n

/-- template.go:212-243 `flow`, from the node at `start` on.  The result: the nodes added
to `h`, the nodes added to `prev` (an `else` and what follows it at the same level),
and the nodes after the `$end` at which it returns.  Below `prev` nothing else is added
during the call, so the caller adds the second list in its place. -/
def flow : Nat → List Graph → Res (List Graph × List Graph × List Graph)
  | 0, _ => .oof
  | _ + 1, [] => .ok ([], [], [])
  | f + 1, n :: rest =>
    let s := n.thisString E
    if s = tyIf ∨ s = tyFor then do
      let (body, branches, rest) ← flow f rest
      let (h, prev, rest) ← flow f rest
      .ok ((n.add (.graph (.node (.str tyTemplate) body))).1 :: branches ++ h, prev, rest)
    else if s = tyElse ∨ s = tyElseIf then do
      let (body, branches, rest) ← flow f rest
      .ok ([], (n.add (.graph (.node (.str tyTemplate) body))).1 :: branches, rest)
    else if s = tyEnd then .ok ([], [], rest)
    else do
      let (h, prev, rest) ← flow f rest
      .ok (n :: h, prev, rest)

/-- template.go:38-50 `NewTemplate` and 54-66 `NewTemplateFromBytes`.  At the top level
`h` and `prev` are the same node. -/
def newTemplate (s : Bytes) : Res Graph := do
  let t ← runParser (template E (loopFuel s) (flowFuel s) (flowFuel s)) s
  let t ← t.ast E
  let nodes := t.out.map (simplifyNode E)
  let (h, prev, _) ← flow E (nodes.length + 1) nodes
  .ok (.node (.str []) (h ++ prev))

/-- The results of `process`: whether it met a `$break`, what it wrote, and the names of
the loop variables it created on the way. template.go:79-169. -/
structure Proc where
  brk : Bool
  out : Bytes
  loops : List Bytes

/-- template.go:148-149: `it.Out = nil; it.Add(ee)` where `it` is the node with content
`v` below the context. -/
def setVar (v : Bytes) (ee : Graph) : List Graph → List Graph
  | [] => []
  | n :: ns =>
    match n with
    | .node (.str s) o =>
      if s = v then .node (.str s) [addedNode (.graph ee)] :: ns else .node (.str s) o :: setVar v ee ns
    | n => n :: setVar v ee ns

/-- `setVar` on the context.  In a nil context `it` is nil and the assignment panics. template.go:147-149. -/
def bindVar (v : Bytes) (ee : Graph) : EvalM Unit := fun c =>
  match c with
  | .nil => .panic
  | .node t o => .ok ((), .node t (setVar v ee o))

/-- template.go:146-155: the loop over the elements.  Once a loop with the same variable
has run inside the body, `it` is no longer a node of the context (`away`), and what is
assigned to it is not seen any more. -/
def forLoop (v : Bytes) (body : EvalM Proc) : List Graph → Bool → EvalM Proc
  | [], _ => pure ⟨false, [], []⟩
  | ee :: es, away => do
    if !away then bindVar v ee
    let r ← body
    if r.brk then pure ⟨false, r.out, r.loops⟩
    else do
      let r' ← forLoop v body es (away || r.loops.contains v)
      pure ⟨false, r.out ++ r'.out, r.loops ++ r'.loops⟩

/-- template.go:111-155: one `for` node.  `c.Delete` removes the nodes with that content
and `c.Add` puts a new one at the end. -/
def forNode (sub : Graph → EvalM Proc) (n : Graph) : EvalM Proc := do
  let args ← .lift (n.getAt 0)
  let src ← .lift (args.getAt 1)
  let (v, _) ← eval E (evalFuel src) src
  match v with
  | .graph gi =>
    if gi.isNil || gi.len == 0 then pure ⟨false, [], []⟩
    else do
      let gi := if gi.thisString E = b!"[" then gi.out.headD .nil else gi
      let args ← .lift (n.getAt 0)
      let a ← .lift (args.getAt 0)
      let a ← .lift (a.getAt 0)
      let name ← .lift (a.string E)
      EvalM.modify fun c => do
        let c ← c.delete E (.str name)
        .ok ((c.add (.str name)).1, ())
      let body ← .lift (n.getAt 1)
      if gi.isNil then EvalM.panic
      else do
        let r ← forLoop name (sub body) gi.out false
        pure { r with loops := name :: r.loops }
  | _ => pure ⟨false, [], []⟩

/-- template.go:79-169 `process`: the loop over the nodes; `yes` is the variable of that
name and `sub` is `process` of a subtemplate. -/
def procNodes (sub : Graph → EvalM Proc) : List Graph → Bool → EvalM Proc
  | [], _ => pure ⟨false, [], []⟩
  | n :: rest, yes =>
    let s := n.thisString E
    /- the rest of the loop, after `r` -/
    let andThen (r : Proc) (yes : Bool) : EvalM Proc := do
      let r' ← procNodes sub rest yes
      pure ⟨r'.brk, r.out ++ r'.out, r.loops ++ r'.loops⟩
    let cond : EvalM Bool := do
      let a ← .lift (n.getAt 0)
      let x ← .lift (a.getAt 0)
      evalBool E (evalFuel x + 1) x
    if s = tyPath then do
      let (v, _) ← eval E (evalFuel n) n
      let t ← .lift (vtext E v)
      andThen ⟨false, t, []⟩ yes
    else if s = tyExpression then do
      let _ ← eval E (evalFuel n) n
      andThen ⟨false, [], []⟩ yes
    else if s = tyIf then do
      let b ← cond
      if b then do
        let t ← .lift (n.getAt 1)
        let r ← sub t
        andThen r true
      else andThen ⟨false, [], []⟩ false
    else if s = tyElseIf then
      if yes then andThen ⟨false, [], []⟩ true
      else do
        let b ← cond
        if b then do
          let t ← .lift (n.getAt 1)
          let r ← sub t
          andThen r true
        else andThen ⟨false, [], []⟩ false
    else if s = tyElse then
      if yes then andThen ⟨false, [], []⟩ true
      else do
        let t ← .lift (n.getAt 0)
        let r ← sub t
        andThen r false
    else if s = tyFor then do
      let r ← forNode E sub n
      andThen r yes
    else if s = tyBreak then pure ⟨true, [], []⟩
    else andThen ⟨false, s, []⟩ yes

/-- template.go:79-169 `process` of a template (nil and no subnodes: nothing to do). -/
def process : Nat → Graph → EvalM Proc
  | 0, _ => .oof
  | _ + 1, .nil => pure ⟨false, [], []⟩
  | f + 1, .node _ o => procNodes E (process f) o false

/-- template.go:70-77 `Process`: the text written, and the context afterwards. -/
def Graph.process (t ctx : Graph) : Res (Bytes × Graph) := do
  let (r, c) ← Ogdl.process E (t.height + 1) t ctx
  .ok (r.out, c)

end
end Ogdl
