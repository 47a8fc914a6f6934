import Verif.Model.Flow

/-!
# expression.go
-/

namespace Ogdl

/-- expression.go:82-130 `precedence` (`none` is -1). -/
def precedence (s : Bytes) : Option Nat :=
  if s = b!"+" ∨ s = b!"-" then some 4
  else if s = b!"*" ∨ s = b!"/" ∨ s = b!"%" then some 5
  else if s = b!"=" ∨ s = b!"+=" ∨ s = b!"-=" ∨ s = b!"*=" ∨ s = b!"/=" ∨ s = b!"%=" then some 0
  else if s = b!"==" ∨ s = b!"!=" ∨ s = b!">=" ∨ s = b!"<=" ∨ s = b!">" ∨ s = b!"<" then some 3
  else if s = b!"||" then some 1
  else if s = b!"&&" then some 2
  else none

section
variable (E : Ext)

/-- expression.go:61-75: the inner loop for precedence `j`, at index `i`, where
`pre` are the nodes before `i` (last one first).  At an operator the node before
(`g.Out[i-1]`) and the node after (`g.Out[i+1]`) become its subnodes; both accesses
panic if there is no such node.  Then `i--` and `i++` put the index just after
the operator. -/
def astPass (j : Nat) (pre : List Graph) : List Graph → Res (List Graph)
  | [] => .ok pre.reverse
  | n :: rest =>
    if precedence (n.thisString E) = some j then
      match pre, rest with
      | e1 :: pre', e2 :: rest' =>
        astPass j (((n.add (.graph e1)).1.add (.graph e2)).1 :: pre') rest'
      | _, _ => .panic
    else astPass j (n :: pre) rest

/-- expression.go:57-76: the passes for precedence `j-1`, …, 0. -/
def astPasses : Nat → List Graph → Res (List Graph)
  | 0, o => .ok o
  | j + 1, o => do
    let o ← astPass E j [] o
    astPasses j o

mutual
/-- expression.go:24-37 `ast`. -/
def Graph.ast : Graph → Res Graph
  | .nil => .ok .nil
  | .node t o => do
    let o' ← Graph.astList o
    .ok (.node t o')
/-- expression.go:30-36: `_ast` on the subnodes that are expressions, `ast` on the
others.  A nil subnode is not an expression (`ThisString` is empty) and `ast` of it
does nothing. -/
def Graph.astList : List Graph → Res (List Graph)
  | [] => .ok []
  | .nil :: ns => do
    let ns' ← Graph.astList ns
    .ok (.nil :: ns')
  | .node t o :: ns => do
    let n' ← if vstr E t = tyExpression then Graph.astBody t o
      else do
        let o' ← Graph.astList o
        .ok (.node t o')
    let ns' ← Graph.astList ns
    .ok (n' :: ns')
/-- expression.go:39-77 `_ast` of the node with content `t` and subnodes `o`. -/
def Graph.astBody (t : Val) (o : List Graph) : Res Graph :=
  if o.length < 2 then .ok (.node t o)
  else do
    let o ← Graph.astEach o
    match o with
    | [a, b] =>
      .ok (.node t [if a.thisString E = b!"!" then (a.add (.graph b)).1 else a])
    | o => do
      let o ← astPasses E 7 o
      .ok (.node t o)
/-- expression.go:45-47: `ast` on each of the subnodes. -/
def Graph.astEach : List Graph → Res (List Graph)
  | [] => .ok []
  | .nil :: ns => do
    let ns' ← Graph.astEach ns
    .ok (.nil :: ns')
  | .node t o :: ns => do
    let o' ← Graph.astList o
    let ns' ← Graph.astEach ns
    .ok (.node t o' :: ns')
end

/-- expression.go:13-21 `NewExpression`. -/
def newExpression (s : Bytes) : Res Graph := do
  let g ← runParser (expression E (loopFuel s) (flowFuel s)) s
  match g with
  | .nil => .panic
  | .node _ o => Graph.astBody E (.str tyExpression) o

end
end Ogdl
