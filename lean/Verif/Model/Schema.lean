import Verif.Model.Scalar

/-!
# schema.go
-/

namespace Ogdl

section
variable (E : Ext)

/-- graph.go:34-36 `ThisType` of a non-nil node: the type of a nil content has no name
(`reflect.TypeOf(nil)` is a nil interface, so `String()` panics). -/
def thisType (v : Val) : Res Bytes :=
  match v with
  | .nil => .panic
  | v => .ok (typeName E v)

/-- schema.go:33-75 `checkNode`.  Line 45 indexes the text of the schema node, so an
empty one panics. -/
def checkNode (g x : Graph) : Res Bool :=
  match g, x with
  | .node c _, .node v _ => do
    let sx := vstr E v
    let sc := vstr E c
    let ty ← thisType E v
    match sc with
    | [] => .panic
    | c0 :: _ =>
      if c0 ≠ 33 then .ok (sx == sc)
      else if sc = b!"!float" then .ok (vfloatf E v).isSome
      else if sc = b!"!int" then do .ok (← vintf E v).isSome
      else if sc = b!"!bool" then .ok (vboolf v).2
      else if sc = b!"!string" then .ok (ty == b!"string")
      else if sc = b!"!binary" then .ok (ty == b!"[]byte")
      else .ok false
  | _, _ => .ok false

mutual
/-- schema.go:9-31 `Check`: the result and the message. -/
def Graph.check (g x : Graph) : Res (Bool × Bytes) :=
  match g with
  | .nil => .ok (true, [])
  | .node _ ss => checkFrom ss x 0
/-- schema.go:11-28: the loop, from subnode `i` on. -/
def checkFrom (ss : List Graph) (x : Graph) (i : Nat) : Res (Bool × Bytes) :=
  match ss with
  | [] => .ok (true, [])
  | ns :: ss => do
    let nx ← x.getAt i
    let b ← checkNode E ns nx
    if !b && !ns.isNil then .ok (false, b!"want " ++ ns.thisString E ++ b!", got " ++ nx.thisString E)
    else do
      let (ok, mess) ← Graph.check ns nx
      if !ok then .ok (false, mess)
      else checkFrom ss x (i + 1)
end

end
end Ogdl
