import Verif.Model.Val

/-!
# graph.go, gettypes.go (getters), sort.go

Methods of `*Graph` on the tree model.  A method that mutates its receiver
returns the new receiver.  Methods that also return a pointer into the receiver
return (new receiver, returned node).
-/

namespace Ogdl

/-- graph.go:21-23 `New`. -/
def Graph.new (v : Val) : Graph := .node v []

/-- graph.go:26-31 `Len`: -1 on nil. -/
def Graph.len : Graph → Int
  | .nil => -1
  | .node _ o => o.length

section
variable (E : Ext)

mutual
/-- graph.go:39-54 `Equals`; a nil receiver or argument panics (field access,
line 41), as does comparing two `[]byte` contents. -/
def Graph.equals : Graph → Graph → Res Bool
  | .node t o, .node t' o' => do
    let b ← itfEq E t' t
    if !b then .ok false
    else if o.length != o'.length then .ok false
    else Graph.equalsList o o'
  | _, _ => .panic
/-- graph.go:48-53: the loop over the subnodes. -/
def Graph.equalsList : List Graph → List Graph → Res Bool
  | g :: gs, c :: cs => do
    let b ← Graph.equals g c
    if !b then .ok false else Graph.equalsList gs cs
  | _, _ => .ok true
end

/-- What `Add` (graph.go:57-71) appends for an argument `n`: the graph itself if
`n` is a non-nil `*Graph`, otherwise a new node holding `n` (a typed nil
`*Graph` included, line 63/68). -/
def addedNode : Val → Graph
  | .graph (.node t o) => .node t o
  | v => .node v []

/-- graph.go:57-71 `Add`: new receiver and returned pointer (nil if receiver or
argument is nil). -/
def Graph.add (g : Graph) (n : Val) : Graph × Graph :=
  match g, n with
  | .nil, _ => (.nil, .nil)
  | g, .nil => (g, .nil)
  | .node t o, n => (.node t (o ++ [addedNode n]), addedNode n)

/-- graph.go:74-88 `addNodes`: a `*Graph` argument contributes its subnodes. -/
def Graph.addNodesVal (g : Graph) (n : Val) : Graph :=
  match g, n with
  | .nil, _ => .nil
  | g, .nil => g
  | .node t o, .graph (.node _ o') => .node t (o ++ o')
  | .node t o, n => .node t (o ++ [.node n []])

/-- graph.go:91-99 `AddNodes`: new receiver. -/
def Graph.addNodes (g g2 : Graph) : Graph :=
  match g, g2 with
  | .node t o, .node _ o' => .node t (o ++ o')
  | g, _ => g

/-- graph.go:104-116 `addEqualNodes` with `recurse = false` (the only way it is
called, eval.go:222/347).  Panics on a nil subnode (line 107). -/
def Graph.addEqualNodes (g g2 : Graph) (key : Bytes) : Res Graph :=
  loop g g2.out
where
  /-- graph.go:106-113 -/
  loop (g : Graph) : List Graph → Res Graph
  | [] => .ok g
  | .nil :: _ => .panic
  | .node t o :: ns => loop (if key = vstr E t then g.addNodes (.node t o) else g) ns

mutual
/-- graph.go:125-133 `Copy`: the receiver after copying the subnodes of `c` into
it.  Subnodes with nil content are dropped, because `Add(nil)` adds nothing (line
59) and `Copy` on the nil result is a no-op; a content that is itself a non-nil
`*Graph` is added as that graph and then extended.  Panics on nil subnodes. -/
def Graph.copy (g : Graph) : Graph → Res Graph
  | .nil => .ok g
  | .node _ o =>
    match g with
    | .nil => .ok .nil
    | .node t go => do
      let l ← Graph.copyList o
      .ok (.node t (go ++ l))
/-- graph.go:129-132: the copies of a list of subnodes. -/
def Graph.copyList : List Graph → Res (List Graph)
  | [] => .ok []
  | .nil :: _ => .panic
  | .node .nil _ :: ns => Graph.copyList ns
  | .node t o :: ns => do
    let l ← Graph.copyList o
    let rest ← Graph.copyList ns
    match addedNode t with
    | .node t' o' => .ok (.node t' (o' ++ l) :: rest)
    | .nil => .ok rest
end

mutual
/-- graph.go:142-154 `Clone` (nil children are cloned to nil). -/
def Graph.clone : Graph → Graph
  | .nil => .nil
  | .node t o => .node t (Graph.cloneList o)
/-- graph.go:150-152 -/
def Graph.cloneList : List Graph → List Graph
  | [] => []
  | g :: gs => g.clone :: Graph.cloneList gs
end

/-- graph.go:162-167: the loop of `Node`; a nil subnode before the match panics. -/
def nodeLoop (s : Bytes) : List Graph → Res Graph
  | [] => .ok .nil
  | .nil :: _ => .panic
  | .node t o :: ns => if s = vstr E t then .ok (.node t o) else nodeLoop s ns

/-- graph.go:158-168 `Node`: the first subnode with that text, or nil. -/
def Graph.nodeNamed (g : Graph) (s : Bytes) : Res Graph :=
  match g with
  | .nil => .ok .nil
  | .node _ o => nodeLoop E s o

/-- Index of the first subnode with text `s`, as searched by graph.go:162-166. -/
def findName (s : Bytes) : List Graph → Res (Option Nat)
  | [] => .ok none
  | .nil :: _ => .panic
  | .node t _ :: ns =>
    if s = vstr E t then .ok (some 0)
    else do
      let r ← findName s ns
      .ok (r.map (· + 1))

/-- graph.go:172-183 `NodeOrNew`: new receiver and returned node. -/
def Graph.nodeOrNew (g : Graph) (s : Bytes) : Res (Graph × Graph) :=
  match g with
  | .nil => .ok (.nil, .nil)
  | g => do
    let n ← g.nodeNamed E s
    match n with
    | .nil => .ok (g.add (.str s))
    | n => .ok (g, n)

/-- graph.go:252-258 `Clear`. -/
def Graph.clear : Graph → Graph
  | .nil => .nil
  | .node t _ => .node t []

/-- graph.go:186-190 `NodeSet`: the new receiver (the returned node is the one
added).  Nil receiver: `Clear` and `Add` on nil are no-ops. -/
def Graph.nodeSet (g : Graph) (s : Bytes) (v : Val) : Res Graph :=
  match g with
  | .nil => .ok .nil
  | .node t o => do
    match ← findName E s o with
    | some i => .ok (.node t (o.modify i fun n => (n.clear.add v).1))
    | none => .ok (.node t (o ++ [((Graph.new (.str s)).add v).1]))

/-- graph.go:194-201 `Create`: new receiver and returned node. -/
def Graph.create (g : Graph) (s : Bytes) : Res (Graph × Graph) :=
  match g with
  | .nil => .ok (.nil, .nil)
  | .node t o => do
    match ← findName E s o with
    | some i => .ok (.node t (o.modify i Graph.clear), ((o[i]?).getD .nil).clear)
    | none => .ok ((Graph.node t o).add (.str s))

/-- graph.go:204-210 `GetAt`: panics on a nil receiver (line 205). -/
def Graph.getAt (g : Graph) (i : Int) : Res Graph :=
  match g with
  | .nil => .panic
  | .node _ o => if i ≥ o.length ∨ i < 0 then .ok .nil else .ok (o.getD i.toNat .nil)

/-- graph.go:239-248: the loop of `Delete` at index `i`.  Lines 241-245 both
remove element `i`; `i--` then `i++` keeps the index.  Fuel: number of subnodes
still to look at. -/
def deleteLoop (n : Val) : Nat → Nat → List Graph → Res (List Graph)
  | 0, _, o => .ok o
  | f + 1, i, o =>
    match o[i]? with
    | none => .ok o
    | some .nil => .panic
    | some (.node t _) => do
      if ← itfEq E t n then deleteLoop n f i (o.eraseIdx i)
      else deleteLoop n f (i + 1) o

/-- graph.go:234-249 `Delete`. -/
def Graph.delete (g : Graph) (n : Val) : Res Graph :=
  match g with
  | .nil => .ok .nil
  | .node t o => do
    let o' ← deleteLoop E n (o.length + 1) 0 o
    .ok (.node t o')

/-- graph.go:261-270 `DeleteAt` (on nil, Len is -1, so it returns). -/
def Graph.deleteAt (g : Graph) (i : Int) : Graph :=
  match g with
  | .nil => .nil
  | .node t o => if i < 0 ∨ i ≥ o.length then .node t o else .node t (o.eraseIdx i.toNat)

mutual
/-- graph.go:504-515 `Substitute`; nil subnodes panic (line 509). -/
def Graph.substitute (s : Bytes) (v : Val) : Graph → Res Graph
  | .nil => .ok .nil
  | .node t o => do
    let o' ← Graph.substituteList s v o
    .ok (.node t o')
/-- graph.go:508-513 -/
def Graph.substituteList (s : Bytes) (v : Val) : List Graph → Res (List Graph)
  | [] => .ok []
  | .nil :: _ => .panic
  | .node t o :: ns => do
    let o' ← Graph.substituteList s v o
    let ns' ← Graph.substituteList s v ns
    .ok (.node (if vstr E t = s then v else t) o' :: ns')
end

/-- gettypes.go:279-284 `Interface`: content of the first subnode (nil if none);
panics if the first subnode is a nil pointer. -/
def Graph.interface : Graph → Res Val
  | .nil => .ok .nil
  | .node _ [] => .ok .nil
  | .node _ (.nil :: _) => .panic
  | .node _ (.node t _ :: _) => .ok t

/-- gettypes.go:92-103 `String(def...)`. -/
def Graph.string (g : Graph) (dflt : Option Bytes := none) : Res Bytes :=
  match g with
  | .nil => .ok (dflt.getD [])
  | g => do
    let v ← g.interface
    .ok (vstr E v)

mutual
/-- graph.go:518-530 `Merge`: the new receiver.  The lookup key is
`node.String()`, i.e. the text of the *first subnode* of `node` (line 521).
Panics on a nil `src` (line 520). -/
def Graph.merge (g : Graph) : Graph → Res Graph
  | .nil => .panic
  | .node _ o => Graph.mergeList g o
/-- graph.go:520-529 -/
def Graph.mergeList (g : Graph) : List Graph → Res Graph
  | [] => .ok g
  | nd :: ns => do
    let key ← nd.string E
    match g with
    | .nil => Graph.mergeList .nil ns
    | .node t o =>
      match ← findName E key o with
      | none => Graph.mergeList (Graph.node t (o ++ [addedNode (.graph nd)])) ns
      | some i => do
        let n' ← Graph.merge (Graph.node ((o.getD i .nil).this) []) nd
        Graph.mergeList (Graph.node t (o.set i n')) ns
end

/-! ## Typed getters (gettypes.go) -/

/-- gettypes.go:40-49 `Int64(def...)`. -/
def Graph.int64 (g : Graph) (dflt : Option Int := none) : Res Int := do
  let v ← g.interface
  match ← vintf E v with
  | some n => .ok n
  | none => .ok (dflt.getD 0)

/-- gettypes.go:66-75 `Bool(def...)`. -/
def Graph.boolean (g : Graph) (dflt : Option Bool := none) : Res Bool := do
  let s ← g.string E
  match vboolf (.str s) with
  | (b, true) => .ok b
  | (_, false) => .ok (dflt.getD false)

/-- gettypes.go:53-62 `Float64(def...)`. -/
def Graph.float64 (g : Graph) (dflt : Option UInt64 := none) : Res UInt64 := do
  let s ← g.string E
  match vfloatf E (.str s) with
  | some f => .ok f
  | none => .ok (dflt.getD E.nan)

/-- gettypes.go:20-36 `Find`: `none` if the expression does not compile. -/
def Graph.find (g : Graph) (re : Bytes) : Res (Option Graph) :=
  match E.regexp re with
  | none => .ok none
  | some m =>
    match g with
    | .nil => .panic
    | .node _ o => .ok (some (.node (.str b!"_") (loop m o)))
where
  /-- gettypes.go:29-33: a nil subnode reads as "" and, if that matches, `Add` of
  the typed nil pointer adds a node holding it -/
  loop (m : Bytes → Bool) : List Graph → List Graph
  | [] => []
  | n :: ns => if m (n.thisString E) then addedNode (.graph n) :: loop m ns else loop m ns

/-- gettypes.go:128-146 `Strings`; nil subnodes panic (line 142). -/
def Graph.strings : Graph → Res (List Bytes)
  | .nil => .ok []
  | .node _ o => o.mapM fun
    | .nil => .panic
    | .node t _ => .ok (vstr E t)

/-- gettypes.go:108-125 `StringCSV`: `s[2:]` of the concatenation panics when
there are no subnodes (line 124). -/
def Graph.stringCSV (g : Graph) (dflt : Option Bytes := none) : Res Bytes :=
  match g with
  | .nil => .ok (dflt.getD [])
  | g => do
    let ss ← g.strings E
    let s := ss.flatMap fun x => 44 :: 32 :: x
    if s.length < 2 then .panic else .ok (s.drop 2)

/-- gettypes.go:151-172 `StringTxt`. -/
def Graph.stringTxt (g : Graph) (dflt : Option Bytes := none) : Res Bytes :=
  match g with
  | .nil => .ok (dflt.getD [])
  | .node _ [] => .ok []
  | g => do
    let ss ← g.strings E
    let s := ss.flatMap fun x => 32 :: x
    .ok (s.drop 1)

end
end Ogdl
