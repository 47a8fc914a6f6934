import Verif.Model.Val

/-!
# graph.go with pointers

The other modules model a `*Graph` as a tree.  Here memory is explicit: nodes have
addresses, `Out` is a slice of a backing array that `append` may or may not reuse, and
methods work on pointers, so that sharing is visible.  A panic or an endless recursion
ends a method with the memory as it was at that moment.
-/

namespace Ogdl

/-- A `*Graph`: nil or the address of a node. A pointer to graph.go:15-18. -/
abbrev Ptr := Option Nat

/-- An `interface{}` in memory: a value without pointers, or a `*Graph`. The field `This` of graph.go:15-18. -/
inductive HVal where
  | val (v : Val)
  | ptr (p : Ptr)

/-- A Go slice of `*Graph` that starts at the beginning of its backing array (those of
graph.go all do); a nil slice has no array. -/
structure Slice where
  arr : Option Nat := none
  len : Nat := 0

/-- graph.go:15-18 `Graph`. -/
structure HNode where
  this : HVal
  out : Slice := {}

/-- Memory: the nodes and the backing arrays (their length is the capacity).
Go's memory, as far as it holds values of graph.go:15-18. -/
structure Heap where
  nodes : List HNode := []
  arrays : List (List Ptr) := []

/-- A computation on memory; after a panic memory is what it was at that moment.  Memory
is never given back. Go's run-time. -/
structure HM (α : Type) where
  run : Heap → Res α × Heap
  nodes_le : ∀ h, h.nodes.length ≤ (run h).2.nodes.length
  arrays_le : ∀ h, h.arrays.length ≤ (run h).2.arrays.length

namespace HM

/-- A computation that does not change memory. Go's run-time. -/
def read (f : Heap → Res α) : HM α := ⟨fun h => (f h, h), fun _ => Nat.le_refl _, fun _ => Nat.le_refl _⟩

/-- Sequencing. Go's sequencing of statements. -/
def bind (m : HM α) (f : α → HM β) : HM β where
  run h :=
    match m.run h with
    | (.ok a, h') => (f a).run h'
    | (.panic, h') => (.panic, h')
    | (.oof, h') => (.oof, h')
  nodes_le h := by
    have h1 := m.nodes_le h
    split <;> simp_all
    exact Nat.le_trans h1 ((f _).nodes_le _)
  arrays_le h := by
    have h1 := m.arrays_le h
    split <;> simp_all
    exact Nat.le_trans h1 ((f _).arrays_le _)

instance : Monad HM where
  pure a := read fun _ => .ok a
  bind := bind

/-- A run-time panic. Go's run-time. -/
def panic : HM α := read fun _ => .panic

/-- Endless recursion. Fuel of the model only. -/
def oof : HM α := read fun _ => .oof

/-- A result that does not depend on memory. Go's sequencing of statements. -/
def lift (r : Res α) : HM α := read fun _ => r

/-- `&Graph{v, nil}`. As in graph.go:21-23. -/
def alloc (v : HVal) : HM Nat where
  run h := (.ok h.nodes.length, { h with nodes := h.nodes ++ [⟨v, {}⟩] })
  nodes_le h := by simp
  arrays_le h := Nat.le_refl _

/-- `*p`; panics on nil. Go's memory; graph.go:15-18. -/
def load (p : Ptr) : HM HNode := read fun h =>
  match p.bind (h.nodes[·]?) with
  | none => .panic
  | some c => .ok c

/-- `*p` is replaced by `f` of it; panics on nil. Go's memory; graph.go:15-18. -/
def update (p : Ptr) (f : HNode → HNode) : HM Unit where
  run h :=
    match p with
    | none => (.panic, h)
    | some a => match h.nodes[a]? with
      | none => (.panic, h)
      | some c => (.ok (), { h with nodes := h.nodes.set a (f c) })
  nodes_le h := by split <;> (try split) <;> simp
  arrays_le h := by split <;> (try split) <;> simp

/-- `p.This = v`; panics on nil. Go's memory; graph.go:15-18. -/
def putThis (p : Ptr) (v : HVal) : HM Unit := update p fun c => { c with this := v }

/-- `p.Out = s`; panics on nil. Go's memory; graph.go:15-18. -/
def putOut (p : Ptr) (s : Slice) : HM Unit := update p fun c => { c with out := s }

/-- The backing array of a slice. Go's memory; the field `Out` of graph.go:15-18. -/
def _root_.Ogdl.Heap.array (h : Heap) (s : Slice) : List Ptr :=
  match s.arr with
  | none => []
  | some i => (h.arrays[i]?).getD []

/-- `s[i]`; panics when out of range. Go's slices; the field `Out` of graph.go:15-18. -/
def index (s : Slice) (i : Nat) : HM Ptr := read fun h =>
  if i < s.len then
    match (h.array s)[i]? with
    | some p => .ok p
    | none => .panic
  else .panic

/-- `s[i] = p`; panics when out of range. Go's slices; the field `Out` of graph.go:15-18. -/
def putIndex (s : Slice) (i : Nat) (p : Ptr) : HM Unit where
  run h :=
    match s.arr with
    | none => (.panic, h)
    | some k =>
      if i < s.len then (.ok (), { h with arrays := h.arrays.modify k (·.set i p) }) else (.panic, h)
  nodes_le h := by split <;> (try split) <;> simp
  arrays_le h := by split <;> (try split) <;> simp

/-- All of `s`, as the second argument of `append` (which copies before it writes).
Go's slices; as in graph.go:91-101. -/
def elems (s : Slice) : HM (List Ptr) := read fun h => .ok ((h.array s).take s.len)

/-- A new array, with spare room. Go's slices. -/
def make (ps : List Ptr) (spare : Nat) : HM Slice where
  run h := (.ok ⟨some h.arrays.length, ps.length⟩, { h with arrays := h.arrays ++ [ps ++ List.replicate spare none] })
  nodes_le h := Nat.le_refl _
  arrays_le h := by simp

/-- `append(s, ps...)`: in place if there is room in the backing array, otherwise in a
new array; `grow` is the spare room that the run-time system adds, which depends on the
old capacity and the new length. Go's slices; as in graph.go:57-101. -/
def append (grow : Nat → Nat → Nat) (s : Slice) (ps : List Ptr) : HM Slice where
  run h :=
    let a := h.array s
    if ps.isEmpty then (.ok s, h)
    else if s.len + ps.length ≤ a.length then
      match s.arr with
      | none => (.panic, h)
      | some k => (.ok ⟨some k, s.len + ps.length⟩,
          { h with arrays := h.arrays.set k (a.take s.len ++ ps ++ a.drop (s.len + ps.length)) })
    else (make (a.take s.len ++ ps) (grow a.length (s.len + ps.length))).run h
  nodes_le h := by dsimp only; split <;> (try split) <;> (try split) <;> simp [make]
  arrays_le h := by dsimp only; split <;> (try split) <;> (try split) <;> simp [make]

/-- `for _, n := range s`: `k` turns from index `i` on; each element is read when its
turn comes. Go's loops; as in graph.go:125-155. -/
def range (s : Slice) (f : Ptr → HM Unit) : Nat → Nat → HM Unit
  | 0, _ => pure ()
  | k + 1, i => do
    let p ← index s i
    f p
    range s f k (i + 1)

/-- `for _, n := range s` with a return from the loop. Go's loops; as in graph.go:158-169. -/
def search (s : Slice) (f : Ptr → HM (Option α)) : Nat → Nat → HM (Option α)
  | 0, _ => pure none
  | k + 1, i => do
    let p ← index s i
    match ← f p with
    | some a => pure (some a)
    | none => search s f k (i + 1)

end HM

open HM

section
variable (E : Ext) (grow : Nat → Nat → Nat) (fuel : Nat)

/-- gettypes.go:574-588 `_string`, with `String` (92-103) and `Interface` (279-284) for
contents that are a `*Graph`.  Fuel: number of contents. -/
def hstring : Nat → HVal → HM Bytes
  | _, .val v => pure (vstr E v)
  | _, .ptr none => pure []
  | 0, _ => oof
  | f + 1, .ptr p => do
    let c ← load p
    if c.out.len = 0 then pure []
    else
      let n ← index c.out 0
      let c ← load n
      hstring f c.this

/-- graph.go:21-23 `New`. -/
def hNew (v : HVal) : HM Ptr := do
  let a ← alloc v
  pure (some a)

/-- graph.go:57-71 `Add`. -/
def hAdd (g : Ptr) (n : HVal) : HM Ptr :=
  match g, n with
  | none, _ => pure none
  | _, .val .nil => pure none
  | g, .ptr (some a) => do
    let c ← load g
    let s ← append grow c.out [some a]
    putOut g s
    pure (some a)
  | g, n => do
    let a ← alloc n
    let c ← load g
    let s ← append grow c.out [some a]
    putOut g s
    pure (some a)

/-- graph.go:74-88 `addNodes`. -/
def hAddNodesVal (g : Ptr) (n : HVal) : HM Ptr :=
  match g, n with
  | none, _ => pure none
  | _, .val .nil => pure none
  | g, .ptr (some a) => do
    let c ← load g
    let x ← load (some a)
    let ps ← elems x.out
    let s ← append grow c.out ps
    putOut g s
    pure (some a)
  | g, n => do
    let a ← alloc n
    let c ← load g
    let s ← append grow c.out [some a]
    putOut g s
    pure (some a)

/-- graph.go:91-99 `AddNodes`. -/
def hAddNodes (g g2 : Ptr) : HM Ptr :=
  match g, g2 with
  | none, _ => pure none
  | _, none => pure none
  | g, g2 => do
    let c ← load g
    let x ← load g2
    let ps ← elems x.out
    let s ← append grow c.out ps
    putOut g s
    pure g

/-- graph.go:125-133 `Copy`.  Fuel: depth. -/
def hCopy : Nat → Ptr → Ptr → HM Unit
  | 0, _, _ => oof
  | f + 1, g, c =>
    match g, c with
    | none, _ => pure ()
    | _, none => pure ()
    | g, c => do
      let x ← load c
      range x.out (fun n => do
        let y ← load n
        let nn ← hAdd grow g y.this
        hCopy f nn n) x.out.len 0

/-- graph.go:142-154 `Clone`.  Fuel: depth. -/
def hClone : Nat → Ptr → HM Ptr
  | 0, _ => oof
  | f + 1, g =>
    match g with
    | none => pure none
    | some g => do
      let a ← alloc (.val .nil)
      let x ← load (some g)
      putThis (some a) x.this
      range x.out (fun n => do
        let m ← hClone f n
        let c ← load (some a)
        let s ← append grow c.out [m]
        putOut (some a) s) x.out.len 0
      pure (some a)

/-- graph.go:158-168 `Node`. -/
def hNode (g : Ptr) (s : Bytes) : HM Ptr :=
  match g with
  | none => pure none
  | g => do
    let c ← load g
    let r ← search c.out (fun n => do
      let x ← load n
      let t ← hstring E fuel x.this
      if s = t then pure (some n) else pure none) c.out.len 0
    pure (r.getD none)

/-- graph.go:172-183 `NodeOrNew`. -/
def hNodeOrNew (g : Ptr) (s : Bytes) : HM Ptr :=
  match g with
  | none => pure none
  | g => do
    let c ← load g
    let r ← search c.out (fun n => do
      let x ← load n
      let t ← hstring E fuel x.this
      if s = t then pure (some n) else pure none) c.out.len 0
    match r with
    | some n => pure n
    | none => hAdd grow g (.val (.str s))

/-- graph.go:252-258 `Clear`. -/
def hClear (g : Ptr) : HM Unit :=
  match g with
  | none => pure ()
  | g => putOut g {}

/-- graph.go:186-190 `NodeSet`. -/
def hNodeSet (g : Ptr) (s : Bytes) (v : HVal) : HM Ptr := do
  let n ← hNodeOrNew E grow fuel g s
  hClear n
  hAdd grow n v

/-- graph.go:194-201 `Create`. -/
def hCreate (g : Ptr) (s : Bytes) : HM Ptr := do
  let n ← hNode E fuel g s
  match n with
  | none => hAdd grow g (.val (.str s))
  | n => do
    hClear n
    pure n

/-- graph.go:204-210 `GetAt`. -/
def hGetAt (g : Ptr) (i : Int) : HM Ptr := do
  let c ← load g
  if i ≥ c.out.len ∨ i < 0 then pure none else index c.out i.toNat

/-- Go `==` on two interface values, for contents. As in graph.go:39-54 and 240. -/
def hvalEq : HVal → HVal → Res Bool
  | .val a, .val b => itfEq E a b
  | .ptr a, .ptr b => .ok (a == b)
  | _, _ => .ok false

/-- graph.go:264-269 and 241-245: removal of subnode `i` of `g`. -/
def hRemove (g : Ptr) (i : Nat) : HM Unit := do
  let c ← load g
  if i + 1 < c.out.len then
    let ps ← elems c.out
    let s ← append grow { c.out with len := i } (ps.drop (i + 1))
    putOut g s
  else putOut g { c.out with len := i }

/-- graph.go:239-248: the loop of `Delete` at index `i`; the number of turns is the
number of subnodes. -/
def hDeleteLoop (g : Ptr) (n : HVal) : Nat → Nat → HM Unit
  | 0, _ => pure ()
  | k + 1, i => do
    let c ← load g
    if i < c.out.len then
      let p ← index c.out i
      let x ← load p
      if ← lift (hvalEq E x.this n) then
        hRemove grow g i
        hDeleteLoop g n k i
      else hDeleteLoop g n k (i + 1)
    else pure ()

/-- graph.go:234-249 `Delete`. -/
def hDelete (g : Ptr) (n : HVal) : HM Unit :=
  match g with
  | none => pure ()
  | g => do
    let c ← load g
    hDeleteLoop E grow g n c.out.len 0

/-- graph.go:261-270 `DeleteAt`. -/
def hDeleteAt (g : Ptr) (i : Int) : HM Unit :=
  match g with
  | none => pure ()
  | g => do
    let c ← load g
    if i < 0 ∨ i ≥ c.out.len then pure () else hRemove grow g i.toNat

/-- An element of a parsed path, as `set` sees it: an index or the content of a name. graph.go:288-348. -/
inductive HStep where
  | index (i : Int)
  | name (v : Val)

/-- graph.go:300-311 (and 325-336): `node.Out[i] = New(val)` with room made for it;
`make` panics when `i+1` overflows. -/
def hSetIndex (node : Ptr) (i : Int) (val : HVal) : HM Ptr := do
  let c ← load node
  if (c.out.len : Int) ≤ i then
    if i ≥ 2 ^ 63 - 1 then panic
    else do
      let ps ← elems c.out
      let o ← make (ps ++ List.replicate (i.toNat + 1 - ps.length) none) 0
      putOut node o
  let n ← hNew val
  if i < 0 then panic
  else do
    let c ← load node
    HM.putIndex c.out i.toNat n
    pure n

/-- graph.go:322-338: the loop that creates the missing nodes; the node reached, or the
node set by an index (which ends `set`). -/
def hSetNew (val : HVal) : Ptr → List HStep → HM (Ptr × Bool)
  | node, [] => pure (node, false)
  | node, .index i :: _ => do
    let n ← hSetIndex node i val
    pure (n, true)
  | node, .name v :: ps => do
    let n ← hAdd grow node (.val v)
    hSetNew val n ps

/-- graph.go:292-340: the walk down the path. -/
def hSetWalk (val : HVal) : Ptr → List HStep → HM (Ptr × Bool)
  | node, [] => pure (node, false)
  | node, .index i :: _ => do
    let n ← hSetIndex node i val
    pure (n, true)
  | node, .name v :: ps => do
    let n ← hNode E fuel node (vstr E v)
    match n with
    | none => hSetNew grow val node (.name v :: ps)
    | n => hSetWalk val n ps

/-- graph.go:273-345 `Set` with the parsed path given. -/
def hSet (g : Ptr) (path : List HStep) (val : HVal) : HM Ptr :=
  match g with
  | none => pure none
  | g => do
    let (node, done) ← hSetWalk E grow fuel val g path
    if done then pure node
    else do
      putOut node {}
      hAddNodesVal grow node val

/-- graph.go:504-515 `Substitute`.  Fuel: depth. -/
def hSubstitute (s : Bytes) (v : HVal) : Nat → Ptr → HM Unit
  | 0, _ => oof
  | f + 1, g =>
    match g with
    | none => pure ()
    | g => do
      let c ← load g
      range c.out (fun n => do
        let x ← load n
        let t ← hstring E fuel x.this
        if t = s then putThis n v
        hSubstitute s v f n) c.out.len 0

/-- gettypes.go:92-103 `String()`. -/
def hStringOf (g : Ptr) : HM Bytes := hstring E fuel (.ptr g)

/-- graph.go:518-530 `Merge`.  Fuel: depth. -/
def hMerge : Nat → Ptr → Ptr → HM Unit
  | 0, _, _ => oof
  | f + 1, g, src => do
    let x ← load src
    range x.out (fun node => do
      let t ← hStringOf E fuel node
      let n ← hNode E fuel g t
      match n with
      | none => do
        let _ ← hAdd grow g (.ptr node)
        pure ()
      | n => do
        putOut n {}
        hMerge f n node) x.out.len 0

end
end Ogdl
