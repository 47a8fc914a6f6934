import Verif.Model.Heap

/-!
# What a client sees and does through pointers

Used by C24 and C77.
-/

namespace Ogdl.Spec
open Ogdl

/-- A graph as seen from a pointer, down to some depth. -/
inductive HTree where
  | nil
  | cut
  | node (this : HVal) (sub : List HTree)

/-- What can be seen from `p` down to depth `n`: contents and subnodes in order. -/
def hview : Nat → Heap → Ptr → HTree
  | _, _, none => .nil
  | 0, _, _ => .cut
  | n + 1, h, some a =>
    match h.nodes[a]? with
    | none => .nil
    | some c => .node c.this (((h.array c.out).take c.out.len).map (hview n h))

/-- The pointer is nil or the address of a node. -/
def Known (h : Heap) (p : Ptr) : Prop := ∀ a, p = some a → a < h.nodes.length

/-- Memory without dangling pointers. -/
structure HeapOk (h : Heap) : Prop where
  content : ∀ c ∈ h.nodes, ∀ p, c.this = .ptr p → Known h p
  slice : ∀ c ∈ h.nodes, ∀ k, c.out.arr = some k → k < h.arrays.length
  elem : ∀ ps ∈ h.arrays, ∀ p ∈ ps, Known h p

/-- `q` can be reached from `p` by going to subnodes. -/
inductive Below (h : Heap) (p : Ptr) : Ptr → Prop where
  | refl : Below h p p
  | sub {a : Nat} {c : HNode} {q : Ptr} : Below h p (some a) → h.nodes[a]? = some c →
      q ∈ (h.array c.out).take c.out.len → Below h p q

/-- No node that can be reached from `p` has a graph as its content (the warning at
graph.go:136-141). -/
def PlainBelow (h : Heap) (p : Ptr) : Prop :=
  ∀ a c, Below h p (some a) → h.nodes[a]? = some c → ∃ v, c.this = .val v

/-- A value that a client passes: a value without pointers, or one of its pointers. -/
inductive HArg where
  | val (v : Val)
  | reg (i : Nat)

/-- What a client can do with the pointers it holds (`Nat`: which one): every method of
graph.go that changes or returns nodes, and every use of the fields `This` and `Out`. -/
inductive HOp where
  | new (v : HArg)
  | add (g : Nat) (v : HArg)
  | addNodes (g g2 : Nat)
  | copy (g c : Nat)
  | clone (g : Nat)
  | node (g : Nat) (s : Bytes)
  | nodeOrNew (g : Nat) (s : Bytes)
  | nodeSet (g : Nat) (s : Bytes) (v : HArg)
  | create (g : Nat) (s : Bytes)
  | getAt (g : Nat) (i : Int)
  | delete (g : Nat) (v : HArg)
  | clear (g : Nat)
  | deleteAt (g : Nat) (i : Int)
  | set (g : Nat) (path : List HStep) (v : HArg)
  | substitute (g : Nat) (s : Bytes) (v : HArg)
  | merge (g src : Nat)
  /-- `g.This`, if it is a graph -/
  | this (g : Nat)
  /-- `g.This = v` -/
  | putThis (g : Nat) (v : HArg)
  /-- `g.Out[i] = p` -/
  | putOut (g : Nat) (i p : Nat)
  /-- `g.Out = x.Out[:n]` for an `n` up to the length -/
  | shareOut (g x n : Nat)

/-- Pointer number `i` of a client. -/
def held (regs : List Ptr) (i : Nat) : Ptr := (regs[i]?).getD none

/-- The value of an argument. -/
def HArg.get (regs : List Ptr) : HArg → HVal
  | .val v => .val v
  | .reg i => .ptr (held regs i)

section
variable (E : Ext) (grow : Nat → Nat → Nat) (fuel : Nat)

/-- One operation: the pointer that it returns. -/
def HOp.exec (regs : List Ptr) : HOp → HM Ptr
  | .new v => hNew (v.get regs)
  | .add g v => hAdd grow (held regs g) (v.get regs)
  | .addNodes g g2 => hAddNodes grow (held regs g) (held regs g2)
  | .copy g c => do hCopy grow fuel (held regs g) (held regs c); pure none
  | .clone g => hClone grow fuel (held regs g)
  | .node g s => hNode E fuel (held regs g) s
  | .nodeOrNew g s => hNodeOrNew E grow fuel (held regs g) s
  | .nodeSet g s v => hNodeSet E grow fuel (held regs g) s (v.get regs)
  | .create g s => hCreate E grow fuel (held regs g) s
  | .getAt g i => hGetAt (held regs g) i
  | .delete g v => do hDelete E grow (held regs g) (v.get regs); pure none
  | .clear g => do hClear (held regs g); pure none
  | .deleteAt g i => do hDeleteAt grow (held regs g) i; pure none
  | .set g path v => hSet E grow fuel (held regs g) path (v.get regs)
  | .substitute g s v => do hSubstitute E fuel s (v.get regs) fuel (held regs g); pure none
  | .merge g src => do hMerge E grow fuel fuel (held regs g) (held regs src); pure none
  | .this g => do
    let c ← HM.load (held regs g)
    match c.this with
    | .ptr p => pure p
    | .val _ => pure none
  | .putThis g v => do HM.putThis (held regs g) (v.get regs); pure none
  | .putOut g i p => do
    let c ← HM.load (held regs g)
    HM.putIndex c.out i (held regs p)
    pure none
  | .shareOut g x n => do
    let c ← HM.load (held regs x)
    if n ≤ c.out.len then HM.putOut (held regs g) { c.out with len := n } else HM.panic
    pure none

/-- The pointers of a client and memory after one of its operations.  The client also
holds the pointer that was returned (nil after a panic, from which it may recover). -/
def HOp.step (op : HOp) (regs : List Ptr) (h : Heap) : List Ptr × Heap :=
  match (op.exec E grow fuel regs).run h with
  | (.ok p, h') => (regs ++ [p], h')
  | (_, h') => (regs ++ [none], h')

/-- The pointers of a client and memory after a history of operations. -/
def runOps : List HOp → List Ptr → Heap → List Ptr × Heap
  | [], regs, h => (regs, h)
  | op :: ops, regs, h => let (regs, h) := op.step E grow fuel regs h; runOps ops regs h

/-- Two clients, each with its own pointers, taking turns on the same memory. -/
structure TwoClients where
  first : List Ptr
  second : List Ptr
  heap : Heap

/-- An operation of one of the clients (`true`: the first). -/
def TwoClients.step (s : TwoClients) (turn : Bool × HOp) : TwoClients :=
  if turn.1 then
    let (regs, h) := turn.2.step E grow fuel s.first s.heap
    { s with first := regs, heap := h }
  else
    let (regs, h) := turn.2.step E grow fuel s.second s.heap
    { s with second := regs, heap := h }

end
end Ogdl.Spec

namespace Ogdl.Spec
open Ogdl

/-- The subnodes of a node, as pointers. -/
def subsOf (h : Heap) (a : Nat) : List Ptr :=
  match h.nodes[a]? with
  | none => []
  | some c => (h.array c.out).take c.out.len

/-- The graph at `p` has a depth of at most `n`, so it has no cycles, and the slices in
it are within their arrays, as in Go they always are. -/
def FiniteBelow : Nat → Heap → Ptr → Prop
  | _, _, none => True
  | 0, _, some _ => False
  | n + 1, h, some a => ∃ c, h.nodes[a]? = some c ∧ c.out.len ≤ (h.array c.out).length ∧
      ∀ p ∈ (h.array c.out).take c.out.len, FiniteBelow n h p

/-- The operations that change the list of subnodes of one node, and that node. -/
def HOp.receiver : HOp → Option Nat
  | .add g _ => some g
  | .addNodes g _ => some g
  | .delete g _ => some g
  | .deleteAt g _ => some g
  | .clear g => some g
  | .nodeOrNew g _ => some g
  | .putOut g _ _ => some g
  | _ => none

/-- Operations other than `g.Out = x.Out[:n]`, by which a client itself makes two nodes
share a backing array. -/
def HOp.NoSlicing : HOp → Prop
  | .shareOut _ _ _ => False
  | _ => True

end Ogdl.Spec
