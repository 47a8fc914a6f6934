import Verif.Spec.Heap
import Verif.Model.Eval

/-!
# Memory that holds a tree

Used by C78 and C79.
-/

namespace Ogdl.Spec
open Ogdl

/-- What is found at an address: the content and the subnodes. -/
def look (h : Heap) (a : Nat) : Option (HVal × List Ptr) :=
  (h.nodes[a]?).map fun c => (c.this, (h.array c.out).take c.out.len)

/-- The content in memory is the value: anything that is not a graph, or a nil `*Graph`. -/
inductive Content : HVal → Val → Prop where
  | val {v : Val} : (∀ g, v ≠ .graph g) → Content (.val v) v
  | nil : Content (.ptr none) (.graph .nil)

mutual
/-- Memory `h` holds the tree at the pointer.  The list gives the addresses of its nodes:
no node is met twice. -/
def Holds (h : Heap) : Graph → Ptr → List Nat → Prop
  | .nil, p, F => p = none ∧ F = []
  | .node v gs, p, F => ∃ a x ps F', p = some a ∧ F = a :: F' ∧ a ∉ F' ∧
      look h a = some (x, ps) ∧ Content x v ∧ HoldsL h gs ps F'
/-- The same for a list of subnodes. -/
def HoldsL (h : Heap) : List Graph → List Ptr → List Nat → Prop
  | [], ps, F => ps = [] ∧ F = []
  | g :: gs, ps, F => ∃ p ps' F1 F2, ps = p :: ps' ∧ F = F1 ++ F2 ∧ (∀ a ∈ F1, a ∉ F2) ∧
      Holds h g p F1 ∧ HoldsL h gs ps' F2
end

/-- Between `h` and `h'` nothing changes except at the addresses `F` and in new nodes. -/
def OnlyAt (F : List Nat) (h h' : Heap) : Prop :=
  ∀ a, a < h.nodes.length → a ∉ F → look h' a = look h a

/-- All of the addresses `F'` are in `F` or new. -/
def Within (h : Heap) (F F' : List Nat) : Prop := ∀ a ∈ F', a ∈ F ∨ h.nodes.length ≤ a

/-- The elements of a parsed path and the steps that `Set` takes in memory: an index, or a
name with plain content. -/
inductive PathSteps (E : Ext) : List Graph → List HStep → Prop where
  | nil : PathSteps E [] []
  | index {e : Graph} {i : Int} {es : List Graph} {ss : List HStep} : e.thisString E = tyIndex → e.int64 E = .ok i → PathSteps E es ss →
      PathSteps E (e :: es) (.index i :: ss)
  | name {v : Val} {o es : List Graph} {ss : List HStep} : vstr E v ≠ tyIndex → v ≠ .nil → (∀ g, v ≠ .graph g) → PathSteps E es ss →
      PathSteps E (.node v o :: es) (.name v :: ss)

/-! ## A client that works with trees -/

/-- Operations of a client that treats graphs as values.  The numbers say which of its
graphs are meant; the values are not graphs.  A graph that is put into another one (`graft`:
`Add` of a graph, `addNodes`, `merge`) is given away: the client does not use it any more. -/
inductive TOp where
  | new (v : Val)
  | add (i : Nat) (v : Val)
  | graft (i j : Nat)
  | addNodes (i j : Nat)
  | clone (i : Nat)
  | copy (i j : Nat)
  | nodeOrNew (i : Nat) (s : Bytes)
  | nodeSet (i : Nat) (s : Bytes) (v : Val)
  | create (i : Nat) (s : Bytes)
  | delete (i : Nat) (v : Val)
  | clear (i : Nat)
  | deleteAt (i : Nat) (k : Int)
  /-- the path, parsed, and the steps that it stands for -/
  | set (i : Nat) (es : List Graph) (ss : List HStep) (v : Val)
  | substitute (i : Nat) (s : Bytes) (v : Val)
  | merge (i j : Nat)

/-- A value that is not a graph. -/
def NoGraph (v : Val) : Prop := ∀ g, v ≠ .graph g

/-- The operations that the theorem speaks of. -/
def TOp.Valid (E : Ext) : TOp → Prop
  | .new v | .add _ v | .nodeSet _ _ v | .delete _ v | .substitute _ _ v => NoGraph v
  | .graft i j | .addNodes i j | .copy i j | .merge i j => i ≠ j
  | .set _ es ss v => NoGraph v ∧ PathSteps E es ss
  | _ => True

/-- The graphs of the client after the operation, on trees: no pointers, no memory. -/
def TOp.tree (E : Ext) (gs : List Graph) : TOp → Res (List Graph)
  | .new v => .ok (gs ++ [.node v []])
  | .add i v => .ok (gs.set i ((gs.getD i .nil).add v).1)
  | .graft i j => .ok ((gs.set j .nil).set i ((gs.getD i .nil).add (.graph (gs.getD j .nil))).1)
  | .addNodes i j => .ok ((gs.set j .nil).set i ((gs.getD i .nil).addNodes (gs.getD j .nil)))
  | .clone i => .ok (gs ++ [gs.getD i .nil])
  | .copy i j => (gs.getD i .nil).copy (gs.getD j .nil) >>= fun g => .ok (gs.set i g)
  | .nodeOrNew i s => (gs.getD i .nil).nodeOrNew E s >>= fun r => .ok (gs.set i r.1)
  | .nodeSet i s v => (gs.getD i .nil).nodeSet E s v >>= fun g => .ok (gs.set i g)
  | .create i s => (gs.getD i .nil).create E s >>= fun r => .ok (gs.set i r.1)
  | .delete i v => (gs.getD i .nil).delete E v >>= fun g => .ok (gs.set i g)
  | .clear i => .ok (gs.set i (gs.getD i .nil).clear)
  | .deleteAt i k => .ok (gs.set i ((gs.getD i .nil).deleteAt k))
  | .set i es _ v =>
    match gs.getD i .nil with
    | .nil => .ok gs
    | g => setPath E v es g >>= fun r => .ok (gs.set i r.1)
  | .substitute i s v => Graph.substitute E s v (gs.getD i .nil) >>= fun g => .ok (gs.set i g)
  | .merge i j => (gs.getD i .nil).merge E (gs.getD j .nil) >>= fun g => .ok ((gs.set j .nil).set i g)

/-- The method called. -/
def TOp.call : TOp → HOp
  | .new v => .new (.val v)
  | .add i v => .add i (.val v)
  | .graft i j => .add i (.reg j)
  | .addNodes i j => .addNodes i j
  | .clone i => .clone i
  | .copy i j => .copy i j
  | .nodeOrNew i s => .nodeOrNew i s
  | .nodeSet i s v => .nodeSet i s (.val v)
  | .create i s => .create i s
  | .delete i v => .delete i (.val v)
  | .clear i => .clear i
  | .deleteAt i k => .deleteAt i k
  | .set i _ ss v => .set i ss (.val v)
  | .substitute i s v => .substitute i s (.val v)
  | .merge i j => .merge i j

/-- The pointers of the client after the operation, which returned `p`: it keeps new
graphs, forgets graphs given away, and does not keep pointers into its graphs. -/
def TOp.keep (regs : List Ptr) (p : Ptr) : TOp → List Ptr
  | .new _ | .clone _ => regs ++ [p]
  | .graft _ j | .addNodes _ j | .merge _ j => regs.set j none
  | _ => regs

section
variable (E : Ext) (grow : Nat → Nat → Nat) (fuel : Nat)

/-- The operation in memory, with pointers. -/
def TOp.mem (regs : List Ptr) (op : TOp) : HM (List Ptr) := do
  let p ← op.call.exec E grow fuel regs
  pure (op.keep regs p)

/-- A history on trees. -/
def treeRun : List TOp → List Graph → Res (List Graph)
  | [], gs => .ok gs
  | op :: ops, gs => op.tree E gs >>= treeRun ops

/-- The same history in memory. -/
def memRun : List TOp → List Ptr → HM (List Ptr)
  | [], regs => pure regs
  | op :: ops, regs => op.mem E grow fuel regs >>= memRun ops

end

end Ogdl.Spec
