import Verif.Spec.Refine
import Verif.Spec.Calc
import Verif.Model.HeapEval

/-!
# Memory that shows a tree

Used by C99 to C101.  Other than with `Holds`, a node may be met several times.
-/

namespace Ogdl.Spec
open Ogdl

mutual
/-- What the pointer leads to is the tree, made of nodes at addresses in `P`; no subnode is
nil. -/
def Shows (P : Nat → Prop) (h : Heap) : Graph → Ptr → Prop
  | .nil, p => p = none
  | .node v gs, p => ∃ a x ps, p = some a ∧ P a ∧ look h a = some (x, ps) ∧ ShowsV P h v x ∧ ShowsL P h gs ps
/-- The same for a value, which may be a graph. -/
def ShowsV (P : Nat → Prop) (h : Heap) : Val → HVal → Prop
  | .graph g, x => ∃ p, x = .ptr p ∧ Shows P h g p
  | v, x => x = .val v
/-- The same for a list of subnodes. -/
def ShowsL (P : Nat → Prop) (h : Heap) : List Graph → List Ptr → Prop
  | [], ps => ps = []
  | g :: gs, ps => g ≠ .nil ∧ ∃ p ps', ps = p :: ps' ∧ Shows P h g p ∧ ShowsL P h gs ps'
end

mutual
/-- No subnode is nil, also in contents that are graphs. -/
def Whole : Graph → Prop
  | .nil => True
  | .node v gs => WholeV v ∧ WholeL gs
/-- The same for a value. -/
def WholeV : Val → Prop
  | .graph g => Whole g
  | _ => True
/-- The same for a list of subnodes. -/
def WholeL : List Graph → Prop
  | [] => True
  | g :: gs => g ≠ .nil ∧ Whole g ∧ WholeL gs
end

/-- The functions and methods that can be called return graphs without nil subnodes. -/
def WholeCalls (E : Ext) : Prop :=
  ∀ v, match E.callable v with
    | .none => True
    | .func _ _ fn => ∀ args r, fn args = some (some r) → WholeV r
    | .ptr method => ∀ s ins fn args r, method s = some (ins, fn) → fn args = some (some r) → WholeV r

/-! ## Evaluations one after the other -/

/-- A value as the context of a later evaluation. -/
def asGraph : Val → Graph
  | .graph g => g
  | _ => .nil

/-- The same in memory. -/
def asPtr : HVal → Ptr
  | .ptr p => p
  | _ => none

/-- Evaluate expressions one after the other, each in the context of one of the graphs or of
an earlier result; on trees. -/
def looksTree (E : Ext) : List (Nat × Graph) → List Graph → Res (List (Val × Option Err))
  | [], _ => .ok []
  | (i, e) :: ls, gs => (gs.getD i .nil).eval E e >>= fun r => looksTree E ls (gs ++ [asGraph r.1.1]) >>= fun rs => .ok (r.1 :: rs)

/-- The same in memory. -/
def looksMem (E : Ext) (grow : Nat → Nat → Nat) (fuel : Nat) : List (Nat × Graph) → List Ptr → HM (List (HVal × Option Err))
  | [], _ => pure []
  | (i, e) :: ls, ps => do
    let r ← hEval grow E fuel (held ps i) (evalFuel e) e
    let rs ← looksMem E grow fuel ls (ps ++ [asPtr r.1])
    pure (r :: rs)

/-- The results in memory are those on trees. -/
inductive SameResults (h : Heap) : List (HVal × Option Err) → List (Val × Option Err) → Prop where
  | nil : SameResults h [] []
  | cons {x : HVal} {v : Val} {err : Option Err} {xs : List (HVal × Option Err)} {vs : List (Val × Option Err)} :
      ShowsV (fun _ => True) h v x → SameResults h xs vs → SameResults h ((x, err) :: xs) ((v, err) :: vs)

/-! ## A client that also evaluates expressions -/

/-- Operations of the client: those of C78; `ask` evaluates an expression in the context of a
graph and keeps a copy of the value; `assign` evaluates `p o e`, where `o` is an assignment
operator, in the context of a graph. -/
inductive AOp where
  | op (o : TOp)
  | ask (i : Nat) (e : Graph)
  | assign (i : Nat) (o : Bytes) (p e : Graph)

/-- The operations that the theorem speaks of, if the client has these graphs.  Expressions,
and the graphs in which they are evaluated, have no nil subnodes.  Expressions asked for, and
the two sides of an assignment, hold no assignment.  The left side is made of names and
indexes.  The value assigned is not a graph. -/
def AOp.Valid (E : Ext) (gs : List Graph) : AOp → Prop
  | .op o => o.Valid E
  | .ask i e => Whole (gs.getD i .nil) ∧ Whole e ∧ NoAssignment E e
  | .assign i o p e => Whole (gs.getD i .nil) ∧ o ∈ assignments ∧ Whole p ∧ NoAssignment E p ∧ Whole e ∧ NoAssignment E e ∧
      (∃ ss, PathSteps E p.out ss) ∧ ∀ v g', (gs.getD i .nil).eval E (exprOf e) = .ok ((v, none), g') → NoGraph v

/-- The operation on trees: the graphs of the client, and what it learns. -/
def AOp.tree (E : Ext) (gs : List Graph) : AOp → Res (List Graph × List (Val × Option Err))
  | .op o => o.tree E gs >>= fun gs' => .ok (gs', [])
  | .ask i e => (gs.getD i .nil).eval E e >>= fun r => .ok (gs, [r.1])
  | .assign i o p e => (gs.getD i .nil).eval E (binary o p e) >>= fun r => .ok (gs.set i r.2, [])

/-- A history on trees. -/
def askTree (E : Ext) : List AOp → List Graph → Res (List Graph × List (Val × Option Err))
  | [], gs => .ok (gs, [])
  | op :: ops, gs => op.tree E gs >>= fun r => askTree E ops r.1 >>= fun r' => .ok (r'.1, r.2 ++ r'.2)

/-- All operations of the history are valid when their turn comes. -/
def ValidRun (E : Ext) : List AOp → List Graph → Prop
  | [], _ => True
  | op :: ops, gs => op.Valid E gs ∧ ∀ r, op.tree E gs = .ok r → ValidRun E ops r.1

section
variable (E : Ext) (grow : Nat → Nat → Nat) (fuel : Nat)

/-- The operation in memory, with pointers. -/
def AOp.mem (regs : List Ptr) : AOp → HM (List Ptr × List (Val × Option Err))
  | .op o => do
    let regs' ← o.mem E grow fuel regs
    pure (regs', [])
  | .ask i e => do
    let r ← hEval grow E fuel (held regs i) (evalFuel e) e
    let v ← hValue fuel r.1
    pure (regs, [(v, r.2)])
  | .assign i o p e => do
    let _ ← hEval grow E fuel (held regs i) (evalFuel (binary o p e)) (binary o p e)
    pure (regs, [])

/-- The same history in memory. -/
def askMem : List AOp → List Ptr → HM (List Ptr × List (Val × Option Err))
  | [], regs => pure (regs, [])
  | op :: ops, regs => do
    let r ← op.mem E grow fuel regs
    let r' ← askMem ops r.1
    pure (r'.1, r.2 ++ r'.2)

end

/-! ## Nodes reached by a path -/

/-- Path elements that are not names of nodes. -/
def stepMarks : List Bytes := [b!"!i", b!"!s", b!"!a", b!"!g"] ++ reserved

/-- The graph with the node that the path leads to replaced by another one. -/
def replaceAt (E : Ext) : List Bytes → Graph → Graph → Graph
  | [], r, _ => r
  | _ :: _, _, .nil => .nil
  | id :: ids, r, .node t o => .node t (updateFirst E id (replaceAt E ids r) o)

/-- The operation gives away graph `k`. -/
def AOp.Takes (k : Nat) : AOp → Prop
  | .op (.graft _ j) | .op (.addNodes _ j) | .op (.merge _ j) => j = k
  | _ => False

end Ogdl.Spec
