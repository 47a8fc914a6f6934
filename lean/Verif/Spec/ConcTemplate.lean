import Verif.Model.ConcTemplate
import Verif.Spec.HeapTemplate

/-!
# Specification: goroutines that process templates in contexts of their own

A client has graphs in memory.  For every goroutine it makes a context, a new node with some
of the graphs as subnodes.  The graphs are not copied: a graph may be in many contexts.
-/

namespace Ogdl.Spec

/-- `c.Add(g)` for each of the graphs with the numbers `js`. -/
def fillContext (grow : Nat → Nat → Nat) (ps : List Ptr) (c : Ptr) : List Nat → HM Unit
  | [] => pure ()
  | j :: js => do
    let _ ← hAdd grow c (.ptr (ps.getD j none))
    fillContext grow ps c js

/-- `c := New("_")`, then `c.Add(g)` for each of the graphs with the numbers `js`. -/
def makeContext (grow : Nat → Nat → Nat) (ps : List Ptr) (js : List Nat) : HM Ptr := do
  let c ← hNew (.val (.str b!"_"))
  fillContext grow ps c js
  pure c

/-- A context for every goroutine. -/
def makeContexts (grow : Nat → Nat → Nat) (ps : List Ptr) : List (List Nat) → HM (List Ptr)
  | [] => pure []
  | js :: rest => do
    let c ← makeContext grow ps js
    let cs ← makeContexts grow ps rest
    pure (c :: cs)

/-- The context as a tree. -/
def contextTree (gs : List Graph) (js : List Nat) : Graph := .node (.str b!"_") (js.map fun j => gs.getD j .nil)

/-- What a goroutine writes when it processes the templates alone, on trees. -/
def writesAlone (E : Ext) (ts : List Graph) (g : Graph) : Res (List Bytes) := rendersTree E ts g >>= fun r => .ok r.1

/-- The goroutines: each processes its templates in its context. -/
def goroutines (E : Ext) (grow : Nat → Nat → Nat) (fuel : Nat) (cs : List Ptr) (tss : List (List Graph)) : List (Job (List Bytes)) :=
  List.zipWith (fun c ts => tRenders grow E fuel c ts) cs tss

end Ogdl.Spec
