import Verif.Spec.Expr
import Verif.Spec.Tree

/-!
# Specification of access by path
-/

namespace Ogdl
namespace Spec

/-- Names joined by dots. -/
def dotted (ids : List Bytes) : Bytes := [46].intercalate ids

/-- The graph of a path with these names. -/
def pathOf (ids : List Bytes) : Graph := .node (.str b!"!p") (ids.map leaf)

/-- The first of the nodes with that text, or nil. -/
def firstNamed (E : Ext) (id : Bytes) (gs : List Graph) : Graph :=
  (gs.find? fun g => decide (g.thisString E = id)).getD .nil

/-- Follow the first subnode of each name; nil if there is none. -/
def lookup (E : Ext) : List Bytes → Graph → Graph
  | [], g => g
  | id :: ids, g => lookup E ids (firstNamed E id g.out)

/-- The subnodes that stand for a value: those of a graph, or one node holding it. -/
def subnodesOf : Val → List Graph
  | .nil => []
  | .graph (.node _ o) => o
  | v => [.node v []]

/-- Change the first node with that text, or a new one added at the end. -/
def updateFirst (E : Ext) (id : Bytes) (f : Graph → Graph) : List Graph → List Graph
  | [] => [f (leaf id)]
  | g :: gs => if g.thisString E = id then f g :: gs else g :: updateFirst E id f gs

/-- The graph after storing `v` at a path: missing nodes are created, and the last
node has `v` as its only subnode (or the subnodes of the graph `v`). -/
def store (E : Ext) (v : Val) : List Bytes → Graph → Graph
  | [], g => .node g.this (subnodesOf v)
  | id :: ids, g => .node g.this (updateFirst E id (store E v ids) g.out)

/-- The value is neither a function nor a pointer to something with methods. -/
def Inert (E : Ext) : Val → Prop
  | .graph g => E.callable (.graph g) = .none
  | .other t => E.callable (.other t) = .none
  | _ => True

/-- A graph of data: no nil pointers and no functions in it. -/
def Data (E : Ext) (g : Graph) : Prop := NoNil g ∧ AllThis (Inert E) g

/-- Names that can be written as a path. -/
def Path (E : Ext) (ids : List Bytes) : Prop := ids ≠ [] ∧ ∀ id ∈ ids, Name E id

end Spec
end Ogdl
