import Verif.Spec.Layout
import Verif.Spec.Path
import Verif.Spec.Fits
import Verif.Spec.Xml
import Verif.Model.Cmd

/-! # Specification of the programs -/

namespace Ogdl
namespace Spec

/-- A file with these trees: unindented lines, the last one ended, no long runs of blanks. -/
def FileOf (E : Ext) (gs : List Graph) (t : Bytes) : Prop := Writes E false 0 gs t false ∧ ShortRuns t

section
variable (E : Ext)

mutual
/-- The trees that stand for a JSON value: a leaf with the text of a scalar, nothing for
null and the empty text, one `_` node for each element of an array, a `_` node with the
members for an object. -/
def jsonTrees : Json → List Graph
  | .null => []
  | .bool true => [.node (.str b!"true") []]
  | .bool false => [.node (.str b!"false") []]
  | .int i => [.node (.str (itoa i)) []]
  | .float f => [.node (.str (E.fmtF64 f)) []]
  | .str s => if s = [] then [] else [.node (.str s) []]
  | .arr l => jsonElems l
  | .obj l => [.node (.str b!"_") (jsonMembers l)]
/-- The elements of an array. -/
def jsonElems : List Json → List Graph
  | [] => []
  | j :: js => .node (.str b!"_") (jsonTrees j) :: jsonElems js
/-- The members of an object. -/
def jsonMembers : List (Bytes × Json) → List Graph
  | [] => []
  | (k, j) :: js => .node (.str k) (jsonTrees j) :: jsonMembers js
end
end

section
variable (E : Ext)
mutual
/-- No node `field` with a single value in its first subnode `@name`. -/
def FieldFree : Graph → Prop
  | .nil => True
  | .node v o => (∀ k c rest, o = .node k [c] :: rest → ¬ (vstr E v = b!"field" ∧ vstr E k = b!"@name")) ∧ FieldFreeL o
/-- The same for a list. -/
def FieldFreeL : List Graph → Prop
  | [] => True
  | g :: gs => FieldFree g ∧ FieldFreeL gs
end
end

section
variable (X : XmlExt)
mutual
/-- No element `field` has `name` as its first attribute. -/
def NoField : XmlItem → Prop
  | .elem name attrs items => (∀ a rest, attrs = a :: rest → a.1 = b!"name" → xmlName X name ≠ b!"field") ∧ NoFieldL items
  | _ => True
/-- The same for items in a row. -/
def NoFieldL : List XmlItem → Prop
  | [] => True
  | i :: is => NoField i ∧ NoFieldL is
end
end

end Spec
end Ogdl
