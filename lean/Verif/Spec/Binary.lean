import Verif.Spec.Tree

/-!
# Specification of what the binary format keeps
-/

namespace Ogdl
namespace Spec

section
variable (E : Ext)

mutual
/-- The tree as the binary format shows it: contents become their printed text, a
node whose text is empty disappears and its subnodes take its place. -/
def visible : Graph → List Graph
  | .nil => []
  | .node t o =>
    if vbytes E t = [] then visibleL o else [.node (.str (vbytes E t)) (visibleL o)]
/-- The same for a list of trees. -/
def visibleL : List Graph → List Graph
  | [] => []
  | g :: gs => visible g ++ visibleL gs
end

/-- Text that can be stored in a text node of the binary format: no NUL byte and
the first byte is not 0x01 (which announces a binary node).  The empty text
qualifies, as it is not written. -/
def Storable (b : Bytes) : Prop := 0 ∉ b ∧ b.head? ≠ some 1

/-- A graph all of whose nodes (below the root) hold storable text, with no nil
pointers, and less than 2^21 levels. -/
def Encodable (g : Graph) : Prop :=
  NoNil g ∧ AllThisL (fun v => Storable (vbytes E v)) g.out ∧ depthL (visibleL E g.out) < 2 ^ 21

end

/-- A node holding non-empty text. -/
def IsText (v : Val) : Prop := ∃ s, v = .str s ∧ s ≠ []

end Spec
end Ogdl
