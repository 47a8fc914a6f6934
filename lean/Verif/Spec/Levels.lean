import Verif.Model.Val

/-!
# Specification of the tree of items with any levels (C13, C110)
-/

namespace Ogdl
namespace Spec

/-- The nodes below a node of level `l - 1` (the root, for `l = 0`) after which come the given
items: the items of level `l` up to the next item of level `l - 1`.  Items of other levels
make no difference here, wherever they are. -/
def below (l : Nat) : List (Nat × Val) → List Graph
  | [] => []
  | (k, v) :: rest =>
    if k + 1 = l then []
    else if k = l then .node v (below (l + 1) rest) :: below l rest
    else below l rest

end Spec
end Ogdl
