import Verif.Model.Go

/-! # Merging what several goroutines do -/

namespace Ogdl
namespace Spec

/-- `l` is a merge of the lists `ls`: every element of each of them once, those of the
same list in their order. -/
inductive Merge {α : Type} : List (List α) → List α → Prop where
  | nil (ls : List (List α)) : (∀ l ∈ ls, l = []) → Merge ls []
  | snoc (ls : List (List α)) (l : List α) (i : Nat) (r : List α) (x : α) :
      Merge ls l → ls[i]? = some r → Merge (ls.set i (r ++ [x])) (l ++ [x])

/-- The position in a file that began as `d` at which the `k`-th of the records starts
that were written behind each other. -/
def startOf (d : Bytes) (recs : List Bytes) (k : Nat) : Int := ((d ++ (recs.take k).flatten).length : Nat)

end Spec
end Ogdl
