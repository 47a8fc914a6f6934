import Verif.Spec.Tree

/-! What `Merge` does with the subnodes of two graphs (C29). -/

namespace Ogdl.Spec.Merging
open Ogdl

/-- The text of a node. -/
def name (E : Ext) (g : Graph) : Bytes := vstr E g.this

/-- The text of the first subnode of a node; empty if it has none. -/
def value (E : Ext) (g : Graph) : Bytes :=
  match g.out with
  | [] => []
  | x :: _ => name E x

/-- `Merges E o src o'`: when the nodes `src` are merged into the nodes `o`, one after the other, the
result is `o'`.  A node is added at the end if no node has its value as name.  Otherwise the first node
with that name loses its subnodes, and the subnodes of the merged node are merged into it. -/
inductive Merges (E : Ext) : List Graph → List Graph → List Graph → Prop
  | done (o : List Graph) : Merges E o [] o
  | added {o : List Graph} {n : Graph} {ns o' : List Graph} : (∀ y ∈ o, name E y ≠ value E n) →
      Merges E (o ++ [n]) ns o' → Merges E o (n :: ns) o'
  | over {a b : List Graph} {t : Val} {old : List Graph} {n : Graph} {ns r o' : List Graph} :
      (∀ y ∈ a, name E y ≠ value E n) → vstr E t = value E n → Merges E [] n.out r →
      Merges E (a ++ .node t r :: b) ns o' → Merges E (a ++ .node t old :: b) (n :: ns) o'

end Ogdl.Spec.Merging
