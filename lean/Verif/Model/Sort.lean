import Verif.Model.Eval

/-!
# sort.go

`sort.Sort` of the standard library is a parameter: any algorithm that sorts.
-/

namespace Ogdl

/-- `sort.Sort`: an algorithm that reorders a slice using `Less`. sort.go:15, 20 and 42. -/
structure Sorter where
  run : {α : Type} → (α → α → Bool) → List α → List α

/-- The documented contract of `sort.Sort`: if `Less` is a strict weak order, the
result is a reordering in which no element is less than an earlier one.
The package `sort`, called in sort.go:15, 20 and 42. -/
def Sorter.Correct (S : Sorter) : Prop :=
  ∀ (α : Type) (less : α → α → Bool) (l : List α),
    (∀ a b, less a b = true → less b a = false) →
    (∀ a b c, less b a = false → less c b = false → less c a = false) →
    (S.run less l).Perm l ∧ (S.run less l).Pairwise (fun a b => less b a = false)

/-- `strings.Compare(a, b) == -1` (sort.go:29): bytewise. -/
def strLess : Bytes → Bytes → Bool
  | _, [] => false
  | [], _ :: _ => true
  | a :: as, b :: bs => if a < b then true else if b < a then false else strLess as bs

section
variable (E : Ext)

/-- sort.go:26-27 `g.array[i].Get(g.fields).String()` -/
def textKey (field : Bytes) (n : Graph) : Res Bytes := do
  let (r, _) ← n.get E field
  r.string E

/-- sort.go:48-49 `g.array[i].Get(g.fields).Int64()` -/
def intKey (field : Bytes) (n : Graph) : Res Int := do
  let (r, _) ← n.get E field
  r.int64 E

/-- Each node with its key; the first panic ends it. sort.go:24-30 and 46-52. -/
def withKeys {κ : Type} (key : Graph → Res κ) : List Graph → Res (List (Graph × κ))
  | [] => .ok []
  | n :: ns => do
    let k ← key n
    let r ← withKeys key ns
    .ok ((n, k) :: r)

/-- Sort nodes by their keys.  Simplifications: the keys are computed once, before
sorting (they do not change while sorting, unless the field contains an assignment);
with fewer than two nodes `Less` is never called. sort.go:13-21 and 40-43. -/
def sortNodes {κ : Type} (S : Sorter) (key : Graph → Res κ) (less : κ → κ → Bool) (o : List Graph) : Res (List Graph) :=
  if o.length < 2 then .ok o
  else do
    let ks ← withKeys key o
    .ok ((S.run (fun a b => less a.2 b.2) ks).map (·.1))

/-- sort.go:13-16 `Sort` and 18-21 `SortAsString`, with Less of 24-30; `g.Out` panics on
a nil graph. -/
def Graph.sort (S : Sorter) (field : Bytes) : Graph → Res Graph
  | .nil => .panic
  | .node t o => do
    let o' ← sortNodes S (textKey E field) strLess o
    .ok (.node t o')

/-- sort.go:40-43 `SortAsInt`, with Less of 46-52. -/
def Graph.sortAsInt (S : Sorter) (field : Bytes) : Graph → Res Graph
  | .nil => .panic
  | .node t o => do
    let o' ← sortNodes S (intKey E field) (fun a b => decide (a < b)) o
    .ok (.node t o')

end
end Ogdl
