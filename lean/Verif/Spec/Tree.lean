import Verif.Model.Graph

/-!
# Specification vocabulary for trees

Independent of any function of the code: the preorder listing of a tree with
depths, absence of nil pointers, depth, valid level sequences.
-/

namespace Ogdl
namespace Spec

mutual
/-- The contents of a tree in document order, each with its depth; the root is
at depth `d`. -/
def preorder (d : Nat) : Graph → List (Nat × Val)
  | .nil => []
  | .node t o => (d, t) :: preorderL (d + 1) o
/-- The same for a list of trees whose roots are at depth `d`. -/
def preorderL (d : Nat) : List Graph → List (Nat × Val)
  | [] => []
  | g :: gs => preorder d g ++ preorderL d gs
end

mutual
/-- No nil pointer at any place in the tree. -/
def NoNil : Graph → Prop
  | .nil => False
  | .node _ o => NoNilL o
/-- No nil pointer in any of the trees. -/
def NoNilL : List Graph → Prop
  | [] => True
  | g :: gs => NoNil g ∧ NoNilL gs
end

mutual
/-- Number of levels of a tree. -/
def depth : Graph → Nat
  | .nil => 0
  | .node _ o => depthL o + 1
/-- Maximum of the depths of the trees. -/
def depthL : List Graph → Nat
  | [] => 0
  | g :: gs => max (depth g) (depthL gs)
end

mutual
/-- A predicate holds of the content of every node of the tree. -/
def AllThis (P : Val → Prop) : Graph → Prop
  | .nil => True
  | .node t o => P t ∧ AllThisL P o
/-- A predicate holds of the content of every node of the trees. -/
def AllThisL (P : Val → Prop) : List Graph → Prop
  | [] => True
  | g :: gs => AllThis P g ∧ AllThisL P gs
end

/-- A sequence of (level, item) in which no level exceeds the previous one by
more than one, where the one before the first is `prev`. -/
def Steps : Nat → List (Nat × Val) → Prop
  | _, [] => True
  | prev, (l, _) :: rest => l ≤ prev + 1 ∧ Steps l rest

/-- A valid event sequence: it starts at level 0 and grows by at most one level at
a time. -/
def ValidLevels : List (Nat × Val) → Prop
  | [] => True
  | (l, _) :: rest => l = 0 ∧ Steps l rest

end Spec
end Ogdl
