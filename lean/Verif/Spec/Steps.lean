import Verif.Spec.Calc

/-!
# Specification of paths with indexes and selectors

A path is a list of steps: a name, a name with a selector (`name{}` or `name{k}`) or an
index (`[i]`).  Index and selector are operands (a number or a path such as `a.b`) that
have an integer value in the context.
-/

namespace Ogdl
namespace Spec

/-- A step of a path; the number is the value of the operand. -/
inductive PStep where
  | name (s : Bytes)
  | all (s : Bytes)
  | nth (s : Bytes) (o : Opnd) (k : Nat)
  | index (o : Opnd) (i : Nat)

/-- The elements of the path that write a step. -/
def PStep.elems : PStep → List Elem
  | .name s => [.name s]
  | .all s => [.name s, .all]
  | .nth s o _ => [.name s, .select (.one o)]
  | .index o _ => [.index (.one o)]

/-- A list of elements. -/
def elemsOf : List Elem → Elems
  | [] => .nil
  | e :: es => .cons e (elemsOf es)

/-- The text of a path: the first element without a dot. -/
def stepsText (ss : List PStep) : Bytes :=
  match ss.flatMap PStep.elems with
  | [] => []
  | e :: es => e.text true ++ (elemsOf es).text

/-- In the context `g` the operand has the value `k`; the largest int64 is left out. -/
def HasIndex (E : Ext) (g : Graph) (o : Opnd) (k : Nat) : Prop :=
  o.Ok E ∧ k < 2 ^ 63 - 1 ∧ ∃ v, Means E g (.atom o) v ∧ asInt v = some (Int64.ofInt k)

/-- The step is well formed and its operand has the number as value in the context `g`. -/
def PStep.Ok (E : Ext) (g : Graph) : PStep → Prop
  | .name s => Name E s
  | .all s => Name E s
  | .nth s o k => Name E s ∧ HasIndex E g o k
  | .index o i => HasIndex E g o i

/-- The nodes with that text. -/
def allNamed (E : Ext) (s : Bytes) (gs : List Graph) : List Graph := gs.filter fun g => decide (g.thisString E = s)

/-- The subnodes that a selector on `s` gives, if there is a node with that text:
those of all the nodes with that text, or those of the `k`-th, counted from 0. -/
def selected (E : Ext) (s : Bytes) (k : Option Nat) (gs : List Graph) : List Graph :=
  match k with
  | none => (allNamed E s gs).flatMap Graph.out
  | some k => match (allNamed E s gs)[k]? with
    | some n => n.out
    | none => []

/-- What `Get` finds.  A name that is missing gives nil.  A selector gives a node `{`
with the selected subnodes, an index a node `[` whose only subnode is the one at that
place; no value (`none`) if there is none there. -/
def follow (E : Ext) : List PStep → Graph → Option Graph
  | [], g => some g
  | _ :: _, .nil => some .nil
  | .name s :: ss, g => follow E ss (firstNamed E s g.out)
  | .all s :: ss, g =>
    if (firstNamed E s g.out).isNil then some .nil
    else follow E ss (.node (.str b!"{") (selected E s none g.out))
  | .nth s _ k :: ss, g =>
    if (firstNamed E s g.out).isNil then some .nil
    else follow E ss (.node (.str b!"{") (selected E s (some k) g.out))
  | .index _ i :: ss, g =>
    match g.out[i]? with
    | some x => follow E ss (.node (.str b!"[") [x])
    | none => none

/-- The node that a path in an expression leads to, if every step finds something.
Here an index leads to the subnode itself. -/
def reach (E : Ext) : List PStep → Graph → Option Graph
  | [], g => some g
  | .name s :: ss, g =>
    if (firstNamed E s g.out).isNil then none else reach E ss (firstNamed E s g.out)
  | .all s :: ss, g =>
    if (firstNamed E s g.out).isNil then none
    else reach E ss (.node (.str b!"{") (selected E s none g.out))
  | .nth s _ k :: ss, g =>
    if (firstNamed E s g.out).isNil then none
    else reach E ss (.node (.str b!"{") (selected E s (some k) g.out))
  | .index _ i :: ss, g => g.out[i]?.bind (reach E ss)

/-- Does the path end with an index? -/
def endsWithIndex (ss : List PStep) : Bool :=
  match ss.getLast? with
  | some (.index _ _) => true
  | _ => false

/-- The value of a node: the content of its only subnode, if that has no subnodes;
otherwise the node itself. -/
def valueOf : Graph → Val
  | .node _ [.node v []] => v
  | n => .graph n

/-- The value of a path in an expression that leads to the node `n`: after an index, `n`
itself is the only subnode looked at. -/
def pathValue (ss : List PStep) (n : Graph) : Val :=
  if endsWithIndex ss then valueOf (.node (.str b!"[") [n]) else valueOf n

/-- Is it an index? -/
def PStep.isIndex : PStep → Bool
  | .index _ _ => true
  | _ => false

/-- Only the last step may be an index. -/
def IndexAtEnd : List PStep → Prop
  | [] => True
  | [_] => True
  | s :: s' :: ss => s.isIndex = false ∧ IndexAtEnd (s' :: ss)

/-- The names in the path have no meaning of their own in expressions. -/
def PStep.NotReserved : PStep → Prop
  | .name s => s ∉ reserved
  | .all s => s ∉ reserved
  | .nth s _ _ => s ∉ reserved
  | .index _ _ => True

/-- The path starts with a name that begins with an ASCII letter or an underscore, as the
first name in an expression must. -/
def StartsWithName : List PStep → Prop
  | .name s :: _ | .all s :: _ | .nth s _ _ :: _ => ∃ c t, s = c :: t ∧ AsciiLetter c
  | _ => False

/-- A literal index. -/
def litIndex (i : Nat) : PStep := .index (.num (itoa i)) i

/-- The text of a path of names followed by an index: `a.b[3]`. -/
def indexed (p : List Bytes) (i : Nat) : Bytes := dotted p ++ b!"[" ++ itoa i ++ b!"]"

/-- Put the value `v` at place `i` among the subnodes.  If there are fewer, nil pointers
fill the places between. -/
def putIndex (v : Val) (i : Nat) (g : Graph) : Graph :=
  .node g.this (if i < g.out.length then g.out.set i (.node v [])
    else g.out ++ List.replicate (i - g.out.length) .nil ++ [.node v []])

/-- Change the node at a path; missing nodes are created. -/
def changeAt (E : Ext) (f : Graph → Graph) : List Bytes → Graph → Graph
  | [], g => f g
  | id :: ids, g => .node g.this (updateFirst E id (changeAt E f ids) g.out)

end Spec
end Ogdl
