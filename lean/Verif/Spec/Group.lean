import Verif.Spec.Expr

/-!
# Specification of operator precedence

A sequence operand, operator, operand, … is grouped into a tree: operators of a
higher level bind tighter, and among equal levels the left one.
-/

namespace Ogdl
namespace Spec

/-- The level of a binary operator: the higher, the tighter it binds. -/
def level (s : Bytes) : Nat :=
  if s ∈ [b!"*", b!"/", b!"%"] then 5
  else if s ∈ [b!"+", b!"-"] then 4
  else if s ∈ [b!"==", b!"!=", b!"<", b!">", b!"<=", b!">="] then 3
  else if s = b!"&&" then 2
  else if s = b!"||" then 1
  else 0

/-- A way to group operands and operators. -/
inductive Grouping where
  | atom (o : Opnd)
  | bin (op : Bytes) (l r : Grouping)

namespace Grouping

/-- The operands and operators from left to right. -/
def tokens : Grouping → List Graph
  | .atom o => [o.tree]
  | .bin op l r => l.tokens ++ leaf op :: r.tokens

/-- The text, with a space on both sides of an operator. -/
def text : Grouping → Bytes
  | .atom o => o.text
  | .bin op l r => l.text ++ 32 :: op ++ 32 :: r.text

/-- The syntax tree: each operator with its left and its right side as subnodes. -/
def tree : Grouping → Graph
  | .atom o => o.tree
  | .bin op l r => .node (.str op) [l.tree, r.tree]

/-- The outermost operator, if any, has at least this level. -/
def AtLeast (k : Nat) : Grouping → Prop
  | .atom _ => True
  | .bin op _ _ => k ≤ level op

/-- Grouped by precedence: the operators on the left side of an operator bind at
least as tight, and those on its right side bind tighter. -/
def Ok (E : Ext) : Grouping → Prop
  | .atom o => o.Ok E
  | .bin op l r => Op op ∧ l.AtLeast (level op) ∧ r.AtLeast (level op + 1) ∧ l.Ok E ∧ r.Ok E

end Grouping

mutual
/-- The element has no argument list in it. -/
def Elem.NoArgs : Elem → Prop
  | .name _ => True
  | .quoted _ => True
  | .index x => x.NoArgs
  | .all => True
  | .select x => x.NoArgs
  | .call _ => False
  | .group _ => False
/-- No argument lists in the elements. -/
def Elems.NoArgs : Elems → Prop
  | .nil => True
  | .cons e es => e.NoArgs ∧ es.NoArgs
/-- No argument lists in the operand. -/
def Opnd.NoArgs : Opnd → Prop
  | .path _ es => es.NoArgs
  | .num _ => True
  | .str _ => True
  | .paren x => x.NoArgs
/-- No argument lists in the expression. -/
def Expr.NoArgs : Expr → Prop
  | .one o => o.NoArgs
  | .op o _ x => o.NoArgs ∧ x.NoArgs
end

/-- No argument lists in any operand. -/
def Grouping.NoArgs : Grouping → Prop
  | .atom o => o.NoArgs
  | .bin _ l r => l.NoArgs ∧ r.NoArgs

/-! ### Argument lists

In the tree of an expression of two or more operands the arguments of calls are grouped
too.  An operand alone is left as it was read, with its arguments. -/

/-- A way to group nodes. -/
inductive Grouped where
  | atom (n : Graph)
  | bin (op : Bytes) (l r : Grouped)

namespace Grouped

/-- The tree. -/
def tree : Grouped → Graph
  | .atom n => n
  | .bin op l r => .node (.str op) [l.tree, r.tree]

/-- Adding an operator and an operand at the end: below the operators on the right edge
that bind less tight. -/
def snoc (s : Bytes) (a : Graph) : Grouped → Grouped
  | .atom n => .bin s (.atom n) (.atom a)
  | .bin op l r => if level op < level s then .bin op l (snoc s a r) else .bin s (.bin op l r) (.atom a)

/-- Adding a sequence operator, operand, operator, … at the end. -/
def extend (t : Grouped) : List Graph → Grouped
  | .node (.str s) _ :: a :: rest => (t.snoc s a).extend rest
  | _ => t

end Grouped

mutual
/-- The node of an element, arguments grouped. -/
def Elem.full : Elem → Graph
  | .name s => leaf s
  | .quoted s => leaf s
  | .index x => .node (.str b!"!i") x.fulls
  | .all => leaf b!"!s"
  | .select x => .node (.str b!"!s") x.fulls
  | .call as => .node (.str b!"!a") as.fulls
  | .group as => .node (.str b!"!g") as.fulls
/-- The same for the elements of a path. -/
def Elems.fulls : Elems → List Graph
  | .nil => []
  | .cons e es => e.full :: es.fulls
/-- The node of an operand, arguments grouped. -/
def Opnd.full : Opnd → Graph
  | .path s es => .node (.str b!"!p") (leaf s :: es.fulls)
  | .num s => leaf s
  | .str s => .node (.str b!"!string") [leaf s]
  | .paren x => .node (.str b!"!g") x.fulls
/-- The operands and operators from left to right, arguments grouped. -/
def Expr.fulls : Expr → List Graph
  | .one o => [o.full]
  | .op o s x => o.full :: leaf s :: x.fulls
/-- The tree of an argument. -/
def Expr.argument : Expr → Graph
  | .one o => o.tree
  | .op o s x => ((Grouped.atom o.full).extend (leaf s :: x.fulls)).tree
/-- The nodes of arguments. -/
def Args.fulls : Args → List Graph
  | .nil => []
  | .cons x as => .node (.str b!"!e") [x.argument] :: as.fulls
end

namespace Grouping

/-- The same grouping of the nodes of the operands, arguments grouped. -/
def nodes : Grouping → Grouped
  | .atom o => .atom o.full
  | .bin op l r => .bin op l.nodes r.nodes

/-- The syntax tree, also of the arguments of calls. -/
def full : Grouping → Graph
  | .atom o => o.tree
  | .bin op l r => (Grouped.bin op l.nodes r.nodes).tree

end Grouping

end Spec
end Ogdl
