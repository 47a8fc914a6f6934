import Verif.Model.Eval
import Verif.Spec.Text

/-!
# Specification of paths and expressions as text

The syntax trees of paths and expressions, the text that writes each of them, and
the graph it stands for.  Names are made of letters, digits and underscores in UTF-8.
-/

namespace Ogdl
namespace Spec

/-- A Unicode code point that UTF-8 can encode. -/
def ValidRune (r : Nat) : Prop := r < 0xD800 ∨ (0xE000 ≤ r ∧ r ≤ 0x10FFFF)

/-- A letter, digit or underscore. -/
def NameRune (E : Ext) (r : Nat) : Prop :=
  ValidRune r ∧ (r = 95 ∨
    if r < 256 then latinLetter r = true ∨ (48 ≤ r ∧ r ≤ 57)
    else E.runeLetter r = true ∨ E.runeDigit r = true)

/-- A name: one or more letters, digits or underscores, in UTF-8. -/
def Name (E : Ext) (s : Bytes) : Prop :=
  ∃ rs : List Nat, rs ≠ [] ∧ (∀ r ∈ rs, NameRune E r) ∧ s = rs.flatMap encodeRune

/-- An ASCII letter or underscore. -/
def AsciiLetter (c : UInt8) : Prop := (65 ≤ c ∧ c ≤ 90) ∨ (97 ≤ c ∧ c ≤ 122) ∨ c = 95

/-- A decimal digit. -/
def Digit (c : UInt8) : Prop := 48 ≤ c ∧ c ≤ 57

/-- A number: optional minus sign, digits, and optionally a point and more digits. -/
def Num (s : Bytes) : Prop :=
  ∃ sign ds fs : Bytes, (sign = [] ∨ sign = [45]) ∧ ds ≠ [] ∧ (∀ c ∈ ds, Digit c) ∧
    (fs = [] ∨ ∃ gs : Bytes, fs = 46 :: gs ∧ ∀ c ∈ gs, Digit c) ∧ s = sign ++ ds ++ fs

/-- A text that can be written between double quotes: see `Quotable` in
`Verif.Spec.Text`; in a path or expression it has no line breaks. -/
def PlainStr (s : Bytes) : Prop := Quotable 0 s

/-- The binary operators. -/
def Op (s : Bytes) : Prop :=
  s ∈ [b!"+", b!"-", b!"*", b!"/", b!"%", b!"=", b!"+=", b!"-=", b!"*=", b!"/=", b!"%=",
    b!"==", b!"!=", b!">=", b!"<=", b!">", b!"<", b!"||", b!"&&"]

mutual
/-- A path element: name, "quoted name", [index], {}, {selector}, (arguments) or
.(group). -/
inductive Elem where
  | name (s : Bytes)
  | quoted (s : Bytes)
  | index (x : Expr)
  | all
  | select (x : Expr)
  | call (as : Args)
  | group (as : Args)
/-- Further elements of a path. -/
inductive Elems where
  | nil
  | cons (e : Elem) (es : Elems)
/-- An operand: a path that starts with a name, a number, a string, or a
parenthesized expression. -/
inductive Opnd where
  | path (s : Bytes) (es : Elems)
  | num (s : Bytes)
  | str (s : Bytes)
  | paren (x : Expr)
/-- Operands separated by binary operators. -/
inductive Expr where
  | one (o : Opnd)
  | op (o : Opnd) (s : Bytes) (x : Expr)
/-- The arguments of a call. -/
inductive Args where
  | nil
  | cons (x : Expr) (as : Args)
end

mutual
/-- The text of an element; `first` at the beginning of a path, where no dot is
written. -/
def Elem.text (first : Bool) : Elem → Bytes
  | .name s => if first then s else 46 :: s
  | .quoted s => (if first then [] else [46]) ++ 34 :: escape 0 34 s ++ [34]
  | .index x => 91 :: x.text ++ [93]
  | .all => b!"{}"
  | .select x => 123 :: x.text ++ [125]
  | .call as => 40 :: as.text ++ [41]
  | .group as => (if first then [] else [46]) ++ 40 :: as.text ++ [41]
/-- The text of the further elements of a path. -/
def Elems.text : Elems → Bytes
  | .nil => []
  | .cons e es => e.text false ++ es.text
/-- The text of an operand. -/
def Opnd.text : Opnd → Bytes
  | .path s es => s ++ es.text
  | .num s => s
  | .str s => 34 :: escape 0 34 s ++ [34]
  | .paren x => 40 :: x.text ++ [41]
/-- The text of an expression: operators with a space on both sides. -/
def Expr.text : Expr → Bytes
  | .one o => o.text
  | .op o s x => o.text ++ 32 :: s ++ 32 :: x.text
/-- The text of a list of arguments, separated by commas. -/
def Args.text : Args → Bytes
  | .nil => []
  | .cons x as => x.text ++ as.textTail
/-- The text of the arguments after the first. -/
def Args.textTail : Args → Bytes
  | .nil => []
  | .cons x as => 44 :: 32 :: x.text ++ as.textTail
end

/-- A node without subnodes holding a text. -/
def leaf (s : Bytes) : Graph := .node (.str s) []

mutual
/-- The node of an element. -/
def Elem.tree : Elem → Graph
  | .name s => leaf s
  | .quoted s => leaf s
  | .index x => .node (.str b!"!i") x.trees
  | .all => leaf b!"!s"
  | .select x => .node (.str b!"!s") x.trees
  | .call as => .node (.str b!"!a") as.trees
  | .group as => .node (.str b!"!g") as.trees
/-- The nodes of the elements of a path. -/
def Elems.trees : Elems → List Graph
  | .nil => []
  | .cons e es => e.tree :: es.trees
/-- The node of an operand. -/
def Opnd.tree : Opnd → Graph
  | .path s es => .node (.str b!"!p") (leaf s :: es.trees)
  | .num s => leaf s
  | .str s => .node (.str b!"!string") [leaf s]
  | .paren x => .node (.str b!"!g") x.trees
/-- The operands and operators of an expression, from left to right. -/
def Expr.trees : Expr → List Graph
  | .one o => [o.tree]
  | .op o s x => o.tree :: leaf s :: x.trees
/-- The nodes of the arguments. -/
def Args.trees : Args → List Graph
  | .nil => []
  | .cons x as => .node (.str b!"!e") x.trees :: as.trees
end

mutual
/-- All names, numbers, strings and operators in it are well formed. -/
def Elem.Ok (E : Ext) : Elem → Prop
  | .name s => Name E s
  | .quoted s => PlainStr s
  | .index x => x.Ok E
  | .all => True
  | .select x => x.Ok E
  | .call as => as.Ok E
  | .group as => as.Ok E
def Elems.Ok (E : Ext) : Elems → Prop
  | .nil => True
  | .cons e es => e.Ok E ∧ es.Ok E
/-- The first name in an expression must start with an ASCII letter or underscore. -/
def Opnd.Ok (E : Ext) : Opnd → Prop
  | .path s es => Name E s ∧ (∃ c t, s = c :: t ∧ AsciiLetter c) ∧ es.Ok E
  | .num s => Num s
  | .str s => PlainStr s
  | .paren x => x.Ok E
def Expr.Ok (E : Ext) : Expr → Prop
  | .one o => o.Ok E
  | .op o s x => o.Ok E ∧ Op s ∧ x.Ok E
def Args.Ok (E : Ext) : Args → Prop
  | .nil => True
  | .cons x as => x.Ok E ∧ as.Ok E
end

end Spec
end Ogdl
