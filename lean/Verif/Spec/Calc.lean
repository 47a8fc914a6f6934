import Verif.Spec.Group
import Verif.Spec.Path

/-!
# Specification of the value of an expression

`Means E g t v`: in the context `g` the expression `t` has the value `v`.  Integers
are Lean's `Int64` (two's complement, division truncates).
-/

namespace Ogdl
namespace Spec

/-- The int64 of an integer value of any Go integer type. -/
def asInt : Val → Option Int64
  | .int _ i => some (Int64.ofInt i)
  | _ => none

/-- An int64 as an `interface{}` value. -/
def ofInt64 (a : Int64) : Val := .int .int64 a.toInt

/-- The boolean that a content stands for: a bool, the texts `true` and `false`, and
the integers of type int and int64 (false is zero). -/
def truth0 : Val → Option Bool
  | .bool b => some b
  | .str s => if s = b!"true" then some true else if s = b!"false" then some false else none
  | .bytes s => if s = b!"true" then some true else if s = b!"false" then some false else none
  | .int .int i => some (i != 0)
  | .int .int64 i => some (i != 0)
  | _ => none

/-- The boolean that a value stands for; a graph stands for its content. -/
def truth : Val → Option Bool
  | .graph (.node t _) => truth0 t
  | v => truth0 v

/-- The result of an arithmetic operator; none for a division by zero. -/
def arith (op : Bytes) (a b : Int64) : Option Int64 :=
  if op = b!"+" then some (a + b)
  else if op = b!"-" then some (a - b)
  else if op = b!"*" then some (a * b)
  else if op = b!"/" then if b = 0 then none else some (a / b)
  else if op = b!"%" then if b = 0 then none else some (a % b)
  else none

/-- The result of a comparison. -/
def comparison (op : Bytes) (a b : Int64) : Option Bool :=
  if op = b!"==" then some (decide (a = b))
  else if op = b!"!=" then some (decide (a ≠ b))
  else if op = b!"<" then some (decide (a < b))
  else if op = b!"<=" then some (decide (a ≤ b))
  else if op = b!">" then some (decide (b < a))
  else if op = b!">=" then some (decide (b ≤ a))
  else none

/-- The result of a logic operator. -/
def logical (op : Bytes) (a b : Bool) : Option Bool :=
  if op = b!"&&" then some (a && b)
  else if op = b!"||" then some (a || b)
  else none

/-- A boolean operation on what two values stand for; false if one of them stands for
none. -/
def bothTruths (f : Bool → Bool → Bool) (v w : Val) : Bool :=
  match truth v, truth w with
  | some a, some b => f a b
  | _, _ => false

/-- The float64 of a number. -/
def asFloat (E : Ext) : Val → Option UInt64
  | .f64 x => some x
  | .f32 x => some (E.f32to64 x)
  | .int _ i => some (E.ofInt (Int64.ofInt i).toInt)
  | _ => none

/-- The float64 of a number, or of a text that holds one. -/
def numeric (E : Ext) : Val → Option UInt64
  | .str s => E.parseFloat s
  | v => asFloat E v

/-- The result of an arithmetic operator on floats.  The remainder is that of the
integral parts, as an int; none if the divisor has integral part zero. -/
def floatArith (E : Ext) (op : Bytes) (a b : UInt64) : Option Val :=
  if op = b!"+" then some (.f64 (E.fadd a b))
  else if op = b!"-" then some (.f64 (E.fsub a b))
  else if op = b!"*" then some (.f64 (E.fmul a b))
  else if op = b!"/" then some (.f64 (E.fdiv a b))
  else if op = b!"%" then
    if E.toInt b = 0 then none else some (.int .int (Int64.ofInt ((E.toInt a).tmod (E.toInt b))).toInt)
  else none

/-- The result of a comparison of floats. -/
def floatComparison (E : Ext) (op : Bytes) (a b : UInt64) : Option Bool :=
  if op = b!"==" then some (E.feq a b)
  else if op = b!"!=" then some (!E.feq a b)
  else if op = b!"<" then some (E.flt a b)
  else if op = b!"<=" then some (E.fle a b)
  else if op = b!">" then some (E.flt b a)
  else if op = b!">=" then some (E.fle b a)
  else none

/-- A float, not an integer. -/
def IsFloat (v : Val) : Prop := (∃ x, v = .f64 x) ∨ ∃ x, v = .f32 x

/-- Path elements with a meaning of their own in expressions. -/
def reserved : List Bytes := [b!"_len", b!"_this", b!"_thisString", b!"_string", b!"_json"]

/-- Further elements of a path, all of them names. -/
def names : List Bytes → Elems
  | [] => .nil
  | s :: ss => .cons (.name s) (names ss)

/-- The value of an operation on two values. -/
inductive Result (E : Ext) (op : Bytes) : Val → Val → Val → Prop where
  | arith {v w : Val} {a b c : Int64} : asInt v = some a → asInt w = some b → arith op a b = some c → Result E op v w (ofInt64 c)
  | compare {v w : Val} {a b : Int64} {c : Bool} : asInt v = some a → asInt w = some b → comparison op a b = some c → Result E op v w (.bool c)
  | logic {v w : Val} {a b c : Bool} : truth v = some a → truth w = some b → logical op a b = some c → Result E op v w (.bool c)
  | concat {s t : Bytes} : op = b!"+" → Result E op (.str s) (.str t) (.str (s ++ t))
  | same {s t : Bytes} : op = b!"==" → Result E op (.str s) (.str t) (.bool (decide (s = t)))
  | differ {s t : Bytes} : op = b!"!=" → Result E op (.str s) (.str t) (.bool (decide (s ≠ t)))
  /-- floats: the left side is a number, the right side a number or the text of one, and
  they are not two integers -/
  | float {v w u : Val} {a b : UInt64} : asFloat E v = some a → numeric E w = some b → asInt v = none ∨ asInt w = none →
      floatArith E op a b = some u → Result E op v w u
  /-- a float on the left is compared as float -/
  | floatCompare {v w : Val} {a b : UInt64} {c : Bool} : IsFloat v → asFloat E v = some a → numeric E w = some b →
      floatComparison E op a b = some c → Result E op v w (.bool c)

/-- The value of an expression in a context. -/
inductive Means (E : Ext) (g : Graph) : Grouping → Val → Prop where
  /-- an integer in decimal -/
  | int (i : Int64) : Means E g (.atom (.num (itoa i.toInt))) (ofInt64 i)
  /-- a number with a decimal point -/
  | float (s : Bytes) (f : UInt64) : 46 ∈ s → E.parseFloat s = some f → Means E g (.atom (.num s)) (.f64 f)
  /-- a quoted text -/
  | str (s : Bytes) : Means E g (.atom (.str s)) (.str s)
  /-- a path: the value under the node found in the context -/
  | path (id : Bytes) (ids : List Bytes) (t v : Val) : (∀ x ∈ id :: ids, x ∉ reserved) →
      lookup E (id :: ids) g = .node t [.node v []] → Means E g (.atom (.path id (names ids))) v
  /-- an operator with its two sides -/
  | bin (op : Bytes) (l r : Grouping) (v w u : Val) : Means E g l v → Means E g r w → Result E op v w u → Means E g (.bin op l r) u

/-- `p op= t` for a `p` that does not exist and a `t` with the value `v` gives `p` this value. -/
inductive Created (E : Ext) : Bytes → Val → Val → Prop where
  | add (v : Val) : Created E b!"+" v v
  | sub {v u : Val} : Result E b!"-" (.int .int 0) v u → Created E b!"-" v u
  | mul (v : Val) : Created E b!"*" v (.int .int 0)
  | div (v : Val) : Created E b!"/" v (.str b!"infinity")
  | mod (v : Val) : Created E b!"%" v (.str b!"undefined")

/-- The six assignment operators. -/
def assignments : List Bytes := [b!"=", b!"+=", b!"-=", b!"*=", b!"/=", b!"%="]

/-- No node of the expression holds an assignment operator. -/
def NoAssignment (E : Ext) (e : Graph) : Prop := AllThis (fun v => vstr E v ∉ assignments) e

/-- An expression graph, as `NewExpression` builds it, with this tree. -/
def exprOf (n : Graph) : Graph := .node (.str b!"!e") [n]

/-- The expression `l op r`. -/
def binary (op : Bytes) (l r : Graph) : Graph := exprOf (.node (.str op) [l, r])

end Spec
end Ogdl
