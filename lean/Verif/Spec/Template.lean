import Verif.Model.Template
import Verif.Spec.Group
import Verif.Spec.Path
import Verif.Spec.Calc
import Verif.Spec.Fits

/-!
# Specification of templates as text

The pieces a template is made of, the text that writes them, and the tree they stand
for.
-/

namespace Ogdl
namespace Spec

mutual
/-- A piece of a template. -/
inductive Item where
  /-- plain text -/
  | plain (s : Bytes)
  /-- a dollar sign, written `$\` -/
  | dollar
  /-- `$a.b.c`, or `${a.b.c}` if braced -/
  | var (id : Bytes) (ids : List Bytes) (braced : Bool)
  /-- an expression that is evaluated silently, `$(…)` -/
  | expr (x : Grouping)
  /-- `$if(c)`, a body and what follows it -/
  | cond (c : Grouping) (body : Items) (more : Branches)
  /-- `$for(v, a.b.c)`, a body and `$end` -/
  | loop (v id : Bytes) (ids : List Bytes) (body : Items)
  /-- `$break` -/
  | brk
/-- A template. -/
inductive Items where
  | nil
  | cons (i : Item) (is : Items)
/-- What follows the body of an if. -/
inductive Branches where
  /-- `$end` -/
  | done
  /-- `$else`, a body and `$end` -/
  | els (body : Items)
  /-- `$elseif(c)`, a body and what follows it -/
  | elif (c : Grouping) (body : Items) (more : Branches)
end

mutual
/-- The text of a piece. -/
def Item.text : Item → Bytes
  | .plain s => s
  | .dollar => b!"$\\"
  | .var id ids false => 36 :: dotted (id :: ids)
  | .var id ids true => b!"${" ++ dotted (id :: ids) ++ b!"}"
  | .expr x => b!"$(" ++ x.text ++ b!")"
  | .cond c body more => b!"$if(" ++ c.text ++ b!")" ++ body.text ++ more.text
  | .loop v id ids body => b!"$for(" ++ v ++ b!", " ++ dotted (id :: ids) ++ b!")" ++ body.text ++ b!"$end"
  | .brk => b!"$break"
/-- The text of a template. -/
def Items.text : Items → Bytes
  | .nil => []
  | .cons i is => i.text ++ is.text
/-- The text of the further branches of an if. -/
def Branches.text : Branches → Bytes
  | .done => b!"$end"
  | .els body => b!"$else" ++ body.text ++ b!"$end"
  | .elif c body more => b!"$elseif(" ++ c.text ++ b!")" ++ body.text ++ more.text
end

mutual
/-- The nodes of a piece in the tree of a template. -/
def Item.trees : Item → List Graph
  | .plain s => [leaf s]
  | .dollar => [leaf b!"$"]
  | .var id ids _ => [pathOf (id :: ids)]
  | .expr x => [exprOf x.full]
  | .cond c body more =>
    .node (.str b!"!if") [.node (.str b!"!a") [exprOf c.full], .node (.str b!"!t") body.trees] :: more.trees
  | .loop v id ids body =>
    [.node (.str b!"!for")
      [.node (.str b!"!a") [exprOf (pathOf [v]), exprOf (pathOf (id :: ids))],
       .node (.str b!"!t") body.trees]]
  | .brk => [.node (.str b!"!break") []]
/-- The nodes of a template. -/
def Items.trees : Items → List Graph
  | .nil => []
  | .cons i is => i.trees ++ is.trees
/-- The nodes of the further branches: beside the `!if` node, not below it. -/
def Branches.trees : Branches → List Graph
  | .done => []
  | .els body => [.node (.str b!"!else") [.node (.str b!"!t") body.trees]]
  | .elif c body more =>
    .node (.str b!"!elseif") [.node (.str b!"!a") [exprOf c.full], .node (.str b!"!t") body.trees] :: more.trees
end

/-- The texts that have a meaning in the tree of a template. -/
def markers : List Bytes := [b!"!p", b!"!e", b!"!if", b!"!end", b!"!else", b!"!elseif", b!"!for", b!"!break"]

/-- The names of directives. -/
def keywords : List Bytes := [b!"if", b!"end", b!"else", b!"elseif", b!"for", b!"break"]

/-- A byte of plain text: no dollar sign and no control character other than tab, line
feed and carriage return. -/
def PlainByte (c : UInt8) : Prop := (32 ≤ c ∨ c = 9 ∨ c = 10 ∨ c = 13) ∧ c ≠ 36

/-- What may follow a path or directive that is not in braces: nothing, or an ASCII byte
that does not go on with it. -/
def Ends (rest : Bytes) : Prop :=
  ∀ c, rest.head? = some c → c < 0x80 ∧ ¬ AsciiLetter c ∧ ¬ Digit c ∧ c ≠ 46 ∧ c ≠ 91 ∧ c ≠ 40 ∧ c ≠ 123

/-- A condition or expression that can be written in a template. -/
def WritableExpr (E : Ext) (x : Grouping) : Prop := x.Ok E

mutual
/-- The piece is well formed, and can be told from the text after it. -/
def Item.Ok (E : Ext) (rest : Bytes) : Item → Prop
  | .plain s => s ≠ [] ∧ (∀ c ∈ s, PlainByte c) ∧ s ∉ markers ∧ (rest = [] ∨ rest.head? = some 36)
  | .dollar => True
  | .var id ids braced => Path E (id :: ids) ∧ id ∉ keywords ∧ (braced = false → Ends rest)
  | .expr x => WritableExpr E x
  | .cond c body more => WritableExpr E c ∧ Ends (body.text ++ more.text ++ rest) ∧ body.Ok E (more.text ++ rest) ∧ more.Ok E rest
  | .loop v id ids body =>
    Path E [v] ∧ (∃ c t, v = c :: t ∧ AsciiLetter c) ∧ Path E (id :: ids) ∧ (∃ c t, id = c :: t ∧ AsciiLetter c) ∧
      Ends (body.text ++ b!"$end" ++ rest) ∧ body.Ok E (b!"$end" ++ rest) ∧ Ends rest
  | .brk => Ends rest
/-- All pieces of the template are well formed. -/
def Items.Ok (E : Ext) (rest : Bytes) : Items → Prop
  | .nil => True
  | .cons i is => i.Ok E (is.text ++ rest) ∧ is.Ok E rest
/-- All further branches are well formed. -/
def Branches.Ok (E : Ext) (rest : Bytes) : Branches → Prop
  | .done => Ends rest
  | .els body => Ends (body.text ++ b!"$end" ++ rest) ∧ body.Ok E (b!"$end" ++ rest) ∧ Ends rest
  | .elif c body more => WritableExpr E c ∧ Ends (body.text ++ more.text ++ rest) ∧ body.Ok E (more.text ++ rest) ∧ more.Ok E rest
end

/-- Every condition and every body, as a text of its own, fits the buffer of the lexer. -/
def Branches.Fit : Branches → Prop
  | .done => True
  | .els body => Fits body.text
  | .elif c body more => Fits c.text ∧ Fits body.text ∧ more.Fit

/-- `NewTemplate(s).Process(g)` returns the text `o` and leaves the context as `g'`. -/
def Renders (E : Ext) (s : Bytes) (g : Graph) (o : Bytes) (g' : Graph) : Prop :=
  ∃ t, newTemplate E s = .ok t ∧ t.process E g = .ok (o, g')

/-- One template after another. -/
def Items.append : Items → Items → Items
  | .nil, b => b
  | .cons i is, b => .cons i (is.append b)

/-- There is a `$break` that is not inside an `$if` or `$for`. -/
def Items.breaks : Items → Bool
  | .nil => false
  | .cons .brk _ => true
  | .cons _ is => is.breaks

mutual
/-- The variables of the loops in it. -/
def Item.loopVars : Item → List Bytes
  | .cond _ body more => body.loopVars ++ more.loopVars
  | .loop v _ _ body => v :: body.loopVars
  | _ => []
/-- The variables of the loops in it. -/
def Items.loopVars : Items → List Bytes
  | .nil => []
  | .cons i is => i.loopVars ++ is.loopVars
/-- The variables of the loops in it. -/
def Branches.loopVars : Branches → List Bytes
  | .done => []
  | .els body => body.loopVars
  | .elif _ body more => body.loopVars ++ more.loopVars
end

/-- `g.Eval(NewExpression(s))` gives a value that counts as true (`b`) or not, and leaves
the context as `g'`. -/
def Tests (E : Ext) (s : Bytes) (g : Graph) (b : Bool) (g' : Graph) : Prop :=
  ∃ e v err, newExpression E s = .ok e ∧ g.eval E e = .ok ((v, err), g') ∧ (b = true ↔ err = none ∧ truth v = some true)

/-- The conditions are tested from left to right up to the first true one: the body that
belongs to it, or that of `$else`, or nothing; and the context after the tests. -/
inductive Selects (E : Ext) : Branches → Graph → Option Items → Graph → Prop where
  | done {g : Graph} : Selects E .done g none g
  | els {body : Items} {g : Graph} : Selects E (.els body) g (some body) g
  | yes {c : Grouping} {body : Items} {more : Branches} {g g' : Graph} :
      Tests E c.text g true g' → Selects E (.elif c body more) g (some body) g'
  | no {c : Grouping} {body : Items} {more : Branches} {g g' g'' : Graph} {r : Option Items} :
      Tests E c.text g false g' → Selects E more g' r g'' → Selects E (.elif c body more) g r g''

/-- The node is the variable `v`. -/
def isVar (v : Bytes) (n : Graph) : Bool :=
  match n.this with
  | .str s => s == v
  | _ => false

/-- The context with a fresh variable `v`, in place of any earlier one. -/
def declare (v : Bytes) (g : Graph) : Graph := .node g.this (g.out.filter (fun n => !isVar v n) ++ [leaf v])

/-- The variable `v` gets the value `e`. -/
def assignVar (v : Bytes) (e : Graph) : List Graph → List Graph
  | [] => []
  | n :: ns => if isVar v n then .node (.str v) [e] :: ns else n :: assignVar v e ns

/-- The body is processed once for each element, in order, with `v` bound to it. -/
inductive Iterates (E : Ext) (v : Bytes) (body : Items) : List Graph → Graph → Bytes → Graph → Prop where
  | nil {g : Graph} : Iterates E v body [] g [] g
  | cons {e : Graph} {es o : List Graph} {t : Val} {g1 g2 : Graph} {s1 s2 : Bytes} :
      Renders E body.text (.node t (assignVar v e o)) s1 g1 → Iterates E v body es g1 s2 g2 →
      Iterates E v body (e :: es) (.node t o) (s1 ++ s2) g2

end Spec
end Ogdl
