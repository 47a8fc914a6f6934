import Verif.Spec.HeapTemplate

/-!
# Templates with assignments processed in memory

Used by C104.
-/

namespace Ogdl.Spec
open Ogdl

/-- The functions and methods that can be called return no graphs. -/
def ScalarCalls (E : Ext) : Prop :=
  ∀ v, match E.callable v with
    | .none => True
    | .func _ _ fn => ∀ args r, fn args = some (some r) → NoGraph r
    | .ptr method => ∀ s ins fn args r, method s = some (ins, fn) → fn args = some (some r) → NoGraph r

/-- The value of the expression is not a graph, whatever the context. -/
def NeverGraph (E : Ext) (e : Graph) : Prop := ∀ (g : Graph) (v : Val) (g' : Graph), g.eval E (exprOf e) = .ok ((v, none), g') → NoGraph v

mutual
/-- A template that assigns only to the names `W`, and that has loops only over paths that do
not end in one of them. -/
inductive Tame (E : Ext) (W : List Bytes) : Graph → Prop where
  | nil : Tame E W .nil
  | node {t : Val} {o : List Graph} : (∀ n ∈ o, TamePiece E W n) → Tame E W (.node t o)
/-- A node of such a template. -/
inductive TamePiece (E : Ext) (W : List Bytes) : Graph → Prop where
  /-- a text, or a `$break` -/
  | text {n : Graph} : n.thisString E ∉ [b!"!p", b!"!e", b!"!if", b!"!elseif", b!"!else", b!"!for"] → TamePiece E W n
  /-- a value -/
  | value {n : Graph} : n.thisString E = b!"!p" ∨ n.thisString E = b!"!e" → Asks E n → TamePiece E W n
  /-- an assignment to a name, of a value that is not a graph -/
  | assign {o m : Bytes} {r : Graph} : o ∈ assignments → Name E m → m ∈ W → Asks E r → NeverGraph E r → TamePiece E W (binary o (pathOf [m]) r)
  /-- a condition and a template -/
  | cond {n : Graph} : n.thisString E = b!"!if" ∨ n.thisString E = b!"!elseif" → (∀ l e, n.getAt 0 = .ok l → l.getAt 0 = .ok e → Asks E e) →
      (∀ t, n.getAt 1 = .ok t → Tame E W t) → TamePiece E W n
  /-- a template -/
  | els {n : Graph} : n.thisString E = b!"!else" → (∀ t, n.getAt 0 = .ok t → Tame E W t) → TamePiece E W n
  /-- a loop variable, a path and a template -/
  | loop {n : Graph} : n.thisString E = b!"!for" →
      (∀ l e, n.getAt 0 = .ok l → l.getAt 1 = .ok e → ∃ ids id, e = exprOf (pathOf (ids ++ [id])) ∧ (∀ x ∈ ids ++ [id], Name E x ∧ x ∉ reserved) ∧ id ∉ W) →
      (∀ t, n.getAt 1 = .ok t → Tame E W t) → TamePiece E W n
end

/-- A number, a quoted text or an operation other than an assignment. -/
def Grouping.Scalar : Grouping → Prop
  | .atom (.num _) => True
  | .atom (.str _) => True
  | .atom _ => False
  | .bin op _ _ => op ∉ assignments

/-- The tree of an operand. -/
def Grouping.inner (x : Grouping) : Graph := x.nodes.tree

mutual
/-- The same for the pieces of a template. -/
def Item.Tame (E : Ext) (W : List Bytes) : Item → Prop
  | .expr x => NoAssignment E x.full ∨ ∃ o m y, x = .bin o (.atom (.path m .nil)) y ∧ o ∈ assignments ∧ Name E m ∧ m ∈ W ∧ y.Scalar ∧ NoAssignment E y.inner
  | .cond c body more => NoAssignment E c.full ∧ body.Tame E W ∧ more.Tame E W
  | .loop _ id ids body => (∀ x ∈ id :: ids, x ∉ reserved) ∧ (id :: ids).getLast (by simp) ∉ W ∧ body.Tame E W
  | _ => True
/-- All pieces are so. -/
def Items.Tame (E : Ext) (W : List Bytes) : Items → Prop
  | .nil => True
  | .cons i is => i.Tame E W ∧ is.Tame E W
/-- All further branches are so. -/
def Branches.Tame (E : Ext) (W : List Bytes) : Branches → Prop
  | .done => True
  | .els body => body.Tame E W
  | .elif c body more => NoAssignment E c.full ∧ body.Tame E W ∧ more.Tame E W
end

end Ogdl.Spec
