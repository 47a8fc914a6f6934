import Verif.Spec.Calc
import Verif.Spec.Template

/-!
# Expressions and templates that assign only to some names (C109)
-/

namespace Ogdl
namespace Spec

/-- `g'` is `g`, but for the subnodes with one of the names `V`: the content of the node is
the same, and so are the other subnodes, in the same order. -/
def Outside (E : Ext) (V : List Bytes) (g g' : Graph) : Prop :=
  (g = .nil ∧ g' = .nil) ∨
    ∃ t o o', g = .node t o ∧ g' = .node t o' ∧ (o'.filter fun n => n.thisString E ∉ V) = o.filter fun n => n.thisString E ∉ V

mutual
/-- Every assignment in the tree of an expression is to a path that starts with one of the
names `V`. -/
def AssignsTo (E : Ext) (V : List Bytes) : Graph → Prop
  | .nil => True
  | .node t o =>
    (vstr E t ∈ assignments → ∃ p m k es rest, o = .node p (.node (.str m) k :: es) :: rest ∧ m ∈ V ∧ m ≠ b!"!i") ∧ AssignsToL E V o
/-- The same for a list of trees. -/
def AssignsToL (E : Ext) (V : List Bytes) : List Graph → Prop
  | [] => True
  | g :: gs => AssignsTo E V g ∧ AssignsToL E V gs
end

mutual
/-- A template with assignments only to paths that start with one of the names `V`, and loop
variables only out of `V`. -/
inductive Confined (E : Ext) (V : List Bytes) : Graph → Prop where
  | nil : Confined E V .nil
  | node {t : Val} {o : List Graph} : (∀ n ∈ o, ConfinedPiece E V n) → Confined E V (.node t o)
/-- A node of such a template. -/
inductive ConfinedPiece (E : Ext) (V : List Bytes) : Graph → Prop where
  /-- a text, or a `$break` -/
  | text {n : Graph} : n.thisString E ∉ [b!"!p", b!"!e", b!"!if", b!"!elseif", b!"!else", b!"!for"] → ConfinedPiece E V n
  /-- a path or an expression -/
  | value {n : Graph} : n.thisString E = b!"!p" ∨ n.thisString E = b!"!e" → AssignsTo E V n → ConfinedPiece E V n
  /-- a condition and a template -/
  | cond {n : Graph} : n.thisString E = b!"!if" ∨ n.thisString E = b!"!elseif" → (∀ l e, n.getAt 0 = .ok l → l.getAt 0 = .ok e → AssignsTo E V e) →
      (∀ t, n.getAt 1 = .ok t → Confined E V t) → ConfinedPiece E V n
  /-- a template -/
  | els {n : Graph} : n.thisString E = b!"!else" → (∀ t, n.getAt 0 = .ok t → Confined E V t) → ConfinedPiece E V n
  /-- a loop variable, what the loop goes over and a template -/
  | loop {n : Graph} : n.thisString E = b!"!for" → (∀ l e, n.getAt 0 = .ok l → l.getAt 1 = .ok e → AssignsTo E V e) →
      (∀ l e x v, n.getAt 0 = .ok l → l.getAt 0 = .ok e → e.getAt 0 = .ok x → x.string E = .ok v → v ∈ V) →
      (∀ t, n.getAt 1 = .ok t → Confined E V t) → ConfinedPiece E V n
end

mutual
/-- The same for the pieces of a template. -/
def Item.Confined (E : Ext) (V : List Bytes) : Item → Prop
  | .expr x => AssignsTo E V x.full
  | .cond c body more => AssignsTo E V c.full ∧ body.Confined E V ∧ more.Confined E V
  | .loop v _ _ body => v ∈ V ∧ body.Confined E V
  | _ => True
/-- All pieces are so. -/
def Items.Confined (E : Ext) (V : List Bytes) : Items → Prop
  | .nil => True
  | .cons i is => i.Confined E V ∧ is.Confined E V
/-- All further branches are so. -/
def Branches.Confined (E : Ext) (V : List Bytes) : Branches → Prop
  | .done => True
  | .els body => body.Confined E V
  | .elif c body more => AssignsTo E V c.full ∧ body.Confined E V ∧ more.Confined E V
end

end Spec
end Ogdl
