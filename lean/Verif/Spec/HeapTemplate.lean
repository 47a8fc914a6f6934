import Verif.Spec.HeapEval
import Verif.Spec.Template
import Verif.Model.HeapTemplate

/-!
# Templates processed in memory

Used by C104.
-/

namespace Ogdl.Spec
open Ogdl

/-- What `$for` may walk through: a path that does not begin with `_this`, and other
expressions except groups. -/
inductive Source (E : Ext) : Graph → Prop where
  | path {e : Graph} : e.thisString E = tyPath → (∀ k ks, e.out = k :: ks → k.thisString E ≠ b!"_this") → Source E e
  | expr {t : Val} {x : Graph} {xs : List Graph} : (Graph.node t (x :: xs)).thisString E = tyExpression → Source E x → Source E (.node t (x :: xs))
  | other {e : Graph} : e.thisString E ≠ tyPath → e.thisString E ≠ tyExpression → e.thisString E ≠ tyGroup → Source E e

/-- An expression without nil nodes and assignments. -/
def Asks (E : Ext) (e : Graph) : Prop := Whole e ∧ NoAssignment E e

mutual
/-- A template that does not assign and has loops over sources only. -/
inductive Calm (E : Ext) : Graph → Prop where
  | nil : Calm E .nil
  | node {t : Val} {o : List Graph} : (∀ n ∈ o, CalmPiece E n) → Calm E (.node t o)
/-- A node of such a template. -/
inductive CalmPiece (E : Ext) : Graph → Prop where
  /-- a text, or a `$break` -/
  | text {n : Graph} : n.thisString E ∉ [b!"!p", b!"!e", b!"!if", b!"!elseif", b!"!else", b!"!for"] → CalmPiece E n
  /-- a value -/
  | value {n : Graph} : n.thisString E = b!"!p" ∨ n.thisString E = b!"!e" → Asks E n → CalmPiece E n
  /-- a condition and a template -/
  | cond {n : Graph} : n.thisString E = b!"!if" ∨ n.thisString E = b!"!elseif" → (∀ l e, n.getAt 0 = .ok l → l.getAt 0 = .ok e → Asks E e) →
      (∀ t, n.getAt 1 = .ok t → Calm E t) → CalmPiece E n
  /-- a template -/
  | els {n : Graph} : n.thisString E = b!"!else" → (∀ t, n.getAt 0 = .ok t → Calm E t) → CalmPiece E n
  /-- a loop variable, a source and a template -/
  | loop {n : Graph} : n.thisString E = b!"!for" → (∀ l e, n.getAt 0 = .ok l → l.getAt 1 = .ok e → Asks E e ∧ Source E e) →
      (∀ t, n.getAt 1 = .ok t → Calm E t) → CalmPiece E n
end

mutual
/-- The same for the pieces of a template. -/
def Item.Calm (E : Ext) : Item → Prop
  | .expr x => NoAssignment E x.full
  | .cond c body more => NoAssignment E c.full ∧ body.Calm E ∧ more.Calm E
  | .loop _ id _ body => id ≠ b!"_this" ∧ body.Calm E
  | _ => True
/-- All pieces are so. -/
def Items.Calm (E : Ext) : Items → Prop
  | .nil => True
  | .cons i is => i.Calm E ∧ is.Calm E
/-- All further branches are so. -/
def Branches.Calm (E : Ext) : Branches → Prop
  | .done => True
  | .els body => body.Calm E
  | .elif c body more => NoAssignment E c.full ∧ body.Calm E ∧ more.Calm E
end

/-- Process templates one after the other in the same context, on trees: the texts written
and the context afterwards. -/
def rendersTree (E : Ext) : List Graph → Graph → Res (List Bytes × Graph)
  | [], g => .ok ([], g)
  | t :: ts, g => t.process E g >>= fun r => rendersTree E ts r.2 >>= fun r' => .ok (r.1 :: r'.1, r'.2)

/-- The same in memory. -/
def rendersMem (E : Ext) (grow : Nat → Nat → Nat) (fuel : Nat) (p : Ptr) : List Graph → HM (List Bytes)
  | [] => pure []
  | t :: ts => do
    let o ← hProcess grow E fuel p t
    let os ← rendersMem E grow fuel p ts
    pure (o :: os)

end Ogdl.Spec
