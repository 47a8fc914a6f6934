import Verif.Spec.Text
import Verif.Spec.Tree

/-! # What it means to conform to a schema -/

namespace Ogdl
namespace Spec

/-- What a declared type accepts.  The texts `true`/`false` and numerals count as
values of the type they write; an int or int64 counts as a boolean and a float as an
integer (it is truncated). -/
def OfType (E : Ext) (name : Bytes) (v : Val) : Prop :=
  (name = b!"!string" ∧ ∃ s, v = .str s) ∨
  (name = b!"!binary" ∧ ∃ s, v = .bytes s) ∨
  (name = b!"!int" ∧ ((∃ k i, v = .int k i) ∨ (∃ f, v = .f64 f) ∨ (∃ f, v = .f32 f) ∨ ∃ s i, (v = .str s ∨ v = .bytes s) ∧ IntText s i)) ∨
  (name = b!"!float" ∧ ((∃ k i, v = .int k i) ∨ (∃ f, v = .f64 f) ∨ (∃ f, v = .f32 f) ∨ ∃ f, E.parseFloat (vstr E v) = some f)) ∨
  (name = b!"!bool" ∧ ((∃ b, v = .bool b) ∨ (∃ i, v = .int .int i) ∨ (∃ i, v = .int .int64 i) ∨
    ∃ s, (v = .str s ∨ v = .bytes s) ∧ (s = b!"true" ∨ s = b!"false")))

/-- A schema text is a type if it starts with `!`, otherwise it stands for itself. -/
def NodeConforms (E : Ext) (text : Bytes) (v : Val) : Prop :=
  (text.head? = some 33 ∧ OfType E text v) ∨ (text.head? ≠ some 33 ∧ vstr E v = text)

mutual
/-- The node conforms to the schema node, and so do the subnodes. -/
def Conforms (E : Ext) : Graph → Graph → Prop
  | .node c ss, .node v xs => NodeConforms E (vstr E c) v ∧ ConformsL E ss xs
  | _, _ => False
/-- For each schema node there is a node at the same position that conforms to it;
there may be more nodes. -/
def ConformsL (E : Ext) : List Graph → List Graph → Prop
  | [], _ => True
  | s :: ss, x :: xs => Conforms E s x ∧ ConformsL E ss xs
  | _ :: _, [] => False
end

/-- The node at a position: the indices of the nodes on the way. -/
def nodeAt : List Graph → List Nat → Graph
  | _, [] => .nil
  | gs, [i] => gs.getD i .nil
  | gs, i :: p => nodeAt (gs.getD i .nil).out p

/-- Values that are not nil and hold no graphs, functions or the like. -/
def IsScalar : Val → Prop
  | .str _ | .bytes _ | .bool _ | .int _ _ | .f64 _ | .f32 _ => True
  | _ => False

mutual
/-- Every content is a scalar (there may be nil subnodes). -/
def Scalars : Graph → Prop
  | .nil => True
  | .node v o => IsScalar v ∧ ScalarsL o
/-- Every content is a scalar. -/
def ScalarsL : List Graph → Prop
  | [] => True
  | g :: gs => Scalars g ∧ ScalarsL gs
end

mutual
/-- Schema nodes: no nil subnodes, no empty text, no `!binary`. -/
def GoodSchema (E : Ext) : Graph → Prop
  | .nil => False
  | .node v o => vstr E v ≠ [] ∧ vstr E v ≠ b!"!binary" ∧ GoodSchemaL E o
/-- The same for a list. -/
def GoodSchemaL (E : Ext) : List Graph → Prop
  | [] => True
  | g :: gs => GoodSchema E g ∧ GoodSchemaL E gs
end

end Spec
end Ogdl
