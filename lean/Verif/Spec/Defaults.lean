import Verif.Spec.Text
import Verif.Spec.Tree

/-! The value of a graph as a number, and defaults (C117). -/

namespace Ogdl.Spec.Defaults
open Ogdl

/-- The value of a graph: the content of its first subnode, nil if it has none. -/
def valueOf : Graph → Val
  | .node _ (x :: _) => x.this
  | _ => .nil

/-- The integer that a content is: an integer, cut to 64 bits, the integral part of a float, the integer that a text
writes, or that of the content of a graph that is the value. -/
inductive IsInt (E : Ext) : Val → Int → Prop
  | int (k : IntKind) (i j : Int) : -2 ^ 63 ≤ j → j < 2 ^ 63 → (i - j) % 2 ^ 64 = 0 → IsInt E (.int k i) j
  | text (s : Bytes) (i : Int) : IntText s i → IsInt E (.str s) i
  | bytes (s : Bytes) (i : Int) : IntText s i → IsInt E (.bytes s) i
  | f64 (x : UInt64) : IsInt E (.f64 x) (E.toInt x)
  | f32 (x : UInt32) : IsInt E (.f32 x) (E.toInt (E.f32to64 x))
  | held (t : Val) (o : List Graph) (i : Int) : (∀ x, t ≠ .graph x) → IsInt E t i → IsInt E (.graph (.node t o)) i

/-- A graph that is nil or has no nil subnodes. -/
def Sound (g : Graph) : Prop := g = .nil ∨ NoNil g

end Ogdl.Spec.Defaults
