import Verif.Spec.Refine
import Verif.Model.HeapRead

/-!
# Questions about a graph

Used by C98.
-/

namespace Ogdl.Spec
open Ogdl

/-- What a client can ask about one graph: `Len`, and the typed getters of gettypes.go with
their default values. -/
inductive Query where
  | len
  | interface
  | string (dflt : Option Bytes)
  | thisString (dflt : Option Bytes)
  | strings
  | stringCSV (dflt : Option Bytes)
  | stringTxt (dflt : Option Bytes)
  | bytes
  | thisBytes
  | int64 (dflt : Option Int)
  | thisInt64
  | float64 (dflt : Option UInt64)
  | thisFloat64
  | boolean (dflt : Option Bool)
  | number
  | thisNumber
  | scalar
  | thisScalar

/-- An answer; `α` is the type of contents. -/
inductive Reply (α : Type) where
  | int (i : Int)
  | text (s : Bytes)
  | texts (ss : List Bytes)
  | float (f : UInt64)
  | bool (b : Bool)
  | maybeInt (i : Option Int)
  | maybeFloat (f : Option UInt64)
  | content (v : α)

section
variable (E : Ext) (fuel : Nat)

/-- The answer for a tree, without memory. -/
def Query.tree (g : Graph) : Query → Res (Reply Val)
  | .len => .ok (.int g.len)
  | .interface => g.interface >>= fun v => .ok (.content v)
  | .string d => g.string E d >>= fun s => .ok (.text s)
  | .thisString d => .ok (.text (match g with | .nil => d.getD [] | .node t _ => vstr E t))
  | .strings => g.strings E >>= fun ss => .ok (.texts ss)
  | .stringCSV d => g.stringCSV E d >>= fun s => .ok (.text s)
  | .stringTxt d => g.stringTxt E d >>= fun s => .ok (.text s)
  | .bytes => g.bytes E >>= fun s => .ok (.text s)
  | .thisBytes => g.thisBytes E >>= fun s => .ok (.text s)
  | .int64 d => g.int64 E d >>= fun i => .ok (.int i)
  | .thisInt64 => g.thisInt64 E >>= fun i => .ok (.maybeInt i)
  | .float64 d => g.float64 E d >>= fun f => .ok (.float f)
  | .thisFloat64 => g.thisFloat64 E >>= fun f => .ok (.maybeFloat f)
  | .boolean d => g.boolean E d >>= fun b => .ok (.bool b)
  | .number => g.number E >>= fun v => .ok (.content v)
  | .thisNumber => g.thisNumber E >>= fun v => .ok (.content v)
  | .scalar => g.scalar E >>= fun v => .ok (.content v)
  | .thisScalar => g.thisScalar E >>= fun v => .ok (.content v)

/-- The method called on a pointer. -/
def Query.ask (p : Ptr) : Query → HM (Reply HVal)
  | .len => do pure (.int (← hLen p))
  | .interface => do pure (.content (← hInterface p))
  | .string d => do pure (.text (← hStringDef E fuel p d))
  | .thisString d => do pure (.text (← hThisString E fuel p d))
  | .strings => do pure (.texts (← hStrings E fuel p))
  | .stringCSV d => do pure (.text (← hStringCSV E fuel p d))
  | .stringTxt d => do pure (.text (← hStringTxt E fuel p d))
  | .bytes => do pure (.text (← hBytes E fuel p))
  | .thisBytes => do pure (.text (← hThisBytes E fuel p))
  | .int64 d => do pure (.int (← hInt64 E p d))
  | .thisInt64 => do pure (.maybeInt (← hThisInt64 E p))
  | .float64 d => do pure (.float (← hFloat64 E fuel p d))
  | .thisFloat64 => do pure (.maybeFloat (← hThisFloat64 E fuel p))
  | .boolean d => do pure (.bool (← hBool E fuel p d))
  | .number => do pure (.content (.val (← hNumber E fuel p)))
  | .thisNumber => do pure (.content (.val (← hThisNumber E fuel p)))
  | .scalar => do pure (.content (← hScalar E fuel p))
  | .thisScalar => do pure (.content (← hThisScalar E fuel p))

end

/-- An answer from memory says the same as one from a tree. -/
inductive SameReply : Reply HVal → Reply Val → Prop where
  | int {i : Int} : SameReply (.int i) (.int i)
  | text {s : Bytes} : SameReply (.text s) (.text s)
  | texts {ss : List Bytes} : SameReply (.texts ss) (.texts ss)
  | float {f : UInt64} : SameReply (.float f) (.float f)
  | bool {b : Bool} : SameReply (.bool b) (.bool b)
  | maybeInt {i : Option Int} : SameReply (.maybeInt i) (.maybeInt i)
  | maybeFloat {f : Option UInt64} : SameReply (.maybeFloat f) (.maybeFloat f)
  | content {x : HVal} {v : Val} : Content x v → SameReply (.content x) (.content v)

/-- Both end with the same answer or both panic. -/
inductive SameOutcome : Res (Reply HVal) → Res (Reply Val) → Prop where
  | ok {a : Reply HVal} {b : Reply Val} : SameReply a b → SameOutcome (.ok a) (.ok b)
  | panic : SameOutcome .panic .panic

/-- The questions that look at whether there is a slice of subnodes, not only at how many
there are. -/
def Query.Slices : Query → Prop
  | .scalar | .thisScalar => True
  | _ => False

/-- The operations that remove single subnodes. -/
def TOp.Removes : TOp → Prop
  | .delete _ _ | .deleteAt _ _ => True
  | _ => False

end Ogdl.Spec
