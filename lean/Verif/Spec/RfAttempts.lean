import Verif.Model.Rf
import Verif.Spec.Rf

/-!
# The attempts of a call, and histories of a client

For C69 and C70.
-/

namespace Ogdl
namespace Spec

/-- One attempt on the connection `k`, after which it is `k'`, ended with the error `e`. -/
def Attempted (E : Ext) (g : Graph) (k k' : Conn) (e : Option RfErr) : Prop := ∃ r, callV2 E g k = .ok ((r, e), k')

/-- The pieces written are the whole message with this body, the start of its header, or its
header and the start of its body. -/
def PartOfMessage (ps : List Bytes) (body : Bytes) : Prop :=
  IsMessage ps body ∨ ∃ h n, IsHeader h body.length ∧ (ps = [h.take n] ∨ ps = [h, body.take n])

/-- What can be done with a client. -/
inductive ClientOp where
  | call (g : Graph)
  | dial
  | close

/-- The client after a history; `none` if a call does not return. -/
def clientRun (E : Ext) : List ClientOp → Client → Option Client
  | [], c => some c
  | .call g :: ops, c =>
    match call E g c with
    | .ok (_, c) => clientRun E ops c
    | _ => none
  | .dial :: ops, c => clientRun E ops c.dial.2
  | .close :: ops, c => clientRun E ops c.close

/-- In every call of the history the first attempt succeeds, or the host cannot be dialed. -/
def FirstAttempts (E : Ext) : List ClientOp → Client → Prop
  | [], _ => True
  | .call g :: ops, c =>
    (∀ k, (tries c).head? = some (some k) → ∃ k', Attempted E g k k' none) ∧
      ∀ r c', call E g c = .ok (r, c') → FirstAttempts E ops c'
  | .dial :: ops, c => FirstAttempts E ops c.dial.2
  | .close :: ops, c => FirstAttempts E ops c.close

/-- The number of connections among the results of dials. -/
def opened (ds : List (Option Conn)) : Nat := (ds.filterMap id).length

/-- The number of calls in a history. -/
def calls : List ClientOp → Nat
  | [] => 0
  | .call _ :: ops => calls ops + 1
  | .dial :: ops => calls ops
  | .close :: ops => calls ops

end Spec
end Ogdl
