import Verif.Model.Rf
import Verif.Spec.Binary

/-! # Messages on a byte stream -/

namespace Ogdl
namespace Spec

/-- Four bytes that give the length, most significant first. -/
def IsHeader (h : Bytes) (n : Nat) : Prop :=
  ∃ a b c d : UInt8, h = [a, b, c, d] ∧ n = ((a.toNat * 256 + b.toNat) * 256 + c.toNat) * 256 + d.toNat

/-- `ps` is the message: its length, then the body. -/
def IsMessage (ps : List Bytes) (body : Bytes) : Prop := ∃ h, ps = [h, body] ∧ IsHeader h body.length

/-- `ps` is the sequence of messages with these bodies. -/
def AreMessages : List Bytes → List Bytes → Prop
  | ps, [] => ps = []
  | ps, b :: bs => ∃ m qs, ps = m ++ qs ∧ IsMessage m b ∧ AreMessages qs bs

/-- The segments consist of whole pieces: some pieces have been put together, none has
been cut. -/
inductive Coalesced : List Bytes → List Bytes → Prop
  | nil : Coalesced [] []
  | apart {p : Bytes} {ps ss : List Bytes} : Coalesced ps ss → Coalesced (p :: ps) (p :: ss)
  | joined {p s : Bytes} {ps ss : List Bytes} : Coalesced ps (s :: ss) → Coalesced (p :: ps) ((p ++ s) :: ss)

/-- The bytes cut into segments at any places, none empty. -/
def Segments (b : Bytes) (ss : List Bytes) : Prop := ss.flatten = b ∧ ∀ s ∈ ss, s ≠ []

section
variable (E : Ext)

/-- `body` is a request that the handler answers with the bytes `ans`. -/
def Answer (handler : Graph → Res Graph) (body ans : Bytes) : Prop :=
  ∃ g r o, fromBinary body = .ok g ∧ g.isNil = false ∧ g.out ≠ [] ∧ handler g = .ok r ∧ r.binary E = .ok o ∧ ans = o.getD []

/-- The same for lists. -/
def AnswerL (handler : Graph → Res Graph) : List Bytes → List Bytes → Prop
  | [], [] => True
  | b :: bs, a :: as => Answer E handler b a ∧ AnswerL handler bs as
  | _, _ => False

end

/-- The connections that the next attempts use. -/
def tries (c : Client) : List (Option Conn) :=
  match c.conn with
  | some k => some k :: c.dials
  | none => c.dials

/-- An attempt that ends with an error of the connection or an empty response. -/
def FailedAttempt (E : Ext) (g : Graph) (t : Option (Option Conn)) : Prop :=
  ∃ k r e k', t = some (some k) ∧ callV2 E g k = .ok ((r, some e), k')

/-- How a call with at most `m` attempts ends. -/
def CallOutcome (E : Ext) (g : Graph) (m : Nat) (tries : List (Option Conn)) (res : Graph × Option RfErr) (dials : List (Option Conn)) : Prop :=
  ∃ i < m, (∀ j < i, FailedAttempt E g tries[j]?) ∧ dials = tries.drop (i + 1) ∧
    (((tries[i]? = none ∨ tries[i]? = some none) ∧ res = (.nil, some .cannotConnect)) ∨
     (∃ k k', tries[i]? = some (some k) ∧ callV2 E g k = .ok (res, k') ∧ res.2 = none) ∨
     (i + 1 = m ∧ ∃ k k', tries[i]? = some (some k) ∧ callV2 E g k = .ok (res, k') ∧ res.2 ≠ none))

end Spec
end Ogdl
