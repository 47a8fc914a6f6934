import Verif.Model.Rf1
import Verif.Spec.Rf

/-! # Requests on a connection without lengths -/

namespace Ogdl
namespace Spec

section
variable (E : Ext)

/-- Requests that arrive one after the other, each cut into any segments, and the bytes
with which the handler answers them. -/
inductive Exchange (handler : Graph → Res Graph) : List Bytes → List Bytes → Prop
  | nil : Exchange handler [] []
  | cons {g r : Graph} {b : Bytes} {a : Option Bytes} {ss rest as : List Bytes} : Encodable E g → g.binary E = .ok (some b) → Segments b ss →
    handler (.node (.str b!"_") (visibleL E g.out)) = .ok r → r.binary E = .ok a → Exchange handler rest as →
    Exchange handler (ss ++ rest) (a.getD [] :: as)

end

/-- An attempt with protocol 1 that ends with an error or an empty response. -/
def FailedAttempt1 (E : Ext) (e : ConnEnd) (g : Graph) (t : Option (Option Conn)) : Prop :=
  ∃ k r err k', t = some (some k) ∧ callV1 E e g k = .ok ((r, some err), k')

/-- How a call with protocol 1 and at most `m` attempts ends. -/
def CallOutcome1 (E : Ext) (e : ConnEnd) (g : Graph) (m : Nat) (tries : List (Option Conn)) (res : Graph × Option RfErr) (dials : List (Option Conn)) : Prop :=
  ∃ i < m, (∀ j < i, FailedAttempt1 E e g tries[j]?) ∧ dials = tries.drop (i + 1) ∧
    (((tries[i]? = none ∨ tries[i]? = some none) ∧ res = (.nil, some .cannotConnect)) ∨
     (∃ k k', tries[i]? = some (some k) ∧ callV1 E e g k = .ok (res, k') ∧ res.2 = none) ∨
     (i + 1 = m ∧ ∃ k k', tries[i]? = some (some k) ∧ callV1 E e g k = .ok (res, k') ∧ res.2 ≠ none))

end Spec
end Ogdl
