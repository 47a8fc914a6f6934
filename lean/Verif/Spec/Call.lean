import Verif.Spec.Calc
import Verif.Spec.Text

/-!
# Specification of the arguments of calls
-/

namespace Ogdl
namespace Spec

/-- The value of an argument of a method call: for a path, the node found. -/
inductive ArgValue (E : Ext) (g : Graph) : Opnd → Val → Prop where
  | int (i : Int64) : ArgValue E g (.num (itoa i.toInt)) (ofInt64 i)
  /-- a number that does not look like an integer -/
  | float (s : Bytes) (f : UInt64) : Num s → (46 ∈ s) → E.parseFloat s = some f → ArgValue E g (.num s) (.f64 f)
  | str (s : Bytes) : ArgValue E g (.str s) (.str s)
  | path (id : Bytes) (ids : List Bytes) : (∀ x ∈ id :: ids, x ∉ reserved) → (lookup E (id :: ids) g).isNil = false →
      ArgValue E g (.path id (names ids)) (.graph (lookup E (id :: ids) g))

/-- The value of an argument adapted to the type of a parameter. -/
inductive Adapted (E : Ext) : Val → Bytes → Val → Prop where
  | same (v : Val) : Adapted E v (typeName E v) v
  | intFloat (i : Int) : Adapted E (.int .int64 i) b!"float64" (.f64 (E.ofInt i))
  | intInt (i : Int) : Adapted E (.int .int64 i) b!"int" (.int .int i)
  | floatInt64 (f : UInt64) : Adapted E (.f64 f) b!"int64" (.int .int64 (E.toInt f))
  | floatInt (f : UInt64) : Adapted E (.f64 f) b!"int" (.int .int (E.toInt f))
  | strFloat (s : Bytes) (f : UInt64) : E.parseFloat s = some f → Adapted E (.str s) b!"float64" (.f64 f)
  | strInt (s : Bytes) (i : Int) : IntText s i → Adapted E (.str s) b!"int64" (.int .int64 i)
  /-- a number that is out of range becomes the nearest int64 -/
  | strBig (s ds : Bytes) : s = ds ∨ s = 43 :: ds → (∀ c ∈ ds, Digit c) → 2 ^ 63 ≤ decimal ds → Adapted E (.str s) b!"int64" (.int .int64 (2 ^ 63 - 1))
  | strSmall (ds : Bytes) : (∀ c ∈ ds, Digit c) → 2 ^ 63 < decimal ds → Adapted E (.str (45 :: ds)) b!"int64" (.int .int64 (-2 ^ 63))
  /-- a text that is not digits with perhaps a sign before them becomes 0 -/
  | strZero (s : Bytes) : (∀ sign ds : Bytes, (sign = [] ∨ sign = b!"+" ∨ sign = b!"-") → ds ≠ [] → (∀ c ∈ ds, Digit c) → s ≠ sign ++ ds) →
      Adapted E (.str s) b!"int64" (.int .int64 0)
  /-- the texts that mean true; every other text is false -/
  | strBool (s : Bytes) : Adapted E (.str s) b!"bool" (.bool (decide (s ∈ [b!"1", b!"t", b!"T", b!"true", b!"TRUE", b!"True"])))
  | nodeInt64 (n : Graph) (i : Int) : n.int64 E = .ok i → Adapted E (.graph n) b!"int64" (.int .int64 i)
  | nodeInt (n : Graph) (i : Int) : n.int64 E = .ok i → Adapted E (.graph n) b!"int" (.int .int i)
  | nodeBool (n : Graph) (b : Bool) : n.boolean E = .ok b → Adapted E (.graph n) b!"bool" (.bool b)
  | nodeString (n : Graph) (s : Bytes) : n.string E = .ok s → Adapted E (.graph n) b!"string" (.str s)
  | nodeStrings (n : Graph) (l : List Bytes) : n.strings E = .ok l → Adapted E (.graph n) b!"[]string" (E.ofStrings l)
  | nodeFloat (n : Graph) (f : UInt64) : n.float64 E = .ok f → Adapted E (.graph n) b!"float64" (.f64 f)

/-- The values with which a method is called: those of the arguments, adapted, and zero
values for parameters without argument.  Arguments beyond the parameters are ignored. -/
inductive MethodArgs (E : Ext) : List Bytes → List Val → List Val → Prop where
  | done (vs : List Val) : MethodArgs E [] vs []
  | zero (ty : Bytes) (tys : List Bytes) (ws : List Val) : MethodArgs E tys [] ws → MethodArgs E (ty :: tys) [] (E.zero ty :: ws)
  | arg (ty : Bytes) (tys : List Bytes) (v w : Val) (vs ws : List Val) : v ≠ .nil → Adapted E v ty w → MethodArgs E tys vs ws →
      MethodArgs E (ty :: tys) (v :: vs) (w :: ws)

end Spec
end Ogdl
