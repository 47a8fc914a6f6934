import Verif.Model.Json
import Verif.Spec.Text

/-!
# JSON documents (RFC 8259)

Which texts write which documents, which graphs stand for which documents, and what
is found where in a document.  Independent of `JSON` and `FromJSON`.
-/

namespace Ogdl
namespace Spec

/-- JSON white space. -/
def Ws (s : Bytes) : Prop := ∀ c ∈ s, c = 32 ∨ c = 9 ∨ c = 10 ∨ c = 13

/-- The value of a hexadecimal digit. -/
def hexDigit (c : UInt8) : Option Nat :=
  if 48 ≤ c ∧ c ≤ 57 then some (c.toNat - 48)
  else if 65 ≤ c ∧ c ≤ 70 then some (c.toNat - 55)
  else if 97 ≤ c ∧ c ≤ 102 then some (c.toNat - 87)
  else none

/-- `t` writes the string `s` between quotes.  (The two halves of a surrogate pair are
decoded one by one; this matters to the value only.) -/
inductive StringText : Bytes → Bytes → Prop
  | nil : StringText [] []
  | plain {c : UInt8} {s t : Bytes} : 32 ≤ c → c ≠ 34 → c ≠ 92 → StringText s t → StringText (c :: s) (c :: t)
  | escape {e c : UInt8} {s t : Bytes} :
      (e, c) ∈ [((34 : UInt8), (34 : UInt8)), (92, 92), (47, 47), (98, 8), (102, 12), (110, 10), (114, 13), (116, 9)] →
      StringText s t → StringText (c :: s) (92 :: e :: t)
  | unicode {a b c d : UInt8} {k l m n : Nat} {s t : Bytes} :
      hexDigit a = some k → hexDigit b = some l → hexDigit c = some m → hexDigit d = some n → StringText s t →
      StringText (encodeRune (((k * 16 + l) * 16 + m) * 16 + n) ++ s) (92 :: 117 :: a :: b :: c :: d :: t)

/-- Only decimal digits. -/
def Digits (s : Bytes) : Prop := ∀ c ∈ s, 48 ≤ c ∧ c ≤ 57

/-- A JSON number: sign, integer without leading zeros, fraction, exponent. -/
def NumberText (t : Bytes) : Prop :=
  ∃ sign int frac exp : Bytes, t = sign ++ int ++ frac ++ exp ∧
    (sign = [] ∨ sign = b!"-") ∧
    (int = b!"0" ∨ ∃ c ds, int = c :: ds ∧ 49 ≤ c ∧ c ≤ 57 ∧ Digits ds) ∧
    (frac = [] ∨ ∃ ds, frac = 46 :: ds ∧ ds ≠ [] ∧ Digits ds) ∧
    (exp = [] ∨ ∃ e s ds, exp = e :: s ++ ds ∧ (e = 69 ∨ e = 101) ∧ (s = [] ∨ s = b!"+" ∨ s = b!"-") ∧ ds ≠ [] ∧ Digits ds)

mutual
/-- `t` writes the document, without white space around it. -/
inductive JsonText (E : Ext) : Json → Bytes → Prop
  | null : JsonText E .null b!"null"
  | true : JsonText E (.bool true) b!"true"
  | false : JsonText E (.bool false) b!"false"
  | int {i : Int} {t : Bytes} : NumberText t → IntText t i → JsonText E (.int i) t
  | float {f : UInt64} {t : Bytes} : NumberText t → (∀ i, ¬ IntText t i) → E.parseFloat t = some f → JsonText E (.float f) t
  | str {s t : Bytes} : StringText s t → JsonText E (.str s) (34 :: t ++ [34])
  | arr0 {w : Bytes} : Ws w → JsonText E (.arr []) (91 :: w ++ [93])
  | arr {js : List Json} {t : Bytes} : ElemsText E js t → JsonText E (.arr js) (91 :: t ++ [93])
  | obj0 {w : Bytes} : Ws w → JsonText E (.obj []) (123 :: w ++ [125])
  | obj {ms : List (Bytes × Json)} {t : Bytes} : MembersText E ms t → JsonText E (.obj ms) (123 :: t ++ [125])
/-- The elements of an array, separated by commas. -/
inductive ElemsText (E : Ext) : List Json → Bytes → Prop
  | last {j : Json} {a t b : Bytes} : Ws a → JsonText E j t → Ws b → ElemsText E [j] (a ++ t ++ b)
  | cons {j : Json} {js : List Json} {a t b u : Bytes} : Ws a → JsonText E j t → Ws b → ElemsText E js u →
      ElemsText E (j :: js) (a ++ t ++ b ++ 44 :: u)
/-- The members of an object, separated by commas. -/
inductive MembersText (E : Ext) : List (Bytes × Json) → Bytes → Prop
  | last {k : Bytes} {j : Json} {a n b c t d : Bytes} : Ws a → StringText k n → Ws b → Ws c → JsonText E j t → Ws d →
      MembersText E [(k, j)] (a ++ (34 :: n ++ [34]) ++ b ++ 58 :: c ++ t ++ d)
  | cons {k : Bytes} {j : Json} {ms : List (Bytes × Json)} {a n b c t d u : Bytes} : Ws a → StringText k n → Ws b → Ws c →
      JsonText E j t → Ws d → MembersText E ms u →
      MembersText E ((k, j) :: ms) (a ++ (34 :: n ++ [34]) ++ b ++ 58 :: c ++ t ++ d ++ 44 :: u)
end

/-- `t` is a JSON text of the document. -/
def JsonDoc (E : Ext) (j : Json) (t : Bytes) : Prop := ∃ a u b, t = a ++ u ++ b ∧ Ws a ∧ JsonText E j u ∧ Ws b

/-! ## Graphs that stand for a document -/

/-- A text that needs no escapes other than those of quotes. -/
def PlainText (s : Bytes) : Prop := ∀ c ∈ s, 32 ≤ c ∧ c ≠ 92

/-- The value of a leaf: integers and floats are numbers, anything else is text. -/
inductive LeafDoc (E : Ext) : Val → Json → Prop
  | int {k : IntKind} {i : Int} : LeafDoc E (.int k i) (.int (wrap64 i))
  | f64 {x f : UInt64} : NumberText (E.fmtFixed x) → (∀ i, ¬ IntText (E.fmtFixed x) i) → E.parseFloat (E.fmtFixed x) = some f →
      LeafDoc E (.f64 x) (.float f)
  | f32 {x : UInt32} {f : UInt64} : NumberText (E.fmtFixed (E.f32to64 x)) → (∀ i, ¬ IntText (E.fmtFixed (E.f32to64 x)) i) →
      E.parseFloat (E.fmtFixed (E.f32to64 x)) = some f → LeafDoc E (.f32 x) (.float f)
  | text {v : Val} : (∀ k i, v ≠ .int k i) → (∀ x, v ≠ .f64 x) → (∀ x, v ≠ .f32 x) → PlainText (vstr E v) →
      LeafDoc E v (.str (vstr E v))

mutual
/-- The graph stands for the document: a leaf for its value, a `_` node for a list,
any other node with two or more subnodes for an object.  Values with exactly one
subnode do not occur, and a list has one element or starts with one that is no leaf. -/
inductive StandsFor (E : Ext) : Graph → Json → Prop
  | leaf {v : Val} {j : Json} : LeafDoc E v j → StandsFor E (.node v []) j
  | list {v : Val} {g : Graph} {gs : List Graph} {js : List Json} : vstr E v = b!"_" → StandForAll E (g :: gs) js →
      (gs = [] ∨ 2 ≤ g.out.length) → StandsFor E (.node v (g :: gs)) (.arr js)
  | object {v : Val} {gs : List Graph} {ms : List (Bytes × Json)} : vstr E v ≠ b!"_" → 2 ≤ gs.length → StandForMembers E gs ms →
      StandsFor E (.node v gs) (.obj ms)
/-- The elements of a list. -/
inductive StandForAll (E : Ext) : List Graph → List Json → Prop
  | nil : StandForAll E [] []
  | cons {g : Graph} {gs : List Graph} {j : Json} {js : List Json} : StandsFor E g j → g.out.length ≠ 1 → StandForAll E gs js →
      StandForAll E (g :: gs) (j :: js)
/-- The members of an object: nodes with the name as content and the value below. -/
inductive StandForMembers (E : Ext) : List Graph → List (Bytes × Json) → Prop
  | nil : StandForMembers E [] []
  | cons {k : Val} {g : Graph} {gs : List Graph} {j : Json} {ms : List (Bytes × Json)} :
      PlainText (vstr E k) → vstr E k ≠ b!"_" → StandsFor E g j → g.out.length ≠ 1 → StandForMembers E gs ms →
      StandForMembers E (.node k [g] :: gs) ((vstr E k, j) :: ms)
end

/-- The graph, of which `JSON` does not write the root content: two or more members,
or one value, or nothing (the empty text). -/
inductive RootStandsFor (E : Ext) : Graph → Json → Prop
  | members {v : Val} {gs : List Graph} {ms : List (Bytes × Json)} : 2 ≤ gs.length → StandForMembers E gs ms →
      RootStandsFor E (.node v gs) (.obj ms)
  | value {v : Val} {g : Graph} {j : Json} : StandsFor E g j → g.out.length ≠ 1 → RootStandsFor E (.node v [g]) j
  | empty {v : Val} : RootStandsFor E (.node v []) (.str [])

/-- A value that a flat object may hold: an integer of 64 bits, a float that is exact with
six decimals, as `%f` writes it, or a text that needs no escapes other than those of quotes. -/
inductive FlatValue (E : Ext) : Json → Prop
  | int {i : Int} : -2 ^ 63 ≤ i → i < 2 ^ 63 → FlatValue E (.int i)
  | float {f : UInt64} : NumberText (E.fmtFixed f) → (∀ i, ¬ IntText (E.fmtFixed f) i) → E.parseFloat (E.fmtFixed f) = some f →
      FlatValue E (.float f)
  | str {s : Bytes} : PlainText s → FlatValue E (.str s)

/-- A flat object, that is two or more members with such values, and no member `_`. -/
def FlatObject (E : Ext) (l : List (Bytes × Json)) : Prop :=
  2 ≤ l.length ∧ ∀ m ∈ l, PlainText m.1 ∧ m.1 ≠ b!"_" ∧ FlatValue E m.2

/-! ## Where values are -/

/-- One step into a document: the element of an array or the member of an object. -/
inductive Step where
  | elem (i : Nat)
  | member (k : Bytes)

/-- What is found at a path of the document. -/
def docAt : Json → List Step → Option Json
  | j, [] => some j
  | .arr l, .elem i :: p =>
    match l[i]? with
    | some j => docAt j p
    | none => none
  | .obj l, .member k :: p =>
    match l.find? (fun m => m.1 == k) with
    | some m => docAt m.2 p
    | none => none
  | _, _ :: _ => none

/-- What is below a node of the graph at the same path: an array element is the
subnode at that position; a member is the subnode with that text, below a `_` node. -/
def graphAt (E : Ext) : List Graph → List Step → Option (List Graph)
  | gs, [] => some gs
  | gs, .elem i :: p =>
    match gs[i]? with
    | some g => graphAt E g.out p
    | none => none
  | gs, .member k :: p =>
    match gs with
    | [g] =>
      match g.out.find? (fun n => n.thisString E == k) with
      | some n => graphAt E n.out p
      | none => none
    | _ => none

/-- The Go value of a scalar. -/
def scalarVal : Json → Option Val
  | .bool b => some (.bool b)
  | .int i => some (.int .int64 i)
  | .float f => some (.f64 f)
  | .str s => some (.str s)
  | _ => none

end Spec
end Ogdl
