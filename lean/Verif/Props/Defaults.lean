import Verif.Spec.Defaults
import Verif.Lemmas.Typed
import Verif.Model.Graph

/-!
# C117: the getters of a graph and their defaults
-/

namespace Ogdl
open Spec Spec.Defaults

namespace DefaultsL

theorem wrap_eq {i j h m : Int} (hm : m = 2 * h) (h1 : -h ≤ j) (h2 : j < h) (h3 : (i - j) % m = 0) : (i + h) % m - h = j := by
  obtain ⟨q, hq⟩ := Int.dvd_of_emod_eq_zero h3
  have : i + h = (j + h) + m * q := by omega
  rw [this, Int.add_mul_emod_self_left, Int.emod_eq_of_lt (by omega) (by omega)]
  omega

theorem wrap64_isInt {i j : Int} (h1 : -2 ^ 63 ≤ j) (h2 : j < 2 ^ 63) (h3 : (i - j) % 2 ^ 64 = 0) : wrap64 i = j :=
  wrap_eq (by decide) h1 h2 h3

theorem wrap_range (i h m : Int) (hm : m = 2 * h) (hh : 0 < h) : -h ≤ (i + h) % m - h ∧ (i + h) % m - h < h ∧ (i - ((i + h) % m - h)) % m = 0 := by
  have h1 := Int.emod_nonneg (i + h) (show m ≠ 0 by omega)
  have h2 := Int.emod_lt_of_pos (i + h) (show 0 < m by omega)
  refine ⟨by omega, by omega, ?_⟩
  have : i - ((i + h) % m - h) = m * ((i + h) / m) := by
    have := Int.emod_add_mul_ediv (i + h) m
    omega
  rw [this, Int.mul_emod_right]

theorem isInt_wrap64 (E : Ext) (k : IntKind) (i : Int) : IsInt E (.int k i) (wrap64 i) := by
  obtain ⟨h1, h2, h3⟩ := wrap_range i (2 ^ 63) (2 ^ 64) (by decide) (by decide)
  exact .int k i _ h1 h2 h3

theorem interface_valueOf {g : Graph} (h : Sound g) : g.interface = .ok (valueOf g) := by
  rcases h with rfl | h
  · rfl
  · match g, h with
    | .node _ [], _ => rfl
    | .node _ (.node _ _ :: _), _ => rfl
    | .node _ (.nil :: _), h => exact absurd h (by simp [NoNil, NoNilL])

theorem string_valueOf (E : Ext) {g : Graph} (h : NoNil g) (d : Option Bytes) : g.string E d = .ok (vstr E (valueOf g)) := by
  cases g with
  | nil => exact absurd h (by simp [NoNil])
  | node t o => simp only [Graph.string, interface_valueOf (.inr h), Res.ok_bind]

theorem string_sound (E : Ext) {g : Graph} (h : Sound g) : g.string E = .ok (vstr E (valueOf g)) := by
  rcases h with rfl | h
  · simp [Graph.string, valueOf, vstr]
  · exact string_valueOf E h none

theorem vintf_held (E : Ext) {t : Val} (h : ∀ x, t ≠ .graph x) (o : List Graph) : vintf E (.graph (.node t o)) = vintf E t := by
  cases t with
  | graph x => exact absurd rfl (h x)
  | _ => rfl

theorem vintf_isInt {E : Ext} {v : Val} {i : Int} (h : IsInt E v i) : vintf E v = .ok (some i) := by
  induction h with
  | int k i j h1 h2 h3 => simp [vintf, vintf.go, vint, wrap64_isInt h1 h2 h3]
  | text s i h => simp [vintf, vintf.go, parseInt_some.2 h]
  | bytes s i h => simp [vintf, vintf.go, parseInt_some.2 h]
  | f64 x => simp [vintf, vintf.go]
  | f32 x => simp [vintf, vintf.go]
  | held t o i ht _ ih => rw [vintf_held E ht, ih]

theorem vintf_flat {E : Ext} {v : Val} (hv : ∀ g, v ≠ .graph g) (h : ∀ i, ¬ IsInt E v i) : vintf E v = .ok none := by
  have hp : ∀ s, (∀ i, ¬ IntText s i) → parseInt s = none := fun s hs => by
    cases hk : parseInt s with
    | none => rfl
    | some i => exact absurd (parseInt_some.1 hk) (hs i)
  cases v with
  | graph g => exact absurd rfl (hv g)
  | int k i => exact absurd (isInt_wrap64 E k i) (h _)
  | f64 x => exact absurd (.f64 x) (h _)
  | f32 x => exact absurd (.f32 x) (h _)
  | str s => simp [vintf, vintf.go, hp s fun i hi => h i (.text s i hi)]
  | bytes s => simp [vintf, vintf.go, hp s fun i hi => h i (.bytes s i hi)]
  | nil => rfl
  | bool b => rfl
  | other n => rfl

theorem vintf_none {E : Ext} {v : Val} (hv : v ≠ .graph .nil) (h : ∀ i, ¬ IsInt E v i) : vintf E v = .ok none := by
  by_cases hg : ∀ g, v ≠ .graph g
  · exact vintf_flat hg h
  · match v, hv, h, hg with
    | .graph .nil, hv, _, _ => exact absurd rfl hv
    | .graph (.node t o), _, h, _ =>
      by_cases ht : ∀ x, t ≠ .graph x
      · rw [vintf_held E ht]
        exact vintf_flat ht fun i hi => h i (.held t o i ht hi)
      · cases t with
        | graph x => rfl
        | _ => exact absurd (by simp) ht
    | .nil, _, _, hg | .str _, _, _, hg | .bytes _, _, _, hg | .bool _, _, _, hg | .int _ _, _, _, hg | .f64 _, _, _, hg
    | .f32 _, _, _, hg | .other _, _, _, hg => exact absurd (by simp) hg

end DefaultsL

open DefaultsL

/-- **C117**: `Int64` returns the integer that the value of the graph is, whatever the default, and the default
(or 0) if it is none.  Missing: a value that is a nil graph, which makes it panic. -/
theorem C117_int_partial (E : Ext) (g : Graph) (hg : Sound g) (hv : valueOf g ≠ .graph .nil) (d : Option Int) :
    (∀ i, IsInt E (valueOf g) i → g.int64 E d = .ok i) ∧ ((∀ i, ¬ IsInt E (valueOf g) i) → g.int64 E d = .ok (d.getD 0)) := by
  constructor
  · intro i h
    simp only [Graph.int64, interface_valueOf hg, Res.ok_bind, vintf_isInt h]
  · intro h
    simp only [Graph.int64, interface_valueOf hg, Res.ok_bind, vintf_none hv h]

/-- **C117 refuted** for `Int64` of a graph that holds a nil graph. -/
theorem C117_int_refuted (E : Ext) (d : Option Int) : (Graph.node .nil [.node (.graph .nil) []]).int64 E d = .panic := rfl

/-- **C117**: `Bool` returns true if the text of the value is `true`, false if it is `false`, and the default
(or false) otherwise. -/
theorem C117_bool (E : Ext) (g : Graph) (hg : Sound g) (d : Option Bool) :
    (vstr E (valueOf g) = b!"true" → g.boolean E d = .ok true) ∧ (vstr E (valueOf g) = b!"false" → g.boolean E d = .ok false) ∧
    (vstr E (valueOf g) ≠ b!"true" → vstr E (valueOf g) ≠ b!"false" → g.boolean E d = .ok (d.getD false)) := by
  simp only [Graph.boolean, string_sound E hg, Res.ok_bind]
  refine ⟨fun h => ?_, fun h => ?_, fun h k => ?_⟩
  · rw [h]; rfl
  · rw [h]; rfl
  · simp only [vboolf, vboolf.go, h, k, if_false]

/-- **C117**: `Float64` returns the number that the text of the value writes, and the default (or NaN) if it writes
none. -/
theorem C117_float (E : Ext) (g : Graph) (hg : Sound g) (d : Option UInt64) :
    (∀ f, E.parseFloat (vstr E (valueOf g)) = some f → g.float64 E d = .ok f) ∧
    (E.parseFloat (vstr E (valueOf g)) = none → g.float64 E d = .ok (d.getD E.nan)) := by
  simp only [Graph.float64, string_sound E hg, Res.ok_bind]
  constructor
  · intro f h
    simp only [vfloatf, vfloat, vint, vstr, h]
  · intro h
    simp only [vfloatf, vfloat, vint, vstr, h]

/-- **C117**: `String` of a nil graph is the default; of any other graph it is the text of the value, whatever the
default.  `StringTxt` and `StringCSV` also return the default for a nil graph.  Missing: the default instead
of an empty text, see `C117_string_refuted`. -/
theorem C117_string_partial (E : Ext) (d : Option Bytes) :
    Graph.nil.string E d = .ok (d.getD []) ∧ Graph.nil.stringTxt E d = .ok (d.getD []) ∧ Graph.nil.stringCSV E d = .ok (d.getD []) ∧
    ∀ g, NoNil g → g.string E d = .ok (vstr E (valueOf g)) :=
  ⟨rfl, rfl, rfl, fun _ h => string_valueOf E h d⟩

/-- **C117 refuted** for `String`, `StringTxt` and `StringCSV`: of a graph without subnodes the first two return an
empty text and not the default, and the third panics. -/
theorem C117_string_refuted (E : Ext) : (Graph.node (.str b!"a") []).string E (some b!"d") = .ok [] ∧
    (Graph.node (.str b!"a") []).stringTxt E (some b!"d") = .ok [] ∧ (Graph.node (.str b!"a") []).stringCSV E (some b!"d") = .panic := by
  refine ⟨?_, rfl, ?_⟩
  · simp [Graph.string, Graph.interface, vstr]
  · simp [Graph.stringCSV, Graph.strings]

/-- The value 12 of a graph, and the default of one with the value `x`. -/
example (E : Ext) : (Graph.node .nil [.node (.str b!"12") []]).int64 E (some 7) = .ok 12 ∧
    (Graph.node .nil [.node (.str b!"x") []]).int64 E (some 7) = .ok 7 ∧ Sound (.node .nil [.node (.str b!"12") []]) ∧
    IsInt E (valueOf (.node .nil [.node (.str b!"12") []])) 12 := by
  refine ⟨rfl, rfl, .inr ?_, .text _ _ (parseInt_some.1 rfl)⟩
  simp [NoNil, NoNilL]

end Ogdl
