import Verif.Lemmas.ScalarText

/-!
# The values of scalars (C76)
-/

namespace Ogdl
open Spec

/-- `Scalar` gives every integer as int64, every float as float64, booleans as they are,
and for a text the int64 it writes, or the float, boolean or text it stands for.  Missing:
uint64 values above the int64 range (`C76_refuted`) and texts of blanks (`C54_refuted`). -/
theorem C76_partial (E : Ext) (t : Val) (k rest : List Graph) :
    (∀ kind i, -2 ^ 63 ≤ i → i < 2 ^ 63 → (Graph.node t (.node (.int kind i) k :: rest)).scalar E = .ok (.int .int64 i)) ∧
    (∀ f, (Graph.node t (.node (.f64 f) k :: rest)).scalar E = .ok (.f64 f)) ∧
    (∀ f, (Graph.node t (.node (.f32 f) k :: rest)).scalar E = .ok (.f64 (E.f32to64 f))) ∧
    (∀ b, E.parseFloat b!"true" = none → E.parseFloat b!"false" = none → (Graph.node t (.node (.bool b) k :: rest)).scalar E = .ok (.bool b)) ∧
    (∀ s i, LooksInteger s → IntText s i → (Graph.node t (.node (.str s) k :: rest)).scalar E = .ok (.int .int64 i)) ∧
    (∀ s, LooksInteger s → (∀ i, ¬ IntText s i) → (Graph.node t (.node (.str s) k :: rest)).scalar E = .ok (.str s)) ∧
    (∀ s, (∃ c ∈ s, ¬ SpaceOrTab c) → ¬ LooksInteger s → (Graph.node t (.node (.str s) k :: rest)).scalar E = .ok (scalarText E s)) := by
  have hne : ∀ s, LooksInteger s → s.isEmpty = false ∧ s ≠ b!"true" ∧ s ≠ b!"false" := by
    intro s h
    have h := (isInteger_iff s).2 h
    refine ⟨?_, ?_, ?_⟩
    · cases s with
      | nil => cases h
      | cons => rfl
    · rintro rfl; cases h
    · rintro rfl; cases h
  refine ⟨?_, fun _ => rfl, fun _ => rfl, ?_, ?_, ?_, ?_⟩
  · intro kind i h1 h2
    simp only [Graph.scalar, Graph.interface, Res.ok_bind, scalarOf, number', vfloat, vint, wrap64_id h1 h2]
  · intro b h1 h2
    have hi : isInteger b!"true" = .ok false ∧ isInteger b!"false" = .ok false := ⟨rfl, rfl⟩
    cases b <;> simp [Graph.scalar, Graph.interface, scalarOf, number', vfloat, vint, vstr, hi, h1, h2, vboolf, vboolf.go]
  · intro s i h1 h2
    simp only [Graph.scalar, Graph.interface, Res.ok_bind, scalarOf, number', vfloat, vint, vstr, (hne s h1).1, Bool.false_eq_true, ↓reduceIte,
      (isInteger_iff s).2 h1, parseInt_some.2 h2]
  · intro s h1 h2
    have hp : parseInt s = none := by
      cases hp : parseInt s with
      | none => rfl
      | some i => exact absurd (parseInt_some.1 hp) (h2 i)
    obtain ⟨e1, e2, e3⟩ := hne s h1
    simp only [Graph.scalar, Graph.interface, Res.ok_bind, scalarOf, number', vfloat, vint, vstr, e1, Bool.false_eq_true, ↓reduceIte,
      (isInteger_iff s).2 h1, hp, vboolf, vboolf.go, e2, e3]
  · intro s hs hn
    have h1 : s.isEmpty = false := by
      obtain ⟨c, hc, _⟩ := hs
      cases s with
      | nil => simp at hc
      | cons => rfl
    simp only [Graph.scalar, Graph.interface, Res.ok_bind, scalarOf, number', vfloat, vint, vstr, h1, Bool.false_eq_true, ↓reduceIte,
      isInteger_not hs hn, scalarText]
    cases hp : E.parseFloat s with
    | some f => rfl
    | none =>
      simp only [Res.ok_bind, vboolf, vboolf.go]
      by_cases h2 : s = b!"true"
      · subst h2; rfl
      · by_cases h3 : s = b!"false"
        · subst h3; rfl
        · simp [h2, h3]

/-- The `This` variants say of the content of a node what the others say of the content of
the first subnode; `Int64` and `ThisInt64` read integers, floats cut to integers, and texts
that write an int64, and report everything else as no integer. -/
theorem C76_this (E : Ext) (t v : Val) (k o rest : List Graph) :
    (Graph.node v o).thisNumber E = (Graph.node t (.node v k :: rest)).number E ∧
    (Graph.node v o).thisBytes E = (Graph.node t (.node v k :: rest)).bytes E ∧
    (v ≠ .nil → (Graph.node v o).thisScalar E = (Graph.node t (.node v k :: rest)).scalar E) ∧
    (∀ d r, (Graph.node v o).thisInt64 E = .ok r → (Graph.node t (.node v k :: rest)).int64 E d = .ok (r.getD (d.getD 0))) ∧
    (∀ kind i, v = .int kind i → -2 ^ 63 ≤ i → i < 2 ^ 63 → (Graph.node v o).thisInt64 E = .ok (some i) ∧ (Graph.node v o).thisFloat64 E = .ok (some (E.ofInt i))) ∧
    (∀ f, v = .f64 f → (Graph.node v o).thisInt64 E = .ok (some (E.toInt f)) ∧ (Graph.node v o).thisFloat64 E = .ok (some f)) ∧
    (∀ f, v = .f32 f → (Graph.node v o).thisInt64 E = .ok (some (E.toInt (E.f32to64 f))) ∧ (Graph.node v o).thisFloat64 E = .ok (some (E.f32to64 f))) ∧
    (∀ s, v = .str s ∨ v = .bytes s → (∀ i, IntText s i → (Graph.node v o).thisInt64 E = .ok (some i)) ∧
      ((∀ i, ¬ IntText s i) → (Graph.node v o).thisInt64 E = .ok none) ∧
      (Graph.node v o).thisFloat64 E = .ok (E.parseFloat s) ∧ (Graph.node v o).thisBytes E = .ok s) ∧
    (∀ b, v = .bool b → (Graph.node v o).thisInt64 E = .ok none) := by
  refine ⟨rfl, rfl, ?_, ?_, ?_, ?_, ?_, ?_, ?_⟩
  · intro hv
    cases v <;> first | exact absurd rfl hv | rfl
  · intro d r hr
    have hr : vintf E v = .ok r := hr
    simp only [Graph.int64, Graph.interface, Res.ok_bind, hr]
    cases r <;> rfl
  · rintro kind i rfl h1 h2
    have : vint (.int kind i) = some i := by rw [vint, wrap64_id h1 h2]
    exact ⟨by rw [Graph.thisInt64, vintf, vintf.go, this] <;> nofun, by rw [Graph.thisFloat64, vfloatf, vfloat, this] <;> nofun⟩
  · rintro f rfl
    exact ⟨rfl, rfl⟩
  · rintro f rfl
    exact ⟨rfl, rfl⟩
  · rintro s (rfl | rfl)
    all_goals
      refine ⟨fun i hi => ?_, fun hi => ?_, rfl, rfl⟩
      · show Res.ok (parseInt s) = _
        rw [parseInt_some.2 hi]
      · show Res.ok (parseInt s) = _
        cases hp : parseInt s with
        | none => rfl
        | some i => exact absurd (parseInt_some.1 hp) (hi i)
  · rintro b rfl
    rfl

/-- The largest uint64 becomes -1. -/
theorem C76_refuted (E : Ext) : (Graph.node .nil [.node (.int .uint64 (2 ^ 64 - 1)) []]).scalar E = .ok (.int .int64 (-1)) := rfl

/-! ## The hypotheses are met -/

/-- `1 2` does not look like an integer. -/
example (E : Ext) (h : E.parseFloat b!"1 2" = none) : (Graph.node .nil [leaf b!"1 2"]).scalar E = .ok (.str b!"1 2") := by
  have hn : ¬ LooksInteger b!"1 2" := fun h => absurd ((isInteger_iff _).2 h) (by decide)
  have := (C76_partial E .nil [] []).2.2.2.2.2.2 b!"1 2" ⟨49, by simp, by simp [SpaceOrTab]⟩ hn
  rw [leaf, this, scalarText, h]
  rfl

example (E : Ext) : (Graph.node .nil [leaf b!"-40"]).scalar E = .ok (.int .int64 (-40)) :=
  (C76_partial E .nil [] []).2.2.2.2.1 b!"-40" (-40) ((isInteger_iff _).1 rfl) (parseInt_some.1 rfl)

example (E : Ext) : (leaf b!"-40").thisInt64 E = .ok (some (-40)) :=
  ((C76_this E .nil (.str b!"-40") [] [] []).2.2.2.2.2.2.2.1 b!"-40" (.inl rfl)).1 (-40) (parseInt_some.1 rfl)

/-- ` 40` looks like an integer but is not read as one. -/
example (E : Ext) : (Graph.node .nil [leaf b!" 40"]).scalar E = .ok (.str b!" 40") :=
  (C76_partial E .nil [] []).2.2.2.2.2.1 b!" 40" ((isInteger_iff _).1 rfl) fun i hi => by
    have := parseInt_some.2 hi
    rw [show parseInt b!" 40" = none from rfl] at this
    cases this

end Ogdl
