import Verif.Lemmas.Cut

/-!
# C04: when FromBinary returns
-/

namespace Ogdl
open Spec

/-- **C04, exactly.** `FromBinary` returns on every byte string that does not end inside a text
(`Spec.CutInText`), after at most `length + 1` iterations of its loops, and on no other. -/
theorem C04_exact (b : Bytes) :
    (¬ CutInText b → ∃ g, ∀ fuel ≥ b.length + 1, fromBinaryFuel fuel b = .ok g) ∧ (CutInText b → ∀ fuel, fromBinaryFuel fuel b = .oof) := by
  refine ⟨fun h => ?_, fromBinary_hangs.2⟩
  rcases (BinR.mk b 0).parse_settles.1 with ⟨r, _, _, hr⟩ | hr
  · exact ⟨r.1, fun fuel hf => by simp [fromBinaryFuel, hr fuel hf]⟩
  · exact absurd (fromBinary_hangs.1 fun fuel => by simp [fromBinaryFuel, hr fuel]) h

/-- A text that is cut at its end, after a whole node with a text, one with bytes, and levels
of one and two bytes. -/
example : CutInText ([1, 71, 0] ++ [1, 97, 0] ++ [0x80, 2, 1, 2, 7, 8, 0xf0] ++ [3, 98, 99]) := by
  refine ⟨[[1, 97, 0], [0x80, 2, 1, 2, 7, 8, 0xf0]], [3, 98, 99], fun n hn => ?_, ?_, rfl⟩
  · simp only [List.mem_cons, List.not_mem_nil, or_false] at hn
    rcases hn with rfl | rfl
    · exact WholeNode.text (n := [1]) (s := []) (.one (by decide)) (by decide) (by decide) (by decide)
    · exact WholeNode.binary (n := [0x80, 2]) (cs := [2, 7, 8, 0xf0]) (.two (by decide) (by decide)) (by decide)
        (.chunk (n := [2]) (xs := [7, 8]) (cs := [0xf0]) (.one (by decide)) (by decide) (.done (by decide)))
  · exact CutNode.text (n := [3]) (s := [99]) (.one (by decide)) (by decide) (by decide) (by decide)

/-- A stream that is not: it is cut inside a node with bytes. -/
example : ¬ CutInText [1, 71, 0, 1, 1, 5, 7] := fun h => by
  have := (C04_exact _).2 h 10
  have e : fromBinaryFuel 10 [1, 71, 0, 1, 1, 5, 7] = .ok (.node (.str b!"_") [.node (.bytes [7]) []]) := rfl
  rw [e] at this
  cases this

end Ogdl
