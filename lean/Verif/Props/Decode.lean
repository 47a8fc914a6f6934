import Verif.Lemmas.Decode
import Verif.Props.Cut
import Verif.Props.Event

/-!
# C110: what FromBinary returns

`Spec.Decodes` lists the nodes of a stream, `Spec.below` puts them into a tree.
-/

namespace Ogdl
open Spec

/-- **C110.** On every byte string: without the header `FromBinary` returns nil; with it, the
root `_` and below it the nodes that the stream stands for, by their levels; and it returns
nothing else. -/
theorem C110 (b : Bytes) (g : Graph) :
    FromBinary b g ↔ ((¬ ∃ t, b = [1, 71, 0] ++ t) ∧ g = .nil) ∨
      ∃ t its after, b = [1, 71, 0] ++ t ∧ Decodes t its after ∧ g = .node (.str b!"_") (below 0 its) := by
  have fwd : ∀ {g' : Graph}, FromBinary b g' → FromBinary b g → g = g' := by
    rintro g' ⟨f, h⟩ ⟨f', h'⟩
    have h1 := fromBinary_more h (Nat.le_max_left f f')
    have h2 := fromBinary_more h' (Nat.le_max_right f f')
    rw [h1] at h2
    cases h2
    rfl
  have none_case : ∀ {p : BinR}, (BinR.mk b 0).header = (false, p) → FromBinary b .nil := by
    intro p hp
    exact ⟨0, by simp [fromBinaryFuel, BinR.parse, hp]⟩
  have some_case : ∀ {t after : Bytes} {its : List (Nat × Val)}, b = [1, 71, 0] ++ t → Decodes t its after → FromBinary b (.node (.str b!"_") (below 0 its)) := by
    rintro t after its rfl h
    exact ⟨_, decodes_fuel h _ (Nat.le_refl _)⟩
  constructor
  · intro h
    rcases header_cases b with ⟨t, ht⟩ | ⟨hn, p, hp⟩
    · rcases decodes_exists _ t (Nat.lt_succ_self _) with ⟨ns, c, h1, h2, h3⟩ | ⟨its, after, hi⟩
      · obtain ⟨f, h⟩ := h
        rw [(C04_exact b).2 ⟨ns, c, h1, h2, by rw [ht, h3, List.append_assoc]⟩ f] at h
        cases h
      · exact .inr ⟨t, its, after, ht, hi, fwd (some_case ht hi) h⟩
    · exact .inl ⟨hn, fwd (none_case hp) h⟩
  · rintro (⟨hn, rfl⟩ | ⟨t, its, after, ht, hi, rfl⟩)
    · rcases header_cases b with h | ⟨_, p, hp⟩
      · exact absurd h hn
      · exact none_case hp
    · exact some_case ht hi

/-- A stream stands for one list of nodes, and ends at one place. -/
theorem C110_nodes (t after after' : Bytes) (its its' : List (Nat × Val)) (h : Decodes t its after) (h' : Decodes t its' after') :
    its = its' ∧ after = after' := by
  obtain ⟨m, _, e⟩ := decodes_lines h 0 (t.length + 1) (t.length + 1) {} (Nat.le_refl _) (Nat.le_refl _)
  obtain ⟨m', _, e'⟩ := decodes_lines h' 0 (t.length + 1) (t.length + 1) {} (Nat.le_refl _) (Nat.le_refl _)
  rw [e] at e'
  simp only [Res.ok.injEq, Prod.mk.injEq, BinR.mk.injEq] at e'
  have h1 := (addAll_items its {} (by simp)).1
  have h2 := (addAll_items its' {} (by simp)).1
  rw [e'.1, h2] at h1
  exact ⟨by simpa using h1.symm, e'.2.1⟩

/-- If the levels start with the first and grow by at most one, all nodes are in the tree, in
the order of the stream. -/
theorem C110_order (t after : Bytes) (its : List (Nat × Val)) (h : Decodes t its after) (hv : ValidLevels its) :
    ∃ gs, NoNilL gs ∧ preorderL 0 gs = its ∧ FromBinary ([1, 71, 0] ++ t) (.node (.str b!"_") gs) := by
  obtain ⟨gs, hn, hp⟩ := exists_forest _ 0 its (Nat.le_refl _) (fun _ _ => Nat.zero_le _)
    (by
      intro it hit
      cases its with
      | nil => simp at hit
      | cons a l => simp at hit; subst hit; exact hv.1)
    (by
      cases its with
      | nil => exact ⟨0, trivial⟩
      | cons a l => exact ⟨0, by simp [hv.1], hv.2⟩)
  refine ⟨gs, hn, hp, ?_⟩
  have hi := addAll_items its {} (by simp)
  have h1 := tree_below (addAll its {}) hi.2
  have h2 := tree_of_preorder (addAll its {}) gs hn (by rw [hi.1, hp]; rfl) hi.2
  rw [h1, hi.1] at h2
  simp only [Res.ok.injEq, Graph.node.injEq, true_and] at h2
  rw [← h2]
  exact (C110 _ _).2 (.inr ⟨t, its, after, rfl, h, rfl⟩)

/-- A stream of another program: a level of two bytes, bytes in two chunks, a level that is
skipped, and a byte from F0 on at the end, after which more follows. -/
example : FromBinary ([1, 71, 0] ++ [1, 97, 0] ++ [0x80, 2, 1, 2, 7, 8, 1, 9, 0xf0] ++ [4, 98, 99, 0] ++ [0xff, 5])
    (.node (.str b!"_") [.node (.str b!"a") [.node (.bytes [7, 8, 9]) []]]) := by
  refine (C110 _ _).2 (.inr ⟨[1, 97, 0] ++ ([0x80, 2, 1, 2, 7, 8, 1, 9, 0xf0] ++ ([4, 98, 99, 0] ++ [0xff, 5])),
    [(0, .str b!"a"), (1, .bytes [7, 8, 9]), (3, .str b!"bc")], [5], rfl, ?_, rfl⟩)
  refine Decodes.text (n := [1]) (s := []) (c := 97) (k := 0) (.one (by decide)) (by decide) (by decide) ?_
  refine Decodes.binary (n := [0x80, 2]) (cs := [2, 7, 8, 1, 9, 0xf0, 4, 98, 99, 0, 0xff, 5]) (bs := [7, 8, 9]) (rest := [4, 98, 99, 0, 0xff, 5])
    (k := 1) (.two (by decide) (by decide)) ?_ ?_
  · exact .chunk (n := [2]) (xs := [7, 8]) (bs := [9]) (.one (by decide)) rfl
      (.chunk (n := [1]) (xs := [9]) (bs := []) (.one (by decide)) rfl (.done (by decide)))
  · exact Decodes.text (n := [4]) (s := [99]) (c := 98) (k := 3) (.one (by decide)) (by decide) (by decide) (.mark (by decide))

end Ogdl
