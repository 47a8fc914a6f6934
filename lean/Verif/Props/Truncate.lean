import Verif.Lemmas.Truncate

/-!
# C112: what is read of a stream that has been cut
-/

namespace Ogdl
open Spec

/-- **C112.** Cut a stream anywhere.  If `FromBinary` returns on what is left, it returns nil,
when the header has been cut, or the first nodes of the stream: no node that is not in it, none
out of order, and at most the last one with less bytes. -/
theorem C112 (t after : Bytes) (its : List (Nat × Val)) (hd : Decodes t its after) (j : Nat) (g : Graph)
    (h : FromBinary (([1, 71, 0] ++ t).take j) g) :
    (j < 3 ∧ g = .nil) ∨ ∃ its', FirstOf its' its ∧ g = .node (.str b!"_") (below 0 its') := by
  rcases Nat.lt_or_ge j 3 with hj | hj
  · rcases (C110 _ g).1 h with ⟨_, h⟩ | ⟨t', its', after', ht, _, _⟩
    · exact .inl ⟨hj, h⟩
    · have := congrArg List.length ht
      simp at this
      omega
  · obtain ⟨j, rfl⟩ : ∃ i, j = 3 + i := ⟨j - 3, by omega⟩
    rw [show (([1, 71, 0] ++ t : Bytes).take (3 + j)) = [1, 71, 0] ++ t.take j by
      rw [Nat.add_comm]; rfl] at h
    right
    rcases (C110 _ g).1 h with ⟨hn, _⟩ | ⟨t', its', after', ht, hd', rfl⟩
    · exact absurd ⟨_, rfl⟩ hn
    · cases List.append_cancel_left ht
      rcases decodes_cut hd _ (List.take_prefix j t) with ⟨ns, c, h1, h2, h3⟩ | ⟨its2, after2, hd2, hf⟩
      · obtain ⟨f, hf⟩ := h
        rw [(C04_exact _).2 ⟨ns, c, h1, h2, by rw [h3, List.append_assoc]⟩ f] at hf
        cases hf
      · obtain ⟨rfl, _⟩ := C110_nodes _ _ _ _ _ hd' hd2
        exact ⟨its', hf, rfl⟩

/-- **C112, graphs.** Cut the binary form of a graph anywhere.  What `FromBinary` returns, if it
returns, is nil or the tree of the first nodes of the graph, in the order of the tree. -/
theorem C112_written (E : Ext) (g : Graph) (h : Encodable E g) (b : Bytes) (hb : g.binary E = .ok (some b)) (j : Nat) (g' : Graph)
    (h' : FromBinary (b.take j) g') :
    (j < 3 ∧ g' = .nil) ∨ ∃ gs m, g' = .node (.str b!"_") gs ∧ NoNilL gs ∧ preorderL 0 gs = (preorderL 0 (visibleL E g.out)).take m := by
  obtain ⟨t, ht, hd⟩ := binary_decodes E h
  rw [hb] at ht
  cases ht
  rcases C112 t [] _ hd j g' h' with h1 | ⟨its', hf, rfl⟩
  · exact .inl h1
  · right
    have take : ∀ {its' its : List (Nat × Val)}, FirstOf its' its → (∀ it ∈ its, ∃ s, it.2 = .str s) → ∃ m, its' = its.take m := by
      intro its' its hf
      induction hf with
      | none its => exact fun _ => ⟨0, rfl⟩
      | cut k n bs its => intro h; obtain ⟨s, hs⟩ := h (k, .bytes bs) (by simp); cases hs
      | next it _ ih =>
        intro h
        obtain ⟨m, rfl⟩ := ih fun it hit => h it (by simp [hit])
        exact ⟨m + 1, rfl⟩
    obtain ⟨m, rfl⟩ := take hf (visibleL_texts E _ 0)
    obtain ⟨gs, hn, hp⟩ := first_forest (visibleL E g.out) 0 m
    refine ⟨gs, m, ?_, hn, hp⟩
    rw [← hp, below_preorder gs hn]

/-- **C94, the record that was cut.** A crash leaves the beginning of a record.  What `Get` returns
at its position, if it returns, is nil or the tree of the first nodes of the graph, with no error
in either case. -/
theorem C94_cut (E : Ext) (data : Bytes) (g : Graph) (h : Encodable E g) (b : Bytes) (hb : g.binary E = .ok (some b)) (j : Nat)
    (fuel : Nat) (g' : Graph) (next : Int) (ok : Bool)
    (h' : Log.get fuel ⟨true, data ++ b.take j⟩ data.length = .ok (g', next, ok)) :
    ok = true ∧ ((j < 3 ∧ g' = .nil) ∨ ∃ gs m, g' = .node (.str b!"_") gs ∧ NoNilL gs ∧ preorderL 0 gs = (preorderL 0 (visibleL E g.out)).take m) := by
  have h1 := (C111_progress _ _ _ _ _ _ h').1
  refine ⟨h1, C112_written E g h b hb j g' ?_⟩
  have : ¬ (data.length : Int) < 0 := by omega
  simp only [Log.get, this, Bool.not_true, decide_false, Bool.or_self, Bool.false_eq_true, ↓reduceIte, Int.toNat_natCast, List.drop_left] at h'
  obtain ⟨x, h2, h3⟩ := res_bind_ok h'
  refine ⟨fuel, ?_⟩
  rw [parse_of_fuel h2]
  obtain ⟨gx, p⟩ := x
  dsimp only at h3 ⊢
  split at h3 <;> (cases h3; rfl)

/-- A graph of two nodes, cut after the first: `Get` returns the first. -/
example (E : Ext) : let g : Graph := .node .nil [.node (.str b!"a") [.node (.str b!"b") []]]
    Encodable E g ∧ g.binary E = .ok (some [1, 71, 0, 1, 97, 0, 2, 98, 0, 0]) ∧
    Log.get 10 ⟨true, [7, 7] ++ [1, 71, 0, 1, 97, 0, 2, 98, 0, 0].take 6⟩ 2 = .ok (.node (.str b!"_") [.node (.str b!"a") []], 8, true) := by
  refine ⟨?_, rfl, rfl⟩
  simp [Encodable, NoNil, NoNilL, AllThisL, AllThis, Storable, vbytes, visibleL, visible, depthL, depth]

/-- Bytes that are cut in their second chunk. -/
example : Decodes [1, 1, 2, 7, 8, 1, 9, 0xf0, 0] [(0, .bytes [7, 8, 9])] [] ∧
    FromBinary (([1, 71, 0] ++ [1, 1, 2, 7, 8, 1, 9, 0xf0, 0] : Bytes).take 8) (.node (.str b!"_") [.node (.bytes [7, 8]) []]) :=
  ⟨Decodes.binary (n := [1]) (cs := [2, 7, 8, 1, 9, 0xf0, 0]) (bs := [7, 8, 9]) (rest := [0]) (k := 0) (.one (by decide))
    (BinContent.chunk (n := [2]) (xs := [7, 8]) (bs := [9]) (k := 2) (.one (by decide)) rfl
      (BinContent.chunk (n := [1]) (xs := [9]) (bs := []) (k := 1) (.one (by decide)) rfl (.done (by decide))))
    (Decodes.zero (n := [0]) (after := []) (.one (by decide))), 10, rfl⟩

end Ogdl
