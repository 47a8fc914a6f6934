import Verif.Lemmas.At

/-!
# C111: what Get and GetBinary return at any position of any file
-/

namespace Ogdl
open Spec

/-- **C111, Get.** At every position of every file: if there is no header there, `Get` returns
nil and the position after the bytes it has read, or -1 at the end of the file; if there is a
record, its nodes, by their levels, and the position after it; and it returns nothing else. -/
theorem C111_get (data : Bytes) (i : Nat) (r : Graph × Int × Bool) :
    (∃ fuel, Log.get fuel ⟨true, data⟩ i = .ok r) ↔
      (data.drop i = [] ∧ r = (.nil, -1, true)) ∨
      (∃ k, data.drop i ≠ [] ∧ NoHeader (data.drop i) k ∧ r = (Graph.nil, ((i + k : Nat) : Int), true)) ∨
      ∃ rec its, HasRecord (data.drop i) rec its ∧ r = (Graph.node (.str b!"_") (below 0 its), ((i + rec.length : Nat) : Int), true) := by
  have val : ∀ fuel, Log.get fuel ⟨true, data⟩ i = (do
      let (g, p) ← (BinR.mk (data.drop i) 0).parse fuel
      if p.n = 0 then .ok (g, -1, true) else .ok (g, i + p.n, true)) := by
    intro fuel
    have : ¬ (i : Int) < 0 := by omega
    simp [Log.get, this]
  generalize data.drop i = d at *
  constructor
  · rintro ⟨fuel, h⟩
    rw [val] at h
    rcases hasRecord_or d with ⟨k, hk⟩ | hc | ⟨rec, its, hr⟩
    · obtain ⟨q, e⟩ := noHeader_header hk
      simp only [BinR.parse, e, Res.ok_bind] at h
      split at h
      next h0 => cases h; exact .inl ⟨(noHeader_zero hk).1 h0, rfl⟩
      next h0 => cases h; exact .inr (.inl ⟨k, fun hd => h0 ((noHeader_zero hk).2 hd), hk, rfl⟩)
    · obtain ⟨x, h1, _⟩ := res_bind_ok h
      have := (C04_exact d).2 hc fuel
      rw [parse_of_fuel h1] at this
      cases this
    · refine .inr (.inr ⟨rec, its, hr, ?_⟩)
      obtain ⟨x, h1, h2⟩ := res_bind_ok h
      obtain ⟨q, e⟩ := hasRecord_parse hr
      have e1 := parse_more h1 (Nat.le_max_left fuel (d.length + 1))
      rw [e _ (Nat.le_max_right _ _)] at e1
      cases e1
      have : rec.length ≠ 0 := by obtain ⟨body, _, _, rfl, _⟩ := hr; simp
      simp only [if_neg this] at h2
      cases h2
      rfl
  · rintro (⟨rfl, rfl⟩ | ⟨k, hd, hk, rfl⟩ | ⟨rec, its, hr, rfl⟩)
    · exact ⟨0, by rw [val]; rfl⟩
    · obtain ⟨q, e⟩ := noHeader_header hk
      have : k ≠ 0 := fun h => hd ((noHeader_zero hk).1 h)
      exact ⟨0, by rw [val]; simp [BinR.parse, e, this]⟩
    · obtain ⟨q, e⟩ := hasRecord_parse hr
      have : rec.length ≠ 0 := by obtain ⟨body, _, _, rfl, _⟩ := hr; simp
      exact ⟨_, by rw [val, e _ (Nat.le_refl _)]; simp only [Res.ok_bind, if_neg this]; rfl⟩

/-- **C111, GetBinary.** At every position of every file: without a header there, no bytes and
0; with a record, exactly its bytes and their number; and nothing else. -/
theorem C111_getBinary (data : Bytes) (i : Nat) (r : Bytes × Int × Bool) :
    (∃ fuel, Log.getBinary fuel ⟨true, data⟩ i = .ok r) ↔
      (∃ k, NoHeader (data.drop i) k ∧ r = ([], 0, true)) ∨
      ∃ rec its, HasRecord (data.drop i) rec its ∧ r = (rec, (rec.length : Int), true) := by
  have val : ∀ fuel, Log.getBinary fuel ⟨true, data⟩ i =
      (match (BinR.mk (data.drop i) 0).header with
      | (false, _) => .ok ([], 0, true)
      | (true, p) => do
        let p ← p.skip fuel fuel
        .ok ((data.drop i).take p.n, p.n, true)) := by
    intro fuel
    have : ¬ (i : Int) < 0 := by omega
    simp [Log.getBinary, this]
    rfl
  generalize data.drop i = d at *
  have take : ∀ {rec its}, HasRecord d rec its → d.take rec.length = rec := by
    rintro rec its ⟨_, after, rfl, _, _⟩
    simp
  constructor
  · rintro ⟨fuel, h⟩
    rw [val] at h
    rcases hasRecord_or d with ⟨k, hk⟩ | hc | ⟨rec, its, hr⟩
    · obtain ⟨q, e⟩ := noHeader_header hk
      rw [e] at h
      cases h
      exact .inl ⟨k, hk, rfl⟩
    · split at h
      next q e =>
        have := (C04_exact d).2 hc fuel
        simp [fromBinaryFuel, BinR.parse, e] at this
      next p e =>
        obtain ⟨x, h1, _⟩ := res_bind_ok h
        obtain ⟨its, h2⟩ := skip_lines _ _ _ _ {} h1
        have := (C04_exact d).2 hc fuel
        simp only [fromBinaryFuel, BinR.parse, e, h2, Res.ok_bind] at this
        rw [tree_below _ (addAll_items its {} (by simp)).2] at this
        cases this
    · refine .inr ⟨rec, its, hr, ?_⟩
      obtain ⟨p, q, e, hs⟩ := hasRecord_skip hr
      rw [e] at h
      obtain ⟨x, h1, h2⟩ := res_bind_ok h
      have e1 := skip_more _ _ _ _ _ (Nat.le_max_left fuel (d.length + 1)) h1 _ (Nat.le_max_left fuel (d.length + 1))
      rw [hs _ (Nat.le_max_right _ _)] at e1
      cases e1
      cases h2
      rw [take hr]
  · rintro (⟨k, hk, rfl⟩ | ⟨rec, its, hr, rfl⟩)
    · obtain ⟨q, e⟩ := noHeader_header hk
      exact ⟨0, by rw [val, e]⟩
    · obtain ⟨p, q, e, hs⟩ := hasRecord_skip hr
      exact ⟨d.length + 1, by rw [val, e]; simp only [hs _ (Nat.le_refl _), Res.ok_bind, take hr]⟩

/-- `Get` and `GetBinary` return at the same positions: at all from which on the file does not
end inside a text. -/
theorem C111_returns (data : Bytes) (i : Nat) :
    ((∃ fuel r, Log.get fuel ⟨true, data⟩ i = .ok r) ↔ ¬ CutInText (data.drop i)) ∧
    ((∃ fuel r, Log.getBinary fuel ⟨true, data⟩ i = .ok r) ↔ ¬ CutInText (data.drop i)) := by
  have nc : ∀ {k}, NoHeader (data.drop i) k → ¬ CutInText (data.drop i) := by
    rintro k hk ⟨ns, c, _, _, h⟩
    exact noHeader_not hk _ (by rw [h, List.append_assoc])
  refine ⟨⟨?_, fun h => ?_⟩, ⟨?_, fun h => ?_⟩⟩
  · rintro ⟨fuel, r, h⟩
    rcases (C111_get data i r).1 ⟨fuel, h⟩ with ⟨hd, _⟩ | ⟨k, _, hk, _⟩ | ⟨rec, its, hr, _⟩
    · rw [hd]; rintro ⟨ns, c, _, _, h⟩; simp at h
    · exact nc hk
    · exact hasRecord_notCut hr
  · rcases hasRecord_or (data.drop i) with ⟨k, hk⟩ | hc | ⟨rec, its, hr⟩
    · by_cases hd : data.drop i = []
      · obtain ⟨f, hf⟩ := (C111_get data i _).2 (.inl ⟨hd, rfl⟩); exact ⟨f, _, hf⟩
      · obtain ⟨f, hf⟩ := (C111_get data i _).2 (.inr (.inl ⟨k, hd, hk, rfl⟩)); exact ⟨f, _, hf⟩
    · exact absurd hc h
    · obtain ⟨f, hf⟩ := (C111_get data i _).2 (.inr (.inr ⟨rec, its, hr, rfl⟩)); exact ⟨f, _, hf⟩
  · rintro ⟨fuel, r, h⟩
    rcases (C111_getBinary data i r).1 ⟨fuel, h⟩ with ⟨k, hk, _⟩ | ⟨rec, its, hr, _⟩
    · exact nc hk
    · exact hasRecord_notCut hr
  · rcases hasRecord_or (data.drop i) with ⟨k, hk⟩ | hc | ⟨rec, its, hr⟩
    · obtain ⟨f, hf⟩ := (C111_getBinary data i _).2 (.inl ⟨k, hk, rfl⟩); exact ⟨f, _, hf⟩
    · exact absurd hc h
    · obtain ⟨f, hf⟩ := (C111_getBinary data i _).2 (.inr ⟨rec, its, hr, rfl⟩); exact ⟨f, _, hf⟩

/-- The next position that `Get` returns, if it is not -1, is a later one and not after the end
of the file: following the positions ends. -/
theorem C111_progress (data : Bytes) (i : Nat) (fuel : Nat) (g : Graph) (next : Int) (ok : Bool)
    (h : Log.get fuel ⟨true, data⟩ i = .ok (g, next, ok)) : ok = true ∧ (next = -1 ↔ data.length ≤ i) ∧ (next ≠ -1 → (i : Int) < next ∧ next ≤ data.length) := by
  have hl : (data.drop i).length = data.length - i := by simp
  rcases (C111_get data i _).1 ⟨fuel, h⟩ with ⟨hd, h⟩ | ⟨k, hd, hk, h⟩ | ⟨rec, its, hr, h⟩
  · cases h
    rw [hd] at hl
    simp at hl
    exact ⟨rfl, ⟨fun _ => by omega, fun _ => rfl⟩, fun h => absurd rfl h⟩
  · cases h
    have h1 := noHeader_le hk
    have h2 : k ≠ 0 := fun h => hd ((noHeader_zero hk).1 h)
    exact ⟨rfl, ⟨fun _ => by omega, fun _ => by omega⟩, fun _ => by omega⟩
  · cases h
    obtain ⟨body, after, h1, rfl, _⟩ := hr
    rw [h1] at hl
    simp at hl ⊢
    omega

/-- The bytes that `GetBinary` returns, given to `FromBinary`, make what `Get` returns. -/
theorem C111_same (data : Bytes) (i fuel : Nat) (b : Bytes) (n : Int) (ok : Bool) (h : Log.getBinary fuel ⟨true, data⟩ i = .ok (b, n, ok)) (g : Graph) :
    FromBinary b g ↔ ∃ fuel next ok, Log.get fuel ⟨true, data⟩ i = .ok (g, next, ok) := by
  rcases (C111_getBinary data i _).1 ⟨fuel, h⟩ with ⟨k, hk, h⟩ | ⟨rec, its, hr, h⟩
  · cases h
    constructor
    · rintro ⟨f, hf⟩
      have : g = .nil := by cases f <;> (simp [fromBinaryFuel, BinR.parse, BinR.header, BinR.read] at hf; exact hf.symm)
      subst this
      by_cases hd : data.drop i = []
      · obtain ⟨f, hf⟩ := (C111_get data i _).2 (.inl ⟨hd, rfl⟩); exact ⟨f, _, _, hf⟩
      · obtain ⟨f, hf⟩ := (C111_get data i _).2 (.inr (.inl ⟨k, hd, hk, rfl⟩)); exact ⟨f, _, _, hf⟩
    · rintro ⟨f, next, ok, hf⟩
      rcases (C111_get data i _).1 ⟨f, hf⟩ with ⟨_, h⟩ | ⟨k, _, hk, h⟩ | ⟨rec, its, hr, h⟩
      · cases h; exact ⟨0, rfl⟩
      · cases h; exact ⟨0, rfl⟩
      · obtain ⟨body, after, h1, rfl, _⟩ := hr
        exact absurd (by rw [h1, List.append_assoc]) (noHeader_not hk (body ++ after))
  · cases h
    have hr0 := hr
    obtain ⟨body, after, h1, rfl, hd⟩ := hr
    obtain ⟨body', hb, hd'⟩ := decodes_part hd
    cases List.append_cancel_right hb
    constructor
    · intro hf
      rcases (C110 _ g).1 hf with ⟨h, _⟩ | ⟨t, its', a', ht, hdt, rfl⟩
      · exact absurd ⟨_, rfl⟩ h
      · cases List.append_cancel_left ht
        obtain ⟨rfl, _⟩ := C110_nodes _ _ _ _ _ hd' hdt
        obtain ⟨f, hf⟩ := (C111_get data i _).2 (.inr (.inr ⟨_, _, hr0, rfl⟩))
        exact ⟨f, _, _, hf⟩
    · rintro ⟨f, next, ok, hf⟩
      rcases (C111_get data i _).1 ⟨f, hf⟩ with ⟨h0, _⟩ | ⟨k, _, hk, _⟩ | ⟨rec, its', hr', h⟩
      · rw [h0] at h1; simp at h1
      · exact absurd (by rw [h1, List.append_assoc]) (noHeader_not hk (body ++ after))
      · cases h
        obtain ⟨b2, a2, h2, rfl, hd2⟩ := hr'
        rw [h1, List.append_assoc, List.append_assoc] at h2
        have h3 := List.append_cancel_left h2
        rw [← h3] at hd2
        obtain ⟨rfl, _⟩ := C110_nodes _ _ _ _ _ hd hd2
        exact (C110 _ _).2 (.inr ⟨body, its, [], rfl, hd', rfl⟩)

/-- Two records with other bytes between them: a text at level 0 and bytes below it, then a
record of one node, and the beginning of a header at the end. -/
example : let data : Bytes := [1, 71, 0, 1, 97, 0, 2, 1, 2, 7, 8, 0xf0, 0] ++ [9] ++ [1, 71, 0, 1, 98, 0, 0] ++ [1, 71]
    HasRecord (data.drop 0) [1, 71, 0, 1, 97, 0, 2, 1, 2, 7, 8, 0xf0, 0] [(0, .str b!"a"), (1, .bytes [7, 8])] ∧
    NoHeader (data.drop 13) 1 ∧ HasRecord (data.drop 14) [1, 71, 0, 1, 98, 0, 0] [(0, .str b!"b")] ∧
    NoHeader (data.drop 21) 2 ∧ data.drop 23 = [] := by
  refine ⟨⟨[1, 97, 0, 2, 1, 2, 7, 8, 0xf0, 0], _, rfl, rfl, ?_⟩, .other (p := []) (by simp) (by simp) (by simp [List.cons_prefix_cons]),
    ⟨[1, 98, 0, 0], _, rfl, rfl, ?_⟩, .ended (p := [1, 71]) (by simp) (by simp [List.cons_prefix_cons]), rfl⟩
  · refine Decodes.text (n := [1]) (s := []) (c := 97) (k := 0) (.one (by decide)) (by decide) (by decide) ?_
    refine Decodes.binary (n := [2]) (cs := [2, 7, 8, 0xf0] ++ _) (bs := [7, 8]) (k := 1) (.one (by decide))
      (BinContent.chunk (n := [2]) (xs := [7, 8]) (bs := []) (k := 2) (.one (by decide)) rfl (.done (by decide))) (Decodes.zero (n := [0]) (.one (by decide)))
  · exact Decodes.text (n := [1]) (s := []) (c := 98) (k := 0) (.one (by decide)) (by decide) (by decide) (Decodes.zero (n := [0]) (.one (by decide)))

end Ogdl
