import Verif.Model.Event
import Verif.Spec.Tree

namespace Ogdl
open Spec

mutual
/-- The memory `H` holds the tree at `id`, within addresses `[lo, hi)`. -/
def Reads (H : List Cell) (lo hi : Nat) : Graph → Nat → Prop
  | .nil, _ => False
  | .node t o, id => lo ≤ id ∧ id < hi ∧ ∃ ids, H[id]? = some ⟨t, ids⟩ ∧ ReadsL H (id + 1) hi o ids
def ReadsL (H : List Cell) (lo hi : Nat) : List Graph → List Nat → Prop
  | [], ids => ids = []
  | g :: gs, ids => ∃ i is, ids = i :: is ∧ Reads H lo hi g i ∧ ReadsL H lo hi gs is
end

mutual
theorem Reads.congr {H H' : List Cell} {lo hi lo' hi' : Nat} (hlo : lo' ≤ lo) (hhi : hi ≤ hi')
    (h : ∀ q, lo ≤ q → q < hi → H'[q]? = H[q]?) :
    ∀ (g : Graph) (id : Nat), Reads H lo hi g id → Reads H' lo' hi' g id
  | .nil, _, hr => by simp [Reads] at hr
  | .node t o, id, hr => by
    simp only [Reads] at hr ⊢
    obtain ⟨h1, h2, ids, h3, h4⟩ := hr
    refine ⟨by omega, by omega, ids, ?_, ?_⟩
    · rw [h _ h1 h2, h3]
    · exact ReadsL.congr (Nat.le_refl _) hhi (fun q hq hq' => h q (by omega) hq') o ids h4
theorem ReadsL.congr {H H' : List Cell} {lo hi lo' hi' : Nat} (hlo : lo' ≤ lo) (hhi : hi ≤ hi')
    (h : ∀ q, lo ≤ q → q < hi → H'[q]? = H[q]?) :
    ∀ (gs : List Graph) (ids : List Nat), ReadsL H lo hi gs ids → ReadsL H' lo' hi' gs ids
  | [], ids, hr => by simpa [ReadsL] using hr
  | g :: gs, ids, hr => by
    simp only [ReadsL] at hr ⊢
    obtain ⟨i, is, rfl, h1, h2⟩ := hr
    exact ⟨i, is, rfl, Reads.congr hlo hhi h g i h1, ReadsL.congr hlo hhi h gs is h2⟩
end

mutual
theorem readNode_of_reads {H : List Cell} {lo hi : Nat} :
    ∀ (g : Graph) (id f : Nat), Reads H lo hi g id → hi ≤ id + f → readNode H f id = g
  | .nil, _, _, hr, _ => by simp [Reads] at hr
  | .node t o, id, f, hr, hf => by
    simp only [Reads] at hr
    obtain ⟨h1, h2, ids, h3, h4⟩ := hr
    cases f with
    | zero => omega
    | succ f =>
      simp only [readNode, h3]
      rw [readNode_of_readsL o ids f h4 (by omega)]
theorem readNode_of_readsL {H : List Cell} {lo hi : Nat} :
    ∀ (gs : List Graph) (ids : List Nat) (f : Nat), ReadsL H lo hi gs ids → hi ≤ lo + f →
      ids.map (readNode H f) = gs
  | [], ids, f, hr, _ => by simp only [ReadsL] at hr; simp [hr]
  | g :: gs, ids, f, hr, hf => by
    simp only [ReadsL] at hr
    obtain ⟨i, is, rfl, h1, h2⟩ := hr
    have hi' : hi ≤ i + f := by
      cases g with
      | nil => simp [Reads] at h1
      | node t o => simp only [Reads] at h1; omega
    simp [readNode_of_reads g i f h1 hi', readNode_of_readsL gs is f h2 hf]
end

/-- Append ids to the subnodes of a cell. -/
def Cell.addOut (c : Cell) (ids : List Nat) : Cell := { c with out := c.out ++ ids }

theorem ReadsL.append {H : List Cell} {lo hi : Nat} :
    ∀ (gs : List Graph) (ids : List Nat) (gs' : List Graph) (ids' : List Nat),
      ReadsL H lo hi gs ids → ReadsL H lo hi gs' ids' → ReadsL H lo hi (gs ++ gs') (ids ++ ids')
  | [], ids, gs', ids', h, h' => by simp only [ReadsL] at h; subst h; simpa using h'
  | g :: gs, ids, gs', ids', h, h' => by
    simp only [ReadsL] at h
    obtain ⟨i, is, rfl, h1, h2⟩ := h
    simp only [List.cons_append, ReadsL]
    exact ⟨i, is ++ ids', rfl, h1, ReadsL.append gs is gs' ids' h2 h'⟩

mutual
theorem treeLoop_preorder :
    ∀ (g : Graph) (d : Nat) (H : List Cell) (S : List (Option Nat)) (p : Nat) (rest),
      NoNil g → S[d]? = some (some p) → p < H.length →
      (∀ it ∈ preorder d g, it.1 + 1 < S.length) →
      ∃ H' S' ids, treeLoop ⟨H, S⟩ (preorder d g ++ rest) = treeLoop ⟨H', S'⟩ rest ∧
        S'.length = S.length ∧ (∀ j ≤ d, S'[j]? = S[j]?) ∧ H.length ≤ H'.length ∧
        (∀ q < H.length, H'[q]? = if q = p then (H[q]?).map (·.addOut ids) else H[q]?) ∧
        ReadsL H' H.length H'.length [g] ids
  | .nil, d, H, S, p, rest, hn, _, _, _ => by simp [NoNil] at hn
  | .node t o, d, H, S, p, rest, hn, hS, hp, hl => by
    simp only [NoNil] at hn
    have hd : d + 1 < S.length := hl (d, t) (by simp [preorder])
    have hstep : treeStep ⟨H, S⟩ (d, t) =
        .ok ⟨(H ++ [Cell.mk t []]).modify p fun c => { c with out := c.out ++ [H.length] },
          S.set (d + 1) (some H.length)⟩ := by
      simp only [treeStep, hd, ↓reduceIte, Nat.add_sub_cancel]
      rw [List.getElem?_set_ne (by omega), hS]
    let H1 := (H ++ [Cell.mk t []]).modify p fun c => { c with out := c.out ++ [H.length] }
    let S1 := S.set (d + 1) (some H.length)
    have hH1 : H1.length = H.length + 1 := by simp [H1]
    have hS1 : S1.length = S.length := by simp [S1]
    obtain ⟨H', S', ids, e, hSl, hSj, hHl, hHq, hR⟩ :=
      treeLoop_preorderL o (d + 1) H1 S1 H.length rest hn
        (by simp [S1, hd]) (by omega)
        (fun it hit => by rw [hS1]; exact hl it (by simp [preorder, hit]))
    refine ⟨H', S', [H.length], ?_, ?_, ?_, ?_, ?_, ?_⟩
    · simp only [preorder, List.cons_append, treeLoop]
      rw [hstep]
      exact e
    · omega
    · intro j hj
      rw [hSj j (by omega)]
      simp only [S1]
      rw [List.getElem?_set_ne (by omega)]
    · omega
    · intro q hq
      rw [hHq q (by omega)]
      have hne : q ≠ H.length := by omega
      simp only [hne, ↓reduceIte, H1, List.getElem?_modify]
      rw [List.getElem?_append_left hq]
      by_cases hqp : q = p
      · subst hqp; simp [Cell.addOut]
      · have : ¬ p = q := fun h => hqp h.symm
        simp [hqp, this]
    · simp only [ReadsL]
      refine ⟨H.length, [], rfl, ?_, rfl⟩
      simp only [Reads]
      refine ⟨Nat.le_refl _, by omega, ids, ?_, ?_⟩
      · rw [hHq _ (by omega)]
        have : ¬ p = H.length := by omega
        simp [H1, this, Cell.addOut]
      · rw [hH1] at hR
        exact hR
theorem treeLoop_preorderL :
    ∀ (gs : List Graph) (d : Nat) (H : List Cell) (S : List (Option Nat)) (p : Nat) (rest),
      NoNilL gs → S[d]? = some (some p) → p < H.length →
      (∀ it ∈ preorderL d gs, it.1 + 1 < S.length) →
      ∃ H' S' ids, treeLoop ⟨H, S⟩ (preorderL d gs ++ rest) = treeLoop ⟨H', S'⟩ rest ∧
        S'.length = S.length ∧ (∀ j ≤ d, S'[j]? = S[j]?) ∧ H.length ≤ H'.length ∧
        (∀ q < H.length, H'[q]? = if q = p then (H[q]?).map (·.addOut ids) else H[q]?) ∧
        ReadsL H' H.length H'.length gs ids
  | [], d, H, S, p, rest, _, _, hp, _ => by
    refine ⟨H, S, [], by simp [preorderL], rfl, fun _ _ => rfl, Nat.le_refl _, ?_, by simp [ReadsL]⟩
    intro q hq
    by_cases h : q = p
    · simp [h, Cell.addOut]
    · simp [h]
  | g :: gs, d, H, S, p, rest, hn, hS, hp, hl => by
    simp only [NoNilL] at hn
    simp only [preorderL, List.mem_append] at hl
    obtain ⟨H1, S1, ids1, e1, hSl1, hSj1, hHl1, hHq1, hR1⟩ :=
      treeLoop_preorder g d H S p (preorderL d gs ++ rest) hn.1 hS hp (fun it h => hl it (.inl h))
    obtain ⟨H2, S2, ids2, e2, hSl2, hSj2, hHl2, hHq2, hR2⟩ :=
      treeLoop_preorderL gs d H1 S1 p rest hn.2 (by rw [hSj1 d (Nat.le_refl _), hS]) (by omega)
        (fun it h => by rw [hSl1]; exact hl it (.inr h))
    refine ⟨H2, S2, ids1 ++ ids2, ?_, by omega, ?_, by omega, ?_, ?_⟩
    · simp only [preorderL, List.append_assoc]
      rw [e1, e2]
    · intro j hj
      rw [hSj2 j hj, hSj1 j hj]
    · intro q hq
      rw [hHq2 q (by omega), hHq1 q hq]
      by_cases h : q = p
      · simp only [h, ↓reduceIte, Option.map_map]
        congr 1
        funext c
        simp [Cell.addOut]
      · simp [h]
    · have hR1' : ReadsL H2 H.length H2.length [g] ids1 :=
        ReadsL.congr (Nat.le_refl _) hHl2 (fun q hq hq' => by
          rw [hHq2 q hq']
          have : q ≠ p := by omega
          simp [this]) [g] ids1 hR1
      have hR2' : ReadsL H2 H.length H2.length gs ids2 :=
        ReadsL.congr hHl1 (Nat.le_refl _) (fun _ _ _ => rfl) gs ids2 hR2
      exact ReadsL.append [g] ids1 gs ids2 hR1' hR2'
end

/-- `Tree` on the preorder of a forest gives that forest under `_`. -/
theorem tree_of_preorder (e : Ev) (gs : List Graph) (hn : NoNilL gs)
    (hi : e.items = preorderL 0 gs) (hm : ∀ it ∈ e.items, it.1 ≤ e.max) :
    e.tree = .ok (.node (.str b!"_") gs) := by
  obtain ⟨H', S', ids, e1, _, _, hHl, hHq, hR⟩ :=
    treeLoop_preorderL gs 0 [⟨.str b!"_", []⟩] (some 0 :: List.replicate (e.max + 1) none) 0 []
      hn rfl (by simp) (fun it h => by
        have := hm it (by rw [hi]; exact h)
        simp; omega)
  simp only [List.append_nil] at e1
  simp only [Ev.tree, hi, e1, treeLoop, Res.ok_bind]
  have h0 := hHq 0 (by simp)
  simp only [↓reduceIte, Cell.addOut] at h0
  have hlen : 1 ≤ H'.length := by simpa using hHl
  congr 1
  refine readNode_of_reads (lo := 0) (hi := H'.length) _ _ _ ?_ (by omega)
  simp only [Reads]
  refine ⟨Nat.le_refl _, by omega, ids, by simpa using h0, ?_⟩
  simpa using hR

end Ogdl
