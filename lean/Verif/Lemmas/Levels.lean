import Verif.Lemmas.Event
import Verif.Spec.Levels

/-!
# The tree of items with any levels
-/

namespace Ogdl
open Spec

/-- Where the items that `below` takes are put, if the next address is `n`. -/
def belowAt (l n : Nat) : List (Nat × Val) → List Nat
  | [] => []
  | (k, _) :: rest =>
    if k + 1 = l then []
    else if k = l then n :: belowAt l (n + 1) rest
    else belowAt l (n + 1) rest

/-- Every slot holds an address in memory, and no two the same. -/
structure SlotsOk (s : TreeSt) : Prop where
  lt : ∀ {l p : Nat}, s.slots[l]? = some (some p) → p < s.heap.length
  inj : ∀ {l l' p : Nat}, s.slots[l]? = some (some p) → s.slots[l']? = some (some p) → l = l'

/-- One item, and what it does to the memory. -/
theorem treeStep_eq {s : TreeSt} {k : Nat} {v : Val} (hk : k + 1 < s.slots.length) (hs : SlotsOk s) :
    ∃ h, treeStep s (k, v) = .ok ⟨h, s.slots.set (k + 1) (some s.heap.length)⟩ ∧ h.length = s.heap.length + 1 ∧
      h[s.heap.length]? = some ⟨v, []⟩ ∧
      ∀ q < s.heap.length, h[q]? = if s.slots[k]? = some (some q) then (s.heap[q]?).map (·.addOut [s.heap.length]) else s.heap[q]? := by
  have e : (s.slots.set (k + 1) (some s.heap.length))[k + 1 - 1]? = s.slots[k]? := by
    rw [Nat.add_sub_cancel, List.getElem?_set_ne (by omega)]
  have none_case : (∀ p, s.slots[k]? ≠ some (some p)) →
      treeStep s (k, v) = .ok ⟨s.heap ++ [⟨v, []⟩], s.slots.set (k + 1) (some s.heap.length)⟩ := by
    intro hn
    simp only [treeStep, hk, ↓reduceIte]
    rw [e]
    split
    · rename_i p hp; exact absurd hp (hn p)
    · rfl
  by_cases hp : ∃ p, s.slots[k]? = some (some p)
  · obtain ⟨p, hp⟩ := hp
    have hlt := hs.lt hp
    refine ⟨(s.heap ++ [Cell.mk v []]).modify p fun c => { c with out := c.out ++ [s.heap.length] }, ?_, by simp, ?_, ?_⟩
    · simp only [treeStep, hk, ↓reduceIte]
      rw [e, hp]
    · rw [List.getElem?_modify]
      simp [show ¬ p = s.heap.length by omega]
    · intro q hq
      rw [List.getElem?_modify, List.getElem?_append_left hq, hp]
      by_cases h : p = q
      · subst h; simp [Cell.addOut]
      · simp [h]
  · have hp : ∀ p, s.slots[k]? ≠ some (some p) := fun p h => hp ⟨p, h⟩
    refine ⟨_, none_case hp, by simp, by simp, fun q hq => ?_⟩
    rw [List.getElem?_append_left hq, if_neg (hp q)]

theorem slotsOk_step {s : TreeSt} {k : Nat} {h : List Cell} (hs : SlotsOk s) (hl : h.length = s.heap.length + 1) :
    SlotsOk ⟨h, s.slots.set (k + 1) (some s.heap.length)⟩ := by
  have get : ∀ {l p : Nat}, (s.slots.set (k + 1) (some s.heap.length))[l]? = some (some p) →
      (l = k + 1 ∧ p = s.heap.length) ∨ (l ≠ k + 1 ∧ s.slots[l]? = some (some p)) := by
    intro l p h
    by_cases e : l = k + 1
    · subst e
      rw [List.getElem?_set_self'] at h
      cases hh : s.slots[k + 1]? with
      | none => rw [hh] at h; cases h
      | some x => rw [hh] at h; simp at h; exact .inl ⟨rfl, h.symm⟩
    · rw [List.getElem?_set_ne (fun h => e h.symm)] at h
      exact .inr ⟨e, h⟩
  constructor
  · intro l p h'
    show p < h.length
    rcases get h' with ⟨_, rfl⟩ | ⟨_, h⟩
    · omega
    · have := hs.lt h; omega
  · intro l l' p h h'
    rcases get h with ⟨rfl, rfl⟩ | ⟨_, h⟩ <;> rcases get h' with ⟨rfl, e⟩ | ⟨_, h'⟩
    · rfl
    · have := hs.lt h'; omega
    · subst e; have := hs.lt h; omega
    · exact hs.inj h h'

/-- What the cells hold in the end. -/
theorem treeLoop_cells : ∀ (its : List (Nat × Val)) (s : TreeSt), SlotsOk s → (∀ it ∈ its, it.1 + 1 < s.slots.length) →
    ∃ s', treeLoop s its = .ok s' ∧ s'.heap.length = s.heap.length + its.length ∧
      (∀ l q : Nat, s.slots[l]? = some (some q) → s'.heap[q]? = (s.heap[q]?).map (·.addOut (belowAt l s.heap.length its))) ∧
      ∀ q < s.heap.length, (∀ l : Nat, s.slots[l]? ≠ some (some q)) → s'.heap[q]? = s.heap[q]?
  | [], s, _, _ => ⟨s, rfl, rfl, fun l q _ => by simp [belowAt, Cell.addOut], fun _ _ _ => rfl⟩
  | (k, v) :: its, s, hs, hl => by
    have hk : k + 1 < s.slots.length := hl (k, v) (by simp)
    obtain ⟨h, e, hlen, hn, hq⟩ := treeStep_eq (v := v) hk hs
    obtain ⟨s', e', hlen', hin, hout⟩ := treeLoop_cells its ⟨h, s.slots.set (k + 1) (some s.heap.length)⟩ (slotsOk_step hs hlen)
      (fun it hit => by simpa using hl it (by simp [hit]))
    refine ⟨s', by simp only [treeLoop]; rw [e]; exact e', by rw [hlen']; simp; omega, ?_, ?_⟩
    · intro l q hlq
      have hlt := hs.lt hlq
      by_cases h1 : k + 1 = l
      · -- displaced
        rw [hout q (by show q < h.length; omega) (fun l' h' => by
          simp only at h'
          by_cases e2 : l' = k + 1
          · subst e2
            rw [List.getElem?_set_self hk] at h'
            simp at h'
            omega
          · rw [List.getElem?_set_ne (fun h => e2 h.symm)] at h'
            have := hs.inj hlq h'
            omega), hq q hlt, if_neg (fun h' => by have := hs.inj hlq h'; omega)]
        simp [belowAt, h1, Cell.addOut]
      · rw [hin l q (by simp only; rw [List.getElem?_set_ne h1]; exact hlq), hlen, hq q hlt]
        by_cases h2 : k = l
        · subst h2
          rw [if_pos hlq]
          simp only [belowAt, h1, ↓reduceIte, Option.map_map]
          congr 1
          funext c
          simp [Cell.addOut]
        · rw [if_neg (fun h' => h2 (hs.inj h' hlq))]
          simp [belowAt, h1, h2]
    · intro q hlt hno
      rw [hout q (by show q < h.length; omega) (fun l' h' => by
        simp only at h'
        by_cases e2 : l' = k + 1
        · subst e2
          rw [List.getElem?_set_self hk] at h'
          simp at h'
          omega
        · rw [List.getElem?_set_ne (fun h => e2 h.symm)] at h'
          exact hno _ h'), hq q hlt, if_neg (hno k)]

/-- What is read back. -/
theorem treeLoop_read : ∀ (its : List (Nat × Val)) (s s' : TreeSt) (l f : Nat), SlotsOk s → (∀ it ∈ its, it.1 + 1 < s.slots.length) →
    treeLoop s its = .ok s' → its.length ≤ f → (belowAt l s.heap.length its).map (readNode s'.heap f) = below l its
  | [], _, _, _, _, _, _, _, _ => rfl
  | (k, v) :: its, s, s', l, f, hs, hl, he, hf => by
    have hk : k + 1 < s.slots.length := hl (k, v) (by simp)
    obtain ⟨h, e, hlen, hn, hq⟩ := treeStep_eq (v := v) hk hs
    have hs1 := slotsOk_step (k := k) hs hlen
    have hl1 : ∀ it ∈ its, it.1 + 1 < (TreeSt.mk h (s.slots.set (k + 1) (some s.heap.length))).slots.length :=
      fun it hit => by simpa using hl it (by simp [hit])
    simp only [treeLoop] at he
    rw [e] at he
    have he : treeLoop ⟨h, s.slots.set (k + 1) (some s.heap.length)⟩ its = .ok s' := he
    have ih := fun l f hf => treeLoop_read its _ s' l f hs1 hl1 he hf
    simp only [hlen] at ih
    simp only [List.length_cons] at hf
    simp only [belowAt, below]
    by_cases h1 : k + 1 = l
    · simp [h1]
    · rw [if_neg h1, if_neg h1]
      by_cases h2 : k = l
      · rw [if_pos h2, if_pos h2]
        subst h2
        obtain ⟨s2, e2, _, hin, _⟩ := treeLoop_cells its _ hs1 hl1
        rw [he] at e2
        cases e2
        have hc := hin (k + 1) s.heap.length (by simp only; rw [List.getElem?_set_self hk])
        simp only at hc
        rw [hn, hlen] at hc
        cases f with
        | zero => omega
        | succ f =>
          rw [List.map_cons, ih k (f + 1) (by omega)]
          simp only [readNode, hc, Option.map_some, Cell.addOut, List.nil_append]
          rw [ih (k + 1) f (by omega)]
      · rw [if_neg h2, if_neg h2]
        exact ih l f (by omega)

/-- `Tree` on any items. -/
theorem tree_below (e : Ev) (hm : ∀ it ∈ e.items, it.1 ≤ e.max) : e.tree = .ok (.node (.str b!"_") (below 0 e.items)) := by
  have hs : SlotsOk ⟨[⟨.str b!"_", []⟩], some 0 :: List.replicate (e.max + 1) none⟩ := by
    have get : ∀ {l p : Nat}, (some 0 :: List.replicate (e.max + 1) (none : Option Nat))[l]? = some (some p) → l = 0 ∧ p = 0 := by
      intro l p h
      cases l with
      | zero => simp at h; exact ⟨rfl, h.symm⟩
      | succ l =>
        rw [List.getElem?_cons_succ, List.getElem?_replicate] at h
        split at h <;> cases h
    exact ⟨fun h => by simp [(get h).2], fun h h' => by rw [(get h).1, (get h').1]⟩
  have hl : ∀ it ∈ e.items, it.1 + 1 < (TreeSt.mk [⟨.str b!"_", []⟩] (some 0 :: List.replicate (e.max + 1) none)).slots.length := by
    intro it hit
    have := hm it hit
    simp; omega
  obtain ⟨s', he, hlen, hin, _⟩ := treeLoop_cells e.items _ hs hl
  have hr := treeLoop_read e.items _ s' 0 e.items.length hs hl he (Nat.le_refl _)
  have h0 := hin 0 0 rfl
  simp only [List.getElem?_cons_zero, Option.map_some, Cell.addOut, List.nil_append, List.length_singleton] at h0 hr
  unfold Ev.tree
  rw [he]
  simp only [Res.ok_bind]
  rw [hlen]
  simp only [List.length_singleton, Nat.add_comm 1, readNode, h0, hr]

end Ogdl
