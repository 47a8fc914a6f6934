import Verif.Spec.Merge
import Verif.Props.Graph

/-!
# C29: what Merge does

`C29_refuted` shows that it is not what its name says.  Here is what it does, for all graphs without
nil subnodes.
-/

namespace Ogdl
open Spec Spec.Merging

namespace MergeL

theorem nn_append {a b : List Graph} : NoNilL (a ++ b) ↔ NoNilL a ∧ NoNilL b := by
  induction a with
  | nil => simp [NoNilL]
  | cons x a ih => simp only [List.cons_append, NoNilL, ih, and_assoc]

theorem nn_mem {a : List Graph} (h : NoNilL a) {x : Graph} (hx : x ∈ a) : NoNil x := by
  induction a with
  | nil => simp at hx
  | cons y a ih =>
    simp only [NoNilL] at h
    rcases List.mem_cons.1 hx with rfl | hx
    · exact h.1
    · exact ih h.2 hx

theorem string_value (E : Ext) {n : Graph} (h : NoNil n) : n.string E = .ok (value E n) := by
  match n, h with
  | .node t [], _ => rfl
  | .node t (.node t' o' :: o), _ => rfl
  | .node t (.nil :: o), h => exact absurd h (by simp [NoNil, NoNilL])

theorem not_text {E : Ext} {k : Bytes} {o : List Graph} (h : ∀ y ∈ o, name E y ≠ k) : ∀ y ∈ o, ¬ HasText E k y := by
  intro y hy ht
  cases y with
  | nil => exact ht
  | node t c => exact h _ hy ht

theorem split_name (E : Ext) (k : Bytes) : ∀ o : List Graph, NoNilL o → (∀ y ∈ o, name E y ≠ k) ∨
    ∃ a t old b, o = a ++ .node t old :: b ∧ (∀ y ∈ a, name E y ≠ k) ∧ vstr E t = k
  | [], _ => .inl (by simp)
  | .nil :: _, h => absurd h (by simp [NoNil, NoNilL])
  | .node t c :: o, h => by
    by_cases ht : vstr E t = k
    · exact .inr ⟨[], t, c, o, rfl, by simp, ht⟩
    · rcases split_name E k o h.2 with h1 | ⟨a, t', old, b, rfl, h2, h3⟩
      · refine .inl fun y hy => ?_
        rcases List.mem_cons.1 hy with rfl | hy
        · exact ht
        · exact h1 y hy
      · refine .inr ⟨.node t c :: a, t', old, b, rfl, fun y hy => ?_, h3⟩
        rcases List.mem_cons.1 hy with rfl | hy
        · exact ht
        · exact h2 y hy

theorem merges_noNil {E : Ext} {o src o' : List Graph} (h : Merges E o src o') : NoNilL o → NoNilL src → NoNilL o' := by
  induction h with
  | done o => exact fun h _ => h
  | added _ _ ih => exact fun h1 h2 => ih (nn_append.2 ⟨h1, h2.1, trivial⟩) h2.2
  | @over a b t old n ns r o' _ _ _ _ ih1 ih2 =>
    intro h1 h2
    obtain ⟨h3, h4⟩ := nn_append.1 h1
    have hn : NoNilL n.out := by
      have := h2.1
      cases n with
      | nil => exact absurd this (by simp [NoNil])
      | node t c => exact this
    exact ih2 (nn_append.2 ⟨h3, ih1 trivial hn, h4.2⟩) h2.2

/-- The model follows the specification. -/
theorem merges_run {E : Ext} {o src o' : List Graph} (h : Merges E o src o') : NoNilL o → NoNilL src →
    ∀ t, Graph.mergeList E (.node t o) src = .ok (.node t o') := by
  induction h with
  | done o => exact fun _ _ t => by simp [Graph.mergeList]
  | @added o n ns o' h _ ih =>
    intro h1 h2 t
    have hadd : addedNode (.graph n) = n := by
      cases n with
      | nil => exact absurd h2.1 (by simp [NoNil])
      | node t o => rfl
    simp only [Graph.mergeList, string_value E h2.1, Res.ok_bind, findName_none E o h1 (not_text h), hadd]
    exact ih (nn_append.2 ⟨h1, h2.1, trivial⟩) h2.2 t
  | @over a b t old n ns r o' h ht hr _ ih1 ih2 =>
    intro h1 h2 t'
    obtain ⟨h3, h4⟩ := nn_append.1 h1
    have hf := findName_pre E (s := value E n) (x := .node t old) (post := b) ht a h3 (not_text h)
    have hn : NoNilL n.out := by
      have := h2.1
      cases n with
      | nil => exact absurd this (by simp [NoNil])
      | node t c => exact this
    have hm : (Graph.node t []).merge E n = .ok (.node t r) := by
      cases n with
      | nil => exact absurd h2.1 (by simp [NoNil])
      | node u c =>
        simp only [Graph.merge]
        exact ih1 trivial hn t
    have hg : (a ++ .node t old :: b).getD a.length .nil = .node t old := by simp
    have hs : (a ++ .node t old :: b).set a.length (.node t r) = a ++ .node t r :: b := by simp
    simp only [Graph.mergeList, string_value E h2.1, Res.ok_bind, hf, hg, Graph.this, hm, hs]
    exact ih2 (nn_append.2 ⟨h3, merges_noNil hr trivial hn, h4.2⟩) h2.2 t'

mutual
theorem exists_merges_node (E : Ext) : ∀ (n : Graph), NoNil n → ∀ o, NoNilL o → ∃ o', Merges E o n.out o'
  | .nil, h, _, _ => absurd h (by simp [NoNil])
  | .node _ c, h, o, ho => exists_merges E c h o ho
theorem exists_merges (E : Ext) : ∀ (src : List Graph), NoNilL src → ∀ o, NoNilL o → ∃ o', Merges E o src o'
  | [], _, o, _ => ⟨o, .done o⟩
  | n :: ns, h, o, ho => by
    rcases split_name E (value E n) o ho with h1 | ⟨a, t, old, b, rfl, h2, h3⟩
    · obtain ⟨o', h4⟩ := exists_merges E ns h.2 (o ++ [n]) (nn_append.2 ⟨ho, h.1, trivial⟩)
      exact ⟨o', .added h1 h4⟩
    · obtain ⟨r, hr⟩ := exists_merges_node E n h.1 [] trivial
      have hn : NoNilL n.out := by
        have := h.1
        cases n with
        | nil => exact absurd this (by simp [NoNil])
        | node t c => exact this
      obtain ⟨h4, h5⟩ := nn_append.1 ho
      obtain ⟨o', h6⟩ := exists_merges E ns h.2 (a ++ .node t r :: b) (nn_append.2 ⟨h4, merges_noNil hr trivial hn, h5.2⟩)
      exact ⟨o', .over h2 h3 hr h6⟩
end

theorem merges_shape {E : Ext} {o src o' : List Graph} (h : Merges E o src o') : ∃ u, o'.map Graph.this = o.map Graph.this ++ u ∧
    List.Sublist u (src.map Graph.this) := by
  induction h with
  | done o => exact ⟨[], by simp, List.Sublist.refl _⟩
  | @added o n ns o' _ _ ih =>
    obtain ⟨u, h1, h2⟩ := ih
    exact ⟨n.this :: u, by simpa using h1, h2.cons_cons n.this⟩
  | @over a b t old n ns r o' _ _ _ _ _ ih =>
    obtain ⟨u, h1, h2⟩ := ih
    exact ⟨u, by simpa [Graph.this] using h1, h2.cons n.this⟩

theorem merges_kept {E : Ext} {o src o' : List Graph} (h : Merges E o src o') : ∀ (i : Nat) (g : Graph), o[i]? = some g →
    (∀ n ∈ src, name E g ≠ value E n) → o'[i]? = some g := by
  induction h with
  | done o => exact fun _ _ h _ => h
  | @added o n ns o' _ _ ih =>
    intro i g hg hn
    refine ih i g ?_ fun m hm => hn m (by simp [hm])
    obtain ⟨hi, _⟩ := List.getElem?_eq_some_iff.1 hg
    rw [List.getElem?_append_left hi, hg]
  | @over a b t old n ns r o' ha ht _ _ _ ih =>
    intro i g hg hn
    refine ih i g ?_ fun m hm => hn m (by simp [hm])
    rcases Nat.lt_trichotomy i a.length with hi | hi | hi
    · rw [List.getElem?_append_left hi] at hg ⊢
      exact hg
    · subst hi
      rw [List.getElem?_append_right (Nat.le_refl _)] at hg
      simp at hg
      subst hg
      exact absurd ht (hn n (by simp))
    · rw [List.getElem?_append_right (by omega)] at hg ⊢
      obtain ⟨j, hj⟩ : ∃ j, i - a.length = j + 1 := ⟨i - a.length - 1, by omega⟩
      rw [hj] at hg ⊢
      simpa using hg

end MergeL

open MergeL

/-- **C29**, what `Merge` does: exactly what `Spec.Merging.Merges` says. -/
theorem C29_exact_partial (E : Ext) (t t' : Val) (o src : List Graph) (ho : NoNilL o) (hs : NoNilL src) (g : Graph) :
    (Graph.node t o).merge E (.node t' src) = .ok g ↔ ∃ o', g = .node t o' ∧ Merges E o src o' := by
  simp only [Graph.merge]
  constructor
  · intro h
    obtain ⟨o', h1⟩ := exists_merges E src hs o ho
    rw [merges_run h1 ho hs t] at h
    injection h with h
    exact ⟨o', h.symm, h1⟩
  · rintro ⟨o', rfl, h⟩
    exact merges_run h ho hs t

/-- **C29**: `Merge` returns for all graphs without nil subnodes.  The nodes of the receiver stay, in their
order; after them come some of the nodes of the source, in their order.  A node of the receiver that is
not named like the value of a node of the source is not changed. -/
theorem C29_keeps_partial (E : Ext) (t t' : Val) (o src : List Graph) (ho : NoNilL o) (hs : NoNilL src) :
    ∃ o', (Graph.node t o).merge E (.node t' src) = .ok (.node t o') ∧ NoNilL o' ∧
      (∃ u, o'.map Graph.this = o.map Graph.this ++ u ∧ List.Sublist u (src.map Graph.this)) ∧
      (∀ (i : Nat) (g : Graph), o[i]? = some g → (∀ n ∈ src, name E g ≠ value E n) → o'[i]? = some g) := by
  obtain ⟨o', h⟩ := exists_merges E src hs o ho
  refine ⟨o', ?_, merges_noNil h ho hs, merges_shape h, merges_kept h⟩
  simp only [Graph.merge]
  exact merges_run h ho hs t

/-- **C29**: what happens to the node named like the value of the only node of the source with that value:
its subnodes are replaced. -/
theorem C29_over_partial (E : Ext) (t t' u : Val) (a b old : List Graph) (n : Graph) (ho : NoNilL (a ++ .node u old :: b)) (hn : NoNil n)
    (ha : ∀ y ∈ a, name E y ≠ value E n) (hu : vstr E u = value E n) :
    ∃ r, (Graph.node t (a ++ .node u old :: b)).merge E (.node t' [n]) = .ok (.node t (a ++ .node u r :: b)) ∧
      (Graph.node u []).merge E n = .ok (.node u r) := by
  obtain ⟨r, hr⟩ := exists_merges_node E n hn [] trivial
  refine ⟨r, ?_, ?_⟩
  · simp only [Graph.merge]
    exact merges_run (.over ha hu hr (.done _)) ho ⟨hn, trivial⟩ t
  · cases n with
    | nil => exact absurd hn (by simp [NoNil])
    | node v c =>
      simp only [Graph.merge]
      exact merges_run hr trivial hn u

/-- The nodes `a 1`, `b 2` with `k a`, `c` merged into them: `a` is replaced, `c` has no value and is added. -/
example (E : Ext) : Merges E [.node (.str b!"a") [.node (.str b!"1") []], .node (.str b!"b") [.node (.str b!"2") []]]
    [.node (.str b!"k") [.node (.str b!"a") []], .node (.str b!"c") []]
    [.node (.str b!"a") [.node (.str b!"a") []], .node (.str b!"b") [.node (.str b!"2") []], .node (.str b!"c") []] := by
  refine .over (a := []) (by simp) rfl (.added (by simp) (.done _)) (.added ?_ (.done _))
  intro y hy
  simp only [List.nil_append, List.mem_cons, List.not_mem_nil, or_false] at hy
  rcases hy with rfl | rfl <;> simp [name, value, Graph.this, Graph.out, vstr]

end Ogdl
