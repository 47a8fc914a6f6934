import Verif.Props.Equal
import Verif.Props.Graph

/-!
# C25, C23: Delete with any content, Copy of nodes without content
-/

namespace Ogdl
open Spec Spec.Equal EqualL

namespace DeleteL

theorem itfEq_clash (E : Ext) (a b : Val) : itfEq E a b = .panic ↔ Clash E a b := by
  cases a <;> cases b <;> simp [itfEq, Clash]
  case other x y => cases h : E.otherEq x y <;> simp

theorem itfEq_cases (E : Ext) (a b : Val) : itfEq E a b = .panic ∨ ∃ r, itfEq E a b = .ok r := by
  cases a <;> cases b <;> simp [itfEq]
  case other x y =>
    cases h : E.otherEq x y with
    | none => simp
    | some r => cases r <;> simp

/-- The loop, after the nodes `pre` have been looked at and kept. -/
theorem loop_filter {E : Ext} {n : Val} {p : Graph → Bool} (hp : ∀ g, p g = true ↔ ¬ Same E g.this n) : ∀ (l : List Graph) (f : Nat) (pre : List Graph),
    NoNilL l → (∀ g ∈ l, ¬ Clash E g.this n) → l.length < f → deleteLoop E n f pre.length (pre ++ l) = .ok (pre ++ l.filter p)
  | l, 0, _, _, _, h => by omega
  | [], f + 1, pre, _, _, _ => by simp [deleteLoop]
  | .nil :: _, _, _, h, _, _ => by simp [NoNilL, NoNil] at h
  | .node t o :: l, f + 1, pre, h, hc, hf => by
    have hi : (pre ++ .node t o :: l)[pre.length]? = some (.node t o) := by simp
    rcases itfEq_cases E t n with h1 | ⟨r, h1⟩
    · exact absurd ((itfEq_clash E t n).1 h1) (hc (.node t o) (by simp))
    · simp only [deleteLoop, hi, h1, Res.ok_bind]
      have hl : l.length < f := by simpa using hf
      have hcl : ∀ g ∈ l, ¬ Clash E g.this n := fun g hg => hc g (by simp [hg])
      cases r with
      | true =>
        have hs : p (.node t o) = false := by
          have := mt (hp (.node t o)).1 (not_not_intro ((itfEq_same E t n).1 h1))
          simpa using this
        have he : (pre ++ .node t o :: l).eraseIdx pre.length = pre ++ l := by
          rw [List.eraseIdx_append_of_length_le (Nat.le_refl _)]; simp
        simp only [if_true, he, loop_filter hp l f pre h.2 hcl hl, List.filter_cons, hs, Bool.false_eq_true, if_false]
      | false =>
        have hs : p (.node t o) = true := (hp _).2 fun k => by
          rw [Graph.this, ← itfEq_same, h1] at k; simp at k
        have := loop_filter hp l f (pre ++ [.node t o]) h.2 hcl hl
        simp only [List.length_append, List.length_singleton, List.append_assoc, List.singleton_append] at this
        simp only [Bool.false_eq_true, if_false, this, List.filter_cons, hs, if_true]

/-- The loop panics if one of the comparisons does. -/
theorem loop_panics {E : Ext} {n : Val} : ∀ (l : List Graph) (f : Nat) (pre : List Graph),
    NoNilL l → (∃ g ∈ l, Clash E g.this n) → l.length < f → deleteLoop E n f pre.length (pre ++ l) = .panic
  | l, 0, _, _, _, h => by omega
  | [], f + 1, pre, _, h, _ => by simp at h
  | .nil :: _, _, _, h, _, _ => by simp [NoNilL, NoNil] at h
  | .node t o :: l, f + 1, pre, h, hc, hf => by
    have hi : (pre ++ .node t o :: l)[pre.length]? = some (.node t o) := by simp
    rcases itfEq_cases E t n with h1 | ⟨r, h1⟩
    · simp only [deleteLoop, hi, h1]; rfl
    · simp only [deleteLoop, hi, h1, Res.ok_bind]
      have hl : l.length < f := by simpa using hf
      have hcl : ∃ g ∈ l, Clash E g.this n := by
        obtain ⟨g, hg, hk⟩ := hc
        rcases List.mem_cons.1 hg with rfl | hg
        · rw [Graph.this, ← itfEq_clash, h1] at hk; simp at hk
        · exact ⟨g, hg, hk⟩
      cases r with
      | true =>
        have he : (pre ++ .node t o :: l).eraseIdx pre.length = pre ++ l := by
          rw [List.eraseIdx_append_of_length_le (Nat.le_refl _)]; simp
        simp only [if_true, he, loop_panics l f pre h.2 hcl hl]
      | false =>
        have := loop_panics l f (pre ++ [.node t o]) h.2 hcl hl
        simp only [List.length_append, List.length_singleton, List.append_assoc, List.singleton_append] at this
        simp only [Bool.false_eq_true, if_false, this]

theorem copyList_filled : ∀ gs : List Graph, NoNilL gs → AllThisL NotGraph gs → Graph.copyList gs = .ok (filledL gs)
  | [], _, _ => by simp [Graph.copyList, filledL]
  | .nil :: _, h, _ => by simp [NoNilL, NoNil] at h
  | .node t o :: gs, h, hp => by
    have h1 := copyList_filled o h.1 hp.1.2
    have h2 := copyList_filled gs h.2 hp.2
    have ht := hp.1.1
    cases t <;> simp [NotGraph] at ht <;>
      simp only [Graph.copyList, h1, h2, Res.ok_bind, addedNode, List.nil_append, filledL, filled, Graph.this]

mutual
theorem alike_self {R : Val → Val → Prop} : ∀ {a : Graph}, Alike R a a → NoNil a ∧ AllThis (fun v => R v v) a
  | .nil, h => by simp [Alike] at h
  | .node _ _, h => ⟨(alikeL_self h.2).1, h.1, (alikeL_self h.2).2⟩
theorem alikeL_self {R : Val → Val → Prop} : ∀ {a : List Graph}, AlikeL R a a → NoNilL a ∧ AllThisL (fun v => R v v) a
  | [], _ => ⟨trivial, trivial⟩
  | _ :: _, h => ⟨⟨(alike_self h.1).1, (alikeL_self h.2).1⟩, (alike_self h.1).2, (alikeL_self h.2).2⟩
end

end DeleteL

open DeleteL

/-- **C25**: `Delete(n)` removes exactly the subnodes whose content is equal to `n` in Go, and keeps the others as
they are and in their order, for contents of all types.  It panics exactly if one of the comparisons does. -/
theorem C25_exact (E : Ext) (t n : Val) (o : List Graph) (ho : NoNilL o) (p : Graph → Bool) (hp : ∀ g, p g = true ↔ ¬ Same E g.this n) :
    ((∀ g ∈ o, ¬ Clash E g.this n) → (Graph.node t o).delete E n = .ok (.node t (o.filter p))) ∧
    ((∃ g ∈ o, Clash E g.this n) → (Graph.node t o).delete E n = .panic) := by
  constructor
  · intro h
    have := loop_filter hp o (o.length + 1) [] ho h (by omega)
    simp only [List.length_nil, List.nil_append] at this
    simp only [Graph.delete, this, Res.ok_bind]
  · intro h
    have := loop_panics (n := n) o (o.length + 1) [] ho h (by omega)
    simp only [List.length_nil, List.nil_append] at this
    simp only [Graph.delete, this]; rfl

/-- Floats that are equal to the argument are removed, a `[]byte` stays. -/
example (E : Ext) (f : UInt64) (hf : E.feq f f = true) :
    (Graph.node .nil [.node (.f64 f) [], .node (.bytes [1]) [], .node (.f64 f) [.node .nil []]]).delete E (.f64 f) = .ok (.node .nil [.node (.bytes [1]) []]) := by
  simp [Graph.delete, deleteLoop, itfEq, hf]

/-- **C23**: a clone `Equals` the graph exactly if the graph has no nil subnodes and every content is equal to itself,
which `[]byte` and NaN are not. -/
theorem C23_clone_exact (E : Ext) (g : Graph) : g.clone.equals E g = .ok true ↔ NoNil g ∧ AllThis (fun v => Same E v v) g := by
  rw [clone_eq, C22_exact]
  exact ⟨alike_self, fun h => alike_refl h.1 h.2⟩

/-- A clone of a graph with a `[]byte` is the same tree but does not equal it. -/
theorem C23_clone_refuted (E : Ext) : (Graph.node .nil [.node (.bytes [1]) []]).clone.equals E (.node .nil [.node (.bytes [1]) []]) = .panic := by
  simp [Graph.clone, Graph.cloneList, Graph.equals, Graph.equalsList, itfEq]

/-- **C23**: what `Copy` adds to the receiver, for contents that are not graphs: the subnodes, in order and with what
is below them, but without the nodes that have no content. -/
theorem C23_copy_exact_partial (t t' : Val) (o o' : List Graph) (h : NoNilL o') (hp : AllThisL NotGraph o') :
    (Graph.node t o).copy (.node t' o') = .ok (.node t (o ++ filledL o')) := by
  simp only [Graph.copy, copyList_filled o' h hp, Res.ok_bind]

/-- A node without content inside a tree. -/
example : filledL [.node (.str b!"a") [.node .nil [.node (.str b!"b") []], .node (.int .int 3) []]] = [.node (.str b!"a") [.node (.int .int 3) []]] := by
  simp [filledL, filled, Graph.this]

/-- **C47**: `StringCSV` panics exactly on the graphs without subnodes, whatever their content and the default. -/
theorem C47_csv_exact (E : Ext) (t : Val) (o : List Graph) (ho : NoNilL o) (d : Option Bytes) :
    (Graph.node t o).stringCSV E d = .panic ↔ o = [] := by
  constructor
  · intro h
    by_cases ho' : o = []
    · exact ho'
    · rw [(C47_list_views_partial E t o ho d).2.2 ho'] at h
      simp at h
  · rintro rfl
    simp [Graph.stringCSV, Graph.strings]

end Ogdl
