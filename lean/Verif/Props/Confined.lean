import Verif.Lemmas.Confined
import Verif.Lemmas.KernelRfl
import Verif.Props.TameTemplate

/-!
# C109: processing a template changes only its variables
-/

namespace Ogdl
open Spec

variable (E : Ext)

/-- C109 for templates as trees: if every assignment in a template, in whatever expression and
at whatever depth, is to a path that starts with one of the names `V`, and its loop variables
are among `V`, then processing it leaves the content of the context, and all its subnodes with
other names, as they are and in the same order.

What is missing: assignments to something that is not a path starting with a name
(`C109_refuted`), and graphs that share nodes, in which a change of one is a change of another
(C104). -/
theorem C109_partial (V : List Bytes) (t g g' : Graph) (out : Bytes) (ht : Confined E V t) (h : t.process E g = .ok (out, g')) : Outside E V g g' :=
  template_outside ht h

/-- C109 for the text of a template. -/
theorem C109_text_partial (V : List Bytes) (is : Items) (ho : is.Ok E []) (hc : is.Confined E V) (hl : Fits is.text) (g g' : Graph) (out : Bytes)
    (h : Renders E is.text g out g') : Outside E V g g' := by
  obtain ⟨t, h1, h2⟩ := h
  rw [newTemplate_exact ho hl] at h1
  cases h1
  exact template_outside (.node (items_confined ho hc)) h2

/-- The same for the evaluation of an expression. -/
theorem C109_expression_partial (V : List Bytes) (e g g' : Graph) (r : Val × Option Err) (he : AssignsTo E V e) (h : g.eval E e = .ok (r, g')) : Outside E V g g' :=
  eval_spares he g r g' h

theorem nodeLoop_filter {V : List Bytes} {s : Bytes} (hs : s ∉ V) (h0 : [] ∉ V) : ∀ o : List Graph, nodeLoop E s (o.filter fun n => n.thisString E ∉ V) = nodeLoop E s o
  | [] => rfl
  | .nil :: o => by
    rw [List.filter_cons, if_pos (decide_eq_true (p := Graph.thisString E .nil ∉ V) h0)]
    rfl
  | .node t k :: o => by
    have ih := nodeLoop_filter hs h0 o
    by_cases hv : vstr E t ∈ V
    · rw [List.filter_cons, if_neg (fun h => of_decide_eq_true (p := (Graph.node t k).thisString E ∉ V) h hv), ih]
      simp only [nodeLoop]
      rw [if_neg (fun e => hs (by rw [e]; exact hv))]
    · rw [List.filter_cons, if_pos (decide_eq_true (p := (Graph.node t k).thisString E ∉ V) hv)]
      simp only [nodeLoop, ih]

/-- What this means to a client: after a template has been processed, a lookup by a name that
is not one of its variables finds what it found before. -/
theorem C109_node_partial (V : List Bytes) (t g g' : Graph) (out : Bytes) (ht : Confined E V t) (h : t.process E g = .ok (out, g')) (s : Bytes) (hs : s ∉ V) (h0 : [] ∉ V) :
    g'.nodeNamed E s = g.nodeNamed E s := by
  rcases template_outside ht h with ⟨rfl, rfl⟩ | ⟨t, o, o', rfl, rfl, ho⟩
  · rfl
  · show nodeLoop E s o' = nodeLoop E s o
    rw [← nodeLoop_filter E hs h0 o', ho, nodeLoop_filter E hs h0 o]

/-- The template `$(1 = 2)` -/
def sampleClear : Items := .cons (.expr (.bin b!"=" (.atom (.num b!"1")) (.atom (.num b!"2")))) .nil

/-- C109 fails if something is assigned to that is not a path: the template `$(1 = 2)` has no
variables at all, and replaces all subnodes of the context. -/
theorem C109_refuted : ∃ t, newTemplate E b!"$(1 = 2)" = .ok t ∧ t.process E (.node (.str b!"_") [.node (.str b!"a") [leaf b!"b"]]) = .ok ([], .node (.str b!"_") [.node (.int .int64 2) []]) := by
  have h1 : Num b!"1" := ⟨[], b!"1", [], .inl rfl, by simp, by simp [Digit], .inl rfl, rfl⟩
  have h2 : Num b!"2" := ⟨[], b!"2", [], .inl rfl, by simp, by simp [Digit], .inl rfl, rfl⟩
  have ho : sampleClear.Ok E [] := by
    simp only [sampleClear, Item.Ok, Items.Ok]
    exact ⟨⟨by simp [Op], trivial, trivial, h1, h2⟩, trivial⟩
  have h := newTemplate_exact ho (.short (by decide))
  exact ⟨_, h, by kernel_rfl⟩

/-- The hypotheses are met: the template that counts the elements of a list changes `n` and
`v` only. -/
example : sampleCount.Ok E [] ∧ sampleCount.Confined E [b!"n", b!"v"] ∧ Fits sampleCount.text ∧ sampleCount.text = b!"$(n = 0)$for(v, l)$(n = n + 1)=$n$v$end" ∧
    ∀ g g' out, Renders E sampleCount.text g out g' → Outside E [b!"n", b!"v"] g g' := by
  have ho := sampleCount_ok E
  have hc : sampleCount.Confined E [b!"n", b!"v"] := by
    refine ⟨?_, ⟨by decide, ?_, trivial, trivial, trivial, trivial⟩, trivial⟩
    · show AssignsTo E _ (Grouping.full _)
      simp [AssignsTo, AssignsToL, Grouping.full, Grouping.nodes, Grouped.tree, Opnd.full, Elems.fulls, vstr, leaf, assignments]
      exact ⟨_, _, ⟨rfl, rfl⟩, by decide⟩
    · show AssignsTo E _ (Grouping.full _)
      simp [AssignsTo, AssignsToL, Grouping.full, Grouping.nodes, Grouped.tree, Opnd.full, Elems.fulls, vstr, leaf, assignments]
      exact ⟨_, _, ⟨rfl, rfl⟩, by decide⟩
  have hl : Fits sampleCount.text := .short (by decide)
  exact ⟨ho, hc, hl, by decide, fun g g' out => C109_text_partial E _ _ ho hc hl g g' out⟩

end Ogdl
