import Verif.Lemmas.KernelRfl
import Verif.Lemmas.TameItems
import Verif.Props.HeapTemplate

/-!
# C104: templates with assignments processed in memory
-/

namespace Ogdl
open Spec

variable (E : Ext) (grow : Nat → Nat → Nat)

/-- C104 for templates with assignments: take any history of operations of a client that
gives a graph away when it puts it into another one, and any of its graphs.  Process in its
context, one after the other, templates that assign numbers and texts to the names `W` and
whose loops go over paths that do not end in one of these names.  In memory with pointers
this ends as it does on trees: with a panic, or with the same texts written and a context
that shows the same tree.  Of the nodes that were there only the root of the context and its
subnodes with one of the names `W` are changed.

What is missing: assignments to longer paths and of graphs (C104_sharing_refuted,
C104_assign_refuted), loops over `_this`, over a group (C104_refuted) or over a name that is
assigned to, functions that return graphs, nil contexts and graphs with nil subnodes. -/
theorem C104_assign_partial (hE : ScalarCalls E) (ops : List TOp) (hv : ∀ op ∈ ops, op.Valid E) (gs : List Graph) (h1 : treeRun E ops [] = .ok gs) (i : Nat) (hi : i < gs.length)
    (t : Val) (o : List Graph) (hn : gs[i] = .node t o) (hw : Whole gs[i]) (W : List Bytes) (ts : List Graph) (ht : ∀ t ∈ ts, Tame E W t) :
    ∃ N ps h a F x qs B, ps[i]? = some (some a) ∧ Holds h gs[i] (some a) F ∧ look h a = some (x, qs) ∧
      (∀ b ∈ B, ∃ (k : Nat) (d : Graph), qs[k]? = some (some b) ∧ o[k]? = some d ∧ d.thisString E ∈ W) ∧
      ∀ fuel, N ≤ fuel → (memRun E grow fuel ops []).run {} = (.ok ps, h) ∧
      match rendersTree E ts gs[i] with
      | .ok (outs, g) => ∃ h', (rendersMem E grow fuel (some a) ts).run h = (.ok outs, h') ∧ OnlyAt (a :: B) h h' ∧ Shows (fun _ => True) h' g (some a)
      | .panic => ∃ h', (rendersMem E grow fuel (some a) ts).run h = (.panic, h') ∧ OnlyAt (a :: B) h h'
      | .oof => False := by
  have h0 := memRun_ends (grow := grow) hv
  rw [h1] at h0
  obtain ⟨N, ps, h, hr, hs, F, hl⟩ := h0
  obtain ⟨p, Fg, hp, hg, _⟩ := hl.focus (List.getElem?_eq_getElem hi)
  have hne := rendersTree_ne_oof (E := E) ts gs[i]
  rw [hn] at hg hw hne ⊢
  obtain ⟨a, x, zs, A, rfl, T, e, hla⟩ := holds_neat hs hg hw
  have hB : ∀ b ∈ wk E W zs, ∃ (k : Nat) (d : Graph), (zs.map (·.2))[k]? = some (some b) ∧ o[k]? = some d ∧ d.thisString E ∈ W := by
    intro b hb
    obtain ⟨z, hz, hW, eb⟩ := mem_wk.1 hb
    obtain ⟨k, hk⟩ := List.mem_iff_getElem?.1 hz
    have ho : o = zs.map (·.1) := by unfold treeOf at e; cases e; rfl
    refine ⟨k, z.1, ?_, ?_, hW⟩
    · rw [List.getElem?_map, hk, Option.map_some, eb]
    · rw [ho, List.getElem?_map, hk, Option.map_some]
  have h2 := doAll_run (grow := grow) hE ts ht T
  rw [e] at h2
  rcases hev : rendersTree E ts (.node t o) with ⟨outs, g⟩ | _ | _
  · rw [hev] at h2
    obtain ⟨N', outs', h', hr', tn, e1, A', zs', T', e2⟩ := h2
    dsimp only at e1 e2
    subst e1 e2
    exact ⟨max N N', ps, h, a, Fg, x, _, wk E W zs, hp, hg, hla, hB, fun fuel hf => ⟨hr fuel (by omega), h', hr' fuel (by omega), tn.only, T'.live.isRoot.any⟩⟩
  · rw [hev] at h2
    obtain ⟨N', h', hr', tn⟩ := h2
    exact ⟨max N N', ps, h, a, Fg, x, _, wk E W zs, hp, hg, hla, hB, fun fuel hf => ⟨hr fuel (by omega), h', hr' fuel (by omega), tn.only⟩⟩
  · exact absurd hev hne

/-- Texts of templates that C104_assign_partial speaks of: any nesting of loops, conditions, values and
assignments `$(m = y)` of a number, a quoted text or an operation to a name of `W`, the paths
of the loops without `_this` and not ending in a name of `W`. -/
theorem C104_assign_text (W : List Bytes) (is : Items) (ho : is.Ok E []) (hc : is.Tame E W) (hl : Fits is.text) : ∃ t, newTemplate E is.text = .ok t ∧ Tame E W t :=
  text_tame ho hc hl

/-- C42 in memory for templates with assignments: processing one in the context of a graph
of the client ends.  What is missing is said at `C104_assign_partial`. -/
theorem C42_assign_memory_partial (hE : ScalarCalls E) (ops : List TOp) (hv : ∀ op ∈ ops, op.Valid E) (gs : List Graph) (h1 : treeRun E ops [] = .ok gs) (i : Nat) (hi : i < gs.length)
    (hn : gs[i] ≠ .nil) (hw : Whole gs[i]) (W : List Bytes) (t : Graph) (ht : Tame E W t) :
    ∃ N ps h p, ps[i]? = some p ∧ ∀ fuel, N ≤ fuel → (memRun E grow fuel ops []).run {} = (.ok ps, h) ∧ ((hProcess grow E fuel p t).run h).1 ≠ .oof := by
  cases hgi : gs[i] with
  | nil => exact absurd hgi hn
  | node v o =>
    obtain ⟨N, ps, h, a, F, _, _, _, hp, _, _, _, hr⟩ := C104_assign_partial E grow hE ops hv gs h1 i hi v o hgi hw W [t] (by simpa using ht)
    refine ⟨N, ps, h, some a, hp, fun fuel hf => ⟨(hr fuel hf).1, fun he => ?_⟩⟩
    have h2 := (hr fuel hf).2
    have h3 : (rendersMem E grow fuel (some a) [t]).run h = (.oof, ((hProcess grow E fuel (some a) t).run h).2) := oof_bind' (by rw [← he])
    rw [h3] at h2
    split at h2
    · obtain ⟨_, e, _⟩ := h2; cases e
    · obtain ⟨_, e, _⟩ := h2; cases e
    · exact h2

/-- `$(n = 0)$for(v, l)$(n = n + 1)=$n$v$end` -/
def sampleCount : Items := .cons (.expr (.bin b!"=" (.atom (.path b!"n" .nil)) (.atom (.num b!"0"))))
  (.cons (.loop b!"v" b!"l" [] (.cons (.expr (.bin b!"=" (.atom (.path b!"n" .nil)) (.bin b!"+" (.atom (.path b!"n" .nil)) (.atom (.num b!"1")))))
    (.cons (.plain b!"=") (.cons (.var b!"n" [] false) (.cons (.var b!"v" [] false) .nil))))) .nil)

theorem sampleCount_ok : sampleCount.Ok E [] := by
  have hv := sampleName E 118 (by unfold AsciiLetter; decide)
  have hl := sampleName E 108 (by unfold AsciiLetter; decide)
  have hn := sampleName E 110 (by unfold AsciiLetter; decide)
  have hn' : Name E b!"n" := hn.2 _ (List.mem_cons_self ..)
  have hp : (Opnd.path b!"n" .nil).Ok E := ⟨hn', ⟨110, [], rfl, by unfold AsciiLetter; decide⟩, trivial⟩
  have h0 : Num b!"0" := ⟨[], b!"0", [], .inl rfl, by simp, by simp [Digit], .inl rfl, rfl⟩
  have h1 : Num b!"1" := ⟨[], b!"1", [], .inl rfl, by simp, by simp [Digit], .inl rfl, rfl⟩
  simp only [sampleCount, Item.Ok, Items.Ok, Items.text, Item.text]
  refine ⟨⟨by simp [Op], trivial, trivial, hp, h0⟩, ⟨hv, ⟨118, [], rfl, by unfold AsciiLetter; decide⟩, hl, ⟨108, [], rfl, by unfold AsciiLetter; decide⟩, ends_dollar _,
    ⟨⟨by simp [Op], trivial, (by decide : level b!"=" + 1 ≤ level b!"+"), hp, by simp [Op], trivial, trivial, hp, h1⟩, ⟨by decide, by decide, by decide, .inr rfl⟩, ⟨hn, by decide, fun _ => ends_dollar _⟩, ⟨hv, by decide, fun _ => ends_dollar _⟩, trivial⟩, ends_nil⟩, trivial⟩

/-- The hypotheses are met: a template that counts the elements of a list, twice. -/
example : treeRun E listOps [] = .ok [listTree] ∧ (∀ op ∈ listOps, op.Valid E) ∧ Whole listTree ∧
    ∃ t, newTemplate E b!"$(n = 0)$for(v, l)$(n = n + 1)=$n$v$end" = .ok t ∧ Tame E [b!"n"] t ∧
      rendersTree E [t, t] listTree = .ok ([b!"=1a\n  x=2b\n  y", b!"=1a\n  x=2b\n  y"], .node (.str b!"_") [.node (.str b!"l") [.node (.str b!"a") [leaf b!"x"], .node (.str b!"b") [leaf b!"y"]],
        .node (.str b!"n") [.node (.int .int64 2) []], .node (.str b!"v") [.node (.str b!"b") [leaf b!"y"]]]) := by
  refine ⟨rfl, ?_, ?_, ?_⟩
  · intro op h
    simp only [listOps, List.mem_cons, List.not_mem_nil, or_false] at h
    rcases h with rfl | rfl | rfl
    · intro g e; cases e
    · exact ⟨fun g e => (by cases e), .name (by decide : (b!"l" : Bytes) ≠ tyIndex) nofun nofun (.name (by decide : (b!"a" : Bytes) ≠ tyIndex) nofun nofun .nil)⟩
    · exact ⟨fun g e => (by cases e), .name (by decide : (b!"l" : Bytes) ≠ tyIndex) nofun nofun (.name (by decide : (b!"b" : Bytes) ≠ tyIndex) nofun nofun .nil)⟩
  · simp [listTree, Whole, WholeV, WholeL, leaf]
  · have ho := sampleCount_ok E
    have hn : Name E b!"n" := (sampleName E 110 (by unfold AsciiLetter; decide)).2 _ (List.mem_cons_self ..)
    have hc : sampleCount.Tame E [b!"n"] := by
      refine ⟨.inr ⟨_, _, _, rfl, by decide, hn, by decide, trivial, ?_⟩, ⟨by decide, by decide, .inr ⟨_, _, _, rfl, by decide, hn, by decide, ?_, ?_⟩, trivial, trivial, trivial, trivial⟩, trivial⟩
      · exact ⟨by show b!"0" ∉ _; decide, trivial⟩
      · show b!"+" ∉ _; decide
      · simp [NoAssignment, Grouping.inner, Grouping.nodes, Grouped.tree, Opnd.full, Elems.fulls, AllThis, AllThisL, vstr, leaf, assignments]
    obtain ⟨t, h1, h2⟩ := C104_assign_text E _ _ ho hc (.short (by decide))
    have h3 := newTemplate_exact ho (.short (by decide))
    rw [h1] at h3
    cases h3
    exact ⟨_, h1, h2, by kernel_rfl⟩

/-- The template `$(b=a)$(a.k=5)$b.k` -/
def aliasName : Graph := .node (.str []) [binary b!"=" (pathOf [b!"b"]) (pathOf [b!"a"]), binary b!"=" (pathOf [b!"a", b!"k"]) (leaf b!"5"), pathOf [b!"b", b!"k"]]

/-- C104 does not hold for assignments of graphs: the name has the subnodes of the graph as
subnodes, not copies of them.  In the context `_ (a (k (u)))` the template
`$(b=a)$(a.k=5)$b.k` writes `u` on trees and `5` in memory. -/
theorem C104_assign_refuted : newTemplate E b!"$(b=a)$(a.k=5)$b.k" = .ok aliasName ∧ treeRun E aliasOps [] = .ok [.node (.str b!"_") [.node (.str b!"a") [.node (.str b!"k") [leaf b!"u"]]]] ∧
    rendersTree E [aliasName] (.node (.str b!"_") [.node (.str b!"a") [.node (.str b!"k") [leaf b!"u"]]]) =
      .ok ([b!"u"], .node (.str b!"_") [.node (.str b!"a") [.node (.str b!"k") [.node (.int .int64 5) []]], .node (.str b!"b") [.node (.str b!"k") [leaf b!"u"]]]) ∧
    ∀ n, ((memRun E growOne (n + 5) aliasOps [] >>= fun _ => rendersMem E growOne (n + 5) (some 0) [aliasName]).run {}).1 = .ok [b!"5"] := by
  refine ⟨?_, rfl, by kernel_rfl, fun n => by kernel_rfl⟩
  rw [newTemplate_tree (t := .str b!"_") (o := [.node (.str b!"!e") [pathOf [b!"b"], leaf b!"=", pathOf [b!"a"]], .node (.str b!"!e") [pathOf [b!"a", b!"k"], leaf b!"=", leaf b!"5"],
    pathOf [b!"b", b!"k"]]) (by decide) (by rfl) (by simp [Graph.astList, Graph.astBody, Graph.astEach, leaf, pathOf, exprOf, vstr, tyExpression]; rfl)]
  rfl

end Ogdl
