import Verif.Lemmas.CalmItems
import Verif.Lemmas.TemplateWitness
import Verif.Props.HeapEval
import Verif.Props.Template

/-!
# C104: templates processed in memory
-/

namespace Ogdl
open Spec

variable (E : Ext) (grow : Nat → Nat → Nat)

theorem rendersTree_ne_oof {E : Ext} : ∀ (ts : List Graph) (g : Graph), rendersTree E ts g ≠ .oof
  | [], g => by simp [rendersTree]
  | t :: ts, g => by
    unfold rendersTree
    refine Res.bind_ne_oof ?_ fun r => Res.bind_ne_oof (rendersTree_ne_oof ts r.2) fun _ => nofun
    unfold Graph.process
    exact Res.bind_ne_oof (process_neverOof _ t (by omega) g) fun _ => by simp

/-- C104: take any history of operations of a client that gives a graph away when it puts it
into another one, and any of its graphs.  Processing templates without assignments one after
the other in the context of that graph, in memory with pointers, ends as it does on trees:
with a panic, or with the same texts written and a context that shows the same tree.  Of the
nodes that were there only the root of the context is changed.

What is missing: templates with assignments (C104_assign_partial) and loops over `_this` or over a group
(C104_refuted, C104_sharing_refuted), nil contexts, graphs with nil subnodes and functions
that return them. -/
theorem C104_partial (hE : WholeCalls E) (ops : List TOp) (hv : ∀ op ∈ ops, op.Valid E) (gs : List Graph) (h1 : treeRun E ops [] = .ok gs) (i : Nat) (hi : i < gs.length)
    (hn : gs[i] ≠ .nil) (hw : Whole gs[i]) (ts : List Graph) (ht : ∀ t ∈ ts, Calm E t) :
    ∃ N ps h a F, ps[i]? = some (some a) ∧ Holds h gs[i] (some a) F ∧ ∀ fuel, N ≤ fuel → (memRun E grow fuel ops []).run {} = (.ok ps, h) ∧
      match rendersTree E ts gs[i] with
      | .ok (outs, g) => ∃ h', (rendersMem E grow fuel (some a) ts).run h = (.ok outs, h') ∧ OnlyAt [a] h h' ∧ Shows (fun _ => True) h' g (some a)
      | .panic => ∃ h', (rendersMem E grow fuel (some a) ts).run h = (.panic, h') ∧ OnlyAt [a] h h'
      | .oof => False := by
  have h0 := memRun_ends (grow := grow) hv
  rw [h1] at h0
  obtain ⟨N, ps, h, hr, hs, F, hl⟩ := h0
  obtain ⟨p, Fg, hp, hg, _⟩ := hl.focus (List.getElem?_eq_getElem hi)
  have hne := rendersTree_ne_oof (E := E) ts gs[i]
  cases hgi : gs[i] with
  | nil => exact absurd hgi hn
  | node t o =>
    rw [hgi] at hg hw hne
    obtain ⟨a, zs, rfl, l, e⟩ := holds_live hs hg hw
    have h2 := renders_run (grow := grow) hE ts ht l
    rw [e] at h2
    rcases hev : rendersTree E ts (.node t o) with ⟨outs, g⟩ | _ | _
    · rw [hev] at h2
      obtain ⟨N', outs', h', hr', tn, e1, A', zs', l', e2⟩ := h2
      dsimp only at e1 e2
      subst e1 e2
      exact ⟨max N N', ps, h, a, Fg, hp, hg, fun fuel hf => ⟨hr fuel (by omega), h', hr' fuel (by omega), tn.only, l'.isRoot.any⟩⟩
    · rw [hev] at h2
      obtain ⟨N', h', hr', tn⟩ := h2
      exact ⟨max N N', ps, h, a, Fg, hp, hg, fun fuel hf => ⟨hr fuel (by omega), h', hr' fuel (by omega), tn.only⟩⟩
    · exact absurd hev hne

/-- Texts of templates that C104 speaks of: any nesting of loops, conditions and values
without assignments and without loops over `_this`. -/
theorem C104_text (is : Items) (ho : is.Ok E []) (hc : is.Calm E) (hl : Fits is.text) : ∃ t, newTemplate E is.text = .ok t ∧ Calm E t :=
  text_calm ho hc hl

/-- `$for(v, l)=$v$end` -/
def sampleWalk (id : Bytes) : Items := .cons (.loop b!"v" id [] (.cons (.plain b!"=") (.cons (.var b!"v" [] false) .nil))) .nil

theorem ends_eq (r : Bytes) : Spec.Ends (61 :: r) := fun c hc => by cases hc; unfold AsciiLetter Digit; decide

theorem sampleWalk_ok {id : Bytes} {c : UInt8} {t : Bytes} (e : id = c :: t) (h : ∀ c ∈ id, AsciiLetter c) : (sampleWalk id).Ok E [] := by
  have hv := sampleName E 118 (by unfold AsciiLetter; decide)
  have ha : Path E [id] := ⟨by simp, by simpa using ascii_name (by simp [e]) h⟩
  simp only [sampleWalk, Item.Ok, Items.Ok, Items.text, Item.text]
  exact ⟨⟨hv, ⟨118, [], rfl, by unfold AsciiLetter; decide⟩, ha, ⟨c, t, e, h c (by simp [e])⟩, ends_eq _,
    ⟨⟨by decide, by decide, by decide, .inr rfl⟩, ⟨hv, by decide, fun _ => ends_dollar _⟩, trivial⟩, ends_nil⟩, trivial⟩

/-- The hypotheses are met: the template `$for(v, l)=$v$end` in `_ (l (a (x) b (y)))`, twice. -/
example : treeRun E listOps [] = .ok [listTree] ∧ (∀ op ∈ listOps, op.Valid E) ∧ Whole listTree ∧
    ∃ t, newTemplate E b!"$for(v, l)=$v$end" = .ok t ∧ Calm E t ∧
      rendersTree E [t, t] listTree = .ok ([b!"=a\n  x=b\n  y", b!"=a\n  x=b\n  y"], .node (.str b!"_") [.node (.str b!"l") [.node (.str b!"a") [leaf b!"x"], .node (.str b!"b") [leaf b!"y"]],
        .node (.str b!"v") [.node (.str b!"b") [leaf b!"y"]]]) := by
  refine ⟨rfl, ?_, ?_, ?_⟩
  · intro op h
    simp only [listOps, List.mem_cons, List.not_mem_nil, or_false] at h
    rcases h with rfl | rfl | rfl
    · intro g e; cases e
    · exact ⟨fun g e => (by cases e), .name (by decide : (b!"l" : Bytes) ≠ tyIndex) nofun nofun (.name (by decide : (b!"a" : Bytes) ≠ tyIndex) nofun nofun .nil)⟩
    · exact ⟨fun g e => (by cases e), .name (by decide : (b!"l" : Bytes) ≠ tyIndex) nofun nofun (.name (by decide : (b!"b" : Bytes) ≠ tyIndex) nofun nofun .nil)⟩
  · simp [listTree, Whole, WholeV, WholeL, leaf]
  · have ho := sampleWalk_ok E (id := b!"l") rfl (by unfold AsciiLetter; decide)
    have hc : (sampleWalk b!"l").Calm E := by simp [sampleWalk, Items.Calm, Item.Calm]
    obtain ⟨t, h1, h2⟩ := C104_text E _ ho hc (.short (by decide))
    have h3 := newTemplate_exact ho (.short (by decide))
    rw [h1] at h3
    cases h3
    exact ⟨_, h1, h2, rfl⟩

/-- C104 does not hold for loops over `_this`: the variable of the loop is added to the list
that the loop goes over, and becomes its own subnode.  On trees the template
`$for(v, _this)=$v$end` writes `=a` in the context `_ (a)`; in memory it never ends. -/
theorem C104_refuted : newTemplate E b!"$for(v, _this)=$v$end" = .ok selfLoop ∧ treeRun E selfOps [] = .ok [.node (.str b!"_") [leaf b!"a"]] ∧
    selfLoop.process E (.node (.str b!"_") [leaf b!"a"]) = .ok (b!"=a", .node (.str b!"_") [leaf b!"a", .node (.str b!"v") [leaf b!"a"]]) ∧
    ∀ n, (memRun E growOne n selfOps []).run {} = (.ok [some 0], selfH0) ∧ ((hProcess growOne E (n + 5) (some 0) selfLoop).run selfH0).1 = .oof := by
  refine ⟨?_, rfl, rfl, fun n => ⟨self_0 E n, self_oof E n⟩⟩
  have h := newTemplate_exact (sampleWalk_ok E (id := b!"_this") rfl (by unfold AsciiLetter; decide)) (.short (by decide))
  have e1 : (sampleWalk b!"_this").text = b!"$for(v, _this)=$v$end" := by decide
  have e2 : Graph.node (.str []) (sampleWalk b!"_this").trees = selfLoop := rfl
  rw [e1, e2] at h
  exact h

/-- C42 fails in memory too: processing `$for(v, _this)=$v$end` in the context `_ (a)` does
not end, whatever the depth of recursion allowed. -/
theorem C42_endless_refuted : ∃ (s : Bytes) (t : Graph) (ops : List TOp) (h : Heap), newTemplate E s = .ok t ∧ (∀ op ∈ ops, op.Valid E) ∧
    ∀ n, (memRun E growOne n ops []).run {} = (.ok [some 0], h) ∧ ((hProcess growOne E (n + 5) (some 0) t).run h).1 = .oof := by
  obtain ⟨h1, _, _, h2⟩ := C104_refuted E
  refine ⟨_, _, selfOps, selfH0, h1, fun op hop => ?_, h2⟩
  simp only [selfOps, List.mem_cons, List.not_mem_nil, or_false] at hop
  rcases hop with rfl | rfl <;> (intro g e; cases e)

/-- C42 in memory: processing a template without assignments and without loops over `_this`
or over a group, in the context of a graph of the client, ends.  What is missing is said at
`C104_partial`. -/
theorem C42_memory_partial (hE : WholeCalls E) (ops : List TOp) (hv : ∀ op ∈ ops, op.Valid E) (gs : List Graph) (h1 : treeRun E ops [] = .ok gs) (i : Nat) (hi : i < gs.length)
    (hn : gs[i] ≠ .nil) (hw : Whole gs[i]) (t : Graph) (ht : Calm E t) :
    ∃ N ps h p, ps[i]? = some p ∧ ∀ fuel, N ≤ fuel → (memRun E grow fuel ops []).run {} = (.ok ps, h) ∧ ((hProcess grow E fuel p t).run h).1 ≠ .oof := by
  obtain ⟨N, ps, h, a, F, hp, _, hr⟩ := C104_partial E grow hE ops hv gs h1 i hi hn hw [t] (by simpa using ht)
  refine ⟨N, ps, h, some a, hp, fun fuel hf => ⟨(hr fuel hf).1, fun he => ?_⟩⟩
  have h2 := (hr fuel hf).2
  have h3 : (rendersMem E grow fuel (some a) [t]).run h = (.oof, ((hProcess grow E fuel (some a) t).run h).2) := oof_bind' (by rw [← he])
  rw [h3] at h2
  split at h2
  · obtain ⟨_, e, _⟩ := h2; cases e
  · obtain ⟨_, e, _⟩ := h2; cases e
  · exact h2

/-- C104 does not hold for assignments: the variable of a loop has the elements of the list as subnodes,
not copies of them.  In the context `_ (a (k (u)))` the template
`$for(v,a)$(v.k=5)$end$a.k` writes `u` on trees and `5` in memory. -/
theorem C104_sharing_refuted : newTemplate E b!"$for(v,a)$(v.k=5)$end$a.k" = .ok aliasLoop ∧ treeRun E aliasOps [] = .ok [.node (.str b!"_") [.node (.str b!"a") [.node (.str b!"k") [leaf b!"u"]]]] ∧
    rendersTree E [aliasLoop] (.node (.str b!"_") [.node (.str b!"a") [.node (.str b!"k") [leaf b!"u"]]]) =
      .ok ([b!"u"], .node (.str b!"_") [.node (.str b!"a") [.node (.str b!"k") [leaf b!"u"]], .node (.str b!"v") [.node (.str b!"k") [.node (.int .int64 5) []]]]) ∧
    ∀ n, ((memRun E growOne (n + 5) aliasOps [] >>= fun _ => rendersMem E growOne (n + 5) (some 0) [aliasLoop]).run {}).1 = .ok [b!"5"] := by
  refine ⟨?_, rfl, rfl, fun n => rfl⟩
  rw [newTemplate_tree (t := .str b!"_") (o := [.node (.str b!"!p") [leaf b!"for", .node (.str b!"!a") [exprOf (pathOf [b!"v"]), exprOf (pathOf [b!"a"])]],
    .node (.str b!"!e") [pathOf [b!"v", b!"k"], leaf b!"=", leaf b!"5"], pathOf [b!"end"], pathOf [b!"a", b!"k"]]) (by decide) (by rfl) (by simp [Graph.astList, Graph.astBody, Graph.astEach, leaf, pathOf, exprOf, vstr, tyExpression]; rfl)]
  rfl

end Ogdl
