import Verif.Lemmas.Ask
import Verif.Props.Refine

/-!
# C98: reading a graph depends on the graph only, and changes nothing
-/

namespace Ogdl
open Spec

variable (E : Ext) (grow : Nat → Nat → Nat)

/-- C98: reading changes nothing.  For every state of memory, with cycles, sharing and
dangling pointers, no typed getter and no comparison changes it, even when it panics. -/
theorem C98_unchanged (fuel : Nat) (h : Heap) (p p' : Ptr) (q : Query) :
    ((q.ask E fuel p).run h).2 = h ∧ ((hEquals E fuel p p').run h).2 = h :=
  ⟨Reading.ask q p h, Reading.equals fuel p p' h⟩

/-- C98: take any history of operations of a client that gives a graph away when it puts it
into another one.  Then every getter gives, for each of its graphs, the answer that follows
from the tree alone (C78), or panics where it does for the tree.

What is missing: for `Scalar` and `ThisScalar` this holds if no `Delete` or `DeleteAt` came
before, or if the graph has subnodes (see C98_refuted). -/
theorem C98_partial (ops : List TOp) (hv : ∀ op ∈ ops, op.Valid E) (gs : List Graph) (h1 : treeRun E ops [] = .ok gs) (i : Nat) (hi : i < gs.length)
    (q : Query) (hq : q.Slices → (∀ op ∈ ops, ¬ op.Removes) ∨ gs[i].out ≠ []) :
    ∃ N, ∀ fuel, N ≤ fuel → ∃ ps h p, (memRun E grow fuel ops []).run {} = (.ok ps, h) ∧ ps[i]? = some p ∧ SameOutcome ((q.ask E fuel p).run h).1 (q.tree E gs[i]) := by
  obtain ⟨N, hN⟩ := memRun_gives (grow := grow) ops hv []
  refine ⟨N, fun fuel hf => ?_⟩
  have := hN fuel hf [] {} ⟨solid_empty, [], Spec.HoldsL.nil⟩
  rw [h1] at this
  obtain ⟨ps, h, hr, hs, F, hl⟩ := this
  obtain ⟨p, Fg, hp, hg, _⟩ := hl.focus (List.getElem?_eq_getElem hi)
  refine ⟨ps, h, p, hr, hp, ask_holds hs hg q fun hsl a c hpa hc => ?_⟩
  rcases hq hsl with hd | ho
  · have := (HTidy.history (E := E) (grow := grow) (fuel := fuel) hd [] {} (fun c hc => by cases hc)).1
    rw [hr] at this
    exact this c (List.mem_of_getElem? hc)
  · cases hgi : gs[i] with
    | nil =>
      rw [hgi] at hg
      unfold Holds at hg
      rw [hg.1] at hpa
      cases hpa
    | node t o =>
      rw [hgi] at hg ho
      obtain ⟨a', x, qs, F', e, rfl, _, hl', _, hol⟩ := hg.parts
      rw [hpa] at e
      cases e
      obtain ⟨c', hc', _, _, hlen, _⟩ := load_look hs hl'
      rw [hc] at hc'
      cases hc'
      intro h0
      rw [hlen, ← hol.length] at h0
      exact absurd (List.length_eq_zero_iff.1 h0) ho

theorem itfEq_no_oof (a b : Val) : itfEq E a b ≠ .oof := by
  unfold itfEq
  repeat' split
  all_goals simp

mutual
theorem equals_no_oof : ∀ g c : Graph, g.equals E c ≠ .oof
  | .node t o, .node t' o' => by
    rw [Graph.equals]
    refine Res.bind_ne_oof (itfEq_no_oof E t' t) fun b => ?_
    split
    · nofun
    · split
      · nofun
      · exact equalsL_no_oof o o'
  | .nil, c => by rw [Graph.equals] <;> nofun
  | .node t o, .nil => by rw [Graph.equals] <;> nofun
theorem equalsL_no_oof : ∀ gs cs : List Graph, Graph.equalsList E gs cs ≠ .oof
  | g :: gs, c :: cs => by
    rw [Graph.equalsList]
    refine Res.bind_ne_oof (equals_no_oof g c) fun b => ?_
    split
    · nofun
    · exact equalsL_no_oof gs cs
  | [], _ => by rw [Graph.equalsList] <;> nofun
  | _ :: _, [] => by rw [Graph.equalsList] <;> nofun
end

/-- C98: two graphs of such a client are compared as trees.  (`ptrEq` compares two contents
that are graphs, by identity; here only nil graphs can be contents.) -/
theorem C98_equals (hE : E.ptrEq .nil .nil = true) (ops : List TOp) (hv : ∀ op ∈ ops, op.Valid E) (gs : List Graph) (h1 : treeRun E ops [] = .ok gs) (i j : Nat)
    (hi : i < gs.length) (hj : j < gs.length) :
    ∃ N, ∀ fuel, N ≤ fuel → ∃ ps h p p', (memRun E grow fuel ops []).run {} = (.ok ps, h) ∧ ps[i]? = some p ∧ ps[j]? = some p' ∧
      ((hEquals E fuel p p').run h).1 = gs[i].equals E gs[j] := by
  obtain ⟨N, hN⟩ := memRun_gives (grow := grow) ops hv []
  refine ⟨max N (gs[i].height + 1), fun fuel hf => ?_⟩
  have := hN fuel (by omega) [] {} ⟨solid_empty, [], Spec.HoldsL.nil⟩
  rw [h1] at this
  obtain ⟨ps, h, hr, hs, F, hl⟩ := this
  obtain ⟨p, Fg, hp, hg, _⟩ := hl.focus (List.getElem?_eq_getElem hi)
  obtain ⟨p', Fg', hp', hg', _⟩ := hl.focus (List.getElem?_eq_getElem hj)
  refine ⟨ps, h, p, p', hr, hp, hp', ?_⟩
  have := equals_reads hE fuel hs (by omega) hg hg'
  cases he : gs[i].equals E gs[j] with
  | ok b =>
    rw [he] at this
    obtain ⟨b', h', hb, _, rfl⟩ := this
    rw [hb]
  | panic =>
    rw [he] at this
    obtain ⟨h', hb⟩ := this
    rw [hb]
  | oof => exact absurd he (equals_no_oof E _ _)

/-- C98 fails after removals: add a subnode to a new graph and delete it again.  The graph
is then the tree that it was before, but `Scalar` returned nil and now panics. -/
theorem C98_refuted (fuel : Nat) (t x : Val) (ht : NoGraph t) (hx : NoGraph x) (hx0 : x ≠ .nil) : ∃ before after : List TOp,
    (∀ op ∈ before ++ after, op.Valid E) ∧ treeRun E before [] = .ok [.node t []] ∧ treeRun E (before ++ after) [] = .ok [.node t []] ∧
    (Graph.node t []).scalar E = .ok .nil ∧
    (∃ h, (memRun E grow fuel before []).run {} = (.ok [some 0], h) ∧ ((Query.scalar.ask E fuel (some 0)).run h).1 = .ok (.content (.val .nil))) ∧
    ∃ h, (memRun E grow fuel (before ++ after) []).run {} = (.ok [some 0], h) ∧ ((Query.scalar.ask E fuel (some 0)).run h).1 = .panic := by
  refine ⟨[.new t], [.add 0 x, .deleteAt 0 0], ?_, rfl, ?_, rfl, ⟨_, rfl, rfl⟩, ?_⟩
  · intro op hop
    simp only [List.cons_append, List.nil_append, List.mem_cons, List.not_mem_nil, or_false] at hop
    rcases hop with rfl | rfl | rfl
    · exact ht
    · exact hx
    · exact trivial
  · cases x <;> first | exact absurd rfl hx0 | exact absurd rfl (hx _) | rfl
  · cases x <;> first | exact absurd rfl hx0 | exact absurd rfl (hx _) | exact ⟨_, rfl, rfl⟩

/-- The same with `ThisScalar`, for a graph whose own content is nil, and with `Delete`. -/
theorem C98_this_refuted (fuel : Nat) : ∃ before after : List TOp,
    (∀ op ∈ before ++ after, op.Valid E) ∧ treeRun E before [] = .ok [.node .nil []] ∧ treeRun E (before ++ after) [] = .ok [.node .nil []] ∧
    (Graph.node .nil []).thisScalar E = .ok .nil ∧
    (∃ h, (memRun E grow fuel before []).run {} = (.ok [some 0], h) ∧ ((Query.thisScalar.ask E fuel (some 0)).run h).1 = .ok (.content (.val .nil))) ∧
    ∃ h, (memRun E grow fuel (before ++ after) []).run {} = (.ok [some 0], h) ∧ ((Query.thisScalar.ask E fuel (some 0)).run h).1 = .panic := by
  refine ⟨[.new .nil], [.add 0 (.str b!"x"), .delete 0 (.str b!"x")], ?_, rfl, rfl, rfl, ⟨_, rfl, rfl⟩, ⟨_, rfl, rfl⟩⟩
  · intro op hop
    simp only [List.cons_append, List.nil_append, List.mem_cons, List.not_mem_nil, or_false] at hop
    rcases hop with rfl | rfl | rfl <;> (intro g e; cases e)

/-! ## Instances -/

/-- A history with a removal, a graft and a clone; every question about the second graph. -/
example (q : Query) : ∃ N, ∀ fuel, N ≤ fuel → ∃ ps h p,
    (memRun E grow fuel [.new (.str b!"a"), .add 0 (.str b!"x"), .new (.str b!"b"), .add 1 (.int .int 7), .add 1 (.bool true), .deleteAt 1 1, .graft 1 0] []).run {} = (.ok ps, h) ∧
    ps[1]? = some p ∧ SameOutcome ((q.ask E fuel p).run h).1 (q.tree E (.node (.str b!"b") [.node (.int .int 7) [], .node (.str b!"a") [.node (.str b!"x") []]])) := by
  refine C98_partial E grow [.new (.str b!"a"), .add 0 (.str b!"x"), .new (.str b!"b"), .add 1 (.int .int 7), .add 1 (.bool true), .deleteAt 1 1, .graft 1 0]
    (fun op hop => ?_) [.nil, .node (.str b!"b") [.node (.int .int 7) [], .node (.str b!"a") [.node (.str b!"x") []]]] rfl 1 (by decide) q (fun _ => .inr (by nofun))
  simp only [List.mem_cons, List.not_mem_nil, or_false] at hop
  rcases hop with rfl | rfl | rfl | rfl | rfl | rfl | rfl
  all_goals first
    | exact trivial
    | (intro g e; cases e; done)
    | exact (by decide : (1 : Nat) ≠ 0)

/-- A leaf, for which `Scalar` looks at the slice. -/
example : ∃ N, ∀ fuel, N ≤ fuel → ∃ ps h p, (memRun E grow fuel [.new (.str b!"a"), .add 0 (.str b!"x"), .clear 0] []).run {} = (.ok ps, h) ∧
    ps[0]? = some p ∧ SameOutcome ((Query.scalar.ask E fuel p).run h).1 (.ok (.content .nil)) := by
  refine C98_partial E grow [.new (.str b!"a"), .add 0 (.str b!"x"), .clear 0] (fun op hop => ?_) [.node (.str b!"a") []] rfl 0 (by decide) .scalar (fun _ => .inl fun op hop => ?_)
  all_goals
    simp only [List.mem_cons, List.not_mem_nil, or_false] at hop
    rcases hop with rfl | rfl | rfl
  all_goals first
    | exact trivial
    | exact id
    | (intro g e; cases e; done)

end Ogdl
