import Verif.Lemmas.RefineRun
import Verif.Props.Clone

/-!
# C78: graphs behave as values; C79: arguments are not changed
-/

namespace Ogdl
open Spec

variable (E : Ext) (grow : Nat → Nat → Nat)

/-- C78: take any history of operations of a client that gives a graph away when it puts it
into another one.  In memory, with pointers and shared arrays that grow as they like, the
history does what it does on trees: it panics if it panics on trees, and otherwise each
pointer of the client leads to exactly the tree computed without memory, no node being in
two of them or twice in one. -/
theorem C78_values (ops : List TOp) (hv : ∀ op ∈ ops, op.Valid E) : ∃ N, ∀ fuel, N ≤ fuel →
    match treeRun E ops [] with
    | .ok gs => ∃ ps h F, (memRun E grow fuel ops []).run {} = (.ok ps, h) ∧ HoldsL h gs ps F
    | .panic => ∃ h, (memRun E grow fuel ops []).run {} = (.panic, h)
    | .oof => False := by
  obtain ⟨N, hN⟩ := memRun_gives (grow := grow) ops hv []
  refine ⟨N, fun fuel hf => ?_⟩
  have := hN fuel hf [] {} ⟨solid_empty, [], Spec.HoldsL.nil⟩
  cases hr : treeRun E ops [] with
  | ok gs =>
    rw [hr] at this
    obtain ⟨ps, h, h1, _, F, h2⟩ := this
    exact ⟨ps, h, F, h1, h2⟩
  | panic =>
    rw [hr] at this
    exact this
  | oof => exact absurd hr (treeRun_ne_oof ops [])

/-- The number of the graph that an operation changes, and of the one that it takes. -/
def Spec.TOp.Names (k : Nat) : TOp → Prop
  | .new _ | .clone _ => False
  | .add i _ | .copy i _ | .nodeOrNew i _ | .nodeSet i _ _ | .create i _ | .delete i _ | .clear i | .deleteAt i _ | .set i _ _ _ | .substitute i _ _ => i = k
  | .graft i j | .addNodes i j | .merge i j => i = k ∨ j = k

theorem tree_others {op : TOp} {gs gs' : List Graph} (hr : op.tree E gs = .ok gs') {k : Nat} (hk : k < gs.length) (hn : ¬ op.Names k) : gs'[k]? = gs[k]? := by
  have one : ∀ {i : Nat} {β : Type} {r : Res β} {φ : β → Graph}, (r >>= fun b => .ok (gs.set i (φ b))) = .ok gs' → i ≠ k → gs'[k]? = gs[k]? := by
    intro i β r φ h hik
    cases r with
    | ok b => cases h; rw [List.getElem?_set_ne hik]
    | panic => cases h
    | oof => cases h
  have two : ∀ {i j : Nat} {β : Type} {r : Res β} {φ : β → Graph}, (r >>= fun b => .ok ((gs.set j .nil).set i (φ b))) = .ok gs' → i ≠ k → j ≠ k → gs'[k]? = gs[k]? := by
    intro i j β r φ h hik hjk
    cases r with
    | ok b => cases h; rw [List.getElem?_set_ne hik, List.getElem?_set_ne hjk]
    | panic => cases h
    | oof => cases h
  cases op with
  | new v => cases hr; rw [List.getElem?_append_left hk]
  | clone i => cases hr; rw [List.getElem?_append_left hk]
  | add i v => exact one (r := .ok ()) (φ := fun _ => _) hr hn
  | clear i => exact one (r := .ok ()) (φ := fun _ => _) hr hn
  | deleteAt i v => exact one (r := .ok ()) (φ := fun _ => _) hr hn
  | graft i j => exact two (r := .ok ()) (φ := fun _ => _) hr (fun e => hn (.inl e)) fun e => hn (.inr e)
  | addNodes i j => exact two (r := .ok ()) (φ := fun _ => _) hr (fun e => hn (.inl e)) fun e => hn (.inr e)
  | merge i j => exact two (φ := id) hr (fun e => hn (.inl e)) fun e => hn (.inr e)
  | copy i j => exact one (φ := id) hr hn
  | nodeOrNew i s => exact one (φ := fun r : Graph × Graph => r.1) hr hn
  | nodeSet i s v => exact one (φ := id) hr hn
  | create i s => exact one (φ := fun r : Graph × Graph => r.1) hr hn
  | delete i v => exact one (φ := id) hr hn
  | substitute i s v => exact one (φ := id) hr hn
  | set i es ss v =>
    unfold TOp.tree at hr
    dsimp only at hr
    cases hg : gs.getD i .nil with
    | nil => rw [hg] at hr; cases hr; rfl
    | node t o =>
      rw [hg] at hr
      exact one (φ := fun r : Graph × Graph => r.1) hr hn

theorem tree_length {op : TOp} {gs gs' : List Graph} (hr : op.tree E gs = .ok gs') {k : Nat} (hk : k < gs.length) : k < gs'.length := by
  have one : ∀ {β : Type} {r : Res β} {φ : β → List Graph}, (r >>= fun b => .ok (φ b)) = .ok gs' → (∀ b, (φ b).length = gs.length) → k < gs'.length := by
    intro β r φ h hl
    cases r with
    | ok b => cases h; rw [hl]; exact hk
    | panic => cases h
    | oof => cases h
  cases op with
  | new v => cases hr; rw [List.length_append]; omega
  | clone i => cases hr; rw [List.length_append]; omega
  | add i v => exact one (r := .ok ()) (φ := fun _ => _) hr fun _ => by simp
  | clear i => exact one (r := .ok ()) (φ := fun _ => _) hr fun _ => by simp
  | deleteAt i v => exact one (r := .ok ()) (φ := fun _ => _) hr fun _ => by simp
  | graft i j => exact one (r := .ok ()) (φ := fun _ => _) hr fun _ => by simp
  | addNodes i j => exact one (r := .ok ()) (φ := fun _ => _) hr fun _ => by simp
  | set i es ss v =>
    unfold TOp.tree at hr
    dsimp only at hr
    cases hg : gs.getD i .nil with
    | nil => rw [hg] at hr; cases hr; exact hk
    | node t o => rw [hg] at hr; exact one hr fun _ => by simp
  | _ => exact one hr fun _ => by simp

theorem treeRun_others : ∀ {ops : List TOp} {gs gs' : List Graph}, treeRun E ops gs = .ok gs' → ∀ {k : Nat}, k < gs.length → (∀ op ∈ ops, ¬ op.Names k) → gs'[k]? = gs[k]?
  | [], gs, gs', hr, k, _, _ => by unfold treeRun at hr; cases hr; rfl
  | op :: ops, gs, gs', hr, k, hk, hn => by
    unfold treeRun at hr
    cases h1 : op.tree E gs with
    | ok gs1 =>
      rw [h1] at hr
      rw [treeRun_others hr (tree_length E h1 hk) fun o ho => hn o (List.mem_cons_of_mem _ ho), tree_others E h1 hk (hn op (List.mem_cons_self ..))]
    | panic => rw [h1] at hr; cases hr
    | oof => rw [h1] at hr; cases hr

/-- C78: whatever else the client does, a graph that it neither changes nor gives away
stays the same tree: here `before` made it, as its graph number `k`, and `after` does not
name it. -/
theorem C78_others (before after : List TOp) (hv : ∀ op ∈ before ++ after, op.Valid E) (gs gs' : List Graph) (k : Nat) (hk : k < gs.length)
    (h1 : treeRun E before [] = .ok gs) (h2 : treeRun E (before ++ after) [] = .ok gs') (hn : ∀ op ∈ after, ¬ op.Names k) :
    ∃ N, ∀ fuel, N ≤ fuel → ∃ ps h F p X, (memRun E grow fuel (before ++ after) []).run {} = (.ok ps, h) ∧ HoldsL h gs' ps F ∧
      ps[k]? = some p ∧ Holds h gs[k] p X := by
  obtain ⟨N, hN⟩ := C78_values E grow (before ++ after) hv
  have happ : ∀ (a b : List TOp) (x : List Graph), treeRun E (a ++ b) x = treeRun E a x >>= treeRun E b := by
    intro a
    induction a with
    | nil => intro b x; rfl
    | cons op a ih =>
      intro b x
      rw [List.cons_append, treeRun, treeRun]
      cases op.tree E x with
      | ok y => exact ih b y
      | panic => rfl
      | oof => rfl
  have h3 := h2
  rw [happ, h1] at h3
  have hsame := treeRun_others E h3 hk hn
  refine ⟨N, fun fuel hf => ?_⟩
  have := hN fuel hf
  rw [h2] at this
  obtain ⟨ps, h, F, hr, hl⟩ := this
  rw [List.getElem?_eq_getElem hk] at hsame
  obtain ⟨p, X, hp, hx, _⟩ := hl.focus hsame
  exact ⟨ps, h, F, p, X, hr, hl, hp, hx⟩

/-- A history: two graphs are made and filled, one is put into a clone of the other, values
are set by path, merged and removed. -/
example : let ops : List TOp := [.new (.str b!"a"), .add 0 (.str b!"x"), .nodeSet 0 b!"n" (.bool true), .new (.str b!"b"), .add 1 (.str b!"c"), .clone 0, .graft 2 1,
      .set 0 [.node (.str b!"x") [], .node (.str b!"y") []] [.name (.str b!"x"), .name (.str b!"y")] (.str b!"v"),
      .deleteAt 2 0, .create 0 b!"n", .merge 0 2]
    treeRun E ops [] = .ok [.node (.str b!"a") [.node (.str b!"x") [.node (.str b!"y") [.node (.str b!"v") []]], .node (.str b!"n") [],
        .node (.str b!"n") [.node (.bool true) []], .node (.str b!"b") [.node (.str b!"c") []]], .nil, .nil] ∧ ∀ op ∈ ops, op.Valid E := by
  refine ⟨rfl, ?_⟩
  intro op hop
  simp only [List.mem_cons, List.not_mem_nil, or_false] at hop
  rcases hop with rfl | rfl | rfl | rfl | rfl | rfl | rfl | rfl | rfl | rfl | rfl
  all_goals first
    | exact trivial
    | (intro g e; cases e; done)
    | exact (by decide : (2 : Nat) ≠ 1)
    | exact (by decide : (0 : Nat) ≠ 2)
    | exact ⟨fun g e => (by cases e), .name (by decide : (b!"x" : Bytes) ≠ tyIndex) nofun nofun (.name (by decide : (b!"y" : Bytes) ≠ tyIndex) nofun nofun .nil)⟩

example : treeRun E [.new (.str b!"a"), .add 0 (.str b!"x"), .new (.str b!"b"), .copy 1 0] [] =
    .ok [.node (.str b!"a") [.node (.str b!"x") []], .node (.str b!"b") [.node (.str b!"x") []]] := by
  have hc : (Graph.node (.str b!"b") []).copy (.node (.str b!"a") [.node (.str b!"x") []]) = .ok (.node (.str b!"b") [.node (.str b!"x") []]) := by
    simp [Graph.copy, Graph.copyList, addedNode]
  show ((Graph.node (.str b!"b") []).copy (.node (.str b!"a") [.node (.str b!"x") []]) >>= fun g => _) >>= _ = _
  rw [hc]
  rfl

example : treeRun E [.new (.str b!"a"), .add 0 (.str b!"x"), .substitute 0 b!"x" (.str b!"y")] [] = .ok [.node (.str b!"a") [.node (.str b!"y") []]] := by
  have hc : Graph.substitute E b!"x" (.str b!"y") (.node (.str b!"a") [.node (.str b!"x") []]) = .ok (.node (.str b!"a") [.node (.str b!"y") []]) := by
    simp [Graph.substitute, Graph.substituteList, vstr]
  show (Graph.substitute E b!"x" (.str b!"y") (.node (.str b!"a") [.node (.str b!"x") []]) >>= fun g => _) >>= _ = _
  rw [hc]
  rfl

/-! ## Arguments -/

/-- C79: `Add` of a graph, `AddNodes` and `Copy` leave the graph given as it was (and every
other graph of the client but the receiver): the same tree, in the same nodes. -/
theorem C79_argument_partial (ops : List TOp) (hv : ∀ op ∈ ops, op.Valid E) (gs : List Graph) (h1 : treeRun E ops [] = .ok gs) (i j : Nat) (hij : i ≠ j) (hj : j < gs.length) :
    ∃ N, ∀ fuel, N ≤ fuel → ∃ ps h p, (memRun E grow fuel ops []).run {} = (.ok ps, h) ∧ ps[j]? = some p ∧
      ∀ op ∈ [HOp.add i (.reg j), .addNodes i j, .copy i j], ∀ r h', (op.exec E grow fuel ps).run h = (.ok r, h') →
        ∃ X, Holds h gs[j] p X ∧ Holds h' gs[j] p X := by
  obtain ⟨N, hN⟩ := memRun_gives (grow := grow) ops hv []
  obtain ⟨N2, hN2⟩ := le_heights gs
  refine ⟨max N (N2 + 1), fun fuel hf => ?_⟩
  have := hN fuel (by omega) [] {} ⟨solid_empty, [], Spec.HoldsL.nil⟩
  rw [h1] at this
  obtain ⟨ps, h, hr, hs, F, hl⟩ := this
  have hjl : j < ps.length := by rw [← hl.length]; exact hj
  refine ⟨ps, h, ps[j], hr, List.getElem?_eq_getElem hjl, ?_⟩
  obtain ⟨Fj, F0, hgj, h0, hd, _⟩ := hl.out j
  have e1 : gs.getD j .nil = gs[j] := by rw [List.getD_eq_getElem?_getD, List.getElem?_eq_getElem hj]; rfl
  rw [held_of (List.getElem?_eq_getElem hjl), e1] at hgj
  obtain ⟨Fi, hgi, hFi, _⟩ := h0.reg i
  rw [held_set_ne hij, getD_set_ne hij] at hgi
  have hdis : ∀ a ∈ Fi, a ∉ Fj := fun a ha hx => hd a hx (hFi a ha)
  have key : ∀ h', Turns Fi h h' → ∃ X, Holds h gs[j] ps[j] X ∧ Holds h' gs[j] ps[j] X := fun h' t => ⟨Fj, hgj, hgj.turns t fun a ha hx => hdis a hx ha⟩
  have hhj : held ps j = ps[j] := held_of (List.getElem?_eq_getElem hjl)
  intro op hop r h' hrun
  simp only [List.mem_cons, List.not_mem_nil, or_false] at hop
  rcases hop with rfl | rfl | rfl
  · refine key h' ?_
    have hrun : (hAdd grow (held ps i) (.ptr (held ps j))).run h = (.ok r, h') := hrun
    rw [hhj] at hrun
    cases hg : gs[j] with
    | nil =>
      rw [hg] at hgj
      unfold Holds at hgj
      obtain ⟨q, h2, hr2, ⟨t2, _⟩, _⟩ := addVal_holds (grow := grow) hs hgi .nil
      rw [hgj.1, hr2] at hrun
      cases hrun
      exact t2
    | node t o =>
      rw [hg] at hgj
      obtain ⟨q, h2, hr2, t2, _⟩ := addGraph_holds (grow := grow) hs hgi hgj hdis
      rw [hr2] at hrun
      cases hrun
      exact t2
  · refine key h' ?_
    have hrun : (hAddNodes grow (held ps i) (held ps j)).run h = (.ok r, h') := hrun
    rw [hhj] at hrun
    obtain ⟨q, h2, hr2, t2, _⟩ := addNodes_holds (grow := grow) hs hgi hgj hdis
    rw [hr2] at hrun
    cases hrun
    exact t2
  · refine key h' ?_
    have hg := copyReg_holds (grow := grow) (fuel := fuel) hs hgi hgj hdis (by have := hN2 j; rw [e1] at this; omega)
    have hrun : (hCopy grow fuel (held ps i) (held ps j) >>= fun _ => (Pure.pure none : HM Ptr)).run h = (.ok r, h') := hrun
    rw [hhj] at hrun
    cases hc : (gs.getD i .nil).copy gs[j] with
    | ok g' =>
      rw [hc] at hg
      obtain ⟨_, h2, hr2, t2, _⟩ := hg
      rw [ok_bind' hr2] at hrun
      cases hrun
      exact t2
    | panic =>
      rw [hc] at hg
      obtain ⟨h2, hr2⟩ := hg
      rw [panic_bind' hr2] at hrun
      cases hrun
    | oof =>
      refine absurd hc ?_
      cases gs[j] with
      | nil => rw [Graph.copy]; nofun
      | node w xs =>
        cases gs.getD i .nil with
        | nil => rw [Graph.copy]; nofun
        | node t o => rw [Graph.copy]; exact Res.bind_ne_oof (copyList_ne_oof xs) fun _ => nofun

/-- C79 and C78_others on two graphs, the first of which is changed. -/
example : ∃ N, ∀ fuel, N ≤ fuel → ∃ ps h p, (memRun E grow fuel [.new (.str b!"a"), .new (.str b!"b"), .add 1 (.str b!"x")] []).run {} = (.ok ps, h) ∧ ps[1]? = some p ∧
    ∀ op ∈ [HOp.add 0 (.reg 1), .addNodes 0 1, .copy 0 1], ∀ r h', (op.exec E grow fuel ps).run h = (.ok r, h') →
      ∃ X, Holds h (.node (.str b!"b") [.node (.str b!"x") []]) p X ∧ Holds h' (.node (.str b!"b") [.node (.str b!"x") []]) p X := by
  refine C79_argument_partial E grow [.new (.str b!"a"), .new (.str b!"b"), .add 1 (.str b!"x")] (fun op hop => ?_) [.node (.str b!"a") [], .node (.str b!"b") [.node (.str b!"x") []]]
    rfl 0 1 (by decide) (by decide)
  simp only [List.mem_cons, List.not_mem_nil, or_false] at hop
  rcases hop with rfl | rfl | rfl <;> (intro g e; cases e)

example : ∃ N, ∀ fuel, N ≤ fuel → ∃ ps h F p X, (memRun E grow fuel [.new (.str b!"a"), .clone 0, .add 1 (.str b!"x")] []).run {} = (.ok ps, h) ∧
    HoldsL h [.node (.str b!"a") [], .node (.str b!"a") [.node (.str b!"x") []]] ps F ∧ ps[0]? = some p ∧ Holds h (.node (.str b!"a") []) p X := by
  refine C78_others E grow [.new (.str b!"a")] [.clone 0, .add 1 (.str b!"x")] (fun op hop => ?_) [.node (.str b!"a") []] _ 0 (by decide) rfl rfl fun op hop => ?_
  · simp only [List.cons_append, List.nil_append, List.mem_cons, List.not_mem_nil, or_false] at hop
    rcases hop with rfl | rfl | rfl <;> first | exact trivial | (intro g e; cases e)
  · simp only [List.mem_cons, List.not_mem_nil, or_false] at hop
    rcases hop with rfl | rfl <;> simp [TOp.Names]

/-- C79 for `Merge` fails: the nodes of the argument are put into the receiver as they are,
and a later node of the argument that is merged into one of them changes both graphs.  The
argument `s (x (p) y (x))`, merged into an empty graph, becomes `s (x (x) y (x))`. -/
theorem C79_merge_refuted : ∃ (ops : List HOp), (∀ op ∈ ops, op.NoSlicing) ∧
    let s := runOps E (fun _ _ => 1) 9 ops [] {}
    let s' := runOps E (fun _ _ => 1) 9 (ops ++ [.merge 0 1]) [] {}
    hview 9 s.2 (held s.1 1) = .node (.val (.str b!"s")) [.node (.val (.str b!"x")) [.node (.val (.str b!"p")) []], .node (.val (.str b!"y")) [.node (.val (.str b!"x")) []]] ∧
    hview 9 s'.2 (held s'.1 1) = .node (.val (.str b!"s")) [.node (.val (.str b!"x")) [.node (.val (.str b!"x")) []], .node (.val (.str b!"y")) [.node (.val (.str b!"x")) []]] := by
  refine ⟨[.new (.val (.str b!"g")), .new (.val (.str b!"s")), .nodeSet 1 b!"x" (.val (.str b!"p")), .nodeSet 1 b!"y" (.val (.str b!"x"))], ?_, rfl, rfl⟩
  intro op hop
  simp only [List.mem_cons, List.not_mem_nil, or_false] at hop
  rcases hop with rfl | rfl | rfl | rfl <;> exact trivial

end Ogdl
