import Verif.Lemmas.HeapWitness
import Verif.Props.Refine
import Verif.Props.Clone

/-!
# C99 and C100: expressions evaluated in memory
-/

namespace Ogdl
open Spec

variable (E : Ext) (grow : Nat → Nat → Nat)

/-- C99: take any history of operations of a client that gives a graph away when it puts it
into another one, and any of its graphs.  Evaluating an expression without assignments in the
context of that graph, in memory with pointers, ends as it does on trees: with a panic, or
with the same error and a value that shows the same tree.  No node that was there is changed.
The value is made of nodes of this graph and of new ones.

What is missing: graphs with nil subnodes and functions that return them; see C100 for
assignments. -/
theorem C99_partial (hE : WholeCalls E) (ops : List TOp) (hv : ∀ op ∈ ops, op.Valid E) (gs : List Graph) (h1 : treeRun E ops [] = .ok gs) (i : Nat) (hi : i < gs.length)
    (hw : Whole gs[i]) (e : Graph) (he : Whole e) (hn : NoAssignment E e) :
    ∃ N ps h p F, ps[i]? = some p ∧ Holds h gs[i] p F ∧ ∀ fuel, N ≤ fuel → (memRun E grow fuel ops []).run {} = (.ok ps, h) ∧
      match gs[i].eval E e with
      | .ok ((v, err), _) => ∃ x h', (hEval grow E fuel p (evalFuel e) e).run h = (.ok (x, err), h') ∧ OnlyAt [] h h' ∧
          ShowsV (fun a => a ∈ F ∨ h.nodes.length ≤ a) h' v x
      | .panic => ∃ h', (hEval grow E fuel p (evalFuel e) e).run h = (.panic, h') ∧ OnlyAt [] h h'
      | .oof => False := by
  have h0 := memRun_ends (grow := grow) hv
  rw [h1] at h0
  obtain ⟨N, ps, h, hr, hs, F, hl⟩ := h0
  obtain ⟨p, Fg, hp, hg, _⟩ := hl.focus (List.getElem?_eq_getElem hi)
  have h2 := (allSim (grow := grow) hE (evalFuel e)).eval (hg.ctx hs hw) e ⟨he, noAssignment_notAssign hn⟩
  have hne := eval_neverOof (E := E) e (Nat.le_refl _) gs[i]
  unfold Graph.eval
  unfold Sim at h2
  rcases hev : eval E (evalFuel e) e gs[i] with ⟨⟨v, err⟩, g'⟩ | _ | _
  · rw [hev] at h2
    obtain ⟨N', ⟨x, err'⟩, h', hr', t, _, e2, hx⟩ := h2
    dsimp only at e2 hx
    subst e2
    exact ⟨max N N', ps, h, p, Fg, hp, hg, fun fuel hf => ⟨hr fuel (by omega), x, h', hr' fuel (by omega), fun a ha _ => (t.keep a ha nofun).2, hx⟩⟩
  · rw [hev] at h2
    obtain ⟨N', h', hr', t⟩ := h2
    exact ⟨max N N', ps, h, p, Fg, hp, hg, fun fuel hf => ⟨hr fuel (by omega), h', hr' fuel (by omega), fun a ha _ => (t.keep a ha nofun).2⟩⟩
  · exact absurd hev hne

/-- C99: the same for expressions evaluated one after the other, where the context can also be
an earlier result, which shares nodes with the graphs. -/
theorem C99_sequence_partial (hE : WholeCalls E) (ops : List TOp) (hv : ∀ op ∈ ops, op.Valid E) (gs : List Graph) (h1 : treeRun E ops [] = .ok gs)
    (hw : ∀ g ∈ gs, Whole g) (ls : List (Nat × Graph)) (hls : ∀ l ∈ ls, Whole l.2 ∧ NoAssignment E l.2) :
    ∃ N ps h F, HoldsL h gs ps F ∧ ∀ fuel, N ≤ fuel → (memRun E grow fuel ops []).run {} = (.ok ps, h) ∧
      match looksTree E ls gs with
      | .ok vs => ∃ xs h', (looksMem E grow fuel ls ps).run h = (.ok xs, h') ∧ OnlyAt [] h h' ∧ SameResults h' xs vs
      | .panic => ∃ h', (looksMem E grow fuel ls ps).run h = (.panic, h') ∧ OnlyAt [] h h'
      | .oof => False := by
  have h0 := memRun_ends (grow := grow) hv
  rw [h1] at h0
  obtain ⟨N, ps, h, hr, hs, F, hl⟩ := h0
  have hgs : ∀ i, Shows (fun _ => True) h (gs.getD i .nil) (held ps i) := by
    intro i
    obtain ⟨Fg, hg, _⟩ := hl.reg i
    refine holds_shows _ hg ?_ fun _ _ => trivial
    by_cases hi : i < gs.length
    · rw [List.getD_eq_getElem?_getD, List.getElem?_eq_getElem hi]
      exact hw _ (List.getElem_mem hi)
    · rw [List.getD_eq_getElem?_getD, List.getElem?_eq_none (by omega)]
      unfold Option.getD Whole
      trivial
  have h2 := looks_comes (grow := grow) hE ls hls hs hgs hl.length
  have hne := looksTree_ne_oof (E := E) ls gs
  cases hev : looksTree E ls gs with
  | ok vs =>
    rw [hev] at h2
    obtain ⟨N', xs, h', hr', t, hx⟩ := h2
    exact ⟨max N N', ps, h, F, hl, fun fuel hf => ⟨hr fuel (by omega), xs, h', hr' fuel (by omega), fun a ha _ => (t.keep a ha nofun).2, hx⟩⟩
  | panic =>
    rw [hev] at h2
    obtain ⟨N', h', hr', t⟩ := h2
    exact ⟨max N N', ps, h, F, hl, fun fuel hf => ⟨hr fuel (by omega), h', hr' fuel (by omega), fun a ha _ => (t.keep a ha nofun).2⟩⟩
  | oof => exact absurd hev hne

/-- C100: take any history of a client that gives graphs away when it puts them into others,
and that also evaluates expressions and assignments of values that are not graphs.  In memory
the history does what it does on trees: it panics if it panics on trees, and otherwise the
client learns the same values and errors, and each of its pointers leads to exactly the tree
computed without memory, no node being in two of them or twice in one.

What is missing: assignments within expressions, and see C100_refuted for graphs. -/
theorem C100_partial (hE : WholeCalls E) (ops : List AOp) (hv : ValidRun E ops []) : ∃ N, ∀ fuel, N ≤ fuel →
    match askTree E ops [] with
    | .ok (gs, outs) => ∃ ps h F, (askMem E grow fuel ops []).run {} = (.ok (ps, outs), h) ∧ HoldsL h gs ps F
    | .panic => ∃ h, (askMem E grow fuel ops []).run {} = (.panic, h)
    | .oof => False := by
  have h0 := askMem_ends (grow := grow) hE ops hv (ps := []) (h := {}) ⟨solid_empty, [], Spec.HoldsL.nil⟩
  have hne := askTree_ne_oof (E := E) ops []
  rcases hev : askTree E ops [] with ⟨gs, outs⟩ | _ | _
  · rw [hev] at h0
    obtain ⟨N, ⟨ps, outs'⟩, h, hr, e, _, F, hl⟩ := h0
    dsimp only at e hl
    subst e
    exact ⟨N, fun fuel hf => ⟨ps, h, F, hr fuel hf, hl⟩⟩
  · rw [hev] at h0
    obtain ⟨N, h, hr⟩ := h0
    exact ⟨N, fun fuel hf => ⟨h, hr fuel hf⟩⟩
  · exact absurd hev hne

/-- C100 fails for an assignment of a graph: the subnodes of the value are not copied.  In
`_ (a (k (u) m (v)))`, after `x = a` and `a.k = 5`, the value of `x.k` is `u` on trees; in
memory it is 5. -/
theorem C100_refuted : ∃ before after : List AOp, ValidRun E before [] ∧
    let ops := before ++ [AOp.assign 0 b!"=" (pathOf [b!"x"]) (pathOf [b!"a"])] ++ after
    (∃ gs, askTree E ops [] = .ok (gs, [(.str b!"u", none)])) ∧
    ∀ fuel, 5 ≤ fuel → ∃ ps h, (askMem E growOne fuel ops []).run {} = (.ok (ps, [(.int .int64 5, none)]), h) := by
  refine ⟨sharedOps, [.assign 0 b!"=" (pathOf [b!"a", b!"k"]) (leaf b!"5"), .ask 0 (exprOf (pathOf [b!"x", b!"k"]))], ?_, ⟨_, rfl⟩, ?_⟩
  · refine ⟨fun g e => (by cases e), fun r hr => ?_⟩
    cases hr
    refine ⟨⟨fun g e => (by cases e), .name (by decide : (b!"a" : Bytes) ≠ tyIndex) nofun nofun (.name (by decide : (b!"k" : Bytes) ≠ tyIndex) nofun nofun .nil)⟩, fun r hr => ?_⟩
    cases hr
    exact ⟨⟨fun g e => (by cases e), .name (by decide : (b!"a" : Bytes) ≠ tyIndex) nofun nofun (.name (by decide : (b!"m" : Bytes) ≠ tyIndex) nofun nofun .nil)⟩, fun r hr => trivial⟩
  · intro fuel hf
    obtain ⟨n, rfl⟩ : ∃ n, fuel = n + 5 := ⟨fuel - 5, by omega⟩
    refine ⟨[some 0], sharedH3, ?_⟩
    rw [askMem_append, askMem_append, hm_assoc, ok_bind' (shared_1 E n), hm_assoc]
    rw [ok_bind' (show (askMem E growOne (n + 5) [AOp.assign 0 b!"=" (pathOf [b!"x"]) (pathOf [b!"a"])] [some 0]).run sharedH1 = (.ok ([some 0], []), sharedH2) from
      askMem_assign E (shared_2 E n) rfl)]
    rw [hm_pure]
    refine ok_bind' (show (askMem E growOne (n + 5) [AOp.assign 0 b!"=" (pathOf [b!"a", b!"k"]) (leaf b!"5"), .ask 0 (exprOf (pathOf [b!"x", b!"k"]))] [some 0]).run sharedH2 =
      (.ok ([some 0], [(.int .int64 5, none)]), sharedH3) from ?_)
    exact askMem_assign E (shared_3 E n) (askMem_ask E (shared_4 E n) rfl)

/-- The graph of C100_cycle_refuted, on trees. -/
example : askTree E (cycleOps ++ [AOp.assign 0 b!"=" (pathOf [b!"a", b!"b"]) (pathOf [b!"a"])]) [] =
    .ok ([.node (.str b!"_") [.node (.str b!"a") [.node (.str b!"b") [.node (.str b!"b") [.node (.str b!"u") []], .node (.str b!"c") [.node (.str b!"v") []]],
      .node (.str b!"c") [.node (.str b!"v") []]]]], []) := rfl

/-- An assignment of a graph to a node within it makes a cycle: in `_ (a (b (u) c (v)))`,
`a.b = a` makes `b` a subnode of itself.  After that `Clone` does not end, whatever the depth
of recursion. -/
theorem C100_cycle_refuted : ∃ before : List AOp, ValidRun E before [] ∧
    let ops := before ++ [AOp.assign 0 b!"=" (pathOf [b!"a", b!"b"]) (pathOf [b!"a"])]
    (∃ gs, askTree E ops [] = .ok (gs, [])) ∧
    ∃ h, (∀ fuel, 5 ≤ fuel → (askMem E growOne fuel ops []).run {} = (.ok ([some 0], []), h)) ∧ ∀ fuel, ((hClone growOne fuel (some 0)).run h).1 = .oof := by
  refine ⟨cycleOps, ?_, ⟨_, rfl⟩, cycleH2, ?_, clone_never⟩
  · refine ⟨fun g e => (by cases e), fun r hr => ?_⟩
    cases hr
    refine ⟨⟨fun g e => (by cases e), .name (by decide : (b!"a" : Bytes) ≠ tyIndex) nofun nofun (.name (by decide : (b!"b" : Bytes) ≠ tyIndex) nofun nofun .nil)⟩, fun r hr => ?_⟩
    cases hr
    exact ⟨⟨fun g e => (by cases e), .name (by decide : (b!"a" : Bytes) ≠ tyIndex) nofun nofun (.name (by decide : (b!"c" : Bytes) ≠ tyIndex) nofun nofun .nil)⟩, fun r hr => trivial⟩
  · intro fuel hf
    obtain ⟨n, rfl⟩ : ∃ n, fuel = n + 5 := ⟨fuel - 5, by omega⟩
    rw [askMem_append, ok_bind' (cycle_1 E n)]
    exact ok_bind' (show (askMem E growOne (n + 5) [AOp.assign 0 b!"=" (pathOf [b!"a", b!"b"]) (pathOf [b!"a"])] [some 0]).run cycleH1 = (.ok ([some 0], []), cycleH2) from
      askMem_assign E (cycle_2 E n) rfl)

/-! ## Instances -/

/-- No functions, and a function that returns a text. -/
example : WholeCalls { E with callable := fun _ => .none } ∧ WholeCalls { E with callable := fun _ => .func false [] fun _ => some (some (.str b!"t")) } :=
  ⟨fun _ => trivial, fun _ _ r h => by cases h; exact trivial⟩

/-- A history, and the value of `a`, a graph. -/
example (hE : WholeCalls E) : ∃ N ps h p F, ps[0]? = some p ∧ Holds h (.node (.str b!"_") [.node (.str b!"a") [.node (.str b!"k") [], .node (.str b!"m") []]]) p F ∧
    ∀ fuel, N ≤ fuel →
      (memRun E grow fuel [.new (.str b!"_"), .new (.str b!"a"), .add 1 (.str b!"k"), .add 1 (.str b!"m"), .graft 0 1] []).run {} = (.ok ps, h) ∧
      ∃ x h', (hEval grow E fuel p (evalFuel (pathOf [b!"a"])) (pathOf [b!"a"])).run h = (.ok (x, none), h') ∧ OnlyAt [] h h' ∧
        ShowsV (fun a => a ∈ F ∨ h.nodes.length ≤ a) h' (.graph (.node (.str b!"a") [.node (.str b!"k") [], .node (.str b!"m") []])) x := by
  refine C99_partial E grow hE [.new (.str b!"_"), .new (.str b!"a"), .add 1 (.str b!"k"), .add 1 (.str b!"m"), .graft 0 1] ?_
    [.node (.str b!"_") [.node (.str b!"a") [.node (.str b!"k") [], .node (.str b!"m") []]], .nil] rfl 0 (by decide) ?_ (pathOf [b!"a"]) ?_ ?_
  · intro op hop
    simp only [List.mem_cons, List.not_mem_nil, or_false] at hop
    rcases hop with rfl | rfl | rfl | rfl | rfl <;> first | exact (by decide : (0 : Nat) ≠ 1) | (intro g e; cases e)
  · simp [Whole, WholeV, WholeL]
  · simp [pathOf, leaf, Whole, WholeV, WholeL]
  · simp [NoAssignment, pathOf, leaf, AllThis, AllThisL, vstr, assignments]

/-- Three evaluations: `a` in the graph, `k` in its value, `a.m` in the graph again. -/
example : looksTree E [(0, pathOf [b!"a"]), (1, pathOf [b!"k"]), (0, pathOf [b!"a", b!"m"])]
      [.node (.str b!"_") [.node (.str b!"a") [.node (.str b!"k") [.node (.str b!"u") []], .node (.str b!"m") [.node (.str b!"v") []]]]] =
    .ok [(.graph (.node (.str b!"a") [.node (.str b!"k") [.node (.str b!"u") []], .node (.str b!"m") [.node (.str b!"v") []]]), none), (.str b!"u", none), (.str b!"v", none)] ∧
    ∀ l ∈ [(0, pathOf [b!"a"]), (1, pathOf [b!"k"]), (0, pathOf [b!"a", b!"m"])], Whole l.2 ∧ NoAssignment E l.2 := by
  refine ⟨rfl, ?_⟩
  simp [pathOf, leaf, Whole, WholeV, WholeL, NoAssignment, AllThis, AllThisL, vstr, assignments]

/-- A graph is made, `n = 5` and `a.k += n` are evaluated in it, and the client asks for
`a.k`. -/
example : let ops : List AOp := [.op (.new (.str b!"_")), .assign 0 b!"=" (pathOf [b!"n"]) (leaf b!"5"), .assign 0 b!"+=" (pathOf [b!"a", b!"k"]) (pathOf [b!"n"]),
      .ask 0 (pathOf [b!"a", b!"k"])]
    askTree E ops [] = .ok ([.node (.str b!"_") [.node (.str b!"n") [.node (.int .int64 5) []], .node (.str b!"a") [.node (.str b!"k") [.node (.int .int64 5) []]]]],
      [(.int .int64 5, none)]) ∧ ValidRun E ops [] := by
  have hname : ∀ id : Bytes, id ≠ tyIndex → ∀ es ss, PathSteps E es ss → PathSteps E (leaf id :: es) (.name (.str id) :: ss) :=
    fun id h es ss hs => .name h nofun nofun hs
  refine ⟨rfl, fun g e => (by cases e), fun r hr => ?_⟩
  cases hr
  refine ⟨⟨by simp [Whole, WholeV, WholeL], by decide, by simp [pathOf, leaf, Whole, WholeV, WholeL], by simp [NoAssignment, pathOf, leaf, AllThis, AllThisL, vstr, assignments],
    by simp [leaf, Whole, WholeV, WholeL], by simp [NoAssignment, leaf, AllThis, AllThisL, vstr, assignments], ⟨_, hname _ (by decide) _ _ .nil⟩, ?_⟩, fun r hr => ?_⟩
  · intro v g' h
    cases h
    nofun
  cases hr
  refine ⟨⟨(by simp [Whole, WholeV, WholeL] : Whole (.node (.str b!"_") [.node (.str b!"n") [.node (.int .int64 5) []]])), by decide, by simp [pathOf, leaf, Whole, WholeV, WholeL], by simp [NoAssignment, pathOf, leaf, AllThis, AllThisL, vstr, assignments],
    by simp [pathOf, leaf, Whole, WholeV, WholeL], by simp [NoAssignment, pathOf, leaf, AllThis, AllThisL, vstr, assignments],
    ⟨_, hname _ (by decide) _ _ (hname _ (by decide) _ _ .nil)⟩, ?_⟩, fun r hr => ?_⟩
  · intro v g' h
    cases h
    nofun
  cases hr
  exact ⟨⟨(by simp [Whole, WholeV, WholeL] : Whole (.node (.str b!"_") [.node (.str b!"n") [.node (.int .int64 5) []], .node (.str b!"a") [.node (.str b!"k") [.node (.int .int64 5) []]]])), by simp [pathOf, leaf, Whole, WholeV, WholeL], by simp [NoAssignment, pathOf, leaf, AllThis, AllThisL, vstr, assignments]⟩, fun _ _ => trivial⟩

end Ogdl
