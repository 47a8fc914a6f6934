import Verif.Lemmas.HeapGet
import Verif.Lemmas.HeapIndex
import Verif.Lemmas.HeapWitness
import Verif.Props.Template

/-!
# C101: nodes reached by a path
-/

namespace Ogdl
open Spec

variable (E : Ext) (grow : Nat → Nat → Nat)

/-- C101: take any history of C78, any of its graphs, and a path of names that leads to a node
in it.  `Get` returns that node and not a copy, and so does `Eval` of the path, unless the
value is simplified to the content of an only subnode.  Whatever the client does with the node
afterwards, through operations, evaluations and assignments on it and on graphs that it makes
in between, as long as it does not put the node itself into another graph: the graph is then
the one it was before with the node replaced by what the node has become, and all other graphs
are as they were.  The client learns what it would learn from a graph of its own with the same
nodes.

What is missing: nil subnodes, paths with indexes, which C101_refuted and C101_index_partial are
about, and selectors (C101_selector_partial). -/
theorem C101_partial (hE : WholeCalls E) (ops : List TOp) (hv : ∀ op ∈ ops, op.Valid E) (gs : List Graph) (h1 : treeRun E ops [] = .ok gs) (i : Nat) (hi : i < gs.length)
    (hn : NoNil gs[i]) (ids : List Bytes) (hne : ids ≠ []) (hids : ∀ id ∈ ids, id ∉ stepMarks) (hr : lookup E ids gs[i] ≠ .nil)
    (after : List AOp) (hva : ValidRun E after [lookup E ids gs[i]]) (hk : ∀ op ∈ after, ¬ op.Takes 0) :
    ∃ N ps h p q, ps[i]? = some p ∧ ∀ fuel, N ≤ fuel → (memRun E grow fuel ops []).run {} = (.ok ps, h) ∧
      (hGet grow E fuel p (pathOf ids)).run h = (.ok q, h) ∧
      (simplify (lookup E ids gs[i]) = .graph (lookup E ids gs[i]) → (hEval grow E fuel p (evalFuel (pathOf ids)) (pathOf ids)).run h = (.ok (.ptr q, none), h)) ∧
      match askTree E after [lookup E ids gs[i]] with
      | .ok (gs', outs) => ∃ ps' h' F, (askMem E grow fuel after [q]).run h = (.ok (ps', outs), h') ∧
          HoldsL h' (gs.set i (replaceAt E ids (gs'.getD 0 .nil) gs[i])) ps F
      | .panic => ∃ h', (askMem E grow fuel after [q]).run h = (.panic, h')
      | .oof => False := by
  have h0 := memRun_ends (grow := grow) hv
  rw [h1] at h0
  obtain ⟨N, ps, h, hrun, hs, F, hl⟩ := h0
  obtain ⟨p, Fg, hp, hg, _, hrest⟩ := hl.focus (List.getElem?_eq_getElem hi)
  obtain ⟨q, X, ld⟩ := path_leads (E := E) (grow := grow) hs ids hids hg hn hr
  have hp0 : p ≠ none := by
    rintro rfl
    cases hgi : gs[i] with
    | nil => rw [hgi] at hn; exact absurd hn (by simp [NoNil])
    | node t o =>
      rw [hgi] at hg
      obtain ⟨_, _, _, _, e, _⟩ := hg.parts
      cases e
  have hev : ∀ fuel, simplify (lookup E ids gs[i]) = .graph (lookup E ids gs[i]) →
      (hEval grow E fuel p (evalFuel (pathOf ids)) (pathOf ids)).run h = (.ok (.ptr q, none), h) := by
    intro fuel hsm
    rw [eval_leads hne hp0 ld fuel]
    exact ok_bind' (simplify_self hs ld.holds hr hsm)
  have h2 := askMem_goes (grow := grow) hE after hva (ps := [q]) hs (Spec.HoldsL.one ld.holds)
  have hno := askTree_ne_oof (E := E) after [lookup E ids gs[i]]
  rcases hat : askTree E after [lookup E ids gs[i]] with ⟨gs', outs⟩ | _ | _
  · rw [hat] at h2
    obtain ⟨N', ⟨ps', outs'⟩, h', hr', e, t, F', hl', hw'⟩ := h2
    dsimp only at e hl'
    subst e
    refine ⟨max N N', ps, h, p, q, hp, fun fuel hf => ⟨hrun fuel (by omega), get_leads hne hp0 ld fuel, hev fuel, ?_⟩⟩
    have hst := askMem_stays hk (by simp : 0 < [q].length) (hr' fuel (by omega))
    obtain ⟨X', hh, hsub, _⟩ := hl'.reg 0
    have hq : held ps' 0 = q := held_of hst
    rw [hq] at hh
    obtain ⟨F1, hf1, hw1⟩ := ld.frame h' (gs'.getD 0 .nil) X' t hh fun a ha => hw' a (hsub a ha)
    obtain ⟨F2, hf2, _⟩ := hrest h' X [] _ F1 t (fun a ha => .inl (ld.sub a ha)) nofun hf1 (by rw [List.append_nil]; exact hw1)
    exact ⟨ps', h', F2, hr' fuel (by omega), hf2⟩
  · rw [hat] at h2
    obtain ⟨N', h', hr'⟩ := h2
    exact ⟨max N N', ps, h, p, q, hp, fun fuel hf => ⟨hrun fuel (by omega), get_leads hne hp0 ld fuel, hev fuel, h', hr' fuel (by omega)⟩⟩
  · exact absurd hat hno

/-- C101 fails for a path with an index: `Get` returns a new node `[` above the node found.
In `_ (a (k))`, a subnode added to the result of `Get("a[0]")` does not show in the graph. -/
theorem C101_refuted : ∃ (ops : List TOp) (p : Graph) (g : Graph), (∀ op ∈ ops, op.Valid E) ∧ treeRun E ops [] = .ok [g] ∧ (∃ r, g.eval E p = .ok ((r, none), g) ∧ r ≠ .nil) ∧
    ∀ fuel, 5 ≤ fuel → ∃ h q h1, (memRun E growOne fuel ops []).run {} = (.ok [some 0], h) ∧ (hGet growOne E fuel (some 0) p).run h = (.ok q, h1) ∧ q ≠ none ∧
      ∃ q' h2 F, (hAdd growOne q (.val (.str b!"x"))).run h1 = (.ok q', h2) ∧ q' ≠ none ∧ Holds h2 g (some 0) F := by
  refine ⟨[.new (.str b!"_"), .nodeSet 0 b!"a" (.str b!"k")], .node (.str b!"!p") [leaf b!"a", .node (.str b!"!i") [leaf b!"0"]],
    .node (.str b!"_") [.node (.str b!"a") [.node (.str b!"k") []]], ?_, rfl, ⟨_, rfl, nofun⟩, ?_⟩
  · intro op hop
    simp only [List.mem_cons, List.not_mem_nil, or_false] at hop
    rcases hop with rfl | rfl <;> (intro g e; cases e)
  · intro fuel hf
    obtain ⟨n, rfl⟩ : ∃ n, fuel = n + 5 := ⟨fuel - 5, by omega⟩
    refine ⟨⟨[⟨.val (.str b!"_"), ⟨some 0, 1⟩⟩, ⟨.val (.str b!"a"), ⟨some 1, 1⟩⟩, ⟨.val (.str b!"k"), {}⟩], [[some 1, none], [some 2, none]]⟩, some 3,
      ⟨[⟨.val (.str b!"_"), ⟨some 0, 1⟩⟩, ⟨.val (.str b!"a"), ⟨some 1, 1⟩⟩, ⟨.val (.str b!"k"), {}⟩, ⟨.val (.str b!"["), ⟨some 2, 1⟩⟩],
        [[some 1, none], [some 2, none], [some 2, none]]⟩, rfl, rfl, nofun, some 4,
      ⟨[⟨.val (.str b!"_"), ⟨some 0, 1⟩⟩, ⟨.val (.str b!"a"), ⟨some 1, 1⟩⟩, ⟨.val (.str b!"k"), {}⟩, ⟨.val (.str b!"["), ⟨some 2, 2⟩⟩, ⟨.val (.str b!"x"), {}⟩],
        [[some 1, none], [some 2, none], [some 2, some 4]]⟩, [0, 1, 2], rfl, nofun, ?_⟩
    refine Spec.Holds.mk rfl (hstr _) (Spec.HoldsL.one (F := [1, 2]) (Spec.Holds.mk rfl (hstr _) (Spec.HoldsL.one (F := [2]) (Spec.Holds.mk rfl (hstr _) Spec.HoldsL.nil nofun)) (by decide))) (by decide)

/-- `_ (z a (b (u)))`: the client gets `a.b`, sets a value in it, evaluates in it, clones it
and adds to the clone. -/
example (hE : WholeCalls E) : ∃ N ps h p q, ps[0]? = some p ∧ ∀ fuel, N ≤ fuel →
    (memRun E grow fuel [.new (.str b!"_"), .nodeSet 0 b!"z" .nil, .set 0 [leaf b!"a", leaf b!"b"] [.name (.str b!"a"), .name (.str b!"b")] (.str b!"u")] []).run {} = (.ok ps, h) ∧
    (hGet grow E fuel p (pathOf [b!"a", b!"b"])).run h = (.ok q, h) ∧ ∃ ps' h' F,
      (askMem E grow fuel [.op (.nodeSet 0 b!"n" (.bool true)), .op (.clone 0), .op (.add 1 (.str b!"c")), .ask 0 (pathOf [b!"n"])] [q]).run h =
        (.ok (ps', [(.bool true, none)]), h') ∧
      HoldsL h' [.node (.str b!"_") [.node (.str b!"z") [], .node (.str b!"a") [.node (.str b!"b") [.node (.str b!"u") [], .node (.str b!"n") [.node (.bool true) []]]]]] ps F := by
  have h0 := C101_partial E grow hE
    [.new (.str b!"_"), .nodeSet 0 b!"z" .nil, .set 0 [leaf b!"a", leaf b!"b"] [.name (.str b!"a"), .name (.str b!"b")] (.str b!"u")] (by
      intro op hop
      simp only [List.mem_cons, List.not_mem_nil, or_false] at hop
      rcases hop with rfl | rfl | rfl
      · intro g e; cases e
      · intro g e; cases e
      · exact ⟨fun g e => (by cases e), .name (by decide : (b!"a" : Bytes) ≠ tyIndex) nofun nofun (.name (by decide : (b!"b" : Bytes) ≠ tyIndex) nofun nofun .nil)⟩)
    [.node (.str b!"_") [.node (.str b!"z") [], .node (.str b!"a") [.node (.str b!"b") [.node (.str b!"u") []]]]] rfl 0 (by decide) (by simp [NoNil, NoNilL])
    [b!"a", b!"b"] (by simp) (by decide) (by nofun)
    [.op (.nodeSet 0 b!"n" (.bool true)), .op (.clone 0), .op (.add 1 (.str b!"c")), .ask 0 (pathOf [b!"n"])] (by
      refine ⟨fun g e => (by cases e), fun r hr => ?_⟩
      cases hr
      refine ⟨trivial, fun r hr => ?_⟩
      cases hr
      refine ⟨fun g e => (by cases e), fun r hr => ?_⟩
      cases hr
      refine ⟨⟨?_, by simp [pathOf, leaf, Whole, WholeV, WholeL], by simp [NoAssignment, pathOf, leaf, AllThis, AllThisL, vstr, assignments]⟩, fun _ _ => trivial⟩
      show Whole (.node (.str b!"b") [.node (.str b!"u") [], .node (.str b!"n") [.node (.bool true) []]])
      simp [Whole, WholeV, WholeL]) (by simp [AOp.Takes])
  obtain ⟨N, ps, h, p, q, hp, hN⟩ := h0
  exact ⟨N, ps, h, p, q, hp, fun fuel hf => ⟨(hN fuel hf).1, (hN fuel hf).2.1, (hN fuel hf).2.2.2⟩⟩

/-- C101 for a path of names that ends with an index: `Get` returns a new node above the node
found, and leaves all graphs as they are.  The only subnode of the new node is the node found
and not a copy: whatever the client does with that subnode afterwards, as in C101_partial, shows
in the graph, with the node at the index replaced by what it has become.

What is missing: nil subnodes, and paths with selectors.  Names after the index are the matter of
C101_through_partial. -/
theorem C101_index_partial (hE : WholeCalls E) (ops : List TOp) (hv : ∀ op ∈ ops, op.Valid E) (gs : List Graph) (h1 : treeRun E ops [] = .ok gs) (i : Nat) (hi : i < gs.length)
    (hn : NoNil gs[i]) (ids : List Bytes) (hids : ∀ id ∈ ids, id ∉ stepMarks) (t : Val) (o : List Graph) (hr : lookup E ids gs[i] = .node t o)
    (k : Nat) (hko : k < o.length) (hk63 : k < 2 ^ 63 - 1)
    (after : List AOp) (hva : ValidRun E after [o[k]]) (hk : ∀ op ∈ after, ¬ op.Takes 0) :
    ∃ N ps h p r h1 q F1, ps[i]? = some p ∧ HoldsL h1 gs ps F1 ∧ ∀ fuel, N ≤ fuel → (memRun E grow fuel ops []).run {} = (.ok ps, h) ∧
      (hGet grow E fuel p (.node (.str b!"!p") (ids.map leaf ++ [.node (.str b!"!i") [leaf (itoa k)]]))).run h = (.ok r, h1) ∧
      (hLen r).run h1 = (.ok 1, h1) ∧ (hGetAt r 0).run h1 = (.ok q, h1) ∧
      match askTree E after [o[k]] with
      | .ok (gs', outs) => ∃ ps' h' F, (askMem E grow fuel after [q]).run h1 = (.ok (ps', outs), h') ∧
          HoldsL h' (gs.set i (replaceAt E ids (.node t (o.set k (gs'.getD 0 .nil))) gs[i])) ps F
      | .panic => ∃ h', (askMem E grow fuel after [q]).run h1 = (.panic, h')
      | .oof => False := by
  have h0 := memRun_ends (grow := grow) hv
  rw [h1] at h0
  obtain ⟨N, ps, h, hrun, hs, F, hl⟩ := h0
  obtain ⟨p, Fg, hp, hg, _, hrest⟩ := hl.focus (List.getElem?_eq_getElem hi)
  obtain ⟨qn, X, ld⟩ := path_leads (E := E) (grow := grow) hs ids hids hg hn (by rw [hr]; nofun)
  have hno : NoNilL o := by
    have := lookup_noNil ids hn (by rw [hr]; rfl)
    rw [hr] at this
    exact this
  have hsub := noNilL_of_mem hno (List.getElem_mem hko)
  obtain ⟨a, rfl⟩ : ∃ a, p = some a := by
    cases hgi : gs[i] with
    | nil => rw [hgi] at hn; exact absurd hn (by simp [NoNil])
    | node t o =>
      rw [hgi] at hg
      obtain ⟨a, _, _, _, e, _⟩ := hg.parts
      exact ⟨a, e⟩
  have hhn := ld.holds
  rw [hr] at hhn
  obtain ⟨n, x, psn, Fn, rfl, rfl, hnF, hln, hc, ho⟩ := hhn.parts
  obtain ⟨q, Fk, hq, hhk, hFk, hfoc⟩ := ho.focus (List.getElem?_eq_getElem hko)
  obtain ⟨b, rfl⟩ : ∃ b, q = some b := by
    cases hok : o[k] with
    | nil => rw [hok] at hsub; exact absurd hsub (by simp [NoNil])
    | node t o =>
      rw [hok] at hhk
      obtain ⟨b, _, _, _, e, _⟩ := hhk.parts
      exact ⟨b, e⟩
  obtain ⟨r, h1', hget, t01, hlr⟩ := get_index hs ld hln hk63 hq
  have hlen : (hLen (some r)).run h1' = (.ok 1, h1') := by
    obtain ⟨c, hc, hld, _, hlen, _⟩ := load_look t01.solid hlr
    unfold hLen
    rw [ok_bind' hld, hlen]
    rfl
  have hat0 : (hGetAt (some r) 0).run h1' = (.ok (some b), h1') := getAt_leads t01.solid hlr rfl
  have h2 := askMem_goes (grow := grow) hE after hva (ps := [some b]) t01.solid (Spec.HoldsL.one (hhk.turns t01 nofun))
  have hno := askTree_ne_oof (E := E) after [o[k]]
  rcases hat : askTree E after [o[k]] with ⟨gs', outs⟩ | _ | _
  · rw [hat] at h2
    obtain ⟨N', ⟨ps', outs'⟩, h', hr', e, t, F', hl', hw'⟩ := h2
    dsimp only at e hl'
    subst e
    refine ⟨max N N', ps, h, some a, some r, h1', some b, F, hp, hl.turns t01 nofun, fun fuel hf => ⟨hrun fuel (by omega), hget fuel, hlen, hat0, ?_⟩⟩
    have hst := askMem_stays hk (by simp : 0 < [some b].length) (hr' fuel (by omega))
    obtain ⟨X', hh, hsub, _⟩ := hl'.reg 0
    have hq : held ps' 0 = some b := held_of hst
    rw [hq] at hh
    have t' : Turns Fk h h' := ⟨t.solid, Nat.le_trans t01.le t.le, fun c hc hx => by
      have e1 := t01.keep c hc nofun
      have e2 := t.keep c (Nat.lt_of_lt_of_le hc t01.le) hx
      exact ⟨e2.1.trans e1.1, e2.2.trans e1.2⟩⟩
    have hw2 : Within h (Fk ++ []) X' := fun c hc => by
      rw [List.append_nil]
      rcases hw' c (hsub c hc) with hc | hc
      · exact .inl hc
      · exact .inr (Nat.le_trans t01.le hc)
    have hnk : n ∉ Fk := fun hx => hnF (hFk n hx)
    obtain ⟨F3, hf3, hw3⟩ := back (Y := []) hln hc hnF t' hnk nofun (hfoc h' Fk [] (gs'.getD 0 .nil) X' t' (fun c hc => .inl hc) nofun hh hw2)
    have t2 : Turns (n :: Fn) h h' := ⟨t'.solid, t'.le, fun c hc hx => t'.keep c hc fun hm => hx (List.mem_cons_of_mem _ (hFk c hm))⟩
    obtain ⟨F1, hf1, hw1⟩ := ld.frame h' _ F3 t2 hf3 (by rw [List.append_nil] at hw3; exact hw3)
    obtain ⟨F2, hf2, _⟩ := hrest h' (n :: Fn) [] _ F1 t2 (fun a ha => .inl (ld.sub a ha)) nofun hf1 (by rw [List.append_nil]; exact hw1)
    exact ⟨ps', h', F2, hr' fuel (by omega), hf2⟩
  · rw [hat] at h2
    obtain ⟨N', h', hr'⟩ := h2
    exact ⟨max N N', ps, h, some a, some r, h1', some b, F, hp, hl.turns t01 nofun, fun fuel hf => ⟨hrun fuel (by omega), hget fuel, hlen, hat0, h', hr' fuel (by omega)⟩⟩
  · exact absurd hat hno

/-- `_ (z a (b (u)))`: the client gets `a[0]`, takes the subnode of the result and sets a value
in it. -/
example (hE : WholeCalls E) : ∃ N ps h p r h1 q F1, ps[0]? = some p ∧
    HoldsL h1 [.node (.str b!"_") [.node (.str b!"z") [], .node (.str b!"a") [.node (.str b!"b") [.node (.str b!"u") []]]]] ps F1 ∧ ∀ fuel, N ≤ fuel →
    (memRun E grow fuel [.new (.str b!"_"), .nodeSet 0 b!"z" .nil, .set 0 [leaf b!"a", leaf b!"b"] [.name (.str b!"a"), .name (.str b!"b")] (.str b!"u")] []).run {} = (.ok ps, h) ∧
    (hGet grow E fuel p (.node (.str b!"!p") [leaf b!"a", .node (.str b!"!i") [leaf b!"0"]])).run h = (.ok r, h1) ∧
    (hLen r).run h1 = (.ok 1, h1) ∧ (hGetAt r 0).run h1 = (.ok q, h1) ∧ ∃ ps' h' F,
      (askMem E grow fuel [.op (.nodeSet 0 b!"n" (.bool true))] [q]).run h1 = (.ok (ps', []), h') ∧
      HoldsL h' [.node (.str b!"_") [.node (.str b!"z") [], .node (.str b!"a") [.node (.str b!"b") [.node (.str b!"u") [], .node (.str b!"n") [.node (.bool true) []]]]]] ps F :=
  C101_index_partial E grow hE
    [.new (.str b!"_"), .nodeSet 0 b!"z" .nil, .set 0 [leaf b!"a", leaf b!"b"] [.name (.str b!"a"), .name (.str b!"b")] (.str b!"u")] (by
      intro op hop
      simp only [List.mem_cons, List.not_mem_nil, or_false] at hop
      rcases hop with rfl | rfl | rfl
      · intro g e; cases e
      · intro g e; cases e
      · exact ⟨fun g e => (by cases e), .name (by decide : (b!"a" : Bytes) ≠ tyIndex) nofun nofun (.name (by decide : (b!"b" : Bytes) ≠ tyIndex) nofun nofun .nil)⟩)
    [.node (.str b!"_") [.node (.str b!"z") [], .node (.str b!"a") [.node (.str b!"b") [.node (.str b!"u") []]]]] rfl 0 (by decide) (by simp [NoNil, NoNilL])
    [b!"a"] (by decide) (.str b!"a") [.node (.str b!"b") [.node (.str b!"u") []]] rfl 0 (by decide) (by decide)
    [.op (.nodeSet 0 b!"n" (.bool true))] ⟨fun g e => (by cases e), fun _ _ => trivial⟩ (by simp [AOp.Takes])

/-- C101 for a path with an index inside: names, an index, the name of the node at the index, and
more names.  `Get` returns a node of the graph and not a copy, and all is as in C101_partial.

What is missing: nil subnodes, more than one index, and paths with selectors. -/
theorem C101_through_partial (hE : WholeCalls E) (ops : List TOp) (hv : ∀ op ∈ ops, op.Valid E) (gs : List Graph) (h1 : treeRun E ops [] = .ok gs) (i : Nat) (hi : i < gs.length)
    (hn : NoNil gs[i]) (ids : List Bytes) (hids : ∀ id ∈ ids, id ∉ stepMarks) (t : Val) (o : List Graph) (hr : lookup E ids gs[i] = .node t o)
    (k : Nat) (hko : k < o.length) (hk63 : k < 2 ^ 63 - 1)
    (hname : o[k].thisString E ∉ stepMarks) (rest : List Bytes) (hrest : ∀ id ∈ rest, id ∉ stepMarks) (hlk : lookup E rest o[k] ≠ .nil)
    (after : List AOp) (hva : ValidRun E after [lookup E rest o[k]]) (hk : ∀ op ∈ after, ¬ op.Takes 0) :
    ∃ N ps h p h1 q F1, ps[i]? = some p ∧ HoldsL h1 gs ps F1 ∧ ∀ fuel, N ≤ fuel → (memRun E grow fuel ops []).run {} = (.ok ps, h) ∧
      (hGet grow E fuel p (.node (.str b!"!p") (ids.map leaf ++ [.node (.str b!"!i") [leaf (itoa k)]] ++
        leaf (o[k].thisString E) :: rest.map leaf))).run h = (.ok q, h1) ∧
      match askTree E after [lookup E rest o[k]] with
      | .ok (gs', outs) => ∃ ps' h' F, (askMem E grow fuel after [q]).run h1 = (.ok (ps', outs), h') ∧
          HoldsL h' (gs.set i (replaceAt E ids (.node t (o.set k (replaceAt E rest (gs'.getD 0 .nil) o[k]))) gs[i])) ps F
      | .panic => ∃ h', (askMem E grow fuel after [q]).run h1 = (.panic, h')
      | .oof => False := by
  have h0 := memRun_ends (grow := grow) hv
  rw [h1] at h0
  obtain ⟨N, ps, h, hrun, hs, F, hl⟩ := h0
  obtain ⟨p, Fg, hp, hg, _, hrestg⟩ := hl.focus (List.getElem?_eq_getElem hi)
  obtain ⟨qn, X, ld⟩ := path_leads (E := E) (grow := grow) hs ids hids hg hn (by rw [hr]; nofun)
  have hno : NoNilL o := by
    have := lookup_noNil ids hn (by rw [hr]; rfl)
    rw [hr] at this
    exact this
  have hsub := noNilL_of_mem hno (List.getElem_mem hko)
  obtain ⟨a, rfl⟩ : ∃ a, p = some a := by
    cases hgi : gs[i] with
    | nil => rw [hgi] at hn; exact absurd hn (by simp [NoNil])
    | node t o =>
      rw [hgi] at hg
      obtain ⟨a, _, _, _, e, _⟩ := hg.parts
      exact ⟨a, e⟩
  have hhn := ld.holds
  rw [hr] at hhn
  obtain ⟨n, x, psn, Fn, rfl, rfl, hnF, hln, hc, ho⟩ := hhn.parts
  obtain ⟨q, Fk, hq, hhk, hFk, hfoc⟩ := ho.focus (List.getElem?_eq_getElem hko)
  obtain ⟨b, rfl⟩ : ∃ b, q = some b := by
    cases hok : o[k] with
    | nil => rw [hok] at hsub; exact absurd hsub (by simp [NoNil])
    | node t o =>
      rw [hok] at hhk
      obtain ⟨b, _, _, _, e, _⟩ := hhk.parts
      exact ⟨b, e⟩
  obtain ⟨q, h1', Y, hget, t01, ld2⟩ := get_through hs ld hln hk63 hq hhk hsub hname rfl hrest hlk
  have h2 := askMem_goes (grow := grow) hE after hva (ps := [q]) t01.solid (Spec.HoldsL.one ld2.holds)
  have hno := askTree_ne_oof (E := E) after [lookup E rest o[k]]
  rcases hat : askTree E after [lookup E rest o[k]] with ⟨gs', outs⟩ | _ | _
  · rw [hat] at h2
    obtain ⟨N', ⟨ps', outs'⟩, h', hr', e, t, F', hl', hw'⟩ := h2
    dsimp only at e hl'
    subst e
    refine ⟨max N N', ps, h, some a, h1', q, F, hp, hl.turns t01 nofun, fun fuel hf => ⟨hrun fuel (by omega), hget fuel, ?_⟩⟩
    have hst := askMem_stays hk (by simp : 0 < [q].length) (hr' fuel (by omega))
    obtain ⟨X', hh, hsub, _⟩ := hl'.reg 0
    have hq : held ps' 0 = q := held_of hst
    rw [hq] at hh
    obtain ⟨F4, hf4, hw4⟩ := ld2.frame h' (gs'.getD 0 .nil) X' t hh fun a ha => hw' a (hsub a ha)
    have t' : Turns Fk h h' := ⟨t.solid, Nat.le_trans t01.le t.le, fun c hc hx => by
      have e1 := t01.keep c hc nofun
      have e2 := t.keep c (Nat.lt_of_lt_of_le hc t01.le) fun hy => hx (ld2.sub c hy)
      exact ⟨e2.1.trans e1.1, e2.2.trans e1.2⟩⟩
    have hw2 : Within h (Fk ++ []) F4 := fun c hc => by
      rw [List.append_nil]
      rcases hw4 c hc with hc | hc
      · exact .inl hc
      · exact .inr (Nat.le_trans t01.le hc)
    have hnk : n ∉ Fk := fun hx => hnF (hFk n hx)
    obtain ⟨F3, hf3, hw3⟩ := back (Y := []) hln hc hnF t' hnk nofun (hfoc h' Fk [] _ F4 t' (fun c hc => .inl hc) nofun hf4 hw2)
    have t2 : Turns (n :: Fn) h h' := ⟨t'.solid, t'.le, fun c hc hx => t'.keep c hc fun hm => hx (List.mem_cons_of_mem _ (hFk c hm))⟩
    obtain ⟨F1, hf1, hw1⟩ := ld.frame h' _ F3 t2 hf3 (by rw [List.append_nil] at hw3; exact hw3)
    obtain ⟨F2, hf2, _⟩ := hrestg h' (n :: Fn) [] _ F1 t2 (fun a ha => .inl (ld.sub a ha)) nofun hf1 (by rw [List.append_nil]; exact hw1)
    exact ⟨ps', h', F2, hr' fuel (by omega), hf2⟩
  · rw [hat] at h2
    obtain ⟨N', h', hr'⟩ := h2
    exact ⟨max N N', ps, h, some a, h1', q, F, hp, hl.turns t01 nofun, fun fuel hf => ⟨hrun fuel (by omega), hget fuel, h', hr' fuel (by omega)⟩⟩
  · exact absurd hat hno

/-- `_ (z a (b (u)))`: the client gets `a[0].b.u` and sets a value in it. -/
example (hE : WholeCalls E) : ∃ N ps h p h1 q F1, ps[0]? = some p ∧
    HoldsL h1 [.node (.str b!"_") [.node (.str b!"z") [], .node (.str b!"a") [.node (.str b!"b") [.node (.str b!"u") []]]]] ps F1 ∧ ∀ fuel, N ≤ fuel →
    (memRun E grow fuel [.new (.str b!"_"), .nodeSet 0 b!"z" .nil, .set 0 [leaf b!"a", leaf b!"b"] [.name (.str b!"a"), .name (.str b!"b")] (.str b!"u")] []).run {} = (.ok ps, h) ∧
    (hGet grow E fuel p (.node (.str b!"!p") [leaf b!"a", .node (.str b!"!i") [leaf b!"0"], leaf b!"b", leaf b!"u"])).run h = (.ok q, h1) ∧ ∃ ps' h' F,
      (askMem E grow fuel [.op (.nodeSet 0 b!"n" (.bool true))] [q]).run h1 = (.ok (ps', []), h') ∧
      HoldsL h' [.node (.str b!"_") [.node (.str b!"z") [], .node (.str b!"a") [.node (.str b!"b") [.node (.str b!"u") [.node (.str b!"n") [.node (.bool true) []]]]]]] ps F :=
  C101_through_partial E grow hE
    [.new (.str b!"_"), .nodeSet 0 b!"z" .nil, .set 0 [leaf b!"a", leaf b!"b"] [.name (.str b!"a"), .name (.str b!"b")] (.str b!"u")] (by
      intro op hop
      simp only [List.mem_cons, List.not_mem_nil, or_false] at hop
      rcases hop with rfl | rfl | rfl
      · intro g e; cases e
      · intro g e; cases e
      · exact ⟨fun g e => (by cases e), .name (by decide : (b!"a" : Bytes) ≠ tyIndex) nofun nofun (.name (by decide : (b!"b" : Bytes) ≠ tyIndex) nofun nofun .nil)⟩)
    [.node (.str b!"_") [.node (.str b!"z") [], .node (.str b!"a") [.node (.str b!"b") [.node (.str b!"u") []]]]] rfl 0 (by decide) (by simp [NoNil, NoNilL])
    [b!"a"] (by decide) (.str b!"a") [.node (.str b!"b") [.node (.str b!"u") []]] rfl 0 (by decide) (by decide)
    (by show b!"b" ∉ stepMarks; decide) [b!"u"] (by decide) (by nofun)
    [.op (.nodeSet 0 b!"n" (.bool true))] ⟨fun g e => (by cases e), fun _ _ => trivial⟩ (by simp [AOp.Takes])

/-- C101 for a path with a selector inside: names, the name of a subnode and a selector that says
how many subnodes of the same name are before it, and more names.  `Get` returns a node of the
graph and not a copy, and all is as in C101_partial.

What is missing: nil subnodes, selectors at the end, and more than one selector or index. -/
theorem C101_selector_partial (hE : WholeCalls E) (ops : List TOp) (hv : ∀ op ∈ ops, op.Valid E) (gs : List Graph) (h1 : treeRun E ops [] = .ok gs) (i : Nat) (hi : i < gs.length)
    (hn : NoNil gs[i]) (ids : List Bytes) (hids : ∀ id ∈ ids, id ∉ stepMarks) (t : Val) (o : List Graph) (hr : lookup E ids gs[i] = .node t o)
    (k : Nat) (hko : k < o.length) (m : Nat) (hm : ((o.take k).filter fun g => g.thisString E = o[k].thisString E).length = m) (hm63 : m < 2 ^ 63 - 1)
    (hname : o[k].thisString E ∉ stepMarks) (hname0 : o[k].thisString E ≠ []) (rest : List Bytes) (hrest0 : rest ≠ []) (hrest : ∀ id ∈ rest, id ∉ stepMarks)
    (hlk : lookup E rest o[k] ≠ .nil)
    (after : List AOp) (hva : ValidRun E after [lookup E rest o[k]]) (hk : ∀ op ∈ after, ¬ op.Takes 0) :
    ∃ N ps h p h1 q F1, ps[i]? = some p ∧ HoldsL h1 gs ps F1 ∧ ∀ fuel, N ≤ fuel → (memRun E grow fuel ops []).run {} = (.ok ps, h) ∧
      (hGet grow E fuel p (.node (.str b!"!p") (ids.map leaf ++
        [leaf (o[k].thisString E), .node (.str b!"!s") [leaf (itoa m)]] ++ rest.map leaf))).run h = (.ok q, h1) ∧
      match askTree E after [lookup E rest o[k]] with
      | .ok (gs', outs) => ∃ ps' h' F, (askMem E grow fuel after [q]).run h1 = (.ok (ps', outs), h') ∧
          HoldsL h' (gs.set i (replaceAt E ids (.node t (o.set k (replaceAt E rest (gs'.getD 0 .nil) o[k]))) gs[i])) ps F
      | .panic => ∃ h', (askMem E grow fuel after [q]).run h1 = (.panic, h')
      | .oof => False := by
  have h0 := memRun_ends (grow := grow) hv
  rw [h1] at h0
  obtain ⟨N, ps, h, hrun, hs, F, hl⟩ := h0
  obtain ⟨p, Fg, hp, hg, _, hrestg⟩ := hl.focus (List.getElem?_eq_getElem hi)
  obtain ⟨qn, X, ld⟩ := path_leads (E := E) (grow := grow) hs ids hids hg hn (by rw [hr]; nofun)
  have hno : NoNilL o := by
    have := lookup_noNil ids hn (by rw [hr]; rfl)
    rw [hr] at this
    exact this
  have hsub := noNilL_of_mem hno (List.getElem_mem hko)
  obtain ⟨a, rfl⟩ : ∃ a, p = some a := by
    cases hgi : gs[i] with
    | nil => rw [hgi] at hn; exact absurd hn (by simp [NoNil])
    | node t o =>
      rw [hgi] at hg
      obtain ⟨a, _, _, _, e, _⟩ := hg.parts
      exact ⟨a, e⟩
  have hhn := ld.holds
  rw [hr] at hhn
  obtain ⟨n, x, psn, Fn, rfl, rfl, hnF, hln, hc, ho⟩ := hhn.parts
  obtain ⟨q, Fk, hq, hhk, hFk, hfoc⟩ := ho.focus (List.getElem?_eq_getElem hko)
  obtain ⟨b, rfl⟩ : ∃ b, q = some b := by
    cases hok : o[k] with
    | nil => rw [hok] at hsub; exact absurd hsub (by simp [NoNil])
    | node t o =>
      rw [hok] at hhk
      obtain ⟨b, _, _, _, e, _⟩ := hhk.parts
      exact ⟨b, e⟩
  obtain ⟨q, h1', Y, hget, t01, ld2⟩ : ∃ q h' Y, (∀ fuel, (hGet grow E fuel (some a) (.node (.str b!"!p") (ids.map leaf ++
        [leaf (o[k].thisString E), .node (.str b!"!s") [leaf (itoa m)]] ++ rest.map leaf))).run h = (.ok q, h')) ∧
      Turns [] h h' ∧ Leads E grow h' rest o[k] (some b) Fk q Y := by
    obtain ⟨id2, rest, rfl⟩ : ∃ x xs, rest = x :: xs := by
      cases rest with
      | nil => exact absurd rfl hrest0
      | cons x xs => exact ⟨x, xs, rfl⟩
    cases hok : o[k] with
    | nil => rw [hok] at hsub; exact absurd hsub (by simp [NoNil])
    | node t' os =>
      rw [hok] at hhk hlk hname hname0 hm
      exact get_select hs ld hln ho hno hname hname0 (by rw [List.getElem?_eq_getElem hko, hok]) rfl hm hm63 hq hhk hrest hlk
  have h2 := askMem_goes (grow := grow) hE after hva (ps := [q]) t01.solid (Spec.HoldsL.one ld2.holds)
  have hno := askTree_ne_oof (E := E) after [lookup E rest o[k]]
  rcases hat : askTree E after [lookup E rest o[k]] with ⟨gs', outs⟩ | _ | _
  · rw [hat] at h2
    obtain ⟨N', ⟨ps', outs'⟩, h', hr', e, t, F', hl', hw'⟩ := h2
    dsimp only at e hl'
    subst e
    refine ⟨max N N', ps, h, some a, h1', q, F, hp, hl.turns t01 nofun, fun fuel hf => ⟨hrun fuel (by omega), hget fuel, ?_⟩⟩
    have hst := askMem_stays hk (by simp : 0 < [q].length) (hr' fuel (by omega))
    obtain ⟨X', hh, hsub, _⟩ := hl'.reg 0
    have hq : held ps' 0 = q := held_of hst
    rw [hq] at hh
    obtain ⟨F4, hf4, hw4⟩ := ld2.frame h' (gs'.getD 0 .nil) X' t hh fun a ha => hw' a (hsub a ha)
    have t' : Turns Fk h h' := ⟨t.solid, Nat.le_trans t01.le t.le, fun c hc hx => by
      have e1 := t01.keep c hc nofun
      have e2 := t.keep c (Nat.lt_of_lt_of_le hc t01.le) fun hy => hx (ld2.sub c hy)
      exact ⟨e2.1.trans e1.1, e2.2.trans e1.2⟩⟩
    have hw2 : Within h (Fk ++ []) F4 := fun c hc => by
      rw [List.append_nil]
      rcases hw4 c hc with hc | hc
      · exact .inl hc
      · exact .inr (Nat.le_trans t01.le hc)
    have hnk : n ∉ Fk := fun hx => hnF (hFk n hx)
    obtain ⟨F3, hf3, hw3⟩ := back (Y := []) hln hc hnF t' hnk nofun (hfoc h' Fk [] _ F4 t' (fun c hc => .inl hc) nofun hf4 hw2)
    have t2 : Turns (n :: Fn) h h' := ⟨t'.solid, t'.le, fun c hc hx => t'.keep c hc fun hm => hx (List.mem_cons_of_mem _ (hFk c hm))⟩
    obtain ⟨F1, hf1, hw1⟩ := ld.frame h' _ F3 t2 hf3 (by rw [List.append_nil] at hw3; exact hw3)
    obtain ⟨F2, hf2, _⟩ := hrestg h' (n :: Fn) [] _ F1 t2 (fun a ha => .inl (ld.sub a ha)) nofun hf1 (by rw [List.append_nil]; exact hw1)
    exact ⟨ps', h', F2, hr' fuel (by omega), hf2⟩
  · rw [hat] at h2
    obtain ⟨N', h', hr'⟩ := h2
    exact ⟨max N N', ps, h, some a, h1', q, F, hp, hl.turns t01 nofun, fun fuel hf => ⟨hrun fuel (by omega), hget fuel, h', hr' fuel (by omega)⟩⟩
  · exact absurd hat hno

/-- `_ (a (u) z a (b))`: the client gets `a{1}.b`, which is below the second `a`, and adds to it. -/
example (hE : WholeCalls E) : ∃ N ps h p h1 q F1, ps[0]? = some p ∧
    HoldsL h1 [.node (.str b!"_") [.node (.str b!"a") [.node (.str b!"u") []], .node (.str b!"z") [], .node (.str b!"a") [.node (.str b!"b") []]], .nil] ps F1 ∧ ∀ fuel, N ≤ fuel →
    (memRun E grow fuel [.new (.str b!"_"), .nodeSet 0 b!"a" (.str b!"u"), .nodeSet 0 b!"z" .nil, .new (.str b!"a"), .add 1 (.str b!"b"), .graft 0 1] []).run {} = (.ok ps, h) ∧
    (hGet grow E fuel p (.node (.str b!"!p") [leaf b!"a", .node (.str b!"!s") [leaf b!"1"], leaf b!"b"])).run h = (.ok q, h1) ∧ ∃ ps' h' F,
      (askMem E grow fuel [.op (.nodeSet 0 b!"n" (.bool true))] [q]).run h1 = (.ok (ps', []), h') ∧
      HoldsL h' [.node (.str b!"_") [.node (.str b!"a") [.node (.str b!"u") []], .node (.str b!"z") [], .node (.str b!"a") [.node (.str b!"b") [.node (.str b!"n") [.node (.bool true) []]]]], .nil] ps F :=
  C101_selector_partial E grow hE
    [.new (.str b!"_"), .nodeSet 0 b!"a" (.str b!"u"), .nodeSet 0 b!"z" .nil, .new (.str b!"a"), .add 1 (.str b!"b"), .graft 0 1] (by
      intro op hop
      simp only [List.mem_cons, List.not_mem_nil, or_false] at hop
      rcases hop with rfl | rfl | rfl | rfl | rfl | rfl <;> first | (intro g e; cases e) | exact Nat.zero_ne_one)
    [.node (.str b!"_") [.node (.str b!"a") [.node (.str b!"u") []], .node (.str b!"z") [], .node (.str b!"a") [.node (.str b!"b") []]], .nil] rfl 0 (by decide) (by simp [NoNil, NoNilL])
    [] (by decide) (.str b!"_") [.node (.str b!"a") [.node (.str b!"u") []], .node (.str b!"z") [], .node (.str b!"a") [.node (.str b!"b") []]] rfl 2 (by decide) 1 rfl (by decide)
    (by show b!"a" ∉ stepMarks; decide) (by show b!"a" ≠ []; decide) [b!"b"] (by decide) (by decide) (by nofun)
    [.op (.nodeSet 0 b!"n" (.bool true))] ⟨fun g e => (by cases e), fun _ _ => trivial⟩ (by simp [AOp.Takes])

end Ogdl
