import Verif.Lemmas.KernelRfl
import Verif.Props.Index

/-!
# C108: Get and expressions agree on where a path leads
-/

namespace Ogdl
open Spec

variable {E : Ext}

theorem follow_reach : ∀ {ss : List PStep} {g m : Graph}, IndexAtEnd ss → Data E g → follow E ss g = some m → m ≠ .nil →
    ∃ n, reach E ss g = some n ∧ m = if endsWithIndex ss then .node (.str b!"[") [n] else n
  | [], g, m, _, _, h, _ => by
    simp only [follow, Option.some.injEq] at h
    exact ⟨g, rfl, by simp [endsWithIndex, h]⟩
  | s :: ss, .nil, m, _, hd, _, _ => absurd hd.1 (by simp [NoNil])
  | s :: ss, .node t o, m, hi, hd, h, hm => by
    have last : ∀ {g' : Graph}, IndexAtEnd ss → s.isIndex = false → Data E g' → follow E ss g' = some m → ∃ n, reach E ss g' = some n ∧ m = if endsWithIndex (s :: ss) then .node (.str b!"[") [n] else n := by
      intro g' hi' hs hd' h'
      obtain ⟨n, h1, h2⟩ := follow_reach hi' hd' h' hm
      refine ⟨n, h1, ?_⟩
      cases ss with
      | nil => cases s <;> first | exact h2 | cases hs
      | cons s' ss => rw [endsWithIndex_cons]; exact h2
    have tl : IndexAtEnd ss := by cases ss with | nil => trivial | cons => exact hi.2
    cases s with
    | name id =>
      simp only [follow, Graph.out] at h
      cases hc : (firstNamed E id o).isNil with
      | true =>
        rw [isNil_eq hc] at h
        cases ss <;> (simp only [follow, Option.some.injEq] at h; exact absurd h.symm hm)
      | false =>
        simp only [reach, Graph.out, hc, Bool.false_eq_true, ↓reduceIte]
        exact last tl rfl (firstNamed_data (g := .node t o) hd hc) h
    | all id =>
      simp only [follow, Graph.out] at h
      cases hc : (firstNamed E id o).isNil with
      | true => simp only [hc, ↓reduceIte, Option.some.injEq] at h; exact absurd h.symm hm
      | false =>
        simp only [hc, Bool.false_eq_true, ↓reduceIte] at h
        simp only [reach, Graph.out, hc, Bool.false_eq_true, ↓reduceIte]
        exact last tl rfl (data_selected (g := .node t o) hd id none) h
    | nth id x k =>
      simp only [follow, Graph.out] at h
      cases hc : (firstNamed E id o).isNil with
      | true => simp only [hc, ↓reduceIte, Option.some.injEq] at h; exact absurd h.symm hm
      | false =>
        simp only [hc, Bool.false_eq_true, ↓reduceIte] at h
        simp only [reach, Graph.out, hc, Bool.false_eq_true, ↓reduceIte]
        exact last tl rfl (data_selected (g := .node t o) hd id (some k)) h
    | index x i =>
      cases ss with
      | cons s' ss => exact absurd hi.1 (by simp [PStep.isIndex])
      | nil =>
        simp only [follow, Graph.out] at h
        simp only [reach, Graph.out]
        cases hx : o[i]? with
        | none => rw [hx] at h; cases h
        | some y => rw [hx] at h; cases h; exact ⟨y, rfl, rfl⟩

/-- A walk in an expression that loses its way. -/
theorem walk_lost {F : Nat} {p g : Graph} (hg : NoNil g) : ∀ (ss : List PStep) (st : PathSt), IndexAtEnd ss → (∀ s ∈ ss, s.Ok E g) →
    (∀ s ∈ ss, s.NotReserved) → (∀ s ∈ ss, StepFuel (F + 3) s) → Data E st.ctx → follow E ss st.ctx = some .nil →
    (∃ st', walkPath (evalStep E (F + 3) p) ((ss.flatMap PStep.elems).map Elem.tree) st g = .ok (.next st', g) ∧ st'.ctx = .nil ∧ st'.addRoot = false) ∨
      walkPath (evalStep E (F + 3) p) ((ss.flatMap PStep.elems).map Elem.tree) st g = .ok (.done (.nil, none), g)
  | [], st, _, _, _, _, hd, h => by
    simp only [follow, Option.some.injEq] at h
    rw [h] at hd
    exact absurd hd.1 (by simp [NoNil])
  | s :: ss, st, hi, hok, hnr, hfu, hd, h => by
    have hok' : ∀ s ∈ ss, s.Ok E g := fun x hx => hok x (by simp [hx])
    have hfu' : ∀ s ∈ ss, StepFuel (F + 3) s := fun x hx => hfu x (by simp [hx])
    have hnr' : ∀ s ∈ ss, s.NotReserved := fun x hx => hnr x (by simp [hx])
    have hs := hok s (by simp)
    have hf := hfu s (by simp)
    have hr := hnr s (by simp)
    have hnil := data_nil_or hd
    have tl : IndexAtEnd ss := by cases ss with | nil => trivial | cons => exact hi.2
    have gone : ∀ {id : Bytes} {es : List Graph}, Name E id → id ∉ reserved → (firstNamed E id st.ctx.out).isNil = true →
        (∃ st', walkPath (evalStep E (F + 3) p) (leaf id :: es) st g = .ok (.next st', g) ∧ st'.ctx = .nil ∧ st'.addRoot = false) ∨
          walkPath (evalStep E (F + 3) p) (leaf id :: es) st g = .ok (.done (.nil, none), g) := by
      intro id es hid hre hc
      rcases evalStep_missing (f := F) (p := p) (g := g) hid hre hd hc with ⟨s', h1, h2, h3⟩ | h1
      · exact .inl ⟨s', (walkPath_cons hnil h1).trans (walkPath_nil h2), h2, h3⟩
      · exact .inr (walkPath_done hnil h1)
    cases s with
    | name id =>
      cases hc : (firstNamed E id st.ctx.out).isNil with
      | true => exact gone hs hr hc
      | false =>
        cases hx : st.ctx with
        | nil => rw [hx] at hnil; cases hnil
        | node t o =>
          rw [hx] at h
          simp only [follow] at h
          rw [← hx] at h
          have h1 := evalStep_name (p := p) (g := g) (f := F + 1) hs hr hd.1 hc
          have ih := walk_lost (F := F) (p := p) hg ss ⟨firstNamed E id st.ctx.out, st.ctx, id, false⟩ tl hok' hnr' hfu' (firstNamed_data hd hc) h
          have e := walkPath_cons (es := (ss.flatMap PStep.elems).map Elem.tree) hnil h1
          rw [← e] at ih
          exact ih
    | all id =>
      cases hc : (firstNamed E id st.ctx.out).isNil with
      | true => exact gone hs hr hc
      | false =>
        cases hx : st.ctx with
        | nil => rw [hx] at hnil; cases hnil
        | node t o =>
          rw [hx] at h
          simp only [follow] at h
          rw [← hx] at h
          simp only [hc, Bool.false_eq_true, ↓reduceIte] at h
          have h1 := evalStep_name (p := p) (g := g) (f := F + 1) hs hr hd.1 hc
          have h1' := evalStep_select (E := E) (p := p) (g := g) (F := F + 3) (x := .all) (k := none) (s := id)
            (st := { ctx := firstNamed E id st.ctx.out, prev := st.ctx, elem := id }) (.inl ⟨rfl, rfl⟩) (by omega) hg hd.1 rfl (name_ne_nil hs)
          have ih := walk_lost (F := F) (p := p) hg ss ⟨.node (.str b!"{") (selected E id none st.ctx.out), firstNamed E id st.ctx.out, id, false⟩ tl hok' hnr' hfu'
            (data_selected hd id none) h
          have e := (walkPath_cons (es := Elem.tree .all :: (ss.flatMap PStep.elems).map Elem.tree) hnil h1).trans (walkPath_cons hc h1')
          rw [← e] at ih
          exact ih
    | nth id x k =>
      cases hc : (firstNamed E id st.ctx.out).isNil with
      | true => exact gone hs.1 hr hc
      | false =>
        cases hx : st.ctx with
        | nil => rw [hx] at hnil; cases hnil
        | node t o =>
          rw [hx] at h
          simp only [follow] at h
          rw [← hx] at h
          simp only [hc, Bool.false_eq_true, ↓reduceIte] at h
          have h1 := evalStep_name (p := p) (g := g) (f := F + 1) hs.1 hr hd.1 hc
          have h1' := evalStep_select (E := E) (p := p) (g := g) (F := F + 3) (x := .select (.one x)) (k := some k) (s := id)
            (st := { ctx := firstNamed E id st.ctx.out, prev := st.ctx, elem := id }) (.inr ⟨x, k, rfl, rfl, hs.2, hf⟩) (by omega) hg hd.1 rfl
            (name_ne_nil hs.1)
          have ih := walk_lost (F := F) (p := p) hg ss ⟨.node (.str b!"{") (selected E id (some k) st.ctx.out), firstNamed E id st.ctx.out, id, false⟩ tl hok' hnr' hfu'
            (data_selected hd id (some k)) h
          have e := (walkPath_cons (es := Elem.tree (.select (.one x)) :: (ss.flatMap PStep.elems).map Elem.tree) hnil h1).trans (walkPath_cons hc h1')
          rw [← e] at ih
          exact ih
    | index x i =>
      cases ss with
      | cons s' ss => exact absurd hi.1 (by simp [PStep.isIndex])
      | nil =>
        cases hx : st.ctx with
        | nil => rw [hx] at hnil; cases hnil
        | node t o =>
          rw [hx] at h
          simp only [follow, Graph.out] at h
          cases hx : o[i]? with
          | none => rw [hx] at h; cases h
          | some y => rw [hx] at h; cases h

/-- C108: `Get` of a path and the value of the path as an expression agree: if `Get` returns
a node, the expression has its value (the node, or the content of its only subnode if that is
a leaf); if `Get` returns nil, the expression has no value (nil, or a nil graph).

What is missing: an index that is followed by other elements (`C108_refuted`) or out of range
(`C71_missing`), the words with a meaning of their own in expressions, functions, nil
subnodes, texts that do not fit the buffer. -/
theorem C108_partial (E : Ext) (ss : List PStep) (g m : Graph) (hf : StartsWithName ss) (hs : ∀ s ∈ ss, s.Ok E g) (hr : ∀ s ∈ ss, s.NotReserved)
    (hi : IndexAtEnd ss) (hl : Fits (stepsText ss)) (hd : Data E g) (h : follow E ss g = some m) :
    g.get E (stepsText ss) = .ok (m, g) ∧ ∃ e v, newExpression E (stepsText ss) = .ok e ∧ g.eval E e = .ok ((v, none), g) ∧
      (m ≠ .nil → v = valueOf m) ∧ (m = .nil → v = .nil ∨ v = .graph .nil) := by
  have hne : ss ≠ [] := by intro h; subst h; exact hf
  refine ⟨C71_partial E ss g m hne hs hl hd h, ?_⟩
  by_cases hm : m = .nil
  · subst hm
    have he := newExpression_steps (E := E) (ws := []) hf hs (by simp) (by simpa using hl)
    simp only [List.flatMap_nil, List.append_nil, List.map_nil] at he
    obtain ⟨F, hF⟩ : ∃ j, evalFuel (stepsPath ss) = j + 3 := ⟨evalFuel (stepsPath ss) - 3, by simp [evalFuel]⟩
    have hw := walk_lost (E := E) (F := F) (p := stepsPath ss) hd.1 ss { ctx := g } hi hs hr (fun s hx => (steps_fuel s hx).mono (by omega)) hd h
    have key : ∃ v, Evals E (stepsPath ss) g v g ∧ (v = .nil ∨ v = .graph .nil) := by
      rcases hw with ⟨st, h1, h2, h3⟩ | h1
      · refine ⟨.graph .nil, ?_, .inr rfl⟩
        have key := evals_stepsNode (E := E) (ss := ss) (g := g) (es := []) (v := .graph .nil) (F := F + 3) hne hd.1
          (.inr ⟨st, by rw [List.append_nil]; exact h1, by rw [h3, h2]; rfl⟩)
        rw [List.append_nil] at key
        exact key
      · refine ⟨.nil, ?_, .inl rfl⟩
        have key := evals_stepsNode (E := E) (ss := ss) (g := g) (es := []) (v := .nil) (F := F + 3) hne hd.1
          (.inl (by rw [List.append_nil]; exact h1))
        rw [List.append_nil] at key
        exact key
    obtain ⟨v, h1, h2⟩ := key
    exact ⟨_, v, he, eval_expression h1, fun h => absurd rfl h, fun _ => h2⟩
  · obtain ⟨n, h1, h2⟩ := follow_reach hi hd h hm
    obtain ⟨e, h3, h4⟩ := C72_partial E ss g n hf hs hr hl hd.1 h1
    refine ⟨e, _, h3, h4, fun _ => ?_, fun h => absurd h hm⟩
    rw [h2, pathValue]
    cases endsWithIndex ss <;> rfl

/-- C108 fails if something follows an index: `Get` then looks at the node `[` above the one
found, the expression at the node found.  In `_ (a (x (b (1))))` the path `a[0].b` gives nil with
`Get` and 1 in an expression, and `a[0].x` gives the node `x` with `Get` and nothing in an
expression. -/
theorem C108_refuted (E : Ext) : let g := Graph.node (.str b!"_") [.node (.str b!"a") [.node (.str b!"x") [.node (.str b!"b") [leaf b!"1"]]]]
    (g.get E b!"a[0].b" = .ok (.nil, g) ∧ ∃ e, newExpression E b!"a[0].b" = .ok e ∧ g.eval E e = .ok ((.str b!"1", none), g)) ∧
    (g.get E b!"a[0].x" = .ok (.node (.str b!"x") [.node (.str b!"b") [leaf b!"1"]], g) ∧ ∃ e, newExpression E b!"a[0].x" = .ok e ∧ g.eval E e = .ok ((.nil, none), g)) := by
  intro g
  have ok : ∀ c : UInt8, AsciiLetter c → ∀ s ∈ [PStep.name b!"a", litIndex 0, .name [c]], s.Ok E g := by
    intro c hc s hs
    simp only [List.mem_cons, List.not_mem_nil, or_false] at hs
    rcases hs with rfl | rfl | rfl
    · exact nameA E 97 (by unfold AsciiLetter; decide)
    · exact lit_ok (by decide)
    · exact nameA E c hc
  have hb := ok 98 (by unfold AsciiLetter; decide)
  have hx := ok 120 (by unfold AsciiLetter; decide)
  have st : StartsWithName [PStep.name b!"a", litIndex 0, .name b!"b"] := ⟨97, [], rfl, by unfold AsciiLetter; decide⟩
  have st' : StartsWithName [PStep.name b!"a", litIndex 0, .name b!"x"] := ⟨97, [], rfl, by unfold AsciiLetter; decide⟩
  have p1 := newPath_steps (by simp) hb (.short (by decide))
  have p2 := newPath_steps (by simp) hx (.short (by decide))
  have e1 := newExpression_steps (ws := []) st hb (by simp) (.short (by decide))
  have e2 := newExpression_steps (ws := []) st' hx (by simp) (.short (by decide))
  refine ⟨⟨?_, _, e1, by kernel_rfl⟩, ?_, _, e2, by kernel_rfl⟩
  · rw [show b!"a[0].b" = stepsText [PStep.name b!"a", litIndex 0, .name b!"b"] by decide]
    simp only [g, Graph.get, p1, Res.ok_bind]
    kernel_rfl
  · rw [show b!"a[0].x" = stepsText [PStep.name b!"a", litIndex 0, .name b!"x"] by decide]
    simp only [g, Graph.get, p2, Res.ok_bind]
    kernel_rfl

/-- The hypotheses are met: the first subnode of the second `a`. -/
example (E : Ext) : threeA.get E b!"a{i}[0]" = .ok (.node (.str b!"[") [leaf b!"y"], threeA) ∧
    ∃ e, newExpression E b!"a{i}[0]" = .ok e ∧ threeA.eval E e = .ok ((.str b!"y", none), threeA) := by
  obtain ⟨h1, e, v, h2, h3, h4, _⟩ := C108_partial E [.nth b!"a" (.path b!"i" .nil) 1, litIndex 0] threeA (.node (.str b!"[") [leaf b!"y"]) ⟨97, [], rfl, by unfold AsciiLetter; decide⟩
    (by intro s hs; rcases List.mem_cons.1 hs with rfl | hs; exact ⟨(threeA_names E).1, threeA_i E⟩; rw [List.mem_singleton.1 hs]; exact lit_ok (by decide))
    (by intro s hs; rcases List.mem_cons.1 hs with rfl | hs; simp [PStep.NotReserved, reserved]; rw [List.mem_singleton.1 hs]; exact trivial)
    ⟨rfl, trivial⟩ (.short (by decide)) (threeA_data E) (by simp [follow, firstNamed, selected, allNamed, threeA, Graph.thisString, vstr, leaf, Graph.isNil, litIndex])
  rw [h4 nofun] at h3
  exact ⟨h1, e, h2, h3⟩

/-- And a path that leads nowhere: `c{}.d`. -/
example (E : Ext) : threeA.get E b!"c{}.d" = .ok (.nil, threeA) ∧
    ∃ e v, newExpression E b!"c{}.d" = .ok e ∧ threeA.eval E e = .ok ((v, none), threeA) ∧ (v = .nil ∨ v = .graph .nil) := by
  have hc : Name E b!"c" := nameA E 99 (by unfold AsciiLetter; decide)
  have hd : Name E b!"d" := nameA E 100 (by unfold AsciiLetter; decide)
  obtain ⟨h1, e, v, h2, h3, _, h4⟩ := C108_partial E [.all b!"c", .name b!"d"] threeA .nil ⟨99, [], rfl, by unfold AsciiLetter; decide⟩
    (by intro s hs; rcases List.mem_cons.1 hs with rfl | hs; exact hc; rw [List.mem_singleton.1 hs]; exact hd)
    (by intro s hs; rcases List.mem_cons.1 hs with rfl | hs; simp [PStep.NotReserved, reserved]; rw [List.mem_singleton.1 hs]; simp [PStep.NotReserved, reserved])
    ⟨rfl, trivial⟩ (.short (by decide)) (threeA_data E) (by simp [follow, firstNamed, selected, allNamed, threeA, Graph.thisString, vstr, leaf, Graph.isNil])
  exact ⟨h1, e, v, h2, h3, h4 rfl⟩

end Ogdl
