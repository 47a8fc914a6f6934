import Verif.Lemmas.AssignIndex
import Verif.Props.Index

/-!
# Property C37: assignments to a place of a node, `a.b[3] = t`
-/

namespace Ogdl
open Spec

/-- What an assignment to `p[i]` may do: the place reads as the value `v`, the other places
that were there read as before, and so do the paths that are neither a prefix nor an
extension of `p`. -/
def AssignedAt (E : Ext) (g g' : Graph) (p : List Bytes) (i : Nat) (v : Val) : Prop :=
  g'.get E (indexed p i) = .ok (.node (.str b!"[") [.node v []], g') ∧
  (∀ j, j ≠ i → j < (lookup E p g).out.length → j < 2 ^ 63 - 1 → Fits (indexed p j) →
    ∃ n, g.get E (indexed p j) = .ok (n, g) ∧ g'.get E (indexed p j) = .ok (n, g')) ∧
  ∀ q, Path E q → Fits (dotted q) → ¬ p <+: q → ¬ q <+: p →
    ∃ n, g.get E (dotted q) = .ok (n, g) ∧ g'.get E (dotted q) = .ok (n, g')

theorem assignedAt_change {E : Ext} {g : Graph} {p : List Bytes} {i : Nat} {v : Val} (hp : ∀ id ∈ p, Name E id) (hi : i < 2 ^ 63 - 1)
    (hl : Fits (indexed p i)) (hd : Data E g) (hv : Inert E v) (h : i ≤ (lookup E p g).out.length) :
    AssignedAt E g (changeAt E (putIndex v i) p g) p i v := by
  cases g with
  | nil => exact absurd hd.1 (by simp [NoNil])
  | node t o =>
    have hf : ∀ t o, (putIndex v i (.node t o)).this = t ∧ (putIndex v i (.node t o)).isNil = false := fun _ _ => ⟨rfl, rfl⟩
    have hdl := data_lookup_out p _ hd
    have hd' : Data E (changeAt E (putIndex v i) p (.node t o)) :=
      changeAt_data p t o (fun id _ => trivial) hd fun t' ht' => putIndex_data hv h ⟨hdl.1, ht', hdl.2⟩
    have key : ∀ j x, j < 2 ^ 63 - 1 → Fits (indexed p j) → (∀ t', (putIndex v i (.node t' (lookup E p (.node t o)).out)).out[j]? = some x) →
        (changeAt E (putIndex v i) p (.node t o)).get E (indexed p j) =
          .ok (.node (.str b!"[") [x], changeAt E (putIndex v i) p (.node t o)) := by
      intro j x hj hlj hx
      have hg := get_steps (E := E) (ss := p.map PStep.name ++ [litIndex j]) (n := .node (.str b!"[") [x]) (by simp)
        (names_lit_ok (g := changeAt E (putIndex v i) p (.node t o)) hp hj) (by rw [stepsText_indexed]; exact hlj) hd' (by
          obtain ⟨t', ht'⟩ := follow_changeAt (E := E) hf [litIndex j] p t o hd.1
          rw [ht']
          simp only [litIndex]
          rw [show follow E [PStep.index (.num (itoa j)) j] (putIndex v i (.node t' (lookup E p (.node t o)).out)) =
            (match (putIndex v i (.node t' (lookup E p (.node t o)).out)).out[j]? with
              | some x => follow E [] (.node (.str b!"[") [x])
              | none => none) from rfl, hx t']
          rfl)
      rwa [stepsText_indexed] at hg
    refine ⟨key i _ hi hl fun t' => putIndex_get h, ?_, ?_⟩
    · intro j hne hlt hj hlj
      obtain ⟨x, hx, hfx⟩ := follow_names_index (E := E) p (.node t o) j hlt
      have hg := get_steps (E := E) (by simp) (names_lit_ok (g := .node t o) hp hj) (by rw [stepsText_indexed]; exact hlj) hd hfx
      rw [stepsText_indexed] at hg
      exact ⟨_, hg, key j x hj hlj fun t' => by rw [putIndex_other h hlt hne]; exact hx⟩
    · intro q hq hlq h3 h4
      refine ⟨lookup E q (.node t o), get_names hq hlq (.inr hd), ?_⟩
      rw [get_names hq hlq (.inr hd'), lookup_changeAt_other hf p q _ hd.1 h3 h4]

/-- `p[i] = t` for a path `p` of names, a place `i` of its node or the place just after the
last, and an expression `t` with a value `v`: afterwards `p[i]` reads as `v`, and the other
places and unrelated paths as before.  Missing: places beyond the end (`C73_refuted`),
indexes that are paths (`C73_path_refuted`) and indexes inside the path
(`C73_middle_refuted`), which `Set` gets wrong. -/
theorem C37_index_partial (E : Ext) (g : Graph) (id : Bytes) (ids : List Bytes) (i : Nat) (t : Grouping) (v : Val)
    (hp : ∀ x ∈ id :: ids, Name E x) (hc : ∃ c r, id = c :: r ∧ AsciiLetter c) (hi : i < 2 ^ 63 - 1)
    (hlen : i ≤ (lookup E (id :: ids) g).out.length) (ht : t.Ok E) (h1 : t.AtLeast 1) (hm : Means E g t v) (hg : Data E g)
    (hl : Fits (indexed (id :: ids) i ++ b!" = " ++ t.text)) (hlp : Fits (indexed (id :: ids) i)) :
    ∃ e r g', newExpression E (indexed (id :: ids) i ++ b!" = " ++ t.text) = .ok e ∧ g.eval E e = .ok ((r, none), g') ∧
      AssignedAt E g g' (id :: ids) i v := by
  have hx : indexed (id :: ids) i ++ b!" = " ++ t.text = indexed (id :: ids) i ++ 32 :: b!"=" ++ 32 :: t.text := by simp
  rw [hx] at hl ⊢
  have hnew := newExpression_assign_index (s := b!"=") (by simp [assignments]) hp hc hi ht h1 hm hl
  obtain ⟨r, hr⟩ := evals_assign_index (E := E) hp hi (means_evals hg.1 hm ht) hg.1
  exact ⟨_, _, _, hnew, eval_expression hr, assignedAt_change hp hi hlp hg (means_inert hg hm) hlen⟩

/-- `p[i] += t`, and `-=`, `*=`, `/=`, `%=`, for a place `i` of the node at `p` that holds a
value on which the operator has a result: afterwards `p[i]` reads as the sum
(difference, …), and the other places and unrelated paths as before. -/
theorem C37_index_update_partial (E : Ext) (g : Graph) (id : Bytes) (ids : List Bytes) (i : Nat) (t : Grouping) (o : Bytes) (v w u : Val)
    (k : List Graph) (hp : ∀ x ∈ id :: ids, Name E x) (hc : ∃ c r, id = c :: r ∧ AsciiLetter c) (hi : i < 2 ^ 63 - 1)
    (hw : (lookup E (id :: ids) g).out[i]? = some (.node w k)) (ht : t.Ok E) (h1 : t.AtLeast 1) (hm : Means E g t v) (hg : Data E g)
    (ho : o ∈ [b!"+", b!"-", b!"*", b!"/", b!"%"]) (hu : Result E o w v u)
    (hl : Fits (indexed (id :: ids) i ++ 32 :: (o ++ b!"=") ++ 32 :: t.text)) (hlp : Fits (indexed (id :: ids) i)) :
    ∃ e r g', newExpression E (indexed (id :: ids) i ++ 32 :: (o ++ b!"=") ++ 32 :: t.text) = .ok e ∧ g.eval E e = .ok ((r, none), g') ∧
      AssignedAt E g g' (id :: ids) i u := by
  obtain ⟨o', hb1, hb2, hop⟩ := arith_op ho
  have hlt : i < (lookup E (id :: ids) g).out.length := (List.getElem?_eq_some_iff.1 hw).1
  obtain ⟨x, hx, hfx⟩ := follow_names_index (E := E) (id :: ids) g i hlt
  rw [hw] at hx
  cases hx
  have hcalc : calc' E w v o' = .ok u := by
    obtain ⟨_, _, h⟩ := result_apply hu
    simpa only [applyOp, hb1] using h
  have hnew := newExpression_assign_index (s := o ++ b!"=") (binOp_assign hb2) hp hc hi ht h1 hm hl
  obtain ⟨r, hr⟩ := evals_assign_op_index (E := E) hp hi hop hb2 (means_evals hg.1 hm ht) hg hfx hcalc
  exact ⟨_, _, _, hnew, eval_expression hr, assignedAt_change hp hi hlp hg (result_plain hu).1 (by omega)⟩

/-! ## The hypotheses are met -/

theorem abGraph_data (E : Ext) : Data E abGraph := by
  refine ⟨by simp [abGraph, NoNil, NoNilL, leaf], ?_⟩
  simp [abGraph, AllThis, AllThisL, leaf, Inert]

theorem seven_ok (E : Ext) : (Grouping.atom (.num (itoa (7 : Int64).toInt))).Ok E := itoa_num _

/-- A place that does not exist: `a` has three subnodes, and `a[3] -= 7` does not create the
fourth with -7 (as `C97_partial` says of names) but with the text `7`.  Reading `a[3]` gives
a node with a nil pointer (`C71_missing`), not nil, so the update takes it for an existing
value. -/
theorem C97_index_refuted (E : Ext) : ∃ e r, newExpression E b!"a[3] -= 7" = .ok e ∧
    abGraph.eval E e = .ok ((r, none),
      .node (.str b!"_") [.node (.str b!"a") [leaf b!"x", leaf b!"y", leaf b!"z", leaf b!"7"], .node (.str b!"b") [.node (.int .int 2) []]]) := by
  have hnew := newExpression_assign_index (E := E) (g := abGraph) (id := b!"a") (ids := []) (i := 3) (s := b!"-=") (by simp [assignments])
    (by simpa using (threeA_names E).1) ⟨97, [], rfl, by unfold AsciiLetter; decide⟩ (by decide) (seven_ok E) trivial (.int 7) (.short (by decide))
  exact ⟨_, _, hnew, rfl⟩

/-- `a[1] = 7` -/
example (E : Ext) : ∃ e r g', newExpression E b!"a[1] = 7" = .ok e ∧ abGraph.eval E e = .ok ((r, none), g') ∧
    AssignedAt E abGraph g' [b!"a"] 1 (.int .int64 7) :=
  C37_index_partial E abGraph b!"a" [] 1 (.atom (.num (itoa (7 : Int64).toInt))) _ (by simpa using (threeA_names E).1)
    ⟨97, [], rfl, by unfold AsciiLetter; decide⟩ (by decide) (by simp [abGraph, lookup, firstNamed, Graph.thisString, vstr, Graph.out])
    (seven_ok E) trivial (.int 7) (abGraph_data E) (.short (by decide)) (.short (by decide))

/-- `b[0] += 7` -/
example (E : Ext) : ∃ e r g', newExpression E b!"b[0] += 7" = .ok e ∧ abGraph.eval E e = .ok ((r, none), g') ∧
    AssignedAt E abGraph g' [b!"b"] 0 (.int .int64 9) :=
  C37_index_update_partial E abGraph b!"b" [] 0 (.atom (.num (itoa (7 : Int64).toInt))) b!"+" _ (.int .int 2) _ []
    (by simpa using nameA E 98 (by unfold AsciiLetter; decide))
    ⟨98, [], rfl, by unfold AsciiLetter; decide⟩ (by decide) (by simp [abGraph, lookup, firstNamed, Graph.thisString, vstr, Graph.out])
    (seven_ok E) trivial (.int 7) (abGraph_data E) (by simp)
    (.arith (a := 2) (b := 7) (c := 9) rfl rfl (by decide)) (.short (by decide)) (.short (by decide))

end Ogdl
