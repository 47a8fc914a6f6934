import Verif.Lemmas.Calc

/-! Assignments. -/

namespace Ogdl
open Spec

section
variable {E : Ext}

theorem arith_op {o : Bytes} (h : o ∈ [b!"+", b!"-", b!"*", b!"/", b!"%"]) :
    ∃ o', binOp o = some (.arith o') ∧ binOp (o ++ b!"=") = some (.assign (some o')) ∧ Op (o ++ b!"=") := by
  simp only [List.mem_cons, List.not_mem_nil, or_false] at h
  rcases h with rfl | rfl | rfl | rfl | rfl
  · exact ⟨.add, by decide, by decide, by simp [Op]⟩
  · exact ⟨.sub, by decide, by decide, by simp [Op]⟩
  · exact ⟨.mul, by decide, by decide, by simp [Op]⟩
  · exact ⟨.div, by decide, by decide, by simp [Op]⟩
  · exact ⟨.mod, by decide, by decide, by simp [Op]⟩

/-- Results are neither nil nor graphs, and `Get` leaves them alone. -/
theorem result_plain {o : Bytes} {v w u : Val} (h : Result E o v w u) : Inert E u ∧ u ≠ .nil ∧ ∀ g, u ≠ .graph g := by
  cases h with
  | float h1 h2 h3 h4 =>
    obtain ⟨o, ho, hc⟩ := floatArith_op h4
    cases o <;> simp only [calcFloat] at hc
    case mod => split at hc <;> cases hc; exact ⟨trivial, by simp, by simp⟩
    all_goals cases hc; exact ⟨trivial, by simp, by simp⟩
  | _ => exact ⟨trivial, by simp [ofInt64], by simp [ofInt64]⟩

theorem put_names (v : Val) {ids : List Bytes} {g : Graph} (hn : ∀ id ∈ ids, Name E id) (hg : NoNil g) :
    ∃ r, assign.put E (pathOf ids) v g = .ok (.graph r, store E v ids g) := by
  obtain ⟨r, hr⟩ := setPath_names (E := E) v ids g hn hg
  refine ⟨r, ?_⟩
  simp only [assign.put, bind, EvalM.modify, pathOf, Graph.out_node, hr, pure]

/-- `x = e` -/
theorem evals_assign {ids : List Bytes} {n g g1 : Graph} {v : Val} (hn : ∀ id ∈ ids, Name E id) (hv : Evals E n g v g1) (hg : NoNil g1) :
    ∃ r, Evals E (.node (.str b!"=") [pathOf ids, n]) g (.graph r) (store E v ids g1) := by
  obtain ⟨r, hr⟩ := put_names (E := E) v hn hg
  refine ⟨r, Evals.of (f := evalFuel n + 3) ?_⟩
  rw [evalExpr_op (by simp [Op]), evalBinary]
  have h1 := hv.enough (k := evalFuel n + 1) (by omega)
  have h2 : (Graph.node (.str b!"=") [pathOf ids, n]).thisString E = b!"=" := by simp [Graph.thisString, vstr]
  simp only [Graph.out_node, bind, h1, h2, show binOp b!"=" = some (.assign none) from by decide, assign, hr, pure]

/-- `x += e` and the like on a path that exists. -/
theorem evals_assign_op {ids : List Bytes} {n g g1 : Graph} {v w u : Val} {s : Bytes} {op : ArithOp} (hp : Path E ids)
    (hs : Op s) (hb : binOp s = some (.assign (some op)))
    (hv : Evals E n g v g1) (hg : Data E g1) {t : Val} {k o : List Graph} (hl : lookup E ids g1 = .node t (.node w k :: o))
    (hc : calc' E w v op = .ok u) :
    ∃ r, Evals E (.node (.str s) [pathOf ids, n]) g (.graph r) (store E u ids g1) := by
  obtain ⟨r, hr⟩ := put_names (E := E) u hp.2 hg.1
  refine ⟨r, Evals.of (f := evalFuel n + 8) ?_⟩
  have hnil : g1.isNil = false := by
    cases g1 with
    | nil => exact absurd hg.1 (by simp [NoNil])
    | node t o => rfl
  have hget : ∃ err, getPath E (evalFuel n + 5) (pathOf ids) g1 = .ok ((.node t (.node w k :: o), err), g1) := by
    rcases getPath_names (E := E) (f := evalFuel n + 1) hp hg.2 hnil with ⟨h1, _⟩ | ⟨m, err, h1, h2⟩
    · rw [lookupR_noNil ids g1 (.inr hg.1)] at h1; cases h1
    · rw [lookupR_noNil ids g1 (.inr hg.1), hl] at h1
      cases h1
      exact ⟨err, h2⟩
  obtain ⟨err, hget⟩ := hget
  rw [evalExpr_op hs, evalBinary]
  have h1 := hv.enough (k := evalFuel n + 6) (by omega)
  have h2 : (Graph.node (.str s) [pathOf ids, n]).thisString E = s := by simp [Graph.thisString, vstr]
  simp only [Graph.out_node, bind, h1, h2, hb, assign, hget, firstThis, EvalM.lift, hc, hr, pure]

theorem getPath_lookup {ids : List Bytes} {g : Graph} (hp : Path E ids) (hg : Data E g) (f : Nat) :
    ∃ err, getPath E (f + 4) (pathOf ids) g = .ok ((lookup E ids g, err), g) := by
  have hnil : g.isNil = false := by
    cases g with
    | nil => exact absurd hg.1 (by simp [NoNil])
    | node t o => rfl
  rcases getPath_names (E := E) (f := f) hp hg.2 hnil with ⟨h1, _⟩ | ⟨m, err, h1, h2⟩
  · rw [lookupR_noNil ids g (.inr hg.1)] at h1; cases h1
  · rw [lookupR_noNil ids g (.inr hg.1)] at h1
    cases h1
    exact ⟨err, h2⟩

/-- `x += e` for an `x` that does not exist -/
theorem evals_assign_new {ids : List Bytes} {n g g1 : Graph} {s o : Bytes} {op : ArithOp} {v u : Val} (hp : Path E ids) (hs : Op s)
    (ho : binOp o = some (.arith op)) (hb : binOp s = some (.assign (some op)))
    (hv : Evals E n g v g1) (hg : Data E g1) (hl : lookup E ids g1 = .nil) (hc : Created E o v u) :
    ∃ r, Evals E (.node (.str s) [pathOf ids, n]) g (.graph r) (store E u ids g1) := by
  obtain ⟨r, hr⟩ := put_names (E := E) u hp.2 hg.1
  refine ⟨r, Evals.of (f := evalFuel n + 8) ?_⟩
  obtain ⟨err, hget⟩ := getPath_lookup hp hg (evalFuel n + 1)
  rw [hl] at hget
  rw [evalExpr_op hs, evalBinary]
  have h1 := hv.enough (k := evalFuel n + 6) (by omega)
  have h2 : (Graph.node (.str s) [pathOf ids, n]).thisString E = s := by simp [Graph.thisString, vstr]
  simp only [Graph.out_node, bind, h1, h2, hb, assign, hget, pure]
  cases hc with
  | add v => simp only [show binOp b!"+" = some (.arith .add) from by decide, Option.some.injEq, BinOp.arith.injEq] at ho; subst ho; simp only [hr]
  | mul v => simp only [show binOp b!"*" = some (.arith .mul) from by decide, Option.some.injEq, BinOp.arith.injEq] at ho; subst ho; simp only [hr]
  | div v => simp only [show binOp b!"/" = some (.arith .div) from by decide, Option.some.injEq, BinOp.arith.injEq] at ho; subst ho; simp only [hr]
  | mod v => simp only [show binOp b!"%" = some (.arith .mod) from by decide, Option.some.injEq, BinOp.arith.injEq] at ho; subst ho; simp only [hr]
  | sub h =>
    obtain ⟨_, _, h⟩ := result_apply h
    simp only [applyOp, show binOp b!"-" = some (.arith .sub) from by decide] at h
    simp only [show binOp b!"-" = some (.arith .sub) from by decide, Option.some.injEq, BinOp.arith.injEq] at ho
    subst ho
    simp only [EvalM.lift, h, hr]

/-- `x += e` for an `x` without a value -/
theorem eval_assign_empty {ids : List Bytes} {n g g1 : Graph} {s : Bytes} {op : ArithOp} {v t : Val} (hp : Path E ids) (hs : Op s)
    (hb : binOp s = some (.assign (some op))) (hv : Evals E n g v g1) (hg : Data E g1) (hl : lookup E ids g1 = .node t []) :
    evalExpr E (evalFuel n + 8) (.node (.str s) [pathOf ids, n]) true g = .panic := by
  obtain ⟨err, hget⟩ := getPath_lookup hp hg (evalFuel n + 1)
  rw [hl] at hget
  rw [evalExpr_op hs, evalBinary]
  have h1 := hv.enough (k := evalFuel n + 6) (by omega)
  have h2 : (Graph.node (.str s) [pathOf ids, n]).thisString E = s := by simp [Graph.thisString, vstr]
  simp only [Graph.out_node, bind, h1, h2, hb, assign, hget, firstThis, EvalM.lift]

theorem allThisL_mem {P : Val → Prop} {x : Graph} {o : List Graph} (hx : x ∈ o) (h : AllThisL P o) : AllThis P x := allThis_mem hx h

theorem means_inert {g : Graph} (hg : Data E g) {t : Grouping} {v : Val} (h : Means E g t v) : Inert E v := by
  cases h with
  | int i => trivial
  | float s f hd hp => trivial
  | str s => trivial
  | path id ids t v hr hl =>
    rcases lookup_data (E := E) (id :: ids) hg with h | h
    · rw [hl] at h; cases h
    · rw [hl] at h; exact h.2.2.1.1
  | bin op l r v w u hl hr hu =>
    exact (result_plain hu).1

theorem subnodes_one {v : Val} (h1 : v ≠ .nil) (h2 : ∀ h, v ≠ .graph h) : subnodesOf v = [.node v []] := by
  cases v with
  | nil => exact absurd rfl h1
  | graph h => exact absurd rfl (h2 h)
  | _ => rfl

theorem store_data {v : Val} {ids : List Bytes} {g : Graph} (hg : Data E g) (hi : Inert E v) (h1 : v ≠ .nil) (h2 : ∀ h, v ≠ .graph h) :
    Data E (store E v ids g) := by
  have hs := subnodes_one h1 h2
  refine ⟨store_noNil (by rw [hs]; exact ⟨trivial, trivial⟩) ids g hg.1, ?_⟩
  exact store_allThis (fun _ => trivial) trivial (by rw [hs]; exact ⟨⟨hi, trivial⟩, trivial⟩) ids g hg.2

theorem names_text (id : Bytes) : ∀ ids : List Bytes, id ++ (names ids).text = dotted (id :: ids)
  | [] => by simp [names, Elems.text, dotted]
  | x :: xs => by
    have h := names_text x xs
    simp only [names, Elems.text, Elem.text, Bool.false_eq_true, ↓reduceIte, dotted] at h ⊢
    rw [show [46].intercalate (id :: x :: xs) = id ++ 46 :: [46].intercalate (x :: xs) from by simp [List.intercalate], ← h]
    simp

theorem names_ok' : ∀ {ids : List Bytes}, (∀ id ∈ ids, Name E id) → (names ids).Ok E
  | [], _ => trivial
  | x :: xs, h => ⟨h x (by simp), names_ok' fun i hi => h i (by simp [hi])⟩

theorem assignments_level {s : Bytes} (h : s ∈ assignments) : level s = 0 ∧ Op s := by
  simp only [assignments, List.mem_cons, List.not_mem_nil, or_false] at h
  rcases h with rfl | rfl | rfl | rfl | rfl | rfl <;> exact ⟨by decide, by simp [Op]⟩

/-- The tree of the text of an assignment. -/
theorem newExpression_assign {id s : Bytes} {ids : List Bytes} {t : Grouping} {g : Graph} {v : Val} (hs : s ∈ assignments)
    (hid : ∀ x ∈ id :: ids, Name E x) (hc : ∃ c r, id = c :: r ∧ AsciiLetter c) (ht : t.Ok E) (h1 : t.AtLeast 1) (hm : Means E g t v)
    (hl : Fits (dotted (id :: ids) ++ 32 :: s ++ 32 :: t.text)) :
    newExpression E (dotted (id :: ids) ++ 32 :: s ++ 32 :: t.text) = .ok (exprOf (.node (.str s) [pathOf (id :: ids), t.tree])) := by
  obtain ⟨h0, ho⟩ := assignments_level hs
  have hok : (Grouping.bin s (.atom (.path id (names ids))) t).Ok E :=
    ⟨ho, trivial, by rw [h0]; exact h1, ⟨hid id (by simp), hc, names_ok' fun i hi => hid i (by simp [hi])⟩, ht⟩
  have htext : (Grouping.bin s (.atom (.path id (names ids))) t).text = dotted (id :: ids) ++ 32 :: s ++ 32 :: t.text := by
    simp only [Grouping.text, Opnd.text, names_text]
  have hn : (Grouping.bin s (.atom (.path id (names ids))) t).NoArgs := ⟨names_noArgs ids, means_noArgs hm⟩
  have h := newExpression_grouping hok hn (by rw [htext]; exact hl)
  rw [htext] at h
  rw [h]
  simp only [Grouping.tree, Opnd.tree, names_trees, pathOf, exprOf, List.map_cons]

end
end Ogdl
