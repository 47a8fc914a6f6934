import Verif.Lemmas.EvalExpr
import Verif.Lemmas.ScalarText

/-! Operators on values. -/

namespace Ogdl
open Spec

section
variable {E : Ext}

theorem asInt_vint {v : Val} {a : Int64} (h : asInt v = some a) : vint v = some a.toInt := by
  cases v <;> simp only [asInt, reduceCtorEq, Option.some.injEq] at h
  subst h
  simp only [vint, wrap64_ofInt]

theorem asInt_vintf {v : Val} {a : Int64} (h : asInt v = some a) : vintf E v = .ok (some a.toInt) := by
  cases v <;> simp only [asInt, reduceCtorEq, Option.some.injEq] at h
  subst h
  simp only [vintf, vintf.go, vint, wrap64_ofInt]

theorem toInt_eq_zero {b : Int64} : b.toInt = 0 ↔ b = 0 := by
  rw [← Int64.toInt_inj]; simp

theorem calc_int {v w : Val} {a b c : Int64} {op : Bytes} (hv : asInt v = some a) (hw : asInt w = some b) (h : arith op a b = some c) :
    Op op ∧ (∀ o, binOp op ≠ some (.assign o)) ∧ applyOp E op v w = .ok (ofInt64 c) := by
  have hv' := asInt_vint hv
  have hw' := asInt_vint hw
  unfold arith at h
  split at h
  next he => 
    subst he; cases h
    refine ⟨by simp [Op], by simp [binOp], ?_⟩
    simp only [applyOp, show binOp b!"+" = some (.arith .add) from by decide, calc', hv', hw', calcInt, ofInt64, wrap64_bmod, Int64.toInt_add]
  split at h
  next he => 
    subst he; cases h
    refine ⟨by simp [Op], by simp [binOp], ?_⟩
    simp only [applyOp, show binOp b!"-" = some (.arith .sub) from by decide, calc', hv', hw', calcInt, ofInt64, wrap64_bmod, Int64.toInt_sub]
  split at h
  next he => 
    subst he; cases h
    refine ⟨by simp [Op], by simp [binOp], ?_⟩
    simp only [applyOp, show binOp b!"*" = some (.arith .mul) from by decide, calc', hv', hw', calcInt, ofInt64, wrap64_bmod, Int64.toInt_mul]
  split at h
  next he => 
    subst he
    split at h
    · cases h
    next hb =>
      cases h
      refine ⟨by simp [Op], by simp [binOp], ?_⟩
      simp only [applyOp, show binOp b!"/" = some (.arith .div) from by decide, calc', hv', hw', calcInt, ofInt64, wrap64_bmod,
        toInt_eq_zero, hb, ↓reduceIte, Int64.toInt_div]
  split at h
  next he => 
    subst he
    split at h
    · cases h
    next hb =>
      cases h
      refine ⟨by simp [Op], by simp [binOp], ?_⟩
      have : (a.toInt.tmod b.toInt) = (a % b).toInt := by rw [Int64.toInt_mod]
      simp only [applyOp, show binOp b!"%" = some (.arith .mod) from by decide, calc', hv', hw', calcInt, ofInt64, 
        toInt_eq_zero, hb, ↓reduceIte, this, wrap64_toInt]
  · cases h

theorem compare_int {v w : Val} {a b : Int64} {c : Bool} {op : Bytes} (hv : asInt v = some a) (hw : asInt w = some b)
    (h : comparison op a b = some c) :
    Op op ∧ (∀ o, binOp op ≠ some (.assign o)) ∧ applyOp E op v w = .ok (.bool c) := by
  have hv' := asInt_vint hv
  have hw' := asInt_vintf (E := E) hw
  have key : ∀ (o : CmpOp) (d : Bool), binOp op = some (.cmp o) → cmpInt a.toInt b.toInt o = d → applyOp E op v w = .ok (.bool d) := by
    intro o d ho hd
    simp only [applyOp, ho, compare', hv', hw', Res.ok_bind, hd]
  unfold comparison at h
  split at h
  next he =>
    subst he; cases h
    exact ⟨by simp [Op], by simp [binOp], key .eq _ (by decide) (by simp only [cmpInt, ← Int64.toInt_inj]; rw [Bool.eq_iff_iff]; simp)⟩
  split at h
  next he =>
    subst he; cases h
    exact ⟨by simp [Op], by simp [binOp], key .ne _ (by decide) (by simp only [cmpInt, ne_eq, ← Int64.toInt_inj]; rw [Bool.eq_iff_iff]; simp)⟩
  split at h
  next he =>
    subst he; cases h
    exact ⟨by simp [Op], by simp [binOp], key .lt _ (by decide) (by simp only [cmpInt, Int64.lt_iff_toInt_lt])⟩
  split at h
  next he =>
    subst he; cases h
    exact ⟨by simp [Op], by simp [binOp], key .le _ (by decide) (by simp only [cmpInt, Int64.le_iff_toInt_le])⟩
  split at h
  next he =>
    subst he; cases h
    exact ⟨by simp [Op], by simp [binOp], key .gt _ (by decide) (by simp only [cmpInt, Int64.lt_iff_toInt_lt])⟩
  split at h
  next he =>
    subst he; cases h
    exact ⟨by simp [Op], by simp [binOp], key .ge _ (by decide) (by simp only [cmpInt, Int64.le_iff_toInt_le])⟩
  · cases h

theorem truth0_go (v : Val) : vboolf.go v = ((truth0 v).getD false, (truth0 v).isSome) := by
  cases v with
  | str s =>
    simp only [vboolf.go, truth0]
    by_cases h1 : s = b!"false"
    · subst h1; rfl
    · by_cases h2 : s = b!"true"
      · subst h2; rfl
      · simp [h1, h2]
  | bytes s =>
    simp only [vboolf.go, truth0]
    by_cases h1 : s = b!"false"
    · subst h1; rfl
    · by_cases h2 : s = b!"true"
      · subst h2; rfl
      · simp [h1, h2]
  | int k i => cases k <;> rfl
  | _ => rfl

theorem truth_vboolf (v : Val) : vboolf v = ((truth v).getD false, (truth v).isSome) := by
  cases v with
  | graph g => cases g with
    | nil => rfl
    | node t o => exact truth0_go t
  | nil => exact truth0_go .nil
  | str s => exact truth0_go (.str s)
  | bytes s => exact truth0_go (.bytes s)
  | bool b => exact truth0_go (.bool b)
  | int k i => exact truth0_go (.int k i)
  | f64 x => exact truth0_go (.f64 x)
  | f32 x => exact truth0_go (.f32 x)
  | other t => exact truth0_go (.other t)

theorem logic_truth (v w : Val) (conj : Bool) : logic v w conj =
    match truth v, truth w with
    | some a, some b => if conj then a && b else a || b
    | _, _ => false := by
  simp only [logic, truth_vboolf]
  cases truth v with
  | none => rfl
  | some a =>
    cases truth w with
    | none => rfl
    | some b => rfl

theorem logic_bool {v w : Val} {a b c : Bool} {op : Bytes} (hv : truth v = some a) (hw : truth w = some b) (h : logical op a b = some c) :
    Op op ∧ (∀ o, binOp op ≠ some (.assign o)) ∧ applyOp E op v w = .ok (.bool c) := by
  unfold logical at h
  split at h
  next he =>
    subst he; cases h
    refine ⟨by simp [Op], by simp [binOp], ?_⟩
    simp only [applyOp, show binOp b!"&&" = some .and from by decide, logic_truth, hv, hw, ↓reduceIte]
  split at h
  next he =>
    subst he; cases h
    refine ⟨by simp [Op], by simp [binOp], ?_⟩
    simp only [applyOp, show binOp b!"||" = some .or from by decide, logic_truth, hv, hw, Bool.false_eq_true, ↓reduceIte]
  · cases h

theorem asFloat_cases {v : Val} {a : UInt64} (h : asFloat E v = some a) :
    (∃ i, vint v = some i ∧ a = E.ofInt i) ∨ (vint v = none ∧ vfloat E v = some a) := by
  cases v with
  | int k i =>
    simp only [asFloat, Option.some.injEq] at h
    exact .inl ⟨_, by rw [vint, wrap64_ofInt], h.symm⟩
  | f64 x => exact .inr ⟨rfl, h⟩
  | f32 x => exact .inr ⟨rfl, h⟩
  | _ => cases h

theorem numeric_vfloatf {w : Val} {b : UInt64} (h : numeric E w = some b) : vfloatf E w = some b := by
  cases w with
  | int k i =>
    simp only [numeric, asFloat, Option.some.injEq] at h
    simp only [vfloatf, vfloat, vint, wrap64_ofInt, h]
  | str s => simpa only [vfloatf, vfloat, vint, vstr, numeric] using h
  | f64 x => exact h
  | f32 x => exact h
  | _ => cases h

theorem calc_floatOp {v w : Val} {a b : UInt64} (hv : asFloat E v = some a) (hw : numeric E w = some b)
    (hi : asInt v = none ∨ asInt w = none) (o : ArithOp) : calc' E v w o = calcFloat E a b o := by
  have hf := numeric_vfloatf hw
  have hnone : ∀ u : Val, asInt u = none → vint u = none := by
    intro u hu; cases u <;> first | rfl | cases hu
  rcases asFloat_cases hv with ⟨i, h1, rfl⟩ | ⟨h1, h2⟩
  · have hw' : vint w = none := by
      rcases hi with h | h
      · rw [hnone _ h] at h1; cases h1
      · exact hnone _ h
    simp only [calc', h1, hw', hf, Option.getD_some]
  · cases hj : vint w with
    | none => simp only [calc', h1, h2, hj, hf, Option.getD_some]
    | some j =>
      have : vfloat E w = none := by cases w <;> first | rfl | cases hj
      simp only [vfloatf, this, hj, Option.some.injEq] at hf
      simp only [calc', h1, h2, hj, hf]

theorem arith_names {op : Bytes} {o : ArithOp} (h : binOp op = some (.arith o)) : Op op ∧ ∀ p, binOp op ≠ some (.assign p) := by
  refine ⟨?_, fun p hp => by rw [h] at hp; cases hp⟩
  by_cases hO : Op op
  · exact hO
  · simp only [Op, List.mem_cons, List.not_mem_nil, or_false, not_or] at hO
    simp [binOp, hO] at h

theorem cmp_names {op : Bytes} {o : CmpOp} (h : binOp op = some (.cmp o)) : Op op ∧ ∀ p, binOp op ≠ some (.assign p) := by
  refine ⟨?_, fun p hp => by rw [h] at hp; cases hp⟩
  by_cases hO : Op op
  · exact hO
  · simp only [Op, List.mem_cons, List.not_mem_nil, or_false, not_or] at hO
    simp [binOp, hO] at h

theorem floatArith_op {op : Bytes} {a b : UInt64} {u : Val} (h : floatArith E op a b = some u) :
    ∃ o, binOp op = some (.arith o) ∧ calcFloat E a b o = .ok u := by
  unfold floatArith at h
  split at h
  next he => subst he; cases h; exact ⟨.add, by decide, rfl⟩
  split at h
  next he => subst he; cases h; exact ⟨.sub, by decide, rfl⟩
  split at h
  next he => subst he; cases h; exact ⟨.mul, by decide, rfl⟩
  split at h
  next he => subst he; cases h; exact ⟨.div, by decide, rfl⟩
  split at h
  next he =>
    subst he
    split at h
    · cases h
    next hb => cases h; exact ⟨.mod, by decide, by rw [calcFloat, if_neg hb, wrap64_ofInt]⟩
  · cases h

theorem floatComparison_op {op : Bytes} {a b : UInt64} {c : Bool} (h : floatComparison E op a b = some c) :
    ∃ o, binOp op = some (.cmp o) ∧ cmpFloat E a b o = c := by
  unfold floatComparison at h
  split at h
  next he => subst he; cases h; exact ⟨.eq, by decide, rfl⟩
  split at h
  next he => subst he; cases h; exact ⟨.ne, by decide, rfl⟩
  split at h
  next he => subst he; cases h; exact ⟨.lt, by decide, rfl⟩
  split at h
  next he => subst he; cases h; exact ⟨.le, by decide, rfl⟩
  split at h
  next he => subst he; cases h; exact ⟨.gt, by decide, rfl⟩
  split at h
  next he => subst he; cases h; exact ⟨.ge, by decide, rfl⟩
  · cases h

theorem compare_floatOp {v w : Val} {a b : UInt64} (hf : IsFloat v) (hv : asFloat E v = some a) (hw : numeric E w = some b) (o : CmpOp) :
    compare' E v w o = .ok (cmpFloat E a b o) := by
  have hf' := numeric_vfloatf hw
  have h1 : vint v = none := by rcases hf with ⟨x, rfl⟩ | ⟨x, rfl⟩ <;> rfl
  have h2 : vfloat E v = some a := by rcases hf with ⟨x, rfl⟩ | ⟨x, rfl⟩ <;> exact hv
  simp only [compare', h1, h2, hf']

theorem result_apply {op : Bytes} {v w u : Val} (h : Result E op v w u) :
    Op op ∧ (∀ o, binOp op ≠ some (.assign o)) ∧ applyOp E op v w = .ok u := by
  cases h with
  | arith h1 h2 h3 => exact calc_int h1 h2 h3
  | compare h1 h2 h3 => exact compare_int h1 h2 h3
  | logic h1 h2 h3 => exact logic_bool h1 h2 h3
  | float h1 h2 h3 h4 =>
    obtain ⟨o, ho, hc⟩ := floatArith_op h4
    obtain ⟨hO, hn⟩ := arith_names ho
    exact ⟨hO, hn, by simp only [applyOp, ho, calc_floatOp h1 h2 h3, hc]⟩
  | floatCompare h1 h2 h3 h4 =>
    obtain ⟨o, ho, hc⟩ := floatComparison_op h4
    obtain ⟨hO, hn⟩ := cmp_names ho
    exact ⟨hO, hn, by simp only [applyOp, ho, compare_floatOp h1 h2 h3, hc, Res.ok_bind]⟩
  | concat h =>
    subst h
    refine ⟨by simp [Op], by simp [binOp], ?_⟩
    simp only [applyOp, show binOp b!"+" = some (.arith .add) from by decide, calc', vint, vfloat, vstr, ↓reduceIte]
  | same h =>
    subst h
    refine ⟨by simp [Op], by simp [binOp], ?_⟩
    simp only [applyOp, show binOp b!"==" = some (.cmp .eq) from by decide, compare', vint, vfloat, vstr, Res.ok_bind]
    congr 2
    rw [Bool.eq_iff_iff]; simp
  | differ h =>
    subst h
    refine ⟨by simp [Op], by simp [binOp], ?_⟩
    simp only [applyOp, show binOp b!"!=" = some (.cmp .ne) from by decide, compare', vint, vfloat, vstr, Res.ok_bind]
    congr 2
    simp [bne]
    rw [Bool.eq_iff_iff]; simp

theorem op_length {op : Bytes} (h : Op op) : op.length ≤ 2 := by
  simp only [Op, List.mem_cons, List.not_mem_nil, or_false] at h
  rcases h with rfl | rfl | rfl | rfl | rfl | rfl | rfl | rfl | rfl | rfl | rfl | rfl | rfl | rfl | rfl | rfl | rfl | rfl | rfl <;> decide

theorem binOp_assign {s : Bytes} {op : Option ArithOp} (h : binOp s = some (.assign op)) : s ∈ assignments := by
  rw [binOp] at h
  by_cases h0 : s = b!"="
  · subst h0; simp [assignments]
  rw [if_neg h0] at h; clear h0
  by_cases h0 : s = b!"+="
  · subst h0; simp [assignments]
  rw [if_neg h0] at h; clear h0
  by_cases h0 : s = b!"-="
  · subst h0; simp [assignments]
  rw [if_neg h0] at h; clear h0
  by_cases h0 : s = b!"*="
  · subst h0; simp [assignments]
  rw [if_neg h0] at h; clear h0
  by_cases h0 : s = b!"/="
  · subst h0; simp [assignments]
  rw [if_neg h0] at h; clear h0
  by_cases h0 : s = b!"%="
  · subst h0; simp [assignments]
  rw [if_neg h0] at h; clear h0
  by_cases h0 : s = b!"+"
  · rw [if_pos h0] at h; cases h
  rw [if_neg h0] at h; clear h0
  by_cases h0 : s = b!"-"
  · rw [if_pos h0] at h; cases h
  rw [if_neg h0] at h; clear h0
  by_cases h0 : s = b!"*"
  · rw [if_pos h0] at h; cases h
  rw [if_neg h0] at h; clear h0
  by_cases h0 : s = b!"/"
  · rw [if_pos h0] at h; cases h
  rw [if_neg h0] at h; clear h0
  by_cases h0 : s = b!"%"
  · rw [if_pos h0] at h; cases h
  rw [if_neg h0] at h; clear h0
  by_cases h0 : s = b!"=="
  · rw [if_pos h0] at h; cases h
  rw [if_neg h0] at h; clear h0
  by_cases h0 : s = b!">="
  · rw [if_pos h0] at h; cases h
  rw [if_neg h0] at h; clear h0
  by_cases h0 : s = b!"<="
  · rw [if_pos h0] at h; cases h
  rw [if_neg h0] at h; clear h0
  by_cases h0 : s = b!"!="
  · rw [if_pos h0] at h; cases h
  rw [if_neg h0] at h; clear h0
  by_cases h0 : s = b!">"
  · rw [if_pos h0] at h; cases h
  rw [if_neg h0] at h; clear h0
  by_cases h0 : s = b!"<"
  · rw [if_pos h0] at h; cases h
  rw [if_neg h0] at h; clear h0
  by_cases h0 : s = b!"&&"
  · rw [if_pos h0] at h; cases h
  rw [if_neg h0] at h; clear h0
  by_cases h0 : s = b!"||"
  · rw [if_pos h0] at h; cases h
  rw [if_neg h0] at h; clear h0
  cases h

mutual
theorem allThis_imp {P Q : Val → Prop} (h : ∀ v, P v → Q v) : ∀ g : Graph, AllThis P g → AllThis Q g
  | .nil, _ => trivial
  | .node t o, hg => ⟨h t hg.1, allThisL_imp h o hg.2⟩
theorem allThisL_imp {P Q : Val → Prop} (h : ∀ v, P v → Q v) : ∀ gs : List Graph, AllThisL P gs → AllThisL Q gs
  | [], _ => trivial
  | g :: gs, hg => ⟨allThis_imp h g hg.1, allThisL_imp h gs hg.2⟩
end

theorem noAssignment_notAssign {e : Graph} (h : NoAssignment E e) : AllThis (NotAssign E) e :=
  allThis_imp (fun _ hv _ hop => hv (binOp_assign hop)) e h

theorem names_trees : ∀ ids : List Bytes, (names ids).trees = ids.map leaf
  | [] => rfl
  | s :: ss => by simp [names, Elems.trees, Elem.tree, names_trees ss]

theorem names_ok : ∀ {ids : List Bytes}, (names ids).Ok E → ∀ id ∈ ids, Name E id
  | [], _, id, h => absurd h (by simp)
  | s :: ss, h, id, hi => by
    simp only [names, Elems.Ok, Elem.Ok] at h
    rcases List.mem_cons.1 hi with rfl | hi
    · exact h.1
    · exact names_ok h.2 id hi

theorem names_noArgs : ∀ ids : List Bytes, (names ids).NoArgs
  | [] => by simp [names, Elems.NoArgs]
  | s :: ss => by simp [names, Elems.NoArgs, Elem.NoArgs, names_noArgs ss]

theorem point_not_integer {s : Bytes} (h : 46 ∈ s) : ¬ LooksInteger s := by
  rintro ⟨a, sg, ds, b, rfl, ha, hsg, _, hds, hb⟩
  simp only [List.mem_append] at h
  rcases h with ((h | h) | h) | h
  · rcases ha _ h with h | h <;> exact absurd h (by decide)
  · rcases hsg with rfl | rfl <;> simp at h
  · exact absurd (hds _ h) (by unfold Digit; decide)
  · rcases hb _ h with h | h <;> exact absurd h (by decide)

theorem num_isNumber {s : Bytes} (h : Num s) : isNumber s = true := by
  obtain ⟨sg, ds, fs, hs, hne, hd, _, rfl⟩ := h
  obtain ⟨d, ds, rfl⟩ := List.exists_cons_of_ne_nil hne
  have hd' := digitByte_iff.2 (hd d (by simp))
  rcases hs with rfl | rfl
  · simp only [List.nil_append, List.cons_append]
    cases hx : ds ++ fs with
    | nil => exact hd'
    | cons c t => simp [isNumber, hd']
  · simp only [List.nil_append, List.cons_append]
    simp [isNumber, hd']

theorem evals_float {s : Bytes} {f : UInt64} (hn : Num s) (hd : 46 ∈ s) (hp : E.parseFloat s = some f) (g : Graph) :
    Evals E (leaf s) g (.f64 f) g := by
  refine Evals.of (f := 1) ?_
  have h1 : s.isEmpty = false := by
    cases s with
    | nil => simp at hd
    | cons => rfl
  have h2 := isInteger_not ⟨46, hd, by simp [SpaceOrTab]⟩ (point_not_integer hd)
  rw [leaf, evalExpr.eq_def]
  dsimp only
  rw [vstr_str, if_neg (by rw [h1]; simp), if_pos (num_isNumber hn)]
  simp only [number', vfloat, vint, vstr, h1, h2, hp, bind, EvalM.lift, pure, Bool.false_eq_true, ↓reduceIte, Res.bind]

/-- The tree of an expression has its value. -/
theorem means_evals {g : Graph} (hg : NoNil g) {t : Grouping} {v : Val} (h : Means E g t v) (ht : t.Ok E) : Evals E t.tree g v g := by
  induction h with
  | int i => exact evals_int i g
  | float s f hd hp => exact evals_float ht hd hp g
  | str s => exact evals_str s g
  | path id ids t v hr hl =>
    simp only [Grouping.Ok, Opnd.Ok] at ht
    have hn := names_ok ht.2.2
    have := evals_path (E := E) (ids := id :: ids) (g := g) (by simp)
      (fun x hx => ⟨by rcases List.mem_cons.1 hx with rfl | hx; exact ht.1; exact hn x hx, hr x hx⟩) hg (by rw [hl]; rfl)
    rw [hl] at this
    simpa only [Grouping.tree, Opnd.tree, names_trees, pathOf, List.map_cons, simplify] using this
  | bin op l r v w u hl hr hu ihl ihr =>
    obtain ⟨h1, h2, h3, h4, h5⟩ := ht
    obtain ⟨o1, o2, o3⟩ := result_apply (E := E) hu
    exact Evals.bin o1 o2 (ihr h5) (ihl h4) o3

/-! ## Groupings as texts -/

namespace Spec

/-- Two sequences with an operator between them. -/
def Expr.join (x : Expr) (s : Bytes) (y : Expr) : Expr :=
  match x with
  | .one o => .op o s y
  | .op o s' x => .op o s' (x.join s y)

/-- The sequence of a grouping. -/
def Grouping.expr : Grouping → Expr
  | .atom o => .one o
  | .bin op l r => l.expr.join op r.expr

theorem Expr.join_spec (s : Bytes) (y : Expr) : ∀ x : Expr, (x.join s y).text = x.text ++ 32 :: s ++ 32 :: y.text ∧
    (x.join s y).trees = x.trees ++ leaf s :: y.trees
  | .one o => ⟨by simp [Expr.join, Expr.text], by simp [Expr.join, Expr.trees]⟩
  | .op o s' x => by
    obtain ⟨h1, h2⟩ := Expr.join_spec s y x
    exact ⟨by simp [Expr.join, Expr.text, h1], by simp [Expr.join, Expr.trees, h2]⟩

theorem Expr.join_ok {s : Bytes} {y : Expr} (hs : Op s) (hy : y.Ok E) : ∀ {x : Expr}, x.Ok E → (x.join s y).Ok E
  | .one o, h => ⟨h, hs, hy⟩
  | .op o s' x, h => ⟨h.1, h.2.1, Expr.join_ok hs hy h.2.2⟩

theorem Expr.join_noArgs {s : Bytes} {y : Expr} (hy : y.NoArgs) : ∀ {x : Expr}, x.NoArgs → (x.join s y).NoArgs
  | .one o, h => by simpa [Expr.join, Expr.NoArgs] using ⟨by simpa [Expr.NoArgs] using h, hy⟩
  | .op o s' x, h => by
    simp only [Expr.NoArgs] at h
    simpa [Expr.join, Expr.NoArgs] using ⟨h.1, Expr.join_noArgs hy h.2⟩

theorem Grouping.expr_spec : ∀ t : Grouping, t.expr.text = t.text ∧ t.expr.trees = t.tokens
  | .atom o => ⟨rfl, rfl⟩
  | .bin op l r => by
    obtain ⟨h1, h2⟩ := expr_spec l
    obtain ⟨h3, h4⟩ := expr_spec r
    obtain ⟨h5, h6⟩ := Expr.join_spec op r.expr l.expr
    exact ⟨by rw [Grouping.expr, h5, h1, h3]; rfl, by rw [Grouping.expr, h6, h2, h4]; rfl⟩

theorem Expr.join_fulls (s : Bytes) (y : Expr) : ∀ x : Expr, (x.join s y).fulls = x.fulls ++ leaf s :: y.fulls
  | .one o => by simp [Expr.join, Expr.fulls]
  | .op o s' x => by simp [Expr.join, Expr.fulls, Expr.join_fulls s y x]

theorem Grouping.expr_fulls : ∀ t : Grouping, t.expr.fulls = t.nodes.tokens
  | .atom o => rfl
  | .bin op l r => by
    rw [Grouping.expr, Expr.join_fulls, expr_fulls l, expr_fulls r]; rfl

theorem Grouping.expr_ok : ∀ {t : Grouping}, t.Ok E → t.expr.Ok E
  | .atom o, h => h
  | .bin op l r, h => Expr.join_ok h.1 (expr_ok h.2.2.2.2) (expr_ok h.2.2.2.1)

theorem Grouping.expr_noArgs : ∀ {t : Grouping}, t.NoArgs → t.expr.NoArgs
  | .atom o, h => by simpa [Grouping.expr, Expr.NoArgs, Grouping.NoArgs] using h
  | .bin op l r, h => Expr.join_noArgs (expr_noArgs h.2) (expr_noArgs h.1)

end Spec

theorem means_noArgs {g : Graph} {t : Grouping} {v : Val} (h : Means E g t v) : t.NoArgs := by
  induction h with
  | int i => simp [Grouping.NoArgs, Opnd.NoArgs]
  | float s f hd hp => simp [Grouping.NoArgs, Opnd.NoArgs]
  | str s => simp [Grouping.NoArgs, Opnd.NoArgs]
  | path id ids t v hr hl => simpa [Grouping.NoArgs, Opnd.NoArgs] using names_noArgs ids
  | bin op l r v w u hl hr hu ihl ihr => exact ⟨ihl, ihr⟩

/-- `NewExpression` on the text of a grouping by precedence. -/
theorem newExpression_full {t : Grouping} (ht : t.Ok E) (hl : Fits t.text) :
    newExpression E t.text = .ok (.node (.str b!"!e") [t.full]) := by
  obtain ⟨h1, h2⟩ := Grouping.expr_spec t
  rw [← h1] at hl ⊢
  exact newExpression_exact (Grouping.expr_ok ht) hl ht h2.symm (Grouping.expr_fulls t).symm

theorem newExpression_grouping {t : Grouping} (ht : t.Ok E) (hn : t.NoArgs) (hl : Fits t.text) :
    newExpression E t.text = .ok (.node (.str b!"!e") [t.tree]) := by
  rw [newExpression_full ht hl, Grouping.full_noArgs t hn]

end
end Ogdl
