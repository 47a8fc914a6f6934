import Verif.Lemmas.Assign
import Verif.Props.Get

/-!
# Expressions (C32 – C37, C57 – C59)

`Spec.Grouping` is a way to group operands and operators, `Spec.Means` the value of
such an expression in a context.
-/

namespace Ogdl
open Spec

/-! ## C32 -/

/-- `NewExpression` groups every sequence of operands and binary operators, of any
number, by precedence and to the left: its tree has the same operands and operators
from left to right, and the operators to the left of an operator bind at least as tight,
those to its right bind tighter.  There is only one such tree.  The arguments of calls
are grouped likewise (`Grouping.full`), unless the call is the only operand
(`C59_refuted`).  Missing: texts that do not fit (`Spec.Fits`) (`C53_refuted`). -/
theorem C32_partial (E : Ext) (x : Expr) (hx : x.Ok E) (hl : Fits x.text) :
    ∃ t : Grouping, t.Ok E ∧ t.tokens = x.trees ∧ newExpression E x.text = .ok (.node (.str b!"!e") [t.full]) ∧
      (x.NoArgs → t.full = t.tree) ∧
      ∀ t' : Grouping, t'.Ok E → t'.tokens = x.trees → t'.tree = t.tree := by
  obtain ⟨h1, h2, _⟩ := Grouping.ofExpr_spec (E := E) x hx
  refine ⟨Grouping.ofExpr x, h1, h2, newExpression_exact hx hl h1 h2 (Grouping.ofExpr_nodes x), fun hn => ?_, fun t' h h' => ?_⟩
  · exact Grouping.full_noArgs _ (Grouping.ofExpr_noArgs x hn)
  have e1 := Grouping.astPasses_tokens (E := E) h1
  have e2 := Grouping.astPasses_tokens (E := E) h
  rw [h2] at e1
  rw [h', e1] at e2
  simpa using e2.symm

/-- The value of an expression text is the value of its grouping by precedence, for all
expressions made of integers, quoted texts, paths of names and the operators on them. -/
theorem C32_value_partial (E : Ext) (g : Graph) (t : Grouping) (v : Val) (ht : t.Ok E) (hg : NoNil g) (hv : Means E g t v)
    (hl : Fits t.text) :
    ∃ e, newExpression E t.text = .ok e ∧ g.eval E e = .ok ((v, none), g) :=
  ⟨_, newExpression_grouping ht (means_noArgs hv) hl, eval_expression (means_evals hg hv ht)⟩

/-! ## C33 -/

/-- `+ - * / %` on two integers of any Go integer type are the int64 operations (`Int64`
of Lean: wrap-around, truncation toward zero), whatever expressions they come from.
Missing: division by zero, for which it is false (`C33_refuted`). -/
theorem C33_partial (E : Ext) (op : Bytes) (l r g g1 g2 : Graph) (v w : Val) (a b c : Int64)
    (hr : g.eval E (exprOf r) = .ok ((w, none), g2)) (hl : g2.eval E (exprOf l) = .ok ((v, none), g1)) (hv : asInt v = some a) (hw : asInt w = some b) (hc : arith op a b = some c) :
    g.eval E (binary op l r) = .ok ((ofInt64 c, none), g1) := by
  obtain ⟨h1, h2, h3⟩ := calc_int (E := E) hv hw hc
  exact eval_expression (Evals.bin h1 h2 (.of_eval hr) (.of_eval hl) h3)

/-- Any two integers can be written in decimal with an operator between them. -/
theorem C33_text_partial (E : Ext) (g : Graph) (hg : NoNil g) (op : Bytes) (a b c : Int64) (hc : arith op a b = some c) :
    ∃ e, newExpression E (itoa a.toInt ++ 32 :: op ++ 32 :: itoa b.toInt) = .ok e ∧ g.eval E e = .ok ((ofInt64 c, none), g) := by
  obtain ⟨h1, _, _⟩ := calc_int (E := E) (v := ofInt64 a) (w := ofInt64 b) (a := a) (b := b) (by simp [asInt, ofInt64]) (by simp [asInt, ofInt64]) hc
  refine C32_value_partial E g (.bin op (.atom (.num (itoa a.toInt))) (.atom (.num (itoa b.toInt)))) _
    ⟨h1, trivial, trivial, itoa_num _, itoa_num _⟩ hg
    (.bin _ _ _ _ _ _ (.int a) (.int b) (.arith (by simp [asInt, ofInt64]) (by simp [asInt, ofInt64]) hc)) ?_
  refine .short ?_
  have ha := itoa_length a
  have hb := itoa_length b
  have ho := op_length h1
  simp only [Grouping.text, Opnd.text, List.length_append, List.length_cons]
  omega

/-- Division by zero and remainder by zero panic, whatever expressions the operands come
from. -/
theorem C33_zero (E : Ext) (op : Bytes) (hop : op = b!"/" ∨ op = b!"%") (l r g g1 g2 : Graph) (v w : Val) (a : Int64)
    (hr : g.eval E (exprOf r) = .ok ((w, none), g2)) (hl : g2.eval E (exprOf l) = .ok ((v, none), g1)) (hv : asInt v = some a) (hw : asInt w = some 0) :
    g.eval E (binary op l r) = .panic := by
  have hv' := asInt_vint hv
  have hw' := asInt_vint hw
  have h0 : (0 : Int64).toInt = 0 := rfl
  have hO : Op op := by rcases hop with rfl | rfl <;> simp [Op]
  rw [binary, exprOf, eval_expression_eq, evalExpr_bin hO (by rcases hop with rfl | rfl <;> simp [binOp]) (.of_eval hr) (.of_eval hl) (Nat.le_refl _)]
  rcases hop with rfl | rfl
  · simp only [applyOp, show binOp b!"/" = some (.arith .div) from by decide, calc', hv', hw', calcInt, h0, ↓reduceIte]
  · simp only [applyOp, show binOp b!"%" = some (.arith .mod) from by decide, calc', hv', hw', calcInt, h0, ↓reduceIte]

/-- The expressions `1 / 0` and `1 % 0` crash the caller. -/
theorem C33_refuted (E : Ext) (g : Graph) :
    (∃ e, newExpression E b!"1 / 0" = .ok e ∧ g.eval E e = .panic) ∧ (∃ e, newExpression E b!"1 % 0" = .ok e ∧ g.eval E e = .panic) := by
  have key : ∀ op : Bytes, op = b!"/" ∨ op = b!"%" → ∃ e, newExpression E (b!"1 " ++ op ++ b!" 0") = .ok e ∧ g.eval E e = .panic := by
    intro op hop
    have hO : Op op := by rcases hop with rfl | rfl <;> simp [Op]
    have ht : (Grouping.bin op (.atom (.num (itoa (1 : Int64).toInt))) (.atom (.num (itoa (0 : Int64).toInt)))).text = b!"1 " ++ op ++ b!" 0" := by
      rcases hop with rfl | rfl <;> decide
    have h := newExpression_grouping (E := E) (t := .bin op (.atom (.num (itoa (1 : Int64).toInt))) (.atom (.num (itoa (0 : Int64).toInt))))
      ⟨hO, trivial, trivial, itoa_num _, itoa_num _⟩ (by simp [Grouping.NoArgs, Opnd.NoArgs])
      (.short (by rw [ht]; rcases hop with rfl | rfl <;> decide))
    rw [ht] at h
    exact ⟨_, h, C33_zero E op hop _ _ g g g _ _ 1 (eval_expression (evals_int 0 g)) (eval_expression (evals_int 1 g)) rfl rfl⟩
  rw [show b!"1 / 0" = b!"1 " ++ b!"/" ++ b!" 0" from rfl, show b!"1 % 0" = b!"1 " ++ b!"%" ++ b!" 0" from rfl]
  exact ⟨key _ (.inl rfl), key _ (.inr rfl)⟩

/-! ## C34 -/

/-- On integers of any Go integer type, whatever expressions they come from: exactly one
of `<`, `==` and `>` is true; `<=` is not `>`, `>=` is not `<`, `!=` is not `==`; and
they are the order of the int64 values. -/
theorem C34 (E : Ext) (l r g g1 g2 : Graph) (v w : Val) (a b : Int64)
    (hr : g.eval E (exprOf r) = .ok ((w, none), g2)) (hl : g2.eval E (exprOf l) = .ok ((v, none), g1)) (hv : asInt v = some a) (hw : asInt w = some b) :
    ∃ lt eq gt : Bool,
      g.eval E (binary b!"<" l r) = .ok ((.bool lt, none), g1) ∧
      g.eval E (binary b!"==" l r) = .ok ((.bool eq, none), g1) ∧
      g.eval E (binary b!">" l r) = .ok ((.bool gt, none), g1) ∧
      g.eval E (binary b!"<=" l r) = .ok ((.bool !gt, none), g1) ∧
      g.eval E (binary b!">=" l r) = .ok ((.bool !lt, none), g1) ∧
      g.eval E (binary b!"!=" l r) = .ok ((.bool !eq, none), g1) ∧
      (lt = true ↔ a < b) ∧ (eq = true ↔ a = b) ∧ (gt = true ↔ b < a) ∧
      [lt, eq, gt].count true = 1 := by
  have key : ∀ (op : Bytes) (c : Bool), comparison op a b = some c → g.eval E (binary op l r) = .ok ((.bool c, none), g1) := by
    intro op c hc
    obtain ⟨h1, h2, h3⟩ := compare_int (E := E) hv hw hc
    exact eval_expression (Evals.bin h1 h2 (.of_eval hr) (.of_eval hl) h3)
  refine ⟨decide (a < b), decide (a = b), decide (b < a), key _ _ rfl, key _ _ rfl, key _ _ rfl, ?_, ?_, ?_, by simp, by simp, by simp, ?_⟩
  · rw [key _ _ rfl]
    congr 4
    rw [Bool.eq_iff_iff]; simp [Int64.le_iff_toInt_le, Int64.lt_iff_toInt_lt]
  · rw [key _ _ rfl]
    congr 4
    rw [Bool.eq_iff_iff]; simp [Int64.le_iff_toInt_le, Int64.lt_iff_toInt_lt]
  · rw [key _ _ rfl]; congr 4; simp
  · simp only [Int64.lt_iff_toInt_lt, ← Int64.toInt_inj]
    rcases Int.lt_trichotomy a.toInt b.toInt with h | h | h
    · simp [h, show ¬ a.toInt = b.toInt by omega, show ¬ b.toInt < a.toInt by omega]
    · simp [h]
    · simp [h, show ¬ a.toInt = b.toInt by omega, show ¬ a.toInt < b.toInt by omega]

/-- On texts `==` and `!=` are complementary, and `==` is equality of the texts. -/
theorem C34_texts (E : Ext) (l r g g1 g2 : Graph) (s t : Bytes) (hr : g.eval E (exprOf r) = .ok (((.str t), none), g2)) (hl : g2.eval E (exprOf l) = .ok (((.str s), none), g1)) :
    ∃ eq : Bool, g.eval E (binary b!"==" l r) = .ok ((.bool eq, none), g1) ∧ g.eval E (binary b!"!=" l r) = .ok ((.bool !eq, none), g1) ∧
      (eq = true ↔ s = t) := by
  obtain ⟨a1, a2, a3⟩ := result_apply (E := E) (.same (s := s) (t := t) rfl)
  obtain ⟨b1, b2, b3⟩ := result_apply (E := E) (.differ (s := s) (t := t) rfl)
  refine ⟨decide (s = t), eval_expression (Evals.bin a1 a2 (.of_eval hr) (.of_eval hl) a3), ?_, by simp⟩
  rw [show (!decide (s = t)) = decide (s ≠ t) from by simp]
  exact eval_expression (Evals.bin b1 b2 (.of_eval hr) (.of_eval hl) b3)

/-! ## C95 -/

/-- `+ - * / %` with a float on one side, or a number on the left and the text of a number
on the right: the float64 operations, whatever expressions the operands come from.
Missing: the text of a number on the left (`C95_refuted`), and a remainder by a number
less than one (`C95_zero`). -/
theorem C95_partial (E : Ext) (op : Bytes) (l r g g1 g2 : Graph) (v w u : Val) (a b : UInt64)
    (hr : g.eval E (exprOf r) = .ok ((w, none), g2)) (hl : g2.eval E (exprOf l) = .ok ((v, none), g1))
    (hv : asFloat E v = some a) (hw : numeric E w = some b) (hi : asInt v = none ∨ asInt w = none) (hc : floatArith E op a b = some u) :
    g.eval E (binary op l r) = .ok ((u, none), g1) := by
  obtain ⟨h1, h2, h3⟩ := result_apply (.float hv hw hi hc)
  exact eval_expression (Evals.bin h1 h2 (.of_eval hr) (.of_eval hl) h3)

/-- Two texts: `+` puts them together, also if they are texts of numbers; the other
arithmetic operators give nil. -/
theorem C95_texts (E : Ext) (l r g g1 g2 : Graph) (s t : Bytes)
    (hr : g.eval E (exprOf r) = .ok ((.str t, none), g2)) (hl : g2.eval E (exprOf l) = .ok ((.str s, none), g1)) :
    g.eval E (binary b!"+" l r) = .ok ((.str (s ++ t), none), g1) ∧
    ∀ op ∈ [b!"-", b!"*", b!"/", b!"%"], g.eval E (binary op l r) = .ok ((.nil, none), g1) := by
  constructor
  · obtain ⟨h1, h2, h3⟩ := result_apply (E := E) (.concat (s := s) (t := t) rfl)
    exact eval_expression (Evals.bin h1 h2 (.of_eval hr) (.of_eval hl) h3)
  · intro op hop
    simp only [List.mem_cons, List.not_mem_nil, or_false] at hop
    rcases hop with rfl | rfl | rfl | rfl
    · exact eval_expression (Evals.bin (by simp [Op]) (by simp [binOp]) (.of_eval hr) (.of_eval hl) rfl)
    · exact eval_expression (Evals.bin (by simp [Op]) (by simp [binOp]) (.of_eval hr) (.of_eval hl) rfl)
    · exact eval_expression (Evals.bin (by simp [Op]) (by simp [binOp]) (.of_eval hr) (.of_eval hl) rfl)
    · exact eval_expression (Evals.bin (by simp [Op]) (by simp [binOp]) (.of_eval hr) (.of_eval hl) rfl)

/-- A remainder by a float whose integral part is zero panics. -/
theorem C95_zero (E : Ext) (l r g g1 g2 : Graph) (v w : Val) (a b : UInt64)
    (hr : g.eval E (exprOf r) = .ok ((w, none), g2)) (hl : g2.eval E (exprOf l) = .ok ((v, none), g1))
    (hv : asFloat E v = some a) (hw : numeric E w = some b) (hi : asInt v = none ∨ asInt w = none) (hz : E.toInt b = 0) :
    g.eval E (binary b!"%" l r) = .panic := by
  rw [binary, exprOf, eval_expression_eq, evalExpr_bin (by simp [Op]) (by simp [binOp]) (.of_eval hr) (.of_eval hl) (Nat.le_refl _)]
  simp only [applyOp, show binOp b!"%" = some (.arith .mod) from by decide, calc_floatOp hv hw hi, calcFloat, hz, ↓reduceIte]

/-- A number on the left and a text on the right that is not the text of a number: the text
counts as zero. -/
theorem C95_word (E : Ext) (op : Bytes) (l r g g1 g2 : Graph) (v u : Val) (s : Bytes) (a : UInt64)
    (hr : g.eval E (exprOf r) = .ok ((.str s, none), g2)) (hl : g2.eval E (exprOf l) = .ok ((v, none), g1))
    (hv : asFloat E v = some a) (hs : E.parseFloat s = none) (hc : floatArith E op a (E.ofInt 0) = some u) :
    g.eval E (binary op l r) = .ok ((u, none), g1) := by
  obtain ⟨o, ho, hc⟩ := floatArith_op hc
  obtain ⟨h1, h2⟩ := arith_names ho
  refine eval_expression (Evals.bin h1 h2 (.of_eval hr) (.of_eval hl) ?_)
  have hf : vfloatf E (.str s) = none := by simp only [vfloatf, vfloat, vint, vstr, hs]
  rcases asFloat_cases hv with ⟨i, hi, rfl⟩ | ⟨hi, hf'⟩
  · simp only [applyOp, ho, calc', hi, show vint (.str s) = none from rfl, hf, Option.getD_none, hc]
  · simp only [applyOp, ho, calc', hi, hf', show vint (.str s) = none from rfl, hf, Option.getD_none, hc]

/-- A text on the left of an integer: every arithmetic operator puts the texts together. -/
theorem C95_left (E : Ext) (op : Bytes) (hop : op ∈ [b!"+", b!"-", b!"*", b!"/", b!"%"]) (l r g g1 g2 : Graph) (s : Bytes) (k : IntKind) (i : Int)
    (hr : g.eval E (exprOf r) = .ok ((.int k i, none), g2)) (hl : g2.eval E (exprOf l) = .ok ((.str s, none), g1)) :
    g.eval E (binary op l r) = .ok ((.str (s ++ itoa i), none), g1) := by
  simp only [List.mem_cons, List.not_mem_nil, or_false] at hop
  rcases hop with rfl | rfl | rfl | rfl | rfl
  all_goals exact eval_expression (Evals.bin (by simp [Op]) (by simp [binOp]) (.of_eval hr) (.of_eval hl) rfl)

/-- Although the text of a number is a number, `"2" * 3` is the text `23`. -/
theorem C95_refuted (E : Ext) (g : Graph) :
    ∃ e, newExpression E b!"\"2\" * 3" = .ok e ∧ g.eval E e = .ok ((.str b!"23", none), g) := by
  have ht : (Grouping.bin b!"*" (.atom (.str b!"2")) (.atom (.num (itoa (3 : Int64).toInt)))).text = b!"\"2\" * 3" := by decide
  have h := newExpression_grouping (E := E) (t := .bin b!"*" (.atom (.str b!"2")) (.atom (.num (itoa (3 : Int64).toInt))))
    ⟨by simp [Op], trivial, trivial, ⟨by decide, by simp [LoneSlashes], by decide⟩, itoa_num _⟩ (by simp [Grouping.NoArgs, Opnd.NoArgs])
    (.short (by rw [ht]; decide))
  rw [ht] at h
  exact ⟨_, h, C95_left E b!"*" (by simp) _ _ g g g b!"2" .int64 3 (eval_expression (evals_int 3 g)) (eval_expression (evals_str b!"2" g))⟩

/-! ## C96 -/

/-- A float on the left of a comparison, and a number or the text of one on the right: the
comparison of the float64 values, whatever expressions they come from.  Missing: an
integer on the left of a float, for which it is false (`C96_refuted`). -/
theorem C96_partial (E : Ext) (op : Bytes) (l r g g1 g2 : Graph) (v w : Val) (a b : UInt64) (c : Bool)
    (hr : g.eval E (exprOf r) = .ok ((w, none), g2)) (hl : g2.eval E (exprOf l) = .ok ((v, none), g1))
    (hf : IsFloat v) (hv : asFloat E v = some a) (hw : numeric E w = some b) (hc : floatComparison E op a b = some c) :
    g.eval E (binary op l r) = .ok ((.bool c, none), g1) := by
  obtain ⟨h1, h2, h3⟩ := result_apply (.floatCompare hf hv hw hc)
  exact eval_expression (Evals.bin h1 h2 (.of_eval hr) (.of_eval hl) h3)

/-- An integer on the left of a float is compared with the integral part of the float. -/
theorem C96_integral (E : Ext) (l r g g1 g2 : Graph) (v : Val) (x : UInt64) (a : Int64)
    (hr : g.eval E (exprOf r) = .ok ((.f64 x, none), g2)) (hl : g2.eval E (exprOf l) = .ok ((v, none), g1)) (hv : asInt v = some a) :
    g.eval E (binary b!"<" l r) = .ok ((.bool (decide (a.toInt < E.toInt x)), none), g1) ∧
    g.eval E (binary b!"==" l r) = .ok ((.bool (decide (a.toInt = E.toInt x)), none), g1) ∧
    g.eval E (binary b!">" l r) = .ok ((.bool (decide (a.toInt > E.toInt x)), none), g1) ∧
    g.eval E (binary b!"<=" l r) = .ok ((.bool (decide (a.toInt ≤ E.toInt x)), none), g1) ∧
    g.eval E (binary b!">=" l r) = .ok ((.bool (decide (a.toInt ≥ E.toInt x)), none), g1) ∧
    g.eval E (binary b!"!=" l r) = .ok ((.bool (decide (a.toInt ≠ E.toInt x)), none), g1) := by
  have hv' := asInt_vint hv
  have key : ∀ (op : Bytes) (o : CmpOp) (d : Bool), binOp op = some (.cmp o) → cmpInt a.toInt (E.toInt x) o = d →
      g.eval E (binary op l r) = .ok ((.bool d, none), g1) := by
    intro op o d ho hd
    obtain ⟨h1, h2⟩ := cmp_names ho
    refine eval_expression (Evals.bin h1 h2 (.of_eval hr) (.of_eval hl) ?_)
    simp only [applyOp, ho, compare', hv', vintf, vintf.go, Res.ok_bind, hd]
  refine ⟨key _ .lt _ (by decide) rfl, key _ .eq _ (by decide) ?_, key _ .gt _ (by decide) rfl, key _ .le _ (by decide) rfl,
    key _ .ge _ (by decide) rfl, key _ .ne _ (by decide) ?_⟩
  · simp only [cmpInt]; rw [Bool.eq_iff_iff]; simp
  · simp only [cmpInt]; rw [Bool.eq_iff_iff]; simp

/-- `1 == 1.5` is true and `1 < 1.5` is false, although `1.5 == 1` is false. -/
theorem C96_refuted (E : Ext) (g : Graph) (f : UInt64) (hf : E.parseFloat b!"1.5" = some f) (ht : E.toInt f = 1) (hne : E.feq f (E.ofInt 1) = false) :
    (∃ e, newExpression E b!"1 == 1.5" = .ok e ∧ g.eval E e = .ok ((.bool true, none), g)) ∧
    (∃ e, newExpression E b!"1 < 1.5" = .ok e ∧ g.eval E e = .ok ((.bool false, none), g)) ∧
    (∃ e, newExpression E b!"1.5 == 1" = .ok e ∧ g.eval E e = .ok ((.bool false, none), g)) := by
  have hn : Num b!"1.5" := ⟨[], b!"1", b!".5", .inl rfl, by simp, by simp [Digit], .inr ⟨b!"5", rfl, by simp [Digit]⟩, rfl⟩
  have e1 := eval_expression (evals_int (E := E) 1 g)
  have e2 := eval_expression (evals_float (E := E) hn (by simp) hf g)
  obtain ⟨h1, h2, _⟩ := C96_integral E _ _ g g g _ f 1 e2 e1 rfl
  have h3 := C96_partial E b!"==" _ _ g g g _ _ f (E.ofInt 1) _ e1 e2 (.inl ⟨_, rfl⟩) rfl rfl rfl
  rw [ht] at h1 h2
  rw [hne] at h3
  have hnew : ∀ (op : Bytes) (o1 o2 : Opnd), Op op → o1.Ok E → o2.Ok E → o1.NoArgs → o2.NoArgs →
      ((Grouping.bin op (.atom o1) (.atom o2)).text.length ≤ 20) →
      newExpression E (Grouping.bin op (.atom o1) (.atom o2)).text = .ok (binary op o1.tree o2.tree) := by
    intro op o1 o2 h0 h1 h2 h3 h4 h5
    exact newExpression_grouping (E := E) (t := .bin op (.atom o1) (.atom o2)) ⟨h0, trivial, trivial, h1, h2⟩ ⟨h3, h4⟩ (.short (by omega))
  have hi : (Opnd.num (itoa (1 : Int64).toInt)).Ok E := itoa_num _
  have hd : (Opnd.num b!"1.5").Ok E := hn
  refine ⟨⟨_, hnew b!"==" (.num (itoa (1 : Int64).toInt)) (.num b!"1.5") (by simp [Op]) hi hd trivial trivial (by decide), h2⟩,
    ⟨_, hnew b!"<" (.num (itoa (1 : Int64).toInt)) (.num b!"1.5") (by simp [Op]) hi hd trivial trivial (by decide), h1⟩,
    ⟨_, hnew b!"==" (.num b!"1.5") (.num (itoa (1 : Int64).toInt)) (by simp [Op]) hd hi trivial trivial (by decide), h3⟩⟩

/-! ## C35 -/

/-- `&&` and `||` on any two values: the boolean result if both stand for booleans,
otherwise false. -/
theorem C35 (E : Ext) (l r g g1 g2 : Graph) (v w : Val) (hr : g.eval E (exprOf r) = .ok ((w, none), g2)) (hl : g2.eval E (exprOf l) = .ok ((v, none), g1)) :
    g.eval E (binary b!"&&" l r) = .ok ((.bool (bothTruths (· && ·) v w), none), g1) ∧
    g.eval E (binary b!"||" l r) = .ok ((.bool (bothTruths (· || ·) v w), none), g1) := by
  constructor
  · refine eval_expression (Evals.bin (by simp [Op]) (by simp [binOp]) (.of_eval hr) (.of_eval hl) ?_)
    simp only [applyOp, show binOp b!"&&" = some .and from by decide, logic_truth, bothTruths]
    cases truth v <;> cases truth w <;> rfl
  · refine eval_expression (Evals.bin (by simp [Op]) (by simp [binOp]) (.of_eval hr) (.of_eval hl) ?_)
    simp only [applyOp, show binOp b!"||" = some .or from by decide, logic_truth, bothTruths]
    cases truth v <;> cases truth w <;> rfl

/-! ## C36 -/

/-- Evaluating an expression without assignment operators, whatever else is in it,
leaves the context as it was. -/
theorem C36 (E : Ext) (e g g' : Graph) (r : Val × Option Err) (he : NoAssignment E e) (h : g.eval E e = .ok (r, g')) : g' = g :=
  eval_readOnly (noAssignment_notAssign he) g r g' h

/-- Looking up a path, with indexes, selectors, calls and groups, changes nothing either. -/
theorem C36_get (E : Ext) (s : Bytes) (p g n g' : Graph) (hp : newPath E s = .ok p) (he : NoAssignment E p) (h : g.get E s = .ok (n, g')) :
    g' = g := by
  cases g with
  | nil => simp only [Graph.get, Res.ok.injEq, Prod.mk.injEq] at h; exact h.2.symm
  | node t o =>
    simp only [Graph.get, hp, Res.ok_bind] at h
    cases hr : getPath E (evalFuel p) p (.node t o) with
    | ok x =>
      rw [hr] at h
      simp only [Res.ok_bind, Res.ok.injEq, Prod.mk.injEq] at h
      rw [← h.2]
      exact getPath_readOnly (noAssignment_notAssign he) _ x.1 x.2 hr
    | panic => rw [hr] at h; cases h
    | oof => rw [hr] at h; cases h

/-- Evaluation always ends: with a value, an error or a panic. -/
theorem C36_ends (E : Ext) (e g : Graph) : g.eval E e ≠ .oof := eval_neverOof e (Nat.le_refl _) g

/-! ## C37 -/

/-- What an assignment may do: the path reads as the value `v`, and paths that are
neither a prefix nor an extension of it read as before. -/
def AssignedIn (E : Ext) (g g' : Graph) (p : List Bytes) (v : Val) : Prop :=
  (∃ n, g'.get E (dotted p) = .ok (.node n [.node v []], g')) ∧
  ∀ q, Path E q → Fits (dotted q) → ¬ p <+: q → ¬ q <+: p →
    ∃ n, g.get E (dotted q) = .ok (n, g) ∧ g'.get E (dotted q) = .ok (n, g')

theorem assignedIn_store {E : Ext} {g : Graph} {p : List Bytes} {v : Val} (hp : Path E p) (hl : Fits (dotted p)) (hg : Data E g)
    (hi : Inert E v) (h1 : v ≠ .nil) (h2 : ∀ h, v ≠ .graph h) : AssignedIn E g (store E v p g) p v := by
  have hd := store_data (ids := p) hg hi h1 h2
  constructor
  · rw [get_names hp hl (.inr hd)]
    obtain ⟨n, hn⟩ := lookup_store (E := E) v p g hg.1
    rw [hn, subnodes_one h1 h2]
    exact ⟨n, rfl⟩
  · intro q hq hlq h3 h4
    refine ⟨lookup E q g, get_names hq hlq (.inr hg), ?_⟩
    rw [get_names hq hlq (.inr hd), lookup_store_other v p q g hg.1 h3 h4]

/-- `p = t` for a path `p` of names and an expression `t` with a value `v` that is not a
graph: afterwards `p` reads as `v` and unrelated paths as before.  The model has no
sharing, so graph values are left out here (see `C24`).  Missing: paths with indexes on
the left, texts that do not fit (`Spec.Fits`). -/
theorem C37_partial (E : Ext) (g : Graph) (id : Bytes) (ids : List Bytes) (t : Grouping) (v : Val) (hp : Path E (id :: ids))
    (hc : ∃ c r, id = c :: r ∧ AsciiLetter c) (ht : t.Ok E) (h1 : t.AtLeast 1) (hm : Means E g t v) (hg : Data E g)
    (hv : v ≠ .nil) (hv' : ∀ h, v ≠ .graph h) (hl : Fits (dotted (id :: ids) ++ b!" = " ++ t.text))
    (hlp : Fits (dotted (id :: ids))) :
    ∃ e r g', newExpression E (dotted (id :: ids) ++ b!" = " ++ t.text) = .ok e ∧ g.eval E e = .ok ((r, none), g') ∧
      AssignedIn E g g' (id :: ids) v := by
  have hx : dotted (id :: ids) ++ b!" = " ++ t.text = dotted (id :: ids) ++ 32 :: b!"=" ++ 32 :: t.text := by simp
  rw [hx] at hl ⊢
  have hnew := newExpression_assign (s := b!"=") (by simp [assignments]) hp.2 hc ht h1 hm hl
  obtain ⟨r, hr⟩ := evals_assign (E := E) hp.2 (means_evals hg.1 hm ht) hg.1
  refine ⟨_, _, _, hnew, eval_expression hr, assignedIn_store hp hlp hg (means_inert hg hm) hv hv'⟩

/-- `p += t`, and `-=`, `*=`, `/=`, `%=`, for an existing value at `p` on which the operator
has a result: afterwards `p` reads as the sum (difference, …).  The values are two
integers, a float and a number, or two texts with `+=`. -/
theorem C37_update_partial (E : Ext) (g : Graph) (id : Bytes) (ids : List Bytes) (t : Grouping) (o : Bytes) (n v w u : Val)
    (k rest : List Graph) (hp : Path E (id :: ids)) (hc : ∃ c r, id = c :: r ∧ AsciiLetter c) (ht : t.Ok E) (h1 : t.AtLeast 1)
    (hm : Means E g t v) (hg : Data E g) (hget : g.get E (dotted (id :: ids)) = .ok (.node n (.node w k :: rest), g))
    (ho : o ∈ [b!"+", b!"-", b!"*", b!"/", b!"%"]) (hu : Result E o w v u)
    (hl : Fits (dotted (id :: ids) ++ 32 :: (o ++ b!"=") ++ 32 :: t.text)) (hl' : Fits (dotted (id :: ids))) :
    ∃ e r g', newExpression E (dotted (id :: ids) ++ 32 :: (o ++ b!"=") ++ 32 :: t.text) = .ok e ∧ g.eval E e = .ok ((r, none), g') ∧
      AssignedIn E g g' (id :: ids) u := by
  obtain ⟨o', hb1, hb2, hop⟩ := arith_op ho
  rw [get_names hp hl' (.inr hg)] at hget
  simp only [Res.ok.injEq, Prod.mk.injEq, and_true] at hget
  have hcalc : calc' E w v o' = .ok u := by
    obtain ⟨_, _, h⟩ := result_apply hu
    simpa only [applyOp, hb1] using h
  have hnew := newExpression_assign (s := o ++ b!"=") (binOp_assign hb2) hp.2 hc ht h1 hm hl
  obtain ⟨r, hr⟩ := evals_assign_op (E := E) hp hop hb2 (means_evals hg.1 hm ht) hg hget hcalc
  obtain ⟨i1, i2, i3⟩ := result_plain hu
  exact ⟨_, _, _, hnew, eval_expression hr, assignedIn_store hp hl' hg i1 i2 i3⟩

/-! ## C97 -/

/-- `p += t`, and `-=`, `*=`, `/=`, `%=`, for a path `p` of names that leads nowhere: `p` is
created, with the value, its negation, 0, or the texts `infinity` and `undefined`; unrelated
paths read as before.  Missing: values that are graphs, and a `p` that exists but has no
value (`C97_empty`). -/
theorem C97_partial (E : Ext) (g : Graph) (id : Bytes) (ids : List Bytes) (t : Grouping) (o : Bytes) (v u : Val)
    (hp : Path E (id :: ids)) (hc : ∃ c r, id = c :: r ∧ AsciiLetter c) (ht : t.Ok E) (h1 : t.AtLeast 1)
    (hm : Means E g t v) (hv : v ≠ .nil) (hv' : ∀ h, v ≠ .graph h) (hg : Data E g)
    (hget : g.get E (dotted (id :: ids)) = .ok (.nil, g)) (hu : Created E o v u)
    (hl : Fits (dotted (id :: ids) ++ 32 :: (o ++ b!"=") ++ 32 :: t.text)) (hl' : Fits (dotted (id :: ids))) :
    ∃ e r g', newExpression E (dotted (id :: ids) ++ 32 :: (o ++ b!"=") ++ 32 :: t.text) = .ok e ∧ g.eval E e = .ok ((r, none), g') ∧
      AssignedIn E g g' (id :: ids) u := by
  have ho : o ∈ [b!"+", b!"-", b!"*", b!"/", b!"%"] := by cases hu <;> simp
  obtain ⟨o', hb1, hb2, hop⟩ := arith_op ho
  rw [get_names hp hl' (.inr hg)] at hget
  simp only [Res.ok.injEq, Prod.mk.injEq, and_true] at hget
  have hnew := newExpression_assign (s := o ++ b!"=") (binOp_assign hb2) hp.2 hc ht h1 hm hl
  obtain ⟨r, hr⟩ := evals_assign_new (E := E) hp hop hb1 hb2 (means_evals hg.1 hm ht) hg hget hu
  have hi : Inert E u ∧ u ≠ .nil ∧ ∀ h, u ≠ .graph h := by
    cases hu with
    | add v => exact ⟨means_inert hg hm, hv, hv'⟩
    | sub h => exact result_plain h
    | mul v => exact ⟨trivial, by simp, by simp⟩
    | div v => exact ⟨trivial, by simp, by simp⟩
    | mod v => exact ⟨trivial, by simp, by simp⟩
  exact ⟨_, _, _, hnew, eval_expression hr, assignedIn_store hp hl' hg hi.1 hi.2.1 hi.2.2⟩

/-- If `p` leads to a node without subnodes, an update of `p` panics, whatever the value. -/
theorem C97_empty (E : Ext) (g : Graph) (id : Bytes) (ids : List Bytes) (t : Grouping) (o : Bytes) (n v : Val)
    (hp : Path E (id :: ids)) (hc : ∃ c r, id = c :: r ∧ AsciiLetter c) (ht : t.Ok E) (h1 : t.AtLeast 1)
    (hm : Means E g t v) (hg : Data E g) (hget : g.get E (dotted (id :: ids)) = .ok (.node n [], g))
    (ho : o ∈ [b!"+", b!"-", b!"*", b!"/", b!"%"])
    (hl : Fits (dotted (id :: ids) ++ 32 :: (o ++ b!"=") ++ 32 :: t.text)) (hl' : Fits (dotted (id :: ids))) :
    ∃ e, newExpression E (dotted (id :: ids) ++ 32 :: (o ++ b!"=") ++ 32 :: t.text) = .ok e ∧ g.eval E e = .panic := by
  obtain ⟨o', hb1, hb2, hop⟩ := arith_op ho
  rw [get_names hp hl' (.inr hg)] at hget
  simp only [Res.ok.injEq, Prod.mk.injEq, and_true] at hget
  have hnew := newExpression_assign (s := o ++ b!"=") (binOp_assign hb2) hp.2 hc ht h1 hm hl
  have h := eval_assign_empty (E := E) hp hop hb2 (means_evals hg.1 hm ht) hg hget
  refine ⟨_, hnew, ?_⟩
  rw [exprOf, eval_expression_eq, evalExpr_enough (by rw [h]; simp) (Nat.le_refl _), h]

/-- With a node `x` that has no subnodes, `x += 1` crashes the caller. -/
theorem C97_refuted (E : Ext) : ∃ g : Graph, g = .node .nil [leaf b!"x"] ∧
    ∃ e, newExpression E b!"x += 1" = .ok e ∧ g.eval E e = .panic := by
  have hx := nameA E 120 (by unfold AsciiLetter; decide)
  have hp : Path E [b!"x"] := ⟨by simp, by simpa using hx⟩
  have hg : Data E (.node .nil [leaf b!"x"]) := by simp [Data, leaf, NoNil, NoNilL, AllThis, AllThisL, Inert]
  refine ⟨_, rfl, C97_empty E _ b!"x" [] (.atom (.num (itoa (1 : Int64).toInt))) b!"+" (.str b!"x") (ofInt64 1) hp
    ⟨120, [], rfl, by unfold AsciiLetter; decide⟩ (itoa_num 1) trivial (.int 1) hg ?_ (by simp) (.short (by decide)) (.short (by decide))⟩
  rw [get_names hp (.short (by decide)) (.inr hg)]
  simp [lookup, firstNamed, Graph.thisString, vstr, leaf]

/-- C97: `x -= 4` where there is no `x`. -/
example (E : Ext) : ∃ e r g', newExpression E b!"x -= 4" = .ok e ∧ (Graph.node .nil [leaf b!"y"]).eval E e = .ok ((r, none), g') ∧
    AssignedIn E (.node .nil [leaf b!"y"]) g' [b!"x"] (.int .int64 (-4)) := by
  have hx := nameA E 120 (by unfold AsciiLetter; decide)
  have hp : Path E [b!"x"] := ⟨by simp, by simpa using hx⟩
  have hg : Data E (.node .nil [leaf b!"y"]) := by simp [Data, leaf, NoNil, NoNilL, AllThis, AllThisL, Inert]
  refine C97_partial E _ b!"x" [] (.atom (.num (itoa (4 : Int64).toInt))) b!"-" (ofInt64 4) _ hp
    ⟨120, [], rfl, by unfold AsciiLetter; decide⟩ (itoa_num 4) trivial (.int 4) (by simp [ofInt64]) (by simp [ofInt64]) hg ?_
    (.sub (.arith (a := 0) (b := 4) (c := -4) rfl rfl (by decide))) (.short (by decide)) (.short (by decide))
  rw [get_names hp (.short (by decide)) (.inr hg)]
  simp [lookup, firstNamed, Graph.thisString, vstr, leaf]

/-! ## The hypotheses are met -/

section
variable (E : Ext)

/-- The operand that writes the integer `i`. -/
def lit (i : Int64) : Grouping := .atom (.num (itoa i.toInt))

/-- `a.d + 2 * 3`, with the multiplication grouped. -/
def sampleSum : Grouping := .bin b!"+" (.atom (.path b!"a" (names [b!"d"]))) (.bin b!"*" (lit 2) (lit 3))

theorem sampleSum_ok : sampleSum.Ok E := by
  have h1 := nameA E 97 (by unfold AsciiLetter; decide)
  have h2 := nameA E 100 (by unfold AsciiLetter; decide)
  exact ⟨by simp [Op], trivial, (by decide : 4 + 1 ≤ 5), ⟨h1, ⟨97, [], rfl, by unfold AsciiLetter; decide⟩, h2, trivial⟩,
    by simp [Op], trivial, trivial, itoa_num _, itoa_num _⟩

theorem sampleSum_means : Means E sampleGraph sampleSum (ofInt64 7) := by
  refine .bin _ _ _ (.int .int 1) (ofInt64 6) _ ?_ ?_ (.arith (a := 1) (b := 6) rfl rfl (by decide))
  · refine .path _ _ (.str b!"d") (.int .int 1) ?_ ?_
    · decide
    · simp [lookup, firstNamed, Graph.thisString, vstr, sampleGraph]
  · exact .bin _ _ _ _ _ _ (.int 2) (.int 3) (.arith (a := 2) (b := 3) rfl rfl (by decide))

example : sampleSum.text = b!"a.d + 2 * 3" := by decide

/-- C32: an expression of three operands. -/
example : (Expr.op (.path b!"a" (names [b!"d"])) b!"+" (.op (.num b!"2") b!"*" (.one (.num b!"3")))).Ok E ∧
    (Expr.op (.path b!"a" (names [b!"d"])) b!"+" (.op (.num b!"2") b!"*" (.one (.num b!"3")))).NoArgs := by
  have h := (sampleSum_ok E)
  refine ⟨⟨h.2.2.2.1, by simp [Op], ?_, by simp [Op], ?_⟩, by simp [Expr.NoArgs, Opnd.NoArgs, names, Elems.NoArgs, Elem.NoArgs]⟩
  · exact itoa_num 2
  · exact itoa_num 3

/-- `f(1 + 2 * 3, x) - 4`: the arguments of the call are grouped like the expression. -/
def sampleCall : Grouping :=
  .bin b!"-" (.atom (.path b!"f" (.cons (.call (.cons (.op (.num b!"1") b!"+" (.op (.num b!"2") b!"*" (.one (.num b!"3"))))
    (.cons (.one (.path b!"x" .nil)) .nil))) .nil))) (.atom (.num b!"4"))

theorem sampleCall_ok : sampleCall.Ok E :=
  ⟨by simp [Op], trivial, trivial,
    ⟨nameA E 102 (by unfold AsciiLetter; decide), ⟨102, [], rfl, by unfold AsciiLetter; decide⟩, ⟨⟨itoa_num 1, by simp [Op], itoa_num 2, by simp [Op], itoa_num 3⟩,
      ⟨⟨nameA E 120 (by unfold AsciiLetter; decide), ⟨120, [], rfl, by unfold AsciiLetter; decide⟩, trivial⟩, trivial⟩⟩, trivial⟩, itoa_num 4⟩

example : newExpression E b!"f(1 + 2 * 3, x) - 4" = .ok (exprOf (.node (.str b!"-") [
    .node (.str b!"!p") [leaf b!"f", .node (.str b!"!a") [
      exprOf (.node (.str b!"+") [leaf b!"1", .node (.str b!"*") [leaf b!"2", leaf b!"3"]]),
      exprOf (.node (.str b!"!p") [leaf b!"x"])]],
    leaf b!"4"])) :=
  (newExpression_full (sampleCall_ok E) (.short (by decide))).trans rfl

/-- C32: in the sample graph `a.d + 2 * 3` is 7. -/
example : ∃ e, newExpression E b!"a.d + 2 * 3" = .ok e ∧ sampleGraph.eval E e = .ok ((.int .int64 7, none), sampleGraph) :=
  C32_value_partial E sampleGraph sampleSum _ (sampleSum_ok E) (sampleGraph_data E).1 (sampleSum_means E) (.short (by decide))

/-- C33: the largest int64 plus one is the smallest. -/
example (g : Graph) (hg : NoNil g) : ∃ e, newExpression E b!"9223372036854775807 + 1" = .ok e ∧
    g.eval E e = .ok ((.int .int64 (-9223372036854775808), none), g) :=
  C33_text_partial E g hg b!"+" 9223372036854775807 1 (-9223372036854775808) (by decide)

/-- C33: the remainder has the sign of the dividend; here the operands are a product and a
uint8 of the context. -/
example (g : Graph) (h : g = .node .nil [.node (.str b!"u") [.node (.int .uint8 200) []]]) :
    g.eval E (binary b!"%" (.node (.str b!"*") [leaf b!"-101", leaf b!"7"]) (pathOf [b!"u"])) = .ok ((.int .int64 (-107), none), g) := by
  subst h
  rfl

/-- C33_partial, C34, C35: values of operands. -/
example (g : Graph) : g.eval E (exprOf (leaf (itoa (5 : Int64).toInt))) = .ok ((.int .int64 5, none), g) ∧ asInt (.int .int64 5) = some 5 ∧
    g.eval E (exprOf (leaf (itoa (-3 : Int64).toInt))) = .ok ((.int .int64 (-3), none), g) ∧ arith b!"/" 5 (-3) = some (-1) :=
  ⟨eval_expression (evals_int 5 g), rfl, eval_expression (evals_int (-3) g), by decide⟩

/-- C33_zero: 5 and 0. -/
example (g : Graph) : g.eval E (binary b!"/" (leaf b!"5") (leaf b!"0")) = .panic :=
  C33_zero E b!"/" (.inl rfl) _ _ g g g _ _ 5 (eval_expression (evals_int 0 g)) (eval_expression (evals_int 5 g)) rfl rfl

/-- Bytes as floats for the examples: `1.5` is 3 and an integer `i` twice itself. -/
def halves (E : Ext) : Ext :=
  { E with
    parseFloat := fun s => if s = b!"1.5" then some 3 else none
    toInt := fun x => (x.toNat / 2 : Nat)
    ofInt := fun i => UInt64.ofInt (2 * i)
    fadd := (· + ·)
    feq := fun a b => a == b
    flt := fun a b => decide (a < b) }

/-- C95: 2 + 1.5, and 7 % 1.5 by the integral parts. -/
example (g : Graph) : g.eval (halves E) (binary b!"+" (leaf b!"2") (leaf b!"1.5")) = .ok ((.f64 7, none), g) ∧
    g.eval (halves E) (binary b!"%" (leaf b!"7") (leaf b!"1.5")) = .ok ((.int .int 0, none), g) := by
  have hn : Num b!"1.5" := ⟨[], b!"1", b!".5", .inl rfl, by simp, by simp [Digit], .inr ⟨b!"5", rfl, by simp [Digit]⟩, rfl⟩
  have e := eval_expression (evals_float (E := halves E) (f := 3) hn (by simp) rfl g)
  exact ⟨C95_partial (halves E) b!"+" _ _ g g g _ _ _ 4 3 e (eval_expression (evals_int 2 g)) rfl rfl (.inr rfl) rfl,
    C95_partial (halves E) b!"%" _ _ g g g _ _ _ 14 3 e (eval_expression (evals_int 7 g)) rfl rfl (.inr rfl) rfl⟩

/-- C95_zero: 7 % x where x is the float for a half.  C95_word: 2 + "x". -/
example (g : Graph) (h : g = .node .nil [.node (.str b!"x") [.node (.f64 1) []]]) :
    g.eval (halves E) (binary b!"%" (leaf b!"7") (pathOf [b!"x"])) = .panic ∧
    g.eval (halves E) (binary b!"+" (leaf b!"2") (.node (.str b!"!string") [leaf b!"x"])) = .ok ((.f64 4, none), g) := by
  have e : g.eval (halves E) (exprOf (pathOf [b!"x"])) = .ok ((.f64 1, none), g) := by subst h; rfl
  exact ⟨C95_zero (halves E) _ _ g g g _ _ 14 1 e (eval_expression (evals_int 7 g)) rfl rfl (.inr rfl) rfl,
    C95_word (halves E) b!"+" _ _ g g g _ _ b!"x" 4 (eval_expression (evals_str b!"x" g)) (eval_expression (evals_int 2 g)) rfl rfl rfl⟩

/-- C96: 1.5 < 2, and the hypotheses of C96_refuted. -/
example (g : Graph) : g.eval (halves E) (binary b!"<" (leaf b!"1.5") (leaf b!"2")) = .ok ((.bool true, none), g) ∧
    ∃ e, newExpression (halves E) b!"1 == 1.5" = .ok e ∧ g.eval (halves E) e = .ok ((.bool true, none), g) := by
  have hn : Num b!"1.5" := ⟨[], b!"1", b!".5", .inl rfl, by simp, by simp [Digit], .inr ⟨b!"5", rfl, by simp [Digit]⟩, rfl⟩
  have e := eval_expression (evals_float (E := halves E) (f := 3) hn (by simp) rfl g)
  exact ⟨C96_partial (halves E) b!"<" _ _ g g g _ _ 3 4 true (eval_expression (evals_int 2 g)) e (.inl ⟨_, rfl⟩) rfl rfl rfl,
    (C96_refuted (halves E) g 3 rfl rfl rfl).1⟩

/-- C32_value: `1.5 + 2 == 3` is a comparison of floats. -/
example (g : Graph) (hg : NoNil g) : ∃ e, newExpression (halves E) b!"1.5 + 2 == 3" = .ok e ∧ g.eval (halves E) e = .ok ((.bool false, none), g) := by
  have hn : Num b!"1.5" := ⟨[], b!"1", b!".5", .inl rfl, by simp, by simp [Digit], .inr ⟨b!"5", rfl, by simp [Digit]⟩, rfl⟩
  refine C32_value_partial (halves E) g (.bin b!"==" (.bin b!"+" (.atom (.num b!"1.5")) (lit 2)) (lit 3)) _ ?_ hg ?_ (.short (by decide))
  · exact ⟨by simp [Op], (by decide : level b!"==" ≤ level b!"+"), trivial, ⟨by simp [Op], trivial, trivial, hn, itoa_num _⟩, itoa_num _⟩
  · exact .bin _ _ _ _ _ _ (.bin _ _ _ _ _ _ (.float b!"1.5" 3 (by simp) rfl) (.int 2) (.float (a := 3) (b := 4) rfl rfl (.inl rfl) rfl)) (.int 3)
      (.floatCompare (a := 7) (b := 6) (.inl ⟨_, rfl⟩) rfl rfl rfl)

/-- C34_texts: two texts. -/
example (g : Graph) : g.eval E (exprOf (.node (.str b!"!string") [leaf b!"x y"])) = .ok ((.str b!"x y", none), g) :=
  eval_expression (evals_str _ g)

/-- C35: the text `true` and the int 0. -/
example : bothTruths (· && ·) (.str b!"true") (.int .int 0) = false ∧ bothTruths (· || ·) (.str b!"true") (.int .int 0) = true ∧
    bothTruths (· || ·) (.bool true) (.str b!"yes") = false := by decide

/-- C36: the tree of `a.d + 2 * 3` has no assignment in it. -/
example : NoAssignment E (exprOf sampleSum.tree) := by
  have h2 : itoa 2 = b!"2" := by decide
  have h3 : itoa 3 = b!"3" := by decide
  simp [NoAssignment, exprOf, sampleSum, lit, Grouping.tree, Opnd.tree, names, Elems.trees, Elem.tree, leaf, AllThis, AllThisL, vstr,
    assignments, h2, h3]

/-- C36_get: a path with an index and an argument list. -/
example : ∃ p, newPath E b!"a[1].b(2)" = .ok p ∧ NoAssignment E p := by
  refine ⟨.node (.str b!"!p") [leaf b!"a", .node (.str b!"!i") [leaf b!"1"], leaf b!"b", .node (.str b!"!a") [.node (.str b!"!e") [leaf b!"2"]]], ?_, ?_⟩
  · unfold newPath newPathFuel
    rw [runParser_short _ _ (by decide) (runeOk_path E _ _)]
    rfl
  · simp [NoAssignment, leaf, AllThis, AllThisL, vstr, assignments]

/-- C37: `a.b = a.d + 2 * 3` in the sample graph. -/
example : ∃ e r g', newExpression E b!"a.b = a.d + 2 * 3" = .ok e ∧ sampleGraph.eval E e = .ok ((r, none), g') ∧
    AssignedIn E sampleGraph g' [b!"a", b!"b"] (.int .int64 7) := by
  have h1 := nameA E 97 (by unfold AsciiLetter; decide)
  have h2 := nameA E 98 (by unfold AsciiLetter; decide)
  refine C37_partial E sampleGraph b!"a" [b!"b"] sampleSum _ ⟨by simp, ?_⟩ ⟨97, [], rfl, by unfold AsciiLetter; decide⟩ (sampleSum_ok E)
    (show 1 ≤ 4 by decide) (sampleSum_means E) (sampleGraph_data E) (by simp) (by simp) (.short (by decide)) (.short (by decide))
  intro id hid
  simp only [List.mem_cons, List.not_mem_nil, or_false] at hid
  rcases hid with rfl | rfl
  · exact h1
  · exact h2

/-- C37: `a.d -= a.d + 2 * 3`: 1 - 7. -/
example : ∃ e r g', newExpression E b!"a.d -= a.d + 2 * 3" = .ok e ∧ sampleGraph.eval E e = .ok ((r, none), g') ∧
    AssignedIn E sampleGraph g' [b!"a", b!"d"] (.int .int64 (-6)) := by
  refine C37_update_partial E sampleGraph b!"a" [b!"d"] sampleSum b!"-" (.str b!"d") _ (.int .int 1) _ [] [] (samplePath E)
    ⟨97, [], rfl, by unfold AsciiLetter; decide⟩ (sampleSum_ok E) (show 1 ≤ 4 by decide) (sampleSum_means E) (sampleGraph_data E) ?_ (by simp)
    (.arith (a := 1) (b := 7) (c := -6) rfl rfl (by decide)) (.short (by decide)) (.short (by decide))
  have hlook : lookup E [b!"a", b!"d"] sampleGraph = .node (.str b!"d") [.node (.int .int 1) []] := by
    simp [lookup, firstNamed, Graph.thisString, vstr, sampleGraph]
  rw [get_names (samplePath E) (.short (by decide)) (.inr (sampleGraph_data E)), hlook]

end

end Ogdl
