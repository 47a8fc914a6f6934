import Verif.Lemmas.Call
import Verif.Props.Expr

/-!
# Negation, parentheses and calls (C57 – C59)
-/

namespace Ogdl
open Spec

/-! ## C57 -/

/-- A negation node negates the boolean that its operand stands for (false for values that
stand for none).  Missing: `NewExpression` does not build such a tree for paths
(`C57_refuted`). -/
theorem C57_partial (E : Ext) (n g g' : Graph) (v : Val) (h : g.eval E n = .ok ((v, none), g')) :
    g.eval E (exprOf (.node (.str b!"!") [n])) = .ok ((.bool !((truth v).getD false), none), g') :=
  eval_expression (evalExpr_not h)

/-- The context `a true, b true`. -/
def flags : Graph :=
  .node (.str b!"_") [.node (.str b!"a") [.node (.bool true) []], .node (.str b!"b") [.node (.str b!"c") [.node (.bool true) []]]]

/-- With `a` true in the context, `a` is true and `!a` is true as well; `!b.c` panics.
(`strconv.ParseFloat` refuses the text `a`.) -/
theorem C57_refuted (E : Ext) (hE : E.parseFloat b!"a" = none) :
    (∃ e, newExpression E b!"a" = .ok e ∧ flags.eval E e = .ok ((.bool true, none), flags)) ∧
    (∃ e, newExpression E b!"!a" = .ok e ∧ flags.eval E e = .ok ((.bool true, none), flags)) ∧
    (∃ e, newExpression E b!"!b.c" = .ok e ∧ flags.eval E e = .panic) := by
  have p1 : runParser (expression E (loopFuel b!"a") (flowFuel b!"a")) b!"a" = .ok (.node (.str b!"_") [pathOf [b!"a"]]) := by
    rw [runParser_short _ _ (by decide) (runeOk_expression E _ _)]; rfl
  have p2 : runParser (expression E (loopFuel b!"!a") (flowFuel b!"!a")) b!"!a" = .ok (.node (.str b!"_") [leaf b!"!", leaf b!"a"]) := by
    rw [runParser_short _ _ (by decide) (runeOk_expression E _ _)]; rfl
  have p3 : runParser (expression E (loopFuel b!"!b.c") (flowFuel b!"!b.c")) b!"!b.c" =
      .ok (.node (.str b!"_") [leaf b!"!", leaf b!"b", leaf b!"c"]) := by
    rw [runParser_short _ _ (by decide) (runeOk_expression E _ _)]; rfl
  refine ⟨⟨exprOf (pathOf [b!"a"]), ?_, ?_⟩, ⟨exprOf (.node (.str b!"!") [leaf b!"a"]), ?_, ?_⟩,
    ⟨.node (.str b!"!e") [leaf b!"!", leaf b!"b", leaf b!"c"], ?_, ?_⟩⟩
  · simp [newExpression, p1, Graph.astBody, exprOf, tyExpression]
  · have h := evals_path (E := E) (ids := [b!"a"]) (g := flags) (by simp)
      (fun id hid => by
        simp only [List.mem_cons, List.not_mem_nil, or_false] at hid
        subst hid
        exact ⟨nameA E 97 (by unfold AsciiLetter; decide), by decide⟩)
      (by simp [flags, NoNil, NoNilL]) (by simp [lookup, firstNamed, Graph.thisString, vstr, flags, Graph.isNil])
    rw [exprOf, eval_expression h]
    simp [lookup, firstNamed, Graph.thisString, vstr, flags, simplify]
  · simp [newExpression, p2, Graph.astBody, Graph.astEach, Graph.astList, leaf, Graph.thisString, vstr, Graph.add, exprOf, tyExpression]
    rfl
  · refine C57_partial E (leaf b!"a") flags flags (.str b!"a") ?_
    have hs : (leaf b!"a").thisScalar E = .ok (.str b!"a") := by
      have hn : number' E (.str b!"a") = (match E.parseFloat b!"a" with | some f => .ok (.f64 f) | none => .ok .nil) := rfl
      rw [hE] at hn
      simp only [leaf, Graph.thisScalar, scalarOf, hn, Res.ok_bind]
      rfl
    have : flags.eval E (leaf b!"a") = (do let v ← .lift ((leaf b!"a").thisScalar E); pure (v, none) : EvalM (Val × Option Err)) flags := rfl
    rw [this, hs]; rfl
  · simp [newExpression, p3, Graph.astBody, Graph.astEach, Graph.astList, leaf, astPasses, astPass, precedence, Graph.thisString, vstr, tyExpression]
  · rfl

/-! ## C58 -/

/-- No parenthesised expression with an operator has a value: it panics, in every context
in which its first operand has a value. -/
theorem C58_panics (E : Ext) (g : Graph) (o : Opnd) (s : Bytes) (x : Expr) (v : Val) (hg : NoNil g) (hx : (Expr.op o s x).Ok E)
    (hv : Means E g (.atom o) v) (hl : Fits (b!"(" ++ (Expr.op o s x).text ++ b!")")) :
    ∃ e, newExpression E (b!"(" ++ (Expr.op o s x).text ++ b!")") = .ok e ∧ g.eval E e = .panic := by
  have h := newExpression_exact (E := E) (x := .one (.paren (.op o s x))) hx (by simpa [Expr.text, Opnd.text] using hl)
    (t := .atom (.paren (.op o s x))) hx rfl rfl
  refine ⟨_, by simpa [Expr.text, Opnd.text] using h, ?_⟩
  have hv' := means_evals hg hv (E := E) hx.1
  have := evalExpr_group (E := E) (rest := x.trees) hx.2.1 hv'
  simpa only [Grouping.tree, Grouping.full, Opnd.tree, Expr.trees, exprOf] using this

/-- A single operand in parentheses has as value a graph with the value of the operand
as its only subnode. -/
theorem C58_partial (E : Ext) (g : Graph) (o : Opnd) (v : Val) (hg : NoNil g) (ho : o.Ok E) (hv : Means E g (.atom o) v)
    (h1 : v ≠ .nil) (h2 : ∀ h, v ≠ .graph h) (hl : Fits (b!"(" ++ o.text ++ b!")")) :
    ∃ e, newExpression E (b!"(" ++ o.text ++ b!")") = .ok e ∧
      g.eval E e = .ok ((.graph (.node (.str b!"!g") [.node v []]), none), g) := by
  have h := newExpression_exact (E := E) (x := .one (.paren (.one o))) ho (by simpa [Expr.text, Opnd.text] using hl)
    (t := .atom (.paren (.one o))) ho rfl rfl
  refine ⟨_, by simpa [Expr.text, Opnd.text] using h, ?_⟩
  have := evalExpr_group_one (means_evals hg hv (E := E) ho)
  simp only [Grouping.tree, Grouping.full, Opnd.tree, Expr.trees, exprOf] at this ⊢
  rw [this]
  cases v with
  | nil => exact absurd rfl h1
  | graph x => exact absurd rfl (h2 x)
  | _ => rfl

/-- `(1 + 2) * 3` and `(1 + 2)` panic, `1 + 2` does not. -/
theorem C58_refuted (E : Ext) :
    (∃ e, newExpression E b!"1 + 2" = .ok e ∧ flags.eval E e = .ok ((.int .int64 3, none), flags)) ∧
    (∃ e, newExpression E b!"(1 + 2)" = .ok e ∧ flags.eval E e = .panic) ∧
    (∃ e, newExpression E b!"(1 + 2) * 3" = .ok e ∧ flags.eval E e = .panic) := by
  have hg : NoNil flags := by simp [flags, NoNil, NoNilL]
  refine ⟨?_, ?_, ?_⟩
  · exact C33_text_partial E flags hg b!"+" 1 2 3 (by decide)
  · exact C58_panics E flags (.num (itoa (1 : Int64).toInt)) b!"+" (.one (.num (itoa (2 : Int64).toInt))) _ hg
      ⟨itoa_num _, by simp [Op], itoa_num _⟩ (.int 1) (.short (by decide))
  · refine ⟨exprOf (.node (.str b!"*") [.node (.str b!"!g") [leaf b!"1", leaf b!"+", leaf b!"2"], leaf b!"3"]), ?_, ?_⟩
    · have p1 : runParser (expression E (loopFuel b!"(1 + 2) * 3") (flowFuel b!"(1 + 2) * 3")) b!"(1 + 2) * 3" =
          .ok (.node (.str b!"_") [.node (.str b!"!g") [leaf b!"1", leaf b!"+", leaf b!"2"], leaf b!"*", leaf b!"3"]) := by
        rw [runParser_short _ _ (by decide) (runeOk_expression E _ _)]; rfl
      simp [newExpression, p1, Graph.astBody, Graph.astEach, Graph.astList, leaf, astPasses, astPass, precedence, Graph.thisString, vstr, tyExpression,
        tyGroup, Graph.add, exprOf]
      exact ⟨rfl, rfl⟩
    · rfl

/-! ## C59 -/

/-- Arguments that are single operands. -/
def argsOf : List Opnd → Args
  | [] => .nil
  | o :: os => .cons (.one o) (argsOf os)

theorem argsOf_trees : ∀ os : List Opnd, (argsOf os).trees = (os.map Opnd.tree).map exprOf
  | [] => rfl
  | o :: os => by simp [argsOf, Args.trees, argsOf_trees os, Expr.trees, exprOf]

theorem argsOf_ok {E : Ext} : ∀ {os : List Opnd}, (∀ o ∈ os, o.Ok E) → (argsOf os).Ok E
  | [], _ => trivial
  | o :: os, h => ⟨h o (by simp), argsOf_ok fun x hx => h x (by simp [hx])⟩

/-- The call `f(a, b, …)` of a Go function in the context, with any number of arguments
that are constants or paths: the function is called with their values in order, and the
call has the value it returns.  `args` lists the arguments with their values.  Missing:
arguments with operators and functions reached by longer paths (`C59_refuted`), methods,
results that are graphs. -/
theorem C59_partial (E : Ext) (g : Graph) (f : Bytes) (args : List (Opnd × Val)) (tag : Nat) (ins : List Bytes)
    (fn : List Val → Option (Option Val)) (t r : Val) (k rest : List Graph) (hf : Name E f) (hc : ∃ c s, f = c :: s ∧ AsciiLetter c)
    (hr : f ∉ reserved) (hg : NoNil g) (hl : lookup E [f] g = .node t (.node (.other tag) k :: rest))
    (hfn : E.callable (.other tag) = .func false ins fn) (ha : ∀ a ∈ args, a.1.Ok E ∧ Means E g (.atom a.1) a.2 ∧ a.2 ≠ .nil)
    (ht : ins = args.map (fun a => typeName E a.2)) (hcall : fn (args.map (·.2)) = some (some r)) (hr' : ∀ h, r ≠ .graph h)
    (hlen : Fits (f ++ b!"(" ++ (argsOf (args.map (·.1))).text ++ b!")")) :
    ∃ e, newExpression E (f ++ b!"(" ++ (argsOf (args.map (·.1))).text ++ b!")") = .ok e ∧ g.eval E e = .ok ((r, none), g) := by
  have htext : (Expr.one (.path f (.cons (.call (argsOf (args.map (·.1)))) .nil))).text =
      f ++ b!"(" ++ (argsOf (args.map (·.1))).text ++ b!")" := by simp [Expr.text, Opnd.text, Elems.text, Elem.text]
  have hok : (Expr.one (.path f (.cons (.call (argsOf (args.map (·.1)))) .nil))).Ok E := by
    refine ⟨hf, hc, argsOf_ok fun o ho => ?_, trivial⟩
    obtain ⟨a, h1, rfl⟩ := List.mem_map.1 ho
    exact (ha a h1).1
  have hraw := rawExpr_exact E _ hok (by rw [htext]; exact hlen)
  rw [htext] at hraw
  refine ⟨exprOf (callTree f ((args.map fun a => (a.1.tree, a.2)).map (·.1))), ?_, ?_⟩
  · unfold newExpression
    rw [hraw]
    simp only [Res.ok_bind, Expr.trees, Opnd.tree, Elems.trees, Elem.tree, argsOf_trees]
    rw [Graph.astBody, if_pos (by simp)]
    simp [exprOf, callTree, Function.comp_def]
    rfl
  · have h1 : ∀ a ∈ args.map (fun a => (a.1.tree, a.2)), Evals E a.1 g a.2 g := by
      intro a h
      obtain ⟨b, h1, rfl⟩ := List.mem_map.1 h
      exact means_evals hg (ha b h1).2.1 (ha b h1).1
    have h2 : ∀ a ∈ args.map (fun a => (a.1.tree, a.2)), a.2 ≠ .nil := by
      intro a h
      obtain ⟨b, h1, rfl⟩ := List.mem_map.1 h
      exact (ha b h1).2.2
    have h3 : ins = (args.map (fun a => (a.1.tree, a.2))).map (fun a => typeName E a.2) := by rw [ht, List.map_map]; rfl
    have h4 : fn ((args.map (fun a => (a.1.tree, a.2))).map (·.2)) = some (some r) := by rw [List.map_map]; exact hcall
    exact eval_expression (evals_call hf hr hg hl hfn h1 h2 h3 h4 hr')

/-- A context with the function `f` and, under `l`, the function `f` again. -/
def funcs : Graph :=
  .node (.str b!"_") [.node (.str b!"f") [.node (.other 0) []], .node (.str b!"l") [.node (.str b!"f") [.node (.other 0) []]]]

/-- A world in which value number 0 is the identity function on int64. -/
def withIdentity (E : Ext) : Ext := { E with callable := fun _ => .func false [b!"int64"] (fun vs => some vs.head?) }

/-- With the identity function as `f`: `f(1 + 2)` gives 1, and `l.f(1)`, the same function
under `l`, is refused because of its number of arguments. -/
theorem C59_refuted (E : Ext) :
    (∃ e, newExpression (withIdentity E) b!"f(1 + 2)" = .ok e ∧ funcs.eval (withIdentity E) e = .ok ((.int .int64 1, none), funcs)) ∧
    (∃ e, newExpression (withIdentity E) b!"l.f(1)" = .ok e ∧ funcs.eval (withIdentity E) e = .ok ((.nil, some .argCount), funcs)) := by
  have p1 : runParser (expression (withIdentity E) (loopFuel b!"f(1 + 2)") (flowFuel b!"f(1 + 2)")) b!"f(1 + 2)" =
      .ok (.node (.str b!"_") [.node (.str b!"!p") [leaf b!"f", .node (.str b!"!a") [.node (.str b!"!e") [leaf b!"1", leaf b!"+", leaf b!"2"]]]]) := by
    rw [runParser_short _ _ (by decide) (runeOk_expression _ _ _)]; rfl
  have p2 : runParser (expression (withIdentity E) (loopFuel b!"l.f(1)") (flowFuel b!"l.f(1)")) b!"l.f(1)" =
      .ok (.node (.str b!"_") [.node (.str b!"!p") [leaf b!"l", leaf b!"f", .node (.str b!"!a") [.node (.str b!"!e") [leaf b!"1"]]]]) := by
    rw [runParser_short _ _ (by decide) (runeOk_expression _ _ _)]; rfl
  refine ⟨⟨.node (.str b!"!e") [.node (.str b!"!p") [leaf b!"f", .node (.str b!"!a") [.node (.str b!"!e") [leaf b!"1", leaf b!"+", leaf b!"2"]]]], ?_, ?_⟩,
    ⟨.node (.str b!"!e") [.node (.str b!"!p") [leaf b!"l", leaf b!"f", .node (.str b!"!a") [.node (.str b!"!e") [leaf b!"1"]]]], ?_, ?_⟩⟩
  · simp [newExpression, p1, Graph.astBody, tyExpression]
  · rfl
  · simp [newExpression, p2, Graph.astBody, tyExpression]
  · rfl

/-! ## The hypotheses are met -/

/-- C57: negation of a path and of an integer. -/
example (E : Ext) : flags.eval E (pathOf [b!"a"]) = .ok ((.bool true, none), flags) ∧
    flags.eval E (exprOf (.node (.str b!"!") [pathOf [b!"a"]])) = .ok ((.bool false, none), flags) ∧
    flags.eval E (exprOf (.node (.str b!"!") [exprOf (leaf b!"0")])) = .ok ((.bool true, none), flags) :=
  ⟨rfl, C57_partial E _ flags flags (.bool true) rfl, C57_partial E _ flags flags _ (eval_expression (evals_int 0 flags))⟩

/-- C58: `(2 * 3 - 1)` panics. -/
example (E : Ext) : ∃ e, newExpression E b!"(2 * 3 - 1)" = .ok e ∧ flags.eval E e = .panic :=
  C58_panics E flags (.num (itoa (2 : Int64).toInt)) b!"*" (.op (.num b!"3") b!"-" (.one (.num b!"1"))) _ (by simp [flags, NoNil, NoNilL])
    ⟨itoa_num _, by simp [Op], itoa_num 3, by simp [Op], itoa_num 1⟩ (.int 2) (.short (by decide))

/-- C58: `(2)` is a group with 2 in it. -/
example (E : Ext) : ∃ e, newExpression E b!"(2)" = .ok e ∧
    flags.eval E e = .ok ((.graph (.node (.str b!"!g") [.node (.int .int64 2) []]), none), flags) :=
  C58_partial E flags (.num (itoa (2 : Int64).toInt)) _ (by simp [flags, NoNil, NoNilL]) (itoa_num _) (.int 2)
    (by simp) (by simp) (.short (by decide))

/-- A world in which value number 0 is a function of an int64 and a text that returns
the text. -/
def withSecond (E : Ext) : Ext := { E with callable := fun _ => .func false [b!"int64", b!"string"] (fun vs => some vs[1]?) }

/-- C59: the call `f(7, "x")`. -/
example (E : Ext) : ∃ e, newExpression (withSecond E) b!"f(7, \"x\")" = .ok e ∧
    funcs.eval (withSecond E) e = .ok ((.str b!"x", none), funcs) :=
  C59_partial (withSecond E) funcs b!"f" [(.num (itoa (7 : Int64).toInt), ofInt64 7), (.str b!"x", .str b!"x")] 0 [b!"int64", b!"string"]
    (fun vs => some vs[1]?) (.str b!"f") (.str b!"x") [] [] (nameA _ 102 (by unfold AsciiLetter; decide))
    ⟨102, [], rfl, by unfold AsciiLetter; decide⟩ (by decide) (by simp [funcs, NoNil, NoNilL])
    (by simp [lookup, firstNamed, Graph.thisString, vstr, funcs]) rfl
    (by
      intro a ha
      simp only [List.mem_cons, List.not_mem_nil, or_false] at ha
      rcases ha with rfl | rfl
      · exact ⟨itoa_num _, .int 7, by simp [ofInt64]⟩
      · exact ⟨⟨by decide, by simp [LoneSlashes], by decide⟩, .str _, by simp⟩)
    rfl rfl (by simp) (.short (by decide))

end Ogdl
