import Verif.Lemmas.Method
import Verif.Props.Index

/-!
# Calls that are refused, and methods (C74, C75)
-/

namespace Ogdl
open Spec

/-- The text of the call `f(o1, o2, …)` gives the expected tree. -/
theorem newExpression_call (E : Ext) {f : Bytes} {os : List Opnd} (hf : Name E f) (hc : ∃ c s, f = c :: s ∧ AsciiLetter c) (ho : ∀ o ∈ os, o.Ok E)
    (hlen : Fits (f ++ b!"(" ++ (argsOf os).text ++ b!")")) :
    newExpression E (f ++ b!"(" ++ (argsOf os).text ++ b!")") = .ok (exprOf (callTree f (os.map Opnd.tree))) := by
  have htext : (Expr.one (.path f (.cons (.call (argsOf os)) .nil))).text = f ++ b!"(" ++ (argsOf os).text ++ b!")" := by
    simp [Expr.text, Opnd.text, Elems.text, Elem.text]
  have hok : (Expr.one (.path f (.cons (.call (argsOf os)) .nil))).Ok E := ⟨hf, hc, argsOf_ok ho, trivial⟩
  have hraw := rawExpr_exact E _ hok (by rw [htext]; exact hlen)
  rw [htext] at hraw
  unfold newExpression
  rw [hraw]
  simp only [Res.ok_bind, Expr.trees, Opnd.tree, Elems.trees, Elem.tree, argsOf_trees]
  rw [Graph.astBody, if_pos (by simp)]
  simp [exprOf, callTree, Function.comp_def]
  rfl

theorem newExpression_method (E : Ext) {obj m : Bytes} {os : List Opnd} (hf : Name E obj) (hc : ∃ c s, obj = c :: s ∧ AsciiLetter c) (hm : Name E m)
    (ho : ∀ o ∈ os, o.Ok E) (hlen : Fits (obj ++ b!"." ++ m ++ b!"(" ++ (argsOf os).text ++ b!")")) :
    newExpression E (obj ++ b!"." ++ m ++ b!"(" ++ (argsOf os).text ++ b!")") = .ok (exprOf (methodTree obj m (os.map Opnd.tree))) := by
  have htext : (Expr.one (.path obj (.cons (.name m) (.cons (.call (argsOf os)) .nil)))).text = obj ++ b!"." ++ m ++ b!"(" ++ (argsOf os).text ++ b!")" := by
    simp [Expr.text, Opnd.text, Elems.text, Elem.text]
  have hok : (Expr.one (.path obj (.cons (.name m) (.cons (.call (argsOf os)) .nil)))).Ok E := ⟨hf, hc, hm, argsOf_ok ho, trivial⟩
  have hraw := rawExpr_exact E _ hok (by rw [htext]; exact hlen)
  rw [htext] at hraw
  unfold newExpression
  rw [hraw]
  simp only [Res.ok_bind, Expr.trees, Opnd.tree, Elems.trees, Elem.tree, argsOf_trees]
  rw [Graph.astBody, if_pos (by simp)]
  simp [exprOf, methodTree, Function.comp_def]
  rfl

/-! ## C74 -/

/-- A call with a wrong number of arguments, or with an argument of another type, gives
an error and does not call the function: this holds for every `fn`, also one that panics.
Missing: arguments without value (`C74_refuted`). -/
theorem C74_partial (E : Ext) (g : Graph) (f : Bytes) (args : List (Opnd × Val)) (tag : Nat) (ins : List Bytes)
    (fn : List Val → Option (Option Val)) (t : Val) (k rest : List Graph) (hf : Name E f) (hc : ∃ c s, f = c :: s ∧ AsciiLetter c)
    (hr : f ∉ reserved) (hg : NoNil g) (hl : lookup E [f] g = .node t (.node (.other tag) k :: rest))
    (hfn : E.callable (.other tag) = .func false ins fn) (ha : ∀ a ∈ args, a.1.Ok E ∧ Means E g (.atom a.1) a.2 ∧ a.2 ≠ .nil)
    (ht : ins ≠ args.map (fun a => typeName E a.2))
    (hlen : Fits (f ++ b!"(" ++ (argsOf (args.map (·.1))).text ++ b!")")) :
    ∃ e, newExpression E (f ++ b!"(" ++ (argsOf (args.map (·.1))).text ++ b!")") = .ok e ∧
      g.eval E e = .ok ((.nil, some (if ins.length = args.length then .argTypes else .argCount)), g) := by
  refine ⟨_, newExpression_call E hf hc (fun o ho => ?_) hlen, ?_⟩
  · obtain ⟨a, h1, rfl⟩ := List.mem_map.1 ho
    exact (ha a h1).1
  · have h1 : ∀ a ∈ args.map (fun a => (a.1.tree, a.2)), Evals E a.1 g a.2 g := by
      intro a h
      obtain ⟨b, h1, rfl⟩ := List.mem_map.1 h
      exact means_evals hg (ha b h1).2.1 (ha b h1).1
    have h2 : ∀ v ∈ args.map (·.2), v ≠ .nil := by
      intro v h
      obtain ⟨b, h1, rfl⟩ := List.mem_map.1 h
      exact (ha b h1).2.2
    have h3 : (args.map (fun a => (a.1.tree, a.2))).map (·.2) = args.map (·.2) := by rw [List.map_map]; rfl
    have h4 : (args.map (fun a => (a.1.tree, a.2))).map (·.1) = (args.map (·.1)).map Opnd.tree := by rw [List.map_map, List.map_map]; rfl
    rw [← h4]
    refine eval_call_err hf hr hg hl hfn h1 ?_
    rw [h3]
    split
    · rename_i hn
      exact callFunc_types h2 (by simpa using hn) (by rw [List.map_map]; exact ht)
    · rename_i hn
      exact callFunc_count h2 (by simpa using hn)

/-- A world in which value number 0 is a function without parameters. -/
def withConst (E : Ext) : Ext := { E with callable := fun _ => .func false [] (fun _ => some (some (.str b!"c"))) }

/-- An argument too many that has no value (`x` is not in the context) panics instead of
giving an error.  (`l` is there so that `x` is not looked up in an empty graph.) -/
theorem C74_refuted (E : Ext) : ∃ e, newExpression (withConst E) b!"f(l.x)" = .ok e ∧
    (Graph.node (.str b!"_") [.node (.str b!"f") [.node (.other 0) []], .node (.str b!"l") [leaf b!"y"]]).eval (withConst E) e = .panic := by
  refine ⟨_, newExpression_call (withConst E) (f := b!"f") (os := [.path b!"l" (names [b!"x"])]) (nameA _ 102 (by unfold AsciiLetter; decide))
    ⟨102, [], rfl, by unfold AsciiLetter; decide⟩ ?_ (.short (by decide)), rfl⟩
  intro o ho
  rw [List.mem_singleton.1 ho]
  exact ⟨nameA _ 108 (by unfold AsciiLetter; decide), ⟨108, [], rfl, by unfold AsciiLetter; decide⟩, nameA _ 120 (by unfold AsciiLetter; decide), trivial⟩

/-! ## C75 -/

/-- `obj.m(a, b, …)`, with a pointer to something with a method `m` under `obj`, calls the
method with the values of the arguments, adapted to the types of its parameters, and has
the value it returns.  Missing: arguments that cannot be adapted (`C75_refuted`), arguments
with operators, objects reached by longer paths. -/
theorem C75_partial (E : Ext) (g : Graph) (obj m : Bytes) (args : List (Opnd × Val)) (tag : Nat)
    (method : Bytes → Option (List Bytes × (List Val → Option (Option Val)))) (ins : List Bytes) (fn : List Val → Option (Option Val)) (ws : List Val)
    (t r : Val) (k rest : List Graph) (hobj : Name E obj) (hc : ∃ c s, obj = c :: s ∧ AsciiLetter c) (hr : obj ∉ reserved) (hm : Name E m)
    (hr' : m ∉ reserved) (hg : NoNil g) (hl : lookup E [obj] g = .node t (.node (.other tag) k :: rest))
    (hnot : firstNamed E m (.node (.other tag) k :: rest) = .nil) (hptr : E.callable (.other tag) = .ptr method) (hme : method m = some (ins, fn))
    (ha : ∀ a ∈ args, a.1.Ok E ∧ ArgValue E g a.1 a.2) (hw : MethodArgs E ins (args.map (·.2)) ws) (hfn : fn ws = some (some r))
    (hlen : Fits (obj ++ b!"." ++ m ++ b!"(" ++ (argsOf (args.map (·.1))).text ++ b!")")) :
    ∃ e, newExpression E (obj ++ b!"." ++ m ++ b!"(" ++ (argsOf (args.map (·.1))).text ++ b!")") = .ok e ∧ g.eval E e = .ok ((r, none), g) := by
  refine ⟨_, newExpression_method E hobj hc hm (fun o ho => ?_) hlen, ?_⟩
  · obtain ⟨a, h1, rfl⟩ := List.mem_map.1 ho
    exact (ha a h1).1
  · have := evals_method hobj hr hm hr' hg hl hnot hptr hme ha hw hfn
    rw [List.map_map]
    exact eval_expression this

/-- A world in which value number 0 has a method `m` of an int64 and a text that returns
the text, and a method `n` of a bool. -/
def withMethods (E : Ext) : Ext :=
  { E with
    callable := fun _ => .ptr fun s =>
      if s = b!"m" then some ([b!"int64", b!"string"], fun vs => some vs[1]?)
      else if s = b!"n" then some ([b!"bool"], fun vs => some vs[0]?)
      else none
    fmtOther := fun _ => b!"obj" }

/-- A context with such an object as `o`, and `a` with the number 7. -/
def objects : Graph :=
  .node (.str b!"_") [.node (.str b!"o") [.node (.other 0) []], .node (.str b!"a") [.node (.int .int64 7) []]]

/-- An integer cannot be adapted to a bool: the call panics. -/
theorem C75_refuted (E : Ext) : ∃ e, newExpression (withMethods E) b!"o.n(1)" = .ok e ∧ objects.eval (withMethods E) e = .panic := by
  refine ⟨_, newExpression_method (withMethods E) (obj := b!"o") (m := b!"n") (os := [.num b!"1"]) (nameA _ 111 (by unfold AsciiLetter; decide))
    ⟨111, [], rfl, by unfold AsciiLetter; decide⟩ (nameA _ 110 (by unfold AsciiLetter; decide)) ?_ (.short (by decide)), rfl⟩
  intro o ho
  rw [List.mem_singleton.1 ho]
  exact itoa_num 1

/-! ## The hypotheses are met -/

/-- C74: one argument too many, and a wrong type. -/
example (E : Ext) : (∃ e, newExpression (withIdentity E) b!"f(1, 2)" = .ok e ∧ funcs.eval (withIdentity E) e = .ok ((.nil, some .argCount), funcs)) ∧
    (∃ e, newExpression (withIdentity E) b!"f(\"x\")" = .ok e ∧ funcs.eval (withIdentity E) e = .ok ((.nil, some .argTypes), funcs)) := by
  constructor
  · exact C74_partial (withIdentity E) funcs b!"f" [(.num (itoa (1 : Int64).toInt), ofInt64 1), (.num (itoa (2 : Int64).toInt), ofInt64 2)] 0 [b!"int64"]
      (fun vs => some vs.head?) (.str b!"f") [] [] (nameA _ 102 (by unfold AsciiLetter; decide))
      ⟨102, [], rfl, by unfold AsciiLetter; decide⟩ (by decide) (by simp [funcs, NoNil, NoNilL])
      (by simp [lookup, firstNamed, Graph.thisString, vstr, funcs]) rfl
      (by
        intro a ha
        simp only [List.mem_cons, List.not_mem_nil, or_false] at ha
        rcases ha with rfl | rfl
        · exact ⟨itoa_num _, .int 1, by simp [ofInt64]⟩
        · exact ⟨itoa_num _, .int 2, by simp [ofInt64]⟩)
      (by simp) (.short (by decide))
  · exact C74_partial (withIdentity E) funcs b!"f" [(.str b!"x", .str b!"x")] 0 [b!"int64"]
      (fun vs => some vs.head?) (.str b!"f") [] [] (nameA _ 102 (by unfold AsciiLetter; decide))
      ⟨102, [], rfl, by unfold AsciiLetter; decide⟩ (by decide) (by simp [funcs, NoNil, NoNilL])
      (by simp [lookup, firstNamed, Graph.thisString, vstr, funcs]) rfl
      (by
        intro a ha
        rw [List.mem_singleton.1 ha]
        exact ⟨⟨by decide, by simp [LoneSlashes], by decide⟩, .str _, by simp⟩)
      (by simp [typeName]) (.short (by decide))

/-- C75: `o.m(a, a)`: the node `a` as int64 and as text. -/
example (E : Ext) : ∃ e, newExpression (withMethods E) b!"o.m(a, a)" = .ok e ∧ objects.eval (withMethods E) e = .ok ((.str b!"7", none), objects) := by
  have hA : (Opnd.path b!"a" (names [])).Ok (withMethods E) :=
    ⟨nameA _ 97 (by unfold AsciiLetter; decide), ⟨97, [], rfl, by unfold AsciiLetter; decide⟩, trivial⟩
  have hlk : lookup (withMethods E) [b!"a"] objects = .node (.str b!"a") [.node (.int .int64 7) []] := by
    simp [lookup, firstNamed, Graph.thisString, vstr, objects]
  have hav : ArgValue (withMethods E) objects (.path b!"a" (names [])) (.graph (.node (.str b!"a") [.node (.int .int64 7) []])) := by
    have := ArgValue.path (E := withMethods E) (g := objects) b!"a" [] (by simp [reserved]) (by rw [hlk]; rfl)
    rwa [hlk] at this
  exact C75_partial (withMethods E) objects b!"o" b!"m" [(.path b!"a" (names []), .graph (.node (.str b!"a") [.node (.int .int64 7) []])),
    (.path b!"a" (names []), .graph (.node (.str b!"a") [.node (.int .int64 7) []]))] 0 _ [b!"int64", b!"string"]
    (fun vs => some vs[1]?) [.int .int64 7, .str b!"7"] (.str b!"o") (.str b!"7") [] [] (nameA _ 111 (by unfold AsciiLetter; decide))
    ⟨111, [], rfl, by unfold AsciiLetter; decide⟩ (by decide) (nameA _ 109 (by unfold AsciiLetter; decide)) (by decide)
    (by simp [objects, NoNil, NoNilL]) (by simp [lookup, firstNamed, Graph.thisString, vstr, objects])
    (by simp [firstNamed, Graph.thisString, vstr, withMethods]) rfl rfl
    (by
      intro a ha
      simp only [List.mem_cons, List.not_mem_nil, or_false, or_self] at ha
      rw [ha]
      exact ⟨hA, hav⟩)
    (.arg _ _ _ _ _ _ (by simp) (.nodeInt64 _ _ rfl) (.arg _ _ _ _ _ _ (by simp) (.nodeString _ _ rfl) (.done _))) rfl (.short (by decide))

end Ogdl
