import Verif.Lemmas.Full
import Verif.Props.Scalar
import Verif.Props.Template
import Verif.Props.Index

/-!
# Long names: C17 to C20, C32, C37, C52, C60, C61, C72

The positive theorems ask that texts fit the buffer of the lexer (`Spec.Fits`).  Here
are texts of 4096 bytes that end in a long name, which the lexer never stops reading.
"Never returns" is said as: for every number of loop iterations (`L`) and every depth of
calls (`f`), the parser asks for more (`.oof`).
-/

namespace Ogdl
open Spec

/-- The name `aaa…` of `n` letters. -/
def nameOfAs (n : Nat) : Bytes := List.replicate n 97

theorem nameOfAs_name (E : Ext) {n : Nat} (h : n ≠ 0) : Name E (nameOfAs n) := by
  refine ⟨List.replicate n 97, ?_, ?_, ?_⟩
  · intro h0
    have := congrArg List.length h0
    rw [List.length_replicate] at this
    exact h this
  · intro r hr
    rw [(List.mem_replicate.1 hr).2]
    exact ⟨.inl (by decide), .inr (.inl rfl)⟩
  · rw [nameOfAs]
    clear h
    induction n with
    | zero => rfl
    | succ n ih => rw [List.replicate_succ, List.replicate_succ, List.flatMap_cons, ← ih]; rfl

theorem nameOfAs_path (E : Ext) {n : Nat} (h : n ≠ 0) : Path E [nameOfAs n] :=
  ⟨by simp, fun id hi => by rw [List.mem_singleton.1 hi]; exact nameOfAs_name E h⟩

theorem dotted_one (s : Bytes) : dotted [s] = s := by simp [dotted, List.intercalate]

theorem longText_nil : longText [] = nameOfAs 4096 := rfl

theorem newPath_long (E : Ext) : newPath E (nameOfAs 4096) = .oof := by
  rw [newPath, newPathFuel, ← longText_nil, runParser_path_long]
  rfl

/-- C17: `Get("b").Get("aaa…")` returns, `Get("b.aaa…")` never does. -/
theorem C17_refuted (E : Ext) : ∃ p q : List Bytes, Path E p ∧ Path E q ∧
    (∀ L f, runParser (path E L f) (dotted p ++ 46 :: dotted q) = .oof) ∧
    ((Graph.node (.str b!"_") []).get E (dotted p)).bind (fun r => r.1.get E (dotted q)) = .ok (.nil, .nil) := by
  refine ⟨[b!"b"], [nameOfAs 4094], ⟨by simp, fun id hi => by rw [List.mem_singleton.1 hi]; exact nameA E 98 (by unfold AsciiLetter; decide)⟩,
    nameOfAs_path E (by omega), fun L f => ?_, ?_⟩
  · rw [dotted_one, dotted_one]
    exact runParser_dotted_long E L f
  · have hg : AllThis (Inert E) (.node (.str b!"_") []) := ⟨trivial, trivial⟩
    rw [get_namesR ⟨by simp, fun id hi => by rw [List.mem_singleton.1 hi]; exact nameA E 98 (by unfold AsciiLetter; decide)⟩ (.short (by decide)) hg]
    rfl

/-- C18, C19: `Set` under the name `aaa…` never returns. -/
theorem C18_refuted (E : Ext) : ∃ id : Bytes, Path E [id] ∧ (∀ L f, runParser (path E L f) (dotted [id]) = .oof) ∧
    ∀ t o v, (Graph.node t o).set E (dotted [id]) v = .oof := by
  refine ⟨nameOfAs 4096, nameOfAs_path E (by omega), fun L f => ?_, fun t o v => ?_⟩
  · rw [dotted_one]; exact runParser_path_long E L f
  · rw [dotted_one, Graph.set, newPath_long]
    · rfl
    · exact fun h => by cases h

/-- C19: the same. -/
theorem C19_refuted (E : Ext) : ∃ id : Bytes, Path E [id] ∧ (∀ L f, runParser (path E L f) (dotted [id]) = .oof) ∧
    ∀ t o v, (Graph.node t o).set E (dotted [id]) v = .oof := C18_refuted E

/-- C20: `Get` of the missing name `aaa…` never returns, nor do the getters with a path. -/
theorem C20_refuted (E : Ext) : ∃ id : Bytes, Path E [id] ∧ (∀ L f, runParser (path E L f) (dotted [id]) = .oof) ∧
    (Graph.node (.str b!"_") []).get E (dotted [id]) = .oof ∧ (Graph.node (.str b!"_") []).getString E (dotted [id]) = .oof := by
  refine ⟨nameOfAs 4096, nameOfAs_path E (by omega), fun L f => ?_, ?_, ?_⟩
  · rw [dotted_one]; exact runParser_path_long E L f
  · rw [dotted_one, Graph.get, newPath_long]
    · rfl
    · exact fun h => by cases h
  · have hne : (nameOfAs 4096).isEmpty = false := by
      have := dotted_not_empty (nameOfAs_path E (n := 4096) (by omega))
      rwa [dotted_one] at this
    rw [dotted_one, Graph.getString]
    simp only [hne, Graph.getFirst, Graph.get, newPath_long]
    rfl

/-- C52: an integer stored under the name `aaa…` is never read back. -/
theorem C52_refuted (E : Ext) : ∃ id : Bytes, Path E [id] ∧ (∀ L f, runParser (path E L f) (dotted [id]) = .oof) ∧
    ∀ t v, (Graph.node t [.node (.str id) [.node v []]]).get E (dotted [id]) = .oof := by
  refine ⟨nameOfAs 4096, nameOfAs_path E (by omega), fun L f => ?_, fun t v => ?_⟩
  · rw [dotted_one]; exact runParser_path_long E L f
  · rw [dotted_one, Graph.get, newPath_long]
    · rfl
    · exact fun h => by cases h

/-- C32, C72: `NewExpression` never returns on the path `aaa…`. -/
theorem C32_refuted (E : Ext) : ∃ x : Expr, x.Ok E ∧ x.NoArgs ∧ ∀ L f, runParser (expression E L f) x.text = .oof := by
  refine ⟨.one (.path (nameOfAs 4096) .nil), ⟨nameOfAs_name E (by omega), ⟨97, nameOfAs 4095, rfl, by unfold AsciiLetter; decide⟩, trivial⟩,
    trivial, fun L f => ?_⟩
  have : (Expr.one (.path (nameOfAs 4096) .nil)).text = longText [] := by
    rw [longText_nil]
    simp only [Expr.text, Opnd.text, Elems.text, List.append_nil]
  rw [this]
  exact runParser_expression_long E L f

theorem nameOfAs_length (n : Nat) : (nameOfAs n).length = n := by rw [nameOfAs, List.length_replicate]

theorem nameOfAs_not_mem {l : List Bytes} {n : Nat} (h : ∀ x ∈ l, x.length < 20) (hn : 20 ≤ n) : nameOfAs n ∉ l := fun hm => by
  have := h _ hm
  rw [nameOfAs_length] at this
  omega

theorem firstNamed_self (E : Ext) (s : Bytes) (o : List Graph) : firstNamed E s [.node (.str s) o] = .node (.str s) o := by
  simp [firstNamed, Graph.thisString, vstr]

theorem nameOfAs_head (n : Nat) : ∃ c t, nameOfAs (n + 1) = c :: t ∧ AsciiLetter c :=
  ⟨97, nameOfAs n, List.replicate_succ, by unfold AsciiLetter; decide⟩

theorem reach_unread (E : Ext) (id : Bytes) (hh : ∃ c t, id = c :: t ∧ AsciiLetter c) (hn : Name E id) (hr : id ∉ reserved)
    (hrun : ∀ L f, runParser (expression E L f) id = .oof) :
    ∃ (ss : List PStep) (g n : Graph), StartsWithName ss ∧ (∀ s ∈ ss, s.Ok E g) ∧ (∀ s ∈ ss, s.NotReserved) ∧
    reach E ss g = some n ∧ ∀ L f, runParser (expression E L f) (stepsText ss) = .oof := by
  refine ⟨[.name id], .node (.str b!"_") [.node (.str id) []], .node (.str id) [], hh, ?_, ?_, ?_, fun L f => ?_⟩
  · intro s hs; rw [List.mem_singleton.1 hs]; exact hn
  · intro s hs; rw [List.mem_singleton.1 hs]; exact hr
  · simp only [reach, Graph.out, firstNamed_self, Graph.isNil]
    rfl
  · have ht : stepsText [.name id] = id := by
      simp [stepsText, PStep.elems, Elem.text, elemsOf, Elems.text]
    rw [ht]; exact hrun L f

/-- C72: the path `aaa…` leads to a node, but `NewExpression` never returns on it. -/
theorem C72_refuted (E : Ext) : ∃ (ss : List PStep) (g n : Graph), StartsWithName ss ∧ (∀ s ∈ ss, s.Ok E g) ∧ (∀ s ∈ ss, s.NotReserved) ∧
    reach E ss g = some n ∧ ∀ L f, runParser (expression E L f) (stepsText ss) = .oof :=
  reach_unread E (nameOfAs 4096) (nameOfAs_head 4095) (nameOfAs_name E (by omega)) (nameOfAs_not_mem (by decide) (by omega))
    (fun L f => by rw [← longText_nil]; exact runParser_expression_long E L f)

/-- C37: `aaa…` has a value, but the assignment `b = aaa…` never returns. -/
theorem C37_refuted (E : Ext) : ∃ (x : Grouping) (g : Graph) (v : Val), x.Ok E ∧ x.NoArgs ∧ Means E g x v ∧
    ∀ L f, runParser (expression E L f) (b!"b" ++ b!" " ++ b!"=" ++ b!" " ++ x.text) = .oof := by
  refine ⟨.atom (.path (nameOfAs 4092) .nil), .node (.str b!"_") [.node (.str (nameOfAs 4092)) [.node (.int .int64 7) []]], .int .int64 7,
    ⟨nameOfAs_name E (by omega), ⟨97, nameOfAs 4091, rfl, by unfold AsciiLetter; decide⟩, trivial⟩, trivial, ?_, fun L f => ?_⟩
  · refine Means.path (nameOfAs 4092) [] (.str (nameOfAs 4092)) _ ?_ ?_
    · intro x hx; rw [List.mem_singleton.1 hx]; exact nameOfAs_not_mem (by decide) (by omega)
    · simp only [lookup, Graph.out, firstNamed_self]
  · have : (b!"b" ++ b!" " ++ b!"=" ++ b!" " ++ (Grouping.atom (.path (nameOfAs 4092) .nil)).text) = longText b!"b = " := by
      simp only [Grouping.text, Opnd.text, Elems.text, List.append_nil]
      rfl
    rw [this]
    exact runParser_assign_long E L f

/-- C61: the variable `$aaa…` is never replaced. -/
theorem C61_refuted (E : Ext) : ∃ id : Bytes, Name E id ∧ ∀ L g f, runParser (template E L g f) (b!"$" ++ id) = .oof := by
  refine ⟨nameOfAs 4095, nameOfAs_name E (by omega), fun L g f => ?_⟩
  exact runParser_variable_long E L g f [] (by simp) (by decide)

/-- C60: the template `xxx…` and the template `$aaa…` can each be read, one after the
other they cannot. -/
theorem C60_refuted (E : Ext) : ∃ a b : Items, (a.append b).Ok E [] ∧ a.breaks = false ∧ Fits a.text ∧ Fits b.text ∧
    ∀ L g f, runParser (template E L g f) (a.text ++ b.text) = .oof := by
  have hx : (List.replicate 2047 (120 : UInt8)).length = 2047 := List.length_replicate
  have hxm : ∀ c ∈ List.replicate 2047 (120 : UInt8), c = 120 := fun c hc => (List.mem_replicate.1 hc).2
  have hrun := fun L g f => runParser_variable_long E L g f (List.replicate 2047 120)
    (fun c hc => by rw [hxm c hc]; decide) (by omega)
  have ha : longText (List.replicate 2047 120 ++ b!"$") = List.replicate 2047 120 ++ (36 :: nameOfAs 2048) := by
    rw [longText, List.length_append, hx, List.append_assoc]
    rfl
  rw [ha] at hrun
  clear ha
  have hpl : (36 :: nameOfAs 2048).length = 2049 := by rw [List.length_cons, nameOfAs_length]
  generalize List.replicate 2047 (120 : UInt8) = w at *
  have hn := nameOfAs_path E (n := 2048) (by omega)
  have hk : nameOfAs 2048 ∉ keywords := nameOfAs_not_mem (by decide) (by omega)
  generalize nameOfAs 2048 = n at *
  refine ⟨.cons (.plain w) .nil, .cons (.var n [] false) .nil, ?_, rfl, ?_, ?_, ?_⟩
  · simp only [Items.append, Items.Ok, Item.Ok, Items.text, Item.text, List.append_nil]
    refine ⟨⟨?_, ?_, ?_, .inr rfl⟩, ⟨hn, hk, ?_⟩, trivial⟩
    · rintro rfl; simp at hx
    · intro c hc; rw [hxm c hc]; unfold PlainByte; decide
    · intro hm
      have : ∀ x ∈ markers, x.length < 20 := by decide
      have := this _ hm
      omega
    · intro _ c hc; simp at hc
  · simp only [Items.text, Item.text, List.append_nil]
    exact .short (by omega)
  · simp only [Items.text, Item.text, List.append_nil, dotted_one]
    exact .short (by omega)
  · simp only [Items.text, Item.text, List.append_nil, dotted_one]
    exact hrun

end Ogdl
