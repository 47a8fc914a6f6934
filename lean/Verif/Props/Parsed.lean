import Verif.Lemmas.NoEq
import Verif.Model.Json
import Verif.Props.Expr
import Verif.Props.HeapEval
import Verif.Props.Text

/-!
# C102: what the parsers put into a graph; C36 and C99 for expressions given as texts
-/

namespace Ogdl
open Spec

/-- A content that is a text. -/
def IsText (v : Val) : Prop := ∃ s, v = .str s
/-- A content that is a text, an int64, a float64 or a boolean. -/
def IsTyped (v : Val) : Prop := IsText v ∨ (∃ i, v = .int .int64 i) ∨ (∃ f, v = .f64 f) ∨ ∃ b, v = .bool b
/-- A content that is a text or a slice of bytes. -/
def IsTextOrBytes (v : Val) : Prop := IsText v ∨ ∃ b, v = .bytes b

variable (E : Ext)

/-! ## C102 -/

theorem isText_str (b : Bytes) : IsText (.str b) := ⟨b, rfl⟩

theorem isTyped_typed (b : Bytes) : IsTyped (Lex.typed E b) := by
  unfold Lex.typed
  split
  · exact .inr (.inl ⟨_, rfl⟩)
  · split
    · exact .inr (.inr (.inl ⟨_, rfl⟩))
    · split
      · exact .inr (.inr (.inr ⟨_, rfl⟩))
      · split
        · exact .inr (.inr (.inr ⟨_, rfl⟩))
        · exact .inl ⟨_, rfl⟩

/-- Whatever the reader delivers, and in what pieces: a graph that FromReader returns is not
nil, has no nil node anywhere, and only texts as contents. -/
theorem C102 (rd : Reader) (g : Graph) (h : fromReader E false rd = .ok g) : NoNil g ∧ AllThis IsText g :=
  plainG_noNil (fromReader_plain isText_str (fun h => Bool.noConfusion h) h)

/-- FromBytes and FromString. -/
theorem C102_string (s : Bytes) (g : Graph) (h : fromString E s = .ok g) : NoNil g ∧ AllThis IsText g := C102 E _ g h

/-- FromStringTypes: the contents are texts, int64, float64 and booleans. -/
theorem C102_types (s : Bytes) (g : Graph) (h : fromStringTypes E s = .ok g) : NoNil g ∧ AllThis IsTyped g :=
  plainG_noNil (fromReader_plain (fun b => .inl (isText_str b)) (fun _ => isTyped_typed E) h)

/-- Paths. -/
theorem C102_path (s : Bytes) (g : Graph) (h : newPath E s = .ok g) : NoNil g ∧ AllThis IsText g :=
  plainG_noNil (newPath_plain isText_str h)

/-- Expressions. -/
theorem C102_expression (s : Bytes) (g : Graph) (h : newExpression E s = .ok g) : NoNil g ∧ AllThis IsText g :=
  plainG_noNil (newExpression_plain isText_str h)

/-- Templates. -/
theorem C102_template (s : Bytes) (g : Graph) (h : newTemplate E s = .ok g) : NoNil g ∧ AllThis IsText g :=
  plainG_noNil (newTemplate_plainG isText_str h)

/-- FromBinary: nil, or such a graph with texts and bytes. -/
theorem C102_binary (b : Bytes) (g : Graph) (h : FromBinary b g) : g = .nil ∨ NoNil g ∧ AllThis IsTextOrBytes g := by
  obtain ⟨fuel, h⟩ := h
  rcases fromBinary_plain (P := IsTextOrBytes) (fun b => .inl (isText_str b)) (fun b => .inr ⟨b, rfl⟩) h with h | h
  · exact .inl h
  · exact .inr (plainG_noNil h)

mutual
theorem toGraphOut_plain : ∀ j : Json, PlainL IsTyped (toGraphOut j)
  | .null => trivial
  | .bool b => ⟨⟨.inr (.inr (.inr ⟨b, rfl⟩)), trivial⟩, trivial⟩
  | .int i => ⟨⟨.inr (.inl ⟨i, rfl⟩), trivial⟩, trivial⟩
  | .float f => ⟨⟨.inr (.inr (.inl ⟨f, rfl⟩)), trivial⟩, trivial⟩
  | .str s => ⟨⟨.inl ⟨s, rfl⟩, trivial⟩, trivial⟩
  | .arr l => by rw [toGraphOut]; exact toGraphArr_plain l
  | .obj l => by rw [toGraphOut]; exact ⟨⟨.inl ⟨_, rfl⟩, toGraphObj_plain l⟩, trivial⟩
theorem toGraphArr_plain : ∀ l : List Json, PlainL IsTyped (toGraphArr l)
  | [] => trivial
  | j :: js => by rw [toGraphArr]; exact ⟨⟨.inl ⟨_, rfl⟩, toGraphOut_plain j⟩, toGraphArr_plain js⟩
theorem toGraphObj_plain : ∀ l : List (Bytes × Json), PlainL IsTyped (toGraphObj l)
  | [] => trivial
  | (k, j) :: js => by rw [toGraphObj]; exact ⟨⟨.inl ⟨_, rfl⟩, toGraphOut_plain j⟩, toGraphObj_plain js⟩
end

/-- FromJSON: nil, or such a graph with texts, int64, float64 and booleans. -/
theorem C102_json (j : Json) : fromJSON j = .nil ∨ NoNil (fromJSON j) ∧ AllThis IsTyped (fromJSON j) := by
  have h := toGraphOut_plain j
  unfold fromJSON
  cases ho : toGraphOut j with
  | nil => exact .inl rfl
  | cons g gs => rw [ho] at h; exact .inr (plainG_noNil h.1)

/-! ## C36 and C99 for texts -/

/-- C36: evaluating an expression given as a text without `=` leaves the context as it was. -/
theorem C36_text (s : Bytes) (hs : 61 ∉ s) (e g g' : Graph) (r : Val × Option Err) (he : newExpression E s = .ok e) (h : g.eval E e = .ok (r, g')) : g' = g :=
  C36 E e g g' r (newExpression_noEq hs he) h

/-- C36: so does Get with a path without `=`. -/
theorem C36_get_text (s : Bytes) (hs : 61 ∉ s) (g n g' : Graph) (h : g.get E s = .ok (n, g')) : g' = g := by
  cases hp : newPath E s with
  | ok p => exact C36_get E s p g n g' hp (newPath_noEq hs hp) h
  | panic =>
    cases g with
    | nil => simp only [Graph.get, Res.ok.injEq, Prod.mk.injEq] at h; exact h.2.symm
    | node t o => simp only [Graph.get, hp] at h; cases h
  | oof =>
    cases g with
    | nil => simp only [Graph.get, Res.ok.injEq, Prod.mk.injEq] at h; exact h.2.symm
    | node t o => simp only [Graph.get, hp] at h; cases h

mutual
theorem plainG_whole : ∀ {g : Graph}, PlainG IsText g → Whole g
  | .nil, h => h.elim
  | .node _ _, ⟨⟨_, rfl⟩, h⟩ => ⟨trivial, plainL_whole h⟩
theorem plainL_whole : ∀ {gs : List Graph}, PlainL IsText gs → WholeL gs
  | [], _ => trivial
  | .nil :: _, h => h.1.elim
  | .node _ _ :: _, h => ⟨nofun, plainG_whole h.1, plainL_whole h.2⟩
end

/-- C99: in memory, an expression given as a text without `=` evaluates as it does on trees
and changes no node.  What is missing is said at `C99_partial`. -/
theorem C99_text_partial (grow : Nat → Nat → Nat) (hE : WholeCalls E) (ops : List TOp) (hv : ∀ op ∈ ops, op.Valid E) (gs : List Graph) (h1 : treeRun E ops [] = .ok gs)
    (i : Nat) (hi : i < gs.length) (hw : Whole gs[i]) (s : Bytes) (hs : 61 ∉ s) (e : Graph) (he : newExpression E s = .ok e) :
    ∃ N ps h p F, ps[i]? = some p ∧ Holds h gs[i] p F ∧ ∀ fuel, N ≤ fuel → (memRun E grow fuel ops []).run {} = (.ok ps, h) ∧
      match gs[i].eval E e with
      | .ok ((v, err), _) => ∃ x h', (hEval grow E fuel p (evalFuel e) e).run h = (.ok (x, err), h') ∧ OnlyAt [] h h' ∧
          ShowsV (fun a => a ∈ F ∨ h.nodes.length ≤ a) h' v x
      | .panic => ∃ h', (hEval grow E fuel p (evalFuel e) e).run h = (.panic, h') ∧ OnlyAt [] h h'
      | .oof => False :=
  C99_partial E grow hE ops hv gs h1 i hi hw e (plainG_whole (newExpression_plain isText_str he)) (newExpression_noEq hs he)

/-! ## Examples -/

/-- C102: a text with two levels, a quoted string and a comment. -/
example : ∃ g, fromString E b!"a 'b c'\n  d # e\n" = .ok g ∧ g = .node (.str b!"_") [.node (.str b!"a") [.node (.str b!"b c") [], .node (.str b!"d") []]] :=
  ⟨_, (fromString_small E _ (by decide)).trans rfl, rfl⟩

/-- C102_binary: a document in the binary format. -/
example : ∃ g, FromBinary [1, 71, 0, 1, 97, 0, 2, 98, 0, 0] g ∧ g ≠ .nil := ⟨_, ⟨11, rfl⟩, nofun⟩

/-- C102_json: an object with a list and a null. -/
example : fromJSON (.obj [(b!"a", .arr [.int 1, .null]), (b!"b", .bool true)]) =
    .node (.str b!"_") [.node (.str b!"a") [.node (.str b!"_") [.node (.int .int64 1) []], .node (.str b!"_") []], .node (.str b!"b") [.node (.bool true) []]] := rfl

/-- C36_text, C99_text_partial, C102_expression: an expression without `=`. -/
example : 61 ∉ (b!"a.d + 2 * 3" : Bytes) ∧ ∃ e, newExpression E b!"a.d + 2 * 3" = .ok e := by
  refine ⟨by decide, ?_⟩
  rw [← show sampleSum.text = b!"a.d + 2 * 3" by decide]
  exact ⟨_, newExpression_full (sampleSum_ok E) (.short (by decide))⟩

/-- C36_get_text, C102_path: a path with an index and an argument list. -/
example : 61 ∉ (b!"a[1].b(2)" : Bytes) ∧ ∃ p, newPath E b!"a[1].b(2)" = .ok p := by
  refine ⟨by decide, ?_⟩
  unfold newPath newPathFuel
  rw [runParser_short _ _ (by decide) (runeOk_path E _ _)]
  exact ⟨_, rfl⟩

end Ogdl
