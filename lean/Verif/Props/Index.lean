import Verif.Lemmas.Steps
import Verif.Lemmas.TemplateRun
import Verif.Props.Call

/-!
# Properties C71-C74: indexes and selectors in paths, wrong calls
-/

namespace Ogdl
open Spec

/-- Names of ASCII letters and underscores. -/
theorem nameLetters (E : Ext) : ∀ s : Bytes, s ≠ [] → (∀ c ∈ s, AsciiLetter c) → Name E s
  | [], h, _ => absurd rfl h
  | [c], _, h => nameA E c (h c (by simp))
  | c :: d :: s, _, h => by
    obtain ⟨r1, h1, h2, h3⟩ := nameA E c (h c (by simp))
    obtain ⟨r2, h4, h5, h6⟩ := nameLetters E (d :: s) (by simp) fun x hx => h x (by simp [List.mem_cons.1 hx])
    refine ⟨r1 ++ r2, by simp [h1], ?_, ?_⟩
    · intro r hr
      rcases List.mem_append.1 hr with hr | hr
      · exact h2 r hr
      · exact h5 r hr
    · rw [List.flatMap_append, ← h3, ← h6]; rfl

/-- A node found by name in a graph of data. -/
theorem data_lookup_out {E : Ext} : ∀ (p : List Bytes) (g : Graph), Data E g →
    NoNilL (lookup E p g).out ∧ AllThisL (Inert E) (lookup E p g).out
  | [], g, h => ⟨noNilL_out h.1, allThisL_out h.2⟩
  | id :: p, g, h => by
    cases hn : (firstNamed E id g.out).isNil with
    | false => exact data_lookup_out p _ (firstNamed_data h hn)
    | true =>
      have : lookup E (id :: p) g = .nil := by
        simp only [lookup]
        cases hf : firstNamed E id g.out with
        | nil => exact lookup_nil E p
        | node t o => rw [hf] at hn; cases hn
      rw [this]
      exact ⟨trivial, trivial⟩

/-! ## C71 -/

/-- `Get` of a path with indexes and selectors finds what they say.  Missing: an index
with nothing at its place (`C71_missing`), functions, texts that do not fit (`Spec.Fits`), operators in
an index (`C71_refuted`). -/
theorem C71_partial (E : Ext) (ss : List PStep) (g n : Graph) (hne : ss ≠ []) (hs : ∀ s ∈ ss, s.Ok E g) (hl : Fits (stepsText ss))
    (hd : Data E g) (h : follow E ss g = some n) : g.get E (stepsText ss) = .ok (n, g) := get_steps hne hs hl hd h

/-- An index at whose place there is nothing does not give nil but a node `[` with a nil
pointer as the content of its only subnode. -/
theorem C71_missing (E : Ext) (g : Graph) (i : Nat) (hg : NoNil g) (hi : i < 2 ^ 63 - 1) (h : g.out.length ≤ i) :
    g.get E (indexed [] i) = .ok (.node (.str b!"[") [.node (.graph .nil) []], g) := by
  cases g with
  | nil => exact absurd hg (by simp [NoNil])
  | node t o =>
    have hl : Fits (indexed [] i) := by
      refine .short ?_
      have hlen := itoa_length (Int64.ofInt (i : Int))
      rw [Int64.toInt_ofInt_of_le (by omega) (by omega)] at hlen
      simp only [indexed, dotted, List.intercalate, List.intersperse, List.flatten_nil, List.nil_append, List.length_append, List.length_cons,
        List.length_nil]
      omega
    have hnp := newPath_steps (E := E) (g := .node t o) (ss := [litIndex i]) (by simp) (names_lit_ok (p := []) (by simp) hi)
      (by rw [show [litIndex i] = [].map PStep.name ++ [litIndex i] from rfl, stepsText_indexed]; exact hl)
    rw [show stepsText [litIndex i] = indexed [] i from stepsText_indexed [] i] at hnp
    have hF : 8 ≤ evalFuel (stepsPath [litIndex i]) := by simp [evalFuel]
    have hfu := steps_fuel (ss := [litIndex i]) (litIndex i) (by simp)
    obtain ⟨F, hFe⟩ : ∃ k, evalFuel (stepsPath [litIndex i]) = k + 2 := ⟨evalFuel (stepsPath [litIndex i]) - 2, by omega⟩
    have hix := indexOf_value (E := E) (rest := []) (t := .str b!"!i") (o := .num (itoa i)) (k := i) hg (lit_ok hi) (f := F)
      (by have h := hFe; simp only [litIndex, StepFuel] at hfu h; omega)
    have hts : (Graph.node (.str b!"!i") [Opnd.tree (.num (itoa i))]).thisString E = tyIndex := by simp [Graph.thisString, vstr, tyIndex]
    have hget : (Graph.node t o).getAt (i : Int) = .ok .nil := by
      simp only [Graph.getAt]
      rw [if_pos (by simp only [Graph.out_node] at h; omega)]
    have hstep : getStep E (F + 1) (stepsPath [litIndex i]) (Graph.node (.str b!"!i") [Opnd.tree (.num (itoa i))]) { ctx := .node t o } (.node t o) =
        .ok (.next { ctx := .node (.str b!"[") [.node (.graph .nil) []], prev := .node t o }, .node t o) := by
      rw [getStep.eq_def]
      dsimp only
      rw [hts, if_pos rfl, EvalM.bind_eq hix, if_neg (by omega), hget]
      rfl
    simp only [Graph.get, hnp, Res.ok_bind, hFe]
    have hlen : ¬ ((stepsPath [litIndex i]).len = 0 ∨ (Graph.node t o).isNil = true) := by simp [steps_len]
    have : getPath E (F + 2) (stepsPath [litIndex i]) (.node t o) = .ok ((.node (.str b!"[") [.node (.graph .nil) []], none), .node t o) := by
      rw [getPath, EvalM.bind_eq (x := EvalM.ctx) (g := .node t o) (g' := .node t o) (a := .node t o) rfl, if_neg hlen]
      dsimp only [stepsPath]
      rw [Graph.out_node]
      have hw := walkPath_cons (step := getStep E (F + 1) (stepsPath [litIndex i])) (es := []) (st := { ctx := .node t o }) rfl hstep
      exact EvalM.bind_eq (hw.trans rfl)
    rw [this]
    rfl

/-- Only the first operand of an index is looked at: with `a` and `b` as subnodes,
`[0 + 1]` finds `a`. -/
theorem C71_refuted (E : Ext) :
    (Graph.node (.str b!"_") [leaf b!"a", leaf b!"b"]).get E b!"[0 + 1]" =
      .ok (.node (.str b!"[") [leaf b!"a"], .node (.str b!"_") [leaf b!"a", leaf b!"b"]) := by
  have h : newPath E b!"[0 + 1]" = .ok (.node (.str b!"!p") [.node (.str b!"!i") [leaf b!"0", leaf b!"+", leaf b!"1"]]) := by
    rw [newPath, newPathFuel, runParser_short _ _ (by decide) (runeOk_path _ _ _)]; rfl
  have hg : NoNil (Graph.node (.str b!"_") [leaf b!"a", leaf b!"b"]) := by simp [NoNil, NoNilL, leaf]
  have hix := fun F (hF : evalFuel (leaf b!"0") + 1 ≤ F) => indexOf_value (E := E) (t := .str b!"!i") (o := .num (itoa (0 : Nat)))
    (rest := [leaf b!"+", leaf b!"1"]) (k := 0) hg (lit_ok (by decide)) (f := F) hF
  have hstep : ∀ F p, evalFuel (leaf b!"0") + 2 ≤ F → getStep E F p (.node (.str b!"!i") [leaf b!"0", leaf b!"+", leaf b!"1"])
      { ctx := .node (.str b!"_") [leaf b!"a", leaf b!"b"] } (.node (.str b!"_") [leaf b!"a", leaf b!"b"]) =
      .ok (.next { ctx := .node (.str b!"[") [leaf b!"a"], prev := .node (.str b!"_") [leaf b!"a", leaf b!"b"] },
        .node (.str b!"_") [leaf b!"a", leaf b!"b"]) := by
    intro F p hF
    obtain ⟨F, rfl⟩ : ∃ k, F = k + 1 := ⟨F - 1, by omega⟩
    have hts : (Graph.node (.str b!"!i") [leaf b!"0", leaf b!"+", leaf b!"1"]).thisString E = tyIndex := by simp [Graph.thisString, vstr, tyIndex]
    rw [getStep.eq_def]
    dsimp only
    rw [hts, if_pos rfl]
    exact (EvalM.bind_eq (hix F (by omega))).trans rfl
  simp only [Graph.get, h, Res.ok_bind]
  generalize hFe : evalFuel (Graph.node (.str b!"!p") [.node (.str b!"!i") [leaf b!"0", leaf b!"+", leaf b!"1"]]) = G
  obtain ⟨F, hF⟩ : ∃ k, G = k + 1 := ⟨G - 1, by rw [← hFe]; rfl⟩
  have hFl : evalFuel (leaf b!"0") + 2 ≤ F := by
    have : evalFuel (leaf b!"0") + 3 ≤ G := by rw [← hFe]; decide
    omega
  rw [hF]
  simp only [getPath]
  have hw := walkPath_cons (es := []) (st := { ctx := .node (.str b!"_") [leaf b!"a", leaf b!"b"] }) rfl
    (hstep F (.node (.str b!"!p") [.node (.str b!"!i") [leaf b!"0", leaf b!"+", leaf b!"1"]]) hFl)
  rw [EvalM.bind_eq (x := EvalM.ctx) (g := .node (.str b!"_") [leaf b!"a", leaf b!"b"]) rfl, if_neg (by simp [Graph.len]),
    Graph.out_node, EvalM.bind_eq (hw.trans rfl)]
  rfl

/-! ## C72 -/

/-- The value of a path with indexes and selectors in an expression.  Missing: paths on
which something is not found, functions, texts that do not fit (`Spec.Fits`). -/
theorem C72_partial (E : Ext) (ss : List PStep) (g n : Graph) (hf : StartsWithName ss) (hs : ∀ s ∈ ss, s.Ok E g) (hr : ∀ s ∈ ss, s.NotReserved)
    (hl : Fits (stepsText ss)) (hg : NoNil g) (h : reach E ss g = some n) :
    ∃ e, newExpression E (stepsText ss) = .ok e ∧ g.eval E e = .ok ((pathValue ss n, none), g) := by
  have he := newExpression_steps (E := E) (ws := []) hf hs (by simp) (by simpa using hl)
  simp only [List.flatMap_nil, List.append_nil, List.map_nil] at he
  refine ⟨_, he, eval_expression (evals_steps ?_ hs hr hg h)⟩
  intro h
  subst h
  exact hf

/-- A reserved word at the end of a path stands for a property of the node found: the
number of its subnodes, the node, its content as text, its value as text, its JSON. -/
theorem C72_reserved_partial (E : Ext) (ss : List PStep) (g n : Graph) (w : Bytes) (v : Val) (hf : StartsWithName ss) (hs : ∀ s ∈ ss, s.Ok E g)
    (hr : ∀ s ∈ ss, s.NotReserved) (hl : Fits (stepsText ss ++ 46 :: w)) (hg : NoNil g) (h : reach E ss g = some n)
    (hw : (w = b!"_len" ∧ v = .int .int n.out.length) ∨ (w = b!"_this" ∧ v = .graph n) ∨ (w = b!"_thisString" ∧ v = .str (vstr E n.this)) ∨
      (w = b!"_string" ∧ ∃ s, n.string E = .ok s ∧ v = .str s) ∨ (w = b!"_json" ∧ ∃ s, n.json E = .ok s ∧ v = .bytes s)) :
    ∃ e, newExpression E (stepsText ss ++ 46 :: w) = .ok e ∧ g.eval E e = .ok ((v, none), g) := by
  have hne : ss ≠ [] := by intro h; subst h; exact hf
  have hwn : Name E w := by
    rcases hw with ⟨rfl, _⟩ | ⟨rfl, _⟩ | ⟨rfl, _⟩ | ⟨rfl, _⟩ | ⟨rfl, _⟩ <;> exact nameLetters E _ (by simp) (by unfold AsciiLetter; decide)
  have he := newExpression_steps (E := E) (ws := [w]) hf hs (by simpa using hwn) (by simpa using hl)
  simp only [List.flatMap_cons, List.flatMap_nil, List.append_nil, List.map_cons, List.map_nil] at he
  refine ⟨_, he, eval_expression (evals_special hne hs hr hg h ?_)⟩
  intro F p st hst
  rw [evalStep.eq_def]
  dsimp only
  rw [leaf_thisString]
  have hnn : NoNil n := by
    obtain ⟨_, _, _, h3, _⟩ := walk_reach (p := p) (F := evalFuel (stepsPath ss)) (by simp [evalFuel]) hg ss { ctx := g } hs hr
      (fun s hx => (steps_fuel s hx).mono (by omega)) hg h
    exact h3
  cases n with
  | nil => exact absurd hnn (by simp [NoNil])
  | node t o =>
    rcases hw with ⟨rfl, rfl⟩ | ⟨rfl, rfl⟩ | ⟨rfl, rfl⟩ | ⟨rfl, s, h1, rfl⟩ | ⟨rfl, s, h1, rfl⟩
    · rw [if_neg (by decide), if_neg (by decide), if_pos rfl, hst]; rfl
    · rw [if_neg (by decide), if_neg (by decide), if_neg (by decide), if_pos rfl, hst]; rfl
    · rw [if_neg (by decide), if_neg (by decide), if_neg (by decide), if_neg (by decide), if_pos rfl, hst]; rfl
    · rw [if_neg (by decide), if_neg (by decide), if_neg (by decide), if_neg (by decide), if_neg (by decide), if_pos rfl, hst, h1]; rfl
    · rw [if_neg (by decide), if_neg (by decide), if_neg (by decide), if_neg (by decide), if_neg (by decide), if_neg (by decide), if_pos rfl, hst, h1]
      rfl

/-! ## C73 -/

/-- `Set` of a path of names with an index puts a node with the value at that place and
changes nothing else. -/
theorem C73_set (E : Ext) (g : Graph) (p : List Bytes) (i : Nat) (v : Val) (hp : ∀ id ∈ p, Name E id) (hi : i < 2 ^ 63 - 1)
    (hl : Fits (indexed p i)) (hg : NoNil g) : ∃ r, g.set E (indexed p i) v = .ok (changeAt E (putIndex v i) p g, r) :=
  set_indexed v hp hi hl hg

/-- What `Set` put at an index is found by `Get`.  Missing: an index beyond the end
(`C73_refuted`), indexes before the end of the path (`C73_middle_refuted`) and indexes
that are paths (`C73_path_refuted`). -/
theorem C73_partial (E : Ext) (g : Graph) (p : List Bytes) (i : Nat) (v : Val) (hp : ∀ id ∈ p, Name E id) (hi : i < 2 ^ 63 - 1)
    (hl : Fits (indexed p i)) (hd : Data E g) (hv : Inert E v) (h : i ≤ (lookup E p g).out.length) :
    ∃ g' r, g.set E (indexed p i) v = .ok (g', r) ∧ g'.get E (indexed p i) = .ok (.node (.str b!"[") [.node v []], g') := by
  obtain ⟨r, hr⟩ := set_indexed (E := E) v hp hi hl hd.1
  refine ⟨_, r, hr, ?_⟩
  cases g with
  | nil => exact absurd hd.1 (by simp [NoNil])
  | node t o =>
    have hf : ∀ t o, (putIndex v i (.node t o)).this = t ∧ (putIndex v i (.node t o)).isNil = false := fun _ _ => ⟨rfl, rfl⟩
    have hdl := data_lookup_out p _ hd
    have hd' : Data E (changeAt E (putIndex v i) p (.node t o)) :=
      changeAt_data p t o (fun id _ => trivial) hd fun t' ht' => putIndex_data hv h ⟨hdl.1, ht', hdl.2⟩
    have hg := get_steps (E := E) (ss := p.map PStep.name ++ [litIndex i]) (n := .node (.str b!"[") [.node v []]) (by simp)
      (names_lit_ok (g := changeAt E (putIndex v i) p (.node t o)) hp hi) (by rw [stepsText_indexed]; exact hl) hd' (by
        obtain ⟨t', ht'⟩ := follow_changeAt (E := E) hf [litIndex i] p t o hd.1
        rw [ht']
        have := putIndex_get (v := v) (t := t') h
        simp only [litIndex]
        rw [show follow E [PStep.index (.num (itoa i)) i] (putIndex v i (.node t' (lookup E p (.node t o)).out)) =
          (match (putIndex v i (.node t' (lookup E p (.node t o)).out)).out[i]? with
            | some x => follow E [] (.node (.str b!"[") [x])
            | none => none) from rfl, this]
        rfl)
    rwa [stepsText_indexed] at hg

/-- An index beyond the end leaves nil pointers between, and the next `Get` of a name
that is not found before them panics. -/
theorem C73_refuted (E : Ext) : ∃ g r, (Graph.node (.str b!"_") []).set E b!"[1]" (.str b!"v") = .ok (g, r) ∧
    g = .node (.str b!"_") [.nil, .node (.str b!"v") []] ∧ g.get E b!"a" = .panic := by
  obtain ⟨r, hr⟩ := C73_set E (.node (.str b!"_") []) [] 1 (.str b!"v") (by simp) (by decide) (.short (by decide)) (by simp [NoNil, NoNilL])
  refine ⟨_, r, hr, rfl, ?_⟩
  have h : newPath E b!"a" = .ok (.node (.str b!"!p") [leaf b!"a"]) := by
    rw [newPath, newPathFuel, runParser_short _ _ (by decide) (runeOk_path _ _ _)]; rfl
  have e : changeAt E (putIndex (.str b!"v") 1) [] (.node (.str b!"_") []) = .node (.str b!"_") [.nil, .node (.str b!"v") []] := rfl
  rw [e]
  simp only [Graph.get, h, Res.ok_bind]
  rfl

/-- `Set` of `[0].b` does not set `b` under the first subnode but replaces it. -/
theorem C73_middle_refuted (E : Ext) : ∃ r, (Graph.node (.str b!"_") [.node (.str b!"x") [leaf b!"y"]]).set E b!"[0].b" (.str b!"v") =
    .ok (.node (.str b!"_") [.node (.str b!"v") []], r) := by
  have h : newPath E b!"[0].b" = .ok (.node (.str b!"!p") [.node (.str b!"!i") [leaf b!"0"], leaf b!"b"]) := by
    rw [newPath, newPathFuel, runParser_short _ _ (by decide) (runeOk_path _ _ _)]; rfl
  simp only [Graph.set, h, Res.ok_bind]
  exact ⟨_, rfl⟩

/-- The context `a` with three subnodes and `b` with the value 2. -/
def abGraph : Graph :=
  .node (.str b!"_") [.node (.str b!"a") [leaf b!"x", leaf b!"y", leaf b!"z"], .node (.str b!"b") [.node (.int .int 2) []]]

/-- With `b` = 2, `Get("a[b]")` reads place 2 and `Set("a[b]", v)` writes place 0. -/
theorem C73_path_refuted (E : Ext) :
    abGraph.get E b!"a[b]" = .ok (.node (.str b!"[") [leaf b!"z"], abGraph) ∧
    ∃ r, abGraph.set E b!"a[b]" (.str b!"v") =
      .ok (.node (.str b!"_") [.node (.str b!"a") [leaf b!"v", leaf b!"y", leaf b!"z"], .node (.str b!"b") [.node (.int .int 2) []]], r) := by
  have h : newPath E b!"a[b]" = .ok (.node (.str b!"!p") [leaf b!"a", .node (.str b!"!i") [.node (.str b!"!p") [leaf b!"b"]]]) := by
    rw [newPath, newPathFuel, runParser_short _ _ (by decide) (runeOk_path _ _ _)]; rfl
  constructor
  · simp only [Graph.get, h, Res.ok_bind, abGraph]
    rfl
  · simp only [Graph.set, h, Res.ok_bind, abGraph]
    exact ⟨_, rfl⟩

/-! ## The hypotheses are met -/

/-- A context with three subnodes `a`. -/
def threeA : Graph :=
  .node (.str b!"_") [.node (.str b!"a") [leaf b!"x"], leaf b!"c", .node (.str b!"a") [leaf b!"y", leaf b!"z"],
    .node (.str b!"i") [.node (.int .int64 1) []]]

theorem threeA_data (E : Ext) : Data E threeA := by
  refine ⟨by simp [threeA, NoNil, NoNilL, leaf], ?_⟩
  simp [threeA, AllThis, AllThisL, leaf, Inert]

theorem threeA_names (E : Ext) : Name E b!"a" ∧ Name E b!"i" :=
  ⟨nameA E 97 (by unfold AsciiLetter; decide), nameA E 105 (by unfold AsciiLetter; decide)⟩

/-- `i` has the value 1. -/
theorem threeA_i (E : Ext) : HasIndex E threeA (.path b!"i" .nil) 1 :=
  ⟨⟨(threeA_names E).2, ⟨105, [], rfl, by unfold AsciiLetter; decide⟩, trivial⟩, by decide, .int .int64 1,
    .path b!"i" [] (.str b!"i") _ (by simp [reserved]) (by simp [lookup, firstNamed, threeA, Graph.thisString, vstr, leaf]), rfl⟩

/-- C71: all the subnodes of the nodes `a`, and the second one among them. -/
example (E : Ext) : threeA.get E b!"a{}[1]" = .ok (.node (.str b!"[") [leaf b!"y"], threeA) :=
  C71_partial E [.all b!"a", litIndex 1] threeA _ (by simp)
    (by intro s hs; rcases List.mem_cons.1 hs with rfl | hs; exact (threeA_names E).1; rw [List.mem_singleton.1 hs]; exact lit_ok (by decide))
    (.short (by decide)) (threeA_data E) (by simp [follow, firstNamed, selected, allNamed, threeA, Graph.thisString, vstr, leaf, litIndex, Graph.isNil])

/-- C71: the second node `a`, by the value of `i`. -/
example (E : Ext) : threeA.get E b!"a{i}" = .ok (.node (.str b!"{") [leaf b!"y", leaf b!"z"], threeA) :=
  C71_partial E [.nth b!"a" (.path b!"i" .nil) 1] threeA _ (by simp)
    (by intro s hs; rw [List.mem_singleton.1 hs]; exact ⟨(threeA_names E).1, threeA_i E⟩)
    (.short (by decide)) (threeA_data E) (by simp [follow, firstNamed, selected, allNamed, threeA, Graph.thisString, vstr, leaf, Graph.isNil])

/-- C71: an index beyond the end. -/
example (E : Ext) : threeA.get E b!"[7]" = .ok (.node (.str b!"[") [.node (.graph .nil) []], threeA) :=
  C71_missing E threeA 7 (threeA_data E).1 (by decide) (by decide)

/-- C72: `a{i}[0]` has the value `y`. -/
example (E : Ext) : ∃ e, newExpression E b!"a{i}[0]" = .ok e ∧ threeA.eval E e = .ok ((.str b!"y", none), threeA) :=
  C72_partial E [.nth b!"a" (.path b!"i" .nil) 1, litIndex 0] threeA (leaf b!"y") ⟨97, [], rfl, by unfold AsciiLetter; decide⟩
    (by intro s hs; rcases List.mem_cons.1 hs with rfl | hs; exact ⟨(threeA_names E).1, threeA_i E⟩; rw [List.mem_singleton.1 hs]; exact lit_ok (by decide))
    (by intro s hs; rcases List.mem_cons.1 hs with rfl | hs; simp [PStep.NotReserved, reserved]; rw [List.mem_singleton.1 hs]; exact trivial)
    (.short (by decide)) (threeA_data E).1 (by simp [reach, firstNamed, selected, allNamed, threeA, Graph.thisString, vstr, leaf, Graph.isNil, litIndex])

/-- C72: `a{}._len` is 3. -/
example (E : Ext) : ∃ e, newExpression E b!"a{}._len" = .ok e ∧ threeA.eval E e = .ok ((.int .int 3, none), threeA) :=
  C72_reserved_partial E [.all b!"a"] threeA (.node (.str b!"{") [leaf b!"x", leaf b!"y", leaf b!"z"]) b!"_len" _
    ⟨97, [], rfl, by unfold AsciiLetter; decide⟩ (by intro s hs; rw [List.mem_singleton.1 hs]; exact (threeA_names E).1)
    (by intro s hs; rw [List.mem_singleton.1 hs]; simp [PStep.NotReserved, reserved]) (.short (by decide)) (threeA_data E).1
    (by simp [reach, firstNamed, selected, allNamed, threeA, Graph.thisString, vstr, leaf, Graph.isNil]) (.inl ⟨rfl, rfl⟩)

/-- C73: a second subnode of the first `a`. -/
example (E : Ext) : ∃ g' r, threeA.set E b!"a[1]" (.str b!"v") = .ok (g', r) ∧
    g'.get E b!"a[1]" = .ok (.node (.str b!"[") [.node (.str b!"v") []], g') :=
  C73_partial E threeA [b!"a"] 1 (.str b!"v") (by simpa using (threeA_names E).1) (by decide) (.short (by decide)) (threeA_data E) trivial
    (by simp [lookup, firstNamed, threeA, Graph.thisString, vstr, leaf])

end Ogdl
