import Verif.Lemmas.Json

/-!
# C43, C44: JSON

`Spec.JsonDoc E j t`: `t` is a JSON text (RFC 8259) of the document `j`.
`Spec.RootStandsFor E g j`: the graph `g`, in the form `JSON` is meant for, stands
for the document `j`.  `Spec.docAt`, `Spec.graphAt`: what is found at a path of a
document and of a graph.
-/

namespace Ogdl
open Spec

/-! ## C43: `JSON` -/

/-- **C43** A graph that stands for a document is written as a JSON text of that
document: whatever its size, depth and contents.  Partial: `RootStandsFor` leaves out
the graphs for which `JSON` writes something else, see below. -/
theorem C43_partial (E : Ext) {g : Graph} {j : Json} (h : RootStandsFor E g j) : ∃ t, g.json E = .ok t ∧ JsonDoc E j t := by
  cases h with
  | members h2 hm =>
    rename_i v gs ms
    obtain ⟨u, hu, hu2⟩ := jsonMembers_text E hm false
    match gs, h2, hu, hm with
    | g1 :: g2 :: gs, _, hu, hm =>
      have hu : Graph.jsonList E false (g1 :: g2 :: gs) = .ok u := by simpa using hu
      have ht : Graph.json E (.node v (g1 :: g2 :: gs)) = .ok (123 :: (32 :: u) ++ [125]) := by
        simp [json_node, Graph.jsonNode, hu, vstr]
      exact ⟨_, ht, [], _, [], by simp, ws_nil, .obj (hu2 (by simp) [32] ws_space), ws_nil⟩
  | value h h1 =>
    rename_i v g
    obtain ⟨t, w, ht, hj, hw⟩ := jsonNode_text E h
    have := jsonList_item E g [] h1 (standsFor_notNil h) false (t := t ++ w) (u := []) ht (by simp [Graph.jsonList])
    have hr : Graph.json E (.node v [g]) = .ok (t ++ w) := by
      simp [json_node, Graph.jsonNode, vstr, this]
    exact ⟨_, hr, [], t, w, by simp, ws_nil, hj, hw⟩
  | empty =>
    exact ⟨b!"\"\" ", by simp [json_node, Graph.jsonNode, writeValue, vint, vfloat, writeString, vstr, escapeQuotes],
      [], _, [32], rfl, ws_nil, .str .nil, ws_space⟩

/-- An object with a number, a text with quotes, a list that holds an object and a
text of spaces satisfies C43's hypothesis; this is what is written. -/
example (E : Ext) :
    let leaf (i : Int) : Graph := .node (.int .int64 i) []
    let m (k : Bytes) (g : Graph) : Graph := .node (.str k) [g]
    let g : Graph := .node (.str b!"root") [m b!"a" (leaf 1), m b!"b" (.node (.str b!"x\"y") []),
      m b!"l" (.node (.str b!"_") [.node (.str b!"o") [m b!"c" (leaf (-2)), m b!"d" (leaf 3)], .node (.str b!"  ") []])]
    RootStandsFor E g (.obj [(b!"a", .int 1), (b!"b", .str b!"x\"y"),
      (b!"l", .arr [.obj [(b!"c", .int (-2)), (b!"d", .int 3)], .str b!"  "])]) ∧
    g.json E = .ok b!"{ \"a\" : 1 , \"b\" : \"x\\\"y\" , \"l\" : [ { \"c\" : -2 , \"d\" : 3 }, \"  \" ]}" := by
  intro leaf m g
  have hleaf : ∀ i, wrap64 i = i → StandsFor E (leaf i) (.int i) := by
    intro i hi
    have : StandsFor E (leaf i) (.int (wrap64 i)) := .leaf .int
    rwa [hi] at this
  have htext : ∀ s : Bytes, s.all (fun c => decide (32 ≤ c) && decide (c ≠ 92)) = true → StandsFor E (.node (.str s) []) (.str s) :=
    fun s hs => .leaf (.text (by simp) (by simp) (by simp) (plainText_of_all hs))
  refine ⟨.members (by simp) ?_, ?_⟩
  · refine .cons (plainText_of_all (by simp [vstr])) (by simp [vstr]) (hleaf 1 (by decide)) (by simp [leaf]) ?_
    refine .cons (plainText_of_all (by simp [vstr])) (by simp [vstr]) (htext _ (by decide)) (by simp) ?_
    refine .cons (plainText_of_all (by simp [vstr])) (by simp [vstr]) (.list rfl (.cons (.object (by simp [vstr]) (by simp) ?_) (by simp) ?_)
      (.inr (by simp))) (by simp) .nil
    · refine .cons (plainText_of_all (by simp [vstr])) (by simp [vstr]) (hleaf _ (by decide)) (by simp [leaf]) ?_
      exact .cons (plainText_of_all (by simp [vstr])) (by simp [vstr]) (hleaf _ (by decide)) (by simp [leaf]) .nil
    · exact .cons (htext _ (by decide)) (by simp) .nil
  · have h1 : itoa (wrap64 1) = b!"1" := by decide
    have h2 : itoa (wrap64 (-2)) = b!"-2" := by decide
    have h3 : itoa (wrap64 3) = b!"3" := by decide
    simp [g, m, leaf, json_node, Graph.jsonNode, Graph.jsonList, writeValue, writeString, escapeQuotes, vint, vfloat, vstr, h1, h2, h3]

/-- `JSON` returns for every graph without nil subnodes. -/
theorem C43_total (E : Ext) (g : Graph) (h : NoNil g) : ∃ t, g.json E = .ok t := by
  cases g with
  | nil => exact ⟨[], rfl⟩
  | node t o =>
    obtain ⟨u, hu⟩ := jsonNode_ok E (.node (.str []) o) h
    exact ⟨u, by rw [json_node, hu]⟩

example : NoNil (.node (.str b!"a") [.node .nil [], .node (.str b!"b") [.node (.bool true) []]]) := by
  simp [NoNil, NoNilL]

/-- And it leaves the graph as it was. -/
theorem C43_unchanged (E : Ext) (g : Graph) (h : NoNil g) : (g.jsonRun E).2 = g := by
  cases g with
  | nil => rfl
  | node t o =>
    obtain ⟨u, hu⟩ := jsonNode_ok E (.node (.str []) o) h
    simp [Graph.jsonRun, hu]

/-- When it panics the content of the root is lost. -/
theorem C43_unchanged_refuted (E : Ext) (v : Val) (o : List Graph) (h : (Graph.node v o).json E = .panic) :
    ((Graph.node v o).jsonRun E).2 = .node (.str []) o := by
  rw [json_node] at h
  simp [Graph.jsonRun, h]

example (E : Ext) : (Graph.node (.str b!"a") [.nil]).json E = .panic := by
  simp [json_node, Graph.jsonNode, Graph.jsonList]

/-- A nil subnode anywhere makes `JSON` panic. -/
theorem C43_nil_refuted (E : Ext) (v : Val) (gs hs : List Graph) (h : NoNilL gs) : (Graph.node v (gs ++ .nil :: hs)).json E = .panic := by
  have key : ∀ (gs : List Graph), NoNilL gs → ∀ comma, Graph.jsonList E comma (gs ++ .nil :: hs) = .panic := by
    intro gs
    induction gs with
    | nil => intro _ comma; simp [Graph.jsonList]
    | cons g gs ih =>
      intro h comma
      match g, h with
      | .node t [], h => simp [Graph.jsonList, ih h.2]
      | .node t [x], h =>
        obtain ⟨u, hu⟩ := jsonNode_ok E (.node t [x]) h.1
        simp [Graph.jsonList, ih h.2, hu]
      | .node t (x :: y :: zs), h =>
        obtain ⟨u, hu⟩ := jsonNode_ok E (.node t (x :: y :: zs)) h.1
        simp [Graph.jsonList, ih h.2, hu]
  cases gs with
  | nil => simp [json_node, Graph.jsonNode, Graph.jsonList]
  | cons g gs =>
    have := key (g :: gs) h false
    simp only [List.cons_append] at this
    simp [json_node, Graph.jsonNode, this]

example : NoNilL [.node (.str b!"a") [.node .nil []]] := by simp [NoNil, NoNilL]

/-- A number does not start with a brace. -/
theorem number_head {t : Bytes} (h : NumberText t) : ∃ c u, t = c :: u ∧ (c = 45 ∨ (48 ≤ c ∧ c ≤ 57)) := by
  obtain ⟨sign, int, frac, exp, rfl, hs, hi, _, _⟩ := h
  rcases hs with rfl | rfl
  · rcases hi with rfl | ⟨c, ds, rfl, h1, h2, _⟩
    · exact ⟨48, _, rfl, .inr (by decide)⟩
    · exact ⟨c, _, rfl, .inr ⟨UInt8.le_trans (by decide) h1, h2⟩⟩
  · exact ⟨45, _, rfl, .inl rfl⟩

/-- A text of an object that has a quote in it has a colon in it as well. -/
theorem object_colon {E : Ext} {j : Json} {t u : Bytes} (h : JsonDoc E j t) (h1 : t = 123 :: u) (hq : 34 ∈ t) : 58 ∈ t := by
  obtain ⟨a, w, b, rfl, ha, hj, hb⟩ := h
  have h0 : a = [] := by
    cases a with
    | nil => rfl
    | cons c a =>
      have hc : c = 123 := (List.cons.inj h1).1
      have := ha c (by simp)
      subst hc
      exact absurd this (by decide)
  subst h0
  have hnb : (34 : UInt8) ∉ b := fun hh => absurd (hb _ hh) (by decide)
  cases hj with
  | null => exact absurd (List.cons.inj h1).1 (by decide)
  | true => exact absurd (List.cons.inj h1).1 (by decide)
  | false => exact absurd (List.cons.inj h1).1 (by decide)
  | int hn _ =>
    obtain ⟨c, v, rfl, hc⟩ := number_head hn
    have hc' : c = 123 := (List.cons.inj h1).1
    subst hc'
    exact absurd hc (by decide)
  | float hn _ _ =>
    obtain ⟨c, v, rfl, hc⟩ := number_head hn
    have hc' : c = 123 := (List.cons.inj h1).1
    subst hc'
    exact absurd hc (by decide)
  | str _ => exact absurd (List.cons.inj h1).1 (by decide)
  | arr0 _ => exact absurd (List.cons.inj h1).1 (by decide)
  | arr _ => exact absurd (List.cons.inj h1).1 (by decide)
  | obj0 hw =>
    have hnw := fun hh => (absurd (hw 34 hh) (by decide) : False)
    simp [hnb] at hq
    exact (hnw hq).elim
  | obj hm => cases hm <;> simp

/-- What `JSON` writes is not JSON in general: two leaves become `{ "a" "b" }`. -/
theorem C43_refuted (E : Ext) : ∃ (g : Graph) (t : Bytes), g.json E = .ok t ∧ ∀ j, ¬ JsonDoc E j t := by
  refine ⟨.node (.str b!"x") [.node (.str b!"a") [], .node (.str b!"b") []], b!"{ \"a\" \"b\" }",
    by simp [json_node, Graph.jsonNode, Graph.jsonList, writeValue, writeString, escapeQuotes, vint, vfloat, vstr], fun j h => ?_⟩
  exact absurd (object_colon h rfl (by decide)) (by decide)

/-- And the name of a member that has more than one subnode is lost: graphs that
differ in it give the same text. -/
theorem C43_name_refuted (E : Ext) (v k l : Val) (hk : vstr E k ≠ b!"_") (hl : vstr E l ≠ b!"_") (x y : Graph) (gs hs : List Graph) :
    (Graph.node v (.node k (x :: y :: gs) :: hs)).json E = (Graph.node v (.node l (x :: y :: gs) :: hs)).json E := by
  have hn : Graph.jsonNode E (.node k (x :: y :: gs)) = Graph.jsonNode E (.node l (x :: y :: gs)) := by
    rw [Graph.jsonNode, Graph.jsonNode]
    simp only [if_neg hk, if_neg hl]
  have hl : Graph.jsonList E false (.node k (x :: y :: gs) :: hs) = Graph.jsonList E false (.node l (x :: y :: gs) :: hs) := by
    rw [Graph.jsonList, Graph.jsonList, hn]
  rw [json_node, json_node, Graph.jsonNode, Graph.jsonNode, hl]
  simp

example (E : Ext) : vstr E (.str b!"name") ≠ b!"_" := by simp [vstr]

/-! ## C44: `FromJSON` -/

/-- **C44** Everything in the object is in the graph, at the same place: at every path
of the document a scalar is found as the one leaf with its Go value, an array as one
subnode for each element, an object as one subnode for each member, with its name,
in the order in which the map was visited; and null as nothing.  For all documents,
paths and orders.  Partial: the document has to be an object, see below. -/
theorem C44_partial (E : Ext) (l : List (Bytes × Json)) (p : List Step) (s : Json) (h : docAt (.obj l) p = some s) :
    ∃ gs, graphAt E [fromJSON (.obj l)] p = some gs ∧
      (∀ v, scalarVal s = some v → gs = [.node v []]) ∧
      (s = .null → gs = []) ∧
      (∀ a, s = .arr a → gs.length = a.length) ∧
      (∀ o, s = .obj o → ∃ n, gs = [n] ∧ n.out.map (fun m => m.thisString E) = o.map (·.1)) := by
  refine ⟨toGraphOut s, graphAt_toGraph E p _ _ h, ?_, ?_, ?_, ?_⟩
  · intro v hv
    cases s <;> simp_all [scalarVal, toGraphOut]
  · rintro rfl
    simp [toGraphOut]
  · rintro a rfl
    simp [toGraphOut, toGraphArr_length]
  · rintro o rfl
    exact ⟨.node (.str b!"_") (toGraphObj o), by simp [toGraphOut], toGraphObj_keys E o⟩

/-- `{"a": 1, "b": [null, {"c": true}]}` at `b`, element 1, member `c`. -/
example (E : Ext) : let l : List (Bytes × Json) := [(b!"a", .int 1), (b!"b", .arr [.null, .obj [(b!"c", .bool true)]])]
    docAt (.obj l) [.member b!"b", .elem 1, .member b!"c"] = some (.bool true) ∧
    graphAt E [fromJSON (.obj l)] [.member b!"b", .elem 1, .member b!"c"] = some [.node (.bool true) []] := by
  refine ⟨by simp [docAt], ?_⟩
  obtain ⟨gs, h1, h2, _⟩ := C44_partial E _ _ _ (show docAt (.obj [(b!"a", .int 1), (b!"b", .arr [.null, .obj [(b!"c", .bool true)]])])
    [.member b!"b", .elem 1, .member b!"c"] = some (.bool true) by simp [docAt])
  rw [h1, h2 _ rfl]

/-- Of a document that is an array only the first element is kept: any two arrays that
start alike give the same graph. -/
theorem C44_array_refuted (j : Json) (l m : List Json) : fromJSON (.arr (j :: l)) = fromJSON (.arr (j :: m)) := by
  simp [fromJSON, toGraphOut, toGraphArr]

/-- A null is not told from an empty array, nor `[null]` from `[[]]`. -/
theorem C44_null_refuted : fromJSON .null = fromJSON (.arr []) ∧
    fromJSON (.obj [(b!"a", .arr [.null])]) = fromJSON (.obj [(b!"a", .arr [.arr []])]) := by
  simp [fromJSON, toGraphOut, toGraphArr, toGraphObj]

/-! ## C67: from a document to a graph and back -/

theorem standForMembers_flat (E : Ext) : ∀ l : List (Bytes × Json), (∀ m ∈ l, PlainText m.1 ∧ m.1 ≠ b!"_" ∧ FlatValue E m.2) →
    StandForMembers E (toGraphObj l) l
  | [], _ => .nil
  | (k, j) :: l, h => by
    have ih := standForMembers_flat E l fun m hm => h m (by simp [hm])
    obtain ⟨h1, h2, h3⟩ := h (k, j) (by simp)
    have h3 : FlatValue E j := h3
    cases h3 with
    | @int i ha hb =>
      have : StandsFor E (.node (.int .int64 i) []) (.int (wrap64 i)) := .leaf .int
      rw [wrap64_id ha hb] at this
      exact StandForMembers.cons (k := .str k) h1 h2 this (by simp) ih
    | @float f ha hb hc =>
      exact StandForMembers.cons (k := .str k) h1 h2 (.leaf (.f64 ha hb hc)) (by simp) ih
    | @str s hp =>
      have : StandsFor E (.node (.str s) []) (.str s) := .leaf (.text (by simp) (by simp) (by simp) hp)
      exact StandForMembers.cons (k := .str k) h1 h2 this (by simp) ih

/-- **C67** A flat object read with `FromJSON` is written by `JSON` as a text of the
same object. -/
theorem C67_flat_partial (E : Ext) (l : List (Bytes × Json)) (h : FlatObject E l) :
    ∃ t, (fromJSON (.obj l)).json E = .ok t ∧ JsonDoc E (.obj l) t := by
  have hlen : (toGraphObj l).length = l.length := by
    have := congrArg List.length (toGraphObj_keys E l)
    simpa using this
  have : fromJSON (.obj l) = .node (.str b!"_") (toGraphObj l) := by simp [fromJSON, toGraphOut]
  rw [this]
  exact C43_partial E (.members (by rw [hlen]; exact h.1) (standForMembers_flat E l h.2))

example (E : Ext) : FlatObject E [(b!"a", .int (-7)), (b!"b c", .str b!"say \"hi\"")] := by
  refine ⟨by simp, ?_⟩
  simp only [List.mem_cons, List.not_mem_nil, or_false, forall_eq_or_imp, forall_eq]
  exact ⟨⟨plainText_of_all (by decide), by simp, .int (by decide) (by decide)⟩,
    ⟨plainText_of_all (by decide), by simp, .str (plainText_of_all (by decide))⟩⟩

/-- With a `%f` that writes the float as `0.500000` and a `ParseFloat` that reads it back. -/
example (E : Ext) (f : UInt64) (h1 : E.fmtFixed f = b!"0.500000") (h2 : E.parseFloat b!"0.500000" = some f) : FlatValue E (.float f) := by
  refine .float ?_ ?_ (by rw [h1]; exact h2)
  · rw [h1]
    refine ⟨[], b!"0", b!".500000", [], rfl, .inl rfl, .inl rfl, .inr ⟨b!"500000", rfl, by simp, ?_⟩, .inl rfl⟩
    simp [Digits]
  · rw [h1]
    intro i h
    exact absurd (parseInt_some.2 h) (by rw [show parseInt b!"0.500000" = none from by decide]; simp)

/-- An object of one member is written without braces, which is no JSON text. -/
theorem C67_single_refuted (E : Ext) : (fromJSON (.obj [(b!"a", .int 1)])).json E = .ok b!"\"a\" : 1 " ∧ ∀ j, ¬ JsonDoc E j b!"\"a\" : 1 " := by
  refine ⟨?_, fun j h => ?_⟩
  · have h1 : itoa (wrap64 1) = b!"1" := by decide
    simp [fromJSON, toGraphOut, toGraphObj, json_node, Graph.jsonNode, Graph.jsonList, writeValue, writeString, escapeQuotes, vint, vfloat, vstr, h1]
  · obtain ⟨a, w, b, h1, ha, hj, hb⟩ := h
    have h0 : a = [] := by
      cases a with
      | nil => rfl
      | cons c a =>
        have hc : 34 = c := (List.cons.inj h1).1
        have := ha c (by simp)
        subst hc
        exact absurd this (by decide)
    subst h0
    cases hj with
    | null => exact absurd (List.cons.inj h1).1 (by decide)
    | true => exact absurd (List.cons.inj h1).1 (by decide)
    | false => exact absurd (List.cons.inj h1).1 (by decide)
    | int hn _ =>
      obtain ⟨c, v, rfl, hc⟩ := number_head hn
      have hc' : 34 = c := (List.cons.inj h1).1
      subst hc'
      exact absurd hc (by decide)
    | float hn _ _ =>
      obtain ⟨c, v, rfl, hc⟩ := number_head hn
      have hc' : 34 = c := (List.cons.inj h1).1
      subst hc'
      exact absurd hc (by decide)
    | arr0 _ => exact absurd (List.cons.inj h1).1 (by decide)
    | arr _ => exact absurd (List.cons.inj h1).1 (by decide)
    | obj0 _ => exact absurd (List.cons.inj h1).1 (by decide)
    | obj _ => exact absurd (List.cons.inj h1).1 (by decide)
    | str hs =>
      rename_i s t
      match t, hs with
      | [], _ => simp at h1
      | [x], _ =>
        simp only [List.nil_append, List.cons_append, List.cons.injEq] at h1
        have := hb 58 (by rw [← h1.2.2.2]; simp)
        exact absurd this (by decide)
      | x :: y :: t, hs =>
        simp only [List.nil_append, List.cons_append, List.cons.injEq] at h1
        obtain ⟨_, rfl, rfl, _⟩ := h1
        cases hs with
        | plain _ _ _ h => cases h; contradiction

/-- `true` comes back as the text "true", and an object within an object as a list. -/
theorem C67_types_refuted (E : Ext) :
    (fromJSON (.obj [(b!"a", .bool true), (b!"b", .obj [(b!"c", .int 1), (b!"d", .int 2)])])).json E =
      .ok b!"{ \"a\" : \"true\" , \"b\" : [ \"c\" : 1 , \"d\" : 2 ]}" := by
  have h1 : itoa (wrap64 1) = b!"1" := by decide
  have h2 : itoa (wrap64 2) = b!"2" := by decide
  simp [fromJSON, toGraphOut, toGraphObj, json_node, Graph.jsonNode, Graph.jsonList, writeValue, writeString, escapeQuotes, vint, vfloat, vstr, h1, h2]

/-- Arrays as members lose the name of the member, and what is written is not JSON. -/
theorem C67_member_array_refuted (E : Ext) :
    (fromJSON (.obj [(b!"a", .arr [.int 1, .int 2]), (b!"b", .int 3)])).json E =
      .ok b!"{ { \"_\" : [ 1 ], \"_\" : [ 2 ]}, \"b\" : 3 }" := by
  have h1 : itoa (wrap64 1) = b!"1" := by decide
  have h2 : itoa (wrap64 2) = b!"2" := by decide
  have h3 : itoa (wrap64 3) = b!"3" := by decide
  simp [fromJSON, toGraphOut, toGraphObj, toGraphArr, json_node, Graph.jsonNode, Graph.jsonList, writeValue, writeString, escapeQuotes, vint, vfloat, vstr, h1, h2, h3]

/-- Of an array that is the whole document only the first element is kept, whatever the
others are. -/
theorem C67_array_refuted (E : Ext) (js : List Json) : (fromJSON (.arr (.int 1 :: js))).json E = .ok b!"1 " := by
  have h1 : itoa (wrap64 1) = b!"1" := by decide
  simp [fromJSON, toGraphOut, toGraphArr, json_node, Graph.jsonNode, Graph.jsonList, writeValue, vint, vstr, h1]

/-- A document that is a single number, text or boolean comes back as the empty text,
and `null` as nothing. -/
theorem C67_scalar_refuted (E : Ext) (i : Int) (f : UInt64) (s : Bytes) (b : Bool) :
    (fromJSON (.int i)).json E = .ok b!"\"\" " ∧ (fromJSON (.float f)).json E = .ok b!"\"\" " ∧
    (fromJSON (.str s)).json E = .ok b!"\"\" " ∧ (fromJSON (.bool b)).json E = .ok b!"\"\" " ∧
    (fromJSON .null).json E = .ok [] := by
  refine ⟨?_, ?_, ?_, ?_, rfl⟩ <;>
    simp [fromJSON, toGraphOut, json_node, Graph.jsonNode, writeValue, writeString, escapeQuotes, vint, vfloat, vstr]

end Ogdl
