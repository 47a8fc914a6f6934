import Verif.Lemmas.Get

/-!
# Get, Set and the typed getters (C17 – C21)

A path is a non-empty list of names, written with dots between them
(`Spec.dotted`).  `Spec.lookup` and `Spec.store` (Verif/Spec/Path.lean) say what
reading and writing at a path mean.
-/

namespace Ogdl
open Spec

theorem dotted_append {p q : List Bytes} (hp : p ≠ []) (hq : q ≠ []) : dotted (p ++ q) = dotted p ++ 46 :: dotted q := by
  induction p with
  | nil => exact absurd rfl hp
  | cons x xs ih =>
    cases xs with
    | nil =>
      cases q with
      | nil => exact absurd rfl hq
      | cons y ys => simp [dotted, List.intercalate, List.intersperse]
    | cons y ys =>
      have := ih (by simp)
      simp only [dotted, List.intercalate, List.cons_append, List.intersperse, List.flatten_cons] at this ⊢
      rw [this]
      simp

/-! ## C17 -/

/-- `Get(p + "." + q)` is `Get(p).Get(q)`: same node, same panic, for every graph
without functions in it (nil subnodes included) and every pair of paths, whether
they exist or not.  Missing: graphs that hold functions, texts that do not fit (`Spec.Fits`)
(see `C16_refuted`). -/
theorem C17_partial (E : Ext) (p q : List Bytes) (g : Graph) (hp : Path E p) (hq : Path E q) (hg : AllThis (Inert E) g)
    (hlp : Fits (dotted p)) (hlq : Fits (dotted q)) (hl : Fits (dotted p ++ 46 :: dotted q)) :
    (g.get E (dotted p ++ 46 :: dotted q)).bind (fun r => .ok r.1) =
      ((g.get E (dotted p)).bind fun r => r.1.get E (dotted q)).bind (fun r => .ok r.1) := by
  have hpq : Path E (p ++ q) := ⟨by simp [hp.1], fun id h => by
    rcases List.mem_append.1 h with h | h
    · exact hp.2 id h
    · exact hq.2 id h⟩
  rw [← dotted_append hp.1 hq.1] at hl ⊢
  rw [get_namesR hpq hl hg, get_namesR hp hlp hg, lookupR_append]
  cases h : lookupR E p g with
  | ok n =>
    simp only [Res.bind]
    rw [get_namesR hq hlq (lookupR_allThis p g hg h)]
    cases lookupR E q n <;> rfl
  | panic => rfl
  | oof => rfl

/-- Reading never changes the graph. -/
theorem C17_pure_partial (E : Ext) (p : List Bytes) (g n g' : Graph) (hp : Path E p) (hg : AllThis (Inert E) g)
    (hl : Fits (dotted p)) (h : g.get E (dotted p) = .ok (n, g')) : g' = g := by
  rw [get_namesR hp hl hg] at h
  cases hr : lookupR E p g with
  | ok m => rw [hr] at h; simp only [Res.bind, Res.ok.injEq, Prod.mk.injEq] at h; exact h.2.symm
  | panic => rw [hr] at h; cases h
  | oof => rw [hr] at h; cases h

/-- What `Get` finds: the first subnode of each name in turn. -/
theorem C17_lookup_partial (E : Ext) (p : List Bytes) (g : Graph) (hp : Path E p) (hg : g = .nil ∨ Data E g)
    (hl : Fits (dotted p)) : g.get E (dotted p) = .ok (lookup E p g, g) := get_names hp hl hg

/-! ## C18, C19 -/

/-- What `Set` does, exactly. -/
theorem C18_store_partial (E : Ext) (p : List Bytes) (v : Val) (g : Graph) (hp : Path E p) (hg : NoNil g)
    (hl : Fits (dotted p)) : ∃ r, g.set E (dotted p) v = .ok (store E v p g, r) := set_names v hp hl hg

/-- After `Set(path, v)` with a value that is neither nil nor a graph,
`Get(path)` is a node whose only subnode is `v`.  Missing: functions, nil
subnodes, texts that do not fit (`Spec.Fits`). -/
theorem C18_partial (E : Ext) (p : List Bytes) (v : Val) (g : Graph) (hp : Path E p) (hg : Data E g)
    (hl : Fits (dotted p)) (hn : v ≠ .nil) (hv : ∀ g, v ≠ .graph g) (hi : Inert E v) :
    ∃ g' r t, g.set E (dotted p) v = .ok (g', r) ∧ g'.get E (dotted p) = .ok (.node t [.node v []], g') := by
  have hs : subnodesOf v = [.node v []] := by
    cases v with
    | nil => exact absurd rfl hn
    | graph g => exact absurd rfl (hv g)
    | _ => rfl
  obtain ⟨r, hr⟩ := set_names v hp hl hg.1
  obtain ⟨t, ht⟩ := lookup_store (E := E) v p g hg.1
  have hd : Data E (store E v p g) :=
    ⟨store_noNil (by rw [hs]; simp [NoNil, NoNilL]) p g hg.1,
      store_allThis (fun _ => trivial) trivial (by rw [hs]; exact ⟨⟨hi, trivial⟩, trivial⟩) p g hg.2⟩
  exact ⟨_, r, t, hr, by rw [get_names hp hl (.inr hd), ht, hs]⟩

/-- The same when the value is a graph: its subnodes become those of the node. -/
theorem C18_graph_partial (E : Ext) (p : List Bytes) (t : Val) (o : List Graph) (g : Graph) (hp : Path E p) (hg : Data E g)
    (hl : Fits (dotted p)) (ho : Data E (.node t o)) :
    ∃ g' r t', g.set E (dotted p) (.graph (.node t o)) = .ok (g', r) ∧ g'.get E (dotted p) = .ok (.node t' o, g') := by
  obtain ⟨r, hr⟩ := set_names (.graph (.node t o)) hp hl hg.1
  obtain ⟨t', ht⟩ := lookup_store (E := E) (.graph (.node t o)) p g hg.1
  have hd : Data E (store E (.graph (.node t o)) p g) :=
    ⟨store_noNil (v := .graph (.node t o)) ho.1 p g hg.1, store_allThis (v := .graph (.node t o)) (fun _ => trivial) trivial ho.2.2 p g hg.2⟩
  exact ⟨_, r, t', hr, by rw [get_names hp hl (.inr hd), ht]; rfl⟩

/-- A path that is neither a prefix nor an extension of the path that was set
gives the same result before and after. -/
theorem C19_partial (E : Ext) (p q : List Bytes) (v : Val) (g g' r : Graph) (hp : Path E p) (hq : Path E q) (hg : Data E g)
    (hlp : Fits (dotted p)) (hlq : Fits (dotted q)) (hv : AllThisL (Inert E) (subnodesOf v))
    (hv' : NoNilL (subnodesOf v)) (h1 : ¬ p <+: q) (h2 : ¬ q <+: p) (hset : g.set E (dotted p) v = .ok (g', r)) :
    (g'.get E (dotted q)).bind (fun r => .ok r.1) = (g.get E (dotted q)).bind (fun r => .ok r.1) := by
  obtain ⟨r', hr⟩ := set_names v hp hlp hg.1
  rw [hr] at hset
  simp only [Res.ok.injEq, Prod.mk.injEq] at hset
  rw [← hset.1]
  have hd : Data E (store E v p g) :=
    ⟨store_noNil hv' p g hg.1, store_allThis (fun _ => trivial) trivial hv p g hg.2⟩
  rw [get_names hq hlq (.inr hd), get_names hq hlq (.inr hg), lookup_store_other v p q g hg.1 h1 h2]
  rfl

/-- Nodes are added only along the path: below every node reached by the first
names `pre` of the path, the subnodes that do not have the next name `id` are the
same as before, and so are those after the first with that name. -/
theorem C19_along_path_partial (E : Ext) (pre post : List Bytes) (id : Bytes) (v : Val) (g g' r : Graph)
    (hp : Path E (pre ++ id :: post)) (hg : NoNil g) (hl : Fits (dotted (pre ++ id :: post)))
    (hset : g.set E (dotted (pre ++ id :: post)) v = .ok (g', r)) :
    let before := (lookup E pre g).out
    let after := (lookup E pre g').out
    after.filter (fun n => decide (n.thisString E ≠ id)) = before.filter (fun n => decide (n.thisString E ≠ id)) ∧
    (after.filter (fun n => decide (n.thisString E = id))).tail = (before.filter (fun n => decide (n.thisString E = id))).tail := by
  obtain ⟨r', hr⟩ := set_names v hp hl hg
  rw [hr] at hset
  simp only [Res.ok.injEq, Prod.mk.injEq] at hset
  rw [← hset.1]
  exact store_along v pre post id g hg

/-- Setting twice is the same as setting once. -/
theorem C19_idempotent_partial (E : Ext) (p : List Bytes) (v : Val) (g g' r : Graph) (hp : Path E p) (hg : NoNil g)
    (hl : Fits (dotted p)) (hv : NoNilL (subnodesOf v)) (hset : g.set E (dotted p) v = .ok (g', r)) :
    ∃ r', g'.set E (dotted p) v = .ok (g', r') := by
  obtain ⟨r', hr⟩ := set_names v hp hl hg
  rw [hr] at hset
  simp only [Res.ok.injEq, Prod.mk.injEq] at hset
  obtain ⟨rfl, _⟩ := hset
  obtain ⟨r'', hr'⟩ := set_names (E := E) v hp hl (store_noNil hv p g hg)
  exact ⟨r'', by rw [hr', store_idem v p g hg]⟩

/-! ## C20 -/

/-- Where no node has the name, `Get` is nil and the conversions of that give the
default, or the zero value (NaN for `Float64`; the empty text is not a number). -/
theorem C20_partial (E : Ext) (p : List Bytes) (g : Graph) (hp : Path E p) (hg : g = .nil ∨ Data E g)
    (hl : Fits (dotted p)) (hm : lookup E p g = .nil) :
    ∃ n, g.get E (dotted p) = .ok (n, g) ∧ n = .nil ∧
      (∀ d, n.string E (some d) = .ok d) ∧ n.string E = .ok [] ∧
      (∀ d, n.int64 E (some d) = .ok d) ∧ n.int64 E = .ok 0 ∧
      (∀ d, n.boolean E (some d) = .ok d) ∧ n.boolean E = .ok false ∧
      (E.parseFloat [] = none → (∀ d, n.float64 E (some d) = .ok d) ∧ n.float64 E = .ok E.nan) := by
  refine ⟨.nil, ?_, rfl, fun _ => rfl, rfl, fun _ => rfl, rfl, fun _ => rfl, rfl, fun h => ⟨fun d => ?_, ?_⟩⟩
  · rw [get_names hp hl hg, hm]
  · simp [Graph.float64, Graph.string, vfloatf, vfloat, vint, vstr, h]
  · simp [Graph.float64, Graph.string, vfloatf, vfloat, vint, vstr, h]

/-- The getters with a path give an error there, and also if there is nothing below the
path. -/
theorem C20_getters_partial (E : Ext) (p : List Bytes) (g : Graph) (hp : Path E p) (hg : g = .nil ∨ Data E g)
    (hl : Fits (dotted p)) (hm : (lookup E p g).out = []) :
    g.getString E (dotted p) = .ok none ∧ g.getBytes E (dotted p) = .ok none ∧ g.getInt64 E (dotted p) = .ok none ∧
      g.getFloat64 E (dotted p) = .ok none ∧ g.getBool E (dotted p) = .ok none := by
  have hget := get_names hp hl hg
  have hne : (dotted p).isEmpty = false := dotted_not_empty hp
  have hf : g.getFirst E (dotted p) = .ok none := by
    simp only [Graph.getFirst, hget, Res.ok_bind]
    cases hn : lookup E p g with
    | nil => rfl
    | node t o =>
      rw [hn] at hm
      cases hm
      rfl
  simp [Graph.getString, Graph.getBytes, Graph.getInt64, Graph.getFloat64, Graph.getBool, hne, hf, Res.ok_bind]

/-! ## C21 -/

/-- `GetString(path)` with its error ignored is `Get(path).String()`, for every
graph and every non-empty text as path: same text, same panic, same endless run. -/
theorem C21_string_partial (E : Ext) (g : Graph) (s : Bytes) (hs : s ≠ []) :
    (g.getString E s).bind (fun r => .ok (r.getD [])) = (g.get E s).bind (fun r => r.1.string E) := by
  have he : s.isEmpty = false := by cases s <;> simp at hs ⊢
  simp only [Graph.getString, he, Bool.false_eq_true, ↓reduceIte, Graph.getFirst]
  cases h : g.get E s with
  | ok r =>
    obtain ⟨n, g'⟩ := r
    match n with
    | .nil => rfl
    | .node _ [] => rfl
    | .node _ (.nil :: _) => rfl
    | .node _ (.node t _ :: _) => rfl
  | panic => rfl
  | oof => rfl

/-- `GetInt64(path)` succeeds with `i` exactly when `Get(path).Int64(d)` is `i`
whatever the default `d`; otherwise that gives `d`. -/
theorem C21_int_partial (E : Ext) (g : Graph) (s : Bytes) (hs : s ≠ []) (d : Int) :
    (g.getInt64 E s).bind (fun r => .ok (r.getD d)) = (g.get E s).bind (fun r => r.1.int64 E (some d)) := by
  have he : s.isEmpty = false := by cases s <;> simp at hs ⊢
  simp only [Graph.getInt64, he, Bool.false_eq_true, ↓reduceIte, Graph.getFirst]
  cases h : g.get E s with
  | ok r =>
    obtain ⟨n, g'⟩ := r
    match n with
    | .nil => rfl
    | .node _ [] => rfl
    | .node _ (.nil :: _) => rfl
    | .node _ (.node t _ :: _) =>
      simp only [Res.bind, Res.ok_bind, Graph.int64, Graph.interface]
      cases vintf E t with
      | ok r => cases r <;> rfl
      | panic => rfl
      | oof => rfl
  | panic => rfl
  | oof => rfl

/-- `GetBytes(path)` with its error ignored is `Get(path).Bytes()`, for every graph and
every non-empty text as path. -/
theorem C21_bytes_partial (E : Ext) (g : Graph) (s : Bytes) (hs : s ≠ []) :
    (g.getBytes E s).bind (fun r => .ok (r.getD [])) = (g.get E s).bind (fun r => r.1.bytes E) := by
  have he : s.isEmpty = false := by cases s <;> simp at hs ⊢
  simp only [Graph.getBytes, he, Bool.false_eq_true, ↓reduceIte, Graph.getFirst]
  cases h : g.get E s with
  | ok r =>
    obtain ⟨n, g'⟩ := r
    match n with
    | .nil => rfl
    | .node _ [] => rfl
    | .node _ (.nil :: _) => rfl
    | .node _ (.node t _ :: _) => rfl
  | panic => rfl
  | oof => rfl

/-- `GetFloat64(path)` succeeds with `f` exactly when `Get(path).Float64(d)` is `f` whatever
the default `d`; otherwise that gives `d`.  `Float64` reads the text of the value, so a value
that is a number has to be read back from its text: an integer fits an int64 and its text
reads as that integer rounded (`strconv.ParseFloat`), a float is written in a way that reads
as itself.  For values of any other type nothing is asked. -/
theorem C21_float_partial (E : Ext) (g : Graph) (s : Bytes) (hs : s ≠ []) (d : UInt64)
    (h0 : E.parseFloat [] = none)
    (hv : ∀ n g' t o rest, g.get E s = .ok (n, g') → n.out = .node t o :: rest →
      (∀ k i, t = .int k i → E.parseFloat (itoa i) = some (E.ofInt (wrap64 i))) ∧
      (∀ x, t = .f64 x → E.parseFloat (E.fmtF64 x) = some x) ∧
      (∀ x, t = .f32 x → E.parseFloat (E.fmtF32 x) = some (E.f32to64 x))) :
    (g.getFloat64 E s).bind (fun r => .ok (r.getD d)) = (g.get E s).bind (fun r => r.1.float64 E (some d)) := by
  have he : s.isEmpty = false := by cases s <;> simp at hs ⊢
  have hempty : vfloatf E (.str []) = none := h0
  have hstr : ∀ x, vfloatf E (.str x) = E.parseFloat x := fun _ => rfl
  simp only [Graph.getFloat64, he, Bool.false_eq_true, ↓reduceIte, Graph.getFirst]
  cases h : g.get E s with
  | ok r =>
    obtain ⟨n, g'⟩ := r
    match n, h with
    | .nil, _ => simp [Res.bind, Res.ok_bind, Graph.float64, Graph.string, hempty]
    | .node _ [], _ => simp [Res.bind, Res.ok_bind, Graph.float64, Graph.string, Graph.interface, vstr, hempty]
    | .node _ (.nil :: _), _ => rfl
    | .node _ (.node t o :: rest), h =>
      obtain ⟨hi, h64, h32⟩ := hv _ _ t o rest h rfl
      have hsame : vfloatf E t = E.parseFloat (vstr E t) := by
        cases t with
        | int k i => rw [show vstr E (.int k i) = itoa i from rfl, hi k i rfl]; rfl
        | f64 x => rw [show vstr E (.f64 x) = E.fmtF64 x from rfl, h64 x rfl]; rfl
        | f32 x => rw [show vstr E (.f32 x) = E.fmtF32 x from rfl, h32 x rfl]; rfl
        | _ => rfl
      simp only [Res.bind, Res.ok_bind, Graph.float64, Graph.string, Graph.interface, hstr, hsame]
      cases E.parseFloat (vstr E t) <;> rfl
  | panic => rfl
  | oof => rfl

/-- The same for booleans, if the value found is a text, a byte slice or a boolean. -/
theorem C21_bool_partial (E : Ext) (g : Graph) (s : Bytes) (hs : s ≠ []) (d : Bool)
    (hv : ∀ n g' t o rest, g.get E s = .ok (n, g') → n.out = .node t o :: rest →
      (∃ x, t = .str x) ∨ (∃ x, t = .bytes x) ∨ (∃ x, t = .bool x)) :
    (g.getBool E s).bind (fun r => .ok (r.getD d)) = (g.get E s).bind (fun r => r.1.boolean E (some d)) := by
  have he : s.isEmpty = false := by cases s <;> simp at hs ⊢
  simp only [Graph.getBool, he, Bool.false_eq_true, ↓reduceIte, Graph.getFirst]
  cases h : g.get E s with
  | ok r =>
    obtain ⟨n, g'⟩ := r
    match n, h with
    | .nil, _ => rfl
    | .node _ [], _ => rfl
    | .node _ (.nil :: _), _ => rfl
    | .node _ (.node t o :: rest), h =>
      simp only [Res.bind, Res.ok_bind, Graph.boolean, Graph.string, Graph.interface]
      rcases hv _ _ t o rest h rfl with ⟨x, rfl⟩ | ⟨x, rfl⟩ | ⟨x, rfl⟩
      · simp only [vstr]
        rcases vboolf (.str x) with ⟨b, _ | _⟩ <;> rfl
      · simp only [vstr]
        have : vboolf (.bytes x) = vboolf (.str x) := rfl
        rw [this]
        rcases vboolf (.str x) with ⟨b, _ | _⟩ <;> rfl
      · cases x <;> rfl
  | panic => rfl
  | oof => rfl

/-- A graph of data used in the examples: a { b { c } d 1 } a. -/
def sampleGraph : Graph :=
  .node (.str b!"_")
    [.node (.str b!"a") [.node (.str b!"b") [.node (.str b!"c") []], .node (.str b!"d") [.node (.int .int 1) []]],
     .node (.str b!"a") []]

theorem sampleGraph_data (E : Ext) : Data E sampleGraph := by
  simp [sampleGraph, Data, NoNil, NoNilL, AllThis, AllThisL, Inert]

theorem samplePath (E : Ext) : Path E [b!"a", b!"d"] :=
  ⟨by simp, by
    have h1 := nameA E 97 (by unfold AsciiLetter; decide)
    have h2 := nameA E 100 (by unfold AsciiLetter; decide)
    intro id hid
    simp only [List.mem_cons, List.not_mem_nil, or_false] at hid
    rcases hid with rfl | rfl
    · exact h1
    · exact h2⟩

/-- For the number 1 they differ: `GetBool` is true and `Get(path).Bool()` false. -/
theorem C21_refuted (E : Ext) : ∃ (g : Graph) (s : Bytes), s ≠ [] ∧ g.getBool E s = .ok (some true) ∧
    (g.get E s).bind (fun r => r.1.boolean E) = .ok false := by
  have hget := get_names (samplePath E) (.short (by decide)) (.inr (sampleGraph_data E))
  have hlook : lookup E [b!"a", b!"d"] sampleGraph = .node (.str b!"d") [.node (.int .int 1) []] := by
    simp [lookup, firstNamed, Graph.thisString, vstr, sampleGraph]
  have hd : dotted [b!"a", b!"d"] = b!"a.d" := rfl
  rw [hlook, hd] at hget
  refine ⟨sampleGraph, b!"a.d", by simp, ?_, ?_⟩
  · simp only [Graph.getBool, Graph.getFirst, hget, Res.ok_bind, List.isEmpty_cons, Bool.false_eq_true, ↓reduceIte, vboolf,
      vboolf.go]
    rfl
  · rw [hget]
    simp only [Res.bind, Graph.boolean, Graph.string, Graph.interface, Res.ok_bind, vstr]
    rfl

/-- What both give for an integer: `GetFloat64` converts it to an int64 first, `Float64` reads its text. -/
theorem floats_of_int (E : Ext) (k : IntKind) (i : Int) (d : UInt64) :
    (Graph.node (.str b!"_") [.node (.str b!"a") [.node (.int k i) []]]).getFloat64 E b!"a" = .ok (some (E.ofInt (wrap64 i))) ∧
    ((Graph.node (.str b!"_") [.node (.str b!"a") [.node (.int k i) []]]).get E b!"a").bind (fun r => r.1.float64 E (some d)) =
      .ok ((E.parseFloat (itoa i)).getD d) := by
  have hp : Path E [b!"a"] := ⟨by simp, by
    intro id hid
    simp only [List.mem_cons, List.not_mem_nil, or_false] at hid
    subst hid
    exact nameA E 97 (by unfold AsciiLetter; decide)⟩
  have hdata : Data E (Graph.node (.str b!"_") [.node (.str b!"a") [.node (.int k i) []]]) := by
    simp [Data, NoNil, NoNilL, AllThis, AllThisL, Inert]
  have hget := get_names hp (.short (by decide)) (.inr hdata)
  have hlook : lookup E [b!"a"] (Graph.node (.str b!"_") [.node (.str b!"a") [.node (.int k i) []]]) =
      .node (.str b!"a") [.node (.int k i) []] := by
    simp [lookup, firstNamed, Graph.thisString, vstr]
  have hdot : dotted [b!"a"] = b!"a" := rfl
  rw [hlook, hdot] at hget
  constructor
  · simp only [Graph.getFloat64, Graph.getFirst, hget, Res.ok_bind, List.isEmpty_cons, Bool.false_eq_true, ↓reduceIte]
    rfl
  · rw [hget]
    have ht : vstr E (.int k i) = itoa i := rfl
    have hs : ∀ x, vfloatf E (.str x) = E.parseFloat x := fun _ => rfl
    simp only [Res.bind, Graph.float64, Graph.string, Graph.interface, Res.ok_bind, ht, hs]
    cases h : E.parseFloat (itoa i) <;> rfl

/-- For unsigned integers above the largest int64 they differ: `GetFloat64` converts them to an
int64 first.  Here 18446744073709551615 comes out as -1; all that is asked of `strconv.ParseFloat`
is that it reads the text of that number, and not as -1. -/
theorem C21_float_refuted (E : Ext) (f : UInt64) (hE : E.parseFloat (itoa (2 ^ 64 - 1)) = some f) (hf : f ≠ E.ofInt (-1))
    (d : UInt64) : ∃ (g : Graph) (s : Bytes), s ≠ [] ∧ g.getFloat64 E s = .ok (some (E.ofInt (-1))) ∧
      (g.get E s).bind (fun r => r.1.float64 E (some d)) = .ok f ∧ f ≠ E.ofInt (-1) := by
  have hw : wrap64 (2 ^ 64 - 1) = -1 := by decide
  obtain ⟨h1, h2⟩ := floats_of_int E .uint64 (2 ^ 64 - 1) d
  rw [hw] at h1
  rw [hE] at h2
  exact ⟨_, _, by simp, h1, h2, hf⟩

/-- With the empty path every getter reads the graph itself, as the function of the same type
without a path does, and reports no error. -/
theorem C21_empty (E : Ext) (g : Graph) :
    g.getString E [] = (g.string E).bind (fun r => .ok (some r)) ∧ g.getBytes E [] = (g.bytes E).bind (fun r => .ok (some r)) ∧
    g.getInt64 E [] = (g.int64 E).bind (fun r => .ok (some r)) ∧ g.getFloat64 E [] = (g.float64 E).bind (fun r => .ok (some r)) ∧
    g.getBool E [] = (g.boolean E).bind (fun r => .ok (some r)) := by
  refine ⟨rfl, ?_, rfl, rfl, rfl⟩
  simp only [Graph.getBytes, Graph.bytes, List.isEmpty_nil, ↓reduceIte]
  cases g.interface <;> rfl

/-- With the empty path the getters read the graph itself, while `Get` finds nothing in any
graph: the text of the node is lost. -/
theorem C21_empty_refuted (E : Ext) :
    (∀ g : Graph, (g.get E []).bind (fun r => r.1.string E) = .ok []) ∧
    (∀ g : Graph, (g.getString E []).bind (fun r => .ok (r.getD [])) = g.string E) ∧
    ∃ g : Graph, g.string E = .ok b!"x" := by
  refine ⟨?_, ?_, .node .nil [.node (.str b!"x") []], rfl⟩
  · intro g
    cases g <;> rfl
  · intro g
    simp only [Graph.getString, List.isEmpty_nil, ↓reduceIte]
    cases g.string E <;> rfl

/-! ## The hypotheses are met -/

example (E : Ext) : Path E [b!"a", b!"d"] ∧ Data E sampleGraph ∧ Fits (dotted [b!"a", b!"d"]) ∧
    lookup E [b!"a", b!"d"] sampleGraph = .node (.str b!"d") [.node (.int .int 1) []] :=
  ⟨samplePath E, sampleGraph_data E, .short (by decide), by simp [lookup, firstNamed, Graph.thisString, vstr, sampleGraph]⟩

/-- C17: a.d exists and a.d.a does not; both sides give the same. -/
example (E : Ext) : (sampleGraph.get E b!"a.d").bind (fun r => .ok r.1) = .ok (.node (.str b!"d") [.node (.int .int 1) []]) := by
  have h := C17_lookup_partial E [b!"a", b!"d"] sampleGraph (samplePath E) (.inr (sampleGraph_data E)) (.short (by decide))
  have hlook : lookup E [b!"a", b!"d"] sampleGraph = .node (.str b!"d") [.node (.int .int 1) []] := by
    simp [lookup, firstNamed, Graph.thisString, vstr, sampleGraph]
  rw [hlook] at h
  exact (congrArg (fun r => r.bind fun r => .ok r.1) h : _)

/-- C18, C19: what setting a.d to true makes of the graph: the node a.b and the
second a are as before. -/
example (E : Ext) : store E (.bool true) [b!"a", b!"d"] sampleGraph =
    .node (.str b!"_")
      [.node (.str b!"a") [.node (.str b!"b") [.node (.str b!"c") []], .node (.str b!"d") [.node (.bool true) []]],
       .node (.str b!"a") []] := by
  simp [store, sampleGraph, updateFirst, Graph.thisString, vstr, subnodesOf]

/-- C19: paths that are neither prefix nor extension of one another. -/
example : ¬ [b!"a", b!"d"] <+: [b!"a", b!"b"] ∧ ¬ [b!"a", b!"b"] <+: [b!"a", b!"d"] := by decide

/-- C20: a path that does not exist. -/
example (E : Ext) : lookup E [b!"d", b!"a"] sampleGraph = .nil := by
  simp [lookup, firstNamed, Graph.thisString, vstr, sampleGraph, Graph.out]

/-- A run-time whose `ParseFloat` reads the empty text as no number and all others as 1. -/
def readsOne (E : Ext) : Ext := { E with parseFloat := fun t => if t.isEmpty then none else some (E.ofInt 1) }

/-- C21, floats: with that run-time, and the value 1 at a.d. -/
example (E : Ext) : (readsOne E).parseFloat [] = none ∧
    (∀ n g' t o rest, sampleGraph.get (readsOne E) b!"a.d" = .ok (n, g') → n.out = .node t o :: rest →
      (∀ k i, t = .int k i → (readsOne E).parseFloat (itoa i) = some ((readsOne E).ofInt (wrap64 i))) ∧
      (∀ x, t = .f64 x → (readsOne E).parseFloat ((readsOne E).fmtF64 x) = some x) ∧
      (∀ x, t = .f32 x → (readsOne E).parseFloat ((readsOne E).fmtF32 x) = some ((readsOne E).f32to64 x))) := by
  have hget := get_names (samplePath (readsOne E)) (.short (by decide)) (.inr (sampleGraph_data (readsOne E)))
  have hlook : lookup (readsOne E) [b!"a", b!"d"] sampleGraph = .node (.str b!"d") [.node (.int .int 1) []] := by
    simp [lookup, firstNamed, Graph.thisString, vstr, sampleGraph]
  have hd : dotted [b!"a", b!"d"] = b!"a.d" := rfl
  rw [hlook, hd] at hget
  have h1 : itoa 1 = [49] := by decide
  have h2 : wrap64 1 = 1 := by decide
  refine ⟨rfl, ?_⟩
  intro n g' t o rest h hn
  rw [hget] at h
  simp only [Res.ok.injEq, Prod.mk.injEq] at h
  obtain ⟨rfl, _⟩ := h
  simp only [Graph.out, List.cons.injEq, Graph.node.injEq] at hn
  obtain ⟨⟨rfl, _⟩, _⟩ := hn
  refine ⟨?_, nofun, nofun⟩
  intro k i hi
  simp only [Val.int.injEq] at hi
  obtain ⟨_, rfl⟩ := hi
  rw [h1, h2]
  rfl

end Ogdl
