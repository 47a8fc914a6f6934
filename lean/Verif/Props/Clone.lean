import Verif.Lemmas.Unshared

/-!
# C24: clones are independent; C77: a change of subnodes is local
-/

namespace Ogdl
open Spec HM

variable (E : Ext) (grow : Nat → Nat → Nat) (fuel : Nat)

/-- C24, first part: a clone looks like the original at every depth, and making it
changes nothing that could be seen before. -/
theorem C24_same (h h1 : Heap) (g c : Ptr) (hw : HeapOk h) (hg : Known h g) (hplain : PlainBelow h g)
    (hc : (hClone grow fuel g).run h = (.ok c, h1)) :
    (∀ n, hview n h1 c = hview n h g) ∧ ∀ p, Known h p → ∀ n, hview n h1 p = hview n h p :=
  ⟨clone_view fuel g h h1 c hw hg hplain hc, fun _ hp n => (clone_extends hw hg hplain hc).1.view hw hp n⟩

/-- The two clients work on separate parts of memory, whatever they do. -/
theorem twoClients_sep (turns : List (Bool × HOp)) : ∀ (s : TwoClients) (N A : Nat → Prop), Sep N A s.first s.second s.heap →
    ∃ N A, Sep N A (turns.foldl (TwoClients.step E grow fuel) s).first (turns.foldl (TwoClients.step E grow fuel) s).second
      (turns.foldl (TwoClients.step E grow fuel) s).heap := by
  induction turns with
  | nil => exact fun s N A hs => ⟨N, A, hs⟩
  | cons t ts ih =>
    intro s N A hs
    rw [List.foldl_cons]
    unfold TwoClients.step
    cases t.1 with
    | true =>
      obtain ⟨⟨N', A', h⟩, _⟩ := hs.step (E := E) (grow := grow) (fuel := fuel) t.2
      exact ih _ N' A' h
    | false =>
      obtain ⟨⟨N', A', h⟩, _⟩ := hs.swap.step (E := E) (grow := grow) (fuel := fuel) t.2
      exact ih _ _ _ h.swap

/-- C24: after a clone was made, let one client have any pointers that existed before
(such as the original and its subnodes) and another one the clone.  Whatever the two do
in turns, no operation of one changes what the other sees from any pointer it has got. -/
theorem C24_independent (h h1 : Heap) (g c : Ptr) (hw : HeapOk h) (hg : Known h g) (hplain : PlainBelow h g)
    (hc : (hClone grow fuel g).run h = (.ok c, h1)) (ps : List Ptr) (hps : ∀ p ∈ ps, Known h p)
    (turns : List (Bool × HOp)) (op : HOp) :
    let s := turns.foldl (TwoClients.step E grow fuel) ⟨ps, [c], h1⟩
    (∀ p ∈ s.second, ∀ n, hview n (s.step E grow fuel (true, op)).heap p = hview n s.heap p) ∧
    (∀ p ∈ s.first, ∀ n, hview n (s.step E grow fuel (false, op)).heap p = hview n s.heap p) := by
  intro s
  obtain ⟨N, A, hs⟩ := twoClients_sep E grow fuel turns ⟨ps, [c], h1⟩ _ _ (clone_sep hw hg hplain hc ps hps)
  exact ⟨(hs.step op).2, (hs.swap.step op).2⟩

theorem runOps_sep (ops : List HOp) : ∀ (m t : List Ptr) (h : Heap) (N A : Nat → Prop), Sep N A m t h →
    ∀ p ∈ t, ∀ n, hview n (runOps E grow fuel ops m h).2 p = hview n h p := by
  induction ops with
  | nil => exact fun _ _ _ _ _ _ _ _ _ => rfl
  | cons op ops ih =>
    intro m t h N A hs p hp n
    obtain ⟨⟨N', A', h'⟩, hv⟩ := hs.step (E := E) (grow := grow) (fuel := fuel) op
    exact (ih _ t _ N' A' h' p hp n).trans (hv p hp n)

/-- C24, on the original: it looks as before `Clone` after any history of operations
that starts with the clone. -/
theorem C24_original (h h1 : Heap) (g c : Ptr) (hw : HeapOk h) (hg : Known h g) (hplain : PlainBelow h g)
    (hc : (hClone grow fuel g).run h = (.ok c, h1)) (ops : List HOp) (n : Nat) :
    hview n (runOps E grow fuel ops [c] h1).2 g = hview n h g :=
  (runOps_sep E grow fuel ops [c] [g] h1 _ _ (clone_sep hw hg hplain hc [g] (by simpa using hg)).swap g (List.mem_singleton.2 rfl) n).trans
    ((C24_same grow fuel h h1 g c hw hg hplain hc).2 g hg n)

/-- C24, on the clone: it looks like the original at the time of `Clone` after any
history of operations that starts with pointers from before. -/
theorem C24_clone (h h1 : Heap) (g c : Ptr) (hw : HeapOk h) (hg : Known h g) (hplain : PlainBelow h g)
    (hc : (hClone grow fuel g).run h = (.ok c, h1)) (ps : List Ptr) (hps : ∀ p ∈ ps, Known h p) (ops : List HOp) (n : Nat) :
    hview n (runOps E grow fuel ops ps h1).2 c = hview n h g :=
  (runOps_sep E grow fuel ops ps [c] h1 _ _ (clone_sep hw hg hplain hc ps hps) c (List.mem_singleton.2 rfl) n).trans
    ((C24_same grow fuel h h1 g c hw hg hplain hc).1 n)

/-- C24: `Clone` returns on every graph without cycles (and without graphs as contents),
whatever is its size. -/
theorem C24_returns (h : Heap) (g : Ptr) (hw : HeapOk h) (hg : Known h g) (hplain : PlainBelow h g) (n : Nat) (hf : FiniteBelow n h g) :
    ∃ c h1, (hClone grow (n + 1) g).run h = (.ok c, h1) := clone_returns n g h hw hg hplain hf

/-- The graph `_ (a b)` in memory. -/
def sampleHeap : Heap :=
  ⟨[⟨.val (.str b!"_"), ⟨some 0, 1⟩⟩, ⟨.val (.str b!"a"), ⟨some 1, 1⟩⟩, ⟨.val (.str b!"b"), {}⟩], [[some 1], [some 2]]⟩

theorem sample_ok : HeapOk sampleHeap := by
  refine ⟨?_, ?_, ?_⟩
  · intro c hc p hp
    simp only [sampleHeap, List.mem_cons, List.not_mem_nil, or_false] at hc
    rcases hc with rfl | rfl | rfl <;> cases hp
  · intro c hc k hk
    simp only [sampleHeap, List.mem_cons, List.not_mem_nil, or_false] at hc
    rcases hc with rfl | rfl | rfl <;> cases hk <;> decide
  · intro ps hps p hp a ha
    simp only [sampleHeap, List.mem_cons, List.not_mem_nil, or_false] at hps
    rcases hps with rfl | rfl <;> (simp only [List.mem_cons, List.not_mem_nil, or_false] at hp; subst hp; cases ha; decide)

theorem sample_plain (p : Ptr) : PlainBelow sampleHeap p := by
  intro a c _ hc
  have hm := List.mem_of_getElem? hc
  simp only [sampleHeap, List.mem_cons, List.not_mem_nil, or_false] at hm
  rcases hm with rfl | rfl | rfl <;> exact ⟨_, rfl⟩

/-- The hypotheses hold of the sample, and its clone is made of new nodes. -/
example : HeapOk sampleHeap ∧ Known sampleHeap (some 0) ∧ PlainBelow sampleHeap (some 0) ∧ FiniteBelow 3 sampleHeap (some 0) ∧
    ((hClone grow 4 (some 0)).run sampleHeap).1 = .ok (some 3) := by
  refine ⟨sample_ok, fun a ha => by cases ha; decide, sample_plain _, ?_, rfl⟩
  refine ⟨_, rfl, by decide, ?_⟩
  intro p hp
  have : p = some 1 := by simpa [sampleHeap, Heap.array] using hp
  subst this
  refine ⟨_, rfl, by decide, ?_⟩
  intro p hp
  have : p = some 2 := by simpa [sampleHeap, Heap.array] using hp
  subst this
  exact ⟨_, rfl, by decide, nofun⟩

/-- Operations on a clone of the sample do something. -/
example : hview 9 (runOps E grow 9 [.getAt 0 0, .putThis 1 (.val (.str b!"z")), .clear 1] [some 3] ((hClone grow 4 (some 0)).run sampleHeap).2).2 (some 3) =
    .node (.val (.str b!"_")) [.node (.val (.str b!"z")) []] := rfl

/-- The limit given in the documentation of `Clone` (graph.go:136-141) is real: a content
that is a graph is shared, so by way of the clone it can be changed. -/
theorem C24_content_refuted : ∃ (h h1 : Heap) (g c x : Ptr) (ops : List HOp) (n : Nat), HeapOk h ∧ Known h g ∧ Known h x ∧
    (hClone grow 9 g).run h = (.ok c, h1) ∧ hview n (runOps E grow 9 ops [c] h1).2 x ≠ hview n h x := by
  refine ⟨⟨[⟨.ptr (some 1), {}⟩, ⟨.val (.str b!"x"), ⟨some 0, 1⟩⟩, ⟨.val (.str b!"y"), {}⟩], [[some 2]]⟩, _, some 0, some 3, some 1,
    [.this 0, .clear 1], 2, ?_, ?_, ?_, rfl, ?_⟩
  · refine ⟨?_, ?_, ?_⟩
    · intro c hc p hp
      simp only [List.mem_cons, List.not_mem_nil, or_false] at hc
      rcases hc with rfl | rfl | rfl <;> cases hp
      intro a ha
      cases ha
      decide
    · intro c hc k hk
      simp only [List.mem_cons, List.not_mem_nil, or_false] at hc
      rcases hc with rfl | rfl | rfl <;> cases hk
      decide
    · intro ps hps p hp a ha
      simp only [List.mem_cons, List.not_mem_nil, or_false] at hps
      subst hps
      simp only [List.mem_cons, List.not_mem_nil, or_false] at hp
      subst hp
      cases ha
      decide
  · intro a ha; cases ha; decide
  · intro a ha; cases ha; decide
  · intro he
    have h1 : hview 2 (runOps E grow 9 [.this 0, .clear 1] [some 3] ((hClone grow 9 (some 0)).run ⟨[⟨.ptr (some 1), {}⟩, ⟨.val (.str b!"x"), ⟨some 0, 1⟩⟩, ⟨.val (.str b!"y"), {}⟩], [[some 2]]⟩).2).2 (some 1) =
      .node (.val (.str b!"x")) [] := rfl
    have h2 : hview 2 ⟨[⟨.ptr (some 1), {}⟩, ⟨.val (.str b!"x"), ⟨some 0, 1⟩⟩, ⟨.val (.str b!"y"), {}⟩], [[some 2]]⟩ (some 1) =
      .node (.val (.str b!"x")) [.node (.val (.str b!"y")) []] := rfl
    have := h1.symm.trans (he.trans h2)
    cases this

/-! ## Memory made by the methods -/

theorem solid_empty : Solid {} := ⟨nofun, nofun, nofun⟩

theorem runOps_solid (ops : List HOp) : ∀ (regs : List Ptr) (h : Heap), Solid h → (∀ op ∈ ops, op.NoSlicing) →
    Solid (runOps E grow fuel ops regs h).2 := by
  induction ops with
  | nil => exact fun _ _ hs _ => hs
  | cons op ops ih =>
    intro regs h hs hop
    have h1 := (Upd.exec (E := E) (grow := grow) (fuel := fuel) (regs := regs) (hop op (List.mem_cons_self ..)) h hs).1
    have h2 : (op.step E grow fuel regs h).2 = ((op.exec E grow fuel regs).run h).2 := by
      unfold HOp.step
      rcases (op.exec E grow fuel regs).run h with ⟨r, h'⟩
      cases r <;> rfl
    exact ih _ _ (h2 ▸ h1) fun o ho => hop o (List.mem_cons_of_mem _ ho)

/-- C77: in memory made by any history of operations, adding and removing subnodes of
one node changes the subnodes of no other node, shared or not. -/
theorem C77_local (ops : List HOp) (hops : ∀ op ∈ ops, op.NoSlicing) (op : HOp) (i : Nat) (hi : op.receiver = some i) :
    let s := runOps E grow fuel ops [] {}
    ∀ q, q < s.2.nodes.length → some q ≠ held s.1 i → subsOf (op.step E grow fuel s.1 s.2).2 q = subsOf s.2 q := by
  intro s q hq hne
  have hs := runOps_solid E grow fuel ops [] {} solid_empty hops
  have h2 : (op.step E grow fuel s.1 s.2).2 = ((op.exec E grow fuel s.1).run s.2).2 := by
    unfold HOp.step
    rcases (op.exec E grow fuel s.1).run s.2 with ⟨r, h'⟩
    cases r <;> rfl
  rw [h2]
  have T : ∀ a : Nat, held s.1 i = some a → (fun a => some a = held s.1 i) a := fun _ ha => ha.symm
  have : Upd (fun a => some a = held s.1 i) (op.exec E grow fuel s.1) := by
    cases op <;> cases hi
    · exact Upd.add T
    · exact Upd.addNodes T
    · exact Upd.nodeOrNew T
    · exact Upd.bind (Upd.delete T) fun _ => Upd.pure
    · exact Upd.bind (Upd.clear T) fun _ => Upd.pure
    · exact Upd.bind (Upd.deleteAt T) fun _ => Upd.pure
    · exact Upd.putIndex Upd.pure T
  exact (this s.2 hs).2 q hq hne

/-- C77: what the operations do to the node itself: `Add` of a graph and `AddNodes` put
in the very nodes given (they are shared from then on, unlike those of a clone), and
`DeleteAt` takes out one. -/
theorem C77_shared (ops : List HOp) (hops : ∀ op ∈ ops, op.NoSlicing) (i a : Nat) :
    let s := runOps E grow fuel ops [] {}
    held s.1 i = some a → a < s.2.nodes.length →
    (∀ j b, held s.1 j = some b → subsOf ((HOp.add i (.reg j)).step E grow fuel s.1 s.2).2 a = subsOf s.2 a ++ [some b]) ∧
    (∀ j b, held s.1 j = some b → b < s.2.nodes.length →
      subsOf ((HOp.addNodes i j).step E grow fuel s.1 s.2).2 a = subsOf s.2 a ++ subsOf s.2 b) ∧
    (∀ k : Nat, k < (subsOf s.2 a).length → subsOf ((HOp.deleteAt i k).step E grow fuel s.1 s.2).2 a = (subsOf s.2 a).eraseIdx k) ∧
    subsOf ((HOp.clear i).step E grow fuel s.1 s.2).2 a = [] := by
  intro s hi ha
  have hs := runOps_solid E grow fuel ops [] {} solid_empty hops
  have hc : s.2.nodes[a]? = some s.2.nodes[a] := List.getElem?_eq_getElem ha
  have hstep : ∀ {op : HOp} {r : Res Ptr} {h' : Heap}, (op.exec E grow fuel s.1).run s.2 = (r, h') → (op.step E grow fuel s.1 s.2).2 = h' := by
    intro op r h' he
    unfold HOp.step
    rw [he]
    cases r <;> rfl
  have hsubs : ∀ b, (hb : b < s.2.nodes.length) → subsOf s.2 b = (s.2.array s.2.nodes[b].out).take s.2.nodes[b].out.len := by
    intro b hb
    unfold subsOf
    rw [List.getElem?_eq_getElem hb]
  have hlen : (subsOf s.2 a).length = s.2.nodes[a].out.len := by
    rw [hsubs a ha, List.length_take, Nat.min_eq_left (hs.cap a _ hc)]
  have happ : ∀ ps, ∃ h', (HM.append grow s.2.nodes[a].out ps >>= HM.putOut (some a)).run s.2 = (.ok (), h') ∧ subsOf h' a = subsOf s.2 a ++ ps := by
    intro ps
    obtain ⟨h', h1, _, h3, _⟩ := appendOut_run (grow := grow) (n := s.2.nodes[a].out.len) (ps := ps) hs hc (Nat.le_refl _)
    refine ⟨h', h1, ?_⟩
    rw [h3, List.take_of_length_le (Nat.le_of_eq hlen)]
  refine ⟨?_, ?_, ?_, ?_⟩
  · intro j b hb
    obtain ⟨h', h1, h2⟩ := happ [some b]
    rw [hstep (op := .add i (.reg j)) (r := .ok (some b)) (h' := h'), h2]
    show (hAdd grow (held s.1 i) (.ptr (held s.1 j))).run s.2 = _
    rw [hi, hb]
    unfold hAdd
    dsimp only
    rw [ok_bind' (load_some hc), ← hm_assoc, ok_bind' h1]
    rfl
  · intro j b hb hbl
    obtain ⟨h', h1, h2⟩ := happ (subsOf s.2 b)
    rw [hstep (op := .addNodes i j) (r := .ok (some a)) (h' := h'), h2]
    show (hAddNodes grow (held s.1 i) (held s.1 j)).run s.2 = _
    rw [hi, hb]
    unfold hAddNodes
    dsimp only
    have he : (HM.elems s.2.nodes[b].out).run s.2 = (.ok (subsOf s.2 b), s.2) := by
      rw [hsubs b hbl]
      rfl
    rw [ok_bind' (load_some hc), ok_bind' (load_some (List.getElem?_eq_getElem hbl)), ok_bind' he, ← hm_assoc, ok_bind' h1]
    rfl
  · intro k hk
    obtain ⟨h', h1, _, h2, _⟩ := Upd.remove_run (grow := grow) (i := k) hs hc (by omega)
    rw [hstep (op := .deleteAt i k) (r := .ok none) (h' := h'), h2]
    show (hDeleteAt grow (held s.1 i) k >>= fun _ => Pure.pure none).run s.2 = _
    have he : (hDeleteAt grow (held s.1 i) k).run s.2 = (.ok (), h') := by
      rw [hi]
      unfold hDeleteAt
      dsimp only
      rw [ok_bind' (load_some hc), if_neg (by omega)]
      exact h1
    rw [ok_bind' he]
    rfl
  · have he : (hClear (held s.1 i)).run s.2 = (.ok (), { s.2 with nodes := s.2.nodes.set a { s.2.nodes[a] with out := {} } }) := by
      rw [hi]
      unfold hClear HM.putOut HM.update
      simp only [hc]
    rw [hstep (op := .clear i) (r := .ok none) (h' := { s.2 with nodes := s.2.nodes.set a { s.2.nodes[a] with out := {} } })
      (show (hClear (held s.1 i) >>= fun _ => Pure.pure none).run s.2 = _ by rw [ok_bind' he]; rfl)]
    unfold subsOf
    dsimp only
    rw [List.getElem?_set_self ha]
    simp

/-- A history in which nodes are shared: `c` is in both graphs, a change of its content is
seen in both, and taking it out of the one leaves it in the other. -/
example : let ops : List HOp := [.new (.val (.str b!"g")), .add 0 (.val (.str b!"a")), .new (.val (.str b!"h")), .add 2 (.val (.str b!"c")), .addNodes 0 2,
      .putThis 3 (.val (.str b!"d")), .deleteAt 2 0]
    let s := runOps E (fun _ _ => 1) 9 ops [] {}
    hview 9 s.2 (held s.1 0) = .node (.val (.str b!"g")) [.node (.val (.str b!"a")) [], .node (.val (.str b!"d")) []] ∧
    hview 9 s.2 (held s.1 2) = .node (.val (.str b!"h")) [] := ⟨rfl, rfl⟩

/-- With slicing by the client (`g.Out = x.Out[:1]`) arrays are shared, and `Add` to the
one node replaces a subnode of the other: `x (a b)` becomes `x (a c)`. -/
example : let ops : List HOp := [.new (.val (.str b!"x")), .add 0 (.val (.str b!"a")), .add 0 (.val (.str b!"b")), .new (.val (.str b!"g")),
      .shareOut 3 0 1, .add 3 (.val (.str b!"c"))]
    let s := runOps E (fun _ _ => 1) 9 ops [] {}
    hview 9 s.2 (held s.1 0) = .node (.val (.str b!"x")) [.node (.val (.str b!"a")) [], .node (.val (.str b!"c")) []] := rfl

end Ogdl
