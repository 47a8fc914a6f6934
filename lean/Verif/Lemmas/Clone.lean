import Verif.Lemmas.Heap

/-!
# Clones and the clients of separate parts of memory
-/

namespace Ogdl
open Spec HM

variable {E : Ext} {grow : Nat → Nat → Nat} {fuel : Nat}

/-- What is seen from `p` depends only on a part of memory that nothing there leaves. -/
theorem hview_congr {h h' : Heap} (N A : Nat → Prop) (hn : ∀ a, N a → h'.nodes[a]? = h.nodes[a]?)
    (ha : ∀ k, A k → h'.arrays[k]? = h.arrays[k]?)
    (hc : ∀ a c, h.nodes[a]? = some c → N a → ∀ k, c.out.arr = some k → A k)
    (hp : ∀ k ps, h.arrays[k]? = some ps → A k → ∀ p ∈ ps, ∀ a, p = some a → N a) :
    ∀ (n : Nat) (p : Ptr), (∀ a, p = some a → N a) → hview n h' p = hview n h p
  | 0, none, _ => rfl
  | _ + 1, none, _ => rfl
  | 0, some _, _ => rfl
  | n + 1, some a, hx => by
    unfold hview
    rw [hn a (hx a rfl)]
    cases hcell : h.nodes[a]? with
    | none => rfl
    | some c =>
      dsimp only
      have harr : h'.array c.out = h.array c.out := by
        unfold Heap.array
        cases hk : c.out.arr with
        | none => rfl
        | some k => dsimp only; rw [ha k (hc a c hcell (hx a rfl) k hk)]
      rw [harr]
      congr 1
      apply List.map_congr_left
      intro q hq
      refine hview_congr N A hn ha hc hp n q ?_
      have hq' := List.mem_of_mem_take hq
      unfold Heap.array at hq'
      cases hk : c.out.arr with
      | none => rw [hk] at hq'; cases hq'
      | some k =>
        rw [hk] at hq'
        dsimp only at hq'
        cases hps : h.arrays[k]? with
        | none => rw [hps] at hq'; cases hq'
        | some ps =>
          rw [hps] at hq'
          exact hp k ps hps (hc a c hcell (hx a rfl) k hk) q hq'

/-- Everything allocated up to some moment. -/
def allOwn (N A : Nat) : Own := ⟨(· < N), (· < A), N, A⟩

theorem known_mono {h h' : Heap} (hl : h.nodes.length ≤ h'.nodes.length) {p : Ptr} (hp : Known h p) : Known h' p :=
  fun a ha => Nat.lt_of_lt_of_le (hp a ha) hl

theorem allOwn_inv {h : Heap} (hw : HeapOk h) {N A : Nat} (hn : h.nodes.length ≤ N) (ha : h.arrays.length ≤ A) :
    (allOwn N A).Inv h where
  freshNode _ _ h := h
  freshArr _ _ h := h
  cells a c hc _ := ⟨fun p hp x hx => Nat.lt_of_lt_of_le (hw.content c (List.mem_of_getElem? hc) p hp x hx) hn,
    fun k hk => Nat.lt_of_lt_of_le (hw.slice c (List.mem_of_getElem? hc) k hk) ha⟩
  arrays k ps hps _ p hp a hpa := Nat.lt_of_lt_of_le (hw.elem ps (List.mem_of_getElem? hps) p hp a hpa) hn

theorem heapOk_of_inv {h : Heap} (hi : (allOwn h.nodes.length h.arrays.length).Inv h) : HeapOk h where
  content c hc p hp := by
    obtain ⟨a, hl, ha⟩ := List.getElem_of_mem hc
    exact fun x hx => (hi.cells a c (by rw [List.getElem?_eq_getElem hl, ha]) hl).1 p hp x hx
  slice c hc k hk := by
    obtain ⟨a, hl, ha⟩ := List.getElem_of_mem hc
    exact (hi.cells a c (by rw [List.getElem?_eq_getElem hl, ha]) hl).2 k hk
  elem ps hps p hp := by
    obtain ⟨k, hl, hk⟩ := List.getElem_of_mem hps
    exact fun x hx => hi.arrays k ps (by rw [List.getElem?_eq_getElem hl, hk]) hl p hp x hx

/-- A computation that is safe for every owner keeps memory free of dangling pointers. -/
theorem heapOk_run {m : HM Ptr} {h : Heap} (hw : HeapOk h)
    (hm : HSafe (allOwn (m.run h).2.nodes.length (m.run h).2.arrays.length) h m
      (allOwn (m.run h).2.nodes.length (m.run h).2.arrays.length).ptr) :
    HeapOk (m.run h).2 ∧ ∀ p, (m.run h).1 = .ok p → Known (m.run h).2 p := by
  obtain ⟨i, _, p⟩ := hm h (allOwn_inv hw (m.nodes_le h) (m.arrays_le h)) ⟨fun _ _ => rfl, fun _ _ => rfl⟩ (Nat.le_refl _) (Nat.le_refl _)
  exact ⟨heapOk_of_inv i, p⟩

theorem clone_ok {f : Nat} {g : Ptr} {h : Heap} (hw : HeapOk h) (hg : Known h g) :
    HeapOk ((hClone grow f g).run h).2 ∧ ∀ p, ((hClone grow f g).run h).1 = .ok p → Known ((hClone grow f g).run h).2 p :=
  heapOk_run hw (HSafe.clone f g fun a ha => Nat.lt_of_lt_of_le (hg a ha) (HM.nodes_le _ h))

/-- The part of memory allocated after `h0`. -/
def newOwn (h0 : Heap) (N A : Nat) : Own :=
  ⟨fun a => h0.nodes.length ≤ a ∧ a < N, fun k => h0.arrays.length ≤ k ∧ k < A, N, A⟩

theorem known_below {h : Heap} (hw : HeapOk h) {g p : Ptr} (hg : Known h g) (hb : Below h g p) : Known h p := by
  induction hb with
  | refl => exact hg
  | sub _ hc hq _ =>
    have hq' := List.mem_of_mem_take hq
    unfold Heap.array at hq'
    split at hq'
    · cases hq'
    · next k hk =>
      cases hps : h.arrays[k]? with
      | none => rw [hps] at hq'; cases hq'
      | some ps =>
        rw [hps] at hq'
        exact hw.elem ps (List.mem_of_getElem? hps) _ hq'

theorem below_trans {h : Heap} {p q r : Ptr} (hpq : Below h p q) (hqr : Below h q r) : Below h p r := by
  induction hqr with
  | refl => exact hpq
  | sub _ hc hq ih => exact .sub ih hc hq

section
variable {h0 : Heap} {N A : Nat}

theorem loadOld {a : Nat} (ha : a < h0.nodes.length) :
    HSafe (newOwn h0 N A) h0 (HM.load (some a)) (fun c => h0.nodes[a]? = some c) := by
  refine HSafe.read fun h _ hs c hc => ?_
  have he := hs.nodes a (fun hx => by have := hx.1; omega)
  simp only [Option.bind_some] at hc
  rw [he] at hc
  cases hx : h0.nodes[a]? with
  | none => rw [hx] at hc; cases hc
  | some x => rw [hx] at hc; cases hc; rfl

theorem array_old {h : Heap} (hs : (newOwn h0 N A).Same h0 h) {s : Slice} (hk : ∀ k, s.arr = some k → k < h0.arrays.length) :
    h.array s = h0.array s := by
  unfold Heap.array
  cases hx : s.arr with
  | none => rfl
  | some k =>
    dsimp only
    rw [hs.arrays k (fun hy => by have := hy.1; have := hk k hx; omega)]

theorem indexOld {s : Slice} {i : Nat} (hk : ∀ k, s.arr = some k → k < h0.arrays.length) :
    HSafe (newOwn h0 N A) h0 (HM.index s i) (fun p => p ∈ (h0.array s).take s.len) := by
  refine HSafe.read fun h _ hs p hp => ?_
  rw [array_old hs hk] at hp
  by_cases hl : i < s.len
  · simp only [hl, ↓reduceIte] at hp
    cases hc : (h0.array s)[i]? with
    | none => rw [hc] at hp; cases hp
    | some q =>
      rw [hc] at hp
      cases hp
      refine List.mem_of_getElem? (i := i) ?_
      rw [List.getElem?_take, if_pos hl]
      exact hc
  · simp only [hl, ↓reduceIte] at hp
    cases hp

theorem rangeOld {s : Slice} {f : Ptr → HM Unit} (hk : ∀ k, s.arr = some k → k < h0.arrays.length)
    (hf : ∀ p ∈ (h0.array s).take s.len, HSafe (newOwn h0 N A) h0 (f p) (fun _ => True)) :
    ∀ k i, HSafe (newOwn h0 N A) h0 (HM.range s f k i) (fun _ => True)
  | 0, _ => HSafe.pure trivial
  | k + 1, i => HSafe.bind (indexOld hk) fun p hp => HSafe.bind (hf p hp) fun _ _ => rangeOld hk hf k (i + 1)

/-- A clone is made of new nodes and arrays only. -/
theorem clone_fresh (hw : HeapOk h0) {g : Ptr} (hg : Known h0 g) (hplain : PlainBelow h0 g) :
    ∀ (f : Nat) (p : Ptr), Below h0 g p → HSafe (newOwn h0 N A) h0 (hClone grow f p) (newOwn h0 N A).ptr
  | 0, _, _ => HSafe.oof
  | f + 1, none, _ => HSafe.pure HSafe.ptr_none
  | f + 1, some p, hb => by
    unfold hClone
    have hp := known_below hw hg hb p rfl
    refine HSafe.bind (HSafe.alloc HSafe.val_val) fun a ha => HSafe.bind (loadOld hp) fun x hx => ?_
    have hv : (newOwn h0 N A).val x.this := by
      obtain ⟨v, hv⟩ := hplain p x hb hx
      rw [hv]
      exact HSafe.val_val
    refine HSafe.bind (HSafe.putThis (HSafe.ptr_some ha) hv) fun _ _ => ?_
    refine HSafe.bind (rangeOld (fun k hk => hw.slice x (List.mem_of_getElem? hx) k hk) (fun q hq => ?_) _ _)
      fun _ _ => HSafe.pure (HSafe.ptr_some ha)
    exact HSafe.bind (clone_fresh hw hg hplain f q (.sub hb hx hq)) fun m hm =>
      HSafe.bind (HSafe.load (HSafe.ptr_some ha)) fun c hc => HSafe.bind (HSafe.append hc.2 (by simpa using hm)) fun s hs =>
      HSafe.putOut (HSafe.ptr_some ha) hs
end

/-- Two clients whose pointers lead to separate parts of memory; the first part is
`N`, `A`. -/
structure Sep (N A : Nat → Prop) (mine theirs : List Ptr) (h : Heap) : Prop where
  ok : HeapOk h
  mineKnown : ∀ p ∈ mine, Known h p
  theirsKnown : ∀ p ∈ theirs, Known h p
  mineIn : ∀ p ∈ mine, ∀ a, p = some a → N a
  theirsOut : ∀ p ∈ theirs, ∀ a, p = some a → ¬ N a
  cells : ∀ a c, h.nodes[a]? = some c → (∀ p b, c.this = .ptr p → p = some b → (N a ↔ N b)) ∧
    ∀ k, c.out.arr = some k → (N a ↔ A k)
  arrays : ∀ k ps, h.arrays[k]? = some ps → ∀ p ∈ ps, ∀ a, p = some a → (A k ↔ N a)

theorem Sep.swap {N A : Nat → Prop} {m t : List Ptr} {h : Heap} (s : Sep N A m t h) :
    Sep (fun a => ¬ N a) (fun k => ¬ A k) t m h where
  ok := s.ok
  mineKnown := s.theirsKnown
  theirsKnown := s.mineKnown
  mineIn := s.theirsOut
  theirsOut p hp a ha := fun hn => hn (s.mineIn p hp a ha)
  cells a c hc := ⟨fun p b hp hb => not_congr ((s.cells a c hc).1 p b hp hb), fun k hk => not_congr ((s.cells a c hc).2 k hk)⟩
  arrays k ps hps p hp a ha := not_congr (s.arrays k ps hps p hp a ha)

/-- An operation of a client keeps the two parts separate and does not change what the
other client sees. -/
theorem Sep.step {N A : Nat → Prop} {m t : List Ptr} {h : Heap} (s : Sep N A m t h) (op : HOp) :
    (∃ N' A', Sep N' A' (op.step E grow fuel m h).1 t (op.step E grow fuel m h).2) ∧
    ∀ p ∈ t, ∀ n, hview n (op.step E grow fuel m h).2 p = hview n h p := by
  let x := op.exec E grow fuel m
  have hstep : (op.step E grow fuel m h).2 = (x.run h).2 ∧
      ∃ r, (op.step E grow fuel m h).1 = m ++ [r] ∧ (r = none ∨ (x.run h).1 = .ok r) := by
    unfold HOp.step
    show (match x.run h with | (.ok p, h') => (m ++ [p], h') | (_, h') => (m ++ [none], h')).2 = _ ∧ _
    rcases x.run h with ⟨r, h'⟩
    cases r with
    | ok p => exact ⟨rfl, p, rfl, .inr rfl⟩
    | panic => exact ⟨rfl, none, rfl, .inl rfl⟩
    | oof => exact ⟨rfl, none, rfl, .inl rfl⟩
  obtain ⟨hheap, r, hregs, hr⟩ := hstep
  rw [hheap, hregs]
  have hnl := x.nodes_le h
  have hal := x.arrays_le h
  have hok := heapOk_run (m := x) s.ok (HSafe.exec (fun p hp a ha => Nat.lt_of_lt_of_le (s.mineKnown p hp a ha) hnl) op)
  generalize hh' : (x.run h).2 = h' at *
  let R : Own := ⟨fun a => a < h'.nodes.length ∧ (h.nodes.length ≤ a ∨ N a), fun k => k < h'.arrays.length ∧ (h.arrays.length ≤ k ∨ A k),
    h'.nodes.length, h'.arrays.length⟩
  have hlt : ∀ {a : Nat} {c : HNode}, h.nodes[a]? = some c → a < h.nodes.length := fun hc => (List.getElem?_eq_some_iff.1 hc).1
  have hlk : ∀ {a : Nat} {c : List Ptr}, h.arrays[a]? = some c → a < h.arrays.length := fun hc => (List.getElem?_eq_some_iff.1 hc).1
  have hinv : R.Inv h := by
    refine ⟨fun a h1 h2 => ⟨h2, .inl h1⟩, fun a h1 h2 => ⟨h2, .inl h1⟩, ?_, ?_⟩
    · intro a c hc ha
      have hN : N a := ha.2.resolve_left (by have := hlt hc; omega)
      have hcell := s.cells a c hc
      have hmem := List.mem_of_getElem? hc
      refine ⟨?_, ?_⟩
      · intro p hp b hb
        exact ⟨Nat.lt_of_lt_of_le (s.ok.content c hmem p hp b hb) hnl, .inr ((hcell.1 p b hp hb).1 hN)⟩
      · intro k hk
        exact ⟨Nat.lt_of_lt_of_le (s.ok.slice c hmem k hk) hal, .inr ((hcell.2 k hk).1 hN)⟩
    · intro k ps hps hk p hp a ha
      have hA : A k := hk.2.resolve_left (by have := hlk hps; omega)
      exact ⟨Nat.lt_of_lt_of_le (s.ok.elem ps (List.mem_of_getElem? hps) p hp a ha) hnl, .inr ((s.arrays k ps hps p hp a ha).1 hA)⟩
  have hregsIn : ∀ p ∈ m, R.ptr p := fun p hp a ha => ⟨Nat.lt_of_lt_of_le (s.mineKnown p hp a ha) hnl, .inr (s.mineIn p hp a ha)⟩
  obtain ⟨inv', same, hres⟩ := HSafe.exec (E := E) (grow := grow) (fuel := fuel) (h0 := h) hregsIn op h hinv ⟨fun _ _ => rfl, fun _ _ => rfl⟩
    (by show (x.run h).2.nodes.length ≤ _; rw [hh']; exact Nat.le_refl _) (by show (x.run h).2.arrays.length ≤ _; rw [hh']; exact Nat.le_refl _)
  have inv' : R.Inv h' := by rw [← hh']; exact inv'
  have same : R.Same h h' := by rw [← hh']; exact same
  refine ⟨⟨R.node, R.arr, hok.1, ?_, fun p hp => known_mono hnl (s.theirsKnown p hp), ?_, ?_, ?_, ?_⟩, ?_⟩
  · intro p hp
    rcases List.mem_append.1 hp with hp | hp
    · exact known_mono hnl (s.mineKnown p hp)
    · rw [List.mem_singleton] at hp
      subst hp
      rcases hr with hr | hr
      · rw [hr]; exact nofun
      · exact hok.2 p hr
  · intro p hp
    rcases List.mem_append.1 hp with hp | hp
    · exact hregsIn p hp
    · rw [List.mem_singleton] at hp
      subst hp
      rcases hr with hr | hr
      · rw [hr]; exact nofun
      · exact hres p hr
  · intro p hp a ha hx
    exact hx.2.elim (fun h1 => by have := s.theirsKnown p hp a ha; omega) (s.theirsOut p hp a ha)
  · intro a c hc
    by_cases ha : R.node a
    · have := inv'.cells a c hc ha
      exact ⟨fun p b hp hb => ⟨fun _ => this.1 p hp b hb, fun _ => ha⟩, fun k hk => ⟨fun _ => this.2 k hk, fun _ => ha⟩⟩
    · have hc0 := (same.nodes a ha) ▸ hc
      have hN : ¬ N a := fun hN => ha ⟨(List.getElem?_eq_some_iff.1 hc).1, .inr hN⟩
      have hcell := s.cells a c hc0
      have hmem := List.mem_of_getElem? hc0
      refine ⟨fun p b hp hb => ⟨fun x => absurd x ha, fun x => ?_⟩, fun k hk => ⟨fun x => absurd x ha, fun x => ?_⟩⟩
      · exact absurd (x.2.elim (fun h1 => by have := s.ok.content c hmem p hp b hb; omega) (hcell.1 p b hp hb).2) hN
      · exact absurd (x.2.elim (fun h1 => by have := s.ok.slice c hmem k hk; omega) (hcell.2 k hk).2) hN
  · intro k ps hps p hp a ha
    by_cases hk : R.arr k
    · exact ⟨fun _ => inv'.arrays k ps hps hk p hp a ha, fun _ => hk⟩
    · have hps0 := (same.arrays k hk) ▸ hps
      have hA : ¬ A k := fun hA => hk ⟨(List.getElem?_eq_some_iff.1 hps).1, .inr hA⟩
      refine ⟨fun x => absurd x hk, fun x => ?_⟩
      exact absurd (x.2.elim (fun h1 => by have := s.ok.elem ps (List.mem_of_getElem? hps0) p hp a ha; omega)
        (s.arrays k ps hps0 p hp a ha).2) hA
  · intro p hp n
    refine hview_congr (fun a => a < h.nodes.length ∧ ¬ N a) (fun k => k < h.arrays.length ∧ ¬ A k) ?_ ?_ ?_ ?_ n p ?_
    · exact fun a ha => same.nodes a fun hx => hx.2.elim (fun h1 => by have := ha.1; omega) ha.2
    · exact fun a ha => same.arrays a fun hx => hx.2.elim (fun h1 => by have := ha.1; omega) ha.2
    · exact fun a c hc ha k hk => ⟨s.ok.slice c (List.mem_of_getElem? hc) k hk, fun hx => ha.2 (((s.cells a c hc).2 k hk).2 hx)⟩
    · exact fun k ps hps hk p hp a ha => ⟨s.ok.elem ps (List.mem_of_getElem? hps) p hp a ha,
        fun hx => hk.2 ((s.arrays k ps hps p hp a ha).2 hx)⟩
    · exact fun a ha => ⟨s.theirsKnown p hp a ha, s.theirsOut p hp a ha⟩

/-- After a clone was made, pointers from before lead to one part of memory and the
clone to another. -/
theorem clone_sep {f : Nat} {h h1 : Heap} {g c : Ptr} (hw : HeapOk h) (hg : Known h g) (hplain : PlainBelow h g)
    (hc : (hClone grow f g).run h = (.ok c, h1)) (ps : List Ptr) (hps : ∀ p ∈ ps, Known h p) :
    Sep (· < h.nodes.length) (· < h.arrays.length) ps [c] h1 := by
  have hnl := (hClone grow f g).nodes_le h
  have hal := (hClone grow f g).arrays_le h
  have hok := clone_ok (grow := grow) (f := f) hw hg
  obtain ⟨i, sm, hres⟩ := clone_fresh (grow := grow) (N := h1.nodes.length) (A := h1.arrays.length) hw hg hplain f g .refl h
    ⟨fun a x y => ⟨x, y⟩, fun a x y => ⟨x, y⟩, fun a c hc ha => by have := (List.getElem?_eq_some_iff.1 hc).1; have := ha.1; omega,
      fun a c hc ha => by have := (List.getElem?_eq_some_iff.1 hc).1; have := ha.1; omega⟩
    ⟨fun _ _ => rfl, fun _ _ => rfl⟩ (by rw [hc]; exact Nat.le_refl _) (by rw [hc]; exact Nat.le_refl _)
  rw [hc] at i sm hres hnl hal hok
  refine ⟨hok.1, fun p hp => known_mono hnl (hps p hp), ?_, fun p hp a ha => hps p hp a ha, ?_, ?_, ?_⟩
  · intro p hp
    rw [List.mem_singleton] at hp
    subst hp
    exact hok.2 p rfl
  · intro p hp a ha
    rw [List.mem_singleton] at hp
    subst hp
    have := (hres p rfl a ha).1
    omega
  · intro a c hca
    by_cases hlt : a < h.nodes.length
    · have hca0 := (sm.nodes a fun x => by have := x.1; omega) ▸ hca
      have hmem := List.mem_of_getElem? hca0
      exact ⟨fun p b hp hb => ⟨fun _ => hw.content c hmem p hp b hb, fun _ => hlt⟩,
        fun k hk => ⟨fun _ => hw.slice c hmem k hk, fun _ => hlt⟩⟩
    · have := i.cells a c hca ⟨by omega, (List.getElem?_eq_some_iff.1 hca).1⟩
      refine ⟨fun p b hp hb => ⟨fun x => absurd x hlt, fun x => ?_⟩, fun k hk => ⟨fun x => absurd x hlt, fun x => ?_⟩⟩
      · have := (this.1 p hp b hb).1; omega
      · have := (this.2 k hk).1; omega
  · intro k qs hqs p hp a ha
    by_cases hlt : k < h.arrays.length
    · have hqs0 := (sm.arrays k fun x => by have := x.1; omega) ▸ hqs
      exact ⟨fun _ => hw.elem qs (List.mem_of_getElem? hqs0) p hp a ha, fun _ => hlt⟩
    · have := i.arrays k qs hqs ⟨by omega, (List.getElem?_eq_some_iff.1 hqs).1⟩ p hp a ha
      exact ⟨fun x => absurd x hlt, fun x => by have := this.1; omega⟩


/-! ## What a clone looks like -/

theorem bind_ok {m : HM α} {f : α → HM β} {h h' : Heap} {b : β} (hr : (m >>= f).run h = (.ok b, h')) :
    ∃ a h1, m.run h = (.ok a, h1) ∧ (f a).run h1 = (.ok b, h') := by
  change (HM.bind m f).run h = _ at hr
  unfold HM.bind at hr
  dsimp only at hr
  rcases hm : m.run h with ⟨r, h1⟩
  rw [hm] at hr
  cases r with
  | ok a => exact ⟨a, h1, rfl, hr⟩
  | panic => cases hr
  | oof => cases hr

theorem happend_ok {s s' : Slice} {ps : List Ptr} {h h' : Heap} (hr : (HM.append grow s ps).run h = (.ok s', h'))
    (hl : s.len ≤ (h.array s).length) :
    (h'.array s').take s'.len = (h.array s).take s.len ++ ps ∧ s'.len = s.len + ps.length ∧ s'.len ≤ (h'.array s').length ∧
    h'.nodes = h.nodes ∧ h.arrays.length ≤ h'.arrays.length ∧
    (∀ j, j < h.arrays.length → s.arr ≠ some j → h'.arrays[j]? = h.arrays[j]?) ∧
    (∀ k, s'.arr = some k → s.arr = some k ∨ h.arrays.length ≤ k) := by
  simp only [HM.append] at hr
  by_cases he : ps.isEmpty = true
  · simp only [he, ↓reduceIte] at hr
    cases hr
    rw [List.isEmpty_iff.1 he]
    exact ⟨by simp, by simp, hl, rfl, Nat.le_refl _, fun _ _ _ => rfl, fun k hk => .inl hk⟩
  · simp only [he, Bool.false_eq_true, ↓reduceIte] at hr
    by_cases hc : s.len + ps.length ≤ (h.array s).length
    · simp only [hc, ↓reduceIte] at hr
      cases hk : s.arr with
      | none => rw [hk] at hr; cases hr
      | some k =>
        rw [hk] at hr
        simp only [Prod.mk.injEq, Res.ok.injEq] at hr
        obtain ⟨rfl, rfl⟩ := hr
        have hkl : k < h.arrays.length := by
          rcases Nat.lt_or_ge k h.arrays.length with hx | hx
          · exact hx
          · exfalso
            unfold Heap.array at hc
            rw [hk] at hc
            simp only [List.getElem?_eq_none hx, Option.getD_none, List.length_nil] at hc
            exact he (by rw [List.isEmpty_iff]; exact List.length_eq_zero_iff.1 (by omega))
        have harr : ({ h with arrays := h.arrays.set k ((h.array s).take s.len ++ ps ++ (h.array s).drop (s.len + ps.length)) } : Heap).array
            ⟨some k, s.len + ps.length⟩ = (h.array s).take s.len ++ ps ++ (h.array s).drop (s.len + ps.length) := by
          unfold Heap.array
          simp only [List.getElem?_set_self hkl, Option.getD_some]
        refine ⟨?_, rfl, ?_, rfl, by simp, ?_, fun j hj => .inl (by cases hj; rfl)⟩
        · rw [harr]
          dsimp only
          rw [List.take_append_of_le_length (by simp; omega)]
          exact List.take_of_length_le (by simp; omega)
        · rw [harr]
          simp
          omega
        · intro j _ hj
          exact List.getElem?_set_ne (fun e => hj (by rw [e]))
    · simp only [hc, ↓reduceIte, HM.make, Prod.mk.injEq, Res.ok.injEq] at hr
      obtain ⟨rfl, rfl⟩ := hr
      have harr : ({ h with arrays := h.arrays ++ [(h.array s).take s.len ++ ps ++ List.replicate (grow (h.array s).length (s.len + ps.length)) none] } : Heap).array
          ⟨some h.arrays.length, ((h.array s).take s.len ++ ps).length⟩ =
          (h.array s).take s.len ++ ps ++ List.replicate (grow (h.array s).length (s.len + ps.length)) none := by
        unfold Heap.array
        simp
      have hlen : ((h.array s).take s.len ++ ps).length = s.len + ps.length := by simp; omega
      refine ⟨?_, hlen, ?_, rfl, by simp, ?_, fun j hj => .inr (by cases hj; exact Nat.le_refl _)⟩
      · rw [harr]
        exact List.take_left
      · rw [harr]
        simp
      · intro j hj _
        exact List.getElem?_append_left hj

theorem update_ok {a : Nat} {f : HNode → HNode} {h h' : Heap} {u : Unit} (hr : (HM.update (some a) f).run h = (.ok u, h')) :
    ∃ c, h.nodes[a]? = some c ∧ h' = { h with nodes := h.nodes.set a (f c) } := by
  simp only [HM.update] at hr
  cases hc : h.nodes[a]? with
  | none => rw [hc] at hr; cases hr
  | some c => rw [hc] at hr; cases hr; exact ⟨c, rfl, rfl⟩

theorem load_ok {a : Nat} {h h' : Heap} {c : HNode} (hr : (HM.load (some a)).run h = (.ok c, h')) : h.nodes[a]? = some c ∧ h' = h := by
  simp only [HM.load, HM.read, Option.bind_some] at hr
  cases hc : h.nodes[a]? with
  | none => rw [hc] at hr; cases hr
  | some x => rw [hc] at hr; cases hr; exact ⟨rfl, rfl⟩

theorem index_ok {s : Slice} {i : Nat} {h h' : Heap} {p : Ptr} (hr : (HM.index s i).run h = (.ok p, h')) :
    ((h.array s).take s.len)[i]? = some p ∧ h' = h := by
  simp only [HM.index, HM.read] at hr
  by_cases hl : i < s.len
  · simp only [hl, ↓reduceIte] at hr
    cases hc : (h.array s)[i]? with
    | none => rw [hc] at hr; cases hr
    | some q =>
      rw [hc] at hr
      cases hr
      rw [List.getElem?_take, if_pos hl]
      exact ⟨hc, rfl⟩
  · simp only [hl, ↓reduceIte] at hr
    cases hr

/-- Memory with everything of `h` in place. -/
structure Extends (h h' : Heap) : Prop where
  nodes : ∀ a, a < h.nodes.length → h'.nodes[a]? = h.nodes[a]?
  arrays : ∀ k, k < h.arrays.length → h'.arrays[k]? = h.arrays[k]?

theorem Extends.nodes_le {h h' : Heap} (e : Extends h h') : h.nodes.length ≤ h'.nodes.length := by
  rcases Nat.lt_or_ge h'.nodes.length h.nodes.length with hx | hx
  · have := e.nodes _ hx
    rw [List.getElem?_eq_none (Nat.le_refl _), List.getElem?_eq_getElem hx] at this
    cases this
  · exact hx

theorem Extends.trans {h h' h'' : Heap} (e : Extends h h') (e' : Extends h' h'') (hl : h.arrays.length ≤ h'.arrays.length) : Extends h h'' :=
  ⟨fun a ha => (e'.nodes a (Nat.lt_of_lt_of_le ha e.nodes_le)).trans (e.nodes a ha),
    fun k hk => (e'.arrays k (Nat.lt_of_lt_of_le hk hl)).trans (e.arrays k hk)⟩

theorem Extends.view {h h' : Heap} (e : Extends h h') (hw : HeapOk h) {p : Ptr} (hp : Known h p) (n : Nat) : hview n h' p = hview n h p :=
  hview_congr (· < h.nodes.length) (· < h.arrays.length) e.nodes e.arrays
    (fun _ c hc _ k hk => hw.slice c (List.mem_of_getElem? hc) k hk)
    (fun _ ps hps _ p hp a ha => hw.elem ps (List.mem_of_getElem? hps) p hp a ha) n p hp

theorem Extends.array {h h' : Heap} (e : Extends h h') {s : Slice} (hs : ∀ k, s.arr = some k → k < h.arrays.length) :
    h'.array s = h.array s := by
  unfold Heap.array
  cases hk : s.arr with
  | none => rfl
  | some k => dsimp only; rw [e.arrays k (hs k hk)]

theorem Extends.below {h h' : Heap} (e : Extends h h') (hw : HeapOk h) {p q : Ptr} (hp : Known h p) (hb : Below h' p q) : Below h p q := by
  induction hb with
  | refl => exact .refl
  | @sub a c q _ hc hq ih =>
    have hc : h.nodes[a]? = some c := (e.nodes a (known_below hw hp ih a rfl)) ▸ hc
    rw [e.array fun k hk => hw.slice c (List.mem_of_getElem? hc) k hk] at hq
    exact .sub ih hc hq

theorem Extends.plain {h h' : Heap} (e : Extends h h') (hw : HeapOk h) {p : Ptr} (hp : Known h p) (hx : PlainBelow h p) : PlainBelow h' p := by
  intro a c hb hc
  have hb := e.below hw hp hb
  exact hx a c hb ((e.nodes a (known_below hw hp hb a rfl)) ▸ hc)

theorem clone_extends {f : Nat} {h h1 : Heap} {g c : Ptr} (hw : HeapOk h) (hg : Known h g) (hplain : PlainBelow h g)
    (hc : (hClone grow f g).run h = (.ok c, h1)) : Extends h h1 ∧
      (newOwn h h1.nodes.length h1.arrays.length).Inv h1 ∧ (newOwn h h1.nodes.length h1.arrays.length).ptr c := by
  obtain ⟨i, sm, hres⟩ := clone_fresh (grow := grow) (N := h1.nodes.length) (A := h1.arrays.length) hw hg hplain f g .refl h
    ⟨fun a x y => ⟨x, y⟩, fun a x y => ⟨x, y⟩, fun a c hc ha => by have := (List.getElem?_eq_some_iff.1 hc).1; have := ha.1; omega,
      fun a c hc ha => by have := (List.getElem?_eq_some_iff.1 hc).1; have := ha.1; omega⟩
    ⟨fun _ _ => rfl, fun _ _ => rfl⟩ (by rw [hc]; exact Nat.le_refl _) (by rw [hc]; exact Nat.le_refl _)
  rw [hc] at i sm hres
  exact ⟨⟨fun a ha => sm.nodes a fun x => by have := x.1; omega, fun a ha => sm.arrays a fun x => by have := x.1; omega⟩, i, hres c rfl⟩

/-- The loop of `Clone` (graph.go:150-152) after `i` turns: node `a` has the clones of
the first `i` subnodes `es`, which are in a part `N`, `A` of memory without `a` and
without its array. -/
structure CloneLoop (h : Heap) (es : List Ptr) (v : HVal) (a : Nat) (i : Nat) (hi : Heap) (N A : Nat → Prop) : Prop where
  ext : Extends h hi
  arrLe : h.arrays.length ≤ hi.arrays.length
  ok : HeapOk hi
  new : h.nodes.length ≤ a
  cell : ∃ c, hi.nodes[a]? = some c ∧ c.this = v ∧ c.out.len = i ∧ i ≤ (hi.array c.out).length ∧
    (∀ n, ((hi.array c.out).take i).map (hview n hi) = (es.take i).map (hview n h)) ∧
    (∀ p ∈ (hi.array c.out).take i, ∀ b, p = some b → N b) ∧
    (∀ k, c.out.arr = some k → ¬ A k ∧ h.arrays.length ≤ k)
  notMe : ¬ N a
  nodes : ∀ b, N b → b < hi.nodes.length
  arrays : ∀ k, A k → k < hi.arrays.length
  closedNode : ∀ b c, hi.nodes[b]? = some c → N b → ∀ k, c.out.arr = some k → A k
  closedArr : ∀ k ps, hi.arrays[k]? = some ps → A k → ∀ p ∈ ps, ∀ b, p = some b → N b

theorem heapOk_unit {m : HM Unit} {h : Heap} (hw : HeapOk h)
    (hm : HSafe (allOwn (m.run h).2.nodes.length (m.run h).2.arrays.length) h m (fun _ => True)) : HeapOk (m.run h).2 := by
  obtain ⟨i, _, _⟩ := hm h (allOwn_inv hw (m.nodes_le h) (m.arrays_le h)) ⟨fun _ _ => rfl, fun _ _ => rfl⟩ (Nat.le_refl _) (Nat.le_refl _)
  exact heapOk_of_inv i

/-- One turn: the clone of subnode `q` is appended. -/
theorem cloneLoop_step {h hi h1 : Heap} {es : List Ptr} {v : HVal} {a i f : Nat} {N A : Nat → Prop} {q : Ptr} {u : Unit}
    (hw : HeapOk h) (L : CloneLoop h es v a i hi N A) (hq : es[i]? = some q) (hqk : Known h q) (hqp : PlainBelow h q)
    (ih : ∀ hi h1 c, HeapOk hi → Known hi q → PlainBelow hi q → (hClone grow f q).run hi = (.ok c, h1) → ∀ n, hview n h1 c = hview n hi q)
    (hr : (do
        let m ← hClone grow f q
        let c ← HM.load (some a)
        let s ← HM.append grow c.out [m]
        HM.putOut (some a) s).run hi = (.ok u, h1)) : ∃ N A, CloneLoop h es v a (i + 1) h1 N A := by
  have hokAll := heapOk_unit (m := do
        let m ← hClone grow f q
        let c ← HM.load (some a)
        let s ← HM.append grow c.out [m]
        HM.putOut (some a) s) L.ok (by
      obtain ⟨c, hc, _⟩ := L.cell
      have ha : a < hi.nodes.length := (List.getElem?_eq_some_iff.1 hc).1
      rw [hr]
      have hle : hi.nodes.length ≤ h1.nodes.length := by
        have := HM.nodes_le (do
          let m ← hClone grow f q
          let c ← HM.load (some a)
          let s ← HM.append grow c.out [m]
          HM.putOut (some a) s) hi
        rw [hr] at this
        exact this
      have hap : (allOwn h1.nodes.length h1.arrays.length).node a := Nat.lt_of_lt_of_le ha hle
      exact HSafe.bind (HSafe.clone f q fun x hx => Nat.lt_of_lt_of_le (hqk x hx) (Nat.le_trans L.ext.nodes_le hle)) fun m hm =>
        HSafe.bind (HSafe.load (HSafe.ptr_some hap)) fun c hc => HSafe.bind (HSafe.append hc.2 (by simpa using hm)) fun s hs =>
          HSafe.putOut (HSafe.ptr_some hap) hs)
  rw [hr] at hokAll
  obtain ⟨m, h2, hclone, hr2⟩ := bind_ok hr
  clear hr
  have hqi : Known hi q := known_mono L.ext.nodes_le hqk
  have hpi := L.ext.plain hw hqk hqp
  have hview := ih hi h2 m L.ok hqi hpi hclone
  obtain ⟨e2, inv2, hm2⟩ := clone_extends L.ok hqi hpi hclone
  have hal2 := (hClone grow f q).arrays_le hi
  rw [hclone] at hal2
  obtain ⟨c, h3, hload, hr3⟩ := bind_ok hr2
  clear hr2
  obtain ⟨hc2, hh3⟩ := load_ok hload
  clear hload
  subst hh3
  obtain ⟨s, h4, happ, hr4⟩ := bind_ok hr3
  clear hr3
  obtain ⟨c4, hc4, hh1⟩ := update_ok hr4
  clear hr4
  subst hh1
  obtain ⟨c0, hc0, hthis, hlen, hcap, hviews, hin, harrk⟩ := L.cell
  have halt : a < hi.nodes.length := (List.getElem?_eq_some_iff.1 hc0).1
  have hcc : c = c0 := by
    have := e2.nodes a halt
    rw [hc2, hc0] at this
    exact Option.some.inj this
  subst hcc
  have hcarr : ∀ k, c.out.arr = some k → k < hi.arrays.length := fun k hk => L.ok.slice c (List.mem_of_getElem? hc0) k hk
  have harr2 := e2.array hcarr
  have hal2' : hi.arrays.length ≤ h3.arrays.length := hal2
  obtain ⟨hel, hslen, hscap, hnodes4, harrle, hsame, hsarr⟩ := happend_ok happ (by rw [harr2, hlen]; exact hcap)
  rw [hnodes4] at hc4
  have hcc4 : c4 = c := by rw [hc2] at hc4; exact (Option.some.inj hc4).symm
  subst hcc4
  rw [harr2, hlen] at hel
  have hlen1 : s.len = i + 1 := by rw [hslen, hlen]; rfl
  -- the part of memory with the clones
  refine ⟨fun b => N b ∨ (hi.nodes.length ≤ b ∧ b < h3.nodes.length), fun k => A k ∨ (hi.arrays.length ≤ k ∧ k < h3.arrays.length), ?_⟩
  have hnot : ¬ (N a ∨ (hi.nodes.length ≤ a ∧ a < h3.nodes.length)) := by
    rintro (x | x)
    · exact L.notMe x
    · omega
  have hnodeEq : ∀ b, b ≠ a → (h4.nodes.set a { c4 with out := s })[b]? = h3.nodes[b]? := by
    intro b hb
    rw [List.getElem?_set_ne (Ne.symm hb), hnodes4]
  have harrEq : ∀ k, k < h3.arrays.length → c4.out.arr ≠ some k → h4.arrays[k]? = h3.arrays[k]? := hsame
  have hAne : ∀ k, (A k ∨ (hi.arrays.length ≤ k ∧ k < h3.arrays.length)) → k < h3.arrays.length ∧ c4.out.arr ≠ some k := by
    rintro k (x | x)
    · exact ⟨Nat.lt_of_lt_of_le (L.arrays k x) hal2', fun e => (harrk k e).1 x⟩
    · exact ⟨x.2, fun e => by have := hcarr k e; omega⟩
  have hclosed3n : ∀ b c, h3.nodes[b]? = some c → (N b ∨ (hi.nodes.length ≤ b ∧ b < h3.nodes.length)) → ∀ k, c.out.arr = some k →
      (A k ∨ (hi.arrays.length ≤ k ∧ k < h3.arrays.length)) := by
    rintro b x hx (y | y) k hk
    · exact .inl (L.closedNode b x ((e2.nodes b (L.nodes b y)) ▸ hx) y k hk)
    · exact .inr ((inv2.cells b x hx y).2 k hk)
  have hclosed3a : ∀ k ps, h3.arrays[k]? = some ps → (A k ∨ (hi.arrays.length ≤ k ∧ k < h3.arrays.length)) → ∀ p ∈ ps, ∀ b, p = some b →
      (N b ∨ (hi.nodes.length ≤ b ∧ b < h3.nodes.length)) := by
    rintro k ps hps (y | y) p hp b hb
    · exact .inl (L.closedArr k ps ((e2.arrays k (L.arrays k y)) ▸ hps) y p hp b hb)
    · exact .inr (inv2.arrays k ps hps y p hp b hb)
  have hviewEq : ∀ n p, (∀ b, p = some b → (N b ∨ (hi.nodes.length ≤ b ∧ b < h3.nodes.length))) →
      Spec.hview n { h4 with nodes := h4.nodes.set a { c4 with out := s } } p = Spec.hview n h3 p := by
    intro n p hp
    refine hview_congr _ _ ?_ ?_ hclosed3n hclosed3a n p hp
    · exact fun b hb => hnodeEq b fun e => hnot (e ▸ hb)
    · exact fun k hk => harrEq k (hAne k hk).1 (hAne k hk).2
  have harrNew : ({ h4 with nodes := h4.nodes.set a { c4 with out := s } } : Heap).array s = h4.array s := rfl
  have hpsIn : ∀ p ∈ (hi.array c4.out).take i ++ [m], ∀ b, p = some b → (N b ∨ (hi.nodes.length ≤ b ∧ b < h3.nodes.length)) := by
    intro p hp b hb
    rcases List.mem_append.1 hp with hp | hp
    · exact .inl (hin p hp b hb)
    · rw [List.mem_singleton] at hp
      subst hp
      exact .inr (hm2 b hb)
  have hle3 : h.nodes.length ≤ h3.nodes.length := Nat.le_trans L.ext.nodes_le e2.nodes_le
  refine ⟨⟨?_, ?_⟩, ?_, hokAll, L.new, ?_, hnot, ?_, ?_, ?_, ?_⟩
  · intro b hb
    have hba : b ≠ a := by have := L.new; omega
    show (h4.nodes.set a _)[b]? = _
    rw [hnodeEq b hba, e2.nodes b (Nat.lt_of_lt_of_le hb L.ext.nodes_le), L.ext.nodes b hb]
  · intro k hk
    have hkl := Nat.lt_of_lt_of_le hk L.arrLe
    show h4.arrays[k]? = _
    rw [harrEq k (Nat.lt_of_lt_of_le hkl hal2') (fun e => by have := (harrk k e).2; omega), e2.arrays k hkl, L.ext.arrays k hk]
  · exact Nat.le_trans L.arrLe (Nat.le_trans hal2' harrle)
  · refine ⟨{ c4 with out := s }, ?_, hthis, hlen1, ?_, ?_, ?_, ?_⟩
    · show (h4.nodes.set a _)[a]? = _
      rw [List.getElem?_set_self (by rw [hnodes4]; exact Nat.lt_of_lt_of_le halt e2.nodes_le)]
    · show i + 1 ≤ (h4.array s).length
      rw [← hlen1]
      exact hscap
    · intro n
      show ((h4.array s).take (i + 1)).map _ = _
      rw [← hlen1, hel, hlen1, List.map_congr_left (fun p hp => hviewEq n p (hpsIn p hp)), List.map_append]
      rw [List.map_congr_left (g := Spec.hview n hi) (fun p hp => e2.view L.ok (fun b hb => L.nodes b (hin p hp b hb)) n), hviews n]
      rw [List.take_add_one, hq, List.map_append, List.map_cons, List.map_nil, hview n, L.ext.view hw hqk n]
      rfl
    · show ∀ p ∈ (h4.array s).take (i + 1), _
      rw [← hlen1, hel]
      exact hpsIn
    · intro k hk
      rcases hsarr k hk with hx | hx
      · exact ⟨fun y => (hAne k y).2 hx, (harrk k hx).2⟩
      · exact ⟨fun y => by have := (hAne k y).1; omega, Nat.le_trans (Nat.le_trans L.arrLe hal2') hx⟩
  · intro b hb
    show b < (h4.nodes.set a _).length
    rw [List.length_set, hnodes4]
    rcases hb with hb | hb
    · exact Nat.lt_of_lt_of_le (L.nodes b hb) e2.nodes_le
    · exact hb.2
  · exact fun k hk => Nat.lt_of_lt_of_le (hAne k hk).1 harrle
  · intro b x hx hb
    have hba : b ≠ a := fun e => hnot (e ▸ hb)
    exact hclosed3n b x ((hnodeEq b hba) ▸ hx) hb
  · intro k ps hps hk
    exact hclosed3a k ps ((harrEq k (hAne k hk).1 (hAne k hk).2) ▸ hps) hk

theorem cloneLoop_run {h : Heap} {x : HNode} {v : HVal} {a f : Nat} (hw : HeapOk h)
    (hsl : ∀ k, x.out.arr = some k → k < h.arrays.length)
    (hes : ∀ q ∈ (h.array x.out).take x.out.len, Known h q ∧ PlainBelow h q)
    (ih : ∀ (q : Ptr) hi h1 c, HeapOk hi → Known hi q → PlainBelow hi q → (hClone grow f q).run hi = (.ok c, h1) → ∀ n, hview n h1 c = hview n hi q) :
    ∀ (k i : Nat) (hi h1 : Heap) (N A : Nat → Prop) (u : Unit), i + k = x.out.len → CloneLoop h ((h.array x.out).take x.out.len) v a i hi N A →
      (HM.range x.out (fun n => do
        let m ← hClone grow f n
        let c ← HM.load (some a)
        let s ← HM.append grow c.out [m]
        HM.putOut (some a) s) k i).run hi = (.ok u, h1) →
      ∃ N A, CloneLoop h ((h.array x.out).take x.out.len) v a x.out.len h1 N A
  | 0, i, hi, h1, N, A, u, hk, L, hr => by
    cases hr
    rw [Nat.add_zero] at hk
    exact ⟨N, A, hk ▸ L⟩
  | k + 1, i, hi, h1, N, A, u, hk, L, hr => by
    unfold HM.range at hr
    obtain ⟨q, h2, hidx, hr2⟩ := bind_ok hr
    clear hr
    obtain ⟨hq, hh2⟩ := index_ok hidx
    clear hidx
    subst hh2
    rw [L.ext.array hsl] at hq
    obtain ⟨_, h3, hbody, hr⟩ := bind_ok hr2
    clear hr2
    have hmem := List.mem_of_getElem? hq
    obtain ⟨N', A', L'⟩ := cloneLoop_step hw L hq (hes q hmem).1 (hes q hmem).2 (ih q) hbody
    exact cloneLoop_run hw hsl hes ih k (i + 1) h3 h1 N' A' u (by omega) L' hr

theorem clone_view : ∀ (f : Nat) (g : Ptr) (h h1 : Heap) (c : Ptr), HeapOk h → Known h g → PlainBelow h g →
    (hClone grow f g).run h = (.ok c, h1) → ∀ n, hview n h1 c = hview n h g
  | 0, _, _, _, _, _, _, _, hr => by cases hr
  | f + 1, none, h, h1, c, _, _, _, hr => by
    cases hr
    intro n
    cases n <;> rfl
  | f + 1, some g, h, h1, c, hw, hg, hpl, hr => by
    unfold hClone at hr
    obtain ⟨a, h2, halloc, hr⟩ := bind_ok hr
    simp only [HM.alloc, Prod.mk.injEq, Res.ok.injEq] at halloc
    obtain ⟨rfl, rfl⟩ := halloc
    obtain ⟨x, h3, hload, hr⟩ := bind_ok hr
    obtain ⟨hx, rfl⟩ := load_ok hload
    have hgl := hg g rfl
    have hx0 : h.nodes[g]? = some x := by
      rw [← hx]
      exact (List.getElem?_append_left hgl).symm
    obtain ⟨u, h4, hput, hr⟩ := bind_ok hr
    obtain ⟨c0, hc0, rfl⟩ := update_ok hput
    have hcell0 : c0 = ⟨.val .nil, {}⟩ := by
      have := hc0
      simp at this
      exact this.symm
    subst hcell0
    obtain ⟨u', h5, hloop, hr⟩ := bind_ok hr
    have hc : c = some h.nodes.length ∧ h1 = h5 := by
      cases hr
      exact ⟨rfl, rfl⟩
    obtain ⟨rfl, rfl⟩ := hc
    have hmem := List.mem_of_getElem? hx0
    have hset : (h.nodes ++ [(⟨.val .nil, {}⟩ : HNode)]).set h.nodes.length { this := x.this, out := {} } = h.nodes ++ [⟨x.this, {}⟩] := by
      simp
    have hext : Extends h { h with nodes := h.nodes ++ [⟨x.this, {}⟩] } :=
      ⟨fun a ha => List.getElem?_append_left ha, fun _ _ => rfl⟩
    have hok : HeapOk { h with nodes := h.nodes ++ [⟨x.this, {}⟩] } := by
      refine ⟨?_, ?_, ?_⟩
      · intro c hc p hp
        refine known_mono hext.nodes_le ?_
        rcases List.mem_append.1 hc with hc | hc
        · exact hw.content c hc p hp
        · rw [List.mem_singleton] at hc
          subst hc
          exact hw.content x hmem p hp
      · intro c hc k hk
        rcases List.mem_append.1 hc with hc | hc
        · exact hw.slice c hc k hk
        · rw [List.mem_singleton] at hc
          subst hc
          cases hk
      · intro ps hps p hp
        exact known_mono hext.nodes_le (hw.elem ps hps p hp)
    have L0 : CloneLoop h ((h.array x.out).take x.out.len) x.this h.nodes.length 0 { h with nodes := h.nodes ++ [⟨x.this, {}⟩] }
        (fun _ => False) (fun _ => False) := by
      refine ⟨hext, Nat.le_refl _, hok, Nat.le_refl _, ⟨⟨x.this, {}⟩, ?_, rfl, rfl, Nat.zero_le _, ?_, ?_, ?_⟩, id, nofun, nofun, nofun, nofun⟩
      · simp
      · simp
      · simp
      · nofun
    have hloop' := hloop
    dsimp only at hloop'
    rw [hset] at hloop'
    obtain ⟨N, A, L⟩ := cloneLoop_run hw (fun k hk => hw.slice x hmem k hk)
      (fun q hq => ⟨known_below hw hg (.sub .refl hx0 hq), fun a c hb hc => hpl a c
        (below_trans (.sub .refl hx0 hq) hb) hc⟩)
      (fun q hi h1 c => clone_view f q hi h1 c) x.out.len 0 _ h1 _ _ u' (by omega) L0 hloop'
    obtain ⟨c, hc, hthis, hlen, hcap, hviews, _⟩ := L.cell
    intro n
    cases n with
    | zero => rfl
    | succ n =>
      unfold hview
      rw [hc, hx0]
      dsimp only
      rw [hthis, hlen, hviews n, List.take_of_length_le (by simp; omega)]

end Ogdl

namespace Ogdl
open Spec HM
variable {grow : Nat → Nat → Nat}

theorem Extends.finite {h h' : Heap} (e : Extends h h') (hw : HeapOk h) :
    ∀ (n : Nat) (p : Ptr), Known h p → FiniteBelow n h p → FiniteBelow n h' p
  | 0, none, _, _ => trivial
  | _ + 1, none, _, _ => trivial
  | 0, some _, _, hf => hf
  | n + 1, some a, hp, ⟨c, hc, hl, hs⟩ => by
    have hk := fun k hk => hw.slice c (List.mem_of_getElem? hc) k hk
    refine ⟨c, (e.nodes a (hp a rfl)).trans hc, ?_, ?_⟩
    · rw [e.array hk]; exact hl
    · rw [e.array hk]
      intro p hpm
      exact e.finite hw n p (known_below hw hp (.sub .refl hc hpm)) (hs p hpm)

theorem append_returns (s : Slice) (p : Ptr) (h : Heap) : ∃ s' h', (HM.append grow s [p]).run h = (.ok s', h') := by
  simp only [HM.append, List.isEmpty_cons, Bool.false_eq_true, ↓reduceIte]
  by_cases hl : s.len + [p].length ≤ (h.array s).length
  · simp only [hl, ↓reduceIte]
    cases hk : s.arr with
    | none =>
      exfalso
      unfold Heap.array at hl
      rw [hk] at hl
      simp at hl
    | some k => exact ⟨_, _, rfl⟩
  · simp only [hl, ↓reduceIte]; exact ⟨_, _, rfl⟩

theorem ok_bind' {m : HM α} {f : α → HM β} {h h1 : Heap} {a : α} (hm : m.run h = (.ok a, h1)) : (m >>= f).run h = (f a).run h1 := by
  show (HM.bind m f).run h = _
  unfold HM.bind
  dsimp only
  rw [hm]

theorem load_some {h : Heap} {a : Nat} {c : HNode} (hc : h.nodes[a]? = some c) : (HM.load (some a)).run h = (.ok c, h) := by
  simp only [HM.load, HM.read, Option.bind_some, hc]

theorem cloneLoop_returns {h : Heap} {x : HNode} {v : HVal} {a f : Nat} (hw : HeapOk h)
    (hsl : ∀ k, x.out.arr = some k → k < h.arrays.length) (hcap : x.out.len ≤ (h.array x.out).length)
    (hes : ∀ q ∈ (h.array x.out).take x.out.len, Known h q ∧ PlainBelow h q ∧ FiniteBelow f h q)
    (ih : ∀ (q : Ptr) hi, HeapOk hi → Known hi q → PlainBelow hi q → FiniteBelow f hi q → ∃ c h1, (hClone grow (f + 1) q).run hi = (.ok c, h1)) :
    ∀ (k i : Nat) (hi : Heap) (N A : Nat → Prop), i + k = x.out.len → CloneLoop h ((h.array x.out).take x.out.len) v a i hi N A →
      ∃ h1, (HM.range x.out (fun n => do
        let m ← hClone grow (f + 1) n
        let c ← HM.load (some a)
        let s ← HM.append grow c.out [m]
        HM.putOut (some a) s) k i).run hi = (.ok (), h1)
  | 0, _, hi, _, _, _, _ => ⟨hi, rfl⟩
  | k + 1, i, hi, N, A, hk, L => by
    unfold HM.range
    have hlen : i < (h.array x.out).length := by omega
    have hidx : (HM.index x.out i).run hi = (.ok (h.array x.out)[i], hi) := by
      simp only [HM.index, HM.read, show i < x.out.len by omega, ↓reduceIte, L.ext.array hsl, List.getElem?_eq_getElem hlen]
    rw [ok_bind' hidx]
    have hq : ((h.array x.out).take x.out.len)[i]? = some (h.array x.out)[i] := by
      rw [List.getElem?_take, if_pos (by omega), List.getElem?_eq_getElem hlen]
    obtain ⟨hq1, hq2, hq3⟩ := hes _ (List.mem_of_getElem? hq)
    have hki := known_mono L.ext.nodes_le hq1
    have hpi := L.ext.plain hw hq1 hq2
    obtain ⟨c, h2, hc⟩ := ih _ hi L.ok hki hpi (L.ext.finite hw f _ hq1 hq3)
    obtain ⟨c0, hc0, _⟩ := L.cell
    have e2 := (clone_extends L.ok hki hpi hc).1
    have hc2 := (e2.nodes a (List.getElem?_eq_some_iff.1 hc0).1).trans hc0
    obtain ⟨s, h3, hs⟩ := append_returns (grow := grow) c0.out c h2
    have hn3 : h3.nodes[a]? = some c0 := by
      have : h3.nodes = h2.nodes := by
        simp only [HM.append, List.isEmpty_cons, Bool.false_eq_true, ↓reduceIte] at hs
        split at hs
        · split at hs
          · cases hs
          · cases hs; rfl
        · cases hs; rfl
      rw [this]; exact hc2
    have hbody : (do
        let m ← hClone grow (f + 1) (h.array x.out)[i]
        let c ← HM.load (some a)
        let s ← HM.append grow c.out [m]
        HM.putOut (some a) s : HM Unit).run hi = (.ok (), { h3 with nodes := h3.nodes.set a { c0 with out := s } }) := by
      rw [ok_bind' hc, ok_bind' (load_some hc2), ok_bind' hs]
      unfold HM.putOut HM.update
      simp only [hn3]
    obtain ⟨N', A', L'⟩ := cloneLoop_step hw L hq hq1 hq2 (fun hi h1 c => clone_view (f + 1) _ hi h1 c) hbody
    rw [ok_bind' hbody]
    exact cloneLoop_returns hw hsl hcap hes ih k (i + 1) _ N' A' (by omega) L'

theorem clone_start {h : Heap} {g : Nat} {x : HNode} (hw : HeapOk h) (hx : h.nodes[g]? = some x) :
    CloneLoop h ((h.array x.out).take x.out.len) x.this h.nodes.length 0 { h with nodes := h.nodes ++ [⟨x.this, {}⟩] }
        (fun _ => False) (fun _ => False) := by
  have hmem := List.mem_of_getElem? hx
  have hext : Extends h { h with nodes := h.nodes ++ [⟨x.this, {}⟩] } :=
    ⟨fun a ha => List.getElem?_append_left ha, fun _ _ => rfl⟩
  have hok : HeapOk { h with nodes := h.nodes ++ [⟨x.this, {}⟩] } := by
    refine ⟨?_, ?_, ?_⟩
    · intro c hc p hp
      refine known_mono hext.nodes_le ?_
      rcases List.mem_append.1 hc with hc | hc
      · exact hw.content c hc p hp
      · rw [List.mem_singleton] at hc
        subst hc
        exact hw.content x hmem p hp
    · intro c hc k hk
      rcases List.mem_append.1 hc with hc | hc
      · exact hw.slice c hc k hk
      · rw [List.mem_singleton] at hc
        subst hc
        cases hk
    · intro ps hps p hp
      exact known_mono hext.nodes_le (hw.elem ps hps p hp)
  refine ⟨hext, Nat.le_refl _, hok, Nat.le_refl _, ⟨⟨x.this, {}⟩, ?_, rfl, rfl, Nat.zero_le _, ?_, ?_, ?_⟩, id, nofun, nofun, nofun, nofun⟩
  · simp
  · simp
  · simp
  · nofun

theorem clone_returns : ∀ (f : Nat) (g : Ptr) (h : Heap), HeapOk h → Known h g → PlainBelow h g → FiniteBelow f h g →
    ∃ c h1, (hClone grow (f + 1) g).run h = (.ok c, h1)
  | 0, none, h, _, _, _, _ => ⟨none, h, rfl⟩
  | _ + 1, none, h, _, _, _, _ => ⟨none, h, rfl⟩
  | 0, some _, _, _, _, _, hf => absurd hf id
  | f + 1, some g, h, hw, hg, hpl, ⟨x, hx, hcap, hs⟩ => by
    unfold hClone
    have hgl := hg g rfl
    have hmem := List.mem_of_getElem? hx
    obtain ⟨h1, hloop⟩ := cloneLoop_returns (grow := grow) hw (fun k hk => hw.slice x hmem k hk) hcap
      (fun q hq => ⟨known_below hw hg (.sub .refl hx hq), fun a c hb hc => hpl a c (below_trans (.sub .refl hx hq) hb) hc, hs q hq⟩)
      (fun q hi => clone_returns f q hi) x.out.len 0 _ _ _ (by omega) (clone_start hw hx)
    refine ⟨some h.nodes.length, h1, ?_⟩
    have ha : (HM.alloc (.val .nil)).run h = (.ok h.nodes.length, { h with nodes := h.nodes ++ [⟨.val .nil, {}⟩] }) := rfl
    have hl : (HM.load (some g)).run { h with nodes := h.nodes ++ [⟨.val .nil, {}⟩] } = (.ok x, { h with nodes := h.nodes ++ [⟨.val .nil, {}⟩] }) :=
      load_some ((List.getElem?_append_left hgl).trans hx)
    have hp : (HM.putThis (some h.nodes.length) x.this).run { h with nodes := h.nodes ++ [⟨.val .nil, {}⟩] } =
        (.ok (), { h with nodes := h.nodes ++ [⟨x.this, {}⟩] }) := by
      unfold HM.putThis HM.update
      simp
    rw [ok_bind' ha, ok_bind' hl, ok_bind' hp, ok_bind' hloop]
    rfl

end Ogdl
