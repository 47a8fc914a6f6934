import Verif.Spec.Heap

/-!
# Ownership of memory

`Own` says which nodes and arrays belong to somebody.  `HSafe` computations, started on
memory in which everything owned refers to owned things only, keep it so and change
nothing else.
-/

namespace Ogdl
open Spec HM

/-- The nodes and arrays that belong to somebody, with bounds for what will be allocated. -/
structure Own where
  node : Nat → Prop
  arr : Nat → Prop
  nodeEnd : Nat
  arrEnd : Nat

namespace Own
variable (R : Own)

def ptr (p : Ptr) : Prop := ∀ a, p = some a → R.node a
def val (v : HVal) : Prop := ∀ p, v = .ptr p → R.ptr p
def slice (s : Slice) : Prop := ∀ k, s.arr = some k → R.arr k
def cell (c : HNode) : Prop := R.val c.this ∧ R.slice c.out

/-- What is owned refers to what is owned, and so is what will be allocated. -/
structure Inv (h : Heap) : Prop where
  freshNode : ∀ a, h.nodes.length ≤ a → a < R.nodeEnd → R.node a
  freshArr : ∀ k, h.arrays.length ≤ k → k < R.arrEnd → R.arr k
  cells : ∀ a c, h.nodes[a]? = some c → R.node a → R.cell c
  arrays : ∀ k ps, h.arrays[k]? = some ps → R.arr k → ∀ p ∈ ps, R.ptr p

/-- What is not owned is as in `h0`. -/
structure Same (h0 h : Heap) : Prop where
  nodes : ∀ a, ¬ R.node a → h.nodes[a]? = h0.nodes[a]?
  arrays : ∀ k, ¬ R.arr k → h.arrays[k]? = h0.arrays[k]?

end Own

variable {R : Own} {h0 : Heap}

/-- See above; `P` holds of the result. -/
def HSafe (R : Own) (h0 : Heap) (m : HM α) (P : α → Prop) : Prop :=
  ∀ h, R.Inv h → R.Same h0 h → (m.run h).2.nodes.length ≤ R.nodeEnd → (m.run h).2.arrays.length ≤ R.arrEnd →
    R.Inv (m.run h).2 ∧ R.Same h0 (m.run h).2 ∧ ∀ a, (m.run h).1 = .ok a → P a

namespace HSafe

theorem mono {m : HM α} {P Q : α → Prop} (hm : HSafe R h0 m P) (h : ∀ a, P a → Q a) : HSafe R h0 m Q :=
  fun x hi hs hn hm' => let ⟨a, b, c⟩ := hm x hi hs hn hm'; ⟨a, b, fun y hy => h y (c y hy)⟩

/-- Computations that only read. -/
theorem read {f : Heap → Res α} {P : α → Prop} (h : ∀ x, R.Inv x → R.Same h0 x → ∀ a, f x = .ok a → P a) : HSafe R h0 (HM.read f) P :=
  fun x hi hs _ _ => ⟨hi, hs, h x hi hs⟩

theorem pure {a : α} {P : α → Prop} (h : P a) : HSafe R h0 (Pure.pure a : HM α) P :=
  read fun _ _ _ _ hx => by cases hx; exact h

theorem bind {m : HM α} {f : α → HM β} {P : α → Prop} {Q : β → Prop} (hm : HSafe R h0 m P)
    (hf : ∀ a, P a → HSafe R h0 (f a) Q) : HSafe R h0 (m >>= f) Q := by
  intro h hi hs
  show ((HM.bind m f).run h).2.nodes.length ≤ R.nodeEnd → ((HM.bind m f).run h).2.arrays.length ≤ R.arrEnd →
    R.Inv ((HM.bind m f).run h).2 ∧ R.Same h0 ((HM.bind m f).run h).2 ∧ ∀ a, ((HM.bind m f).run h).1 = .ok a → Q a
  unfold HM.bind
  dsimp only
  have hm := hm h hi hs
  rcases hr : m.run h with ⟨r, h'⟩
  rw [hr] at hm
  cases r with
  | ok a =>
    intro hn ha
    obtain ⟨i, s, p⟩ := hm (Nat.le_trans ((f a).nodes_le h') hn) (Nat.le_trans ((f a).arrays_le h') ha)
    exact hf a (p a rfl) h' i s hn ha
  | panic => exact fun hn ha => ⟨(hm hn ha).1, (hm hn ha).2.1, nofun⟩
  | oof => exact fun hn ha => ⟨(hm hn ha).1, (hm hn ha).2.1, nofun⟩

theorem panic {P : α → Prop} : HSafe R h0 (HM.panic : HM α) P := read nofun
theorem oof {P : α → Prop} : HSafe R h0 (HM.oof : HM α) P := read nofun
theorem lift {r : Res α} {P : α → Prop} (h : ∀ a, r = .ok a → P a) : HSafe R h0 (HM.lift r) P := read fun _ _ _ => h

theorem ite {c : Prop} [Decidable c] {m n : HM α} {P : α → Prop} (hm : HSafe R h0 m P) (hn : HSafe R h0 n P) :
    HSafe R h0 (if c then m else n) P := by
  by_cases h : c
  · rw [if_pos h]; exact hm
  · rw [if_neg h]; exact hn

theorem alloc {v : HVal} (hv : R.val v) : HSafe R h0 (HM.alloc v) R.node := by
  intro h hi hs hn _
  simp only [HM.alloc, List.length_append, List.length_cons, List.length_nil] at hn
  have hf := hi.freshNode h.nodes.length (Nat.le_refl _) (by omega)
  refine ⟨⟨?_, hi.freshArr, ?_, hi.arrays⟩, ⟨?_, hs.arrays⟩, ?_⟩
  · intro a ha
    simp only [HM.alloc, List.length_append, List.length_cons, List.length_nil] at ha
    exact hi.freshNode a (by omega)
  · intro a c hc ha
    simp only [HM.alloc] at hc
    rcases Nat.lt_or_ge a h.nodes.length with hl | hl
    · rw [List.getElem?_append_left hl] at hc
      exact hi.cells a c hc ha
    · rw [List.getElem?_append_right hl] at hc
      rcases Nat.eq_or_lt_of_le hl with he | he
      · subst he
        simp only [Nat.sub_self, List.getElem?_cons_zero, Option.some.injEq] at hc
        subst hc
        exact ⟨hv, nofun⟩
      · rw [List.getElem?_eq_none (by simp; omega)] at hc
        cases hc
  · intro a ha
    simp only [HM.alloc]
    rcases Nat.lt_or_ge a h.nodes.length with hl | hl
    · rw [List.getElem?_append_left hl]
      exact hs.nodes a ha
    · rcases Nat.eq_or_lt_of_le hl with he | he
      · exact absurd (he ▸ hf) ha
      · rw [← hs.nodes a ha, List.getElem?_eq_none hl, List.getElem?_eq_none (by simp; omega)]
  · intro a ha
    simp only [HM.alloc, Res.ok.injEq] at ha
    subst ha
    exact hf

theorem load {p : Ptr} (hp : R.ptr p) : HSafe R h0 (HM.load p) R.cell := by
  refine read fun h hi _ c hc => ?_
  cases p with
  | none => cases hc
  | some a =>
    simp only [Option.bind_some] at hc
    cases hx : h.nodes[a]? with
    | none => rw [hx] at hc; cases hc
    | some x =>
      rw [hx] at hc
      cases hc
      exact hi.cells a _ hx (hp a rfl)

theorem update {p : Ptr} {f : HNode → HNode} (hp : R.ptr p) (hf : ∀ c, R.cell c → R.cell (f c)) :
    HSafe R h0 (HM.update p f) (fun _ => True) := by
  intro h hi hs _ _
  cases p with
  | none => exact ⟨hi, hs, nofun⟩
  | some a =>
    simp only [HM.update]
    cases hc : h.nodes[a]? with
    | none => exact ⟨hi, hs, nofun⟩
    | some c =>
      have ha := hp a rfl
      have hcell := hf c (hi.cells a c hc ha)
      refine ⟨⟨?_, hi.freshArr, ?_, hi.arrays⟩, ⟨?_, hs.arrays⟩, fun _ _ => trivial⟩
      · intro x hx
        simp only [List.length_set] at hx
        exact hi.freshNode x hx
      · intro x y hy hx
        simp only at hy
        by_cases he : a = x
        · subst he
          rw [List.getElem?_set] at hy
          simp only [↓reduceIte] at hy
          split at hy
          · cases hy; exact hcell
          · cases hy
        · rw [List.getElem?_set_ne he] at hy
          exact hi.cells x y hy hx
      · intro x hx
        have he : a ≠ x := fun e => hx (e ▸ ha)
        simp only
        rw [List.getElem?_set_ne he]
        exact hs.nodes x hx

theorem putThis {p : Ptr} {v : HVal} (hp : R.ptr p) (hv : R.val v) : HSafe R h0 (HM.putThis p v) (fun _ => True) :=
  update hp fun _ hc => ⟨hv, hc.2⟩

theorem putOut {p : Ptr} {s : Slice} (hp : R.ptr p) (hv : R.slice s) : HSafe R h0 (HM.putOut p s) (fun _ => True) :=
  update hp fun _ hc => ⟨hc.1, hv⟩

theorem array_mem {h : Heap} (hi : R.Inv h) {s : Slice} (hs : R.slice s) : ∀ p ∈ h.array s, R.ptr p := by
  intro p hp
  unfold Heap.array at hp
  split at hp
  · cases hp
  · next k hk =>
    cases ha : h.arrays[k]? with
    | none => rw [ha] at hp; cases hp
    | some ps =>
      rw [ha] at hp
      exact hi.arrays k ps ha (hs k hk) p hp

theorem index {s : Slice} {i : Nat} (hv : R.slice s) : HSafe R h0 (HM.index s i) R.ptr := by
  refine read fun h hi _ p hp => ?_
  by_cases hl : i < s.len
  · simp only [hl, ↓reduceIte] at hp
    cases hc : (h.array s)[i]? with
    | none => rw [hc] at hp; cases hp
    | some q =>
      rw [hc] at hp
      cases hp
      exact array_mem hi hv _ (List.mem_of_getElem? hc)
  · simp only [hl, ↓reduceIte] at hp
    cases hp

theorem setArr {h : Heap} {k : Nat} {l : List (List Ptr)} (hi : R.Inv h) (hs : R.Same h0 h) (hk : R.arr k)
    (hlen : l.length = h.arrays.length) (hne : ∀ j, k ≠ j → l[j]? = h.arrays[j]?)
    (hx : ∀ ps, l[k]? = some ps → ∀ p ∈ ps, R.ptr p) :
    R.Inv { h with arrays := l } ∧ R.Same h0 { h with arrays := l } := by
  refine ⟨⟨hi.freshNode, ?_, hi.cells, ?_⟩, ⟨hs.nodes, ?_⟩⟩
  · intro j hj
    simp only [hlen] at hj
    exact hi.freshArr j hj
  · intro j ps hps hj
    simp only at hps
    by_cases he : k = j
    · subst he
      exact hx ps hps
    · rw [hne j he] at hps
      exact hi.arrays j ps hps hj
  · intro j hj
    have he : k ≠ j := fun e => hj (e ▸ hk)
    simp only [hne j he]
    exact hs.arrays j hj

theorem putIndex {s : Slice} {i : Nat} {p : Ptr} (hv : R.slice s) (hp : R.ptr p) :
    HSafe R h0 (HM.putIndex s i p) (fun _ => True) := by
  intro h hi hs _ _
  simp only [HM.putIndex]
  cases hk : s.arr with
  | none => exact ⟨hi, hs, nofun⟩
  | some k =>
    simp only
    by_cases hl : i < s.len
    · simp only [hl, ↓reduceIte]
      obtain ⟨a, b⟩ := setArr (l := h.arrays.modify k (·.set i p)) hi hs (hv k hk) (by simp)
        (fun j hj => by rw [List.getElem?_modify]; simp [hj])
        (by
          intro ps hps q hq
          rw [List.getElem?_modify_eq] at hps
          cases ha : h.arrays[k]? with
          | none => rw [ha] at hps; cases hps
          | some qs =>
            rw [ha] at hps
            simp only [Option.map_eq_map, Option.map_some, Option.some.injEq] at hps
            subst hps
            rcases List.mem_or_eq_of_mem_set hq with hq | hq
            · exact hi.arrays k qs ha (hv k hk) q hq
            · exact hq ▸ hp)
      exact ⟨a, b, fun _ _ => trivial⟩
    · simp only [hl, ↓reduceIte]
      exact ⟨hi, hs, nofun⟩

theorem elems {s : Slice} (hv : R.slice s) : HSafe R h0 (HM.elems s) (fun ps => ∀ p ∈ ps, R.ptr p) := by
  refine read fun h hi _ ps hps => ?_
  cases hps
  exact fun p hp => array_mem hi hv p (List.mem_of_mem_take hp)

theorem ptr_none : R.ptr none := nofun

theorem make {ps : List Ptr} {n : Nat} (hp : ∀ p ∈ ps, R.ptr p) : HSafe R h0 (HM.make ps n) R.slice := by
  intro h hi hs _ hn
  simp only [HM.make, List.length_append, List.length_cons, List.length_nil] at hn
  have hf := hi.freshArr h.arrays.length (Nat.le_refl _) (by omega)
  refine ⟨⟨hi.freshNode, ?_, hi.cells, ?_⟩, ⟨hs.nodes, ?_⟩, ?_⟩
  · intro a ha
    simp only [HM.make, List.length_append, List.length_cons, List.length_nil] at ha
    exact hi.freshArr a (by omega)
  · intro a c hc ha
    simp only [HM.make] at hc
    rcases Nat.lt_or_ge a h.arrays.length with hl | hl
    · rw [List.getElem?_append_left hl] at hc
      exact hi.arrays a c hc ha
    · rw [List.getElem?_append_right hl] at hc
      rcases Nat.eq_or_lt_of_le hl with he | he
      · subst he
        simp only [Nat.sub_self, List.getElem?_cons_zero, Option.some.injEq] at hc
        subst hc
        intro p hx
        rcases List.mem_append.1 hx with hx | hx
        · exact hp p hx
        · rw [(List.mem_replicate.1 hx).2]; exact ptr_none
      · rw [List.getElem?_eq_none (by simp; omega)] at hc
        cases hc
  · intro a ha
    simp only [HM.make]
    rcases Nat.lt_or_ge a h.arrays.length with hl | hl
    · rw [List.getElem?_append_left hl]
      exact hs.arrays a ha
    · rcases Nat.eq_or_lt_of_le hl with he | he
      · exact absurd (he ▸ hf) ha
      · rw [← hs.arrays a ha, List.getElem?_eq_none hl, List.getElem?_eq_none (by simp; omega)]
  · intro s hx
    simp only [HM.make, Res.ok.injEq] at hx
    subst hx
    intro k hk
    cases hk
    exact hf

theorem append {grow : Nat → Nat → Nat} {s : Slice} {ps : List Ptr} (hv : R.slice s) (hp : ∀ p ∈ ps, R.ptr p) :
    HSafe R h0 (HM.append grow s ps) R.slice := by
  intro h hi hs hn ha
  have hm := array_mem hi hv
  simp only [HM.append] at hn ha ⊢
  by_cases he : ps.isEmpty = true
  · simp only [he, ↓reduceIte]
    exact ⟨hi, hs, fun a ha => by cases ha; exact hv⟩
  · simp only [he, Bool.false_eq_true, ↓reduceIte]
    by_cases hl : s.len + ps.length ≤ (h.array s).length
    · simp only [hl, ↓reduceIte]
      cases hk : s.arr with
      | none => exact ⟨hi, hs, nofun⟩
      | some k =>
        simp only
        obtain ⟨a, b⟩ := setArr (l := h.arrays.set k ((h.array s).take s.len ++ ps ++ (h.array s).drop (s.len + ps.length)))
          hi hs (hv k hk) (by simp) (fun j hj => by rw [List.getElem?_set_ne hj])
          (by
            intro qs hqs q hq
            rw [List.getElem?_set] at hqs
            simp only [↓reduceIte] at hqs
            split at hqs
            · cases hqs
              rcases List.mem_append.1 hq with hq | hq
              · rcases List.mem_append.1 hq with hq | hq
                · exact hm q (List.mem_of_mem_take hq)
                · exact hp q hq
              · exact hm q (List.mem_of_mem_drop hq)
            · cases hqs)
        refine ⟨a, b, ?_⟩
        intro x hx
        cases hx
        intro j hj
        cases hj
        exact hv k hk
    · simp only [he, Bool.false_eq_true, hl, ↓reduceIte] at hn ha ⊢
      refine make ?_ h hi hs hn ha
      intro p hx
      rcases List.mem_append.1 hx with hx | hx
      · exact hm p (List.mem_of_mem_take hx)
      · exact hp p hx

theorem range {s : Slice} {f : Ptr → HM Unit} (hv : R.slice s) (hf : ∀ p, R.ptr p → HSafe R h0 (f p) (fun _ => True)) :
    ∀ k i, HSafe R h0 (HM.range s f k i) (fun _ => True)
  | 0, _ => pure trivial
  | k + 1, i => bind (index hv) fun p hp => bind (hf p hp) fun _ _ => range hv hf k (i + 1)

theorem search {s : Slice} {f : Ptr → HM (Option α)} {P : α → Prop} (hv : R.slice s)
    (hf : ∀ p, R.ptr p → HSafe R h0 (f p) (fun r => ∀ a, r = some a → P a)) :
    ∀ k i, HSafe R h0 (HM.search s f k i) (fun r => ∀ a, r = some a → P a)
  | 0, _ => pure nofun
  | k + 1, i => bind (index hv) fun p hp => bind (hf p hp) fun r hr => by
    cases r with
    | none => exact search hv hf k (i + 1)
    | some a => exact pure hr


variable {E : Ext} {grow : Nat → Nat → Nat} {fuel : Nat}

theorem val_val {v : Val} : R.val (.val v) := nofun
theorem val_ptr {p : Ptr} (hp : R.ptr p) : R.val (.ptr p) := fun q hq => by cases hq; exact hp
theorem slice_nil : R.slice {} := nofun
theorem ptr_some {a : Nat} (h : R.node a) : R.ptr (some a) := fun b hb => by cases hb; exact h

theorem string : ∀ (f : Nat) (v : HVal), R.val v → HSafe R h0 (hstring E f v) (fun _ => True)
  | 0, .val _, _ => pure trivial
  | 0, .ptr none, _ => pure trivial
  | 0, .ptr (some _), _ => oof
  | _ + 1, .val _, _ => pure trivial
  | _ + 1, .ptr none, _ => pure trivial
  | f + 1, .ptr (some a), h => by
    unfold hstring
    refine bind (load (h _ rfl)) fun c hc => ite (pure trivial) ?_
    exact bind (index hc.2) fun n hn => bind (load hn) fun x hx => string f x.this hx.1

theorem new {v : HVal} (hv : R.val v) : HSafe R h0 (hNew v) R.ptr :=
  bind (alloc hv) fun _ ha => pure (ptr_some ha)

theorem addOne {g : Ptr} {a : Nat} (hg : R.ptr g) (ha : R.node a) : HSafe R h0 (do
    let c ← HM.load g
    let s ← HM.append grow c.out [some a]
    HM.putOut g s
    Pure.pure (some a)) R.ptr :=
  bind (load hg) fun _ hc => bind (append hc.2 (by simpa using ptr_some ha)) fun _ hs =>
    bind (putOut hg hs) fun _ _ => pure (ptr_some ha)

theorem add {g : Ptr} {v : HVal} (hg : R.ptr g) (hv : R.val v) : HSafe R h0 (hAdd grow g v) R.ptr := by
  unfold hAdd
  split
  · exact pure ptr_none
  · exact pure ptr_none
  · exact addOne hg (hv _ rfl _ rfl)
  · exact bind (alloc hv) fun a ha => addOne hg ha

theorem addNodesVal {g : Ptr} {v : HVal} (hg : R.ptr g) (hv : R.val v) : HSafe R h0 (hAddNodesVal grow g v) R.ptr := by
  unfold hAddNodesVal
  split
  · exact pure ptr_none
  · exact pure ptr_none
  · exact bind (load hg) fun c hc => bind (load (hv _ rfl)) fun x hx => bind (elems hx.2) fun ps hps =>
      bind (append hc.2 hps) fun s hs => bind (putOut hg hs) fun _ _ => pure (hv _ rfl)
  · exact bind (alloc hv) fun a ha => addOne hg ha

theorem addNodes {g g2 : Ptr} (hg : R.ptr g) (hg2 : R.ptr g2) : HSafe R h0 (hAddNodes grow g g2) R.ptr := by
  unfold hAddNodes
  split
  · exact pure ptr_none
  · exact pure ptr_none
  · exact bind (load hg) fun c hc => bind (load hg2) fun x hx => bind (elems hx.2) fun ps hps =>
      bind (append hc.2 hps) fun s hs => bind (putOut hg hs) fun _ _ => pure hg

theorem copy : ∀ (f : Nat) (g c : Ptr), R.ptr g → R.ptr c → HSafe R h0 (hCopy grow f g c) (fun _ => True)
  | 0, _, _, _, _ => oof
  | f + 1, g, c, hg, hc => by
    unfold hCopy
    split
    · exact pure trivial
    · exact pure trivial
    · exact bind (load hc) fun x hx => range hx.2 (fun n hn => bind (load hn) fun y hy => bind (add hg hy.1) fun nn hnn =>
        copy f nn n hnn hn) _ _

theorem clone : ∀ (f : Nat) (g : Ptr), R.ptr g → HSafe R h0 (hClone grow f g) R.ptr
  | 0, _, _ => oof
  | f + 1, g, hg => by
    unfold hClone
    split
    · exact pure ptr_none
    · exact bind (alloc val_val) fun a ha => bind (load hg) fun x hx => bind (putThis (ptr_some ha) hx.1) fun _ _ =>
        bind (range hx.2 (fun n hn => bind (clone f n hn) fun m hm => bind (load (ptr_some ha)) fun c hc =>
          bind (append hc.2 (by simpa using hm)) fun s hs => putOut (ptr_some ha) hs) _ _) fun _ _ => pure (ptr_some ha)

theorem findNode {c : HNode} {s : Bytes} (hc : R.cell c) : HSafe R h0 (HM.search c.out (fun n => do
      let x ← HM.load n
      let t ← hstring E fuel x.this
      if s = t then Pure.pure (some n) else Pure.pure none) c.out.len 0) (fun r => ∀ p, r = some p → R.ptr p) :=
  search hc.2 (fun n hn => bind (load hn) fun x hx => bind (string _ _ hx.1) fun t _ =>
    ite (pure (fun a ha => by cases ha; exact hn)) (pure nofun)) _ _

theorem node {g : Ptr} {s : Bytes} (hg : R.ptr g) : HSafe R h0 (hNode E fuel g s) R.ptr := by
  unfold hNode
  split
  · exact pure ptr_none
  · refine bind (load hg) fun c hc => bind (findNode hc) fun r hr => pure ?_
    cases r with
    | none => exact ptr_none
    | some p => exact hr p rfl

theorem nodeOrNew {g : Ptr} {s : Bytes} (hg : R.ptr g) : HSafe R h0 (hNodeOrNew E grow fuel g s) R.ptr := by
  unfold hNodeOrNew
  split
  · exact pure ptr_none
  · refine bind (load hg) fun c hc => bind (findNode hc) fun r hr => ?_
    cases r with
    | none => exact add hg val_val
    | some p => exact pure (hr p rfl)

theorem clear {g : Ptr} (hg : R.ptr g) : HSafe R h0 (hClear g) (fun _ => True) := by
  unfold hClear
  split
  · exact pure trivial
  · exact putOut hg slice_nil

theorem nodeSet {g : Ptr} {s : Bytes} {v : HVal} (hg : R.ptr g) (hv : R.val v) : HSafe R h0 (hNodeSet E grow fuel g s v) R.ptr :=
  bind (nodeOrNew hg) fun _ hn => bind (clear hn) fun _ _ => add hn hv

theorem create {g : Ptr} {s : Bytes} (hg : R.ptr g) : HSafe R h0 (hCreate E grow fuel g s) R.ptr := by
  refine bind (node hg) fun n hn => ?_
  split
  · exact add hg val_val
  · exact bind (clear hn) fun _ _ => pure hn

theorem getAt {g : Ptr} {i : Int} (hg : R.ptr g) : HSafe R h0 (hGetAt g i) R.ptr :=
  bind (load hg) fun _ hc => ite (pure ptr_none) (index hc.2)

theorem remove {g : Ptr} {i : Nat} (hg : R.ptr g) : HSafe R h0 (hRemove grow g i) (fun _ => True) :=
  bind (load hg) fun _ hc => ite (bind (elems hc.2) fun _ hps => bind (append (fun k hk => hc.2 k hk)
    (fun p hp => hps p (List.mem_of_mem_drop hp))) fun _ hs => putOut hg hs) (putOut hg fun k hk => hc.2 k hk)

theorem deleteLoop {g : Ptr} {n : HVal} (hg : R.ptr g) : ∀ k i, HSafe R h0 (hDeleteLoop E grow g n k i) (fun _ => True)
  | 0, _ => pure trivial
  | k + 1, i => by
    unfold hDeleteLoop
    exact bind (load hg) fun c hc => ite (bind (index hc.2) fun p hp => bind (load hp) fun x hx =>
      bind (lift (P := fun _ => True) fun _ _ => trivial) fun b _ => ite (bind (remove hg) fun _ _ => deleteLoop hg k i)
        (deleteLoop hg k (i + 1))) (pure trivial)

theorem delete {g : Ptr} {n : HVal} (hg : R.ptr g) : HSafe R h0 (hDelete E grow g n) (fun _ => True) := by
  unfold hDelete
  split
  · exact pure trivial
  · exact bind (load hg) fun c hc => deleteLoop hg _ _

theorem deleteAt {g : Ptr} {i : Int} (hg : R.ptr g) : HSafe R h0 (hDeleteAt grow g i) (fun _ => True) := by
  unfold hDeleteAt
  split
  · exact pure trivial
  · exact bind (load hg) fun c hc => ite (pure trivial) (remove hg)

theorem setIndex {g : Ptr} {i : Int} {v : HVal} (hg : R.ptr g) (hv : R.val v) : HSafe R h0 (hSetIndex g i v) R.ptr := by
  unfold hSetIndex
  have hlast : HSafe R h0 (do
      let n ← hNew v
      if i < 0 then HM.panic
      else do
        let c ← HM.load g
        HM.putIndex c.out i.toNat n
        Pure.pure n) R.ptr :=
    bind (new hv) fun n hn => ite panic (bind (load hg) fun c hc => bind (putIndex hc.2 hn) fun _ _ => pure hn)
  refine bind (load hg) fun c hc => ite (ite (bind (P := fun _ => False) panic fun _ h => h.elim)
    (bind (elems hc.2) fun ps hps => bind (make ?_) fun o ho => bind (putOut hg ho) fun _ _ => hlast)) hlast
  intro p hp
  rcases List.mem_append.1 hp with hp | hp
  · exact hps p hp
  · rw [(List.mem_replicate.1 hp).2]; exact ptr_none

theorem setNew {v : HVal} (hv : R.val v) : ∀ (ps : List HStep) (g : Ptr), R.ptr g →
    HSafe R h0 (hSetNew grow v g ps) (fun r => R.ptr r.1)
  | [], _, hg => pure hg
  | .index _ :: _, _, hg => bind (setIndex hg hv) fun _ hn => pure hn
  | .name _ :: ps, _, hg => bind (add hg val_val) fun n hn => setNew hv ps n hn

theorem setWalk {v : HVal} (hv : R.val v) : ∀ (ps : List HStep) (g : Ptr), R.ptr g →
    HSafe R h0 (hSetWalk E grow fuel v g ps) (fun r => R.ptr r.1)
  | [], _, hg => pure hg
  | .index _ :: _, _, hg => bind (setIndex hg hv) fun _ hn => pure hn
  | .name _ :: ps, g, hg => by
    unfold hSetWalk
    refine bind (node hg) fun n hn => ?_
    split
    · exact setNew hv _ _ hg
    · exact setWalk hv ps _ hn

theorem set {g : Ptr} {ps : List HStep} {v : HVal} (hg : R.ptr g) (hv : R.val v) : HSafe R h0 (hSet E grow fuel g ps v) R.ptr := by
  unfold hSet
  split
  · exact pure ptr_none
  · exact bind (setWalk hv ps _ hg) fun r hr => ite (pure hr) (bind (putOut hr slice_nil) fun _ _ => addNodesVal hr hv)

theorem substitute {s : Bytes} {v : HVal} (hv : R.val v) : ∀ (f : Nat) (g : Ptr), R.ptr g →
    HSafe R h0 (hSubstitute E fuel s v f g) (fun _ => True)
  | 0, _, _ => oof
  | f + 1, g, hg => by
    unfold hSubstitute
    split
    · exact pure trivial
    · exact bind (load hg) fun c hc => range hc.2 (fun n hn => bind (load hn) fun x hx => bind (string _ _ hx.1) fun t _ =>
        ite (bind (putThis hn hv) fun _ _ => substitute hv f n hn)
          (substitute hv f n hn)) _ _

theorem merge : ∀ (f : Nat) (g src : Ptr), R.ptr g → R.ptr src → HSafe R h0 (hMerge E grow fuel f g src) (fun _ => True)
  | 0, _, _, _, _ => oof
  | f + 1, g, src, hg, hs => by
    unfold hMerge
    refine bind (load hs) fun x hx => range hx.2 (fun nd hnd => bind (string _ _ (val_ptr hnd)) fun t _ =>
      bind (node hg) fun n hn => ?_) _ _
    split
    · exact bind (add hg (val_ptr hnd)) fun _ _ => pure trivial
    · exact bind (putOut hn slice_nil) fun _ _ => merge f _ _ hn hnd

theorem held {regs : List Ptr} (hr : ∀ p ∈ regs, R.ptr p) (i : Nat) : R.ptr (Spec.held regs i) := by
  unfold Spec.held
  cases h : regs[i]? with
  | none => exact ptr_none
  | some p => exact hr p (List.mem_of_getElem? h)

theorem arg {regs : List Ptr} (hr : ∀ p ∈ regs, R.ptr p) (a : HArg) : R.val (a.get regs) := by
  cases a with
  | val v => exact val_val
  | reg i => exact val_ptr (held hr i)

/-- Every operation of a client that owns all its pointers is safe. -/
theorem exec {regs : List Ptr} (hr : ∀ p ∈ regs, R.ptr p) (op : HOp) : HSafe R h0 (op.exec E grow fuel regs) R.ptr := by
  have H := held hr
  have A := arg hr
  cases op with
  | new v => exact new (A v)
  | add g v => exact add (H g) (A v)
  | addNodes g x => exact addNodes (H g) (H x)
  | copy g c => exact bind (copy _ _ _ (H g) (H c)) fun _ _ => pure ptr_none
  | clone g => exact clone _ _ (H g)
  | node g s => exact node (H g)
  | nodeOrNew g s => exact nodeOrNew (H g)
  | nodeSet g s v => exact nodeSet (H g) (A v)
  | create g s => exact create (H g)
  | getAt g i => exact getAt (H g)
  | delete g v => exact bind (delete (H g)) fun _ _ => pure ptr_none
  | clear g => exact bind (clear (H g)) fun _ _ => pure ptr_none
  | deleteAt g i => exact bind (deleteAt (H g)) fun _ _ => pure ptr_none
  | set g path v => exact set (H g) (A v)
  | substitute g s v => exact bind (substitute (A v) _ _ (H g)) fun _ _ => pure ptr_none
  | merge g src => exact bind (merge _ _ _ (H g) (H src)) fun _ _ => pure ptr_none
  | this g =>
    refine bind (load (H g)) fun c hc => ?_
    rcases hv : c.this with v | p
    · exact pure ptr_none
    · exact pure (hc.1 p hv)
  | putThis g v => exact bind (putThis (H g) (A v)) fun _ _ => pure ptr_none
  | putOut g i p => exact bind (load (H g)) fun c hc => bind (putIndex hc.2 (H p)) fun _ _ => pure ptr_none
  | shareOut g x n =>
    exact bind (load (H x)) fun c hc => ite (bind (putOut (H g) fun k hk => hc.2 k hk) fun _ _ => pure ptr_none)
      (bind (P := fun _ => True) panic fun _ _ => pure ptr_none)

end HSafe
end Ogdl
