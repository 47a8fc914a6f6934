import Verif.Lemmas.Clone

/-!
# No two nodes share a backing array
-/

namespace Ogdl
open Spec HM

/-- Slices are within their arrays, and an array belongs to one node. -/
structure Solid (h : Heap) : Prop where
  arr : ∀ (a : Nat) (c : HNode) (k : Nat), h.nodes[a]? = some c → c.out.arr = some k → k < h.arrays.length
  cap : ∀ (a : Nat) (c : HNode), h.nodes[a]? = some c → c.out.len ≤ (h.array c.out).length
  own : ∀ (a b : Nat) (c d : HNode) (k : Nat), h.nodes[a]? = some c → h.nodes[b]? = some d → c.out.arr = some k → d.out.arr = some k → a = b

/-- A computation that keeps memory solid and changes the subnodes of nodes in `G` only. -/
def Upd (G : Nat → Prop) (m : HM α) : Prop :=
  ∀ h, Solid h → Solid (m.run h).2 ∧ ∀ q, q < h.nodes.length → ¬ G q → subsOf (m.run h).2 q = subsOf h q

variable {G : Nat → Prop} {E : Ext} {grow : Nat → Nat → Nat} {fuel : Nat}

theorem array_congr {h h' : Heap} {s : Slice} (he : ∀ k, s.arr = some k → h'.arrays[k]? = h.arrays[k]?) : h'.array s = h.array s := by
  unfold Heap.array
  cases hk : s.arr with
  | none => rfl
  | some k => dsimp only; rw [he k hk]

theorem hm_ext {m n : HM α} (h : ∀ x, m.run x = n.run x) : m = n := by
  cases m; cases n
  simp only [HM.mk.injEq]
  exact funext h

theorem hm_assoc {m : HM α} {f : α → HM β} {k : β → HM γ} : (m >>= f) >>= k = m >>= fun a => f a >>= k := by
  apply hm_ext
  intro x
  show (HM.bind (HM.bind m f) k).run x = (HM.bind m fun a => HM.bind (f a) k).run x
  unfold HM.bind
  dsimp only
  rcases m.run x with ⟨r, y⟩
  cases r <;> rfl

theorem hm_pure {a : α} {f : α → HM β} : (Pure.pure a : HM α) >>= f = f a := hm_ext fun _ => rfl

namespace Upd

theorem readOnly {m : HM α} (hm : ∀ h, (m.run h).2 = h) : Upd G m := by
  intro h hs
  rw [hm h]
  exact ⟨hs, fun _ _ _ => rfl⟩

theorem pure {a : α} : Upd G (Pure.pure a : HM α) := readOnly fun _ => rfl
theorem panic : Upd G (HM.panic : HM α) := readOnly fun _ => rfl
theorem oof : Upd G (HM.oof : HM α) := readOnly fun _ => rfl
theorem lift {r : Res α} : Upd G (HM.lift r) := readOnly fun _ => rfl
theorem load {p : Ptr} : Upd G (HM.load p) := readOnly fun _ => rfl
theorem index {s : Slice} {i : Nat} : Upd G (HM.index s i) := readOnly fun _ => rfl
theorem elems {s : Slice} : Upd G (HM.elems s) := readOnly fun _ => rfl

theorem bind {m : HM α} {f : α → HM β} (hm : Upd G m) (hf : ∀ a, Upd G (f a)) : Upd G (m >>= f) := by
  intro h hs
  obtain ⟨s1, v1⟩ := hm h hs
  have hl := m.nodes_le h
  show Solid ((HM.bind m f).run h).2 ∧ _
  have hrun : ((m >>= f).run h).2 = ((HM.bind m f).run h).2 := rfl
  rw [hrun]
  unfold HM.bind
  dsimp only
  rcases hr : m.run h with ⟨r, h'⟩
  rw [hr] at s1 v1 hl
  cases r with
  | ok a =>
    obtain ⟨s2, v2⟩ := hf a h' s1
    exact ⟨s2, fun q hq hg => (v2 q (Nat.lt_of_lt_of_le hq hl) hg).trans (v1 q hq hg)⟩
  | panic => exact ⟨s1, v1⟩
  | oof => exact ⟨s1, v1⟩

theorem ite {c : Prop} [Decidable c] {m n : HM α} (hm : Upd G m) (hn : Upd G n) : Upd G (if c then m else n) := by
  by_cases h : c
  · rw [if_pos h]; exact hm
  · rw [if_neg h]; exact hn

theorem alloc {v : HVal} : Upd G (HM.alloc v) := by
  intro h hs
  have key : ∀ (a : Nat) (c : HNode), (h.nodes ++ [(⟨v, {}⟩ : HNode)])[a]? = some c → h.nodes[a]? = some c ∨ c.out = {} := by
    intro a c hc
    rcases Nat.lt_or_ge a h.nodes.length with hl | hl
    · rw [List.getElem?_append_left hl] at hc
      exact .inl hc
    · rw [List.getElem?_append_right hl] at hc
      rcases hx : a - h.nodes.length with _ | n
      · rw [hx] at hc
        cases hc
        exact .inr rfl
      · rw [hx] at hc
        cases hc
  refine ⟨⟨?_, ?_, ?_⟩, ?_⟩
  · intro a c k hc hk
    rcases key a c hc with hc | hc
    · exact hs.arr a c k hc hk
    · rw [hc] at hk; cases hk
  · intro a c hc
    rcases key a c hc with hc | hc
    · exact hs.cap a c hc
    · rw [hc]; exact Nat.zero_le _
  · intro a b c d k hc hd hk hk'
    rcases key a c hc with hc | hc
    · rcases key b d hd with hd | hd
      · exact hs.own a b c d k hc hd hk hk'
      · rw [hd] at hk'; cases hk'
    · rw [hc] at hk; cases hk
  · intro q hq _
    unfold subsOf
    have : (HM.alloc v).run h = (.ok h.nodes.length, { h with nodes := h.nodes ++ [⟨v, {}⟩] }) := rfl
    rw [this]
    dsimp only
    rw [List.getElem?_append_left hq]
    rfl

theorem putThis {p : Ptr} {v : HVal} : Upd G (HM.putThis p v) := by
  intro h hs
  unfold HM.putThis HM.update
  cases p with
  | none => exact ⟨hs, fun _ _ _ => rfl⟩
  | some a =>
    dsimp only
    cases hc : h.nodes[a]? with
    | none => exact ⟨hs, fun _ _ _ => rfl⟩
    | some c =>
      dsimp only
      have key : ∀ (b : Nat) (d : HNode), (h.nodes.set a { c with this := v })[b]? = some d → ∃ d' : HNode, h.nodes[b]? = some d' ∧ d'.out = d.out := by
        intro b d hd
        rw [List.getElem?_set] at hd
        split at hd
        · next e =>
          subst e
          split at hd
          · cases hd; exact ⟨c, hc, rfl⟩
          · cases hd
        · exact ⟨d, hd, rfl⟩
      refine ⟨⟨?_, ?_, ?_⟩, ?_⟩
      · intro b d k hd hk
        obtain ⟨d', hd', e⟩ := key b d hd
        exact hs.arr b d' k hd' (e ▸ hk)
      · intro b d hd
        obtain ⟨d', hd', e⟩ := key b d hd
        have := hs.cap b d' hd'
        rw [e] at this
        exact this
      · intro b b' d d' k hd hd' hk hk'
        obtain ⟨x, hx, e⟩ := key b d hd
        obtain ⟨x', hx', e'⟩ := key b' d' hd'
        exact hs.own b b' x x' k hx hx' (e ▸ hk) (e' ▸ hk')
      · intro q hq _
        unfold subsOf
        dsimp only
        cases hd : (h.nodes.set a { c with this := v })[q]? with
        | none =>
          rw [List.getElem?_eq_none_iff, List.length_set] at hd
          omega
        | some d =>
          obtain ⟨d', hd', e⟩ := key q d hd
          rw [hd']
          dsimp only
          rw [e]
          rfl

/-- A node `g` gets the slice `s` in memory with arrays `l`, in which only the array of
`g` and new arrays differ. -/
theorem assign {h : Heap} {g : Nat} {c : HNode} {s : Slice} {l : List (List Ptr)} (hs : Solid h) (hc : h.nodes[g]? = some c)
    (hll : h.arrays.length ≤ l.length) (hl : ∀ j, j < h.arrays.length → c.out.arr ≠ some j → l[j]? = h.arrays[j]?)
    (hk : ∀ k, s.arr = some k → k < l.length ∧ (c.out.arr = some k ∨ h.arrays.length ≤ k))
    (hcap : s.len ≤ (Heap.array ⟨h.nodes, l⟩ s).length) (hg : G g) :
    Solid ⟨h.nodes.set g { c with out := s }, l⟩ ∧
    ∀ q, q < h.nodes.length → ¬ G q → subsOf ⟨h.nodes.set g { c with out := s }, l⟩ q = subsOf h q := by
  have hgl : g < h.nodes.length := (List.getElem?_eq_some_iff.1 hc).1
  have key : ∀ (b : Nat) (d : HNode), (h.nodes.set g { c with out := s })[b]? = some d → (b = g ∧ d = { c with out := s }) ∨ (b ≠ g ∧ h.nodes[b]? = some d) := by
    intro b d hd
    rw [List.getElem?_set] at hd
    split at hd
    · next e =>
      subst e
      cases hd
      exact .inl ⟨rfl, rfl⟩
    · next e => exact .inr ⟨fun x => e x.symm, hd⟩
  have hother : ∀ (b : Nat) (d : HNode), b ≠ g → h.nodes[b]? = some d → Heap.array ⟨h.nodes.set g { c with out := s }, l⟩ d.out = h.array d.out := by
    intro b d hb hd
    refine array_congr fun k hk => hl k (hs.arr b d k hd hk) fun hx => hb (hs.own b g d c k hd hc hk hx)
  refine ⟨⟨?_, ?_, ?_⟩, ?_⟩
  · intro b d k hd hk'
    rcases key b d hd with ⟨_, rfl⟩ | ⟨_, hd⟩
    · exact (hk k hk').1
    · exact Nat.lt_of_lt_of_le (hs.arr b d k hd hk') hll
  · intro b d hd
    rcases key b d hd with ⟨_, rfl⟩ | ⟨hb, hd⟩
    · exact hcap
    · rw [hother b d hb hd]
      exact hs.cap b d hd
  · intro b b' d d' k hd hd' hk1 hk2
    rcases key b d hd with ⟨e1, e2⟩ | ⟨hb, hd1⟩ <;> rcases key b' d' hd' with ⟨e3, e4⟩ | ⟨hb', hd1'⟩
    · rw [e1, e3]
    · rw [e2] at hk1
      rcases (hk k hk1).2 with hx | hx
      · rw [e1]; exact hs.own _ _ c d' k hc hd1' hx hk2
      · have := hs.arr b' d' k hd1' hk2; omega
    · rw [e4] at hk2
      rcases (hk k hk2).2 with hx | hx
      · rw [e3]; exact hs.own _ _ d c k hd1 hc hk1 hx
      · have := hs.arr b d k hd1 hk1; omega
    · exact hs.own b b' d d' k hd1 hd1' hk1 hk2
  · intro q hq hgq
    have hqg : q ≠ g := fun e => hgq (e ▸ hg)
    unfold subsOf
    dsimp only
    rw [List.getElem?_set_ne (Ne.symm hqg)]
    cases hd : h.nodes[q]? with
    | none => rfl
    | some d => dsimp only; rw [hother q d hqg hd]

/-- Runs of `load`, a computation that only reads, and the rest. -/
theorem load_bind {p : Ptr} {f : HNode → HM α} (hf : ∀ h g c, p = some g → h.nodes[g]? = some c → Solid h →
      Solid ((f c).run h).2 ∧ ∀ q, q < h.nodes.length → ¬ G q → subsOf ((f c).run h).2 q = subsOf h q) : Upd G (HM.load p >>= f) := by
  intro h hs
  have hrun : (HM.load p >>= f).run h = (HM.bind (HM.load p) f).run h := rfl
  rw [hrun]
  unfold HM.bind HM.load HM.read
  dsimp only
  cases p with
  | none => exact ⟨hs, fun _ _ _ => rfl⟩
  | some g =>
    cases hc : h.nodes[g]? with
    | none =>
      simp only [Option.bind_some, hc]
      exact ⟨hs, fun _ _ _ => trivial⟩
    | some c =>
      simp only [Option.bind_some, hc]
      exact hf h g c rfl hc hs

end Upd

/-- What `append` to the subnodes of `g`, cut to `n` of them, and putting the result
back does. -/
theorem appendOut_run {h : Heap} {g : Nat} {c : HNode} {n : Nat} {ps : List Ptr} (hs : Solid h) (hc : h.nodes[g]? = some c) (hn : n ≤ c.out.len) :
    ∃ h', ((HM.append grow { c.out with len := n } ps >>= HM.putOut (some g)).run h) = (.ok (), h') ∧ Solid h' ∧
      subsOf h' g = (subsOf h g).take n ++ ps ∧ h'.nodes.length = h.nodes.length ∧
      ∀ q, q < h.nodes.length → q ≠ g → subsOf h' q = subsOf h q := by
  have hgl : g < h.nodes.length := (List.getElem?_eq_some_iff.1 hc).1
  have hcap := hs.cap g c hc
  have harr : h.array { c.out with len := n } = h.array c.out := rfl
  obtain ⟨s, h1, hr⟩ : ∃ s h1, (HM.append grow { c.out with len := n } ps).run h = (.ok s, h1) := by
    simp only [HM.append]
    by_cases he : ps.isEmpty = true
    · simp only [he, ↓reduceIte]; exact ⟨_, _, rfl⟩
    · simp only [he, Bool.false_eq_true, ↓reduceIte]
      by_cases hl : n + ps.length ≤ (h.array { c.out with len := n }).length
      · simp only [hl, ↓reduceIte]
        cases hk : c.out.arr with
        | none =>
          exfalso
          unfold Heap.array at hl
          rw [hk] at hl
          simp only [List.length_nil] at hl
          exact he (by rw [List.isEmpty_iff]; exact List.length_eq_zero_iff.1 (by omega))
        | some k => exact ⟨_, _, rfl⟩
      · simp only [hl, ↓reduceIte]; exact ⟨_, _, rfl⟩
  obtain ⟨hel, hslen, hscap, hnodes, hal, hsame, hsarr⟩ := happend_ok hr (by rw [harr]; exact Nat.le_trans hn hcap)
  have hbound : ∀ k, s.arr = some k → k < h1.arrays.length := by
    intro k hk
    rcases hsarr k hk with hx | hx
    · exact Nat.lt_of_lt_of_le (hs.arr g c k hc hx) hal
    · rcases Nat.lt_or_ge k h1.arrays.length with hy | hy
      · exact hy
      · exfalso
        unfold Heap.array at hscap
        rw [hk] at hscap
        simp only [List.getElem?_eq_none hy, Option.getD_none, List.length_nil] at hscap
        have : s.arr = c.out.arr := by
          simp only [HM.append] at hr
          have hps : ps.isEmpty = true := by rw [List.isEmpty_iff]; exact List.length_eq_zero_iff.1 (by omega)
          simp only [hps, ↓reduceIte] at hr
          cases hr
          rfl
        have := hs.arr g c k hc (this ▸ hk)
        omega
  have hh1 : h1 = ⟨h.nodes, h1.arrays⟩ := by cases h1; simp only at hnodes; rw [hnodes]
  obtain ⟨hsolid, hq⟩ := Upd.assign (G := (· = g)) (s := s) (l := h1.arrays) hs hc hal hsame (fun k hk => ⟨hbound k hk, hsarr k hk⟩)
    (by rw [← hh1]; exact hscap) rfl
  refine ⟨⟨h.nodes.set g { c with out := s }, h1.arrays⟩, ?_, hsolid, ?_, by simp, fun q hq' hne => hq q hq' hne⟩
  · show (HM.bind _ _).run h = _
    unfold HM.bind
    dsimp only at hr ⊢
    rw [hr]
    dsimp only
    unfold HM.putOut HM.update
    dsimp only
    rw [hnodes, hc]
  · unfold subsOf
    dsimp only
    rw [List.getElem?_set_self hgl, hc]
    dsimp only
    have : Heap.array ⟨h.nodes.set g { c with out := s }, h1.arrays⟩ s = h1.array s := rfl
    rw [this, hel, harr, List.take_take, Nat.min_eq_left hn]

namespace Upd

theorem appendOut {h : Heap} {g : Nat} {c : HNode} {n : Nat} {ps : List Ptr} (hs : Solid h) (hc : h.nodes[g]? = some c) (hn : n ≤ c.out.len) (hg : G g) :
    Solid ((HM.append grow { c.out with len := n } ps >>= HM.putOut (some g)).run h).2 ∧
    ∀ q, q < h.nodes.length → ¬ G q → subsOf ((HM.append grow { c.out with len := n } ps >>= HM.putOut (some g)).run h).2 q = subsOf h q := by
  obtain ⟨h', hr, h1, _, _, h2⟩ := appendOut_run (grow := grow) (ps := ps) hs hc hn
  rw [hr]
  exact ⟨h1, fun q hq hx => h2 q hq fun e => hx (e ▸ hg)⟩

/-- `load g`, something that only reads, `append` and `putOut g`. -/
theorem appendTo {p : Ptr} {n : HNode → Nat} {mid : HNode → HM β} {ps : HNode → β → List Ptr} (hmid : ∀ c h, ((mid c).run h).2 = h)
    (hn : ∀ c, n c ≤ c.out.len) (hp : ∀ g, p = some g → G g) :
    Upd G (HM.load p >>= fun c => mid c >>= fun b => HM.append grow { c.out with len := n c } (ps c b) >>= HM.putOut p) := by
  refine load_bind fun h g c hpg hc hs => ?_
  subst hpg
  have hm := hmid c h
  have hrun : (mid c >>= fun b => HM.append grow { c.out with len := n c } (ps c b) >>= HM.putOut (some g)).run h =
    (HM.bind (mid c) fun b => HM.append grow { c.out with len := n c } (ps c b) >>= HM.putOut (some g)).run h := rfl
  rw [hrun]
  unfold HM.bind
  dsimp only
  rcases hr : (mid c).run h with ⟨r, h'⟩
  rw [hr] at hm
  dsimp only at hm
  subst hm
  cases r with
  | ok b => exact appendOut hs hc (hn c) (hp g rfl)
  | panic => exact ⟨hs, fun _ _ _ => rfl⟩
  | oof => exact ⟨hs, fun _ _ _ => rfl⟩

theorem putOutNil {p : Ptr} (hp : ∀ g, p = some g → G g) : Upd G (HM.putOut p {}) := by
  intro h hs
  unfold HM.putOut HM.update
  cases p with
  | none => exact ⟨hs, fun _ _ _ => rfl⟩
  | some g =>
    dsimp only
    cases hc : h.nodes[g]? with
    | none => exact ⟨hs, fun _ _ _ => rfl⟩
    | some c => exact assign hs hc (Nat.le_refl _) (fun _ _ _ => rfl) nofun (Nat.zero_le _) (hp g rfl)

theorem appendTo' {p : Ptr} {ps : List Ptr} {k : HM α} (hk : Upd G k) (hp : ∀ g, p = some g → G g) :
    Upd G (do let c ← HM.load p; let s ← HM.append grow c.out ps; HM.putOut p s; k) := by
  have h1 : Upd G ((HM.load p >>= fun c => (Pure.pure () : HM Unit) >>= fun _ => HM.append grow { c.out with len := c.out.len } ps >>= HM.putOut p) >>= fun _ => k) :=
    bind (appendTo (fun _ _ => rfl) (fun _ => Nat.le_refl _) hp) fun _ => hk
  rw [hm_assoc] at h1
  simp only [hm_pure, hm_assoc] at h1
  exact h1

theorem appendElems {p x : Ptr} {k : HM α} (hk : Upd G k) (hp : ∀ g, p = some g → G g) :
    Upd G (do let c ← HM.load p; let y ← HM.load x; let ps ← HM.elems y.out; let s ← HM.append grow c.out ps; HM.putOut p s; k) := by
  have h1 : Upd G ((HM.load p >>= fun c => (HM.load x >>= fun y => HM.elems y.out) >>= fun ps => HM.append grow { c.out with len := c.out.len } ps >>= HM.putOut p) >>= fun _ => k) := by
    refine bind (appendTo (fun c h => ?_) (fun _ => Nat.le_refl _) hp) fun _ => hk
    show ((HM.bind (HM.load x) fun y => HM.elems y.out).run h).2 = h
    unfold HM.bind
    dsimp only
    unfold HM.load HM.read
    dsimp only
    cases x.bind (h.nodes[·]?) <;> rfl
  simp only [hm_assoc] at h1
  exact h1

theorem range {s : Slice} {f : Ptr → HM Unit} (hf : ∀ p, Upd G (f p)) : ∀ k i, Upd G (HM.range s f k i)
  | 0, _ => pure
  | k + 1, i => bind index fun p => bind (hf p) fun _ => range hf k (i + 1)

theorem search {s : Slice} {f : Ptr → HM (Option α)} (hf : ∀ p, Upd G (f p)) : ∀ k i, Upd G (HM.search s f k i)
  | 0, _ => pure
  | k + 1, i => bind index fun p => bind (hf p) fun r => by
    cases r with
    | none => exact search hf k (i + 1)
    | some a => exact pure

theorem string : ∀ (f : Nat) (v : HVal), Upd G (hstring E f v)
  | 0, .val _ => pure
  | 0, .ptr none => pure
  | 0, .ptr (some _) => oof
  | _ + 1, .val _ => pure
  | _ + 1, .ptr none => pure
  | f + 1, .ptr (some a) => by
    unfold hstring
    exact bind load fun c => ite pure (bind index fun n => bind load fun x => string f x.this)

theorem new {v : HVal} : Upd G (hNew v) := bind alloc fun _ => pure

theorem add {g : Ptr} {v : HVal} (hg : ∀ a, g = some a → G a) : Upd G (hAdd grow g v) := by
  unfold hAdd
  split
  · exact pure
  · exact pure
  · exact appendTo' pure hg
  · exact bind alloc fun a => appendTo' pure hg

theorem addNodesVal {g : Ptr} {v : HVal} (hg : ∀ a, g = some a → G a) : Upd G (hAddNodesVal grow g v) := by
  unfold hAddNodesVal
  split
  · exact pure
  · exact pure
  · exact appendElems pure hg
  · exact bind alloc fun a => appendTo' pure hg

theorem addNodes {g x : Ptr} (hg : ∀ a, g = some a → G a) : Upd G (hAddNodes grow g x) := by
  unfold hAddNodes
  split
  · exact pure
  · exact pure
  · exact appendElems pure hg

theorem findNode {c : HNode} {s : Bytes} : Upd G (HM.search c.out (fun n => do
      let x ← HM.load n
      let t ← hstring E fuel x.this
      if s = t then Pure.pure (some n) else Pure.pure none) c.out.len 0) :=
  search (fun _ => bind load fun x => bind (string _ _) fun t => ite pure pure) _ _

theorem node {g : Ptr} {s : Bytes} : Upd G (hNode E fuel g s) := by
  unfold hNode
  split
  · exact pure
  · exact bind load fun c => bind findNode fun r => pure

theorem nodeOrNew {g : Ptr} {s : Bytes} (hg : ∀ a, g = some a → G a) : Upd G (hNodeOrNew E grow fuel g s) := by
  unfold hNodeOrNew
  split
  · exact pure
  · refine bind load fun c => bind findNode fun r => ?_
    cases r with
    | none => exact add hg
    | some p => exact pure

theorem clear {g : Ptr} (hg : ∀ a, g = some a → G a) : Upd G (hClear g) := by
  unfold hClear
  split
  · exact pure
  · exact putOutNil hg

theorem getAt {g : Ptr} {i : Int} : Upd G (hGetAt g i) := bind load fun _ => ite pure index

theorem remove_run {h : Heap} {g : Nat} {c : HNode} {i : Nat} (hs : Solid h) (hc : h.nodes[g]? = some c) (hi : i < c.out.len) :
    ∃ h', (hRemove grow (some g) i).run h = (.ok (), h') ∧ Solid h' ∧ subsOf h' g = (subsOf h g).eraseIdx i ∧
      h'.nodes.length = h.nodes.length ∧ ∀ q, q < h.nodes.length → q ≠ g → subsOf h' q = subsOf h q := by
  have hcap := hs.cap g c hc
  have hsubs : subsOf h g = (h.array c.out).take c.out.len := by unfold subsOf; rw [hc]
  have hlen : (subsOf h g).length = c.out.len := by rw [hsubs, List.length_take, Nat.min_eq_left hcap]
  unfold hRemove
  show ∃ h', (HM.bind (HM.load (some g)) fun c => if i + 1 < c.out.len then _ else _).run h = _ ∧ _
  unfold HM.bind HM.load HM.read
  simp only [Option.bind_some, hc]
  by_cases hl : i + 1 < c.out.len
  · simp only [hl, ↓reduceIte]
    obtain ⟨h', hr, h1, h2, h3, h4⟩ := appendOut_run (grow := grow) (n := i) (ps := (subsOf h g).drop (i + 1)) hs hc (by omega)
    refine ⟨h', ?_, h1, ?_, h3, h4⟩
    · rw [hsubs] at hr
      exact hr
    · rw [h2, List.eraseIdx_eq_take_drop_succ]
  · simp only [hl, ↓reduceIte]
    obtain ⟨h1, h2⟩ := assign (G := (· = g)) (s := { c.out with len := i }) (l := h.arrays) hs hc (Nat.le_refl _) (fun _ _ _ => rfl)
      (fun k hk => ⟨hs.arr g c k hc hk, .inl hk⟩) (Nat.le_trans (Nat.le_of_lt hi) hcap) rfl
    refine ⟨⟨h.nodes.set g { c with out := { c.out with len := i } }, h.arrays⟩, ?_, h1, ?_, by simp, fun q hq hne => h2 q hq hne⟩
    · unfold HM.putOut HM.update
      simp only [hc]
    · have hgl : g < h.nodes.length := (List.getElem?_eq_some_iff.1 hc).1
      have : subsOf ⟨h.nodes.set g { c with out := { c.out with len := i } }, h.arrays⟩ g = (h.array c.out).take i := by
        unfold subsOf
        dsimp only
        rw [List.getElem?_set_self hgl]
        rfl
      rw [this, List.eraseIdx_eq_take_drop_succ, List.drop_of_length_le (by omega), List.append_nil, hsubs, List.take_take,
        Nat.min_eq_left (by omega)]

/-- `Upd` from a given memory on. -/
def At (G : Nat → Prop) (h : Heap) (m : HM α) : Prop :=
  Solid (m.run h).2 ∧ ∀ q, q < h.nodes.length → ¬ G q → subsOf (m.run h).2 q = subsOf h q

theorem roBind {h : Heap} (hs : Solid h) {m : HM α} {f : α → HM β} (hm : (m.run h).2 = h) (hf : ∀ a, At G h (f a)) : At G h (m >>= f) := by
  unfold At
  have hrun : (m >>= f).run h = (HM.bind m f).run h := rfl
  rw [hrun]
  unfold HM.bind
  dsimp only
  rcases hr : m.run h with ⟨r, h'⟩
  rw [hr] at hm
  dsimp only at hm
  subst hm
  cases r with
  | ok b => exact hf b
  | panic => exact ⟨hs, fun _ _ _ => rfl⟩
  | oof => exact ⟨hs, fun _ _ _ => rfl⟩

theorem bindAt {h : Heap} {m : HM α} {f : α → HM β} (hm : At G h m) (hf : ∀ a, Upd G (f a)) : At G h (m >>= f) := by
  obtain ⟨s1, v1⟩ := hm
  have hl := m.nodes_le h
  unfold At
  have hrun : ((m >>= f).run h).2 = ((HM.bind m f).run h).2 := rfl
  rw [hrun]
  unfold HM.bind
  dsimp only
  rcases hr : m.run h with ⟨r, h'⟩
  rw [hr] at s1 v1 hl
  cases r with
  | ok a =>
    obtain ⟨s2, v2⟩ := hf a h' s1
    exact ⟨s2, fun q hq hg => (v2 q (Nat.lt_of_lt_of_le hq hl) hg).trans (v1 q hq hg)⟩
  | panic => exact ⟨s1, v1⟩
  | oof => exact ⟨s1, v1⟩

theorem removeAt {h : Heap} {g : Nat} {c : HNode} {i : Nat} (hs : Solid h) (hc : h.nodes[g]? = some c) (hi : i < c.out.len) (hg : G g) :
    At G h (hRemove grow (some g) i) := by
  obtain ⟨h', hr, h1, _, _, h2⟩ := remove_run (grow := grow) hs hc hi
  unfold At
  rw [hr]
  exact ⟨h1, fun q hq hx => h2 q hq fun e => hx (e ▸ hg)⟩

theorem deleteLoop {g : Ptr} {n : HVal} (hg : ∀ a, g = some a → G a) : ∀ k i, Upd G (hDeleteLoop E grow g n k i)
  | 0, _ => pure
  | k + 1, i => by
    unfold hDeleteLoop
    refine load_bind fun h a c ha hc hs => ?_
    subst ha
    by_cases hi : i < c.out.len
    · simp only [hi, ↓reduceIte]
      refine roBind hs rfl fun p => roBind hs rfl fun x => roBind hs rfl fun b => ?_
      cases b with
      | true =>
        simp only [↓reduceIte]
        exact bindAt (removeAt hs hc hi (hg a rfl)) fun _ => deleteLoop hg k i
      | false =>
        simp only [Bool.false_eq_true, ↓reduceIte]
        exact deleteLoop hg k (i + 1) h hs
    · simp only [hi, ↓reduceIte]
      exact ⟨hs, fun _ _ _ => rfl⟩

theorem delete {g : Ptr} {n : HVal} (hg : ∀ a, g = some a → G a) : Upd G (hDelete E grow g n) := by
  unfold hDelete
  split
  · exact pure
  · exact bind load fun c => deleteLoop hg _ _

theorem deleteAt {g : Ptr} {i : Int} (hg : ∀ a, g = some a → G a) : Upd G (hDeleteAt grow g i) := by
  unfold hDeleteAt
  split
  · exact pure
  · refine load_bind fun h a c ha hc hs => ?_
    subst ha
    by_cases hi : i < 0 ∨ i ≥ c.out.len
    · simp only [hi, ↓reduceIte]
      exact ⟨hs, fun _ _ _ => rfl⟩
    · simp only [hi, ↓reduceIte]
      exact removeAt hs hc (by omega) (hg a rfl)

theorem makeAt {h : Heap} {g : Nat} {c : HNode} {ps : List Ptr} {n : Nat} (hs : Solid h) (hc : h.nodes[g]? = some c) (hg : G g) :
    At G h (HM.make ps n >>= HM.putOut (some g)) := by
  have hr : (HM.make ps n >>= HM.putOut (some g)).run h =
      (.ok (), ⟨h.nodes.set g { c with out := ⟨some h.arrays.length, ps.length⟩ }, h.arrays ++ [ps ++ List.replicate n none]⟩) := by
    show (HM.bind (HM.make ps n) (HM.putOut (some g))).run h = _
    unfold HM.bind HM.make HM.putOut HM.update
    simp only [hc]
  unfold At
  rw [hr]
  refine assign hs hc (by simp) (fun j hj _ => List.getElem?_append_left hj) (fun k hk => ?_) ?_ hg
  · cases hk
    exact ⟨by simp, .inr (Nat.le_refl _)⟩
  · unfold Heap.array
    simp

theorem putIndexAt {h : Heap} {g : Nat} {c : HNode} {i : Nat} {p : Ptr} (hs : Solid h) (hc : h.nodes[g]? = some c) (hg : G g) :
    At G h (HM.putIndex c.out i p) := by
  unfold At HM.putIndex
  dsimp only
  cases hk : c.out.arr with
  | none => exact ⟨hs, fun _ _ _ => rfl⟩
  | some k =>
    dsimp only
    by_cases hl : i < c.out.len
    · simp only [hl, ↓reduceIte]
      have hlen : ∀ s : Slice, (Heap.array ⟨h.nodes, h.arrays.modify k (·.set i p)⟩ s).length = (h.array s).length := by
        intro s
        unfold Heap.array
        cases s.arr with
        | none => rfl
        | some j =>
          dsimp only
          rw [List.getElem?_modify]
          by_cases hj : k = j
          · cases h.arrays[j]? <;> simp [hj]
          · cases h.arrays[j]? <;> simp [hj]
      refine ⟨⟨?_, ?_, hs.own⟩, ?_⟩
      · intro a d j hd hj
        rw [List.length_modify]
        exact hs.arr a d j hd hj
      · intro a d hd
        rw [hlen]
        exact hs.cap a d hd
      · intro q hq hgq
        unfold subsOf
        dsimp only
        cases hd : h.nodes[q]? with
        | none => rfl
        | some d =>
          dsimp only
          rw [array_congr (h := h)]
          intro j hj
          dsimp only
          rw [List.getElem?_modify]
          have : k ≠ j := by
            intro e
            subst e
            exact hgq (hs.own q g d c k hd hc hj hk ▸ hg)
          simp [this]
    · simp only [hl, ↓reduceIte]
      exact ⟨hs, fun _ _ _ => trivial⟩

theorem putIndex {g : Ptr} {i : Nat} {p : Ptr} {k : HM α} (hk : Upd G k) (hg : ∀ a, g = some a → G a) :
    Upd G (do let c ← HM.load g; HM.putIndex c.out i p; k) :=
  load_bind fun h a c ha hc hs => bindAt (putIndexAt hs hc (hg a ha)) fun _ => hk

theorem setIndex {g : Ptr} {i : Int} {v : HVal} (hg : ∀ a, g = some a → G a) : Upd G (hSetIndex g i v) := by
  unfold hSetIndex
  have hlast : Upd G (do
      let n ← hNew v
      if i < 0 then HM.panic
      else do
        let c ← HM.load g
        HM.putIndex c.out i.toNat n
        Pure.pure n) :=
    bind new fun n => ite panic (putIndex pure hg)
  refine load_bind fun h a c ha hc hs => ?_
  subst ha
  by_cases hi : (c.out.len : Int) ≤ i
  · simp only [hi, ↓reduceIte]
    by_cases hm : i ≥ 2 ^ 63 - 1
    · simp only [hm, ↓reduceIte]
      exact ⟨hs, fun _ _ _ => rfl⟩
    simp only [hm, ↓reduceIte]
    refine roBind hs rfl fun ps => ?_
    have := bindAt (makeAt (ps := ps ++ List.replicate (i.toNat + 1 - ps.length) none) (n := 0) hs hc (hg a rfl)) fun _ => hlast
    rw [hm_assoc] at this
    exact this
  · simp only [hi, ↓reduceIte]
    exact hlast h hs

theorem setNew {v : HVal} (hg : ∀ a, G a) : ∀ (ps : List HStep) (g : Ptr), Upd G (hSetNew grow v g ps)
  | [], _ => pure
  | .index _ :: _, _ => bind (setIndex fun a _ => hg a) fun _ => pure
  | .name _ :: ps, _ => bind (add fun a _ => hg a) fun n => setNew hg ps n

theorem setWalk {v : HVal} (hg : ∀ a, G a) : ∀ (ps : List HStep) (g : Ptr), Upd G (hSetWalk E grow fuel v g ps)
  | [], _ => pure
  | .index _ :: _, _ => bind (setIndex fun a _ => hg a) fun _ => pure
  | .name _ :: ps, g => by
    unfold hSetWalk
    refine bind node fun n => ?_
    split
    · exact setNew hg _ _
    · exact setWalk hg ps _

theorem set {g : Ptr} {ps : List HStep} {v : HVal} (hg : ∀ a, G a) : Upd G (hSet E grow fuel g ps v) := by
  unfold hSet
  split
  · exact pure
  · exact bind (setWalk hg ps _) fun r => ite pure (bind (putOutNil fun a _ => hg a) fun _ => addNodesVal fun a _ => hg a)

theorem substitute {s : Bytes} {v : HVal} : ∀ (f : Nat) (g : Ptr), Upd G (hSubstitute E fuel s v f g)
  | 0, _ => oof
  | f + 1, g => by
    unfold hSubstitute
    split
    · exact pure
    · exact bind load fun c => range (fun n => bind load fun x => bind (string _ _) fun t =>
        ite (bind putThis fun _ => substitute f n) (substitute f n)) _ _

theorem merge (hg : ∀ a, G a) : ∀ (f : Nat) (g src : Ptr), Upd G (hMerge E grow fuel f g src)
  | 0, _, _ => oof
  | f + 1, g, src => by
    unfold hMerge
    refine bind load fun x => range (fun nd => bind (string _ _) fun t => bind node fun n => ?_) _ _
    split
    · exact bind (add fun a _ => hg a) fun _ => pure
    · exact bind (putOutNil fun a _ => hg a) fun _ => merge hg f _ _

theorem copy (hg : ∀ a, G a) : ∀ (f : Nat) (g c : Ptr), Upd G (hCopy grow f g c)
  | 0, _, _ => oof
  | f + 1, g, c => by
    unfold hCopy
    split
    · exact pure
    · exact pure
    · exact bind load fun x => range (fun n => bind load fun y => bind (add fun a _ => hg a) fun nn => copy hg f nn n) _ _

theorem clone (hg : ∀ a, G a) : ∀ (f : Nat) (g : Ptr), Upd G (hClone grow f g)
  | 0, _ => oof
  | f + 1, g => by
    unfold hClone
    split
    · exact pure
    · refine bind alloc fun a => bind load fun x => bind putThis fun _ => bind (range (fun n => bind (clone hg f n) fun m => ?_) _ _) fun _ => pure
      have := appendTo' (grow := grow) (G := G) (p := some a) (ps := [m]) (k := Pure.pure ()) pure fun a _ => hg a
      have e : (do let c ← HM.load (some a); let s ← HM.append grow c.out [m]; HM.putOut (some a) s; Pure.pure () : HM Unit) =
          (do let c ← HM.load (some a); let s ← HM.append grow c.out [m]; HM.putOut (some a) s) := by
        congr
        funext c
        congr
        funext s
        apply hm_ext
        intro x
        show (HM.bind (HM.putOut (some a) s) fun _ => Pure.pure ()).run x = _
        unfold HM.bind
        dsimp only
        rcases (HM.putOut (some a) s).run x with ⟨r, y⟩
        cases r <;> rfl
      rw [e] at this
      exact this

/-- Every operation but slicing keeps memory solid. -/
theorem exec {regs : List Ptr} {op : HOp} (hop : op.NoSlicing) : Upd (fun _ => True) (op.exec E grow fuel regs) := by
  have T : ∀ a : Nat, (fun _ => True : Nat → Prop) a := fun _ => trivial
  have T' : ∀ {g : Ptr}, ∀ a : Nat, g = some a → (fun _ => True : Nat → Prop) a := fun _ _ => trivial
  cases op with
  | new v => exact new
  | add g v => exact add T'
  | addNodes g x => exact addNodes T'
  | copy g c => exact bind (copy T _ _ _) fun _ => pure
  | clone g => exact clone T _ _
  | node g s => exact node
  | nodeOrNew g s => exact nodeOrNew T'
  | nodeSet g s v => exact bind (nodeOrNew T') fun _ => bind (clear T') fun _ => add T'
  | create g s =>
    refine bind node fun n => ?_
    split
    · exact add T'
    · exact bind (clear T') fun _ => pure
  | getAt g i => exact getAt
  | delete g v => exact bind (delete T') fun _ => pure
  | clear g => exact bind (clear T') fun _ => pure
  | deleteAt g i => exact bind (deleteAt T') fun _ => pure
  | set g path v => exact set T
  | substitute g s v => exact bind (substitute _ _) fun _ => pure
  | merge g src => exact bind (merge T _ _ _) fun _ => pure
  | this g =>
    refine bind load fun c => ?_
    rcases c.this with v | p
    · exact pure
    · exact pure
  | putThis g v => exact bind putThis fun _ => pure
  | putOut g i p => exact putIndex pure T'
  | shareOut g x n => exact absurd hop id

end Upd
end Ogdl
