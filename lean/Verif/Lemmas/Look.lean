import Verif.Spec.Refine
import Verif.Lemmas.Unshared

/-!
# The methods of graph.go in terms of contents and lists of subnodes
-/

namespace Ogdl
open Spec HM

variable {E : Ext} {grow : Nat → Nat → Nat} {fuel : Nat}

/-- A computation that keeps the contents, makes no nodes and leaves all nodes but `g`. -/
def Keeps (g : Ptr) (m : HM α) : Prop :=
  ∀ h, (m.run h).2.nodes.map (·.this) = h.nodes.map (·.this) ∧ ∀ q, some q ≠ g → (m.run h).2.nodes[q]? = h.nodes[q]?

namespace Keeps

variable {g : Ptr}

theorem sameNodes {m : HM α} (hm : ∀ h, (m.run h).2.nodes = h.nodes) : Keeps g m := fun h => by rw [hm h]; exact ⟨rfl, fun _ _ => rfl⟩

theorem bind {m : HM α} {f : α → HM β} (hm : Keeps g m) (hf : ∀ a, Keeps g (f a)) : Keeps g (m >>= f) := by
  intro h
  have h1 := hm h
  have hrun : ((m >>= f).run h).2 = ((HM.bind m f).run h).2 := rfl
  rw [hrun]
  unfold HM.bind
  dsimp only
  rcases hr : m.run h with ⟨r, h'⟩
  rw [hr] at h1
  cases r with
  | ok a => exact ⟨(hf a h').1.trans h1.1, fun q hq => ((hf a h').2 q hq).trans (h1.2 q hq)⟩
  | panic => exact h1
  | oof => exact h1

theorem append {s : Slice} {ps : List Ptr} : Keeps g (HM.append grow s ps) := by
  refine sameNodes fun h => ?_
  simp only [HM.append]
  split
  · rfl
  · split
    · split <;> rfl
    · rfl

theorem putOut {s : Slice} : Keeps g (HM.putOut g s) := by
  intro h
  unfold HM.putOut HM.update
  dsimp only
  split
  · exact ⟨rfl, fun _ _ => rfl⟩
  · split
    · exact ⟨rfl, fun _ _ => rfl⟩
    · next a _ c hc =>
      dsimp only
      obtain ⟨hl, hx⟩ := List.getElem?_eq_some_iff.1 hc
      refine ⟨?_, fun q hq => List.getElem?_set_ne fun e => hq (congrArg some e.symm)⟩
      rw [List.map_set]
      dsimp only
      rw [← hx]
      rw [show h.nodes[a].this = (h.nodes.map (·.this))[a]'(by simpa using hl) by simp]
      exact List.set_getElem_self _

theorem make {ps : List Ptr} {n : Nat} : Keeps g (HM.make ps n) := sameNodes fun _ => rfl

theorem putIndex {s : Slice} {i : Nat} {p : Ptr} : Keeps g (HM.putIndex s i p) := by
  refine sameNodes fun h => ?_
  unfold HM.putIndex
  dsimp only
  split
  · rfl
  · split <;> rfl

theorem remove {i : Nat} : Keeps g (hRemove grow g i) := by
  unfold hRemove
  refine bind (sameNodes fun _ => rfl) fun c => ?_
  split
  · exact bind (sameNodes fun _ => rfl) fun _ => bind append fun _ => putOut
  · exact putOut

end Keeps

theorem look_eq (h : Heap) (a : Nat) : look h a = (h.nodes[a]?).map fun c => (c.this, subsOf h a) := by
  unfold look subsOf
  cases h.nodes[a]? <;> rfl

theorem look_node {h : Heap} {a : Nat} {x : HVal} {ps : List Ptr} (hl : look h a = some (x, ps)) :
    ∃ c, h.nodes[a]? = some c ∧ c.this = x ∧ (h.array c.out).take c.out.len = ps := by
  unfold look at hl
  cases hc : h.nodes[a]? with
  | none => rw [hc] at hl; cases hl
  | some c =>
    rw [hc] at hl
    simp only [Option.map_some, Option.some.injEq, Prod.mk.injEq] at hl
    exact ⟨c, rfl, hl.1, hl.2⟩

theorem look_lt {h : Heap} {a : Nat} {y : HVal × List Ptr} (hl : look h a = some y) : a < h.nodes.length := by
  obtain ⟨c, hc, _⟩ := look_node (x := y.1) (ps := y.2) hl
  exact (List.getElem?_eq_some_iff.1 hc).1

theorem look_none {h : Heap} {a : Nat} (ha : h.nodes.length ≤ a) : look h a = none := by
  unfold look
  rw [List.getElem?_eq_none ha]
  rfl

/-- Memory at one address replaced. -/
def upd (h : Heap) (a : Nat) (y : HVal × List Ptr) : Nat → Option (HVal × List Ptr) :=
  fun b => if b = a then some y else look h b

/-- From what is known of contents and subnodes separately. -/
theorem look_upd {h h' : Heap} {g : Nat} {x : HVal} {ps qs : List Ptr} (hg : look h g = some (x, ps))
    (hthis : h'.nodes.map (·.this) = h.nodes.map (·.this)) (hsub : subsOf h' g = qs)
    (hother : ∀ q, q < h.nodes.length → q ≠ g → subsOf h' q = subsOf h q) : look h' = upd h g (x, qs) := by
  funext b
  have hlen : h'.nodes.length = h.nodes.length := by simpa using congrArg List.length hthis
  have ht : (h'.nodes[b]?).map (·.this) = (h.nodes[b]?).map (·.this) := by
    rw [← List.getElem?_map, hthis, List.getElem?_map]
  obtain ⟨c, hc, hx, _⟩ := look_node hg
  unfold upd
  by_cases hb : b = g
  · subst hb
    simp only [↓reduceIte]
    rw [look_eq, hsub]
    rw [hc] at ht
    cases hd : h'.nodes[b]? with
    | none => rw [hd] at ht; cases ht
    | some d =>
      rw [hd] at ht
      simp only [Option.map_some, Option.some.injEq] at ht
      simp only [Option.map_some, Option.some.injEq, Prod.mk.injEq, and_true]
      rw [ht, hx]
  · simp only [hb, ↓reduceIte]
    rw [look_eq, look_eq]
    rcases Nat.lt_or_ge b h.nodes.length with hl | hl
    · rw [hother b hl hb]
      cases hd : h'.nodes[b]? <;> cases he : h.nodes[b]? <;> rw [hd, he] at ht <;> simp at ht ⊢
      exact ht
    · rw [List.getElem?_eq_none hl, List.getElem?_eq_none (hlen ▸ hl)]
      rfl

theorem load_look {h : Heap} (hs : Solid h) {a : Nat} {x : HVal} {ps : List Ptr} (hl : look h a = some (x, ps)) :
    ∃ c, h.nodes[a]? = some c ∧ (HM.load (some a)).run h = (.ok c, h) ∧ c.this = x ∧ c.out.len = ps.length ∧
      (h.array c.out).take c.out.len = ps := by
  obtain ⟨c, hc, hx, hp⟩ := look_node hl
  refine ⟨c, hc, load_some hc, hx, ?_, hp⟩
  rw [← hp, List.length_take, Nat.min_eq_left (hs.cap a c hc)]

theorem subs_of_look {h : Heap} {a : Nat} {x : HVal} {ps : List Ptr} (hl : look h a = some (x, ps)) : subsOf h a = ps := by
  obtain ⟨c, hc, _, hp⟩ := look_node hl
  unfold subsOf
  rw [hc]
  exact hp

theorem alloc_look {h : Heap} (hs : Solid h) (v : HVal) :
    ∃ h', (HM.alloc v).run h = (.ok h.nodes.length, h') ∧ Solid h' ∧ h'.nodes.length = h.nodes.length + 1 ∧
      look h' = upd h h.nodes.length (v, []) ∧ ∀ q, q < h.nodes.length → h'.nodes[q]? = h.nodes[q]? := by
  refine ⟨{ h with nodes := h.nodes ++ [⟨v, {}⟩] }, rfl, (Upd.alloc (G := fun _ => False) (v := v) h hs).1, by simp, ?_,
    fun q hq => List.getElem?_append_left hq⟩
  funext b
  unfold upd
  by_cases hb : b = h.nodes.length
  · subst hb
    simp only [↓reduceIte]
    unfold look
    simp
  · simp only [hb, ↓reduceIte]
    unfold look
    dsimp only
    rcases Nat.lt_or_ge b h.nodes.length with hl | hl
    · rw [List.getElem?_append_left hl]
      rfl
    · rw [List.getElem?_eq_none (by simp; omega), List.getElem?_eq_none hl]
      rfl

/-- Memory changed at one address. -/
structure Chg (h h' : Heap) (g : Nat) (y : HVal × List Ptr) : Prop where
  solid : Solid h'
  len : h'.nodes.length = h.nodes.length
  look : look h' = upd h g y
  keep : ∀ q, q ≠ g → h'.nodes[q]? = h.nodes[q]?

theorem chg_of {m : HM α} {h h' : Heap} {g : Nat} {x : HVal} {ps qs : List Ptr} {r : Res α} (hk : Keeps (some g) m) (hr : m.run h = (r, h'))
    (hs : Solid h') (hl : look h g = some (x, ps)) (hsub : subsOf h' g = qs)
    (hother : ∀ q, q < h.nodes.length → q ≠ g → subsOf h' q = subsOf h q) : Chg h h' g (x, qs) := by
  have := hk h
  rw [hr] at this
  exact ⟨hs, by simpa using congrArg List.length this.1, look_upd hl this.1 hsub hother, fun q hq => this.2 q fun e => hq (Option.some.inj e)⟩

/-- `append` to the subnodes cut to `n` of them. -/
theorem append_look {h : Heap} (hs : Solid h) {g : Nat} {x : HVal} {ps : List Ptr} (hl : look h g = some (x, ps)) {c : HNode}
    (hc : h.nodes[g]? = some c) (n : Nat) (hn : n ≤ ps.length) (qs : List Ptr) :
    ∃ h', (HM.append grow { c.out with len := n } qs >>= HM.putOut (some g)).run h = (.ok (), h') ∧ Chg h h' g (x, ps.take n ++ qs) := by
  obtain ⟨c', hc', _, _, hlen, _⟩ := load_look hs hl
  rw [hc] at hc'
  cases hc'
  obtain ⟨h', hr, h1, h2, h3, h4⟩ := appendOut_run (grow := grow) (n := n) (ps := qs) hs hc (by omega)
  exact ⟨h', hr, chg_of (.bind .append fun _ => .putOut) hr h1 hl (by rw [h2, subs_of_look hl]) h4⟩

theorem putThis_look {h : Heap} (hs : Solid h) {g : Nat} {x : HVal} {ps : List Ptr} (hl : look h g = some (x, ps)) (v : HVal) :
    ∃ h', (HM.putThis (some g) v).run h = (.ok (), h') ∧ Chg h h' g (v, ps) := by
  obtain ⟨c, hc, hx, hp⟩ := look_node hl
  have hgl := look_lt hl
  have hr : (HM.putThis (some g) v).run h = (.ok (), { h with nodes := h.nodes.set g { c with this := v } }) := by
    unfold HM.putThis HM.update
    simp only [hc]
  have hsol := (Upd.putThis (G := fun _ => False) (p := some g) (v := v) h hs).1
  rw [hr] at hsol
  refine ⟨_, hr, hsol, by simp, ?_, fun q hq => List.getElem?_set_ne (Ne.symm hq)⟩
  funext b
  unfold upd look
  dsimp only
  by_cases hb : b = g
  · subst hb
    simp only [↓reduceIte]
    rw [List.getElem?_set_self hgl]
    simp only [Option.map_some, Option.some.injEq, Prod.mk.injEq, true_and]
    exact hp
  · simp only [hb, ↓reduceIte]
    rw [List.getElem?_set_ne (Ne.symm hb)]
    rfl

theorem clear_look {h : Heap} (hs : Solid h) {g : Nat} {x : HVal} {ps : List Ptr} (hl : look h g = some (x, ps)) :
    ∃ h', (HM.putOut (some g) {}).run h = (.ok (), h') ∧ Chg h h' g (x, []) := by
  obtain ⟨c, hc, hx, hp⟩ := look_node hl
  have hr : (HM.putOut (some g) {}).run h = (.ok (), { h with nodes := h.nodes.set g { c with out := {} } }) := by
    unfold HM.putOut HM.update
    simp only [hc]
  have hu := Upd.putOutNil (G := (· = g)) (p := some g) (fun _ e => by cases e; rfl) h hs
  rw [hr] at hu
  refine ⟨_, hr, chg_of .putOut hr hu.1 hl ?_ fun q hq hne => hu.2 q hq hne⟩
  unfold subsOf
  dsimp only
  rw [List.getElem?_set_self (look_lt hl)]
  rfl

theorem remove_look {h : Heap} (hs : Solid h) {g : Nat} {x : HVal} {ps : List Ptr} (hl : look h g = some (x, ps)) {i : Nat} (hi : i < ps.length) :
    ∃ h', (hRemove grow (some g) i).run h = (.ok (), h') ∧ Chg h h' g (x, ps.eraseIdx i) := by
  obtain ⟨c, hc, _, _, hlen, _⟩ := load_look hs hl
  obtain ⟨h', hr, h1, h2, h3, h4⟩ := Upd.remove_run (grow := grow) hs hc (i := i) (by omega)
  exact ⟨h', hr, chg_of .remove hr h1 hl (by rw [h2, subs_of_look hl]) h4⟩

theorem make_look {h : Heap} (hs : Solid h) {g : Nat} {x : HVal} {ps : List Ptr} (hl : look h g = some (x, ps)) (qs : List Ptr) :
    ∃ h', (HM.make qs 0 >>= HM.putOut (some g)).run h = (.ok (), h') ∧ Chg h h' g (x, qs) := by
  obtain ⟨c, hc, _, _, hlen, _⟩ := load_look hs hl
  have hr : (HM.make qs 0 >>= HM.putOut (some g)).run h =
      (.ok (), ⟨h.nodes.set g { c with out := ⟨some h.arrays.length, qs.length⟩ }, h.arrays ++ [qs ++ List.replicate 0 none]⟩) := by
    show (HM.bind (HM.make qs 0) (HM.putOut (some g))).run h = _
    unfold HM.bind HM.make HM.putOut HM.update
    simp only [hc]
  have hu := Upd.makeAt (G := (· = g)) (ps := qs) (n := 0) hs hc rfl
  unfold Upd.At at hu
  rw [hr] at hu
  refine ⟨_, hr, chg_of (.bind .make fun _ => .putOut) hr hu.1 hl ?_ fun q hq hne => hu.2 q hq hne⟩
  unfold subsOf
  dsimp only
  rw [List.getElem?_set_self (look_lt hl)]
  simp [Heap.array]

theorem putIndex_look {h : Heap} (hs : Solid h) {g : Nat} {x : HVal} {ps : List Ptr} (hl : look h g = some (x, ps)) {c : HNode}
    (hc : h.nodes[g]? = some c) {i : Nat} (hi : i < ps.length) (p : Ptr) :
    ∃ h', (HM.putIndex c.out i p).run h = (.ok (), h') ∧ Chg h h' g (x, ps.set i p) := by
  obtain ⟨c', hc', _, _, hlen, hp⟩ := load_look hs hl
  rw [hc] at hc'
  cases hc'
  have hcap := hs.cap g c hc
  cases hk : c.out.arr with
  | none =>
    unfold Heap.array at hp
    rw [hk, List.take_nil] at hp
    subst hp
    cases hi
  | some k =>
    have hkl := hs.arr g c k hc hk
    have hr : (HM.putIndex c.out i p).run h = (.ok (), { h with arrays := h.arrays.modify k (·.set i p) }) := by
      unfold HM.putIndex
      simp only [hk, show i < c.out.len by omega, ↓reduceIte]
    have hu := Upd.putIndexAt (G := (· = g)) (i := i) (p := p) hs hc rfl
    unfold Upd.At at hu
    rw [hr] at hu
    refine ⟨_, hr, chg_of .putIndex hr hu.1 hl ?_ fun q hq hne => hu.2 q hq hne⟩
    unfold subsOf
    dsimp only
    rw [hc]
    dsimp only
    rw [← hp]
    unfold Heap.array
    rw [hk]
    dsimp only
    rw [List.getElem?_modify, List.getElem?_eq_getElem hkl]
    simp only [↓reduceIte, Option.map_eq_map, Option.map_some, Option.getD_some]
    rw [List.take_set]

theorem index_look {h : Heap} (hs : Solid h) {a : Nat} {c : HNode} {x : HVal} {ps : List Ptr} (hl : look h a = some (x, ps)) (hc : h.nodes[a]? = some c)
    {i : Nat} {p : Ptr} (hi : ps[i]? = some p) : (HM.index c.out i).run h = (.ok p, h) := by
  obtain ⟨c', hc', _, _, hlen, hp⟩ := load_look hs hl
  rw [hc] at hc'
  cases hc'
  obtain ⟨hil, hip⟩ := List.getElem?_eq_some_iff.1 hi
  unfold HM.index HM.read
  have h1 : i < c.out.len := by omega
  simp only [h1, ↓reduceIte]
  have : (h.array c.out)[i]? = some p := by
    rw [← hi, ← hp, List.getElem?_take]
    simp [h1]
  simp only [this]

end Ogdl
