import Verif.Lemmas.JointProc
import Verif.Spec.ConcTemplate

/-!
# Contexts made for goroutines
-/

namespace Ogdl
open Spec

variable {grow : Nat → Nat → Nat}

theorem fillContext_run {ps : List Ptr} {a : Nat} : ∀ (js : List Nat) {h : Heap} {x : HVal} {qs : List Ptr}, Solid h → look h a = some (x, qs) →
    (∀ j ∈ js, ∃ b, ps[j]? = some (some b)) →
    ∃ h', (fillContext grow ps (some a) js).run h = (.ok (), h') ∧ Turns [a] h h' ∧ look h' a = some (x, qs ++ js.map fun j => ps.getD j none)
  | [], h, x, qs, hs, hl, _ => ⟨h, rfl, .refl hs, by simpa using hl⟩
  | j :: js, h, x, qs, hs, hl, hj => by
    obtain ⟨b, hb⟩ := hj j (List.mem_cons_self ..)
    have hb' : ps.getD j none = some b := by rw [List.getD_eq_getElem?_getD, hb]; rfl
    obtain ⟨h1, hr, hc⟩ := add_ptr (grow := grow) (b := b) hs hl
    obtain ⟨h2, hr2, t2, hl2⟩ := fillContext_run js hc.solid (qs := qs ++ [some b]) (x := x) (by rw [hc.look]; unfold upd; rw [if_pos rfl])
      fun k hk => hj k (List.mem_cons_of_mem _ hk)
    refine ⟨h2, ?_, hc.turns.trans t2 fun c hc => .inl hc, ?_⟩
    · unfold fillContext
      rw [hb', ok_bind' hr]
      exact hr2
    · rw [hl2, List.map_cons, hb', List.append_assoc]
      rfl

theorem makeContext_run {ps : List Ptr} (js : List Nat) {h : Heap} (hs : Solid h) (hj : ∀ j ∈ js, ∃ b, ps[j]? = some (some b)) :
    ∃ h', (makeContext grow ps js).run h = (.ok (some h.nodes.length), h') ∧ Turns [] h h' ∧ h.nodes.length < h'.nodes.length ∧
      look h' h.nodes.length = some (.val (.str b!"_"), js.map fun j => ps.getD j none) := by
  obtain ⟨h1, hr, t1, hl, hlen, _⟩ := alloc_turns hs (.val (.str b!"_"))
  obtain ⟨h2, hr2, t2, hl2⟩ := fillContext_run (grow := grow) (ps := ps) js t1.solid hl hj
  refine ⟨h2, ?_, ⟨t2.solid, Nat.le_trans t1.le t2.le, fun b hb _ => ?_⟩, by have := t2.le; omega, by simpa using hl2⟩
  · unfold makeContext hNew
    have hr' : (do let a ← HM.alloc (.val (.str b!"_")); pure (some a) : HM Ptr).run h = (.ok (some h.nodes.length), h1) := by rw [ok_bind' hr]; rfl
    rw [ok_bind' hr', ok_bind' hr2]
    rfl
  · have h3 := t2.keep b (by omega) (by simp; omega)
    have h4 := t1.keep b hb nofun
    exact ⟨h3.1.trans h4.1, h3.2.trans h4.2⟩

/-- The contexts are new, all different, and have the graphs as subnodes. -/
theorem makeContexts_run {ps : List Ptr} : ∀ (jss : List (List Nat)) {h : Heap}, Solid h → (∀ js ∈ jss, ∀ j ∈ js, ∃ b, ps[j]? = some (some b)) →
    ∃ (as : List Nat) (h' : Heap), (makeContexts grow ps jss).run h = (.ok (as.map some), h') ∧ Turns [] h h' ∧ as.length = jss.length ∧ as.Nodup ∧
      (∀ a ∈ as, h.nodes.length ≤ a ∧ a < h'.nodes.length) ∧
      ∀ (i a : Nat) (js : List Nat), as[i]? = some a → jss[i]? = some js → look h' a = some (.val (.str b!"_"), js.map fun j => ps.getD j none)
  | [], h, hs, _ => ⟨[], h, rfl, .refl hs, rfl, .nil, nofun, fun i a js hi => by simp at hi⟩
  | js :: jss, h, hs, hj => by
    obtain ⟨h1, hr1, t1, hlt, hl⟩ := makeContext_run (grow := grow) js hs (hj js (List.mem_cons_self ..))
    obtain ⟨as, h2, hr2, t2, hlen, hnd, hin, hlk⟩ := makeContexts_run jss t1.solid fun k hk => hj k (List.mem_cons_of_mem _ hk)
    refine ⟨h.nodes.length :: as, h2, ?_, t1.trans t2 nofun, by simp [hlen], ?_, ?_, ?_⟩
    · unfold makeContexts
      rw [ok_bind' hr1, ok_bind' hr2]
      rfl
    · refine List.nodup_cons.2 ⟨fun hm => ?_, hnd⟩
      have := hin _ hm
      omega
    · intro a ha
      rcases List.mem_cons.1 ha with rfl | ha
      · have := t2.le; omega
      · have := hin a ha; omega
    · intro i a ks hi hk
      cases i with
      | zero =>
        simp only [List.getElem?_cons_zero, Option.some.injEq] at hi hk
        subst hi hk
        rw [(t2.keep _ hlt nofun).2]
        exact hl
      | succ i => exact hlk i a ks (by simpa using hi) (by simpa using hk)

/-- Who owns what when the contexts are made: each goroutine its context, the rest is shared. -/
def madeWorld (as : List Nat) (h : Heap) : World := ⟨h, fun b => as.findIdx? (· == b)⟩

theorem made_own {as : List Nat} {h : Heap} (hnd : as.Nodup) {i a : Nat} (hi : as[i]? = some a) : (madeWorld as h).own a = some i := by
  unfold madeWorld
  dsimp only
  obtain ⟨hil, rfl⟩ := List.getElem?_eq_some_iff.1 hi
  rw [List.findIdx?_eq_some_iff_getElem]
  refine ⟨hil, by simp, fun j hj => ?_⟩
  have := (List.nodup_iff_pairwise_ne.1 hnd)
  have h2 := List.pairwise_iff_getElem.1 this j i (by omega) hil hj
  simpa using h2

theorem made_none {as : List Nat} {h : Heap} {b : Nat} (hb : b ∉ as) : (madeWorld as h).own b = none := by
  unfold madeWorld
  dsimp only
  rw [List.findIdx?_eq_none_iff]
  intro x hx
  simp only [beq_eq_false_iff_ne, ne_eq]
  rintro rfl
  exact hb hx

theorem holdsL_mem {h : Heap} : ∀ (gs : List Graph) {ps : List Ptr} {F : List Nat}, HoldsL h gs ps F → ∀ {j b : Nat}, ps[j]? = some (some b) → b ∈ F
  | [], ps, F, hl, j, b, hj => by
    unfold HoldsL at hl
    rw [hl.1] at hj
    simp at hj
  | g :: gs, ps, F, hl, j, b, hj => by
    unfold HoldsL at hl
    obtain ⟨p, ps', F1, F2, rfl, rfl, _, h1, h2⟩ := hl
    cases j with
    | zero =>
      simp only [List.getElem?_cons_zero, Option.some.injEq] at hj
      subst hj
      cases g with
      | nil => unfold Holds at h1; cases h1.1
      | node v o =>
        obtain ⟨a, x, ps, F', e, rfl, _⟩ := h1.parts
        cases e
        simp
    | succ j => exact List.mem_append_right _ (holdsL_mem gs h2 (by simpa using hj))

/-- Different graphs of the client are at different addresses. -/
theorem holdsL_apart {h : Heap} : ∀ (gs : List Graph) {ps : List Ptr} {F : List Nat}, HoldsL h gs ps F → ∀ {i j b : Nat}, i < j → ps[i]? = some (some b) → ps[j]? = some (some b) → False
  | [], ps, F, hl, i, j, b, _, hi, _ => by
    unfold HoldsL at hl
    rw [hl.1] at hi
    simp at hi
  | g :: gs, ps, F, hl, i, j, b, hij, hi, hj => by
    have hl' := hl
    unfold HoldsL at hl
    obtain ⟨p, ps', F1, F2, rfl, rfl, hd, h1, h2⟩ := hl
    cases j with
    | zero => omega
    | succ j =>
      have hj' : ps'[j]? = some (some b) := by simpa using hj
      cases i with
      | zero =>
        have h1' : HoldsL h [g] [p] F1 := by
          unfold HoldsL
          exact ⟨p, [], F1, [], rfl, by simp, by simp, h1, by unfold HoldsL; exact ⟨rfl, rfl⟩⟩
        exact hd b (holdsL_mem [g] h1' (j := 0) (by simpa using hi)) (holdsL_mem gs h2 hj')
      | succ i => exact holdsL_apart gs h2 (Nat.lt_of_succ_lt_succ hij) (by simpa using hi) hj'

/-- The pointers of the graphs of a client that are not nil. -/
theorem holdsL_some {h : Heap} {gs : List Graph} {ps : List Ptr} {F : List Nat} (hl : HoldsL h gs ps F) {j : Nat} (hj : j < gs.length) (hn : gs.getD j .nil ≠ .nil) :
    ∃ b, ps[j]? = some (some b) := by
  have hg : gs[j]? = some (gs.getD j .nil) := by rw [List.getD_eq_getElem?_getD, List.getElem?_eq_getElem hj]; rfl
  obtain ⟨p, Fg, hp, hh, _, _⟩ := hl.focus hg
  cases e : gs.getD j .nil with
  | nil => exact absurd e hn
  | node v o =>
    rw [e] at hh
    obtain ⟨a, x, ps, F', rfl, _⟩ := hh.parts
    exact ⟨a, hp⟩

/-- A context of some of the client's graphs. -/
theorem made_on {h h' : Heap} {gs : List Graph} {ps : List Ptr} {F : List Nat} (hl : HoldsL h gs ps F) (t : Turns [] h h') {as : List Nat} (hnd : as.Nodup)
    (hin : ∀ a ∈ as, h.nodes.length ≤ a ∧ a < h'.nodes.length) {i a : Nat} (hi : as[i]? = some a) {js : List Nat} (hjn : js.Nodup)
    (hj : ∀ j ∈ js, j < gs.length ∧ gs.getD j .nil ≠ .nil ∧ Whole (gs.getD j .nil))
    (hlk : look h' a = some (.val (.str b!"_"), js.map fun j => ps.getD j none)) :
    ∃ zs, On i a [a] (madeWorld as h') (.str b!"_") zs ∧ treeOf (.str b!"_") zs = contextTree gs js := by
  have ham : a ∈ as := List.mem_of_getElem? hi
  have hown := made_own (h := h') hnd hi
  have hz : (madeWorld as h').sees i a := fun _ => .inl hown
  refine ⟨js.map fun j => (gs.getD j .nil, ps.getD j none), ⟨⟨t.solid, ⟨_, ?_, .plain (by intro g e; cases e)⟩, ?_, ?_, by simp, ?_, ?_, fresh_sees⟩, ?_⟩, ?_⟩
  · rw [List.map_map]
    exact hlk
  · intro z hzm
    obtain ⟨j, hjm, rfl⟩ := List.mem_map.1 hzm
    obtain ⟨hlt, hne, hw⟩ := hj j hjm
    refine ⟨hne, ?_⟩
    have hg : gs[j]? = some (gs.getD j .nil) := by rw [List.getD_eq_getElem?_getD, List.getElem?_eq_getElem hlt]; rfl
    obtain ⟨p, Fg, hp, hh, _, _⟩ := hl.focus hg
    have hp' : ps.getD j none = p := by rw [List.getD_eq_getElem?_getD, hp]; rfl
    dsimp only
    rw [hp']
    have hh' := hh.turns t nofun
    refine Spec.Shows.loose (P := Stay _ [a]) (fun b hb => by simpa [Stay, Under] using hb) (holds_shows _ hh' hw fun b hb => ?_)
    have hb := Spec.Holds.lt _ hh b hb
    have hba : b ∉ as := fun hm => by have := (hin b hm).1; omega
    exact ⟨fun hm => by simp only [List.mem_singleton] at hm; exact hba (hm ▸ ham), fun _ => .inr (made_none hba)⟩
  · rw [List.map_map]
    refine List.pairwise_map.2 ?_
    refine hjn.imp_of_mem fun {j k} hjm hkm hne e => ?_
    obtain ⟨b, hb⟩ := holdsL_some hl (hj j hjm).1 (hj j hjm).2.1
    obtain ⟨c, hc⟩ := holdsL_some hl (hj k hkm).1 (hj k hkm).2.1
    simp only [Function.comp, List.getD_eq_getElem?_getD, hb, hc, Option.getD_some] at e
    cases e
    rcases Nat.lt_or_gt_of_ne hne with h | h
    · exact holdsL_apart gs hl h hb hc
    · exact holdsL_apart gs hl h hc hb
  · intro b hb; simp only [List.mem_singleton] at hb; subst hb; exact (hin b ham).2
  · intro b hb; simp only [List.mem_singleton] at hb; subst hb; exact hz
  · intro b hb; simp only [List.mem_singleton] at hb; subst hb; exact hown
  · unfold treeOf contextTree
    rw [List.map_map]
    rfl

end Ogdl
