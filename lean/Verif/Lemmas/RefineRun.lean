import Verif.Lemmas.RefineLast
import Verif.Props.Graph
import Verif.Lemmas.EvalTotal
import Verif.Lemmas.TemplateRun

/-!
# Histories of a client that works with trees
-/

namespace Ogdl
open Spec HM

variable {E : Ext} {grow : Nat → Nat → Nat} {fuel : Nat}

theorem holds_nil {h : Heap} : Holds h .nil none [] := by unfold Holds; exact ⟨rfl, rfl⟩

theorem held_of {ps : List Ptr} {i : Nat} {p : Ptr} (h : ps[i]? = some p) : held ps i = p := by unfold held; rw [h]; rfl

/-- One of the graphs of the client. -/
theorem Spec.HoldsL.reg {h : Heap} {gs : List Graph} {ps : List Ptr} {F : List Nat} (hl : HoldsL h gs ps F) (i : Nat) :
    ∃ Fg, Holds h (gs.getD i .nil) (held ps i) Fg ∧ (∀ a ∈ Fg, a ∈ F) ∧
      ∀ (h' : Heap) (X Y : List Nat) (g' : Graph) (Fg' : List Nat), Turns X h h' → (∀ a ∈ X, a ∈ Fg ∨ a ∈ Y) → (∀ a ∈ Y, a ∉ F) → Holds h' g' (held ps i) Fg' →
        Within h (Fg ++ Y) Fg' → ∃ F', HoldsL h' (gs.set i g') ps F' ∧ Within h (F ++ Y) F' := by
  by_cases hi : i < gs.length
  · obtain ⟨p, Fg, hp, hg, hF, hr⟩ := hl.focus (List.getElem?_eq_getElem hi)
    rw [held_of hp, List.getD_eq_getElem?_getD, List.getElem?_eq_getElem hi]
    exact ⟨Fg, hg, hF, hr⟩
  · have hlen := hl.length
    have h1 : gs.getD i .nil = .nil := by rw [List.getD_eq_getElem?_getD, List.getElem?_eq_none (by omega)]; rfl
    have h2 : held ps i = none := by unfold held; rw [List.getElem?_eq_none (by omega)]; rfl
    rw [h1, h2]
    refine ⟨[], holds_nil, nofun, fun h' X Y g' Fg' t hX hY _ _ => ⟨F, ?_, fun a ha => .inl (List.mem_append_left _ ha)⟩⟩
    rw [List.set_eq_of_length_le (by omega)]
    exact hl.turns t fun a ha hx => by
      rcases hX a hx with hx | hx
      · cases hx
      · exact hY a hx ha

/-- A graph taken out. -/
theorem Spec.HoldsL.out {h : Heap} {gs : List Graph} {ps : List Ptr} {F : List Nat} (hl : HoldsL h gs ps F) (j : Nat) :
    ∃ Fj F0, Holds h (gs.getD j .nil) (held ps j) Fj ∧ HoldsL h (gs.set j .nil) (ps.set j none) F0 ∧ (∀ a ∈ Fj, a ∉ F0) ∧ ∀ a, a ∈ Fj ∨ a ∈ F0 → a ∈ F := by
  by_cases hj : j < gs.length
  · obtain ⟨q, ps1, ps2, F1, Fg, F2, rfl, hlen, rfl, h1, hq, h2, hd1, hd2⟩ := hl.split (List.getElem?_eq_getElem hj)
    refine ⟨Fg, F1 ++ ([] ++ F2), ?_, ?_, ?_, fun a ha => by simp only [List.nil_append, List.mem_append] at ha ⊢; rcases ha with ha | ha | ha <;> simp [ha]⟩
    · rw [held_of (p := q) (by rw [← hlen]; simp), List.getD_eq_getElem?_getD, List.getElem?_eq_getElem hj]
      exact hq
    · rw [List.set_eq_take_append_cons_drop, if_pos hj]
      have : (ps1 ++ q :: ps2).set j none = ps1 ++ none :: ps2 := by
        rw [← hlen, List.set_append_right _ _ (Nat.le_refl _)]
        simp
      rw [this]
      exact Spec.HoldsL.append h1 (Spec.HoldsL.cons holds_nil h2 nofun) fun a ha => by simpa using (hd1 a ha).2
    · intro a ha hx
      simp only [List.nil_append, List.mem_append] at hx
      rcases hx with hx | hx
      · exact (hd1 a hx).1 ha
      · exact hd2 a ha hx
  · have hlen := hl.length
    have h1 : gs.getD j .nil = .nil := by rw [List.getD_eq_getElem?_getD, List.getElem?_eq_none (by omega)]; rfl
    have h2 : held ps j = none := by unfold held; rw [List.getElem?_eq_none (by omega)]; rfl
    rw [h1, h2, List.set_eq_of_length_le (by omega), List.set_eq_of_length_le (by omega)]
    exact ⟨[], F, holds_nil, hl, nofun, fun a ha => by rcases ha with ha | ha; cases ha; exact ha⟩

/-- A graph put back. -/
theorem Spec.HoldsL.put {h : Heap} {gs : List Graph} {ps : List Ptr} {F X : List Nat} {g : Graph} {p : Ptr} (hl : HoldsL h gs ps F) (j : Nat) (hg : Holds h g p X)
    (hd : ∀ a ∈ F, a ∉ X) : ∃ F', HoldsL h (gs.set j g) (ps.set j p) F' ∧ ∀ a ∈ F', a ∈ F ++ X := by
  by_cases hj : j < gs.length
  · exact hl.swap hj hg hd
  · have hlen := hl.length
    rw [List.set_eq_of_length_le (by omega), List.set_eq_of_length_le (by omega)]
    exact ⟨F, hl, fun a ha => List.mem_append_left _ ha⟩

theorem held_set_ne {ps : List Ptr} {i j : Nat} (h : i ≠ j) (p : Ptr) : held (ps.set j p) i = held ps i := by
  unfold held
  rw [List.getElem?_set_ne (Ne.symm h)]

theorem getD_set_ne {gs : List Graph} {i j : Nat} (h : i ≠ j) (g : Graph) : (gs.set j g).getD i .nil = gs.getD i .nil := by
  rw [List.getD_eq_getElem?_getD, List.getElem?_set_ne (Ne.symm h), List.getD_eq_getElem?_getD]

theorem set_held (ps : List Ptr) (j : Nat) (p : Ptr) : (ps.set j p).set j (held ps j) = ps := by
  rw [List.set_set]
  by_cases hj : j < ps.length
  · rw [held_of (List.getElem?_eq_getElem hj), List.set_getElem_self]
  · rw [List.set_eq_of_length_le (by omega)]

theorem set_back (gs : List Graph) {i j : Nat} (h : i ≠ j) (g g' : Graph) : (((gs.set j g).set i g').set j (gs.getD j .nil)) = gs.set i g' := by
  rw [List.set_comm _ _ (Ne.symm h), List.set_set, List.set_comm _ _ h]
  congr 1
  by_cases hj : j < gs.length
  · rw [List.getD_eq_getElem?_getD, List.getElem?_eq_getElem hj]
    exact List.set_getElem_self ..
  · rw [List.set_eq_of_length_le (by omega)]

/-- What the client's graphs are after an operation. -/
def Good (ps : List Ptr) (gs : List Graph) (h : Heap) : Prop := Solid h ∧ ∃ F, HoldsL h gs ps F

/-- The same, with what was written and where the graphs are. -/
def Goes (h : Heap) (F : List Nat) (ps : List Ptr) (gs : List Graph) (h' : Heap) : Prop := Turns F h h' ∧ ∃ F', HoldsL h' gs ps F' ∧ Within h F F'

theorem Goes.good {h : Heap} {F : List Nat} {ps : List Ptr} {gs : List Graph} {h' : Heap} (hg : Goes h F ps gs h') : Good ps gs h' := ⟨hg.1.solid, _, hg.2.choose_spec.1⟩

/-- An operation on one graph. -/
theorem one_reg {h : Heap} {gs : List Graph} {ps : List Ptr} {F : List Nat} (hl : HoldsL h gs ps F) (i : Nat) {m : HM α} {r : Res β} {φ : β → Graph}
    (hm : ∀ Fg, Holds h (gs.getD i .nil) (held ps i) Fg → Gives m h r fun _ b h' => Done h Fg (held ps i) (φ b) h') :
    Gives (m >>= fun _ => (Pure.pure ps : HM (List Ptr))) h (r >>= fun b => .ok (gs.set i (φ b))) fun ps' gs' h' => Goes h F ps' gs' h' := by
  obtain ⟨Fg, hg, hF, hr⟩ := hl.reg i
  refine .bind (hm Fg hg) ?_
  rintro a b h' ⟨t, F', hh, hw⟩
  obtain ⟨F1, h1, hw1⟩ := hr h' Fg [] (φ b) F' t (fun a ha => .inl ha) nofun hh (by rw [List.append_nil]; exact hw)
  exact .pure ⟨t.mono hF, F1, h1, by rw [List.append_nil] at hw1; exact hw1⟩

/-- An operation on one graph that uses up another one. -/
theorem two_regs {h : Heap} {gs : List Graph} {ps : List Ptr} {F : List Nat} (hl : HoldsL h gs ps F) {i j : Nat} (hij : i ≠ j) {m : HM α} {r : Res β} {φ : β → Graph}
    (hm : ∀ Fg Fj, Holds h (gs.getD i .nil) (held ps i) Fg → Holds h (gs.getD j .nil) (held ps j) Fj → (∀ a ∈ Fg, a ∉ Fj) →
      Gives m h r fun _ b h' => Done h (Fg ++ Fj) (held ps i) (φ b) h') :
    Gives (m >>= fun _ => (Pure.pure (ps.set j none) : HM (List Ptr))) h (r >>= fun b => .ok ((gs.set j .nil).set i (φ b))) fun ps' gs' h' => Goes h F ps' gs' h' := by
  obtain ⟨Fj, F0, hj, h0, hd, hsub⟩ := hl.out j
  obtain ⟨Fg, hg, hF, hr⟩ := h0.reg i
  rw [held_set_ne hij, getD_set_ne hij] at hg
  rw [held_set_ne hij] at hr
  refine .bind (hm Fg Fj hg hj fun a ha hx => hd a hx (hF a ha)) ?_
  rintro a b h' ⟨t, F', hh, hw⟩
  obtain ⟨F1, h1, hw1⟩ := hr h' (Fg ++ Fj) Fj (φ b) F' t (fun a ha => List.mem_append.1 ha) hd hh hw
  refine .pure ⟨t.mono fun a ha => ?_, F1, h1, fun a ha => (hw1 a ha).imp_left fun hx => ?_⟩
  · rcases List.mem_append.1 ha with hx | hx
    · exact hsub a (.inr (hF a hx))
    · exact hsub a (.inl hx)
  · rcases List.mem_append.1 hx with hx | hx
    · exact hsub a (.inr hx)
    · exact hsub a (.inl hx)

theorem done_of_sub {h h' : Heap} {F F' X : List Nat} {p : Ptr} {g : Graph} (t : Turns X h h') (hX : ∀ a ∈ X, a ∈ F) (hh : Holds h' g p F') (hw : ∀ a ∈ F', a ∈ F) : Done h F p g h' :=
  ⟨t.mono hX, F', hh, fun a ha => .inl (hw a ha)⟩

theorem gives_ok {m : HM α} {h h' : Heap} {a : α} {b : β} {Q : α → β → Heap → Prop} (hr : m.run h = (.ok a, h')) (hq : Q a b h') : Gives m h (.ok b) Q := ⟨a, h', hr, hq⟩

/-! ## Merge into nil -/

theorem merge_nil_loop {f : Nat} {sl : Slice} {b : Nat} {c : HNode} {h : Heap} {z : HVal} {ps : List Ptr} (hfuel : 0 < fuel) (hs : Solid h) (hse : sl = c.out)
    (hc : h.nodes[b]? = some c) (hb : look h b = some (z, ps)) :
    ∀ (xs : List Graph) (ps2 : List Ptr) (S : List Nat) (i : Nat), ps.drop i = ps2 → HoldsL h xs ps2 S →
      Gives (HM.range sl (fun node => do
        let t ← hStringOf E fuel node
        let n ← hNode E fuel none t
        match n with
        | none => do
          let _ ← hAdd grow none (.ptr node)
          pure ()
        | n => do
          HM.putOut n {}
          hMerge E grow fuel f n node) xs.length i) h (Graph.mergeList E .nil xs) fun _ g' h' => h' = h ∧ g' = .nil
  | [], _, _, _, _, _ => by
    unfold Graph.mergeList
    exact .pure ⟨rfl, rfl⟩
  | nd :: ns, ps2, S, i, hps, hl => by
    unfold HoldsL at hl
    obtain ⟨p, ps', S1, S2, rfl, rfl, hd, hg, hr⟩ := hl
    obtain ⟨hpi, hps'⟩ := getElem?_of_drop hps
    have hidx : (HM.index sl i).run h = (.ok p, h) := by rw [hse]; exact index_look hs hb hc hpi
    rw [List.length_cons, range_succ]
    refine .step hidx ?_
    simp only [hm_assoc]
    rw [Graph.mergeList]
    refine .bind (stringOf_holds hs hg hfuel) ?_
    rintro key _ h' ⟨rfl, rfl⟩
    have hn : (hNode E fuel none key).run h' = (.ok none, h') := by
      unfold hNode
      rfl
    refine .step hn ?_
    dsimp only
    have ha : (hAdd grow none (.ptr p)).run h' = (.ok none, h') := rfl
    simp only [hm_assoc, hm_pure]
    refine .step ha ?_
    exact merge_nil_loop hfuel hs hse hc hb ns ps' S2 (i + 1) hps' hr

theorem merge_holds {h : Heap} (hs : Solid h) {g x : Graph} {p q : Ptr} {F X : List Nat} (hg : Holds h g p F) (hx : Holds h x q X) (hd : ∀ a ∈ F, a ∉ X)
    (hfuel : x.height < fuel) :
    Gives (hMerge E grow fuel fuel p q) h (g.merge E x) fun _ g' h' => Done h (F ++ X) p g' h' := by
  have h0 : 0 < fuel := by omega
  cases x with
  | nil =>
    unfold Holds at hx
    rw [hx.1]
    rw [Graph.merge]
    cases fuel with
    | zero => omega
    | succ f => unfold hMerge; exact .panicked load_none
  | node w xs =>
    rw [height_node] at hfuel
    rw [Graph.merge]
    cases g with
    | nil =>
      unfold Holds at hg
      obtain ⟨rfl, rfl⟩ := hg
      obtain ⟨m, y, pm, Fm, rfl, rfl, hmF, hlm, hcy, hom⟩ := hx.parts
      obtain ⟨c, hc, hld, hthis, hlen, _⟩ := load_look hs hlm
      cases fuel with
      | zero => omega
      | succ f =>
        unfold hMerge
        refine .step hld ?_
        rw [hlen, ← hom.length]
        refine .mono (merge_nil_loop (f := f) (grow := grow) h0 hs rfl hc hlm xs pm Fm 0 rfl hom) ?_
        rintro _ g' h' ⟨rfl, rfl⟩
        exact ⟨.refl hs, [], holds_nil, nofun⟩
    | node t o =>
      obtain ⟨n, _, _, _, rfl, rfl, _⟩ := hg.parts
      obtain ⟨m, _, _, _, rfl, rfl, _⟩ := hx.parts
      exact merge_kids h0 fuel t w o xs h n m _ _ hfuel hs hg hx hd

theorem copyReg_holds {h : Heap} (hs : Solid h) {g x : Graph} {p q : Ptr} {F X : List Nat} (hg : Holds h g p F) (hx : Holds h x q X) (hd : ∀ a ∈ F, a ∉ X)
    (hf : x.height < fuel) :
    Gives (hCopy grow fuel p q) h (g.copy x) fun _ g' h' => Done h F p g' h' := by
  cases x with
  | nil =>
    unfold Holds at hx
    obtain ⟨rfl, rfl⟩ := hx
    rw [Graph.copy]
    cases fuel with
    | zero => omega
    | succ f =>
      unfold hCopy
      have hp : Gives (Pure.pure () : HM Unit) h (.ok g) fun _ g' h' => Done h F p g' h' := .pure ⟨.refl hs, F, hg, .refl⟩
      revert hp
      cases p <;> exact id
  | node w xs =>
    rw [height_node] at hf
    obtain ⟨m, y, pm, Fm, rfl, rfl, hmF, hlm, hcy, hom⟩ := hx.parts
    cases g with
    | nil =>
      unfold Holds at hg
      obtain ⟨rfl, rfl⟩ := hg
      rw [Graph.copy]
      cases fuel with
      | zero => omega
      | succ f =>
        unfold hCopy
        exact .pure ⟨.refl hs, [], holds_nil, nofun⟩
    | node t o =>
      obtain ⟨n, x, pn, Fn, rfl, rfl, hnF, hln, hcx, hon⟩ := hg.parts
      rw [Graph.copy]
      have hnF0 : n ∉ m :: Fm := hd n (List.mem_cons_self ..)
      refine .map (copy_holds (grow := grow) fuel x w xs h n m pn (m :: Fm) hf hs hln hx hnF0) ?_
      rintro _ l h' ⟨ns, N, t1, ln, hl1, hN⟩
      have hlt := hon.lt o
      have hnl := look_lt hln
      refine ⟨t1.mono (by simp), n :: (Fn ++ N), Spec.Holds.mk ln hcx (Spec.HoldsL.append (hon.turns t1 fun a ha hx => ?_) hl1 fun a ha hx => ?_) ?_, fun a ha => ?_⟩
      · simp only [List.mem_singleton] at hx
        subst hx
        exact hnF ha
      · have := hlt a ha
        have := hN a hx
        omega
      · simp only [List.mem_append, not_or]
        exact ⟨hnF, fun hx => by have := hN n hx; omega⟩
      · rcases List.mem_cons.1 ha with rfl | ha
        · exact .inl (List.mem_cons_self ..)
        · rcases List.mem_append.1 ha with ha | ha
          · exact .inl (List.mem_cons_of_mem _ ha)
          · exact .inr (hN a ha)

/-! ## One operation -/

theorem step_holds {op : TOp} (hv : op.Valid E) {h : Heap} (hs : Solid h) {gs : List Graph} {ps : List Ptr} {F : List Nat} (hl : HoldsL h gs ps F)
    (hfuel : ∀ i, (gs.getD i .nil).height < fuel) :
    Gives (op.mem E grow fuel ps) h (op.tree E gs) fun ps' gs' h' => Goes h F ps' gs' h' := by
  cases op with
  | new v =>
    unfold TOp.mem TOp.tree
    obtain ⟨h1, hr, hs1, hlen, hlk, hkeep⟩ := alloc_look hs (.val v)
    have t1 : Turns [] h h1 := ⟨hs1, by omega, fun b hb _ => ⟨hkeep b hb, by rw [hlk]; unfold upd; rw [if_neg (by omega)]⟩⟩
    have hF := hl.lt gs
    refine .step (a := some h.nodes.length) (h' := h1) ?_ (.pure ⟨t1.mono nofun, F ++ [h.nodes.length], ?_, within_snoc⟩)
    · show (HM.alloc (.val v) >>= fun a => (Pure.pure (some a) : HM Ptr)).run h = _
      rw [ok_bind' hr]
      rfl
    · refine Spec.HoldsL.append (hl.turns t1 fun _ _ => nofun) (Spec.HoldsL.one (Spec.Holds.mk ?_ (.val hv) Spec.HoldsL.nil nofun)) fun a ha hx => ?_
      · rw [hlk]; unfold upd; rw [if_pos rfl]
      · simp only [List.mem_singleton] at hx
        have := hF a ha
        omega
  | add i v =>
    exact one_reg (r := .ok ((gs.getD i .nil).add v).1) (φ := id) hl i fun Fg hg => by
      obtain ⟨q, h', hr, hd, _⟩ := addVal_holds (grow := grow) hs hg (.val hv)
      exact gives_ok hr hd
  | graft i j =>
    refine two_regs (r := .ok ((gs.getD i .nil).add (.graph (gs.getD j .nil))).1) (φ := id) hl hv fun Fg Fj hg hj hd => ?_
    cases hgj : gs.getD j .nil with
    | nil =>
      rw [hgj] at hj
      unfold Holds at hj
      obtain ⟨hj1, rfl⟩ := hj
      obtain ⟨q, h', hr, hd, _⟩ := addVal_holds (grow := grow) hs hg .nil
      rw [List.append_nil]
      show Gives (hAdd grow (held ps i) (.ptr (held ps j))) h _ _
      rw [hj1]
      exact gives_ok hr hd
    | node t o =>
      rw [hgj] at hj
      obtain ⟨r, h', hr, t1, F', hh, hw⟩ := addGraph_holds (grow := grow) hs hg hj hd
      exact gives_ok hr (done_of_sub t1 (fun a ha => List.mem_append_left _ ha) hh hw)
  | addNodes i j =>
    refine two_regs (r := .ok ((gs.getD i .nil).addNodes (gs.getD j .nil))) (φ := id) hl hv fun Fg Fj hg hj hd => ?_
    obtain ⟨r, h', hr, t1, F', hh, hw⟩ := addNodes_holds (grow := grow) hs hg hj hd
    exact gives_ok hr (done_of_sub t1 (fun a ha => List.mem_append_left _ ha) hh hw)
  | clone i =>
    obtain ⟨Fg, hg, _, _⟩ := hl.reg i
    obtain ⟨q, h', N, hr, t1, hh, hN⟩ := clone_holds (grow := grow) fuel _ h _ Fg (hfuel i) hs hg
    have hF := hl.lt gs
    unfold TOp.mem TOp.tree
    refine .step (a := q) (h' := h') hr (.pure ⟨t1.mono nofun, F ++ N, ?_, fun a ha => (List.mem_append.1 ha).imp_right (hN a)⟩)
    refine Spec.HoldsL.append (hl.turns t1 fun _ _ => nofun) (Spec.HoldsL.one hh) fun a ha hx => ?_
    have := hF a ha
    have := hN a hx
    omega
  | copy i j =>
    obtain ⟨Fj, F0, hj, h0, hd, hsub⟩ := hl.out j
    obtain ⟨Fg, hg, hF, hr⟩ := h0.reg i
    have hij : i ≠ j := hv
    rw [held_set_ne hij, getD_set_ne hij] at hg
    rw [held_set_ne hij] at hr
    have hm := copyReg_holds (grow := grow) (fuel := fuel) hs hg hj (fun a ha hx => hd a hx (hF a ha)) (hfuel j)
    show Gives ((hCopy grow fuel (held ps i) (held ps j) >>= fun _ => (Pure.pure none : HM Ptr)) >>= fun p => (Pure.pure ps : HM (List Ptr))) h _ _
    rw [hm_assoc]
    refine .bind hm ?_
    rintro _ g' h' ⟨t1, F', hh, hw⟩
    rw [hm_pure]
    have hjlt := hj.lt
    obtain ⟨F1, h1, hw1⟩ := hr h' Fg [] g' F' t1 (fun a ha => .inl ha) nofun hh (by rw [List.append_nil]; exact hw)
    have hj' := hj.turns t1 fun a ha hx => hd a ha (hF a hx)
    obtain ⟨F2, h2, hw2⟩ := h1.put j hj' fun a ha hx => by
      rcases hw1 a ha with hy | hy
      · rw [List.append_nil] at hy
        exact hd a hx hy
      · have := hjlt a hx
        omega
    rw [set_back gs hij, set_held] at h2
    refine .pure ⟨t1.mono fun a ha => hsub a (.inr (hF a ha)), F2, h2, fun a ha => ?_⟩
    rcases List.mem_append.1 (hw2 a ha) with hx | hx
    · rw [List.append_nil] at hw1
      exact (hw1 a hx).imp_left fun hy => hsub a (.inr hy)
    · exact .inl (hsub a (.inl hx))
  | nodeOrNew i s =>
    exact one_reg (φ := fun r : Graph × Graph => r.1) hl i fun Fg hg => .mono (nodeOrNew_holds hs hg s) fun _ _ _ hq => hq.1
  | nodeSet i s v =>
    exact one_reg (φ := id) hl i fun Fg hg => nodeSet_holds hs hg s (.val hv)
  | create i s =>
    exact one_reg (φ := fun r : Graph × Graph => r.1) hl i fun Fg hg => .mono (create_holds hs hg s) fun _ _ _ hq => hq.1
  | delete i v =>
    show Gives ((hDelete E grow (held ps i) (.val v) >>= fun _ => (Pure.pure none : HM Ptr)) >>= fun p => (Pure.pure ps : HM (List Ptr))) h _ _
    rw [hm_assoc]
    simp only [hm_pure]
    refine one_reg (φ := id) hl i fun Fg hg => .mono (delete_holds hs hg hv) ?_
    rintro _ g' h' ⟨t1, F', hh, hw⟩
    exact done_of_sub t1 (fun _ ha => ha) hh hw
  | clear i =>
    show Gives ((hClear (held ps i) >>= fun _ => (Pure.pure none : HM Ptr)) >>= fun p => (Pure.pure ps : HM (List Ptr))) h _ _
    rw [hm_assoc]
    simp only [hm_pure]
    refine one_reg (r := .ok (gs.getD i .nil).clear) (φ := id) hl i fun Fg hg => ?_
    obtain ⟨h', F', hr, t1, hh, hw⟩ := clear_holds hs hg
    exact gives_ok hr (done_of_sub t1 (fun _ ha => ha) hh hw)
  | deleteAt i k =>
    show Gives ((hDeleteAt grow (held ps i) k >>= fun _ => (Pure.pure none : HM Ptr)) >>= fun p => (Pure.pure ps : HM (List Ptr))) h _ _
    rw [hm_assoc]
    simp only [hm_pure]
    refine one_reg (r := .ok ((gs.getD i .nil).deleteAt k)) (φ := id) hl i fun Fg hg => ?_
    obtain ⟨h', F', hr, t1, hh, hw⟩ := deleteAt_holds (grow := grow) hs hg k
    exact gives_ok hr (done_of_sub t1 (fun _ ha => ha) hh hw)
  | set i es ss v =>
    obtain ⟨hv, hp⟩ := hv
    unfold TOp.tree
    dsimp only
    cases hn : gs.getD i .nil with
    | nil =>
      obtain ⟨Fg, hg, _, _⟩ := hl.reg i
      rw [hn] at hg
      unfold Holds at hg
      refine .step (a := none) (h' := h) ?_ (.pure ⟨.refl hs, F, hl, .refl⟩)
      show (hSet E grow fuel (held ps i) ss (.val v)).run h = _
      rw [hg.1]
      rfl
    | node t o =>
      dsimp only
      refine one_reg (φ := fun r : Graph × Graph => r.1) hl i fun Fg hg => ?_
      rw [hn] at hg
      exact .mono (set_holds hs hg nofun hp (.val hv)) fun _ _ _ hq => hq.1
  | substitute i s v =>
    show Gives ((hSubstitute E fuel s (.val v) fuel (held ps i) >>= fun _ => (Pure.pure none : HM Ptr)) >>= fun p => (Pure.pure ps : HM (List Ptr))) h _ _
    rw [hm_assoc]
    simp only [hm_pure]
    refine one_reg (φ := id) hl i fun Fg hg => .mono (substitute_holds hs hg (.val hv) (hfuel i)) ?_
    rintro _ g' h' ⟨t1, hh⟩
    exact ⟨t1, Fg, hh, .refl⟩
  | merge i j =>
    show Gives ((hMerge E grow fuel fuel (held ps i) (held ps j) >>= fun _ => (Pure.pure none : HM Ptr)) >>= fun p => (Pure.pure (ps.set j none) : HM (List Ptr))) h _ _
    rw [hm_assoc]
    simp only [hm_pure]
    exact two_regs (φ := id) hl hv fun Fg Fj hg hj hd => merge_holds hs hg hj hd (hfuel j)

/-! ## Nothing runs out of fuel -/

theorem copyList_ne_oof : ∀ o : List Graph, Graph.copyList o ≠ .oof
  | [] => by unfold Graph.copyList; nofun
  | .nil :: _ => by unfold Graph.copyList; nofun
  | .node t o :: ns => by
    by_cases ht : t = .nil
    · subst ht
      rw [Graph.copyList]
      exact copyList_ne_oof ns
    · rw [Graph.copyList]
      case neg.x_1 => exact ht
      refine Res.bind_ne_oof (copyList_ne_oof o) fun l => Res.bind_ne_oof (copyList_ne_oof ns) fun r => ?_
      split <;> nofun

theorem substituteList_ne_oof {s : Bytes} {v : Val} : ∀ o : List Graph, Graph.substituteList E s v o ≠ .oof
  | [] => by unfold Graph.substituteList; nofun
  | .nil :: _ => by unfold Graph.substituteList; nofun
  | .node t o :: ns => by
    rw [Graph.substituteList]
    exact Res.bind_ne_oof (substituteList_ne_oof o) fun l => Res.bind_ne_oof (substituteList_ne_oof ns) fun r => nofun

theorem gstring_ne_oof {g : Graph} : g.string E ≠ .oof := by
  unfold Graph.string
  split
  · nofun
  · exact Res.bind_ne_oof interface_ne_oof fun _ => nofun

mutual
theorem merge_ne_oof : ∀ (x g : Graph), g.merge E x ≠ .oof
  | .nil, g => by rw [Graph.merge]; nofun
  | .node _ o, g => by rw [Graph.merge]; exact mergeList_ne_oof o g
theorem mergeList_ne_oof : ∀ (o : List Graph) (g : Graph), Graph.mergeList E g o ≠ .oof
  | [], g => by rw [Graph.mergeList]; nofun
  | nd :: ns, .nil => by
    rw [Graph.mergeList]
    exact Res.bind_ne_oof gstring_ne_oof fun _ => mergeList_ne_oof ns _
  | nd :: ns, .node t o => by
    rw [Graph.mergeList]
    refine Res.bind_ne_oof gstring_ne_oof fun key => Res.bind_ne_oof (findName_ne_oof) fun j => ?_
    cases j with
    | none => exact mergeList_ne_oof ns _
    | some j => exact Res.bind_ne_oof (merge_ne_oof nd _) fun _ => mergeList_ne_oof ns _
end

theorem tree_ne_oof (op : TOp) (gs : List Graph) : op.tree E gs ≠ .oof := by
  have hok : ∀ {β : Type} (r : Res β) (k : β → List Graph), r ≠ .oof → (r >>= fun b => Res.ok (k b)) ≠ .oof := fun r k h => Res.bind_ne_oof h fun _ => nofun
  cases op with
  | copy i j =>
    refine hok _ _ ?_
    cases gs.getD j .nil with
    | nil => rw [Graph.copy]; nofun
    | node w xs =>
      cases gs.getD i .nil with
      | nil => rw [Graph.copy]; nofun
      | node t o => rw [Graph.copy]; exact Res.bind_ne_oof (copyList_ne_oof xs) fun _ => nofun
  | nodeOrNew i s =>
    refine hok _ _ ?_
    cases gs.getD i .nil with
    | nil => unfold Graph.nodeOrNew; nofun
    | node t o =>
      unfold Graph.nodeOrNew
      refine Res.bind_ne_oof ?_ fun n => ?_
      · show nodeLoop E s o ≠ .oof
        rw [nodeLoop_find]
        exact Res.bind_ne_oof findName_ne_oof fun _ => nofun
      · cases n <;> nofun
  | nodeSet i s v =>
    refine hok _ _ ?_
    cases gs.getD i .nil with
    | nil => unfold Graph.nodeSet; nofun
    | node t o =>
      unfold Graph.nodeSet
      refine Res.bind_ne_oof findName_ne_oof fun n => ?_
      cases n <;> nofun
  | create i s =>
    refine hok _ _ ?_
    cases gs.getD i .nil with
    | nil => unfold Graph.create; nofun
    | node t o =>
      unfold Graph.create
      refine Res.bind_ne_oof findName_ne_oof fun n => ?_
      cases n <;> nofun
  | delete i v =>
    refine hok _ _ ?_
    cases gs.getD i .nil with
    | nil => unfold Graph.delete; nofun
    | node t o =>
      unfold Graph.delete
      exact Res.bind_ne_oof (deleteLoop_ne_oof _ _ _) fun _ => nofun
  | set i es ss v =>
    unfold TOp.tree
    dsimp only
    cases gs.getD i .nil with
    | nil => nofun
    | node t o => exact hok _ _ setPath_ne_oof
  | substitute i s v =>
    refine hok _ _ ?_
    cases gs.getD i .nil with
    | nil => unfold Graph.substitute; nofun
    | node t o => unfold Graph.substitute; exact Res.bind_ne_oof (substituteList_ne_oof o) fun _ => nofun
  | merge i j => exact hok _ _ (merge_ne_oof _ _)
  | _ => unfold TOp.tree; nofun

/-! ## Histories -/

theorem le_heights : ∀ gs : List Graph, ∃ N, ∀ i, (gs.getD i .nil).height ≤ N
  | [] => ⟨Graph.nil.height, fun i => by simp⟩
  | g :: gs => by
    obtain ⟨N, hN⟩ := le_heights gs
    refine ⟨max g.height N, fun i => ?_⟩
    cases i with
    | zero => simp; omega
    | succ i => have := hN i; simp at this ⊢; omega

theorem treeRun_ne_oof : ∀ (ops : List TOp) (gs : List Graph), treeRun E ops gs ≠ .oof
  | [], gs => by unfold treeRun; nofun
  | op :: ops, gs => by
    unfold treeRun
    exact Res.bind_ne_oof (tree_ne_oof op gs) fun gs' => treeRun_ne_oof ops gs'

theorem memRun_gives : ∀ (ops : List TOp), (∀ op ∈ ops, op.Valid E) → ∀ gs : List Graph, ∃ N, ∀ fuel, N ≤ fuel → ∀ (ps : List Ptr) (h : Heap), Good ps gs h →
    Gives (memRun E grow fuel ops ps) h (treeRun E ops gs) fun ps' gs' h' => Good ps' gs' h'
  | [], _, gs => ⟨0, fun fuel _ ps h hg => by unfold memRun treeRun; exact .pure hg⟩
  | op :: ops, hv, gs => by
    obtain ⟨N1, hN1⟩ := le_heights gs
    -- the rest of the history, if this operation returns
    have hrest : ∃ N2, ∀ gs', op.tree E gs = .ok gs' → ∀ fuel, N2 ≤ fuel → ∀ (ps : List Ptr) (h : Heap), Good ps gs' h →
        Gives (memRun E grow fuel ops ps) h (treeRun E ops gs') fun ps' gs' h' => Good ps' gs' h' := by
      cases hop : op.tree E gs with
      | ok gs1 =>
        obtain ⟨N2, h2⟩ := memRun_gives ops (fun o ho => hv o (List.mem_cons_of_mem _ ho)) gs1
        exact ⟨N2, fun gs' e => by cases e; exact h2⟩
      | panic => exact ⟨0, nofun⟩
      | oof => exact ⟨0, nofun⟩
    obtain ⟨N2, hN2⟩ := hrest
    refine ⟨max (N1 + 1) N2, fun fuel hf ps h hg => ?_⟩
    obtain ⟨hs, F, hl⟩ := hg
    unfold memRun treeRun
    have hstep := step_holds (grow := grow) (fuel := fuel) (hv op (List.mem_cons_self ..)) hs hl fun i => by have := hN1 i; omega
    cases hop : op.tree E gs with
    | ok gs1 =>
      rw [hop] at hstep
      obtain ⟨ps1, h1, hr1, hg1⟩ := hstep
      exact .step hr1 (hN2 gs1 hop fuel (by omega) ps1 h1 hg1.good)
    | panic =>
      rw [hop] at hstep
      obtain ⟨h1, hr1⟩ := hstep
      exact ⟨h1, panic_bind' hr1⟩
    | oof => trivial

end Ogdl
