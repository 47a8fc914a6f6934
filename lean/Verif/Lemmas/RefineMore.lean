import Verif.Lemmas.RefineOps

/-!
# More methods of graph.go on memory that holds a tree
-/

namespace Ogdl
open Spec HM

variable {E : Ext} {grow : Nat → Nat → Nat} {fuel : Nat}

/-- Work on one tree of a list. -/
theorem Spec.HoldsL.focus {h : Heap} {gs : List Graph} {ps : List Ptr} {F : List Nat} (hl : HoldsL h gs ps F) {i : Nat} {g : Graph} (hi : gs[i]? = some g) :
    ∃ p Fg, ps[i]? = some p ∧ Holds h g p Fg ∧ (∀ a ∈ Fg, a ∈ F) ∧
      ∀ (h' : Heap) (X Y : List Nat) (g' : Graph) (Fg' : List Nat), Turns X h h' → (∀ a ∈ X, a ∈ Fg ∨ a ∈ Y) → (∀ a ∈ Y, a ∉ F) → Holds h' g' p Fg' →
        Within h (Fg ++ Y) Fg' → ∃ F', HoldsL h' (gs.set i g') ps F' ∧ Within h (F ++ Y) F' := by
  obtain ⟨p, ps1, ps2, F1, Fg, F2, rfl, hlen, rfl, h1, hg, h2, hd1, hd2⟩ := hl.split hi
  have hil : i < gs.length := (List.getElem?_eq_some_iff.1 hi).1
  refine ⟨p, Fg, by rw [← hlen]; simp, hg, fun a ha => by simp [ha], fun h' X Y g' Fg' t hX hY hg' hw => ?_⟩
  have h1' : HoldsL h' (gs.take i) ps1 F1 := h1.turns t fun a ha hx => by
    rcases hX a hx with hx | hx
    · exact (hd1 a ha).1 hx
    · exact hY a hx (by simp [ha])
  have h2' : HoldsL h' (gs.drop (i + 1)) ps2 F2 := h2.turns t fun a ha hx => by
    rcases hX a hx with hx | hx
    · exact hd2 a hx ha
    · exact hY a hx (by simp [ha])
  have lt1 := h1.lt
  have lt2 := h2.lt
  refine ⟨F1 ++ (Fg' ++ F2), ?_, ?_⟩
  · rw [List.set_eq_take_append_cons_drop, if_pos hil]
    refine Spec.HoldsL.append h1' (Spec.HoldsL.cons hg' h2' fun a ha hx => ?_) fun a ha hx => ?_
    · rcases hw a ha with hy | hy
      · rcases List.mem_append.1 hy with hy | hy
        · exact hd2 a hy hx
        · exact hY a hy (by simp [hx])
      · have := lt2 a hx; omega
    · rcases List.mem_append.1 hx with hx | hx
      · rcases hw a hx with hy | hy
        · rcases List.mem_append.1 hy with hy | hy
          · exact (hd1 a ha).1 hy
          · exact hY a hy (by simp [ha])
        · have := lt1 a ha; omega
      · exact (hd1 a ha).2 hx
  · intro a ha
    rcases List.mem_append.1 ha with ha | ha
    · exact .inl (by simp [ha])
    · rcases List.mem_append.1 ha with ha | ha
      · rcases hw a ha with hy | hy
        · exact .inl (by rcases List.mem_append.1 hy with hy | hy <;> simp [hy])
        · exact .inr hy
      · exact .inl (by simp [ha])

theorem Spec.HoldsL.erase {h : Heap} {gs : List Graph} {ps : List Ptr} {F : List Nat} (hl : HoldsL h gs ps F) {i : Nat} (hi : i < gs.length) :
    ∃ F', HoldsL h (gs.eraseIdx i) (ps.eraseIdx i) F' ∧ ∀ a ∈ F', a ∈ F := by
  obtain ⟨p, ps1, ps2, F1, Fg, F2, rfl, hlen, rfl, h1, hg, h2, hd1, hd2⟩ := hl.split (List.getElem?_eq_getElem hi)
  refine ⟨F1 ++ F2, ?_, fun a ha => by rcases List.mem_append.1 ha with ha | ha <;> simp [ha]⟩
  rw [List.eraseIdx_eq_take_drop_succ, List.eraseIdx_eq_take_drop_succ, ← hlen, List.take_left' rfl,
    show (ps1 ++ p :: ps2).drop (ps1.length + 1) = ps2 by simp [List.drop_append]]
  subst hlen
  exact Spec.HoldsL.append h1 h2 fun a ha => (hd1 a ha).2

/-- The tree at `a`, cut to what `Within` says. -/
def Done (h : Heap) (F : List Nat) (p : Ptr) (g : Graph) (h' : Heap) : Prop :=
  Turns F h h' ∧ ∃ F', Holds h' g p F' ∧ Within h F F'

/-! ## Node, NodeOrNew, NodeSet, Create, GetAt -/

theorem node_holds {h : Heap} (hs : Solid h) {a : Nat} {x : HVal} {ps : List Ptr} {o : List Graph} {F : List Nat} (hl : look h a = some (x, ps))
    (ho : HoldsL h o ps F) (nm : Bytes) :
    Gives (hNode E fuel (some a) nm) h (findName E nm o) fun q j h' => h' = h ∧
      match j with
      | none => q = none
      | some j => ∃ p, ps[j]? = some p ∧ q = p := by
  obtain ⟨c, hc, hld, hthis, hlen, _⟩ := load_look hs hl
  unfold hNode
  dsimp only
  refine .step hld ?_
  rw [hlen, ← ho.length]
  have := search_holds (E := E) (fuel := fuel) (nm := nm) hs rfl hc hl o ps F 0 rfl ho
  have := Gives.bind (k := fun j => .ok j) (f := fun r : Option Ptr => (pure (r.getD none) : HM Ptr)) (Q' := fun q j h' => h' = h ∧
      match j with
      | none => q = none
      | some j => ∃ p, ps[j]? = some p ∧ q = p) this ?_
  · cases hr : findName E nm o <;> rw [hr] at this <;> exact this
  · rintro r j h' ⟨rfl, hj⟩
    refine .pure ⟨rfl, ?_⟩
    cases j with
    | none => rw [hj]; rfl
    | some j =>
      obtain ⟨p, hp, rfl⟩ := hj
      exact ⟨p, hp, rfl⟩

theorem nodeLoop_find (nm : Bytes) : ∀ o : List Graph, nodeLoop E nm o = (findName E nm o >>= fun j => .ok ((j.map fun i => o.getD i .nil).getD .nil))
  | [] => rfl
  | .nil :: _ => rfl
  | .node t o :: ns => by
    rw [nodeLoop, findName]
    by_cases hx : nm = vstr E t
    · simp only [hx, ↓reduceIte, Res.ok_bind]
      rfl
    · simp only [hx, ↓reduceIte]
      rw [nodeLoop_find nm ns]
      cases findName E nm ns with
      | ok r => cases r <;> rfl
      | panic => rfl
      | oof => rfl

theorem Holds.child {h : Heap} {o : List Graph} {ps : List Ptr} {F : List Nat} (ho : HoldsL h o ps F) {j : Nat} {p : Ptr} (hj : ps[j]? = some p) :
    ∃ X, Holds h (o.getD j .nil) p X ∧ ∀ a ∈ X, a ∈ F := by
  have hjl : j < o.length := by rw [ho.length]; exact (List.getElem?_eq_some_iff.1 hj).1
  obtain ⟨p', Fg, hp', hg, hF, _⟩ := ho.focus (List.getElem?_eq_getElem hjl)
  rw [hj] at hp'
  cases hp'
  refine ⟨Fg, ?_, hF⟩
  rw [List.getD_eq_getElem?_getD, List.getElem?_eq_getElem hjl]
  exact hg

theorem nodeNamed_holds {h : Heap} (hs : Solid h) {g : Graph} {p : Ptr} {F : List Nat} (hg : Holds h g p F) (nm : Bytes) :
    Gives (hNode E fuel p nm) h (g.nodeNamed E nm) fun q n h' => h' = h ∧ ∃ X, Holds h n q X ∧ ∀ a ∈ X, a ∈ F := by
  cases g with
  | nil =>
    unfold Holds at hg
    obtain ⟨rfl, rfl⟩ := hg
    unfold hNode Graph.nodeNamed
    exact .pure ⟨rfl, [], by unfold Holds; exact ⟨rfl, rfl⟩, nofun⟩
  | node t o =>
    obtain ⟨a, x, ps, F', rfl, rfl, haF, hl, hc, ho⟩ := hg.parts
    unfold Graph.nodeNamed
    dsimp only
    rw [nodeLoop_find]
    refine .map (node_holds hs hl ho nm) ?_
    rintro q j h' ⟨e, hj⟩
    refine ⟨e, ?_⟩
    cases j with
    | none =>
      rw [hj]
      exact ⟨[], by unfold Holds; exact ⟨rfl, rfl⟩, nofun⟩
    | some j =>
      obtain ⟨p, hp, rfl⟩ := hj
      obtain ⟨X, hX, hXF⟩ := Holds.child ho hp
      exact ⟨X, hX, fun a ha => List.mem_cons_of_mem _ (hXF a ha)⟩

theorem hstr (s : Bytes) : Content (.val (.str s)) (.str s) := .val nofun

/-- `Add` of a value. -/
theorem add_holds {h : Heap} (hs : Solid h) {a : Nat} {t : Val} {o : List Graph} {F : List Nat} (hg : Holds h (.node t o) (some a) F) {y : HVal} {v : Val}
    (hy : Content y v) (hv : v ≠ .nil) :
    ∃ h', (hAdd grow (some a) y).run h = (.ok (some h.nodes.length), h') ∧ Turns [a] h h' ∧
      Holds h' (.node t (o ++ [.node v []])) (some a) (F ++ [h.nodes.length]) ∧ look h' h.nodes.length = some (y, []) := by
  obtain ⟨a', x, ps, F', e, rfl, haF, hl, hc, ho⟩ := hg.parts
  cases e
  obtain ⟨h1, hr, t1, la, ln, hlen⟩ := add_content (grow := grow) hs hl hy hv
  exact ⟨h1, hr, t1, grown t1 hc hy ho haF (look_lt hl) la ln, ln⟩

theorem within_snoc {h : Heap} {F : List Nat} : Within h F (F ++ [h.nodes.length]) := by
  intro b hb
  rcases List.mem_append.1 hb with hb | hb
  · exact .inl hb
  · simp only [List.mem_singleton] at hb
    exact .inr (by omega)

/-- `Add` for all arguments that are not graphs. -/
theorem addVal_holds {h : Heap} (hs : Solid h) {g : Graph} {p : Ptr} {F : List Nat} (hg : Holds h g p F) {y : HVal} {v : Val} (hy : Content y v) :
    ∃ q h', (hAdd grow p y).run h = (.ok q, h') ∧ Done h F p (g.add v).1 h' ∧ ∃ X, Holds h' (g.add v).2 q X := by
  have hnil : Holds h .nil none [] := by unfold Holds; exact ⟨rfl, rfl⟩
  cases g with
  | nil =>
    unfold Holds at hg
    obtain ⟨rfl, rfl⟩ := hg
    exact ⟨none, h, rfl, ⟨.refl hs, [], hnil, nofun⟩, [], hnil⟩
  | node t o =>
    by_cases hv : v = .nil
    · subst hv
      obtain ⟨a, x, ps, F', rfl, rfl, _⟩ := hg.parts
      cases hy
      exact ⟨none, h, rfl, ⟨.refl hs, _, hg, .refl⟩, [], hnil⟩
    · obtain ⟨a, x, ps, F', rfl, rfl, _⟩ := hg.parts
      obtain ⟨h1, hr, t1, hh, ln⟩ := add_holds (grow := grow) hs hg hy hv
      have hadd : (Graph.node t o).add v = (.node t (o ++ [.node v []]), .node v []) := by
        have := addedNode_content hy
        cases v <;> first | exact absurd rfl hv | (simp only [Graph.add, this])
      rw [hadd]
      exact ⟨_, h1, hr, ⟨t1.mono (by simp), _, hh, within_snoc⟩, _, Spec.Holds.mk ln hy Spec.HoldsL.nil nofun⟩

theorem clear_holds {h : Heap} (hs : Solid h) {g : Graph} {p : Ptr} {F : List Nat} (hg : Holds h g p F) :
    ∃ h' F', (hClear p).run h = (.ok (), h') ∧ Turns F h h' ∧ Holds h' g.clear p F' ∧ ∀ a ∈ F', a ∈ F := by
  cases g with
  | nil =>
    unfold Holds at hg
    obtain ⟨rfl, rfl⟩ := hg
    exact ⟨h, [], rfl, .refl hs, by unfold Graph.clear Holds; exact ⟨rfl, rfl⟩, nofun⟩
  | node t o =>
    obtain ⟨a, x, ps, F', rfl, rfl, haF, hl, hc, ho⟩ := hg.parts
    obtain ⟨h1, hr, c⟩ := clear_look hs hl
    exact ⟨h1, [a], hr, c.turns.mono (by simp), renode c hc Spec.HoldsL.nil nofun, by simp⟩

theorem nodeOrNew_holds {h : Heap} (hs : Solid h) {g : Graph} {p : Ptr} {F : List Nat} (hg : Holds h g p F) (nm : Bytes) :
    Gives (hNodeOrNew E grow fuel p nm) h (g.nodeOrNew E nm) fun q r h' => Done h F p r.1 h' ∧ ∃ X, Holds h' r.2 q X := by
  have hnil : Holds h .nil none [] := by unfold Holds; exact ⟨rfl, rfl⟩
  cases g with
  | nil =>
    unfold Holds at hg
    obtain ⟨rfl, rfl⟩ := hg
    unfold hNodeOrNew Graph.nodeOrNew
    exact .pure ⟨⟨.refl hs, [], hnil, nofun⟩, [], hnil⟩
  | node t o =>
    obtain ⟨a, x, ps, F', rfl, rfl, haF, hl, hc, ho⟩ := hg.parts
    obtain ⟨c, hc', hld, hthis, hlen, _⟩ := load_look hs hl
    unfold hNodeOrNew Graph.nodeOrNew Graph.nodeNamed
    dsimp only
    rw [nodeLoop_find]
    refine .step hld ?_
    rw [hlen, ← ho.length]
    have hsr := search_holds (E := E) (fuel := fuel) (nm := nm) hs rfl hc' hl o ps F' 0 rfl ho
    cases hf : findName E nm o with
    | oof => trivial
    | panic =>
      rw [hf] at hsr
      obtain ⟨h', hr⟩ := hsr
      exact ⟨h', panic_bind' hr⟩
    | ok j =>
      rw [hf] at hsr
      obtain ⟨r, h', hr, e, hj⟩ := hsr
      rw [e] at hr
      refine .step hr ?_
      cases j with
      | none =>
        rw [hj]
        obtain ⟨q, h1, hr1, hd, hX⟩ := addVal_holds (grow := grow) hs hg (hstr nm)
        exact ⟨q, h1, hr1, hd, hX⟩
      | some j =>
        obtain ⟨q, hq, rfl⟩ := hj
        obtain ⟨t', o', hj'⟩ := findName_lt hf
        have hgd : o.getD j .nil = .node t' o' := by rw [List.getD_eq_getElem?_getD, hj']; rfl
        obtain ⟨X, hX, hXF⟩ := Holds.child ho hq
        simp only [Option.map_some, Option.getD_some, hgd, Res.ok_bind]
        rw [hgd] at hX
        exact .pure ⟨⟨.refl hs, _, hg, .refl⟩, X, hX⟩

/-- After work on subnode `j`. -/
theorem back {h h' : Heap} {a : Nat} {x : HVal} {t : Val} {ps : List Ptr} {o : List Graph} {F : List Nat} (hl : look h a = some (x, ps)) (hc : Content x t)
    (haF : a ∉ F) {X Y : List Nat} {g' : Graph} {j : Nat} (tn : Turns X h h') (hX : a ∉ X) (hY : a ∉ Y)
    (hres : ∃ F', HoldsL h' (o.set j g') ps F' ∧ Within h (F ++ Y) F') :
    ∃ F', Holds h' (.node t (o.set j g')) (some a) F' ∧ Within h ((a :: F) ++ Y) F' := by
  obtain ⟨F', h1, hw⟩ := hres
  have hal := look_lt hl
  refine ⟨a :: F', Spec.Holds.mk ((tn.keep a hal hX).2.trans hl) hc h1 fun hx => ?_, ?_⟩
  · rcases hw a hx with hy | hy
    · rcases List.mem_append.1 hy with hy | hy
      · exact haF hy
      · exact hY hy
    · omega
  · intro b hb
    rcases List.mem_cons.1 hb with rfl | hb
    · exact .inl (by simp)
    · rcases hw b hb with hy | hy
      · exact .inl (by rcases List.mem_append.1 hy with hy | hy <;> simp [hy])
      · exact .inr hy

theorem set_modify (o : List Graph) (i : Nat) (f : Graph → Graph) (h : i < o.length) : o.modify i f = o.set i (f (o.getD i .nil)) := by
  apply List.ext_getElem?
  intro k
  rw [List.getElem?_modify, List.getElem?_set]
  by_cases hk : i = k
  · subst hk
    simp [h, List.getElem?_eq_getElem h, List.getD_eq_getElem?_getD]
  · simp [hk]

theorem nodeSet_holds {h : Heap} (hs : Solid h) {g : Graph} {p : Ptr} {F : List Nat} (hg : Holds h g p F) (nm : Bytes) {y : HVal} {v : Val} (hy : Content y v) :
    Gives (hNodeSet E grow fuel p nm y) h (g.nodeSet E nm v) fun _ g' h' => Done h F p g' h' := by
  have hnil : Holds h .nil none [] := by unfold Holds; exact ⟨rfl, rfl⟩
  cases g with
  | nil =>
    unfold Holds at hg
    obtain ⟨rfl, rfl⟩ := hg
    have h1 : (hNodeOrNew E grow fuel none nm).run h = (.ok none, h) := rfl
    have h2 : (hClear none).run h = (.ok (), h) := rfl
    unfold hNodeSet Graph.nodeSet
    refine .step h1 (.step h2 ?_)
    unfold hAdd
    exact .pure ⟨.refl hs, [], hnil, nofun⟩
  | node t o =>
    obtain ⟨a, x, ps, F', rfl, rfl, haF, hl, hc, ho⟩ := hg.parts
    obtain ⟨c, hc', hld, hthis, hlen, _⟩ := load_look hs hl
    unfold hNodeSet hNodeOrNew Graph.nodeSet
    dsimp only
    simp only [hm_assoc]
    refine .step hld ?_
    rw [hlen, ← ho.length]
    have hsr := search_holds (E := E) (fuel := fuel) (nm := nm) hs rfl hc' hl o ps F' 0 rfl ho
    cases hf : findName E nm o with
    | oof => trivial
    | panic =>
      rw [hf] at hsr
      obtain ⟨h', hr⟩ := hsr
      exact ⟨h', panic_bind' hr⟩
    | ok j =>
      rw [hf] at hsr
      obtain ⟨r, h', hr, e, hj⟩ := hsr
      rw [e] at hr
      refine .step hr ?_
      cases j with
      | none =>
        rw [hj]
        simp only [Res.ok_bind]
        obtain ⟨h1, hr1, t1, la, ln, hlen1⟩ := add_content (grow := grow) hs hl (hstr nm) nofun
        refine .step hr1 ?_
        have hnew : Holds h1 (.node (.str nm) []) (some h.nodes.length) [h.nodes.length] := Spec.Holds.mk ln (hstr nm) Spec.HoldsL.nil nofun
        obtain ⟨h2, F2, hr2, t2, hh2, hF2⟩ := clear_holds t1.solid hnew
        refine .step hr2 ?_
        obtain ⟨q, h3, hr3, ⟨t3, F3, hh3, hw3⟩, _⟩ := addVal_holds (grow := grow) t2.solid hh2 hy
        refine ⟨q, h3, hr3, ?_, ?_⟩
        · refine ((t1.mono (F' := a :: F') (by simp)).trans t2 ?_).trans t3 ?_
          · intro b hb
            simp only [List.mem_singleton] at hb
            exact .inr (by omega)
          · intro b hb
            have := hF2 b hb
            simp only [List.mem_singleton] at this
            exact .inr (by omega)
        · have hlt := hg.lt
          have halt := look_lt hl
          have hF2' : ∀ b ∈ F2, h.nodes.length ≤ b := fun b hb => by have := hF2 b hb; simp only [List.mem_singleton] at this; omega
          have hF3' : ∀ b ∈ F3, h.nodes.length ≤ b := fun b hb => by
            rcases hw3 b hb with hx | hx
            · exact hF2' b hx
            · have := t2.le; omega
          have keep13 : ∀ b ∈ a :: F', look h3 b = look h1 b := by
            intro b hb
            have hb' := hlt b hb
            rw [(t3.keep b (by have := t2.le; omega) fun hx => by have := hF2' b hx; omega).2,
              (t2.keep b (by omega) fun hx => by simp only [List.mem_singleton] at hx; omega).2]
          refine ⟨a :: (F' ++ F3), Spec.Holds.mk ((keep13 a (List.mem_cons_self ..)).trans la) hc (Spec.HoldsL.append ?_ (Spec.HoldsL.one hh3) ?_) ?_, ?_⟩
          · refine (ho.turns t1 fun b hb hx => ?_).frame _ fun b hb => keep13 b (List.mem_cons_of_mem _ hb)
            simp only [List.mem_singleton] at hx
            subst hx
            exact haF hb
          · intro b hb hx
            have := hlt b (List.mem_cons_of_mem _ hb)
            have := hF3' b hx
            omega
          · simp only [List.mem_append, not_or]
            exact ⟨haF, fun hx => by have := hF3' a hx; omega⟩
          · intro b hb
            rcases List.mem_cons.1 hb with rfl | hb
            · exact .inl (by simp)
            · rcases List.mem_append.1 hb with hb | hb
              · exact .inl (List.mem_cons_of_mem _ hb)
              · exact .inr (hF3' b hb)
      | some j =>
        obtain ⟨q, hq, rfl⟩ := hj
        simp only [Res.ok_bind, hm_pure]
        obtain ⟨t', o', hj'⟩ := findName_lt hf
        have hjl : j < o.length := (List.getElem?_eq_some_iff.1 hj').1
        obtain ⟨q', Fg, hq', hgq, hFg, hfoc⟩ := ho.focus hj'
        rw [hq] at hq'
        cases hq'
        obtain ⟨h2, F2, hr2, t2, hh2, hF2⟩ := clear_holds hs hgq
        refine .step hr2 ?_
        obtain ⟨r, h3, hr3, ⟨t3, F3, hh3, hw3⟩, _⟩ := addVal_holds (grow := grow) t2.solid hh2 hy
        have t23 : Turns Fg h h3 := t2.trans t3 fun b hb => .inl (hF2 b hb)
        have hw23 : Within h Fg F3 := Within.trans (fun b hb => .inl (hF2 b hb)) hw3 t2.le
        refine ⟨r, h3, hr3, t23.mono fun b hb => List.mem_cons_of_mem _ (hFg b hb), ?_⟩
        have hres := hfoc h3 Fg [] _ F3 t23 (fun b hb => .inl hb) nofun hh3 (by rw [List.append_nil]; exact hw23)
        have := back (t := t) hl hc haF t23 (fun hx => haF (hFg a hx)) (by simp) hres
        rw [List.append_nil] at this
        rw [set_modify o j _ hjl, List.getD_eq_getElem?_getD, hj']
        exact this

theorem create_holds {h : Heap} (hs : Solid h) {g : Graph} {p : Ptr} {F : List Nat} (hg : Holds h g p F) (nm : Bytes) :
    Gives (hCreate E grow fuel p nm) h (g.create E nm) fun q r h' => Done h F p r.1 h' ∧ ∃ X, Holds h' r.2 q X := by
  have hnil : Holds h .nil none [] := by unfold Holds; exact ⟨rfl, rfl⟩
  cases g with
  | nil =>
    unfold Holds at hg
    obtain ⟨rfl, rfl⟩ := hg
    have h1 : (hNode E fuel none nm).run h = (.ok none, h) := rfl
    unfold hCreate Graph.create
    refine .step h1 ?_
    unfold hAdd
    exact .pure ⟨⟨.refl hs, [], hnil, nofun⟩, [], hnil⟩
  | node t o =>
    obtain ⟨a, x, ps, F', rfl, rfl, haF, hl, hc, ho⟩ := hg.parts
    unfold hCreate Graph.create
    dsimp only
    have hsr := node_holds (E := E) (fuel := fuel) hs hl ho nm
    cases hf : findName E nm o with
    | oof => trivial
    | panic =>
      rw [hf] at hsr
      obtain ⟨h', hr⟩ := hsr
      exact ⟨h', panic_bind' hr⟩
    | ok j =>
      rw [hf] at hsr
      obtain ⟨q, h', hr, e, hj⟩ := hsr
      rw [e] at hr
      refine .step hr ?_
      simp only [Res.ok_bind]
      cases j with
      | none =>
        subst hj
        obtain ⟨q, h1, hr1, hd, hX⟩ := addVal_holds (grow := grow) hs hg (hstr nm)
        exact ⟨q, h1, hr1, hd, hX⟩
      | some j =>
        obtain ⟨q, hq, rfl⟩ := hj
        obtain ⟨t', o', hj'⟩ := findName_lt hf
        have hjl : j < o.length := (List.getElem?_eq_some_iff.1 hj').1
        obtain ⟨q', Fg, hq', hgq, hFg, hfoc⟩ := ho.focus hj'
        rw [hq] at hq'
        cases hq'
        obtain ⟨b, _, _, _, rfl, _⟩ := hgq.parts
        dsimp only
        obtain ⟨h2, F2, hr2, t2, hh2, hF2⟩ := clear_holds hs hgq
        refine .step hr2 ?_
        refine .pure ⟨⟨t2.mono fun b hb => List.mem_cons_of_mem _ (hFg b hb), ?_⟩, F2, ?_⟩
        · have hres := hfoc h2 Fg [] _ F2 t2 (fun b hb => .inl hb) nofun hh2 (fun b hb => .inl (by rw [List.append_nil]; exact hF2 b hb))
          have := back (t := t) hl hc haF t2 (fun hx => haF (hFg a hx)) (by simp) hres
          rw [List.append_nil] at this
          rw [set_modify o j _ hjl, List.getD_eq_getElem?_getD, hj']
          exact this
        · rw [hj']
          exact hh2

theorem getAt_holds {h : Heap} (hs : Solid h) {g : Graph} {p : Ptr} {F : List Nat} (hg : Holds h g p F) (i : Int) :
    Gives (hGetAt p i) h (g.getAt i) fun q n h' => h' = h ∧ ∃ X, Holds h n q X ∧ ∀ a ∈ X, a ∈ F := by
  cases g with
  | nil =>
    unfold Holds at hg
    obtain ⟨rfl, rfl⟩ := hg
    exact .panicked load_none
  | node t o =>
    obtain ⟨a, x, ps, F', rfl, rfl, haF, hl, hc, ho⟩ := hg.parts
    obtain ⟨c, hc', hld, hthis, hlen, _⟩ := load_look hs hl
    unfold hGetAt Graph.getAt
    refine .step hld ?_
    dsimp only
    have := ho.length
    rw [hlen, ← this]
    by_cases hi : i ≥ (o.length : Int) ∨ i < 0
    · simp only [hi, ↓reduceIte]
      exact .pure ⟨rfl, [], by unfold Holds; exact ⟨rfl, rfl⟩, nofun⟩
    · simp only [hi, ↓reduceIte]
      have hil : i.toNat < ps.length := by omega
      have hp := List.getElem?_eq_getElem hil
      obtain ⟨X, hX, hXF⟩ := Holds.child ho hp
      exact ⟨_, h, index_look hs hl hc' hp, rfl, X, hX, fun a ha => List.mem_cons_of_mem _ (hXF a ha)⟩

/-! ## Delete, DeleteAt -/

theorem deleteAt_holds {h : Heap} (hs : Solid h) {g : Graph} {p : Ptr} {F : List Nat} (hg : Holds h g p F) (i : Int) :
    ∃ h' F', (hDeleteAt grow p i).run h = (.ok (), h') ∧ Turns F h h' ∧ Holds h' (g.deleteAt i) p F' ∧ ∀ a ∈ F', a ∈ F := by
  cases g with
  | nil =>
    unfold Holds at hg
    obtain ⟨rfl, rfl⟩ := hg
    exact ⟨h, [], rfl, .refl hs, by unfold Graph.deleteAt Holds; exact ⟨rfl, rfl⟩, nofun⟩
  | node t o =>
    obtain ⟨a, x, ps, F', rfl, rfl, haF, hl, hc, ho⟩ := hg.parts
    obtain ⟨c, hc', hld, hthis, hlen, _⟩ := load_look hs hl
    have := ho.length
    unfold hDeleteAt Graph.deleteAt
    dsimp only
    rw [ok_bind' hld, hlen, ← this]
    by_cases hi : i < 0 ∨ i ≥ (o.length : Int)
    · simp only [hi, ↓reduceIte]
      exact ⟨h, _, rfl, .refl hs, hg, fun _ h => h⟩
    · simp only [hi, ↓reduceIte]
      obtain ⟨h1, hr, c1⟩ := remove_look (grow := grow) hs hl (i := i.toNat) (by omega)
      obtain ⟨F1, hF1, hsub⟩ := ho.erase (i := i.toNat) (by omega)
      refine ⟨h1, a :: F1, hr, c1.turns.mono (by simp), renode c1 hc hF1 fun hx => haF (hsub a hx), fun b hb => ?_⟩
      rcases List.mem_cons.1 hb with rfl | hb
      · exact List.mem_cons_self ..
      · exact List.mem_cons_of_mem _ (hsub b hb)

theorem hvalEq_content {x : HVal} {t n : Val} (hx : Content x t) (hn : ∀ g, n ≠ .graph g) : hvalEq E x (.val n) = itfEq E t n := by
  cases hx with
  | val _ => rfl
  | nil => cases n <;> first | rfl | exact absurd rfl (hn _)

theorem delete_loop {a : Nat} {x : HVal} {t n : Val} (hc : Content x t) (hn : ∀ g, n ≠ .graph g) :
    ∀ (k f i : Nat) (h : Heap) (ps : List Ptr) (o : List Graph) (F : List Nat), Solid h → look h a = some (x, ps) → HoldsL h o ps F → a ∉ F →
      o.length ≤ i + k → o.length ≤ i + f →
      Gives (hDeleteLoop E grow (some a) (.val n) k i) h (deleteLoop E n f i o) fun _ o' h' => Turns [a] h h' ∧
        ∃ F', Holds h' (.node t o') (some a) (a :: F') ∧ ∀ b ∈ F', b ∈ F
  | 0, f, i, h, ps, o, F, hs, hl, ho, haF, hk, hf => by
    have : deleteLoop E n f i o = .ok o := by
      cases f with
      | zero => rfl
      | succ f => rw [deleteLoop, List.getElem?_eq_none (by omega)]
    rw [this]
    unfold hDeleteLoop
    exact .pure ⟨.refl hs, F, Spec.Holds.mk hl hc ho haF, fun _ h => h⟩
  | k + 1, f, i, h, ps, o, F, hs, hl, ho, haF, hk, hf => by
    obtain ⟨c, hc', hld, hthis, hlen, _⟩ := load_look hs hl
    have hpo := ho.length
    unfold hDeleteLoop
    refine .step hld ?_
    rw [hlen]
    by_cases hi : i < ps.length
    · simp only [hi, ↓reduceIte]
      cases f with
      | zero => omega
      | succ f =>
      have hio : i < o.length := by omega
      have hoi := List.getElem?_eq_getElem hio
      obtain ⟨p, Fg, hp, hg, hFg, _⟩ := ho.focus hoi
      refine .step (index_look hs hl hc' hp) ?_
      rw [deleteLoop, hoi]
      cases hgi : o[i] with
      | nil =>
        dsimp only
        rw [hgi] at hg
        unfold Holds at hg
        rw [hg.1]
        exact .panicked load_none
      | node ti oi =>
        rw [hgi] at hg
        obtain ⟨m, y, pm, Fm, rfl, rfl, hmF, hlm, hcy, hom⟩ := hg.parts
        obtain ⟨cm, hcm, hldm, hthism, _, _⟩ := load_look hs hlm
        refine .step hldm ?_
        rw [hthism, hvalEq_content hcy hn]
        dsimp only
        cases he : itfEq E ti n with
        | oof => trivial
        | panic => exact .panicked (m := HM.lift .panic) (h' := h) rfl
        | ok b =>
          refine .step (a := b) (h' := h) rfl ?_
          cases b with
          | true =>
            simp only [↓reduceIte, Res.ok_bind]
            obtain ⟨h1, hr, c1⟩ := remove_look (grow := grow) hs hl hi
            obtain ⟨F1, hF1, hsub⟩ := ho.erase (i := i) hio
            have haF1 : a ∉ F1 := fun hx => haF (hsub a hx)
            have hkids : HoldsL h1 (o.eraseIdx i) (ps.eraseIdx i) F1 := hF1.turns c1.turns fun b hb hx => by
              simp only [List.mem_singleton] at hx
              subst hx
              exact haF1 hb
            have hlen' : (o.eraseIdx i).length = o.length - 1 := List.length_eraseIdx_of_lt hio
            refine .step hr (.mono (delete_loop hc hn k f i h1 _ _ F1 c1.solid (by rw [c1.look]; unfold upd; rw [if_pos rfl]) hkids haF1 (by omega) (by omega)) ?_)
            rintro _ o' h2 ⟨t2, F', hh, hw⟩
            exact ⟨c1.turns.trans t2 .refl, F', hh, fun b hb => hsub b (hw b hb)⟩
          | false =>
            simp only [Bool.false_eq_true, ↓reduceIte, Res.ok_bind]
            exact delete_loop hc hn k f (i + 1) h ps o F hs hl ho haF (by omega) (by omega)
    · simp only [hi, ↓reduceIte]
      have : deleteLoop E n f i o = .ok o := by
        cases f with
        | zero => rfl
        | succ f => rw [deleteLoop, List.getElem?_eq_none (by omega)]
      rw [this]
      exact .pure ⟨.refl hs, F, Spec.Holds.mk hl hc ho haF, fun _ h => h⟩

theorem delete_holds {h : Heap} (hs : Solid h) {g : Graph} {p : Ptr} {F : List Nat} (hg : Holds h g p F) {n : Val} (hn : ∀ g, n ≠ .graph g) :
    Gives (hDelete E grow p (.val n)) h (g.delete E n) fun _ g' h' => Turns F h h' ∧ ∃ F', Holds h' g' p F' ∧ ∀ a ∈ F', a ∈ F := by
  cases g with
  | nil =>
    unfold Holds at hg
    obtain ⟨rfl, rfl⟩ := hg
    exact .pure ⟨.refl hs, [], by unfold Holds; exact ⟨rfl, rfl⟩, nofun⟩
  | node t o =>
    obtain ⟨a, x, ps, F', rfl, rfl, haF, hl, hc, ho⟩ := hg.parts
    obtain ⟨c, hc', hld, hthis, hlen, _⟩ := load_look hs hl
    have := ho.length
    unfold hDelete Graph.delete
    dsimp only
    refine .step hld ?_
    rw [hlen]
    refine .map (delete_loop hc hn ps.length (o.length + 1) 0 h ps o F' hs hl ho haF (by omega) (by omega)) ?_
    rintro _ o' h' ⟨t1, F1, hh, hsub⟩
    refine ⟨t1.mono (by simp), a :: F1, hh, fun b hb => ?_⟩
    rcases List.mem_cons.1 hb with rfl | hb
    · exact List.mem_cons_self ..
    · exact List.mem_cons_of_mem _ (hsub b hb)

/-! ## AddNodes -/

theorem addNodes_holds {h : Heap} (hs : Solid h) {g x : Graph} {p q : Ptr} {F X : List Nat} (hg : Holds h g p F) (hx : Holds h x q X) (hd : ∀ a ∈ F, a ∉ X) :
    ∃ r h', (hAddNodes grow p q).run h = (.ok r, h') ∧ Turns F h h' ∧ ∃ F', Holds h' (g.addNodes x) p F' ∧ ∀ a ∈ F', a ∈ F ++ X := by
  cases g with
  | nil =>
    unfold Holds at hg
    obtain ⟨rfl, rfl⟩ := hg
    exact ⟨none, h, rfl, .refl hs, [], by unfold Graph.addNodes Holds; exact ⟨rfl, rfl⟩, nofun⟩
  | node t o =>
    obtain ⟨a, y, ps, F', rfl, rfl, haF, hl, hc, ho⟩ := hg.parts
    cases x with
    | nil =>
      unfold Holds at hx
      obtain ⟨rfl, rfl⟩ := hx
      exact ⟨none, h, rfl, .refl hs, _, hg, by simp⟩
    | node w xs =>
      obtain ⟨b, z, qs, X', rfl, rfl, hbX, hlb, hcz, hxs⟩ := hx.parts
      obtain ⟨cb, hcb, hldb, _, _, hel⟩ := load_look hs hlb
      obtain ⟨h1, hr, c1⟩ := kids_append (grow := grow) hs hl qs (some a)
      obtain ⟨ca, hca, hlda, _, _, _⟩ := load_look hs hl
      refine ⟨some a, h1, ?_, c1.turns.mono (by simp), a :: (F' ++ X'), ?_, ?_⟩
      · unfold hAddNodes
        dsimp only
        rw [ok_bind' hlda] at hr ⊢
        rw [ok_bind' hldb]
        have he : (HM.elems cb.out).run h = (.ok qs, h) := by
          show ((.ok ((h.array cb.out).take cb.out.len) : Res (List Ptr)), h) = _
          rw [hel]
        rw [ok_bind' he]
        exact hr
      · refine renode c1 hc (Spec.HoldsL.append ho hxs fun k hk hx => hd k (List.mem_cons_of_mem _ hk) (List.mem_cons_of_mem _ hx)) ?_
        simp only [List.mem_append, not_or]
        exact ⟨haF, fun hx => hd a (List.mem_cons_self ..) (List.mem_cons_of_mem _ hx)⟩
      · intro k hk
        simp only [List.mem_cons, List.mem_append] at hk ⊢
        rcases hk with hk | hk | hk
        · exact .inl (.inl hk)
        · exact .inl (.inr hk)
        · exact .inr (.inr hk)

/-- `Add` of a graph. -/
theorem addGraph_holds {h : Heap} (hs : Solid h) {g : Graph} {t : Val} {o : List Graph} {p q : Ptr} {F X : List Nat} (hg : Holds h g p F) (hx : Holds h (.node t o) q X)
    (hd : ∀ a ∈ F, a ∉ X) :
    ∃ r h', (hAdd grow p (.ptr q)).run h = (.ok r, h') ∧ Turns F h h' ∧ ∃ F', Holds h' (g.add (.graph (.node t o))).1 p F' ∧ ∀ a ∈ F', a ∈ F ++ X := by
  obtain ⟨b, z, qs, X', rfl, rfl, hbX, hlb, hcz, hxs⟩ := hx.parts
  cases g with
  | nil =>
    unfold Holds at hg
    obtain ⟨rfl, rfl⟩ := hg
    exact ⟨none, h, rfl, .refl hs, [], by unfold Graph.add Holds; exact ⟨rfl, rfl⟩, nofun⟩
  | node w xs =>
    obtain ⟨a, y, ps, F', rfl, rfl, haF, hl, hc, ho⟩ := hg.parts
    obtain ⟨h1, hr, c1⟩ := add_ptr (grow := grow) hs hl (b := b)
    refine ⟨some b, h1, hr, c1.turns.mono (by simp), a :: (F' ++ (b :: X')), ?_, by simp⟩
    refine renode c1 hc (Spec.HoldsL.append ho (Spec.HoldsL.one hx) fun k hk => hd k (List.mem_cons_of_mem _ hk)) ?_
    have := hd a (List.mem_cons_self ..)
    simp only [List.mem_append, not_or]
    exact ⟨haF, this⟩

end Ogdl
