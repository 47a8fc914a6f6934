import Verif.Lemmas.Look
import Verif.Model.Eval

/-!
# Memory that holds a tree: general facts
-/

namespace Ogdl
open Spec HM

variable {E : Ext} {grow : Nat → Nat → Nat} {fuel : Nat}

/-- Memory stays solid and changes at `F` and in new nodes only. -/
structure Turns (F : List Nat) (h h' : Heap) : Prop where
  solid : Solid h'
  le : h.nodes.length ≤ h'.nodes.length
  keep : ∀ a, a < h.nodes.length → a ∉ F → h'.nodes[a]? = h.nodes[a]? ∧ look h' a = look h a

theorem Turns.refl {F : List Nat} {h : Heap} (hs : Solid h) : Turns F h h := ⟨hs, Nat.le_refl _, fun _ _ _ => ⟨rfl, rfl⟩⟩

theorem Turns.only {F : List Nat} {h h' : Heap} (t : Turns F h h') : OnlyAt F h h' := fun a ha hF => (t.keep a ha hF).2

theorem Turns.trans {F F' : List Nat} {h h' h'' : Heap} (t : Turns F h h') (t' : Turns F' h' h'') (hw : Within h F F') : Turns F h h'' := by
  refine ⟨t'.solid, Nat.le_trans t.le t'.le, fun a ha hF => ?_⟩
  have hF' : a ∉ F' := fun hx => by
    rcases hw a hx with hx | hx
    · exact hF hx
    · omega
  obtain ⟨h1, h2⟩ := t.keep a ha hF
  obtain ⟨h3, h4⟩ := t'.keep a (Nat.lt_of_lt_of_le ha t.le) hF'
  exact ⟨h3.trans h1, h4.trans h2⟩

theorem Turns.mono {F F' : List Nat} {h h' : Heap} (t : Turns F h h') (hF : ∀ a ∈ F, a ∈ F') : Turns F' h h' :=
  ⟨t.solid, t.le, fun a ha hx => t.keep a ha fun h => hx (hF a h)⟩

theorem Chg.turns {h h' : Heap} {g : Nat} {y : HVal × List Ptr} (c : Chg h h' g y) : Turns [g] h h' :=
  ⟨c.solid, Nat.le_of_eq c.len.symm, fun a _ hx => by
    have hne : a ≠ g := by simpa using hx
    exact ⟨c.keep a hne, by rw [c.look]; unfold upd; rw [if_neg hne]⟩⟩

theorem Spec.Within.refl {h : Heap} {F : List Nat} : Within h F F := fun _ ha => .inl ha

theorem Spec.Within.trans {h h' : Heap} {F F' F'' : List Nat} (hw : Within h F F') (hw' : Within h' F' F'') (hl : h.nodes.length ≤ h'.nodes.length) :
    Within h F F'' := by
  intro a ha
  rcases hw' a ha with hx | hx
  · exact hw a hx
  · exact .inr (Nat.le_trans hl hx)

/-! ## Trees in memory -/

mutual
theorem Spec.Holds.frame {h h' : Heap} : ∀ (g : Graph) {p : Ptr} {F : List Nat}, (∀ a ∈ F, look h' a = look h a) → Holds h g p F → Holds h' g p F
  | .nil, _, _, _, hh => by unfold Holds at hh ⊢; exact hh
  | .node v gs, p, F, hl, hh => by
    unfold Holds at hh ⊢
    obtain ⟨a, x, ps, F', e1, e2, hn, hx, hc, hr⟩ := hh
    subst e2
    exact ⟨a, x, ps, F', e1, rfl, hn, by rw [hl a (List.mem_cons_self ..)]; exact hx, hc,
      Spec.HoldsL.frame gs (fun b hb => hl b (List.mem_cons_of_mem _ hb)) hr⟩
theorem Spec.HoldsL.frame {h h' : Heap} : ∀ (gs : List Graph) {ps : List Ptr} {F : List Nat}, (∀ a ∈ F, look h' a = look h a) → HoldsL h gs ps F → HoldsL h' gs ps F
  | [], _, _, _, hh => by unfold HoldsL at hh ⊢; exact hh
  | g :: gs, ps, F, hl, hh => by
    unfold HoldsL at hh ⊢
    obtain ⟨p, ps', F1, F2, e1, e2, hd, hg, hr⟩ := hh
    subst e2
    exact ⟨p, ps', F1, F2, e1, rfl, hd, Spec.Holds.frame g (fun b hb => hl b (List.mem_append_left _ hb)) hg,
      Spec.HoldsL.frame gs (fun b hb => hl b (List.mem_append_right _ hb)) hr⟩
end

mutual
theorem Spec.Holds.lt {h : Heap} : ∀ (g : Graph) {p : Ptr} {F : List Nat}, Holds h g p F → ∀ a ∈ F, a < h.nodes.length
  | .nil, _, _, hh => by unfold Holds at hh; rw [hh.2]; nofun
  | .node v gs, p, F, hh => by
    unfold Holds at hh
    obtain ⟨a, x, ps, F', _, e2, _, hx, _, hr⟩ := hh
    subst e2
    intro b hb
    rcases List.mem_cons.1 hb with rfl | hb
    · exact look_lt hx
    · exact Spec.HoldsL.lt gs hr b hb
theorem Spec.HoldsL.lt {h : Heap} : ∀ (gs : List Graph) {ps : List Ptr} {F : List Nat}, HoldsL h gs ps F → ∀ a ∈ F, a < h.nodes.length
  | [], _, _, hh => by unfold HoldsL at hh; rw [hh.2]; nofun
  | g :: gs, ps, F, hh => by
    unfold HoldsL at hh
    obtain ⟨p, ps', F1, F2, _, e2, _, hg, hr⟩ := hh
    subst e2
    intro b hb
    rcases List.mem_append.1 hb with hb | hb
    · exact Spec.Holds.lt g hg b hb
    · exact Spec.HoldsL.lt gs hr b hb
end

/-- A tree is untouched by changes elsewhere. -/
theorem Spec.Holds.turns {h h' : Heap} {g : Graph} {p : Ptr} {F X : List Nat} (hh : Holds h g p X) (t : Turns F h h') (hd : ∀ a ∈ X, a ∉ F) : Holds h' g p X :=
  hh.frame g fun a ha => (t.keep a (hh.lt g a ha) (hd a ha)).2

theorem Spec.HoldsL.turns {h h' : Heap} {gs : List Graph} {ps : List Ptr} {F X : List Nat} (hh : HoldsL h gs ps X) (t : Turns F h h') (hd : ∀ a ∈ X, a ∉ F) :
    HoldsL h' gs ps X :=
  hh.frame gs fun a ha => (t.keep a (hh.lt gs a ha) (hd a ha)).2

theorem Spec.HoldsL.nil {h : Heap} : HoldsL h [] [] [] := by unfold HoldsL; exact ⟨rfl, rfl⟩

theorem Spec.HoldsL.cons {h : Heap} {g : Graph} {gs : List Graph} {p : Ptr} {ps : List Ptr} {F1 F2 : List Nat} (h1 : Holds h g p F1) (h2 : HoldsL h gs ps F2)
    (hd : ∀ a ∈ F1, a ∉ F2) : HoldsL h (g :: gs) (p :: ps) (F1 ++ F2) := by
  unfold HoldsL
  exact ⟨p, ps, F1, F2, rfl, rfl, hd, h1, h2⟩

theorem Spec.HoldsL.one {h : Heap} {g : Graph} {p : Ptr} {F : List Nat} (h1 : Holds h g p F) : HoldsL h [g] [p] F := by
  have := Spec.HoldsL.cons h1 Spec.HoldsL.nil (fun _ _ => by nofun)
  rwa [List.append_nil] at this

theorem Spec.HoldsL.append {h : Heap} : ∀ {gs : List Graph} {ps : List Ptr} {F : List Nat} {gs' : List Graph} {ps' : List Ptr} {F' : List Nat},
    HoldsL h gs ps F → HoldsL h gs' ps' F' → (∀ a ∈ F, a ∉ F') → HoldsL h (gs ++ gs') (ps ++ ps') (F ++ F')
  | [], _, _, _, _, _, h1, h2, _ => by
    unfold HoldsL at h1
    obtain ⟨rfl, rfl⟩ := h1
    exact h2
  | g :: gs, _, _, gs', ps', F', h1, h2, hd => by
    unfold HoldsL at h1
    obtain ⟨p, ps, F1, F2, rfl, rfl, hd1, hg, hr⟩ := h1
    have := Spec.HoldsL.append hr h2 fun a ha => hd a (List.mem_append_right _ ha)
    have := Spec.HoldsL.cons hg this fun a ha hx => by
      rcases List.mem_append.1 hx with hx | hx
      · exact hd1 a ha hx
      · exact hd a (List.mem_append_left _ ha) hx
    rwa [← List.append_assoc] at this

/-- A list of trees in memory around the tree at one place. -/
theorem Spec.HoldsL.split {h : Heap} : ∀ {gs : List Graph} {ps : List Ptr} {F : List Nat}, HoldsL h gs ps F → ∀ {i : Nat} {g : Graph}, gs[i]? = some g →
    ∃ p ps1 ps2 F1 Fg F2, ps = ps1 ++ p :: ps2 ∧ ps1.length = i ∧ F = F1 ++ (Fg ++ F2) ∧ HoldsL h (gs.take i) ps1 F1 ∧ Holds h g p Fg ∧
      HoldsL h (gs.drop (i + 1)) ps2 F2 ∧ (∀ a ∈ F1, a ∉ Fg ∧ a ∉ F2) ∧ (∀ a ∈ Fg, a ∉ F2)
  | [], _, _, _, i, g, hi => by simp at hi
  | g0 :: gs, ps, F, h1, 0, g, hi => by
    unfold HoldsL at h1
    obtain ⟨p, ps, F1, F2, rfl, rfl, hd1, hg, hr⟩ := h1
    cases hi
    exact ⟨p, [], ps, [], F1, F2, rfl, rfl, rfl, Spec.HoldsL.nil, hg, hr, nofun, hd1⟩
  | g0 :: gs, ps, F, h1, i + 1, g, hi => by
    unfold HoldsL at h1
    obtain ⟨p0, ps, F1, F2, rfl, rfl, hd1, hg, hr⟩ := h1
    obtain ⟨p, ps1, ps2, X1, Xg, X2, rfl, hl, rfl, a1, a2, a3, a4, a5⟩ := Spec.HoldsL.split hr (i := i) (g := g) (by simpa using hi)
    refine ⟨p, p0 :: ps1, ps2, F1 ++ X1, Xg, X2, rfl, by simp [hl], by simp, ?_, a2, a3, ?_, a5⟩
    · exact Spec.HoldsL.cons hg a1 fun a ha hx => hd1 a ha (List.mem_append_left _ hx)
    · intro a ha
      rcases List.mem_append.1 ha with ha | ha
      · have := hd1 a ha
        simp only [List.mem_append, not_or] at this
        exact this.2
      · exact a4 a ha

theorem Spec.HoldsL.length {h : Heap} : ∀ {gs : List Graph} {ps : List Ptr} {F : List Nat}, HoldsL h gs ps F → gs.length = ps.length
  | [], _, _, h1 => by unfold HoldsL at h1; rw [h1.1]; rfl
  | g :: gs, _, _, h1 => by
    unfold HoldsL at h1
    obtain ⟨p, ps, F1, F2, rfl, rfl, _, _, hr⟩ := h1
    simp [Spec.HoldsL.length hr]

/-- A node whose content and subnodes are replaced. -/
theorem renode {h h' : Heap} {a : Nat} {x : HVal} {v : Val} {ps : List Ptr} {gs : List Graph} {F : List Nat} (c : Chg h h' a (x, ps))
    (hc : Content x v) (hl : HoldsL h gs ps F) (ha : a ∉ F) : Holds h' (.node v gs) (some a) (a :: F) := by
  unfold Holds
  refine ⟨a, x, ps, F, rfl, rfl, ha, by rw [c.look]; unfold upd; rw [if_pos rfl], hc, hl.turns c.turns fun b hb hx => ?_⟩
  simp only [List.mem_singleton] at hx
  subst hx
  exact ha hb

/-- The parts of a node. -/
theorem Spec.Holds.parts {h : Heap} {v : Val} {gs : List Graph} {p : Ptr} {F : List Nat} (hh : Holds h (.node v gs) p F) :
    ∃ a x ps F', p = some a ∧ F = a :: F' ∧ a ∉ F' ∧ look h a = some (x, ps) ∧ Content x v ∧ HoldsL h gs ps F' := by
  unfold Holds at hh
  exact hh

theorem Spec.Holds.mk {h : Heap} {v : Val} {gs : List Graph} {a : Nat} {x : HVal} {ps : List Ptr} {F : List Nat} (hl : look h a = some (x, ps)) (hc : Content x v)
    (hg : HoldsL h gs ps F) (ha : a ∉ F) : Holds h (.node v gs) (some a) (a :: F) := by
  unfold Holds
  exact ⟨a, x, ps, F, rfl, rfl, ha, hl, hc, hg⟩

/-! ## Results -/

/-- The computation ends as `r` does, and if `r` is a result, `Q` relates the two. -/
def Gives (m : HM α) (h : Heap) (r : Res β) (Q : α → β → Heap → Prop) : Prop :=
  match r with
  | .ok b => ∃ a h', m.run h = (.ok a, h') ∧ Q a b h'
  | .panic => ∃ h', m.run h = (.panic, h')
  | .oof => True

theorem panic_bind' {m : HM α} {f : α → HM β} {h h' : Heap} (hm : m.run h = (.panic, h')) : (m >>= f).run h = (.panic, h') := by
  show (HM.bind m f).run h = _
  unfold HM.bind
  dsimp only
  rw [hm]

theorem Gives.bind {m : HM α} {f : α → HM γ} {h : Heap} {r : Res β} {k : β → Res δ} {Q : α → β → Heap → Prop} {Q' : γ → δ → Heap → Prop}
    (hm : Gives m h r Q) (hf : ∀ a b h', Q a b h' → Gives (f a) h' (k b) Q') : Gives (m >>= f) h (r >>= k) Q' := by
  cases r with
  | ok b =>
    obtain ⟨a, h', hr, hq⟩ := hm
    have := hf a b h' hq
    show Gives (m >>= f) h (k b) Q'
    unfold Gives at this ⊢
    rw [ok_bind' hr]
    exact this
  | panic =>
    obtain ⟨h', hr⟩ := hm
    exact ⟨h', panic_bind' hr⟩
  | oof => trivial

theorem Gives.mono {m : HM α} {h : Heap} {r : Res β} {Q Q' : α → β → Heap → Prop} (hm : Gives m h r Q) (hq : ∀ a b h', Q a b h' → Q' a b h') : Gives m h r Q' := by
  cases r with
  | ok b =>
    obtain ⟨a, h', hr, h1⟩ := hm
    exact ⟨a, h', hr, hq _ _ _ h1⟩
  | panic => exact hm
  | oof => trivial

/-- A step without counterpart. -/
theorem Gives.step {m : HM α} {f : α → HM γ} {h h' : Heap} {a : α} {r : Res β} {Q : γ → β → Heap → Prop} (hm : m.run h = (.ok a, h'))
    (hf : Gives (f a) h' r Q) : Gives (m >>= f) h r Q := by
  unfold Gives at hf ⊢
  rw [ok_bind' hm]
  exact hf

theorem Gives.pure {h : Heap} {a : α} {b : β} {Q : α → β → Heap → Prop} (hq : Q a b h) : Gives (Pure.pure a : HM α) h (.ok b) Q := ⟨a, h, rfl, hq⟩

theorem load_none {h : Heap} : (HM.load none).run h = (.panic, h) := rfl

theorem hstring_content {x : HVal} {v : Val} (hc : Content x v) (f : Nat) (h : Heap) : (hstring E f x).run h = (.ok (vstr E v), h) := by
  cases hc with
  | val _ => cases f <;> (unfold hstring; rfl)
  | nil => cases f <;> (unfold hstring; rfl)

end Ogdl
