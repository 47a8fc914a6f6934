import Verif.Lemmas.Joint

/-!
# Processing a template in shared memory
-/

namespace Ogdl
open Spec HM

variable {E : Ext} {grow : Nat → Nat → Nat} {i : Nat} {F F' : List Nat} {w : World}

/-- The results of a goroutine and of a computation on trees. -/
def Agrees (r : Res α) (Q : β → α → Prop) : Res β → Prop
  | .ok b => ∃ a, r = .ok a ∧ Q b a
  | .panic => r = .panic
  | .oof => False

/-- With enough fuel goroutine `i` ends as `r` does, changing only the nodes at `F` among those
that were there and that it looks at, whatever other goroutines do in between. -/
def Joins (i : Nat) (F : List Nat) (w : World) (τ : Nat → Job β) (r : Res α) (Q : β → α → World → Prop) : Prop :=
  r = .oof ∨ Bears i (fun x w' => Keep i F w w' ∧ Agrees r (fun b a => Q b a w') x) w τ

namespace Joins

theorem bind' {τ : Nat → Job β} {f : Nat → β → Job δ} {r : Res α} {kr : α → Res γ} {Q : β → α → World → Prop} {Q' : δ → γ → World → Prop}
    (h1 : Joins i F w τ r Q) (h2 : ∀ b a w', Keep i F w w' → Q b a w' → ∃ F', (∀ x ∈ F', x ∈ F ∨ w.size ≤ x) ∧ Joins i F' w' (fun n => f n b) (kr a) Q') :
    Joins i F w (fun n => (τ n).andThen (f n)) (r >>= kr) Q' := by
  cases r with
  | oof => exact .inl rfl
  | panic =>
    refine .inr ?_
    rcases h1 with h1 | h1
    · cases h1
    unfold Job.andThen
    refine h1.bind fun x w' hx => ?_
    obtain ⟨kp, hx⟩ := hx
    cases x with
    | ok b => obtain ⟨a, e, _⟩ := hx; cases e
    | panic => exact .done .panic 0 (fun _ _ => rfl) ⟨kp, rfl⟩
    | oof => exact hx.elim
  | ok a =>
    by_cases ho : kr a = .oof
    · exact .inl ho
    refine .inr ?_
    rcases h1 with h1 | h1
    · cases h1
    unfold Job.andThen
    refine h1.bind fun x w' hx => ?_
    obtain ⟨kp, hx⟩ := hx
    cases x with
    | ok b =>
      obtain ⟨a', e, hq⟩ := hx
      cases e
      obtain ⟨F', hF, h2⟩ := h2 b a w' kp hq
      rcases h2 with h2 | h2
      · exact absurd h2 ho
      · refine h2.mono fun y w'' hy => ?_
        exact ⟨kp.trans hy.1 hF, hy.2⟩
    | panic => cases hx
    | oof => exact hx.elim

theorem bind {τ : Nat → Job β} {f : Nat → β → Job δ} {r : Res α} {kr : α → Res γ} {Q : β → α → World → Prop} {Q' : δ → γ → World → Prop}
    (h1 : Joins i F w τ r Q) (hF : ∀ b ∈ F', b ∈ F ∨ w.size ≤ b) (h2 : ∀ b a w', Keep i F w w' → Q b a w' → Joins i F' w' (fun n => f n b) (kr a) Q') :
    Joins i F w (fun n => (τ n).andThen (f n)) (r >>= kr) Q' := bind' h1 fun b a w' kp hq => ⟨F', hF, h2 b a w' kp hq⟩

theorem ret (hs : Solid w.heap) {b : β} {a : α} {Q : β → α → World → Prop} (hq : Q b a w) : Joins i F w (fun _ => Job.ret b) (.ok a) Q :=
  .inr (.done (.ok b) 0 (fun _ _ => rfl) ⟨.refl hs, a, rfl, hq⟩)

theorem mono {τ : Nat → Job β} {r : Res α} {Q Q' : β → α → World → Prop} (h : Joins i F w τ r Q) (hq : ∀ b a w', Keep i F w w' → Q b a w' → Q' b a w') : Joins i F w τ r Q' := by
  rcases h with h | h
  · exact .inl h
  · refine .inr (h.mono fun x w' hx => ⟨hx.1, ?_⟩)
    cases x with
    | ok b =>
      obtain ⟨a, e, hh⟩ := hx.2
      exact ⟨a, e, hq b a w' hx.1 hh⟩
    | panic => exact hx.2
    | oof => exact hx.2

theorem weaken {τ : Nat → Job β} {r : Res α} {Q : β → α → World → Prop} (h : Joins i F w τ r Q) (hF : ∀ b ∈ F, b ∈ F') : Joins i F' w τ r Q := by
  rcases h with h | h
  · exact .inl h
  · exact .inr (h.mono fun x w' hx => ⟨hx.1.mono hF, hx.2⟩)

theorem lifted {f : Nat → α → Job δ} {r : Res α} {kr : α → Res γ} {Q' : δ → γ → World → Prop} (hs : Solid w.heap)
    (h2 : ∀ a, r = .ok a → Joins i F w (fun n => f n a) (kr a) Q') : Joins i F w (fun n => (Job.lift r).andThen (f n)) (r >>= kr) Q' := by
  cases r with
  | ok a => exact h2 a rfl
  | panic =>
    refine .inr ?_
    exact .done .panic 0 (fun _ _ => rfl) ⟨.refl hs, rfl⟩
  | oof => exact .inl rfl

/-- One step. -/
theorem atom {hm : Nat → HM β} {r : Res α} {Q : β → α → World → Prop} (hF : ∀ b ∈ F, b < w.size ∧ w.own b = some i)
    (h : ∀ w', Keep i [] w w' → Comes F hm w'.heap r fun b a h => Q b a (w'.next i h)) : Joins i F w (fun n => Job.atom (hm n)) r Q := by
  have fin : ∀ (x : Res β) (w' : World) (h : Heap), Keep i [] w w' → Turns F w'.heap h → Agrees r (fun b a => Q b a (w'.next i h)) x →
      Bears i (fun x w' => Keep i F w w' ∧ Agrees r (fun b a => Q b a w') x) (w'.next i h) fun _ => Thread.done x := by
    intro x w' h kp tn ha
    exact .done x 0 (fun _ _ => rfl) ⟨(kp.mono nofun).trans (next_keep tn) fun _ hb => .inl hb, ha⟩
  have acts : ∀ (w' : World) (h : Heap), Keep i [] w w' → Turns F w'.heap h → Acts i w' (w'.next i h) := fun w' h kp tn =>
    next_acts tn fun b hb _ => (kp.own b (hF b hb).1).trans (hF b hb).2
  cases r with
  | oof => exact .inl rfl
  | ok a =>
    refine .inr ?_
    · refine .step fun w' kp => ?_
      obtain ⟨N, b, h', hr, tn, hq⟩ := h w' kp
      exact ⟨N, w'.next i h', fun _ => .done (.ok b), fun n hn => ⟨fun s => ((hm n).run s).2, fun s => .done ((hm n).run s).1, rfl, by simp only [hr n hn]; rfl, by simp only [hr n hn]⟩, acts w' h' kp tn, fin (.ok b) w' h' kp tn ⟨a, rfl, hq⟩⟩
  | panic =>
    refine .inr ?_
    · refine .step fun w' kp => ?_
      obtain ⟨N, h', hr, tn⟩ := h w' kp
      exact ⟨N, w'.next i h', fun _ => .done .panic, fun n hn => ⟨fun s => ((hm n).run s).2, fun s => .done ((hm n).run s).1, rfl, by simp only [hr n hn]; rfl, by simp only [hr n hn]⟩, acts w' h' kp tn, fin .panic w' h' kp tn rfl⟩

theorem ite {c : Prop} [Decidable c] {τ τ' : Nat → Job β} {r r' : Res α} {Q : β → α → World → Prop} (h1 : c → Joins i F w τ r Q) (h2 : ¬ c → Joins i F w τ' r' Q) :
    Joins i F w (fun n => if c then τ n else τ' n) (if c then r else r') Q := by
  by_cases hc : c
  · simp only [hc, ↓reduceIte]; exact h1 hc
  · simp only [hc, ↓reduceIte]; exact h2 hc

/-- A step without counterpart. -/
theorem go' {hm : Nat → HM β} {f : Nat → β → Job δ} {I : β → World → Prop} {r : Res α} {Q : δ → α → World → Prop} (F1 : List Nat) (hF1 : ∀ b ∈ F1, b ∈ F ∧ b < w.size ∧ w.own b = some i)
    (h : ∀ w', Keep i [] w w' → ∃ N b h', (∀ n, N ≤ n → (hm n).run w'.heap = (.ok b, h')) ∧ Turns F1 w'.heap h' ∧ I b (w'.next i h'))
    (h2 : ∀ b w', Keep i F1 w w' → I b w' → ∃ F', (∀ x ∈ F', x ∈ F ∨ w.size ≤ x) ∧ Joins i F' w' (fun n => f n b) r Q) : Joins i F w (fun n => (Job.atom (hm n)).andThen (f n)) r Q := by
  have h1 : Joins i F1 w (fun n => Job.atom (hm n)) (.ok ()) fun b _ w' => Keep i F1 w w' ∧ I b w' := by
    refine mono (atom (Q := fun b _ w' => I b w') (fun b hb => (hF1 b hb).2) fun w' kp => ?_) fun b a w' kp hI => ⟨kp, hI⟩
    obtain ⟨N, b, h', hr, tn, hI⟩ := h w' kp
    exact ⟨N, b, h', hr, tn, hI⟩
  exact bind' (kr := fun _ => r) (weaken h1 fun b hb => (hF1 b hb).1) fun b _ w' _ hI => h2 b w' hI.1 hI.2

theorem go {hm : Nat → HM β} {f : Nat → β → Job δ} {I : β → World → Prop} {r : Res α} {Q : δ → α → World → Prop} (F1 : List Nat) (hF1 : ∀ b ∈ F1, b ∈ F ∧ b < w.size ∧ w.own b = some i)
    (hF : ∀ b ∈ F', b ∈ F ∨ w.size ≤ b)
    (h : ∀ w', Keep i [] w w' → ∃ N b h', (∀ n, N ≤ n → (hm n).run w'.heap = (.ok b, h')) ∧ Turns F1 w'.heap h' ∧ I b (w'.next i h'))
    (h2 : ∀ b w', Keep i F1 w w' → I b w' → Joins i F' w' (fun n => f n b) r Q) : Joins i F w (fun n => (Job.atom (hm n)).andThen (f n)) r Q :=
  go' F1 hF1 h fun b w' kp hI => ⟨F', hF, h2 b w' kp hI⟩

end Joins

/-! ## The context -/

/-- The context of goroutine `i`. -/
structure On (i : Nat) (a : Nat) (A : List Nat) (w : World) (t : Val) (zs : List (Graph × Ptr)) : Prop where
  live : Live (w.sees i) a A w.heap t zs
  own : ∀ b ∈ A, w.own b = some i

theorem fresh_sees {w : World} : Fresh (w.sees i) w.heap := fun b hb h => absurd h (by unfold World.size; omega)

theorem Live.shift {Z Z' : Nat → Prop} {a : Nat} {A : List Nat} {h h' : Heap} {t : Val} {zs : List (Graph × Ptr)} (l : Live Z a A h t zs) (hs : Solid h') (hle : h.nodes.length ≤ h'.nodes.length)
    (hf : Fresh Z' h') (hZ : ∀ b, b < h.nodes.length → Z b → Z' b ∧ look h' b = look h b) : Live Z' a A h' t zs := by
  have hP : ∀ b, Stay Z A b → b < h.nodes.length → Stay Z' A b ∧ look h' b = look h b := fun b hb hlt => ⟨⟨hb.1, (hZ b hlt hb.2).1⟩, (hZ b hlt hb.2).2⟩
  have hN : ∀ b, Under Z a b → b < h.nodes.length → Under Z' a b ∧ look h' b = look h b := fun b hb hlt => ⟨⟨hb.1, (hZ b hlt hb.2).1⟩, (hZ b hlt hb.2).2⟩
  obtain ⟨x, hl, hx⟩ := l.root
  have ha := l.below a l.mem
  exact ⟨hs, ⟨x, (hZ a ha (l.zone a l.mem)).2.trans hl, hx.frame t hP⟩, fun z hz => ⟨(l.kids z hz).1, (l.kids z hz).2.frame hP hN⟩, l.nodup, l.mem,
    fun b hb => Nat.lt_of_lt_of_le (l.below b hb) hle, fun b hb => (hZ b (l.below b hb) (l.zone b hb)).1, hf⟩

namespace On

variable {a : Nat} {A : List Nat} {t : Val} {zs : List (Graph × Ptr)} {w' : World}

theorem solid (o : On i a A w t zs) : Solid w.heap := o.live.solid

theorem keep (o : On i a A w t zs) (k : Keep i [] w w') : On i a A w' t zs :=
  ⟨o.live.shift k.solid k.le fresh_sees fun b hb hs => ⟨k.sees hb hs, (k.keep b hb hs nofun).2⟩, fun b hb => (k.own b (o.live.below b hb)).trans (o.own b hb)⟩

/-- After a step of the goroutine. -/
theorem next {A' : List Nat} {zs' : List (Graph × Ptr)} {h : Heap} (o : On i a A w t zs) (l : Live (w.sees i) a A' h t zs') (hA : ∀ b ∈ A', b ∈ A ∨ w.size ≤ b) :
    On i a A' (w.next i h) t zs' := by
  refine ⟨l.shift l.solid (Nat.le_refl _) fresh_sees fun b _ hs => ⟨next_sees hs, rfl⟩, fun b hb => ?_⟩
  unfold World.next
  dsimp only
  rcases hA b hb with hb | hb
  · rw [if_pos (show b < w.size from o.live.below b hb)]; exact o.own b hb
  · rw [if_neg (by omega)]

theorem roots (o : On i a A w t zs) : ∀ b ∈ [a], b < w.size ∧ w.own b = some i := fun b hb => by
  rw [List.mem_singleton] at hb
  subst hb
  exact ⟨o.live.below _ o.live.mem, o.own _ o.live.mem⟩

end On

theorem Keep.stay {w w' : World} {A A' : List Nat} (k : Keep i F w w') (hF : ∀ b ∈ F, b ∈ A) (hA : ∀ b ∈ A', b ∈ A ∨ w.size ≤ b) :
    ∀ b, Stay (w.sees i) A b → b < w.heap.nodes.length → Stay (w'.sees i) A' b ∧ look w'.heap b = look w.heap b := fun b hb hlt => by
  refine ⟨⟨fun hx => ?_, k.sees hlt hb.2⟩, (k.keep b hlt hb.2 fun hx => hb.1 (hF b hx)).2⟩
  rcases hA b hx with h | h
  · exact hb.1 h
  · exact absurd hlt (by unfold World.size at h; omega)

end Ogdl
