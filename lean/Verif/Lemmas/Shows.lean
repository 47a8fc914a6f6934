import Verif.Spec.HeapEval
import Verif.Lemmas.RefineRun
import Verif.Lemmas.Read

/-!
# Computations on memory that shows a tree
-/

namespace Ogdl
open Spec HM

variable {E : Ext} {grow : Nat → Nat → Nat} {P P' : Nat → Prop}

/-! ## Trees shown -/

mutual
theorem Spec.Shows.frame {h h' : Heap} : ∀ (g : Graph) {p : Ptr}, (∀ a, P a → a < h.nodes.length → P' a ∧ look h' a = look h a) → Shows P h g p → Shows P' h' g p
  | .nil, _, _, hh => by unfold Shows at hh ⊢; exact hh
  | .node v gs, p, hl, hh => by
    unfold Shows at hh ⊢
    obtain ⟨a, x, ps, e, hp, hx, hv, hr⟩ := hh
    have := hl a hp (look_lt hx)
    exact ⟨a, x, ps, e, this.1, by rw [this.2]; exact hx, Spec.ShowsV.frame v hl hv, Spec.ShowsL.frame gs hl hr⟩
theorem Spec.ShowsV.frame {h h' : Heap} : ∀ (v : Val) {x : HVal}, (∀ a, P a → a < h.nodes.length → P' a ∧ look h' a = look h a) → ShowsV P h v x → ShowsV P' h' v x
  | .graph g, _, hl, hh => by
    unfold ShowsV at hh ⊢
    obtain ⟨p, e, hg⟩ := hh
    exact ⟨p, e, Spec.Shows.frame g hl hg⟩
  | .nil, _, _, hh | .str _, _, _, hh | .bytes _, _, _, hh | .bool _, _, _, hh | .int _ _, _, _, hh | .f64 _, _, _, hh | .f32 _, _, _, hh
  | .other _, _, _, hh => by
    unfold ShowsV at hh ⊢
    exact hh
theorem Spec.ShowsL.frame {h h' : Heap} : ∀ (gs : List Graph) {ps : List Ptr}, (∀ a, P a → a < h.nodes.length → P' a ∧ look h' a = look h a) → ShowsL P h gs ps → ShowsL P' h' gs ps
  | [], _, _, hh => by unfold ShowsL at hh ⊢; exact hh
  | g :: gs, ps, hl, hh => by
    unfold ShowsL at hh ⊢
    obtain ⟨hn, p, ps', e, hg, hr⟩ := hh
    exact ⟨hn, p, ps', e, Spec.Shows.frame g hl hg, Spec.ShowsL.frame gs hl hr⟩
end

theorem Spec.Shows.turns {h h' : Heap} {g : Graph} {p : Ptr} (hg : Shows P h g p) (t : Turns [] h h') : Shows P h' g p :=
  hg.frame g fun a hp ha => ⟨hp, (t.keep a ha nofun).2⟩
theorem Spec.ShowsV.turns {h h' : Heap} {v : Val} {x : HVal} (hg : ShowsV P h v x) (t : Turns [] h h') : ShowsV P h' v x :=
  hg.frame v fun a hp ha => ⟨hp, (t.keep a ha nofun).2⟩
theorem Spec.ShowsL.turns {h h' : Heap} {gs : List Graph} {ps : List Ptr} (hg : ShowsL P h gs ps) (t : Turns [] h h') : ShowsL P h' gs ps :=
  hg.frame gs fun a hp ha => ⟨hp, (t.keep a ha nofun).2⟩

theorem Spec.ShowsL.length {h : Heap} : ∀ {gs : List Graph} {ps : List Ptr}, ShowsL P h gs ps → gs.length = ps.length
  | [], _, hh => by unfold ShowsL at hh; rw [hh]; rfl
  | g :: gs, _, hh => by
    unfold ShowsL at hh
    obtain ⟨_, p, ps', rfl, _, hr⟩ := hh
    simp [Spec.ShowsL.length hr]

theorem Spec.ShowsL.nil {h : Heap} : ShowsL P h [] [] := by unfold ShowsL; rfl

theorem Spec.ShowsL.cons {h : Heap} {g : Graph} {gs : List Graph} {p : Ptr} {ps : List Ptr} (hn : g ≠ .nil) (hg : Shows P h g p) (hr : ShowsL P h gs ps) :
    ShowsL P h (g :: gs) (p :: ps) := by
  unfold ShowsL
  exact ⟨hn, p, ps, rfl, hg, hr⟩

theorem Spec.ShowsL.append {h : Heap} : ∀ {gs gs' : List Graph} {ps ps' : List Ptr}, ShowsL P h gs ps → ShowsL P h gs' ps' → ShowsL P h (gs ++ gs') (ps ++ ps')
  | [], _, _, _, h1, h2 => by
    unfold ShowsL at h1
    rw [h1]
    exact h2
  | g :: gs, _, _, _, h1, h2 => by
    unfold ShowsL at h1
    obtain ⟨hn, p, ps, rfl, hg, hr⟩ := h1
    exact .cons hn hg (hr.append h2)

theorem Spec.Shows.mk {h : Heap} {v : Val} {gs : List Graph} {a : Nat} {x : HVal} {ps : List Ptr} (hp : P a) (hl : look h a = some (x, ps)) (hv : ShowsV P h v x)
    (hg : ShowsL P h gs ps) : Shows P h (.node v gs) (some a) := by
  unfold Shows
  exact ⟨a, x, ps, rfl, hp, hl, hv, hg⟩

theorem Spec.Shows.parts {h : Heap} {v : Val} {gs : List Graph} {p : Ptr} (hh : Shows P h (.node v gs) p) :
    ∃ a x ps, p = some a ∧ P a ∧ look h a = some (x, ps) ∧ ShowsV P h v x ∧ ShowsL P h gs ps := by
  unfold Shows at hh
  exact hh

theorem Spec.Shows.null {h : Heap} {p : Ptr} (hh : Shows P h .nil p) : p = none := by
  unfold Shows at hh
  exact hh

theorem Spec.Shows.isNone {h : Heap} {g : Graph} {p : Ptr} (hh : Shows P h g p) : p.isNone = g.isNil := by
  cases g with
  | nil => rw [hh.null]; rfl
  | node => obtain ⟨a, x, ps, rfl, _⟩ := hh.parts; rfl

theorem Spec.ShowsL.parts {h : Heap} {g : Graph} {gs : List Graph} {ps : List Ptr} (hh : ShowsL P h (g :: gs) ps) :
    ∃ t o p ps', g = .node t o ∧ ps = p :: ps' ∧ Shows P h (.node t o) p ∧ ShowsL P h gs ps' := by
  unfold ShowsL at hh
  obtain ⟨hn, p, ps', e, hg, hr⟩ := hh
  cases g with
  | nil => exact absurd rfl hn
  | node t o => exact ⟨t, o, p, ps', rfl, e, hg, hr⟩

theorem Spec.ShowsV.graph {h : Heap} {g : Graph} {p : Ptr} (hg : Shows P h g p) : ShowsV P h (.graph g) (.ptr p) := by
  unfold ShowsV
  exact ⟨p, rfl, hg⟩

theorem Spec.ShowsV.plain {h : Heap} {v : Val} (hv : NoGraph v) : ShowsV P h v (.val v) := by
  cases v with
  | graph g => exact absurd rfl (hv g)
  | _ => unfold ShowsV; rfl

theorem Spec.ShowsV.cases {h : Heap} {v : Val} {x : HVal} (hh : ShowsV P h v x) : (NoGraph v ∧ x = .val v) ∨ ∃ g p, v = .graph g ∧ x = .ptr p ∧ Shows P h g p := by
  cases v with
  | graph g =>
    unfold ShowsV at hh
    obtain ⟨p, e, hg⟩ := hh
    exact .inr ⟨g, p, rfl, e, hg⟩
  | _ => unfold ShowsV at hh; exact .inl ⟨nofun, hh⟩

/-! ## Computations with enough fuel -/

variable {F F' : List Nat}

/-- With enough fuel the computation ends as `r` does, changing only the nodes at `F` among those
that were there, and if `r` is a result, `Q` relates the two. -/
def Comes (F : List Nat) (m : Nat → HM β) (h : Heap) (r : Res α) (Q : β → α → Heap → Prop) : Prop :=
  match r with
  | .ok a => ∃ N b h', (∀ n, N ≤ n → (m n).run h = (.ok b, h')) ∧ Turns F h h' ∧ Q b a h'
  | .panic => ∃ N h', (∀ n, N ≤ n → (m n).run h = (.panic, h')) ∧ Turns F h h'
  | .oof => True

namespace Comes

theorem bind {m : Nat → HM β} {k : Nat → β → HM δ} {h : Heap} {r : Res α} {kr : α → Res γ} {Q : β → α → Heap → Prop} {Q' : δ → γ → Heap → Prop}
    (hm : Comes F m h r Q) (hk : ∀ b a h', Turns F h h' → Q b a h' → Comes F (fun n => k n b) h' (kr a) Q') :
    Comes F (fun n => m n >>= k n) h (r >>= kr) Q' := by
  cases r with
  | ok a =>
    obtain ⟨N, b, h', hr, t, hq⟩ := hm
    have := hk b a h' t hq
    show Comes F _ h (kr a) Q'
    cases hkr : kr a with
    | ok c =>
      rw [hkr] at this
      obtain ⟨N', d, h'', hr', t', hq'⟩ := this
      exact ⟨max N N', d, h'', fun n hn => by rw [ok_bind' (hr n (by omega))]; exact hr' n (by omega), t.trans t' .refl, hq'⟩
    | panic =>
      rw [hkr] at this
      obtain ⟨N', h'', hr', t'⟩ := this
      exact ⟨max N N', h'', fun n hn => by rw [ok_bind' (hr n (by omega))]; exact hr' n (by omega), t.trans t' .refl⟩
    | oof => trivial
  | panic =>
    obtain ⟨N, h', hr, t⟩ := hm
    exact ⟨N, h', fun n hn => panic_bind' (hr n hn), t⟩
  | oof => trivial

theorem mono {m : Nat → HM β} {h : Heap} {r : Res α} {Q Q' : β → α → Heap → Prop} (hm : Comes F m h r Q) (hq : ∀ b a h', Turns F h h' → Q b a h' → Q' b a h') : Comes F m h r Q' := by
  cases r with
  | ok a =>
    obtain ⟨N, b, h', hr, t, h1⟩ := hm
    exact ⟨N, b, h', hr, t, hq _ _ _ t h1⟩
  | panic => exact hm
  | oof => trivial

theorem ret {h : Heap} (hs : Solid h) {b : β} {a : α} {Q : β → α → Heap → Prop} (hq : Q b a h) : Comes F (fun _ => (Pure.pure b : HM β)) h (.ok a) Q :=
  ⟨0, b, h, fun _ _ => rfl, .refl hs, hq⟩

theorem halt {h : Heap} (hs : Solid h) {Q : β → α → Heap → Prop} : Comes F (fun _ => (HM.panic : HM β)) h (.panic : Res α) Q := ⟨0, h, fun _ _ => rfl, .refl hs⟩

/-- A step without counterpart that only reads. -/
theorem step {m : Nat → HM β} {k : Nat → β → HM δ} {h : Heap} {b : β} {r : Res α} {Q : δ → α → Heap → Prop} (hm : ∀ n, (m n).run h = (.ok b, h))
    (hk : Comes F (fun n => k n b) h r Q) : Comes F (fun n => m n >>= k n) h r Q := by
  cases r with
  | ok a =>
    obtain ⟨N, d, h', hr, t, hq⟩ := hk
    exact ⟨N, d, h', fun n hn => by rw [ok_bind' (hm n)]; exact hr n hn, t, hq⟩
  | panic =>
    obtain ⟨N, h', hr, t⟩ := hk
    exact ⟨N, h', fun n hn => by rw [ok_bind' (hm n)]; exact hr n hn, t⟩
  | oof => trivial

/-- A step without counterpart. -/
theorem go {m : Nat → HM β} {k : Nat → β → HM δ} {h h1 : Heap} {b : β} {r : Res α} {Q : δ → α → Heap → Prop} (hm : ∀ n, (m n).run h = (.ok b, h1))
    (ht : Turns F h h1) (hw : Within h F F') (hk : Comes F' (fun n => k n b) h1 r Q) : Comes F (fun n => m n >>= k n) h r Q := by
  cases r with
  | ok a =>
    obtain ⟨N, d, h', hr, t, hq⟩ := hk
    exact ⟨N, d, h', fun n hn => by rw [ok_bind' (hm n)]; exact hr n hn, ht.trans t hw, hq⟩
  | panic =>
    obtain ⟨N, h', hr, t⟩ := hk
    exact ⟨N, h', fun n hn => by rw [ok_bind' (hm n)]; exact hr n hn, ht.trans t hw⟩
  | oof => trivial

theorem weaken {m : Nat → HM β} {h : Heap} {r : Res α} {Q : β → α → Heap → Prop} (hm : Comes F m h r Q) (hF : ∀ a ∈ F, a ∈ F') : Comes F' m h r Q := by
  cases r with
  | ok a =>
    obtain ⟨N, b, h', hr, t, h1⟩ := hm
    exact ⟨N, b, h', hr, t.mono hF, h1⟩
  | panic =>
    obtain ⟨N, h', hr, t⟩ := hm
    exact ⟨N, h', hr, t.mono hF⟩
  | oof => trivial

theorem lifted {h : Heap} (hs : Solid h) {r : Res α} {Q : α → α → Heap → Prop} (hq : ∀ a, r = .ok a → Q a a h) : Comes F (fun _ => HM.lift r) h r Q := by
  cases r with
  | ok a => exact ⟨0, a, h, fun _ _ => rfl, .refl hs, hq a rfl⟩
  | panic => exact ⟨0, h, fun _ _ => rfl, .refl hs⟩
  | oof => trivial

end Comes

/-- Nothing but reading. -/
def Just (h : Heap) (Q : β → α → Prop) : β → α → Heap → Prop := fun b a h' => h' = h ∧ Q b a

theorem gives_comes {m : HM β} {h : Heap} (hs : Solid h) {r : Res α} {Q : β → α → Prop} (hm : ReadsAs m h r Q) (hp : r = .panic → (m.run h).2 = h) :
    Comes F (fun _ => m) h r (Just h Q) := by
  cases r with
  | ok a =>
    obtain ⟨b, h', hr, rfl, hq⟩ := hm
    exact ⟨0, b, h', fun _ _ => hr, .refl hs, rfl, hq⟩
  | panic =>
    obtain ⟨h', hr⟩ := hm
    have := hp rfl
    rw [hr] at this
    dsimp only at this
    rw [this] at hr
    exact ⟨0, h, fun _ _ => hr, .refl hs⟩
  | oof => trivial

/-! ## Reading -/

theorem string_run : ∀ (v : Val) {h : Heap} {x : HVal}, Solid h → ShowsV P h v x → ∃ N, ∀ n, N ≤ n → (hstring E n x).run h = (.ok (vstr E v), h)
  | .graph .nil, h, x, hs, hv => by
    unfold ShowsV at hv
    obtain ⟨p, rfl, hg⟩ := hv
    rw [hg.null]
    exact ⟨0, fun n _ => by cases n <;> (unfold hstring; rfl)⟩
  | .graph (.node t []), h, x, hs, hv => by
    unfold ShowsV at hv
    obtain ⟨p, rfl, hg⟩ := hv
    obtain ⟨a, y, ps, rfl, _, hl, _, ho⟩ := hg.parts
    have hps := ho.length
    obtain ⟨c, hc, hld, _, hlen, _⟩ := load_look hs hl
    refine ⟨1, fun n hn => ?_⟩
    cases n with
    | zero => omega
    | succ n =>
      unfold hstring
      rw [ok_bind' hld, hlen, ← hps]
      rfl
  | .graph (.node t (.nil :: gs)), h, x, hs, hv => by
    unfold ShowsV at hv
    obtain ⟨p, rfl, hg⟩ := hv
    obtain ⟨a, y, ps, rfl, _, hl, _, ho⟩ := hg.parts
    unfold ShowsL at ho
    exact absurd rfl ho.1
  | .graph (.node t (.node u o :: gs)), h, x, hs, hv => by
    unfold ShowsV at hv
    obtain ⟨p, rfl, hg⟩ := hv
    obtain ⟨a, y, ps, rfl, _, hl, _, ho⟩ := hg.parts
    obtain ⟨_, _, p1, ps', e, rfl, hg1, hr⟩ := ho.parts
    cases e
    obtain ⟨b, z, qs, rfl, _, hlb, hz, _⟩ := hg1.parts
    obtain ⟨c, hc, hld, _, hlen, _⟩ := load_look hs hl
    obtain ⟨d, hd, hldd, hthis, _, _⟩ := load_look hs hlb
    obtain ⟨N, hN⟩ := string_run u hs hz
    refine ⟨N + 1, fun n hn => ?_⟩
    cases n with
    | zero => omega
    | succ n =>
      unfold hstring
      rw [ok_bind' hld, hlen]
      simp only [List.length_cons, Nat.add_eq_zero_iff, Nat.succ_ne_self, and_false, ↓reduceIte]
      rw [ok_bind' (index_look hs hl hc (i := 0) (p := some b) rfl), ok_bind' hldd, hthis, hN n (by omega)]
      rfl
  | .nil, h, x, _, hv | .str _, h, x, _, hv | .bytes _, h, x, _, hv | .bool _, h, x, _, hv | .int _ _, h, x, _, hv | .f64 _, h, x, _, hv | .f32 _, h, x, _, hv
  | .other _, h, x, _, hv => by
    unfold ShowsV at hv
    subst hv
    exact ⟨0, fun n _ => by cases n <;> (unfold hstring; rfl)⟩

theorem string_comes {h : Heap} (hs : Solid h) {v : Val} {x : HVal} (hv : ShowsV P h v x) :
    Comes F (fun n => hstring E n x) h (.ok (vstr E v)) (Just h Eq) := by
  obtain ⟨N, hN⟩ := string_run (E := E) v hs hv
  exact ⟨N, _, h, hN, .refl hs, rfl, rfl⟩

theorem hint_shows {h : Heap} {v : Val} {x : HVal} (hv : ShowsV P h v x) : hint x = vint v := by
  rcases hv.cases with ⟨_, rfl⟩ | ⟨g, p, rfl, rfl, _⟩ <;> rfl

theorem hfloat_shows {h : Heap} {v : Val} {x : HVal} (hv : ShowsV P h v x) : hfloat E x = vfloat E v := by
  rcases hv.cases with ⟨_, rfl⟩ | ⟨g, p, rfl, rfl, _⟩ <;> rfl

theorem intf_comes {h : Heap} (hs : Solid h) {v : Val} {x : HVal} (hv : ShowsV P h v x) : Comes F (fun _ => hintf E x) h (vintf E v) (Just h Eq) := by
  rcases hv.cases with ⟨_, rfl⟩ | ⟨g, p, rfl, rfl, hg⟩
  · exact .lifted hs fun a _ => ⟨rfl, rfl⟩
  · cases g with
    | nil =>
      rw [hg.null]
      exact ⟨0, h, fun _ _ => rfl, .refl hs⟩
    | node t o =>
      obtain ⟨a, y, ps, rfl, _, hl, hy, _⟩ := hg.parts
      obtain ⟨c, hc, hld, hthis, _, _⟩ := load_look hs hl
      unfold hintf vintf
      refine .step (fun _ => hld) ?_
      rw [hthis]
      rcases hy.cases with ⟨_, rfl⟩ | ⟨g, p, rfl, rfl, _⟩
      · exact .ret hs ⟨rfl, rfl⟩
      · exact .ret hs ⟨rfl, rfl⟩

theorem floatf_comes {h : Heap} (hs : Solid h) {v : Val} {x : HVal} (hv : ShowsV P h v x) : Comes F (fun n => hfloatf E n x) h (.ok (vfloatf E v)) (Just h Eq) := by
  rcases hv.cases with ⟨_, rfl⟩ | ⟨g, p, rfl, rfl, hg⟩
  · exact .ret hs ⟨rfl, rfl⟩
  · unfold hfloatf
    dsimp only
    have : Res.ok (vfloatf E (.graph g)) = (Res.ok (vstr E (.graph g)) >>= fun s => .ok (E.parseFloat s)) := rfl
    rw [this]
    refine .bind (string_comes hs hv) fun b a h' t hq => ?_
    obtain ⟨rfl, rfl⟩ := hq
    exact .ret t.solid ⟨rfl, rfl⟩

theorem boolf_comes {h : Heap} (hs : Solid h) {v : Val} {x : HVal} (hv : ShowsV P h v x) : Comes F (fun _ => hboolf x) h (.ok (vboolf v)) (Just h Eq) := by
  rcases hv.cases with ⟨_, rfl⟩ | ⟨g, p, rfl, rfl, hg⟩
  · exact .ret hs ⟨rfl, rfl⟩
  · cases g with
    | nil =>
      rw [hg.null]
      exact .ret hs ⟨rfl, rfl⟩
    | node t o =>
      obtain ⟨a, y, ps, rfl, _, hl, hy, _⟩ := hg.parts
      obtain ⟨c, hc, hld, hthis, _, _⟩ := load_look hs hl
      unfold hboolf vboolf
      refine .step (fun _ => hld) ?_
      rw [hthis]
      rcases hy.cases with ⟨_, rfl⟩ | ⟨g, p, rfl, rfl, _⟩
      · exact .ret hs ⟨rfl, rfl⟩
      · exact .ret hs ⟨rfl, rfl⟩

/-! ## Operators -/

theorem calc_comes {h : Heap} (hs : Solid h) {v w : Val} {x y : HVal} (hv : ShowsV P h v x) (hw : ShowsV P h w y) (op : ArithOp) :
    Comes F (fun n => hCalc E n x y op) h (calc' E v w op) (Just h Eq) := by
  have texts : Comes F (fun n => do
      let s1 ← hstring E n x
      let s2 ← hstring E n y
      pure (Val.str (s1 ++ s2))) h (.ok (Val.str (vstr E v ++ vstr E w))) (Just h Eq) := by
    have e : Res.ok (Val.str (vstr E v ++ vstr E w)) = (Res.ok (vstr E v) >>= fun s1 => Res.ok (vstr E w) >>= fun s2 => .ok (.str (s1 ++ s2))) := rfl
    rw [e]
    refine .bind (string_comes hs hv) fun b a h' t hq => ?_
    obtain ⟨rfl, rfl⟩ := hq
    refine .bind (string_comes hs hw) fun b a h' t hq => ?_
    obtain ⟨rfl, rfl⟩ := hq
    exact .ret t.solid ⟨rfl, rfl⟩
  have floats : ∀ f1 : UInt64, Comes F (fun n => do
      let f2 ← hfloatf E n y
      lift (calcFloat E f1 (f2.getD (E.ofInt 0)) op)) h (calcFloat E f1 ((vfloatf E w).getD (E.ofInt 0)) op) (Just h Eq) := by
    intro f1
    have e : calcFloat E f1 ((vfloatf E w).getD (E.ofInt 0)) op = (Res.ok (vfloatf E w) >>= fun f2 => calcFloat E f1 (f2.getD (E.ofInt 0)) op) := rfl
    rw [e]
    refine .bind (floatf_comes hs hw) fun b a h' t hq => ?_
    obtain ⟨rfl, rfl⟩ := hq
    exact .lifted t.solid fun a _ => ⟨rfl, rfl⟩
  unfold hCalc calc'
  rw [hint_shows hv, hint_shows hw, hfloat_shows hv, hfloat_shows hw]
  cases vint v with
  | some i1 =>
    cases vint w with
    | some i2 => exact .lifted hs fun a _ => ⟨rfl, rfl⟩
    | none => exact floats _
  | none =>
    cases vfloat E v with
    | none =>
      cases vint w with
      | some i2 => exact texts
      | none =>
        cases vfloat E w with
        | some _ => exact texts
        | none =>
          dsimp only
          by_cases ho : op = .add
          · simp only [ho, ↓reduceIte]; exact texts
          · simp only [ho, ↓reduceIte]; exact .ret hs ⟨rfl, rfl⟩
    | some f1 =>
      cases vint w with
      | some i2 => exact .lifted hs fun a _ => ⟨rfl, rfl⟩
      | none => exact floats _

theorem compare_comes {h : Heap} (hs : Solid h) {v w : Val} {x y : HVal} (hv : ShowsV P h v x) (hw : ShowsV P h w y) (op : CmpOp) :
    Comes F (fun n => hCompare E n x y op) h (compare' E v w op) (Just h Eq) := by
  have texts : ∀ q : Bytes → Bytes → Bool, Comes F (fun n => do
      let s1 ← hstring E n x
      let s2 ← hstring E n y
      pure (q s1 s2)) h (.ok (q (vstr E v) (vstr E w))) (Just h Eq) := by
    intro q
    have e : Res.ok (q (vstr E v) (vstr E w)) = (Res.ok (vstr E v) >>= fun s1 => Res.ok (vstr E w) >>= fun s2 => .ok (q s1 s2)) := rfl
    rw [e]
    refine .bind (string_comes hs hv) fun b a h' t hq => ?_
    obtain ⟨rfl, rfl⟩ := hq
    refine .bind (string_comes hs hw) fun b a h' t hq => ?_
    obtain ⟨rfl, rfl⟩ := hq
    exact .ret t.solid ⟨rfl, rfl⟩
  unfold hCompare compare'
  rw [hint_shows hv, hfloat_shows hv]
  cases vint v with
  | some i1 =>
    refine .bind (intf_comes hs hw) fun b a h' t hq => ?_
    obtain ⟨rfl, rfl⟩ := hq
    cases b with
    | none => exact .ret t.solid ⟨rfl, rfl⟩
    | some i2 => exact .ret t.solid ⟨rfl, rfl⟩
  | none =>
    cases vfloat E v with
    | some f1 =>
      dsimp only
      show Comes F _ h (Res.ok (vfloatf E w) >>= fun r => match r with | none => .ok false | some f2 => .ok (cmpFloat E f1 f2 op)) _
      refine .bind (floatf_comes hs hw) fun b a h' t hq => ?_
      obtain ⟨rfl, rfl⟩ := hq
      cases b with
      | none => exact .ret t.solid ⟨rfl, rfl⟩
      | some i2 => exact .ret t.solid ⟨rfl, rfl⟩
    | none =>
      cases op
      case eq => exact texts (· == ·)
      case ne => exact texts (· != ·)
      all_goals exact .ret hs ⟨rfl, rfl⟩

theorem logic_comes {h : Heap} (hs : Solid h) {v w : Val} {x y : HVal} (hv : ShowsV P h v x) (hw : ShowsV P h w y) (conj : Bool) :
    Comes F (fun _ => hLogic x y conj) h (.ok (logic v w conj)) (Just h Eq) := by
  have e : Res.ok (logic v w conj) = (Res.ok (vboolf v) >>= fun b1 => Res.ok (vboolf w) >>= fun b2 =>
      Res.ok (match b1, b2 with | (b1, true), (b2, true) => if conj then b1 && b2 else b1 || b2 | _, _ => false)) := rfl
  rw [e]
  unfold hLogic
  refine .bind (boolf_comes hs hv) fun b a h' t hq => ?_
  obtain ⟨rfl, rfl⟩ := hq
  refine .bind (boolf_comes hs hw) fun b' a h' t hq => ?_
  obtain ⟨rfl, rfl⟩ := hq
  rcases b with ⟨b, _ | _⟩ <;> rcases b' with ⟨b', _ | _⟩ <;> exact .ret t.solid ⟨rfl, rfl⟩

/-! ## Nodes -/

theorem len_run {h : Heap} (hs : Solid h) {g : Graph} {p : Ptr} (hg : Shows P h g p) : (hLen p).run h = (.ok g.len, h) := by
  cases g with
  | nil => rw [hg.null]; rfl
  | node t o =>
    obtain ⟨a, y, ps, rfl, _, hl, _, ho⟩ := hg.parts
    obtain ⟨c, hc, hld, _, hlen, _⟩ := load_look hs hl
    unfold hLen
    rw [ok_bind' hld, hlen, ← ho.length]
    rfl

theorem at_shows {h : Heap} : ∀ {gs : List Graph} {ps : List Ptr}, ShowsL P h gs ps → ∀ i, i < gs.length → ∃ p, ps[i]? = some p ∧ Shows P h (gs.getD i .nil) p
  | [], _, _, i, hi => by simp at hi
  | g :: gs, _, hh, i, hi => by
    unfold ShowsL at hh
    obtain ⟨_, p, ps', rfl, hg, hr⟩ := hh
    cases i with
    | zero => exact ⟨p, rfl, hg⟩
    | succ i => exact at_shows hr i (by simpa using hi)

theorem getAt_comes {h : Heap} (hs : Solid h) {g : Graph} {p : Ptr} (hg : Shows P h g p) (i : Int) : Comes F (fun _ => hGetAt p i) h (g.getAt i) (Just h fun p g => Shows P h g p) := by
  cases g with
  | nil =>
    rw [hg.null]
    exact ⟨0, h, fun _ _ => rfl, .refl hs⟩
  | node t o =>
    obtain ⟨a, y, ps, rfl, _, hl, _, ho⟩ := hg.parts
    obtain ⟨c, hc, hld, _, hlen, _⟩ := load_look hs hl
    unfold hGetAt Graph.getAt
    refine .step (fun _ => hld) ?_
    dsimp only
    rw [hlen, ← ho.length]
    by_cases hi : i ≥ o.length ∨ i < 0
    · simp only [hi, ↓reduceIte]
      exact .ret hs ⟨rfl, by unfold Shows; rfl⟩
    · simp only [hi, ↓reduceIte]
      obtain ⟨p, hp, hgp⟩ := at_shows ho i.toNat (by omega)
      exact ⟨0, p, h, fun _ _ => index_look hs hl hc hp, .refl hs, rfl, hgp⟩

theorem firstThis_comes {h : Heap} (hs : Solid h) {g : Graph} {p : Ptr} (hg : Shows P h g p) : Comes F (fun _ => hFirstThis p) h (firstThis g) (Just h fun x v => ShowsV P h v x) := by
  cases g with
  | nil =>
    rw [hg.null]
    exact ⟨0, h, fun _ _ => rfl, .refl hs⟩
  | node t o =>
    cases o with
    | nil =>
      obtain ⟨a, y, ps, rfl, _, hl, _, ho⟩ := hg.parts
      obtain ⟨c, hc, hld, _, hlen, _⟩ := load_look hs hl
      refine ⟨0, h, fun _ _ => ?_, .refl hs⟩
      unfold hFirstThis hGetAt
      rw [hm_assoc, ok_bind' hld, hlen, ← ho.length]
      rfl
    | cons g gs =>
      obtain ⟨a, y, ps, rfl, _, hl, _, ho⟩ := hg.parts
      obtain ⟨u, o1, p1, ps', rfl, rfl, hg1, hr⟩ := ho.parts
      obtain ⟨b, z, qs, rfl, _, hlb, hz, _⟩ := hg1.parts
      obtain ⟨c, hc, hld, _, hlen, _⟩ := load_look hs hl
      obtain ⟨d, hd, hldd, hthis, _, _⟩ := load_look hs hlb
      refine ⟨0, z, h, fun _ _ => ?_, .refl hs, rfl, hz⟩
      unfold hFirstThis hGetAt
      rw [hm_assoc, ok_bind' hld, hlen]
      rw [if_neg (by simp only [List.length_cons]; omega)]
      rw [show (0 : Int).toNat = 0 from rfl, ok_bind' (index_look hs hl hc (i := 0) (p := some b) rfl), ok_bind' hldd, hthis]
      rfl

theorem simplify_comes {h : Heap} (hs : Solid h) {g : Graph} {p : Ptr} (hg : Shows P h g p) :
    Comes F (fun _ => hSimplify p) h (.ok (simplify g)) (Just h fun x v => ShowsV P h v x) := by
  cases g with
  | nil =>
    rw [hg.null]
    refine .ret hs ⟨rfl, .graph ?_⟩
    unfold Shows; rfl
  | node t o =>
    have hg' := hg
    obtain ⟨a, y, ps, rfl, _, hl, _, ho⟩ := hg.parts
    obtain ⟨c, hc, hld, _, hlen, _⟩ := load_look hs hl
    unfold hSimplify
    refine .step (fun _ => hld) ?_
    rw [hlen, ← ho.length]
    cases o with
    | nil => exact .ret hs ⟨rfl, .graph hg'⟩
    | cons g gs =>
      obtain ⟨u, o1, p1, ps', rfl, rfl, hg1, hr⟩ := ho.parts
      cases gs with
      | cons g2 gs =>
        simp only [List.length_cons, Nat.add_eq_right, Nat.add_eq_zero_iff, Nat.succ_ne_self, and_false, ↓reduceIte]
        refine .ret hs ⟨rfl, ?_⟩
        have e : simplify (.node t (.node u o1 :: g2 :: gs)) = .graph (.node t (.node u o1 :: g2 :: gs)) := by unfold simplify; cases o1 <;> rfl
        rw [e]
        exact .graph hg'
      | nil =>
        simp only [List.length_cons, List.length_nil, Nat.zero_add, ↓reduceIte]
        refine .step (fun _ => index_look hs hl hc (i := 0) (p := p1) rfl) (.step (fun _ => len_run hs hg1) ?_)
        cases o1 with
        | nil =>
          obtain ⟨b, z, qs, rfl, _, hlb, hz, _⟩ := hg1.parts
          obtain ⟨d, hd, hldd, hthis, _, _⟩ := load_look hs hlb
          rw [show (Graph.node u []).len = 0 from rfl]
          simp only [↓reduceIte]
          refine .step (fun _ => hldd) ?_
          rw [hthis]
          exact .ret hs ⟨rfl, hz⟩
        | cons g3 gs3 =>
          rw [if_neg (by simp only [Graph.len, List.length_cons]; omega)]
          exact .ret hs ⟨rfl, .graph hg'⟩

theorem thisString_comes {h : Heap} (hs : Solid h) {g : Graph} {p : Ptr} (hg : Shows P h g p) :
    Comes F (fun n => hThisString E n p none) h (.ok (g.thisString E)) (Just h Eq) := by
  cases g with
  | nil =>
    rw [hg.null]
    exact .ret hs ⟨rfl, rfl⟩
  | node t o =>
    obtain ⟨a, y, ps, rfl, _, hl, hy, _⟩ := hg.parts
    obtain ⟨c, hc, hld, hthis, _, _⟩ := load_look hs hl
    unfold hThisString
    refine .step (fun _ => hld) ?_
    rw [hthis]
    exact string_comes hs hy

theorem interface_comes {h : Heap} (hs : Solid h) {g : Graph} {p : Ptr} (hg : Shows P h g p) :
    Comes F (fun _ => hInterface p) h g.interface (Just h fun x v => ShowsV P h v x) := by
  cases g with
  | nil =>
    rw [hg.null]
    exact .ret hs ⟨rfl, .plain nofun⟩
  | node t o =>
    obtain ⟨a, y, ps, rfl, _, hl, hy, ho⟩ := hg.parts
    obtain ⟨c, hc, hld, hthis, hlen, _⟩ := load_look hs hl
    unfold hInterface
    refine .step (fun _ => hld) ?_
    rw [hlen, ← ho.length]
    cases o with
    | nil => exact .ret hs ⟨rfl, .plain nofun⟩
    | cons g gs =>
      obtain ⟨u, o1, p1, ps', rfl, rfl, hg1, hr⟩ := ho.parts
      obtain ⟨b, z, qs, rfl, _, hlb, hz, _⟩ := hg1.parts
      obtain ⟨d, hd, hldd, hthisd, _, _⟩ := load_look hs hlb
      simp only [List.length_cons, Nat.add_eq_zero_iff, Nat.succ_ne_self, and_false, ↓reduceIte]
      refine .step (fun _ => index_look hs hl hc (i := 0) (p := some b) rfl) (.step (fun _ => hldd) ?_)
      rw [hthisd]
      exact .ret hs ⟨rfl, hz⟩

theorem stringDef_comes {h : Heap} (hs : Solid h) {g : Graph} {p : Ptr} (hg : Shows P h g p) :
    Comes F (fun n => hStringDef E n p none) h (g.string E) (Just h Eq) := by
  cases g with
  | nil =>
    rw [hg.null]
    exact .ret hs ⟨rfl, rfl⟩
  | node t o =>
    obtain ⟨a, y, ps, rfl, _⟩ := hg.parts
    unfold hStringDef Graph.string
    refine .bind (interface_comes hs hg) fun b v h' t hq => ?_
    obtain ⟨rfl, hv⟩ := hq
    exact string_comes t.solid hv

theorem search_comes {nm : Bytes} {h : Heap} {a : Nat} {c : HNode} {z : HVal} {ps : List Ptr} (hs : Solid h) (hc : h.nodes[a]? = some c)
    (hl : look h a = some (z, ps)) :
    ∀ (xs : List Graph) (ps2 : List Ptr) (i : Nat), ps.drop i = ps2 → ShowsL P h xs ps2 →
      Comes F (fun fuel => HM.search c.out (fun n => do
        let x ← HM.load n
        let t ← hstring E fuel x.this
        if nm = t then pure (some n) else pure none) xs.length i >>= fun r => pure (r.getD none)) h (nodeLoop E nm xs) (Just h fun p g => Shows P h g p)
  | [], ps2, i, _, _ => by
    unfold nodeLoop
    exact .ret hs ⟨rfl, by unfold Shows; rfl⟩
  | g :: gs, ps2, i, hps, ho => by
    obtain ⟨u, o1, p1, ps', rfl, rfl, hg1, hr⟩ := ho.parts
    obtain ⟨hpi, hps'⟩ := getElem?_of_drop hps
    rw [List.length_cons]
    simp only [search_succ, hm_assoc]
    refine .step (fun _ => index_look hs hl hc hpi) ?_
    have hg1' := hg1
    obtain ⟨b, y, qs, rfl, _, hlb, hy, _⟩ := hg1.parts
    obtain ⟨d, hd, hldd, hthis, _, _⟩ := load_look hs hlb
    refine .step (fun _ => hldd) ?_
    rw [hthis]
    have e : nodeLoop E nm (.node u o1 :: gs) = (Res.ok (vstr E u) >>= fun s => if nm = s then .ok (.node u o1) else nodeLoop E nm gs) := by
      rw [nodeLoop]; rfl
    rw [e]
    refine .bind (string_comes hs hy) fun s s' h' t hq => ?_
    obtain ⟨rfl, rfl⟩ := hq
    by_cases hn : nm = s
    · simp only [hn, ↓reduceIte, hm_pure]
      exact .ret hs ⟨rfl, hg1'⟩
    · simp only [hn, ↓reduceIte, hm_pure]
      exact search_comes hs hc hl gs ps' (i + 1) hps' hr

theorem node_comes {h : Heap} (hs : Solid h) {g : Graph} {p : Ptr} (hg : Shows P h g p) (nm : Bytes) :
    Comes F (fun n => hNode E n p nm) h (g.nodeNamed E nm) (Just h fun p g => Shows P h g p) := by
  cases g with
  | nil =>
    rw [hg.null]
    exact .ret hs ⟨rfl, by unfold Shows; rfl⟩
  | node t o =>
    obtain ⟨a, y, ps, rfl, _, hl, hy, ho⟩ := hg.parts
    obtain ⟨c, hc, hld, hthis, hlen, _⟩ := load_look hs hl
    unfold hNode Graph.nodeNamed
    refine .step (fun _ => hld) ?_
    dsimp only
    rw [hlen, ← ho.length]
    exact search_comes hs hc hl o ps 0 rfl ho

end Ogdl
