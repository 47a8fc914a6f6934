import Verif.Lemmas.ShowsMake
import Verif.Lemmas.EvalTotal
import Verif.Lemmas.EvalMono

/-!
# Evaluation in memory and on trees
-/

namespace Ogdl
open Spec HM

variable {E : Ext} {grow : Nat → Nat → Nat} {P : Nat → Prop} {F : List Nat}

/-- The computation in memory does what the one on trees does in the context `g`, which both leave
as it is. -/
def Sim (F : List Nat) (hm : Nat → HM β) (h : Heap) (m : EvalM α) (g : Graph) (Q : β → α → Heap → Prop) : Prop :=
  Comes F hm h (m g) fun b ag h' => ag.2 = g ∧ Q b ag.1 h'

namespace Sim

variable {g : Graph} {h : Heap}

theorem bind {hm : Nat → HM β} {hk : Nat → β → HM δ} {m : EvalM α} {k : α → EvalM γ} {Q : β → α → Heap → Prop} {Q' : δ → γ → Heap → Prop}
    (h1 : Sim F hm h m g Q) (h2 : ∀ b a h', Turns F h h' → Q b a h' → Sim F (fun n => hk n b) h' (k a) g Q') :
    Sim F (fun n => hm n >>= hk n) h (m >>= k) g Q' := by
  unfold Sim at h1 ⊢
  have e : (m >>= k) g = (m g >>= fun ag => k ag.1 ag.2) := by
    show (match m g with | .ok (a, g') => k a g' | .panic => .panic | .oof => .oof) = _
    rcases m g with ⟨a, g'⟩ | _ | _ <;> rfl
  rw [e]
  refine Comes.bind h1 fun b ag h' t hq => ?_
  obtain ⟨a, g'⟩ := ag
  obtain ⟨e1, hq⟩ := hq
  dsimp only at e1 hq
  subst e1
  exact h2 b a h' t hq

theorem mono {hm : Nat → HM β} {m : EvalM α} {Q Q' : β → α → Heap → Prop} (h1 : Sim F hm h m g Q) (hq : ∀ b a h', Turns F h h' → Q b a h' → Q' b a h') : Sim F hm h m g Q' :=
  Comes.mono h1 fun b ag h' t hx => ⟨hx.1, hq b ag.1 h' t hx.2⟩

theorem ret (hs : Solid h) {b : β} {a : α} {Q : β → α → Heap → Prop} (hq : Q b a h) : Sim F (fun _ => (Pure.pure b : HM β)) h (Pure.pure a) g Q :=
  Comes.ret hs ⟨rfl, hq⟩

theorem halt (hs : Solid h) {Q : β → α → Heap → Prop} : Sim F (fun _ => (HM.panic : HM β)) h (EvalM.panic : EvalM α) g Q := Comes.halt hs

theorem lift {hm : Nat → HM β} {r : Res α} {Q : β → α → Heap → Prop} (h1 : Comes F hm h r Q) : Sim F hm h (EvalM.lift r) g Q := by
  unfold Sim EvalM.lift
  cases r with
  | ok a =>
    obtain ⟨N, b, h', hr, t, hq⟩ := h1
    exact ⟨N, b, h', hr, t, rfl, hq⟩
  | panic => exact h1
  | oof => trivial

/-- A result that needs no computation on trees. -/
theorem pureL {hm : Nat → HM β} {a : α} {Q : β → α → Heap → Prop} (h1 : Comes F hm h (.ok a) Q) : Sim F hm h (Pure.pure a) g Q := by
  obtain ⟨N, b, h', hr, t, hq⟩ := h1
  exact ⟨N, b, h', hr, t, rfl, hq⟩

/-- The same, within a computation. -/
theorem have' {hm : Nat → HM β} {hk : Nat → β → HM δ} {a : α} {m : EvalM γ} {Q : β → α → Heap → Prop} {Q' : δ → γ → Heap → Prop} (h1 : Comes F hm h (.ok a) Q)
    (h2 : ∀ b h', Turns F h h' → Q b a h' → Sim F (fun n => hk n b) h' m g Q') : Sim F (fun n => hm n >>= hk n) h m g Q' := by
  obtain ⟨N, b, h', hr, t, hq⟩ := h1
  have := h2 b h' t hq
  unfold Sim at this ⊢
  cases hm' : m g with
  | ok c =>
    rw [hm'] at this
    obtain ⟨N', d, h'', hr', t', hq'⟩ := this
    exact ⟨max N N', d, h'', fun n hn => by rw [ok_bind' (hr n (by omega))]; exact hr' n (by omega), t.trans t' .refl, hq'⟩
  | panic =>
    rw [hm'] at this
    obtain ⟨N', h'', hr', t'⟩ := this
    exact ⟨max N N', h'', fun n hn => by rw [ok_bind' (hr n (by omega))]; exact hr' n (by omega), t.trans t' .refl⟩
  | oof => trivial

theorem step {hm : Nat → HM β} {hk : Nat → β → HM δ} {b : β} {m : EvalM α} {Q : δ → α → Heap → Prop} (h1 : ∀ n, (hm n).run h = (.ok b, h))
    (h2 : Sim F (fun n => hk n b) h m g Q) : Sim F (fun n => hm n >>= hk n) h m g Q := Comes.step h1 h2

theorem go {F' : List Nat} {hm : Nat → HM β} {hk : Nat → β → HM δ} {h1 : Heap} {b : β} {m : EvalM α} {Q : δ → α → Heap → Prop} (hr : ∀ n, (hm n).run h = (.ok b, h1))
    (ht : Turns F h h1) (hw : Within h F F') (h2 : Sim F' (fun n => hk n b) h1 m g Q) : Sim F (fun n => hm n >>= hk n) h m g Q := Comes.go hr ht hw h2

theorem weaken {F' : List Nat} {hm : Nat → HM β} {m : EvalM α} {Q : β → α → Heap → Prop} (h1 : Sim F hm h m g Q) (hF : ∀ a ∈ F, a ∈ F') : Sim F' hm h m g Q := Comes.weaken h1 hF

theorem ite {c : Prop} [Decidable c] {hm hm' : Nat → HM β} {m m' : EvalM α} {Q : β → α → Heap → Prop} (h1 : c → Sim F hm h m g Q) (h2 : ¬ c → Sim F hm' h m' g Q) :
    Sim F (fun n => if c then hm n else hm' n) h (if c then m else m') g Q := by
  by_cases hc : c
  · simp only [hc, ↓reduceIte]; exact h1 hc
  · simp only [hc, ↓reduceIte]; exact h2 hc

end Sim

/-! ## The loops -/

/-- The context in memory. -/
structure Ctx (P : Nat → Prop) (h : Heap) (g : Graph) (p : Ptr) : Prop where
  solid : Solid h
  fresh : Fresh P h
  shows : Shows P h g p

theorem Ctx.turns {h h' : Heap} {g : Graph} {p : Ptr} (c : Ctx P h g p) (t : Turns [] h h') : Ctx P h' g p := ⟨t.solid, c.fresh.turns t, c.shows.turns t⟩

theorem Ctx.aside {h h' : Heap} {g : Graph} {p : Ptr} {a : Nat} (c : Ctx (Off P a) h g p) (t : Turns [a] h h') : Ctx (Off P a) h' g p :=
  ⟨t.solid, c.fresh.turns t, c.shows.aside t⟩

/-- Value and error. -/
def Both (P : Nat → Prop) : HVal × Option Err → Val × Option Err → Heap → Prop := fun b a h' => b.2 = a.2 ∧ ShowsV P h' a.1 b.1

/-- Node and error. -/
def BothP (P : Nat → Prop) : Ptr × Option Err → Graph × Option Err → Heap → Prop := fun b a h' => b.2 = a.2 ∧ Shows P h' a.1 b.1

/-- The results of one iteration. -/
def StepShows (P : Nat → Prop) (R : β → α → Heap → Prop) : HPathStep β → PathStep α → Heap → Prop
  | .next s, .next t, h => StShows P h s t
  | .done b, .done a, h => R b a h
  | _, _, _ => False

theorem walk_sim {R : β → α → Heap → Prop} {g : Graph} {p : Ptr} {hstep : Nat → Graph → HPathSt → HM (HPathStep β)} {step : Graph → PathSt → EvalM (PathStep α)} :
    ∀ (es : List Graph) (h : Heap) (s : HPathSt) (t : PathSt),
      (∀ e ∈ es, ∀ h s t, Ctx P h g p → StShows P h s t → Sim [] (fun n => hstep n e s) h (step e t) g (StepShows P R)) → Ctx P h g p → StShows P h s t →
      Sim [] (fun n => hWalkPath (hstep n) es s) h (walkPath step es t) g (StepShows P R)
  | [], h, s, t, _, c, hst => by
    unfold hWalkPath walkPath
    exact .ret c.solid hst
  | e :: es, h, s, t, hs, c, hst => by
    have hctx := hst.ctx
    cases htc : t.ctx with
    | nil =>
      rw [htc] at hctx
      have hsc := hctx.null
      unfold hWalkPath walkPath
      rw [hsc, htc]
      exact .ret c.solid hst
    | node w xs =>
      rw [htc] at hctx
      obtain ⟨a, _, _, hsc, _⟩ := hctx.parts
      unfold hWalkPath walkPath
      rw [hsc, htc]
      refine .bind (hs e (List.mem_cons_self ..) h s t c hst) fun b a h' tn hq => ?_
      cases b with
      | next s' =>
        cases a with
        | next t' => exact walk_sim es h' s' t' (fun e he => hs e (List.mem_cons_of_mem _ he)) (c.turns tn) hq
        | done r => exact hq.elim
      | done r =>
        cases a with
        | next t' => exact hq.elim
        | done r' => exact .ret tn.solid hq

theorem each_sim {g : Graph} {p : Ptr} {hev : Nat → Graph → HM (HVal × Option Err)} {ev : Graph → EvalM (Val × Option Err)} :
    ∀ (es : List Graph) (h : Heap), (∀ e ∈ es, ∀ h, Ctx P h g p → Sim [] (fun n => hev n e) h (ev e) g (Both P)) → Ctx P h g p →
      Sim [] (fun n => hEvalEach n (hev n) es) h (evalEach ev es) g fun vs ws _ => vs = ws
  | [], h, _, c => by
    unfold hEvalEach evalEach
    exact .ret c.solid rfl
  | e :: es, h, hs, c => by
    unfold hEvalEach evalEach
    refine .bind (hs e (List.mem_cons_self ..) h c) fun b a h1 t1 hq => ?_
    obtain ⟨x, er⟩ := b
    obtain ⟨v, er'⟩ := a
    refine .have' (value_comes t1.solid hq.2) fun v' h2 t2 hq2 => ?_
    obtain ⟨e2, rfl⟩ := hq2
    subst e2
    refine .bind (each_sim es _ (fun e he => hs e (List.mem_cons_of_mem _ he)) (c.turns t1)) fun vs ws h3 t3 hq3 => ?_
    subst hq3
    exact .ret t3.solid rfl

theorem group_sim {g : Graph} {p : Ptr} {a : Nat} {t : Val} {x : HVal} {hev : Nat → Graph → HM (HVal × Option Err)} {ev : Graph → EvalM (Val × Option Err)} :
    ∀ (es : List Graph) (h : Heap) (o : List Graph), (∀ e ∈ es, ∀ h, Ctx (Off P a) h g p → Sim [] (fun n => hev n e) h (ev e) g (Both (Off P a))) →
      Ctx (Off P a) h g p → Building P h a x o →
      Sim [a] (fun n => hEvalGroup grow (hev n) (some a) es) h (evalGroup ev es (.node t o)) g fun _ r h' => ∃ o', r = .node t o' ∧ Building P h' a x o'
  | [], h, o, _, c, ho => by
    unfold hEvalGroup evalGroup
    exact .ret c.solid ⟨o, rfl, ho⟩
  | e :: es, h, o, hs, c, ho => by
    unfold hEvalGroup evalGroup
    have h0 := hs e (List.mem_cons_self ..) h c
    have h0' : Sim [a] (fun n => hev n e) h (ev e) g fun b a' h' => Both (Off P a) b a' h' ∧ Turns [] h h' :=
      (Sim.mono h0 (Q' := fun b a' h' => Both (Off P a) b a' h' ∧ Turns [] h h') fun b a' h' t hq => ⟨hq, t⟩).weaken nofun
    refine .bind h0' fun b a' h1 _ hq => ?_
    obtain ⟨hq, t1⟩ := hq
    obtain ⟨y, er⟩ := b
    obtain ⟨v, er'⟩ := a'
    obtain ⟨e1, hv⟩ := hq
    dsimp only at e1 hv
    subst e1
    cases er with
    | some err => exact group_sim es h1 o (fun e he => hs e (List.mem_cons_of_mem _ he)) (c.turns t1) (ho.turns t1)
    | none =>
      dsimp only [Option.isNone_none, if_true]
      simp only [↓reduceIte]
      obtain ⟨r, h2, hr2, t2, own2⟩ := add_own (grow := grow) t1.solid (c.turns t1).fresh (ho.turns t1) hv
      refine .go (fun _ => hr2) t2 .refl ?_
      rw [add_out]
      exact group_sim es h2 _ (fun e he => hs e (List.mem_cons_of_mem _ he)) ((c.turns t1).aside t2) own2

end Ogdl
