import Verif.Lemmas.Live
import Verif.Lemmas.TemplateRun
import Verif.Lemmas.ShowsSet

/-!
# Processing a template in memory
-/

namespace Ogdl
open Spec HM

variable {E : Ext} {grow : Nat → Nat → Nat} {F : List Nat} {Z : Nat → Prop}

theorem Spec.Asks.fit {e : Graph} (h : Asks E e) : Fit E e := ⟨h.1, noAssignment_notAssign h.2⟩

theorem calmPiece_value {n : Graph} (h : CalmPiece E n) (hn : n.thisString E = tyPath ∨ n.thisString E = tyExpression) : Fit E n := by
  cases h with
  | text h => exact absurd (by rcases hn with e | e <;> (rw [e]; decide)) h
  | value _ h => exact h.fit
  | cond h => rcases hn with e | e <;> rw [e] at h <;> exact absurd h (by decide)
  | els h => rcases hn with e | e <;> rw [e] at h <;> exact absurd h (by decide)
  | loop h => rcases hn with e | e <;> rw [e] at h <;> exact absurd h (by decide)

theorem calmPiece_cond {n : Graph} (h : CalmPiece E n) (hn : n.thisString E = tyIf ∨ n.thisString E = tyElseIf) :
    (∀ l e, n.getAt 0 = .ok l → l.getAt 0 = .ok e → Fit E e) ∧ ∀ t, n.getAt 1 = .ok t → Calm E t := by
  cases h with
  | text h => exact absurd (by rcases hn with e | e <;> (rw [e]; decide)) h
  | value h => rcases hn with e | e <;> rw [e] at h <;> exact absurd h (by decide)
  | cond _ h1 h2 => exact ⟨fun l e hl he => (h1 l e hl he).fit, h2⟩
  | els h => rcases hn with e | e <;> rw [e] at h <;> exact absurd h (by decide)
  | loop h => rcases hn with e | e <;> rw [e] at h <;> exact absurd h (by decide)

theorem calmPiece_else {n : Graph} (h : CalmPiece E n) (hn : n.thisString E = tyElse) : ∀ t, n.getAt 0 = .ok t → Calm E t := by
  cases h with
  | text h => exact absurd (by rw [hn]; decide) h
  | value h => rw [hn] at h; exact absurd h (by decide)
  | cond h => rw [hn] at h; exact absurd h (by decide)
  | els _ h => exact h
  | loop h => rw [hn] at h; exact absurd h (by decide)

theorem calmPiece_for {n : Graph} (h : CalmPiece E n) (hn : n.thisString E = tyFor) :
    (∀ l e, n.getAt 0 = .ok l → l.getAt 1 = .ok e → Asks E e ∧ Source E e) ∧ ∀ t, n.getAt 1 = .ok t → Calm E t := by
  cases h with
  | text h => exact absurd (by rw [hn]; decide) h
  | value h => rw [hn] at h; exact absurd h (by decide)
  | cond h => rw [hn] at h; exact absurd h (by decide)
  | els h => rw [hn] at h; exact absurd h (by decide)
  | loop _ h1 h2 => exact ⟨h1, h2⟩

/-! ## Loop variables afterwards -/

/-- What becomes of the loop variables made before. -/
def VarsGo (n : Nat) (zs : List (Graph × Ptr)) (loops : List Bytes) (zs' : List (Graph × Ptr)) : Prop :=
  ∀ i, i < n → (Gone i zs → Gone i zs') ∧ ∀ v, Active v i zs → (v ∉ loops → Active v i zs') ∧ (v ∈ loops → Gone i zs')

theorem VarsGo.refl {n : Nat} {zs : List (Graph × Ptr)} : VarsGo n zs [] zs := fun _ _ => ⟨id, fun _ ha => ⟨fun _ => ha, nofun⟩⟩

theorem VarsGo.trans {n m : Nat} {zs zs1 zs2 : List (Graph × Ptr)} {l1 l2 : List Bytes} (h1 : VarsGo n zs l1 zs1) (h2 : VarsGo m zs1 l2 zs2) (hnm : n ≤ m) :
    VarsGo n zs (l1 ++ l2) zs2 := by
  intro i hi
  obtain ⟨g1, a1⟩ := h1 i hi
  obtain ⟨g2, a2⟩ := h2 i (by omega)
  refine ⟨fun hg => g2 (g1 hg), fun v ha => ⟨fun hv => ?_, fun hv => ?_⟩⟩
  · rw [List.mem_append, not_or] at hv
    exact (a2 v ((a1 v ha).1 hv.1)).1 hv.2
  · by_cases h1 : v ∈ l1
    · exact g2 ((a1 v ha).2 h1)
    · exact (a2 v ((a1 v ha).1 h1)).2 ((List.mem_append.1 hv).resolve_left h1)

/-- The context afterwards. -/
def Went (Z : Nat → Prop) (a : Nat) (A : List Nat) (h : Heap) (t : Val) (zs : List (Graph × Ptr)) (loops : List Bytes) (g' : Graph) (h' : Heap) : Prop :=
  ∃ A' zs', Live Z a A' h' t zs' ∧ g' = treeOf t zs' ∧ (∀ b ∈ A, b ∈ A') ∧ (∀ b ∈ A', b ∈ A ∨ h.nodes.length ≤ b) ∧ h.nodes.length ≤ h'.nodes.length ∧
    VarsGo h.nodes.length zs loops zs'

theorem Went.trans {a : Nat} {A : List Nat} {h h1 h2 : Heap} {t : Val} {zs : List (Graph × Ptr)} {l1 l2 : List Bytes} {g1 g2 : Graph}
    (w1 : Went Z a A h t zs l1 g1 h1) (w2 : ∀ A1 zs1, Live Z a A1 h1 t zs1 → g1 = treeOf t zs1 → Went Z a A1 h1 t zs1 l2 g2 h2) : Went Z a A h t zs (l1 ++ l2) g2 h2 := by
  obtain ⟨A1, zs1, L1, e1, s1, n1, le1, f1⟩ := w1
  obtain ⟨A2, zs2, L2, e2, s2, n2, le2, f2⟩ := w2 A1 zs1 L1 e1
  refine ⟨A2, zs2, L2, e2, fun b hb => s2 b (s1 b hb), fun b hb => ?_, Nat.le_trans le1 le2, f1.trans f2 le1⟩
  rcases n2 b hb with hb | hb
  · exact n1 b hb
  · exact .inr (by omega)

theorem Went.still {a : Nat} {A : List Nat} {h h' : Heap} {t : Val} {zs : List (Graph × Ptr)} (l : Live Z a A h t zs) (tn : Turns [] h h') : Went Z a A h t zs [] (treeOf t zs) h' :=
  ⟨A, zs, l.turns tn, rfl, fun _ hb => hb, fun _ hb => .inl hb, tn.le, .refl⟩

/-! ## Steps -/

theorem hm_bind_pure {m : HM α} : (m >>= fun o => pure o) = m := by
  apply hm_ext
  intro x
  show (HM.bind m fun o => pure o).run x = m.run x
  unfold HM.bind
  dsimp only
  rcases m.run x with ⟨r, y⟩
  cases r <;> rfl

/-- As `Sim`, with a context that changes. -/
def Run (F : List Nat) (hm : Nat → HM β) (h : Heap) (m : EvalM α) (g : Graph) (Q : β → α → Graph → Heap → Prop) : Prop :=
  Comes F hm h (m g) fun b ag h' => Q b ag.1 ag.2 h'

namespace Run

variable {g : Graph} {h : Heap}

theorem bind {hm : Nat → HM β} {hk : Nat → β → HM δ} {m : EvalM α} {k : α → EvalM γ} {Q : β → α → Graph → Heap → Prop} {Q' : δ → γ → Graph → Heap → Prop}
    (h1 : Run F hm h m g Q) (h2 : ∀ b a g' h', Turns F h h' → Q b a g' h' → Run F (fun n => hk n b) h' (k a) g' Q') :
    Run F (fun n => hm n >>= hk n) h (m >>= k) g Q' := by
  unfold Run at h1 ⊢
  have e : (m >>= k) g = (m g >>= fun ag => k ag.1 ag.2) := by
    show (match m g with | .ok (a, g') => k a g' | .panic => .panic | .oof => .oof) = _
    rcases m g with ⟨a, g'⟩ | _ | _ <;> rfl
  rw [e]
  exact Comes.bind h1 fun b ag h' t hq => h2 b ag.1 ag.2 h' t hq

theorem sim {hm : Nat → HM β} {hk : Nat → β → HM δ} {m : EvalM α} {k : α → EvalM γ} {Q : β → α → Heap → Prop} {Q' : δ → γ → Graph → Heap → Prop}
    (h1 : Sim [] hm h m g Q) (h2 : ∀ b a h', Turns [] h h' → Q b a h' → Run F (fun n => hk n b) h' (k a) g Q') :
    Run F (fun n => hm n >>= hk n) h (m >>= k) g Q' := by
  unfold Run Sim at *
  have e : (m >>= k) g = (m g >>= fun ag => k ag.1 ag.2) := by
    show (match m g with | .ok (a, g') => k a g' | .panic => .panic | .oof => .oof) = _
    rcases m g with ⟨a, g'⟩ | _ | _ <;> rfl
  rw [e]
  have h1' : Comes F hm h (m g) fun b ag h' => Turns [] h h' ∧ ag.2 = g ∧ Q b ag.1 h' :=
    Comes.weaken (F := []) (Comes.mono h1 fun b ag h' t hq => ⟨t, hq⟩) nofun
  refine Comes.bind h1' fun b ag h' _ hq => ?_
  obtain ⟨a, g'⟩ := ag
  obtain ⟨t, e1, hq⟩ := hq
  dsimp only at e1 hq
  subst e1
  exact h2 b a h' t hq

theorem ret (hs : Solid h) {b : β} {a : α} {Q : β → α → Graph → Heap → Prop} (hq : Q b a g h) : Run F (fun _ => (Pure.pure b : HM β)) h (Pure.pure a) g Q :=
  Comes.ret hs hq

theorem halt (hs : Solid h) {Q : β → α → Graph → Heap → Prop} : Run F (fun _ => (HM.panic : HM β)) h (EvalM.panic : EvalM α) g Q := Comes.halt hs

theorem mono {hm : Nat → HM β} {m : EvalM α} {Q Q' : β → α → Graph → Heap → Prop} (h1 : Run F hm h m g Q) (hq : ∀ b a g' h', Turns F h h' → Q b a g' h' → Q' b a g' h') : Run F hm h m g Q' :=
  Comes.mono h1 fun b ag h' t hx => hq b ag.1 ag.2 h' t hx

theorem step {hm : Nat → HM β} {hk : Nat → β → HM δ} {b : β} {m : EvalM α} {Q : δ → α → Graph → Heap → Prop} (h1 : ∀ n, (hm n).run h = (.ok b, h))
    (h2 : Run F (fun n => hk n b) h m g Q) : Run F (fun n => hm n >>= hk n) h m g Q := Comes.step h1 h2

theorem have' {hm : Nat → HM β} {hk : Nat → β → HM δ} {a : α} {m : EvalM γ} {Q : β → α → Prop} {Q' : δ → γ → Graph → Heap → Prop} (h1 : Comes F hm h (.ok a) (Just h Q))
    (h2 : ∀ b, Q b a → Run F (fun n => hk n b) h m g Q') : Run F (fun n => hm n >>= hk n) h m g Q' := by
  obtain ⟨N, b, h', hr, t, e, hq⟩ := h1
  subst e
  have := h2 b hq
  unfold Run at this ⊢
  cases hm' : m g with
  | ok c =>
    rw [hm'] at this
    obtain ⟨N', d, h'', hr', t', hq'⟩ := this
    exact ⟨max N N', d, h'', fun n hn => by rw [ok_bind' (hr n (by omega))]; exact hr' n (by omega), t', hq'⟩
  | panic =>
    rw [hm'] at this
    obtain ⟨N', h'', hr', t'⟩ := this
    exact ⟨max N N', h'', fun n hn => by rw [ok_bind' (hr n (by omega))]; exact hr' n (by omega), t'⟩
  | oof => trivial

theorem lifted {hk : Nat → α → HM δ} {r : Res α} {k : α → EvalM γ} {Q' : δ → γ → Graph → Heap → Prop} (hs : Solid h)
    (h2 : ∀ a, r = .ok a → Run F (fun n => hk n a) h (k a) g Q') : Run F (fun n => HM.lift r >>= hk n) h (EvalM.lift r >>= k) g Q' := by
  cases r with
  | ok a => exact h2 a rfl
  | panic => exact ⟨0, h, fun _ _ => rfl, .refl hs⟩
  | oof => trivial

theorem ite {c : Prop} [Decidable c] {hm hm' : Nat → HM β} {m m' : EvalM α} {Q : β → α → Graph → Heap → Prop} (h1 : c → Run F hm h m g Q) (h2 : ¬ c → Run F hm' h m' g Q) :
    Run F (fun n => if c then hm n else hm' n) h (if c then m else m') g Q := by
  by_cases hc : c
  · simp only [hc, ↓reduceIte]; exact h1 hc
  · simp only [hc, ↓reduceIte]; exact h2 hc

end Run

/-! ## The loop -/

theorem forLoop_cons {v : Bytes} {body : EvalM Proc} {ee : Graph} {es : List Graph} {away : Bool} {t : Val} {o : List Graph} :
    forLoop v body (ee :: es) away (.node t o) =
      (body (.node t (if away then o else setVar v ee o)) >>= fun rg =>
        if rg.1.brk then .ok (⟨false, rg.1.out, rg.1.loops⟩, rg.2)
        else forLoop v body es (away || rg.1.loops.contains v) rg.2 >>= fun rg' => .ok (⟨false, rg.1.out ++ rg'.1.out, rg.1.loops ++ rg'.1.loops⟩, rg'.2)) := by
  have key : ∀ g, (do
      let r ← body
      if r.brk then pure ⟨false, r.out, r.loops⟩
      else do
        let r' ← forLoop v body es (away || r.loops.contains v)
        pure ⟨false, r.out ++ r'.out, r.loops ++ r'.loops⟩ : EvalM Proc) g = (body g >>= fun rg =>
        if rg.1.brk then .ok (⟨false, rg.1.out, rg.1.loops⟩, rg.2)
        else forLoop v body es (away || rg.1.loops.contains v) rg.2 >>= fun rg' => .ok (⟨false, rg.1.out ++ rg'.1.out, rg.1.loops ++ rg'.1.loops⟩, rg'.2)) := by
    intro g
    rw [evalM_bind]
    rcases body g with ⟨a, g'⟩ | _ | _
    · dsimp only [Res.ok_bind]
      cases a.brk with
      | true => rfl
      | false =>
        simp only [Bool.false_eq_true, ↓reduceIte]
        rw [evalM_bind]
        rfl
    · rfl
    · rfl
  cases away with
  | true => exact key _
  | false => exact key _

section
variable {a : Nat} {t : Val}

/-- A body, or a template, does the same in memory. -/
def Runs (Z : Nat → Prop) (a : Nat) (t : Val) (hm : Nat → HM (Bool × Bytes)) (m : EvalM Proc) : Prop :=
  ∀ (A : List Nat) (h : Heap) (zs : List (Graph × Ptr)), Live Z a A h t zs →
    Run [a] hm h m (treeOf t zs) fun b r g' h' => b = (r.brk, r.out) ∧ Went Z a A h t zs r.loops g' h'

theorem forLoop_run {v : Bytes} {hbody : Nat → HM (Bool × Bytes)} {body : EvalM Proc} {i q : Nat} {c : HNode} {z : HVal} {ps : List Ptr}
    (hb : Runs Z a t hbody body) (hia : i ≠ a) (hqa : q ≠ a) (hqi : q ≠ i) :
    ∀ (es : List Graph) (A : List Nat) (h : Heap) (zs : List (Graph × Ptr)) (ps2 : List Ptr) (k : Nat) (away : Bool), Live Z a A h t zs → i ∈ A →
      h.nodes[q]? = some c → look h q = some (z, ps) → ps.drop k = ps2 → ShowsL (Stay Z A) h es ps2 → (if away then Gone i zs else Active v i zs) →
      Run [a, i] (fun n => hForLoop grow c.out (some i) (hbody n) es.length k) h (forLoop v body es away) (treeOf t zs) fun b r g' h' => b = r.out ∧ r.brk = false ∧ Went Z a A h t zs r.loops g' h'
  | [], A, h, zs, ps2, k, away, l, hi, hc, hl, hps, hes, ha => by
    unfold hForLoop forLoop
    exact .ret l.solid ⟨rfl, rfl, .still l (.refl l.solid)⟩
  | ee :: es, A, h, zs, ps2, k, away, l, hi, hc, hl, hps, hes, ha => by
    obtain ⟨te, oe, p1, ps', rfl, rfl, hee, hr⟩ := hes.parts
    obtain ⟨hpi, hps'⟩ := getElem?_of_drop hps
    have hee' := hee
    obtain ⟨b, _, _, rfl, _⟩ := hee.parts
    have hGA : Gone i zs ∨ Active v i zs := by cases away; exact .inr ha; exact .inl ha
    obtain ⟨h1, h2, hr1, hr2, t0, t1, l2⟩ := setVar_live (grow := grow) (v := v) l hi hia hGA hee' nofun
    have t2 : Turns [i] h h2 := t0.trans t1 .refl
    have e2 : (Graph.node t (if away then zs.map (·.1) else setVar v (.node te oe) (zs.map (·.1)))) = treeOf t (zs.map (bindAt v i (.node te oe))) := by
      cases away with
      | true => rw [bindAt_gone (show Gone i zs from ha)]; rfl
      | false =>
        have ha : Active v i zs := ha
        simp only [Bool.false_eq_true, ↓reduceIte]
        rw [setVar_bind (ee := .node te oe) nofun l.nodup ha.2 fun z hz => (l.kids z hz).1]
        rfl
    have tr2 : VarsGo h.nodes.length zs [] (zs.map (bindAt v i (.node te oe))) := by
      intro j _
      refine ⟨fun hg => hg.bind, fun w hw => ⟨fun _ => ?_, nofun⟩⟩
      rcases hGA with hg | hg
      · rw [bindAt_gone hg]; exact hw
      · exact hw.bind hg
    have ha2 : if away then Gone i (zs.map (bindAt v i (.node te oe))) else Active v i (zs.map (bindAt v i (.node te oe))) := by
      cases away with
      | true => exact Gone.bind ha
      | false => exact Active.bind ha ha
    have w2 : Went Z a A h t zs [] (treeOf t (zs.map (bindAt v i (.node te oe)))) h2 := ⟨A, _, l2, rfl, fun _ hb => hb, fun _ hb => .inl hb, t2.le, tr2⟩
    have hc2 : h2.nodes[q]? = some c ∧ look h2 q = some (z, ps) := by
      have := t2.keep q (look_lt hl) (by simpa using hqi)
      exact ⟨this.1.trans hc, this.2.trans hl⟩
    have hr2' : ShowsL (Stay Z A) h2 es ps' := hr.frame es fun d hd hlt => ⟨hd, (t2.keep d hlt (by simp only [List.mem_singleton]; rintro rfl; exact hd.1 hi)).2⟩
    unfold Run
    rw [List.length_cons]
    unfold hForLoop
    rw [show treeOf t zs = .node t (zs.map (·.1)) from rfl, forLoop_cons, e2]
    refine .step (fun _ => index_look l.solid hl hc hpi) ?_
    refine .go (F' := [a, i]) (h1 := h1) (fun _ => hr1) ?_ .refl (.go (F' := [a, i]) (fun _ => hr2) ?_ .refl ?_)
    · exact t0.mono (by simp)
    · exact t1.mono (by simp)
    have h3 : Comes [a, i] hbody h2 (body (treeOf t (zs.map (bindAt v i (.node te oe))))) fun b rg h' => Turns [a] h2 h' ∧ b = (rg.1.brk, rg.1.out) ∧
        Went Z a A h2 t (zs.map (bindAt v i (.node te oe))) rg.1.loops rg.2 h' := Comes.weaken (Comes.mono (hb A h2 _ l2) fun _ _ _ t hq => ⟨t, hq⟩) (by simp)
    refine .bind h3 fun b rg h3 _ hq => ?_
    obtain ⟨r, g3⟩ := rg
    obtain ⟨t3, rfl, w3⟩ := hq
    dsimp only at w3 ⊢
    obtain ⟨A3, zs3, l3, rfl, s3, n3, le3, f3⟩ := w3
    have hlen : h.nodes.length ≤ h2.nodes.length := t2.le
    have n3' : ∀ b ∈ A3, b ∈ A ∨ h.nodes.length ≤ b := fun b hb => by
      rcases n3 b hb with h | h
      · exact .inl h
      · exact .inr (by omega)
    have f3' : VarsGo h.nodes.length zs r.loops zs3 := by
      have := tr2.trans f3 hlen
      simpa using this
    cases hbrk : r.brk with
    | true =>
      simp only [↓reduceIte]
      exact .ret t3.solid ⟨rfl, rfl, A3, zs3, l3, rfl, s3, n3', Nat.le_trans hlen le3, f3'⟩
    | false =>
      simp only [Bool.false_eq_true, ↓reduceIte]
      have hq3 := t3.keep q (look_lt hc2.2) (by simpa using hqa)
      have hr3 : ShowsL (Stay Z A3) h3 es ps' := hr2'.frame es fun d hd hlt => by
        refine ⟨⟨fun hx => ?_, hd.2⟩, (t3.keep d hlt (by simp only [List.mem_singleton]; rintro rfl; exact hd.1 l.mem)).2⟩
        rcases n3 d hx with hx | hx
        · exact hd.1 hx
        · omega
      have ha3 : if (away || r.loops.contains v) then Gone i zs3 else Active v i zs3 := by
        obtain ⟨fg, fa⟩ := f3 i (l2.below i hi)
        cases away with
        | true => exact fg ha2
        | false =>
          simp only [Bool.false_or]
          by_cases hv : v ∈ r.loops
          · rw [if_pos (by simpa using hv)]; exact (fa v ha2).2 hv
          · rw [if_neg (by simpa using hv)]; exact (fa v ha2).1 hv
      have := forLoop_run hb hia hqa hqi es A3 h3 zs3 ps' (k + 1) (away || r.loops.contains v) l3 (s3 i hi) (hq3.1.trans hc2.1) (hq3.2.trans hc2.2) hps' hr3 ha3
      refine Comes.bind this fun o rg' h4 t4 hq => ?_
      obtain ⟨r', g4⟩ := rg'
      obtain ⟨rfl, _, w4⟩ := hq
      refine .ret t4.solid ⟨rfl, rfl, ?_⟩
      obtain ⟨A4, zs4, l4, e4, s4, n4, le4, f4⟩ := w4
      refine ⟨A4, zs4, l4, e4, fun b hb => s4 b (s3 b hb), fun b hb => ?_, by omega, f3'.trans f4 (by omega)⟩
      rcases n4 b hb with h | h
      · exact n3' b h
      · exact .inr (by omega)

/-- The loop variable and the loop over the subnodes of `gi`, on trees. -/
def forOver (E : Ext) (sub : Graph → EvalM Proc) (n gi : Graph) : EvalM Proc := do
  let args ← .lift (n.getAt 0)
  let a ← .lift (args.getAt 0)
  let a ← .lift (a.getAt 0)
  let name ← .lift (a.string E)
  EvalM.modify fun c => do
    let c ← c.delete E (.str name)
    .ok ((c.add (.str name)).1, ())
  let body ← .lift (n.getAt 1)
  if gi.isNil then EvalM.panic
  else do
    let r ← forLoop name (sub body) gi.out false
    pure { r with loops := name :: r.loops }

theorem forNode_over {sub : Graph → EvalM Proc} {n : Graph} : forNode E sub n = (do
    let args ← .lift (n.getAt 0)
    let src ← .lift (args.getAt 1)
    let (v, _) ← eval E (evalFuel src) src
    match v with
    | .graph gi => if gi.isNil || gi.len == 0 then pure ⟨false, [], []⟩ else forOver E sub n (if gi.thisString E = b!"[" then gi.out.headD .nil else gi)
    | _ => pure ⟨false, [], []⟩) := rfl

theorem varsGo_new {nm : Bytes} {i n : Nat} {zs : List (Graph × Ptr)} (hi : n ≤ i) : VarsGo n zs [nm] (zs.filter (keeps nm) ++ [(.node (.str nm) [], some i)]) := by
  intro j hj
  refine ⟨fun hg z hz => ?_, fun v ha => ⟨fun hv => ⟨?_, fun z hz => ?_⟩, fun hv z hz => ?_⟩⟩
  · rcases List.mem_append.1 hz with hz | hz
    · exact hg z (List.mem_filter.1 hz).1
    · rw [List.mem_singleton] at hz
      subst hz
      intro e
      cases e
      omega
  · obtain ⟨⟨z, hz, e⟩, hi⟩ := ha
    refine ⟨z, List.mem_append_left _ (List.mem_filter.2 ⟨hz, ?_⟩), e⟩
    unfold keeps
    rw [(hi z hz).1 e]
    simp only [List.mem_singleton] at hv
    simp [isStr, hv]
  · rcases List.mem_append.1 hz with hz | hz
    · exact ha.2 z (List.mem_filter.1 hz).1
    · rw [List.mem_singleton] at hz
      subst hz
      constructor
      · intro e
        cases e
        omega
      · intro e
        cases e
        simp at hv
  · rcases List.mem_append.1 hz with hz | hz
    · obtain ⟨h1, h2⟩ := List.mem_filter.1 hz
      intro e
      have := (ha.2 z h1).1 e
      unfold keeps at h2
      rw [List.mem_singleton] at hv
      rw [this, hv] at h2
      simp [isStr] at h2
    · rw [List.mem_singleton] at hz
      subst hz
      intro e
      cases e
      omega

theorem forOver_run {hsub : Nat → Graph → HM (Bool × Bytes)} {sub : Graph → EvalM Proc} (hs : ∀ T, Calm E T → Runs Z a t (fun n => hsub n T) (sub T)) {n : Graph}
    (hn : ∀ T, n.getAt 1 = .ok T → Calm E T) {A : List Nat} {h : Heap} {zs : List (Graph × Ptr)} (l : Live Z a A h t zs) {gi : Graph} {p : Ptr} (hgi : Loose (Stay Z A) (Under Z a) h gi p) (hnil : gi ≠ .nil) :
    Run [a] (fun k => hForOver grow E (some a) (hsub k) n p) h (forOver E sub n gi) (treeOf t zs) fun b r g' h' => b = r.out ∧ r.brk = false ∧ Went Z a A h t zs r.loops g' h' := by
  unfold hForOver forOver
  refine .lifted l.solid fun args _ => .lifted l.solid fun x _ => .lifted l.solid fun y _ => .lifted l.solid fun nm _ => ?_
  obtain ⟨h1, hr1, t1, l1, e1⟩ := hDelete_live (E := E) (grow := grow) (nm := nm) l
  obtain ⟨h2, hr2, t2, hlen2, l2, e2⟩ := addVar_live (grow := grow) (nm := nm) l1
  cases gi with
  | nil => exact absurd rfl hnil
  | node w es =>
  obtain ⟨q, z, ps, rfl, hqa, hl, _, hes⟩ := hgi
  have hql := look_lt hl
  have hle1 := t1.le
  have hP : ∀ d, Stay Z A d → d < h.nodes.length → Stay Z (h1.nodes.length :: A) d ∧ look h2 d = look h d := fun d hd hlt => by
    have hda : d ≠ a := (l.under d hd).1
    refine ⟨⟨fun hx => ?_, hd.2⟩, ((t2.keep d (by omega) (by simpa using hda)).2.trans (t1.keep d hlt (by simpa using hda)).2)⟩
    rcases List.mem_cons.1 hx with rfl | hx
    · omega
    · exact hd.1 hx
  have hl2 : look h2 q = some (z, ps) := by
    have hqa : q ≠ a := hqa.1
    rw [(t2.keep q (by omega) (by simpa using hqa)).2, (t1.keep q hql (by simpa using hqa)).2]
    exact hl
  obtain ⟨c, hc, hld, _, hlen, _⟩ := load_look t2.solid hl2
  unfold Run
  rw [evalM_bind]
  have e3 : EvalM.modify (fun c => do
      let c ← c.delete E (.str nm)
      .ok ((c.add (.str nm)).1, ())) (treeOf t zs) = .ok ((), treeOf t (zs.filter (keeps nm) ++ [(.node (.str nm) [], some h1.nodes.length)])) := by
    unfold EvalM.modify
    dsimp only
    rw [e1]
    simp only [Res.ok_bind]
    rw [e2]
  rw [e3]
  refine .go (F' := [a]) (fun _ => hr1) t1 .refl (.go (F' := [a, h1.nodes.length]) (fun _ => hr2) t2 (fun b hb => ?_) ?_)
  · simp only [List.mem_cons, List.not_mem_nil, or_false] at hb
    rcases hb with rfl | rfl
    · exact .inl (by simp)
    · exact .inr (Nat.le_refl _)
  show Run [a, h1.nodes.length] (fun k => HM.lift (n.getAt 1) >>= fun body => HM.load (some q) >>= fun l => hForLoop grow l.out (some h1.nodes.length) (hsub k body) l.out.len 0) h2
    (EvalM.lift (n.getAt 1) >>= fun body => do let r ← forLoop nm (sub body) es false; pure { r with loops := nm :: r.loops })
    (treeOf t (zs.filter (keeps nm) ++ [(.node (.str nm) [], some h1.nodes.length)])) fun b r g' h' => b = r.out ∧ r.brk = false ∧ Went Z a A h t zs r.loops g' h'
  refine .lifted l2.solid fun body hbody => ?_
  have hgone : ∀ z ∈ zs.filter (keeps nm), z.2 ≠ some h1.nodes.length := by
    intro z hz e
    obtain ⟨hn, hg⟩ := l1.kids z hz
    cases hz1 : z.1 with
    | nil => exact hn hz1
    | node v gs =>
      rw [hz1] at hg
      obtain ⟨b, _, _, e', _, hlb, _⟩ := hg
      have := look_lt hlb
      rw [e] at e'
      cases e'
      omega
  have hact : Active nm h1.nodes.length (zs.filter (keeps nm) ++ [(.node (.str nm) [], some h1.nodes.length)]) := by
    refine ⟨⟨_, List.mem_append_right _ (List.mem_singleton.2 rfl), rfl⟩, fun z hzm => ?_⟩
    rcases List.mem_append.1 hzm with hzm | hzm
    · constructor
      · intro e; exact absurd e (hgone z hzm)
      · intro e
        have := (List.mem_filter.1 hzm).2
        unfold keeps at this
        rw [isStr_iff.2 e] at this
        exact absurd this (by simp)
    · rw [List.mem_singleton] at hzm
      subst hzm
      exact ⟨fun _ => rfl, fun _ => rfl⟩
  have hlen' : c.out.len = es.length := by rw [hlen, hes.length]
  have hal := l.below a l.mem
  have hloop := forLoop_run (grow := grow) (v := nm) (i := h1.nodes.length) (hs body (hn body hbody)) (show h1.nodes.length ≠ a by omega) hqa.1 (show q ≠ h1.nodes.length by omega) es _ h2 _ ps 0 false l2
    (List.mem_cons_self ..) hc hl2 rfl (hes.frame es hP) hact
  refine .step (fun _ => hld) ?_
  rw [hlen']
  have hret := Run.bind (hk := fun _ o => pure o) (k := fun r => pure { r with loops := nm :: r.loops }) (Q' := fun b r g' h' => b = r.out ∧ r.brk = false ∧ Went Z a A h t zs r.loops g' h')
    hloop fun o r g' h' t' hq => by
      obtain ⟨e, hb, A', zs', L', e', s', n', le', f'⟩ := hq
      refine .ret t'.solid ⟨e, hb, A', zs', L', e', fun b hb => s' b (List.mem_cons_of_mem _ hb), fun b hb => ?_, by omega, ?_⟩
      · rcases n' b hb with hb | hb
        · rcases List.mem_cons.1 hb with rfl | hb
          · exact .inr hle1
          · exact .inl hb
        · exact .inr (by omega)
      · exact (varsGo_new (nm := nm) (i := h1.nodes.length) hle1).trans f' (by omega)
  simpa only [hm_bind_pure] using hret

theorem SourceV.graph {P N : Nat → Prop} {h : Heap} {g : Graph} {x : HVal} (hv : SourceV P N h (.graph g) x) (hN : ∀ b, P b → N b) :
    ∃ p, x = .ptr p ∧ Root P N h g p ∧ (g.this ≠ .str b!"[" → Loose P N h g p) := by
  rcases hv with (hv | ⟨g', p, e, rfl, hl⟩) | ⟨o, p, e, rfl, hr⟩
  · unfold ShowsV at hv
    obtain ⟨p, rfl, hs⟩ := hv
    exact ⟨p, rfl, (hs.loose hN).root hN, fun _ => hs.loose hN⟩
  · cases e
    exact ⟨p, rfl, hl.root hN, fun _ => hl⟩
  · cases e
    exact ⟨p, rfl, hr, fun hn => absurd rfl hn⟩

theorem SourceV.plain {P N : Nat → Prop} {h : Heap} {v : Val} {x : HVal} (hv : SourceV P N h v x) (hn : NoGraph v) : x = .val v := by
  rcases hv with (hv | ⟨g', p, e, rfl, hl⟩) | ⟨o, p, e, rfl, hr⟩
  · rcases hv.cases with ⟨_, h⟩ | ⟨g, p, rfl, _⟩
    · exact h
    · exact absurd rfl (hn g)
  · exact absurd e (hn _)
  · exact absurd e (hn _)

theorem forNode_run (hE : WholeCalls E) {hsub : Nat → Graph → HM (Bool × Bytes)} {sub : Graph → EvalM Proc} (hs : ∀ T, Calm E T → Runs Z a t (fun n => hsub n T) (sub T)) {n : Graph}
    (hn : CalmPiece E n) (hfor : n.thisString E = tyFor) {A : List Nat} {h : Heap} {zs : List (Graph × Ptr)} (l : Live Z a A h t zs) :
    Run [a] (fun k => hForNode grow E k (some a) (hsub k) n) h (forNode E sub n) (treeOf t zs) fun b r g' h' => b = r.out ∧ r.brk = false ∧ Went Z a A h t zs r.loops g' h' := by
  unfold hForNode
  rw [forNode_over]
  refine .lifted l.solid fun args hargs => .lifted l.solid fun src hsrc => ?_
  obtain ⟨h1, h2⟩ := calmPiece_for hn hfor
  obtain ⟨hask, hok⟩ := h1 args src hargs hsrc
  have hfit : Fit E src := hask.fit
  refine .sim (eval_source l.under hE l.ctx l.fresh l.isRoot src hfit hok) fun b ag h' t1 hq => ?_
  obtain ⟨x, er⟩ := b
  obtain ⟨v, er'⟩ := ag
  obtain ⟨_, hv⟩ := hq
  have l1 := l.turns t1
  dsimp only at hv ⊢
  have hback : ∀ {b : Bytes} {r : Proc} {g' : Graph} {h'' : Heap}, b = r.out ∧ r.brk = false ∧ Went Z a A h' t zs r.loops g' h'' → b = r.out ∧ r.brk = false ∧ Went Z a A h t zs r.loops g' h'' := by
    rintro b r g' h'' ⟨e1, e2, w⟩
    have := Went.trans (.still l t1) (l2 := r.loops) (g2 := g') (h2 := h'') (l1 := [])
    obtain ⟨A2, zs2, L2, e3, s2, n2, le2, f2⟩ := w
    have hle := t1.le
    refine ⟨e1, e2, A2, zs2, L2, e3, s2, fun b hb => ?_, by omega, fun i hi => f2 i (by omega)⟩
    rcases n2 b hb with hb | hb
    · exact .inl hb
    · exact .inr (by omega)
  have hnone : Run [a] (fun _ => (pure [] : HM Bytes)) h' (pure (⟨false, [], []⟩ : Proc)) (treeOf t zs) fun b r g' h' => b = r.out ∧ r.brk = false ∧ Went Z a A h t zs r.loops g' h' :=
    .ret t1.solid ⟨rfl, rfl, .still l t1⟩
  by_cases hg : ∃ gi, v = .graph gi
  · obtain ⟨gi, rfl⟩ := hg
    obtain ⟨p, rfl, hroot, hloose⟩ := hv.graph l.under
    dsimp only
    refine .step (fun _ => len_run t1.solid hroot.any) ?_
    rw [hroot.isNone]
    refine .ite (fun _ => hnone) fun hk => ?_
    refine .have' (thisString_comes t1.solid hroot.any) fun s hs' => ?_
    subst hs'
    cases gi with
    | nil => exact absurd rfl hk
    | node w o =>
    have hroot' := hroot
    obtain ⟨q, y, ps, rfl, hl, hy, ho⟩ := hroot
    by_cases hb : (Graph.node w o).thisString E = b!"["
    · simp only [hb, ↓reduceIte]
      obtain ⟨c, hc, hld, _, _, _⟩ := load_look t1.solid hl
      cases ho with
      | nil => exact absurd rfl hk
      | @cons g1 p1 gs ps' hn1 h1 hr =>
        refine .step (fun _ => hld) (.step (fun _ => index_look t1.solid hl hc (i := 0) (p := p1) rfl) ?_)
        exact (forOver_run hs h2 l1 h1 hn1).mono fun _ _ _ _ _ hq => hback hq
    · simp only [hb, ↓reduceIte]
      refine (forOver_run hs h2 l1 (hloose ?_) nofun).mono fun _ _ _ _ _ hq => hback hq
      intro e
      obtain rfl : w = .str b!"[" := e
      exact hb rfl
  · have hng : NoGraph v := fun g e => hg ⟨g, e⟩
    have := hv.plain hng
    subst this
    cases v <;> first | exact hnone | exact absurd rfl (hng _)

/-! ## Templates -/

theorem procNodes_run (hE : WholeCalls E) {hsub : Nat → Graph → HM (Bool × Bytes)} {sub : Graph → EvalM Proc} (hs : ∀ T, Calm E T → Runs Z a t (fun n => hsub n T) (sub T)) :
    ∀ (o : List Graph) (yes : Bool), (∀ n ∈ o, CalmPiece E n) → Runs Z a t (fun k => hProcNodes grow E k (some a) (hsub k) o yes) (procNodes E sub o yes)
  | [], yes, _, A, h, zs, l => by
    unfold hProcNodes procNodes
    exact .ret l.solid ⟨rfl, .still l (.refl l.solid)⟩
  | n :: rest, yes, ho, A, h, zs, l => by
    have hn := ho n (List.mem_cons_self ..)
    have ih := fun yes => procNodes_run hE hs rest yes fun m hm => ho m (List.mem_cons_of_mem _ hm)
    have next : ∀ {r : Proc} {b : Bytes} {g' : Graph} {h' : Heap} (yes : Bool), b = r.out → Went Z a A h t zs r.loops g' h' →
        Run [a] (fun k => do
          let r ← hProcNodes grow E k (some a) (hsub k) rest yes
          pure (r.1, b ++ r.2)) h' (do
          let r' ← procNodes E sub rest yes
          pure (⟨r'.brk, r.out ++ r'.out, r.loops ++ r'.loops⟩ : Proc)) g' fun b r g' h' => b = (r.brk, r.out) ∧ Went Z a A h t zs r.loops g' h' := by
      intro r b g' h' yes eb w
      obtain ⟨A1, zs1, l1, rfl, s1, n1, le1, f1⟩ := w
      refine .bind (ih yes A1 h' zs1 l1) fun b' r' g2 h2 t2 hq => ?_
      obtain ⟨rfl, A2, zs2, L2, e2, s2, n2, le2, f2⟩ := hq
      refine .ret t2.solid ⟨by rw [eb], A2, zs2, L2, e2, fun b hb => s2 b (s1 b hb), fun b hb => ?_, by omega, f1.trans f2 le1⟩
      rcases n2 b hb with hb | hb
      · exact n1 b hb
      · exact .inr (by omega)
    have skip : ∀ {h' : Heap} (yes : Bool) (s : Bytes), Turns [] h h' →
        Run [a] (fun k => do
          let r ← hProcNodes grow E k (some a) (hsub k) rest yes
          pure (r.1, s ++ r.2)) h' (do
          let r' ← procNodes E sub rest yes
          pure (⟨r'.brk, s ++ r'.out, [] ++ r'.loops⟩ : Proc)) (treeOf t zs) fun b r g' h' => b = (r.brk, r.out) ∧ Went Z a A h t zs r.loops g' h' :=
      fun yes s tn => next (r := ⟨false, s, []⟩) yes rfl (.still l tn)
    have into : ∀ {h' : Heap} (i : Int) (yes : Bool), (∀ T, n.getAt i = .ok T → Calm E T) → Turns [] h h' →
        Run [a] (fun k => do
          let t ← HM.lift (n.getAt i)
          let r ← hsub k t
          let r' ← hProcNodes grow E k (some a) (hsub k) rest yes
          pure (r'.1, r.2 ++ r'.2)) h' (do
          let t ← .lift (n.getAt i)
          let r ← sub t
          let r' ← procNodes E sub rest yes
          pure (⟨r'.brk, r.out ++ r'.out, r.loops ++ r'.loops⟩ : Proc)) (treeOf t zs) fun b r g' h' => b = (r.brk, r.out) ∧ Went Z a A h t zs r.loops g' h' := by
      intro h' i yes hc tn
      refine .lifted tn.solid fun T hT => ?_
      refine .bind (hs T (hc T hT) A h' zs (l.turns tn)) fun b r g2 h2 t2 hq => ?_
      obtain ⟨rfl, A2, zs2, L2, e2, s2, n2, le2, f2⟩ := hq
      have hle := tn.le
      refine next yes rfl ⟨A2, zs2, L2, e2, s2, fun b hb => ?_, by omega, fun i hi => f2 i (by omega)⟩
      rcases n2 b hb with hb | hb
      · exact .inl hb
      · exact .inr (by omega)
    have ev : ∀ {x : Graph} (f : Nat), Fit E x → Sim [] (fun k => hEval grow E k (some a) f x) h (eval E f x) (treeOf t zs) (Both fun _ => True) :=
      fun f hx => (allSim hE f).eval l.ctx _ hx
    have cond : (∀ l e, n.getAt 0 = .ok l → l.getAt 0 = .ok e → Fit E e) → ∀ {hk : Nat → Bool → HM (Bool × Bytes)} {k : Bool → EvalM Proc} {Q : Bool × Bytes → Proc → Graph → Heap → Prop},
        (∀ b h', Turns [] h h' → Run [a] (fun n => hk n b) h' (k b) (treeOf t zs) Q) →
        Run [a] (fun m => (do
          let y ← HM.lift (n.getAt 0)
          let x ← HM.lift (y.getAt 0)
          hEvalBool grow E m (some a) (evalFuel x + 1) x) >>= hk m) h ((do
          let y ← .lift (n.getAt 0)
          let x ← .lift (y.getAt 0)
          evalBool E (evalFuel x + 1) x) >>= k) (treeOf t zs) Q := by
      intro hfit hk k Q hc
      have : Sim [] (fun m => (do
          let y ← HM.lift (n.getAt 0)
          let x ← HM.lift (y.getAt 0)
          hEvalBool grow E m (some a) (evalFuel x + 1) x)) h (do
          let y ← .lift (n.getAt 0)
          let x ← .lift (y.getAt 0)
          evalBool E (evalFuel x + 1) x) (treeOf t zs) fun b a _ => b = a := by
        refine .bind (.lift (.lifted (Q := fun a b h' => a = b ∧ n.getAt 0 = .ok b ∧ h' = h) l.solid fun a ha => ⟨rfl, ha, rfl⟩)) fun y y' h1 t1 hq => ?_
        obtain ⟨rfl, hy, rfl⟩ := hq
        refine .bind (.lift (.lifted (Q := fun a b h' => a = b ∧ y.getAt 0 = .ok b ∧ h' = h1) l.solid fun a ha => ⟨rfl, ha, rfl⟩)) fun x x' h2 t2 hq => ?_
        obtain ⟨rfl, hx, rfl⟩ := hq
        exact (allSim hE _).evalBool l.ctx _ (hfit _ _ hy hx)
      exact .sim this fun b b' h' t1 e => by subst e; exact hc b h' t1
    unfold hProcNodes procNodes
    dsimp only
    refine .ite (fun hp => ?_) fun _ => .ite (fun he => ?_) fun _ => .ite (fun hi => ?_) fun _ => .ite (fun hi => ?_) fun _ => .ite (fun hl => ?_) fun _ =>
      .ite (fun hfor => ?_) fun _ => .ite (fun _ => ?_) fun _ => skip yes _ (.refl l.solid)
    · refine .sim (ev _ (calmPiece_value hn (.inl hp))) fun b ag h1 t1 hq => ?_
      obtain ⟨x, er⟩ := b
      obtain ⟨v, er'⟩ := ag
      obtain ⟨_, hv⟩ := hq
      refine .have' (value_comes t1.solid hv) fun v' e => ?_
      subst e
      refine .lifted t1.solid fun s _ => skip yes s t1
    · refine .sim (ev _ (calmPiece_value hn (.inr he))) fun b ag h1 t1 hq => ?_
      exact skip yes [] t1
    · obtain ⟨c1, c2⟩ := calmPiece_cond hn (.inl hi)
      refine cond c1 fun b h1 t1 => ?_
      refine .ite (fun _ => into 1 true c2 t1) fun _ => skip false [] t1
    · obtain ⟨c1, c2⟩ := calmPiece_cond hn (.inr hi)
      refine .ite (fun _ => skip true [] (.refl l.solid)) fun _ => cond c1 fun b h1 t1 => ?_
      refine .ite (fun _ => into 1 true c2 t1) fun _ => skip false [] t1
    · refine .ite (fun _ => skip true [] (.refl l.solid)) fun _ => into 0 false (calmPiece_else hn hl) (.refl l.solid)
    · refine .bind (forNode_run hE hs hn hfor l) fun b r g' h' t1 hq => ?_
      exact next yes hq.1 hq.2.2
    · exact .ret l.solid ⟨rfl, .still l (.refl l.solid)⟩

theorem process_run (hE : WholeCalls E) : ∀ (f : Nat) (T : Graph), Calm E T → Runs Z a t (fun k => hProc grow E k (some a) f T) (process E f T)
  | 0, T, _, A, h, zs, l => by unfold process; trivial
  | f + 1, .nil, _, A, h, zs, l => by
    unfold hProc process
    exact .ret l.solid ⟨rfl, .still l (.refl l.solid)⟩
  | f + 1, .node w o, hT, A, h, zs, l => by
    unfold hProc process
    exact procNodes_run hE (fun T hT => process_run hE f T hT) o false (by cases hT with | node h => exact h) A h zs l

/-! ## Several templates -/

theorem holdsL_pairs {h : Heap} : ∀ (gs : List Graph) {ps : List Ptr} {F : List Nat}, HoldsL h gs ps F → WholeL gs →
    ∃ zs : List (Graph × Ptr), zs.map (·.1) = gs ∧ zs.map (·.2) = ps ∧ (∀ z ∈ zs, z.1 ≠ .nil ∧ Whole z.1 ∧ ∃ X, Holds h z.1 z.2 X ∧ ∀ b ∈ X, b ∈ F) ∧ (zs.map (·.2)).Nodup
  | [], ps, F, hg, _ => by
    unfold HoldsL at hg
    exact ⟨[], rfl, hg.1.symm, nofun, .nil⟩
  | g :: gs, ps, F, hg, hw => by
    unfold HoldsL at hg
    obtain ⟨p, ps', F1, F2, rfl, rfl, hd, h1, h2⟩ := hg
    unfold WholeL at hw
    obtain ⟨zs, e1, e2, hz, hn⟩ := holdsL_pairs gs h2 hw.2.2
    refine ⟨(g, p) :: zs, by simp [e1], by simp [e2], fun z hzm => ?_, ?_⟩
    · rcases List.mem_cons.1 hzm with rfl | hzm
      · exact ⟨hw.1, hw.2.1, F1, h1, fun b hb => List.mem_append_left _ hb⟩
      · obtain ⟨n1, n2, X, hX, hs⟩ := hz z hzm
        exact ⟨n1, n2, X, hX, fun b hb => List.mem_append_right _ (hs b hb)⟩
    · rw [List.map_cons, List.nodup_cons]
      refine ⟨fun hm => ?_, hn⟩
      obtain ⟨z, hzm, e⟩ := List.mem_map.1 hm
      obtain ⟨n1, _, X, hX, hs⟩ := hz z hzm
      cases g with
      | nil => exact hw.1 rfl
      | node v o =>
        obtain ⟨b, _, _, F', eb, rfl, _⟩ := h1.parts
        cases hz1 : z.1 with
        | nil => exact n1 hz1
        | node v' o' =>
          rw [hz1] at hX
          obtain ⟨b', _, _, F'', eb', rfl, _⟩ := hX.parts
          have e : z.2 = p := e
          rw [e, eb] at eb'
          cases eb'
          exact hd b (List.mem_cons_self ..) (hs b (List.mem_cons_self ..))

theorem holds_live {h : Heap} (hs : Solid h) {t : Val} {o : List Graph} {p : Ptr} {F : List Nat} (hg : Holds h (.node t o) p F) (hw : Whole (.node t o)) :
    ∃ a zs, p = some a ∧ Live (fun _ => True) a [a] h t zs ∧ treeOf t zs = .node t o := by
  obtain ⟨a, x, ps, F', rfl, rfl, haF, hl, hc, ho⟩ := hg.parts
  unfold Whole at hw
  obtain ⟨zs, rfl, rfl, hz, hn⟩ := holdsL_pairs o ho hw.2
  refine ⟨a, zs, rfl, ⟨hs, ⟨x, hl, ?_⟩, fun z hzm => ?_, hn, by simp, fun b hb => ?_, fun _ _ => trivial, fun _ _ => trivial⟩, rfl⟩
  · cases hc with
    | val h => exact .plain h
    | nil => exact .graph (by unfold Shows; rfl)
  · obtain ⟨n1, n2, X, hX, hs⟩ := hz z hzm
    refine ⟨n1, Spec.Shows.loose (P := Stay _ [a]) (fun b hb => (by simpa [Stay, Under] using hb)) (holds_shows z.1 hX n2 fun b hb => ⟨fun hx => ?_, trivial⟩)⟩
    simp only [List.mem_singleton] at hx
    subst hx
    exact haF (hs b hb)
  · simp only [List.mem_singleton] at hb
    subst hb
    exact look_lt hl

theorem hProcess_run (hE : WholeCalls E) {T : Graph} (hT : Calm E T) {A : List Nat} {h : Heap} {zs : List (Graph × Ptr)} (l : Live Z a A h t zs) :
    Comes [a] (fun n => hProcess grow E n (some a) T) h (T.process E (treeOf t zs)) fun b r h' => b = r.1 ∧ ∃ A' zs', Live Z a A' h' t zs' ∧ r.2 = treeOf t zs' := by
  unfold hProcess Graph.process
  refine Comes.bind (process_run hE (T.height + 1) T hT A h zs l) fun b rg h' t' hq => ?_
  obtain ⟨r, g'⟩ := rg
  obtain ⟨rfl, A', zs', L', e', _⟩ := hq
  exact .ret t'.solid ⟨rfl, A', zs', L', e'⟩

theorem renders_run (hE : WholeCalls E) : ∀ (ts : List Graph), (∀ T ∈ ts, Calm E T) → ∀ {A : List Nat} {h : Heap} {zs : List (Graph × Ptr)}, Live Z a A h t zs →
    Comes [a] (fun n => rendersMem E grow n (some a) ts) h (rendersTree E ts (treeOf t zs)) fun b r h' => b = r.1 ∧ ∃ A' zs', Live Z a A' h' t zs' ∧ r.2 = treeOf t zs'
  | [], _, A, h, zs, l => by
    unfold rendersMem rendersTree
    exact .ret l.solid ⟨rfl, A, zs, l, rfl⟩
  | T :: ts, hT, A, h, zs, l => by
    unfold rendersMem rendersTree
    refine .bind (hProcess_run hE (hT T (List.mem_cons_self ..)) l) fun b r h1 t1 hq => ?_
    obtain ⟨o, g'⟩ := r
    obtain ⟨rfl, A', zs', L', e'⟩ := hq
    dsimp only at e'
    subst e'
    refine .bind (renders_run hE ts (fun U hU => hT U (List.mem_cons_of_mem _ hU)) L') fun b r h2 t2 hq => ?_
    obtain ⟨rfl, A2, zs2, L2, e2⟩ := hq
    exact .ret t2.solid ⟨rfl, A2, zs2, L2, e2⟩

end
end Ogdl
