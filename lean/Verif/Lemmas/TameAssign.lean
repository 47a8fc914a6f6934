import Verif.Lemmas.TamePut
import Verif.Lemmas.CalmItems

/-!
# Assignments of a template in memory
-/

namespace Ogdl
open Spec HM

variable {E : Ext} {grow : Nat → Nat → Nat} {F : List Nat} {Z : Nat → Prop} {W : List Bytes}

/-- As `Comes.bind`; what follows may change other nodes if they are new. -/
theorem Comes.then {m : Nat → HM β} {k : Nat → β → HM δ} {h : Heap} {r : Res α} {kr : α → Res γ} {Q : β → α → Heap → Prop} {Q' : δ → γ → Heap → Prop}
    (hm : Comes F m h r Q) (hk : ∀ b a h', Turns F h h' → Q b a h' → ∃ F', Within h F F' ∧ Comes F' (fun n => k n b) h' (kr a) Q') :
    Comes F (fun n => m n >>= k n) h (r >>= kr) Q' := by
  cases r with
  | ok a =>
    obtain ⟨N, b, h', hr, t, hq⟩ := hm
    obtain ⟨F', hw, this⟩ := hk b a h' t hq
    show Comes F _ h (kr a) Q'
    cases hkr : kr a with
    | ok c =>
      rw [hkr] at this
      obtain ⟨N', d, h'', hr', t', hq'⟩ := this
      exact ⟨max N N', d, h'', fun n hn => by rw [ok_bind' (hr n (by omega))]; exact hr' n (by omega), t.trans t' hw, hq'⟩
    | panic =>
      rw [hkr] at this
      obtain ⟨N', h'', hr', t'⟩ := this
      exact ⟨max N N', h'', fun n hn => by rw [ok_bind' (hr n (by omega))]; exact hr' n (by omega), t.trans t' hw⟩
    | oof => trivial
  | panic =>
    obtain ⟨N, h', hr, t⟩ := hm
    exact ⟨N, h', fun n hn => panic_bind' (hr n hn), t⟩
  | oof => trivial

theorem Run.then {g : Graph} {h : Heap} {hm : Nat → HM β} {hk : Nat → β → HM δ} {m : EvalM α} {k : α → EvalM γ} {Q : β → α → Graph → Heap → Prop} {Q' : δ → γ → Graph → Heap → Prop}
    (h1 : Run F hm h m g Q) (h2 : ∀ b a g' h', Turns F h h' → Q b a g' h' → ∃ F', Within h F F' ∧ Run F' (fun n => hk n b) h' (k a) g' Q') :
    Run F (fun n => hm n >>= hk n) h (m >>= k) g Q' := by
  unfold Run at h1 ⊢
  rw [evalM_bind]
  exact Comes.then h1 fun b ag h' t hq => h2 b ag.1 ag.2 h' t hq

/-- A value that is read. -/
theorem Run.reads {g : Graph} {h : Heap} {hm : Nat → HM β} {hk : Nat → β → HM δ} {r : Res α} {k : α → EvalM γ} {Q : β → α → Prop} {Q' : δ → γ → Graph → Heap → Prop}
    (h1 : Comes F hm h r (Just h Q)) (h2 : ∀ b a, r = .ok a → Q b a → Run F (fun n => hk n b) h (k a) g Q') : Run F (fun n => hm n >>= hk n) h (EvalM.lift r >>= k) g Q' := by
  unfold Run
  rw [evalM_bind]
  cases hr : r with
  | ok a =>
    rw [hr] at h1
    obtain ⟨N, b, h', hb, _, e, hq⟩ := h1
    subst e
    have := h2 b a hr hq
    unfold Run at this
    show Comes F _ h' (k a g) _
    cases hka : k a g with
    | ok c =>
      rw [hka] at this
      obtain ⟨N', d, h'', hr', t', hq'⟩ := this
      exact ⟨max N N', d, h'', fun n hn => by rw [ok_bind' (hb n (by omega))]; exact hr' n (by omega), t', hq'⟩
    | panic =>
      rw [hka] at this
      obtain ⟨N', h'', hr', t'⟩ := this
      exact ⟨max N N', h'', fun n hn => by rw [ok_bind' (hb n (by omega))]; exact hr' n (by omega), t'⟩
    | oof => trivial
  | panic =>
    rw [hr] at h1
    obtain ⟨N, h', hb, t⟩ := h1
    exact ⟨N, h', fun n hn => panic_bind' (hb n hn), t⟩
  | oof => trivial

/-- What the tree computation gives is known. -/
theorem Sim.known {g : Graph} {h : Heap} {hm : Nat → HM β} {m : EvalM α} {Q : β → α → Heap → Prop} (h1 : Sim F hm h m g Q) : Sim F hm h m g fun b a h' => Q b a h' ∧ m g = .ok (a, g) := by
  unfold Sim at h1 ⊢
  cases hm' : m g with
  | ok ag =>
    rw [hm'] at h1
    obtain ⟨N, b, h', hb, t, e, hq⟩ := h1
    obtain ⟨a, g'⟩ := ag
    dsimp only at e hq
    subst e
    exact ⟨N, b, h', hb, t, rfl, hq, rfl⟩
  | panic => rw [hm'] at h1; exact h1
  | oof => trivial

section
variable {a : Nat} {A : List Nat} {h : Heap} {t : Val} {zs : List (Graph × Ptr)} {m : Bytes}

theorem assign_neat (hE : WholeCalls E) (T : Neat Z a A h t zs) (hm : Name E m) (hW : m ∈ W) {v : Val} (hv : NoGraph v) (op : Option ArithOp) :
    ∀ f, Run (a :: wk E W zs) (fun n => hAssign grow E n (some a) f (pathOf [m]) (.val v) op) h (assign E f (pathOf [m]) v op) (treeOf t zs) fun _ _ g' h' => Fared E W Z a A h t zs [] g' h'
  | 0 => by
    unfold assign
    trivial
  | f + 1 => by
    unfold assign hAssign
    cases op with
    | none => exact put_neat T hm hW hv
    | some op =>
      dsimp only
      have hfit : Fit E (pathOf [m]) := (pathOf_asks (ids := [m]) fun x hx => by rw [List.mem_singleton.1 hx]; exact hm).fit
      refine .sim ((allSim (grow := grow) hE f).getPath T.live.ctx _ hfit) fun b ag h1 t1 hq => ?_
      obtain ⟨q, er⟩ := b
      obtain ⟨left, er'⟩ := ag
      obtain ⟨_, hl⟩ := hq
      dsimp only at hl ⊢
      have fin : ∀ {w : Val}, NoGraph w → Run (a :: wk E W zs) (fun n => hSetPath grow E n (some a) (pathOf [m]) (.val w)) h1 (assign.put E (pathOf [m]) w) (treeOf t zs) fun _ _ g' h' => Fared E W Z a A h t zs [] g' h' :=
        fun hw' => (put_neat (T.turns t1) hm hW hw').mono fun _ _ _ _ _ hq => hq.after t1
      have put : ∀ {w : Val} {y : HVal} (o : ArithOp), ShowsV (fun _ => True) h1 w y →
          Run (a :: wk E W zs) (fun n => do let r ← hCalc E n y (.val v) o; hSetPath grow E n (some a) (pathOf [m]) (.val r)) h1 (do let r ← EvalM.lift (calc' E w v o); assign.put E (pathOf [m]) r) (treeOf t zs)
            fun _ _ g' h' => Fared E W Z a A h t zs [] g' h' := by
        intro w y o hy
        refine .reads (calc_comes t1.solid hy (.plain hv) o) fun b c hr e => ?_
        subst e
        exact fin (calc_plain hr)
      cases left with
      | nil =>
        have := hl.null
        subst this
        cases op with
        | add => exact fin hv
        | sub => exact put .sub (.plain nofun)
        | mul => exact fin nofun
        | div => exact fin nofun
        | mod => exact fin nofun
      | node t o =>
        obtain ⟨b, _, _, e3, _⟩ := hl.parts
        subst e3
        dsimp only
        have e4 : ∀ n, (do
            let c ← load (some b)
            let n' ← HM.index c.out 0
            let y ← load n'
            let r ← hCalc E n y.this (.val v) op
            hSetPath grow E n (some a) (pathOf [m]) (.val r)) = ((do
            let c ← load (some b)
            let n ← HM.index c.out 0
            let y ← load n
            pure y.this) >>= fun y => do
            let r ← hCalc E n y (.val v) op
            hSetPath grow E n (some a) (pathOf [m]) (.val r)) := by
          intro n
          simp only [hm_assoc, hm_pure]
        simp only [e4]
        refine .reads (outFirst_comes t1.solid hl) fun x y _ hx => put op hx

theorem binary_neat (hE : WholeCalls E) (T : Neat Z a A h t zs) {o : Bytes} (ho : o ∈ assignments) (hm : Name E m) (hW : m ∈ W) {r : Graph} (hr : Fit E r) (hv : NeverGraph E r) :
    Run (a :: wk E W zs) (fun n => hEval grow E n (some a) (evalFuel (binary o (pathOf [m]) r)) (binary o (pathOf [m]) r)) h (eval E (evalFuel (binary o (pathOf [m]) r)) (binary o (pathOf [m]) r)) (treeOf t zs)
      fun _ _ g' h' => Fared E W Z a A h t zs [] g' h' := by
  obtain ⟨k, hk, hkr⟩ : ∃ k, evalFuel (binary o (pathOf [m]) r) = k + 4 ∧ evalFuel r ≤ k := by
    refine ⟨evalFuel (binary o (pathOf [m]) r) - 4, ?_, ?_⟩
    · simp only [evalFuel]; omega
    · simp only [evalFuel, binary, exprOf, height_node, Graph.heightL]; omega
  have hne := evalExpr_neverOof (E := E) r true hkr (treeOf t zs)
  have hsame : ∀ v, evalExpr E k r true (treeOf t zs) = .ok ((v, none), treeOf t zs) → NoGraph v := by
    intro v hev
    refine hv (treeOf t zs) v (treeOf t zs) ?_
    rw [exprOf, eval_expression_eq, ← hev]
    exact (evalExpr_enough (E := E) (p := r) (b := true) (g := treeOf t zs) hne (Nat.le_refl _))
  rw [hk]
  simp only [hEval_binary ho, eval_binary ho]
  refine .bind (Q := fun _ _ g' h' => Fared E W Z a A h t zs [] g' h') ?_ fun b c g' h' t' hd => .ret t'.solid hd
  unfold hEvalBinary evalBinary
  dsimp only [Graph.out_node]
  refine .sim ((allSim (grow := grow) hE k).evalExpr T.live.ctx r hr true).known fun b ag h1 t1 hq => ?_
  obtain ⟨x, er⟩ := b
  obtain ⟨v, er'⟩ := ag
  obtain ⟨⟨e2, hx⟩, hev⟩ := hq
  dsimp only at e2 hx hev ⊢
  subst e2
  cases er with
  | some err => exact .ret t1.solid (.still T t1)
  | none =>
    obtain ⟨op, hop⟩ := binOp_some ho
    have e3 : (Graph.node (.str o) [pathOf [m], r]).thisString E = o := rfl
    dsimp only
    rw [e3, hop]
    have hnv := hsame v hev
    have hx' : x = .val v := by
      rcases hx.cases with ⟨_, h⟩ | ⟨gr, q, rfl, _, _⟩
      · exact h
      · exact absurd rfl (hnv gr)
    subst hx'
    exact (assign_neat hE (T.turns t1) hm hW hnv op k).mono fun _ _ _ _ _ hq => hq.after t1

end
end Ogdl
