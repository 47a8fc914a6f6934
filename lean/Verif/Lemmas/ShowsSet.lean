import Verif.Lemmas.ShowsAll
import Verif.Lemmas.Steady
import Verif.Lemmas.Calc

/-!
# Assignments in memory
-/

namespace Ogdl
open Spec HM

variable {E : Ext} {grow : Nat → Nat → Nat} {P : Nat → Prop} {F : List Nat}

mutual
theorem holds_shows : ∀ (g : Graph) {h : Heap} {p : Ptr} {F : List Nat}, Holds h g p F → Whole g → (∀ a ∈ F, P a) → Shows P h g p
  | .nil, h, p, F, hg, _, _ => by
    unfold Holds at hg
    unfold Shows
    exact hg.1
  | .node v gs, h, p, F, hg, hw, hP => by
    obtain ⟨a, x, ps, F', rfl, rfl, _, hl, hc, ho⟩ := hg.parts
    unfold Whole at hw
    refine .mk (hP a (List.mem_cons_self ..)) hl ?_ (holds_showsL gs ho hw.2 fun b hb => hP b (List.mem_cons_of_mem _ hb))
    cases hc with
    | val h => exact .plain h
    | nil => exact .graph (by unfold Shows; rfl)
theorem holds_showsL : ∀ (gs : List Graph) {h : Heap} {ps : List Ptr} {F : List Nat}, HoldsL h gs ps F → WholeL gs → (∀ a ∈ F, P a) → ShowsL P h gs ps
  | [], h, ps, F, hg, _, _ => by
    unfold HoldsL at hg
    unfold ShowsL
    exact hg.1
  | g :: gs, h, ps, F, hg, hw, hP => by
    unfold HoldsL at hg
    obtain ⟨p, ps', F1, F2, rfl, rfl, _, h1, h2⟩ := hg
    unfold WholeL at hw
    exact .cons hw.1 (holds_shows g h1 hw.2.1 fun b hb => hP b (List.mem_append_left _ hb)) (holds_showsL gs h2 hw.2.2 fun b hb => hP b (List.mem_append_right _ hb))
end

/-- The nodes at `F` and new ones. -/
def OrNew (F : List Nat) (h : Heap) : Nat → Prop := fun a => a ∈ F ∨ h.nodes.length ≤ a

theorem Spec.Holds.ctx {h : Heap} {g : Graph} {p : Ptr} {F : List Nat} (hs : Solid h) (hg : Holds h g p F) (hw : Whole g) : Ctx (OrNew F h) h g p :=
  ⟨hs, fun _ hb => .inr hb, holds_shows g hg hw fun _ ha => .inl ha⟩

/-- As `Comes`, without saying what changes. -/
def Ends (m : Nat → HM β) (h : Heap) (r : Res α) (Q : β → α → Heap → Prop) : Prop :=
  match r with
  | .ok a => ∃ N b h', (∀ n, N ≤ n → (m n).run h = (.ok b, h')) ∧ Q b a h'
  | .panic => ∃ N h', ∀ n, N ≤ n → (m n).run h = (.panic, h')
  | .oof => True

namespace Ends

theorem bind {m : Nat → HM β} {k : Nat → β → HM δ} {h : Heap} {r : Res α} {kr : α → Res γ} {Q : β → α → Heap → Prop} {Q' : δ → γ → Heap → Prop}
    (hm : Ends m h r Q) (hk : ∀ b a h', Q b a h' → Ends (fun n => k n b) h' (kr a) Q') : Ends (fun n => m n >>= k n) h (r >>= kr) Q' := by
  cases r with
  | ok a =>
    obtain ⟨N, b, h', hr, hq⟩ := hm
    have := hk b a h' hq
    show Ends _ h (kr a) Q'
    cases hka : kr a with
    | ok c =>
      rw [hka] at this
      obtain ⟨N', d, h'', hr', hq'⟩ := this
      exact ⟨max N N', d, h'', fun n hn => by rw [ok_bind' (hr n (by omega))]; exact hr' n (by omega), hq'⟩
    | panic =>
      rw [hka] at this
      obtain ⟨N', h'', hr'⟩ := this
      exact ⟨max N N', h'', fun n hn => by rw [ok_bind' (hr n (by omega))]; exact hr' n (by omega)⟩
    | oof => trivial
  | panic =>
    obtain ⟨N, h', hr⟩ := hm
    exact ⟨N, h', fun n hn => panic_bind' (hr n hn)⟩
  | oof => trivial

theorem mono {m : Nat → HM β} {h : Heap} {r : Res α} {Q Q' : β → α → Heap → Prop} (hm : Ends m h r Q) (hq : ∀ b a h', r = .ok a → Q b a h' → Q' b a h') : Ends m h r Q' := by
  cases r with
  | ok a =>
    obtain ⟨N, b, h', hr, h1⟩ := hm
    exact ⟨N, b, h', hr, hq _ _ _ rfl h1⟩
  | panic => exact hm
  | oof => trivial

theorem ret {h : Heap} {b : β} {a : α} {Q : β → α → Heap → Prop} (hq : Q b a h) : Ends (fun _ => (Pure.pure b : HM β)) h (.ok a) Q :=
  ⟨0, b, h, fun _ _ => rfl, hq⟩

theorem halt {h : Heap} {Q : β → α → Heap → Prop} : Ends (fun _ => (HM.panic : HM β)) h (.panic : Res α) Q := ⟨0, h, fun _ _ => rfl⟩

end Ends

theorem Comes.ends {m : Nat → HM β} {h : Heap} {r : Res α} {Q : β → α → Heap → Prop} (hm : Comes F m h r Q) : Ends m h r fun b a h' => Turns F h h' ∧ Q b a h' := by
  cases r with
  | ok a =>
    obtain ⟨N, b, h', hr, t, h1⟩ := hm
    exact ⟨N, b, h', hr, t, h1⟩
  | panic =>
    obtain ⟨N, h', hr, _⟩ := hm
    exact ⟨N, h', hr⟩
  | oof => trivial

theorem Gives.ends {m : Nat → HM α} (hm : ∀ n k, n ≤ k → Steady (m n) (m k)) {h : Heap} {r : Res β} {Q : α → β → Heap → Prop} {N : Nat}
    (hg : Gives (m N) h r Q) : Ends m h r Q := by
  have := Gives.steady hm hg
  cases r with
  | ok b =>
    obtain ⟨a, h', hr, hq⟩ := this
    exact ⟨N, a, h', hr, hq⟩
  | panic =>
    obtain ⟨h', hr⟩ := this
    exact ⟨N, h', hr⟩
  | oof => trivial

/-! ## The path of an assignment -/

/-- A path up to the first index. -/
def cutSteps : List HStep → List HStep
  | [] => []
  | .index i :: _ => [.index i]
  | .name v :: ss => .name v :: cutSteps ss

theorem steps_cut {es : List Graph} {ss : List HStep} (hp : PathSteps E es ss) : hSteps E es = .ok (cutSteps ss) := by
  induction hp with
  | nil => rfl
  | index h1 h2 _ _ =>
    unfold hSteps cutSteps
    rw [if_pos h1, h2]
    rfl
  | name h1 _ _ _ ih =>
    unfold hSteps cutSteps
    rw [if_neg (by exact h1), ih]
    rfl

theorem setNew_cut {y : HVal} : ∀ (ss : List HStep) (p : Ptr), hSetNew grow y p (cutSteps ss) = hSetNew grow y p ss
  | [], _ => rfl
  | .index _ :: _, _ => by simp only [cutSteps, hSetNew]
  | .name v :: ss, p => by
    simp only [cutSteps, hSetNew]
    congr 1
    funext q
    exact setNew_cut ss q

theorem setWalk_cut {y : HVal} {n : Nat} : ∀ (ss : List HStep) (p : Ptr), hSetWalk E grow n y p (cutSteps ss) = hSetWalk E grow n y p ss
  | [], _ => rfl
  | .index _ :: _, _ => by simp only [cutSteps, hSetWalk]
  | .name v :: ss, p => by
    simp only [cutSteps, hSetWalk]
    congr 1
    funext q
    cases q with
    | none => exact setNew_cut (.name v :: ss) p
    | some a => exact setWalk_cut ss _

theorem set_cut {y : HVal} {n : Nat} (ss : List HStep) (p : Ptr) : hSet E grow n p (cutSteps ss) y = hSet E grow n p ss y := by
  unfold hSet
  simp only [setWalk_cut]

/-- What an assignment leaves. -/
def Assigned (h : Heap) (F : List Nat) (p : Ptr) : HVal → Val × Graph → Heap → Prop := fun x ag h' =>
  Done h F p ag.2 h' ∧ ∃ q r X, x = .ptr q ∧ ag.1 = .graph r ∧ Holds h' r q X

theorem evalM_bind (m : EvalM α) (k : α → EvalM β) (g : Graph) : (m >>= k) g = (m g >>= fun ag => k ag.1 ag.2) := by
  show (match m g with | .ok (a, g') => k a g' | .panic => .panic | .oof => .oof) = _
  rcases m g with ⟨a, g'⟩ | _ | _ <;> rfl

theorem put_eq {e : Graph} (he : e ≠ .nil) (v : Val) (g : Graph) : assign.put E e v g = (setPath E v e.out g >>= fun r => .ok (.graph r.2, r.1)) := by
  cases e with
  | nil => exact absurd rfl he
  | node t o =>
  unfold assign.put
  dsimp only
  rw [evalM_bind]
  unfold EvalM.modify
  cases setPath E v (Graph.node t o).out g <;> rfl

theorem set_ends {h : Heap} (hs : Solid h) {g : Graph} {p : Ptr} (hg : Holds h g p F) {e : Graph} {ss : List HStep} (hp : PathSteps E e.out ss)
    {v : Val} (hv : NoGraph v) : Ends (fun n => hSetPath grow E n p e (.val v)) h (assign.put E e v g) (Assigned h F p) := by
  by_cases hne : e = .nil
  · subst hne
    have e1 : ∀ n, hSetPath grow E n p .nil (.val v) = HM.panic := by intro n; cases p <;> rfl
    have e2 : assign.put E .nil v g = .panic := rfl
    simp only [e1, e2]
    exact .halt
  cases g with
  | nil =>
    unfold Holds at hg
    obtain ⟨rfl, rfl⟩ := hg
    have : assign.put E e v .nil = .panic := by
      have hn : setPath E v e.out .nil = .panic := by
        cases e.out <;> rfl
      rw [put_eq hne, hn]
      rfl
    rw [this]
    exact .halt
  | node t o =>
    have h0 := set_holds (E := E) (grow := grow) (fuel := 0) hs hg nofun hp (.val hv)
    have h1 : Ends (fun n => hSet E grow n p ss (.val v)) h (setPath E v e.out (.node t o)) _ := Gives.ends (m := fun n => hSet E grow n p ss (.val v)) (fun n k hk => .set hk _ _ _) h0
    obtain ⟨a, x, ps, F', rfl, rfl, _⟩ := hg.parts
    have e1 : ∀ n, hSetPath grow E n (some a) e (.val v) = hSet E grow n (some a) ss (.val v) >>= fun r => pure (.ptr r) := by
      intro n
      unfold hSetPath
      split
      next h => cases h
      · exact absurd rfl hne
      rw [steps_cut hp]
      show (hSet E grow n (some a) (cutSteps ss) (.val v) >>= fun r => _) = _
      rw [set_cut]
    rw [put_eq hne]
    simp only [e1]
    refine .bind h1 ?_
    rintro q r h' ⟨hd, X, hX⟩
    exact .ret ⟨hd, q, r.2, X, rfl, rfl, hX⟩

theorem Assigned.after {h h1 h' : Heap} {p : Ptr} {x : HVal} {ag : Val × Graph} (t : Turns [] h h1) (ha : Assigned h1 F p x ag h') : Assigned h F p x ag h' := by
  obtain ⟨⟨t1, F', hh, hw⟩, hr⟩ := ha
  refine ⟨⟨t.any.trans t1 .refl, F', hh, fun a ha => ?_⟩, hr⟩
  rcases hw a ha with h | h
  · exact .inl h
  · exact .inr (Nat.le_trans t.le h)

/-- What `left.Out[0].This` is. -/
theorem outFirst_comes {h : Heap} (hs : Solid h) {g : Graph} {p : Ptr} (hg : Shows P h g p) :
    Comes F (fun _ => do
      let c ← load p
      let n ← HM.index c.out 0
      let y ← load n
      pure y.this) h (firstThis g) (Just h fun x v => ShowsV P h v x) := by
  cases g with
  | nil =>
    rw [hg.null]
    exact ⟨0, h, fun _ _ => panic_bind' load_none, .refl hs⟩
  | node v gs =>
    obtain ⟨a, x, ps, rfl, _, hl, hv, ho⟩ := hg.parts
    obtain ⟨c, hc, hld, hthis, hlen, hps⟩ := load_look hs hl
    refine .step (fun _ => hld) ?_
    cases gs with
    | nil =>
      unfold ShowsL at ho
      subst ho
      refine ⟨0, h, fun _ _ => panic_bind' ?_, .refl hs⟩
      show ((if 0 < c.out.len then _ else Res.panic), h) = _
      rw [if_neg (by rw [hlen]; simp)]
    | cons g gs =>
      unfold ShowsL at ho
      obtain ⟨hne, q, ps', rfl, hgq, _⟩ := ho
      refine .step (fun _ => index_look hs hl hc (i := 0) rfl) ?_
      cases g with
      | nil => exact absurd rfl hne
      | node w xs =>
        obtain ⟨b, y, qs, rfl, _, hlb, hvb, _⟩ := hgq.parts
        obtain ⟨c', hc', hld', hthis', _, _⟩ := load_look hs hlb
        refine .step (fun _ => hld') ?_
        rw [hthis']
        exact .ret hs ⟨rfl, hvb⟩

theorem assign_ends (hE : WholeCalls E) {h : Heap} (hs : Solid h) {g : Graph} {p : Ptr} (hg : Holds h g p F) (hw : Whole g) {e : Graph} (he : Fit E e) {ss : List HStep} (hp : PathSteps E e.out ss)
    {v : Val} (hv : NoGraph v) (op : Option ArithOp) : ∀ f, Ends (fun n => hAssign grow E n p f e (.val v) op) h (assign E f e v op g) (Assigned h F p)
  | 0 => by
    unfold assign
    trivial
  | f + 1 => by
    unfold assign hAssign
    cases op with
    | none => exact set_ends hs hg hp hv
    | some op =>
      dsimp only
      rw [evalM_bind]
      have h0 := ((allSim (grow := grow) hE f).getPath (hg.ctx hs hw) e he)
      refine .bind (Comes.ends h0) ?_
      rintro ⟨q, er⟩ ⟨⟨left, er'⟩, g'⟩ h1 ⟨t1, e1, e2, hl⟩
      dsimp only at e1 e2 hl ⊢
      subst e1
      have hg1 := hg.turns t1 fun _ _ => nofun
      have fin : ∀ {w : Val}, NoGraph w → Ends (fun n => hSetPath grow E n p e (.val w)) h1 (assign.put E e w g') (Assigned h F p) :=
        fun hw' => .mono (set_ends t1.solid hg1 hp hw') fun _ _ _ _ ha => ha.after t1
      have put : ∀ {w : Val} {y : HVal} (o : ArithOp), ShowsV (OrNew F h) h1 w y →
          Ends (fun n => do let r ← hCalc E n y (.val v) o; hSetPath grow E n p e (.val r)) h1 ((do let r ← EvalM.lift (calc' E w v o); assign.put E e r) g') (Assigned h F p) := by
        intro w y o hy
        rw [evalM_bind]
        have hc := calc_comes (E := E) (F := []) t1.solid hy (.plain hv) o
        have hr : ∀ r, calc' E w v o = .ok r → NoGraph r := fun r hr => calc_plain hr
        have hc' : Ends (fun n => hCalc E n y (.val v) o) h1 (EvalM.lift (calc' E w v o) g') fun b a h' => h' = h1 ∧ a = (b, g') ∧ NoGraph b := by
          unfold EvalM.lift
          cases hcc : calc' E w v o with
          | ok r =>
            rw [hcc] at hc
            obtain ⟨N, b, h', hb, _, e2, e3⟩ := hc
            subst e3
            exact ⟨N, b, h', hb, e2, rfl, hr _ hcc⟩
          | panic =>
            rw [hcc] at hc
            obtain ⟨N, h', hb, _⟩ := hc
            exact ⟨N, h', hb⟩
          | oof => trivial
        refine .bind hc' ?_
        rintro b a h' ⟨e2, rfl, hb⟩
        subst e2
        exact fin hb
      cases left with
      | nil =>
        have := hl.null
        subst this
        cases op with
        | add => exact fin hv
        | sub => exact put .sub (.plain nofun)
        | mul => exact fin nofun
        | div => exact fin nofun
        | mod => exact fin nofun
      | node t o =>
        obtain ⟨a, _, _, e3, _⟩ := hl.parts
        subst e3
        dsimp only
        have h2 := outFirst_comes (F := []) t1.solid hl
        have e4 : ∀ n, (do
            let c ← load (some a)
            let n' ← HM.index c.out 0
            let y ← load n'
            let r ← hCalc E n y.this (.val v) op
            hSetPath grow E n p e (.val r)) = ((do
            let c ← load (some a)
            let n ← HM.index c.out 0
            let y ← load n
            pure y.this) >>= fun y => do
            let r ← hCalc E n y (.val v) op
            hSetPath grow E n p e (.val r)) := by
          intro n
          simp only [hm_assoc, hm_pure]
        simp only [e4]
        rw [evalM_bind]
        have h3 : Ends (fun _ => do
            let c ← load (some a)
            let n ← HM.index c.out 0
            let y ← load n
            pure y.this) h1 (EvalM.lift (firstThis (.node t o)) g') fun b ag h' => h' = h1 ∧ ag.2 = g' ∧ ShowsV (OrNew F h) h1 ag.1 b := by
          unfold EvalM.lift
          cases hcc : firstThis (.node t o) with
          | ok r =>
            rw [hcc] at h2
            obtain ⟨N, b, h', hb, _, e2, e3⟩ := h2
            exact ⟨N, b, h', hb, e2, rfl, e3⟩
          | panic =>
            rw [hcc] at h2
            obtain ⟨N, h', hb, _⟩ := h2
            exact ⟨N, h', hb⟩
          | oof => trivial
        refine .bind h3 ?_
        rintro b ⟨a', g2⟩ h' ⟨e5, e6, hb⟩
        dsimp only at e6 hb ⊢
        subst e5 e6
        exact put op hb

theorem hEval_binary {n f : Nat} {p : Ptr} {o : Bytes} (ho : o ∈ assignments) (l r : Graph) :
    hEval grow E n p (f + 4) (binary o l r) = hEvalBinary grow E n p (f + 1) (.node (.str o) [l, r]) >>= fun v => pure (v, none) := by
  have h1 : hEval grow E n p (f + 4) (binary o l r) = hEvalExpr grow E n p (f + 2) (.node (.str o) [l, r]) true := by
    show hEvalExpr grow E n p (f + 3) (binary o l r) true = _
    rw [binary, exprOf, hEvalExpr.eq_def]
    rfl
  rw [h1, hEvalExpr.eq_def]
  simp only [assignments, List.mem_cons, List.not_mem_nil, or_false] at ho
  rcases ho with rfl | rfl | rfl | rfl | rfl | rfl <;> rfl

theorem eval_binary {f : Nat} {o : Bytes} (ho : o ∈ assignments) (l r : Graph) :
    eval E (f + 4) (binary o l r) = evalBinary E (f + 1) (.node (.str o) [l, r]) >>= fun v => pure (v, none) := by
  have h1 : eval E (f + 4) (binary o l r) = evalExpr E (f + 2) (.node (.str o) [l, r]) true := by
    show evalExpr E (f + 3) (binary o l r) true = _
    rw [binary, exprOf, evalExpr.eq_def]
    rfl
  rw [h1, evalExpr.eq_def]
  simp only [assignments, List.mem_cons, List.not_mem_nil, or_false] at ho
  rcases ho with rfl | rfl | rfl | rfl | rfl | rfl <;> rfl

theorem binOp_some {o : Bytes} (ho : o ∈ assignments) : ∃ op, binOp o = some (.assign op) := by
  simp only [assignments, List.mem_cons, List.not_mem_nil, or_false] at ho
  rcases ho with rfl | rfl | rfl | rfl | rfl | rfl <;> exact ⟨_, rfl⟩

theorem binary_ends (hE : WholeCalls E) {h : Heap} (hs : Solid h) {g : Graph} {p : Ptr} (hg : Holds h g p F) (hw : Whole g) {o : Bytes} (ho : o ∈ assignments) {l r : Graph} (hl : Fit E l) (hr : Fit E r)
    {ss : List HStep} (hp : PathSteps E l.out ss) (hv : ∀ v g', g.eval E (exprOf r) = .ok ((v, none), g') → NoGraph v) :
    Ends (fun n => hEval grow E n p (evalFuel (binary o l r)) (binary o l r)) h (g.eval E (binary o l r)) fun _ ag h' => Done h F p ag.2 h' := by
  unfold Graph.eval
  obtain ⟨k, hk, hkr⟩ : ∃ k, evalFuel (binary o l r) = k + 4 ∧ evalFuel r ≤ k := by
    refine ⟨evalFuel (binary o l r) - 4, ?_, ?_⟩
    · simp only [evalFuel]; omega
    · simp only [evalFuel, binary, exprOf, height_node, Graph.heightL]; omega
  have hne := evalExpr_neverOof (E := E) r true hkr g
  have hsame : ∀ v, evalExpr E k r true g = .ok ((v, none), g) → NoGraph v := by
    intro v hev
    refine hv v g ?_
    rw [exprOf, eval_expression_eq, ← hev]
    exact (evalExpr_enough (E := E) (p := r) (b := true) (g := g) hne (Nat.le_refl _))
  rw [hk]
  simp only [hEval_binary ho, eval_binary ho]
  rw [evalM_bind]
  refine .bind (Q := fun _ ag h' => Done h F p ag.2 h') ?_ fun b a h' hd => .ret hd
  unfold hEvalBinary evalBinary
  dsimp only [Graph.out_node]
  rw [evalM_bind]
  have h0 := (allSim (grow := grow) hE k).evalExpr (hg.ctx hs hw) r hr true
  refine .bind (.mono (Comes.ends h0) fun b a h' hr hq => And.intro hr hq) ?_
  rintro ⟨x, er⟩ ⟨⟨v, er'⟩, g'⟩ h1 ⟨hev, t1, e1, e2, hx⟩
  dsimp only at e1 e2 hx ⊢
  subst e1 e2
  have hd : Done h F p g' h1 := ⟨t1.any, F, hg.turns t1 fun _ _ => nofun, .refl⟩
  cases er with
  | some err => exact .ret hd
  | none =>
    obtain ⟨op, hop⟩ := binOp_some ho
    have e3 : (Graph.node (.str o) [l, r]).thisString E = o := rfl
    dsimp only
    rw [e3, hop]
    have hnv := hsame v hev
    have hx' : x = .val v := by
      rcases hx.cases with ⟨_, h⟩ | ⟨gr, q, rfl, _, _⟩
      · exact h
      · exact absurd rfl (hnv gr)
    subst hx'
    refine .mono (assign_ends hE t1.solid (hg.turns t1 fun _ _ => nofun) hw hl hp hnv op k) fun b a h' _ ha => ?_
    exact (ha.after t1).1

/-! ## Histories -/

theorem aop_ends (hE : WholeCalls E) {op : AOp} {gs : List Graph} (hv : op.Valid E gs) {ps : List Ptr} {h : Heap} (hs : Solid h) {F : List Nat} (hl : HoldsL h gs ps F) :
    Ends (fun n => op.mem E grow n ps) h (op.tree E gs) fun r r' h' => r.2 = r'.2 ∧ Goes h F r.1 r'.1 h' := by
  cases op with
  | op o =>
    obtain ⟨N, hN⟩ := le_heights gs
    have h0 := step_holds (grow := grow) (fuel := N + 1) (hv : o.Valid E) hs hl fun i => by have := hN i; omega
    have h1 : Ends (fun n => o.mem E grow n ps) h (o.tree E gs) _ := Gives.ends (m := fun n => o.mem E grow n ps) (fun n k hk => .mem hk _ _) h0
    exact .bind h1 fun b a h' hq => .ret ⟨rfl, hq⟩
  | ask i e =>
    obtain ⟨hw, he, hn⟩ := hv
    obtain ⟨Fg, hg, _, _⟩ := hl.reg i
    have c := hg.ctx hs hw
    have h0 := (allSim (grow := grow) hE (evalFuel e)).eval c e ⟨he, noAssignment_notAssign hn⟩
    refine .bind (Comes.ends h0) ?_
    rintro ⟨x, er⟩ ⟨⟨v, er'⟩, g'⟩ h1 ⟨t1, e1, e2, hx⟩
    dsimp only at e1 e2 hx ⊢
    subst e1 e2
    obtain ⟨N, hN⟩ := value_run v t1.solid hx
    refine ⟨N, (ps, [(v, er)]), h1, fun n hn => ?_, rfl, t1.mono nofun, F, hl.turns t1 fun _ _ => nofun, .refl⟩
    rw [ok_bind' (hN n hn)]
    rfl
  | assign i o p e =>
    obtain ⟨hw, ho, hp, hpn, he, hen, ⟨ss, hss⟩, hv⟩ := hv
    obtain ⟨Fg, hg, hF, hrest⟩ := hl.reg i
    refine .bind (binary_ends hE hs hg hw ho ⟨hp, noAssignment_notAssign hpn⟩ ⟨he, noAssignment_notAssign hen⟩ hss hv) ?_
    rintro x ⟨v, g'⟩ h' ⟨t, F', hh, hw'⟩
    obtain ⟨F1, h1, hw1⟩ := hrest h' Fg [] g' F' t (fun a ha => .inl ha) nofun hh (by rw [List.append_nil]; exact hw')
    exact .ret ⟨rfl, t.mono hF, F1, h1, by rw [List.append_nil] at hw1; exact hw1⟩

theorem Goes.trans {h h1 h2 : Heap} {F F1 : List Nat} {ps : List Ptr} {gs : List Graph} (t : Turns F h h1) (hw : Within h F F1) (hg : Goes h1 F1 ps gs h2) : Goes h F ps gs h2 := by
  obtain ⟨t2, F2, h2, hw2⟩ := hg
  exact ⟨t.trans t2 hw, F2, h2, hw.trans hw2 t.le⟩

theorem askMem_goes (hE : WholeCalls E) : ∀ (ops : List AOp) {gs : List Graph}, ValidRun E ops gs → ∀ {ps : List Ptr} {h : Heap}, Solid h → ∀ {F : List Nat}, HoldsL h gs ps F →
    Ends (fun n => askMem E grow n ops ps) h (askTree E ops gs) fun r r' h' => r.2 = r'.2 ∧ Goes h F r.1 r'.1 h'
  | [], gs, _, ps, h, hs, F, hl => by
    unfold askMem askTree
    exact .ret ⟨rfl, .refl hs, F, hl, .refl⟩
  | op :: ops, gs, hv, ps, h, hs, F, hl => by
    unfold askMem askTree
    unfold ValidRun at hv
    refine .bind (.mono (aop_ends hE hv.1 hs hl) fun b a h' hr hq => And.intro hr hq) ?_
    rintro ⟨ps1, out⟩ ⟨gs1, out'⟩ h1 ⟨hr, e, t1, F1, hl1, hw1⟩
    dsimp only at e hl1 ⊢
    subst e
    refine .bind (askMem_goes hE ops (hv.2 _ hr) t1.solid hl1) ?_
    rintro ⟨ps2, out2⟩ ⟨gs2, out2'⟩ h2 ⟨e, hg2⟩
    dsimp only at e hg2
    subst e
    exact .ret ⟨rfl, hg2.trans t1 hw1⟩

theorem askMem_ends (hE : WholeCalls E) (ops : List AOp) {gs : List Graph} (hv : ValidRun E ops gs) {ps : List Ptr} {h : Heap} (hg : Good ps gs h) :
    Ends (fun n => askMem E grow n ops ps) h (askTree E ops gs) fun r r' h' => r.2 = r'.2 ∧ Good r.1 r'.1 h' := by
  obtain ⟨hs, F, hl⟩ := hg
  exact .mono (askMem_goes hE ops hv hs hl) fun _ _ _ _ hq => ⟨hq.1, hq.2.good⟩

theorem askTree_ne_oof : ∀ (ops : List AOp) (gs : List Graph), askTree E ops gs ≠ .oof
  | [], gs => by unfold askTree; nofun
  | op :: ops, gs => by
    unfold askTree
    refine Res.bind_ne_oof ?_ fun r => Res.bind_ne_oof (askTree_ne_oof ops r.1) fun _ => nofun
    cases op with
    | op o => exact Res.bind_ne_oof (tree_ne_oof o gs) fun _ => nofun
    | ask i e => exact Res.bind_ne_oof (eval_neverOof e (Nat.le_refl _) _) fun _ => nofun
    | assign i o p e => exact Res.bind_ne_oof (eval_neverOof _ (Nat.le_refl _) _) fun _ => nofun

theorem memRun_ends {ops : List TOp} (hv : ∀ op ∈ ops, op.Valid E) : Ends (fun n => memRun E grow n ops []) {} (treeRun E ops []) Good := by
  have st : ∀ (ops : List TOp) (ps : List Ptr) (n k : Nat), n ≤ k → Steady (memRun E grow n ops ps) (memRun E grow k ops ps) := by
    intro ops
    induction ops with
    | nil => intro ps n k _; exact .refl _
    | cons op ops ih =>
      intro ps n k hk
      unfold memRun
      exact .bind (.mem hk _ _) fun ps' => ih ps' n k hk
  obtain ⟨N, hN⟩ := memRun_gives (grow := grow) ops hv []
  exact Gives.ends (m := fun n => memRun E grow n ops []) (st ops []) (hN N (Nat.le_refl _) [] {} ⟨⟨nofun, nofun, nofun⟩, [], Spec.HoldsL.nil⟩)

theorem looks_comes (hE : WholeCalls E) : ∀ (ls : List (Nat × Graph)), (∀ l ∈ ls, Whole l.2 ∧ NoAssignment E l.2) → ∀ {h : Heap} {gs : List Graph} {ps : List Ptr}, Solid h →
    (∀ i, Shows (fun _ => True) h (gs.getD i .nil) (held ps i)) → gs.length = ps.length →
    Comes [] (fun n => looksMem E grow n ls ps) h (looksTree E ls gs) fun xs vs h' => SameResults h' xs vs
  | [], _, h, gs, ps, hs, hg, hlen => by
    unfold looksMem looksTree
    exact .ret hs .nil
  | (i, e) :: ls, hl, h, gs, ps, hs, hg, hlen => by
    unfold looksMem looksTree
    obtain ⟨hw, hn⟩ := hl (i, e) (List.mem_cons_self ..)
    have h0 := (allSim (grow := grow) hE (evalFuel e)).eval (P := fun _ => True) ⟨hs, fun _ _ => trivial, hg i⟩ e ⟨hw, noAssignment_notAssign hn⟩
    refine .bind h0 ?_
    rintro ⟨x, er⟩ ⟨⟨v, er'⟩, g'⟩ h1 t1 ⟨e1, e2, hx⟩
    dsimp only at e1 e2 hx ⊢
    subst e2
    have hgs : ∀ i, Shows (fun _ => True) h1 ((gs ++ [asGraph v]).getD i .nil) (held (ps ++ [asPtr x]) i) := by
      intro i
      unfold held
      rw [List.getD_eq_getElem?_getD]
      by_cases hi : i < gs.length
      · rw [List.getElem?_append_left hi, List.getElem?_append_left (by omega)]
        have := (hg i).turns t1
        rw [List.getD_eq_getElem?_getD] at this
        exact this
      · rw [List.getElem?_append_right (by omega), List.getElem?_append_right (by omega), hlen]
        cases hk : i - ps.length with
        | zero =>
          show Shows _ h1 (asGraph v) (asPtr x)
          rcases hx.cases with ⟨hv, rfl⟩ | ⟨gr, q, rfl, rfl, hgr⟩
          · have : asGraph v = .nil := by cases v <;> first | rfl | exact absurd rfl (hv _)
            rw [this]
            unfold Shows asPtr
            rfl
          · exact hgr
        | succ k =>
          show Shows _ h1 .nil none
          unfold Shows
          rfl
    refine .bind (Comes.mono (looks_comes hE ls (fun l hl' => hl l (List.mem_cons_of_mem _ hl')) t1.solid hgs (by simp [hlen])) fun _ _ _ t hq => And.intro t hq) ?_
    rintro xs vs h2 t2 ⟨t2', hr⟩
    exact .ret t2.solid (.cons (hx.turns t2) hr)

theorem looksTree_ne_oof : ∀ (ls : List (Nat × Graph)) (gs : List Graph), looksTree E ls gs ≠ .oof
  | [], gs => by unfold looksTree; nofun
  | (i, e) :: ls, gs => by
    unfold looksTree
    exact Res.bind_ne_oof (eval_neverOof e (Nat.le_refl _) _) fun r => Res.bind_ne_oof (looksTree_ne_oof ls _) fun _ => nofun

end Ogdl
