import Verif.Lemmas.EvalTotal

/-! More fuel gives the same result. -/

namespace Ogdl
open Spec

section
variable {E : Ext}

/-- `y` gives what `x` gives, unless `x` is out of fuel. -/
def EvalLe {α : Type} (x y : EvalM α) : Prop := ∀ g, x g = .oof ∨ x g = y g

namespace EvalLe

theorem refl {α : Type} (x : EvalM α) : EvalLe x x := fun _ => .inr rfl

theorem oof {α : Type} (y : EvalM α) : EvalLe EvalM.oof y := fun _ => .inl rfl

theorem bind {α β : Type} {x y : EvalM α} {f g : α → EvalM β} (h : EvalLe x y) (hf : ∀ a, EvalLe (f a) (g a)) :
    EvalLe (x >>= f) (y >>= g) := by
  intro c
  simp only [Bind.bind]
  rcases h c with h | h
  · left; rw [h]
  · rw [← h]
    cases hx : x c with
    | ok r => exact hf r.1 r.2
    | panic => exact .inr rfl
    | oof => exact .inr rfl

theorem ite {α : Type} {c : Prop} [Decidable c] {x y x' y' : EvalM α} (h : EvalLe x x') (h' : EvalLe y y') :
    EvalLe (if c then x else y) (if c then x' else y') := by
  split
  · exact h
  · exact h'

end EvalLe

theorem walkPath_mono {α : Type} {step step' : Graph → PathSt → EvalM (PathStep α)} (h : ∀ e s, EvalLe (step e s) (step' e s)) :
    ∀ (es : List Graph) (s : PathSt), EvalLe (walkPath step es s) (walkPath step' es s)
  | [], s => .refl _
  | e :: es, s => by
    simp only [walkPath]
    refine .ite (.refl _) (.bind (h e s) fun r => ?_)
    cases r with
    | next s' => exact walkPath_mono h es s'
    | done r => exact .refl _

theorem evalEach_mono {ev ev' : Graph → EvalM (Val × Option Err)} (h : ∀ a, EvalLe (ev a) (ev' a)) :
    ∀ as : List Graph, EvalLe (evalEach ev as) (evalEach ev' as)
  | [] => .refl _
  | a :: as => .bind (h a) fun _ => .bind (evalEach_mono h as) fun _ => .refl _

theorem evalGroup_mono {ev ev' : Graph → EvalM (Val × Option Err)} (h : ∀ a, EvalLe (ev a) (ev' a)) :
    ∀ (as : List Graph) (r : Graph), EvalLe (evalGroup ev as r) (evalGroup ev' as r)
  | [], _ => .refl _
  | a :: as, r => .bind (h a) fun _ => evalGroup_mono h as _

/-- All the functions with fuel `f` against fuel `k`. -/
structure EvalMono (E : Ext) (f k : Nat) : Prop where
  function : ∀ p v, EvalLe (function E f p v) (function E k p v)
  getName : ∀ p b s, EvalLe (getName E f p b s) (getName E k p b s)
  evalName : ∀ p b s, EvalLe (evalName E f p b s) (evalName E k p b s)
  indexOf : ∀ p, EvalLe (indexOf E f p) (indexOf E k p)
  getStep : ∀ p n s, EvalLe (getStep E f p n s) (getStep E k p n s)
  evalStep : ∀ p n s, EvalLe (evalStep E f p n s) (evalStep E k p n s)
  getPath : ∀ p, EvalLe (getPath E f p) (getPath E k p)
  evalPath : ∀ p b, EvalLe (evalPath E f p b) (evalPath E k p b)
  assign : ∀ p v op, EvalLe (assign E f p v op) (assign E k p v op)
  evalBinary : ∀ p, EvalLe (evalBinary E f p) (evalBinary E k p)
  evalExpr : ∀ p b, EvalLe (evalExpr E f p b) (evalExpr E k p b)
  eval : ∀ p, EvalLe (eval E f p) (eval E k p)
  evalBool : ∀ p, EvalLe (evalBool E f p) (evalBool E k p)

theorem evalMono : ∀ f k, f ≤ k → EvalMono E f k
  | 0, k, _ => by
    constructor
    all_goals intros
    all_goals simp only [Ogdl.function, Ogdl.getName, Ogdl.evalName, Ogdl.indexOf, Ogdl.getStep, Ogdl.evalStep, Ogdl.getPath, Ogdl.evalPath,
      Ogdl.assign, Ogdl.evalBinary, Ogdl.evalExpr, Ogdl.eval, Ogdl.evalBool]
    all_goals exact .oof _
  | f + 1, 0, h => absurd h (by omega)
  | f + 1, k + 1, h => by
    have ih := evalMono f k (by omega)
    constructor
    · intro p v
      simp only [Ogdl.function]
      cases callableOf E v with
      | none => exact .refl _
      | func remote ins fn =>
        dsimp only
        cases hp : p.out with
        | nil => exact .refl _
        | cons a l =>
          cases l with
          | nil => exact .refl _
          | cons b rest =>
            cases b with
            | nil => exact .refl _
            | node t o =>
              refine .ite ?_ (.bind (evalEach_mono (fun a => ih.evalExpr a true) _) fun _ => .refl _)
              cases rest with
              | nil => exact .refl _
              | cons c rest =>
                cases c with
                | nil => exact .refl _
                | node t2 o2 => exact .bind (evalEach_mono (fun a => ih.evalExpr a true) _) fun _ => .refl _
      | ptr method =>
        dsimp only
        cases hp : p.out with
        | nil => exact .refl _
        | cons a l =>
          cases l with
          | nil => exact .refl _
          | cons b rest =>
            dsimp only
            refine .ite (.refl _) ?_
            cases method (b.thisString E) with
            | none => exact .refl _
            | some m =>
              cases rest with
              | nil => exact .refl _
              | cons c rest =>
                cases c with
                | nil => exact .refl _
                | node t2 o2 => exact .bind (evalEach_mono (fun a => ih.evalExpr a false) _) fun _ => .refl _
    · intro p b s
      simp only [Ogdl.getName]
      refine .bind (.refl _) fun n => .ite (.bind (.refl _) fun t => .bind (ih.function _ _) fun _ => .refl _) (.refl _)
    · intro p b s
      simp only [Ogdl.evalName]
      refine .bind (.refl _) fun n => .ite (.bind (.refl _) fun t => .bind (ih.function _ _) fun _ => .refl _) (.refl _)
    · intro p
      match p with
      | .nil => exact .refl _
      | .node t [] => exact .refl _
      | .node t (x :: xs) =>
        simp only [Ogdl.indexOf]
        exact .bind (ih.evalExpr _ _) fun _ => .refl _
    · intro p n s
      rw [Ogdl.getStep.eq_def, Ogdl.getStep.eq_def]
      dsimp only
      refine .ite (.bind (ih.indexOf _) fun _ => .refl _) (.ite (.ite (.refl _) (.bind (ih.indexOf _) fun _ => .refl _))
        (.ite (.ite (.bind (.refl _) fun _ => .bind (ih.function _ _) fun _ => .refl _) (.refl _)) (.ite ?_ (ih.getName _ _ _))))
      cases n.out with
      | nil => exact .refl _
      | cons x xs =>
        refine .bind (ih.eval x) fun r => ?_
        obtain ⟨v, err⟩ := r
        cases err with
        | some e => exact .refl _
        | none => exact .ite (.refl _) (ih.getName _ _ _)
    · intro p n s
      rw [Ogdl.evalStep.eq_def, Ogdl.evalStep.eq_def]
      dsimp only
      refine .ite (.bind (ih.indexOf _) fun _ => .refl _) (.ite (.ite (.refl _) (.bind (ih.indexOf _) fun _ => .refl _))
        (.ite (.refl _) (.ite (.refl _) (.ite (.refl _) (.ite (.refl _) (.ite (.refl _)
        (.ite (.ite (.bind (.refl _) fun _ => .bind (ih.function _ _) fun _ => .refl _) (.refl _)) (.ite ?_ (ih.evalName _ _ _)))))))))
      cases n.out with
      | nil => exact .refl _
      | cons x xs =>
        refine .bind (ih.eval x) fun r => ?_
        obtain ⟨v, err⟩ := r
        cases err with
        | some e => exact .refl _
        | none => exact .ite (.refl _) (ih.evalName _ _ _)
    · intro p
      simp only [Ogdl.getPath]
      refine .bind (.refl _) fun g => .ite (.refl _) ?_
      cases p with
      | nil => exact .refl _
      | node t o => exact .bind (walkPath_mono (fun e s => ih.getStep _ e s) _ _) fun _ => .refl _
    · intro p b
      simp only [Ogdl.evalPath]
      refine .bind (.refl _) fun g => .ite (.refl _) ?_
      cases p with
      | nil => exact .refl _
      | node t o => exact .bind (walkPath_mono (fun e s => ih.evalStep _ e s) _ _) fun _ => .refl _
    · intro p v op
      cases op with
      | none => exact .refl _
      | some op =>
        simp only [Ogdl.assign]
        refine .bind (ih.getPath p) fun r => .refl _
    · intro p
      simp only [Ogdl.evalBinary]
      cases p.out with
      | nil => exact .refl _
      | cons n1 l =>
        cases l with
        | nil => exact .refl _
        | cons n2 rest =>
          refine .bind (ih.evalExpr _ _) fun r => ?_
          obtain ⟨v2, err⟩ := r
          cases err with
          | some e => exact .refl _
          | none =>
            dsimp only
            cases binOp (p.thisString E) with
            | none => exact .bind (ih.evalExpr _ _) fun _ => .refl _
            | some op =>
              cases op with
              | assign op => exact ih.assign _ _ _
              | _ => exact .bind (ih.evalExpr _ _) fun _ => .refl _
    · intro p b
      cases p with
      | nil => exact .refl _
      | node t o =>
        rw [Ogdl.evalExpr.eq_def, Ogdl.evalExpr.eq_def]
        cases t
        case nil => exact .refl _
        all_goals
          dsimp only
          refine .ite (.refl _) (.ite (.refl _) (.ite ?_ (.ite (ih.evalExpr _ _) (.ite (ih.evalPath _ _)
            (.ite (.bind (evalGroup_mono (fun a => ih.evalExpr a b) _ _) fun _ => .refl _) (.ite (.refl _)
            (.ite (.bind (ih.evalBinary _) fun _ => .refl _) (.refl _))))))))
          cases o with
          | nil => exact .refl _
          | cons x xs => exact .bind (ih.evalBool _) fun _ => .refl _
    · intro p
      simp only [Ogdl.eval]
      exact .ite (ih.evalPath _ _) (.ite (ih.evalExpr _ _) (.refl _))
    · intro p
      simp only [Ogdl.evalBool]
      exact .bind (ih.eval _) fun _ => .refl _

/-! ## Consequences -/

/-- A computation never runs out of fuel. -/
def NeverOof {α : Type} (x : EvalM α) : Prop := ∀ g, x g ≠ .oof

theorem neverOof_pred : EvalPred (fun {α} (x : EvalM α) => NeverOof x) where
  pure _ := fun g h => by cases h
  bind hx hf := fun g h => by
    simp only [Bind.bind] at h
    split at h
    next a g' hxg => exact hf a g' h
    · cases h
    next hxg => exact hx g hxg
  panic := fun g h => by cases h
  lift hr := fun g h => by
    simp only [EvalM.lift] at h
    split at h
    · cases h
    · cases h
    · exact hr rfl
  ctx := fun g h => by cases h

theorem put_neverOof (q : Graph) (v : Val) : NeverOof (assign.put E q v) := by
  unfold assign.put
  split
  · exact neverOof_pred.panic
  refine neverOof_pred.bind ?_ fun _ => neverOof_pred.pure _
  intro g h
  simp only [EvalM.modify] at h
  split at h
  · cases h
  · cases h
  next hs => exact setPath_ne_oof hs

/-- Evaluation of any expression always ends: `evalFuel` suffices. -/
theorem eval_neverOof (p : Graph) {f : Nat} (h : evalFuel p ≤ f) : NeverOof (eval E f p) :=
  (evalAll neverOof_pred f).eval p (.inr (by simp only [evalFuel] at h; omega)) (.any put_neverOof _)

theorem getPath_neverOof (p : Graph) {f : Nat} (h : evalFuel p ≤ f) : NeverOof (getPath E f p) :=
  (evalAll neverOof_pred f).getPath p (.inr (by simp only [evalFuel] at h; omega)) (.any put_neverOof _)

theorem evalExpr_neverOof (p : Graph) (b : Bool) {f : Nat} (h : evalFuel p ≤ f) : NeverOof (evalExpr E f p b) :=
  (evalAll neverOof_pred f).evalExpr p b (.inr (by simp only [evalFuel] at h; omega)) (.any put_neverOof _)

theorem evalBool_neverOof (p : Graph) {f : Nat} (h : evalFuel p ≤ f) : NeverOof (evalBool E f p) :=
  (evalAll neverOof_pred f).evalBool p (.inr (by simp only [evalFuel] at h; omega)) (.any put_neverOof _)

/-- Two amounts of fuel that are enough give the same result. -/
theorem EvalLe.eq_of_ne {α : Type} {x y : EvalM α} (h : EvalLe x y) {g : Graph} (hx : x g ≠ .oof) : y g = x g := by
  rcases h g with h | h
  · exact absurd h hx
  · exact h.symm

theorem eval_enough {p : Graph} {f k : Nat} {g : Graph} (hf : eval E f p g ≠ .oof) (hk : evalFuel p ≤ k) : eval E k p g = eval E f p g := by
  rcases Nat.le_total f k with h | h
  · exact ((evalMono f k h).eval p).eq_of_ne hf
  · exact (((evalMono k f h).eval p).eq_of_ne (eval_neverOof p hk g)).symm

theorem evalExpr_enough {p : Graph} {b : Bool} {f k : Nat} {g : Graph} (hf : evalExpr E f p b g ≠ .oof) (hk : evalFuel p ≤ k) :
    evalExpr E k p b g = evalExpr E f p b g := by
  rcases Nat.le_total f k with h | h
  · exact ((evalMono f k h).evalExpr p b).eq_of_ne hf
  · exact (((evalMono k f h).evalExpr p b).eq_of_ne (evalExpr_neverOof p b hk g)).symm

theorem getPath_enough {p : Graph} {f k : Nat} {g : Graph} (hf : getPath E f p g ≠ .oof) (hk : evalFuel p ≤ k) :
    getPath E k p g = getPath E f p g := by
  rcases Nat.le_total f k with h | h
  · exact ((evalMono f k h).getPath p).eq_of_ne hf
  · exact (((evalMono k f h).getPath p).eq_of_ne (getPath_neverOof p hk g)).symm

/-- The context is left as it was. -/
def ReadOnly {α : Type} (x : EvalM α) : Prop := ∀ g a g', x g = .ok (a, g') → g' = g

theorem readOnly_pred : EvalPred (fun {α} (x : EvalM α) => ReadOnly x) where
  pure _ := fun g a g' h => by cases h; rfl
  bind hx hf := fun g a g' h => by
    simp only [Bind.bind] at h
    split at h
    next b g'' hxg => rw [hf b g'' a g' h, hx g b g'' hxg]
    · cases h
    · cases h
  panic := fun g a g' h => by cases h
  lift hr := fun g a g' h => by
    simp only [EvalM.lift] at h
    split at h <;> cases h
    rfl
  ctx := fun g a g' h => by cases h; rfl

theorem eval_readOnly {p : Graph} {f : Nat} (h : AllThis (NotAssign E) p) : ReadOnly (eval E f p) :=
  (evalAll readOnly_pred f).eval p (.inl fun _ _ _ _ h => by cases h) (.none _ h)

theorem getPath_readOnly {p : Graph} {f : Nat} (h : AllThis (NotAssign E) p) : ReadOnly (getPath E f p) :=
  (evalAll readOnly_pred f).getPath p (.inl fun _ _ _ _ h => by cases h) (.none _ h)

end
end Ogdl
