import Verif.Model.Eval
import Verif.Spec.Tree

/-! Facts that hold of every evaluation: a predicate on computations that is kept by
the building blocks holds of all of them. -/

namespace Ogdl
open Spec

section
variable {E : Ext}

/-! ## Results that are never out of fuel -/

theorem Res.bind_ne_oof {α β : Type} {x : Res α} {f : α → Res β} (hx : x ≠ .oof) (hf : ∀ a, f a ≠ .oof) : (x >>= f) ≠ .oof := by
  cases x with
  | ok a => exact hf a
  | panic => intro h; cases h
  | oof => exact absurd rfl hx

theorem nodeLoop_ne_oof {id : Bytes} : ∀ {o : List Graph}, nodeLoop E id o ≠ .oof
  | [] => by simp [nodeLoop]
  | .nil :: _ => by simp [nodeLoop]
  | .node t k :: gs => by
    simp only [nodeLoop]
    split
    · simp
    · exact nodeLoop_ne_oof

theorem nodeNamed_ne_oof {g : Graph} {s : Bytes} : g.nodeNamed E s ≠ .oof := by
  cases g with
  | nil => simp [Graph.nodeNamed]
  | node t o => exact nodeLoop_ne_oof

theorem findName_ne_oof {id : Bytes} : ∀ {o : List Graph}, findName E id o ≠ .oof
  | [] => by simp [findName]
  | .nil :: _ => by simp [findName]
  | .node t k :: gs => by
    simp only [findName]
    split
    · simp
    · exact Res.bind_ne_oof findName_ne_oof (fun _ => by simp)

theorem firstThis_ne_oof {g : Graph} : firstThis g ≠ .oof := by
  unfold firstThis
  split <;> simp

theorem getAt_ne_oof {g : Graph} {i : Int} : g.getAt i ≠ .oof := by
  unfold Graph.getAt
  repeat' split
  all_goals simp

theorem addEqualNodes_ne_oof {key : Bytes} : ∀ (o : List Graph) (g : Graph), Graph.addEqualNodes.loop E key g o ≠ .oof
  | [], g => by simp [Graph.addEqualNodes.loop]
  | .nil :: _, g => by simp [Graph.addEqualNodes.loop]
  | .node t k :: gs, g => by
    simp only [Graph.addEqualNodes.loop]
    exact addEqualNodes_ne_oof gs _

theorem selectNodes_ne_oof {s : PathSt} {i : Int} : selectNodes E s i ≠ .oof := by
  unfold selectNodes
  dsimp only
  split
  · simp
  · split
    · exact Res.bind_ne_oof (addEqualNodes_ne_oof _ _) (fun _ => by simp)
    · simp

theorem interface_ne_oof {g : Graph} : g.interface ≠ .oof := by
  unfold Graph.interface
  split <;> simp

theorem string_ne_oof {g : Graph} {d : Option Bytes} : g.string E d ≠ .oof := by
  unfold Graph.string
  split
  · simp
  · exact Res.bind_ne_oof interface_ne_oof (fun _ => by simp)

theorem vintf_ne_oof {v : Val} : vintf E v ≠ .oof := by
  unfold vintf
  split <;> simp

theorem int64_ne_oof {g : Graph} {d : Option Int} : g.int64 E d ≠ .oof := by
  unfold Graph.int64
  refine Res.bind_ne_oof interface_ne_oof fun v => Res.bind_ne_oof vintf_ne_oof fun r => ?_
  split <;> simp

theorem boolean_ne_oof {g : Graph} {d : Option Bool} : g.boolean E d ≠ .oof := by
  unfold Graph.boolean
  refine Res.bind_ne_oof string_ne_oof fun v => ?_
  split <;> simp

theorem float64_ne_oof {g : Graph} {d : Option UInt64} : g.float64 E d ≠ .oof := by
  unfold Graph.float64
  refine Res.bind_ne_oof string_ne_oof fun v => ?_
  split <;> simp

theorem mapM_ne_oof {α β : Type} {f : α → Res β} (hf : ∀ a, f a ≠ .oof) : ∀ l : List α, l.mapM f ≠ .oof
  | [] => by simp [List.mapM_nil, pure]
  | a :: l => by
    rw [List.mapM_cons]
    exact Res.bind_ne_oof (hf a) fun _ => Res.bind_ne_oof (mapM_ne_oof hf l) fun _ => by simp [pure]

theorem strings_ne_oof {g : Graph} : g.strings E ≠ .oof := by
  cases g with
  | nil => simp [Graph.strings]
  | node t o =>
    refine mapM_ne_oof (fun a => ?_) o
    cases a <;> simp

theorem convert_ne_oof {v : Val} {s : Bytes} : convert E v s ≠ .oof := by
  unfold convert
  split
  · simp
  · split
    · repeat' split
      · exact Res.bind_ne_oof int64_ne_oof fun _ => by simp
      · exact Res.bind_ne_oof boolean_ne_oof fun _ => by simp
      · exact Res.bind_ne_oof string_ne_oof fun _ => by simp
      · exact Res.bind_ne_oof strings_ne_oof fun _ => by simp
      · exact Res.bind_ne_oof float64_ne_oof fun _ => by simp
      · exact Res.bind_ne_oof int64_ne_oof fun _ => by simp
      · simp
    all_goals (repeat' split) <;> simp

theorem methodArgs_ne_oof : ∀ {ins : List Bytes} {args : List Val}, methodArgs E ins args ≠ .oof
  | [], _ => by simp [methodArgs]
  | i :: is, [] => by
    simp only [methodArgs]
    exact Res.bind_ne_oof methodArgs_ne_oof fun _ => by simp
  | i :: is, v :: vs => by
    have h := methodArgs_ne_oof (ins := is) (args := vs)
    cases v
    case nil => simp only [methodArgs]; exact Res.bind_ne_oof h fun _ => by simp
    all_goals
      simp only [methodArgs]
      refine Res.bind_ne_oof convert_ne_oof fun _ => Res.bind_ne_oof h fun _ => ?_
      split <;> simp

theorem callResult_ne_oof {r : Option (Option Val)} : callResult r ≠ .oof := by
  unfold callResult
  split <;> simp

theorem callMethod_ne_oof {ins : List Bytes} {fn : List Val → Option (Option Val)} {args : List Val} :
    callMethod E ins fn args ≠ .oof := by
  unfold callMethod
  refine Res.bind_ne_oof methodArgs_ne_oof fun _ => ?_
  split
  · simp
  · exact callResult_ne_oof

theorem zeroArgs_ne_oof : ∀ {ins : List Bytes} {args : List Val}, zeroArgs E ins args ≠ .oof
  | _, [] => by simp [zeroArgs]
  | [], v :: vs => by
    have h := zeroArgs_ne_oof (ins := []) (args := vs)
    cases v
    case nil => simp [zeroArgs]
    all_goals
      simp only [zeroArgs]
      exact Res.bind_ne_oof h fun _ => by simp
  | i :: is, v :: vs => by
    have h := zeroArgs_ne_oof (ins := is) (args := vs)
    cases v <;>
    · simp only [zeroArgs]
      exact Res.bind_ne_oof h fun _ => by simp

theorem callFunc_ne_oof {ins : List Bytes} {fn : List Val → Option (Option Val)} {args : List Val} :
    callFunc E ins fn args ≠ .oof := by
  unfold callFunc
  refine Res.bind_ne_oof zeroArgs_ne_oof fun _ => ?_
  split
  · simp
  · split
    · simp
    · exact callResult_ne_oof

theorem isInteger_ne_oof {s : Bytes} : isInteger s ≠ .oof := by
  unfold isInteger
  split
  · simp
  · split
    · simp
    · dsimp only
      split
      · split <;> exact fun h => nomatch h
      · split <;> exact fun h => nomatch h

theorem number'_ne_oof {v : Val} : number' E v ≠ .oof := by
  unfold number'
  split
  · simp
  · split
    · simp
    · split
      · simp
      · dsimp only
        split
        · simp
        · refine Res.bind_ne_oof isInteger_ne_oof fun b => ?_
          repeat' split
          all_goals simp

theorem scalarOf_ne_oof {v : Val} : scalarOf E v ≠ .oof := by
  unfold scalarOf
  refine Res.bind_ne_oof number'_ne_oof fun _ => ?_
  repeat' split
  all_goals simp

theorem thisScalar_ne_oof {g : Graph} : g.thisScalar E ≠ .oof := by
  unfold Graph.thisScalar
  split <;> first | exact scalarOf_ne_oof | simp

theorem calcFloat_ne_oof {a b : UInt64} {op : ArithOp} : calcFloat E a b op ≠ .oof := by
  cases op <;> simp only [calcFloat] <;> first | (split <;> simp; done) | simp

theorem calc'_ne_oof {a b : Val} {op : ArithOp} : calc' E a b op ≠ .oof := by
  unfold calc'
  split
  · cases op <;> simp only [calcInt] <;> first | (split <;> simp; done) | simp
  · exact calcFloat_ne_oof
  · split
    · split <;> simp
    · simp
    · exact calcFloat_ne_oof
    · exact calcFloat_ne_oof

theorem compare'_ne_oof {a b : Val} {op : CmpOp} : compare' E a b op ≠ .oof := by
  unfold compare'
  split
  · refine Res.bind_ne_oof vintf_ne_oof fun _ => ?_
    split <;> simp
  · repeat' split
    all_goals simp

mutual
theorem jsonNode_ne_oof : ∀ g : Graph, g.jsonNode E ≠ .oof
  | .nil => by simp [Graph.jsonNode]
  | .node t [] => by simp [Graph.jsonNode]
  | .node t (g :: gs) => by
    have h := jsonList_ne_oof (g :: gs) false
    simp only [Graph.jsonNode]
    refine Res.bind_ne_oof h fun _ => ?_
    repeat' split
    all_goals simp
termination_by g => 2 * sizeOf g
decreasing_by all_goals (simp_wf; try omega)
theorem jsonList_ne_oof : ∀ (gs : List Graph) (c : Bool), Graph.jsonList E c gs ≠ .oof
  | [], c => by simp [Graph.jsonList]
  | .nil :: gs, c => by simp [Graph.jsonList]
  | .node t [] :: gs, c => by
    have h := jsonList_ne_oof gs c
    simp only [Graph.jsonList]
    exact Res.bind_ne_oof h fun _ => by simp
  | .node t [x] :: gs, c => by
    have h1 := jsonNode_ne_oof (.node t [x])
    have h := jsonList_ne_oof gs true
    simp only [Graph.jsonList]
    exact Res.bind_ne_oof h1 fun _ => Res.bind_ne_oof h fun _ => by simp
  | .node t (x :: y :: zs) :: gs, c => by
    have h1 := jsonNode_ne_oof (.node t (x :: y :: zs))
    have h := jsonList_ne_oof gs true
    simp only [Graph.jsonList]
    exact Res.bind_ne_oof h1 fun _ => Res.bind_ne_oof h fun _ => by simp
termination_by gs => 2 * sizeOf gs + 1
decreasing_by all_goals (simp_wf; try omega)
end

theorem json_ne_oof {g : Graph} : g.json E ≠ .oof := by
  cases g with
  | nil => simp [Graph.json, Graph.jsonRun]
  | node t o =>
    have := jsonNode_ne_oof (E := E) (.node (.str []) o)
    simp only [Graph.json, Graph.jsonRun]
    cases h : Graph.jsonNode E (.node (.str []) o) with
    | oof => exact absurd h this
    | _ => simp

theorem putAt_ne_oof {o : List Graph} {i : Int} {n : Graph} : putAt o i n ≠ .oof := by
  unfold putAt
  split <;> simp

theorem setLast_ne_oof {v : Val} {g : Graph} : setLast v g ≠ .oof := by
  cases g <;> simp [setLast]

theorem setNew_ne_oof {v : Val} : ∀ {es : List Graph} {g : Graph}, setNew E v es g ≠ .oof
  | [], g => setLast_ne_oof
  | _ :: _, .nil => by simp [setNew]
  | e :: es, .node t o => by
    simp only [setNew]
    split
    · exact Res.bind_ne_oof int64_ne_oof fun _ => Res.bind_ne_oof putAt_ne_oof fun _ => by simp
    · split
      · simp
      · simp
      · exact Res.bind_ne_oof setNew_ne_oof fun _ => by simp

theorem setPath_ne_oof {v : Val} : ∀ {es : List Graph} {g : Graph}, setPath E v es g ≠ .oof
  | [], g => setLast_ne_oof
  | _ :: _, .nil => by simp [setPath]
  | e :: es, .node t o => by
    simp only [setPath]
    split
    · exact Res.bind_ne_oof int64_ne_oof fun _ => Res.bind_ne_oof putAt_ne_oof fun _ => by simp
    · refine Res.bind_ne_oof findName_ne_oof fun r => ?_
      split
      · exact setNew_ne_oof
      · exact Res.bind_ne_oof setPath_ne_oof fun _ => by simp

/-! ## Predicates on evaluations -/

/-- A predicate that holds of what evaluations are made of. -/
structure EvalPred (P : {α : Type} → EvalM α → Prop) : Prop where
  pure : ∀ {α : Type} (a : α), P (pure a)
  bind : ∀ {α β : Type} {x : EvalM α} {f : α → EvalM β}, P x → (∀ a, P (f a)) → P (x >>= f)
  panic : ∀ {α : Type}, P (EvalM.panic (α := α))
  lift : ∀ {α : Type} {r : Res α}, r ≠ .oof → P (EvalM.lift r)
  ctx : P EvalM.ctx

/-- Not the content of an assignment operator. -/
def NotAssign (E : Ext) (v : Val) : Prop := ∀ op, binOp (vstr E v) ≠ some (.assign op)

/-- Enough fuel for the node, or fuel does not matter. -/
def FuelFor (P : {α : Type} → EvalM α → Prop) (c f : Nat) (p : Graph) : Prop :=
  (∀ α, P (EvalM.oof (α := α))) ∨ 8 * p.height + c ≤ f

mutual
/-- The left operands of all assignments in an expression. -/
def AllLefts (E : Ext) (S : Graph → Prop) : Graph → Prop
  | .nil => True
  | .node t o => (∀ op, binOp (vstr E t) = some (.assign op) → ∀ q ∈ o.head?, S q) ∧ AllLeftsL E S o
/-- The same for a list of expressions. -/
def AllLeftsL (E : Ext) (S : Graph → Prop) : List Graph → Prop
  | [] => True
  | g :: gs => AllLefts E S g ∧ AllLeftsL E S gs
end

/-- The assignments in the expression are fine. -/
def AssignFor (E : Ext) (P : {α : Type} → EvalM α → Prop) (p : Graph) : Prop :=
  AllLefts E (fun q => ∀ v, P (assign.put E q v)) p

mutual
theorem AllLefts.any {E : Ext} {S : Graph → Prop} (h : ∀ q, S q) : ∀ p : Graph, AllLefts E S p
  | .nil => trivial
  | .node _ o => ⟨fun _ _ q _ => h q, AllLeftsL.any h o⟩
theorem AllLeftsL.any {E : Ext} {S : Graph → Prop} (h : ∀ q, S q) : ∀ o : List Graph, AllLeftsL E S o
  | [] => trivial
  | g :: gs => ⟨AllLefts.any h g, AllLeftsL.any h gs⟩
end

mutual
theorem AllLefts.none {E : Ext} {S : Graph → Prop} : ∀ p : Graph, AllThis (NotAssign E) p → AllLefts E S p
  | .nil, _ => trivial
  | .node _ o, h => ⟨fun op hop => absurd hop (h.1 op), AllLeftsL.none o h.2⟩
theorem AllLeftsL.none {E : Ext} {S : Graph → Prop} : ∀ o : List Graph, AllThisL (NotAssign E) o → AllLeftsL E S o
  | [], _ => trivial
  | g :: gs, h => ⟨AllLefts.none g h.1, AllLeftsL.none gs h.2⟩
end

theorem allLefts_mem {E : Ext} {S : Graph → Prop} {x : Graph} : ∀ {o : List Graph}, x ∈ o → AllLeftsL E S o → AllLefts E S x
  | [], h, _ => by simp at h
  | y :: ys, h, ha => by
    rcases List.mem_cons.1 h with rfl | h
    · exact ha.1
    · exact allLefts_mem h ha.2

theorem height_mem {x : Graph} : ∀ {o : List Graph}, x ∈ o → x.height ≤ Graph.heightL o
  | [], h => by simp at h
  | y :: ys, h => by
    rcases List.mem_cons.1 h with rfl | h
    · simp only [Graph.heightL]; omega
    · have := height_mem h
      simp only [Graph.heightL]; omega

theorem allThis_mem {P : Val → Prop} {x : Graph} : ∀ {o : List Graph}, x ∈ o → AllThisL P o → AllThis P x
  | [], h, _ => by simp at h
  | y :: ys, h, ha => by
    rcases List.mem_cons.1 h with rfl | h
    · exact ha.1
    · exact allThis_mem h ha.2

variable {P : {α : Type} → EvalM α → Prop}

theorem pred_ite {α : Type} {c : Prop} [Decidable c] {x y : EvalM α} (h1 : P x) (h2 : P y) : P (if c then x else y) := by
  split
  · exact h1
  · exact h2

theorem FuelFor.child {c c' f f' : Nat} {t : Val} {o : List Graph} {x : Graph} (h : FuelFor P c f (.node t o)) (hx : x ∈ o)
    (hc : c' + f ≤ c + 8 + f') : FuelFor P c' f' x := by
  rcases h with h | h
  · exact .inl h
  · right
    have := height_mem hx
    simp only [Graph.height] at h
    omega

theorem FuelFor.same {c c' f f' : Nat} {p : Graph} (h : FuelFor P c f p) (hc : c' + f ≤ c + f') : FuelFor P c' f' p := by
  rcases h with h | h
  · exact .inl h
  · right
    omega

theorem FuelFor.grand {c c' f f' : Nat} {t t' : Val} {o o' : List Graph} {x : Graph} (h : FuelFor P c f (.node t o))
    (hn : .node t' o' ∈ o) (hx : x ∈ o') (hc : c' + f ≤ c + 16 + f') : FuelFor P c' f' x := by
  have h1 : FuelFor P (c + 8) f (.node t' o') := h.child hn (by omega)
  exact h1.child hx (by omega)

theorem AssignFor.child {t : Val} {o : List Graph} {x : Graph} (h : AssignFor E P (.node t o)) (hx : x ∈ o) : AssignFor E P x :=
  allLefts_mem hx h.2

theorem walkPath_pred (hP : EvalPred P) {α : Type} {step : Graph → PathSt → EvalM (PathStep α)} : ∀ (es : List Graph) (s : PathSt),
    (∀ e ∈ es, ∀ s, P (step e s)) → P (walkPath step es s)
  | [], s, _ => hP.pure _
  | e :: es, s, h => by
    simp only [walkPath]
    split
    · exact hP.pure _
    · refine hP.bind (h e (by simp) s) fun r => ?_
      cases r with
      | next s' => exact walkPath_pred hP es s' fun e he => h e (by simp [he])
      | done r => exact hP.pure _

theorem evalEach_pred (hP : EvalPred P) {ev : Graph → EvalM (Val × Option Err)} : ∀ (as : List Graph), (∀ a ∈ as, P (ev a)) → P (evalEach ev as)
  | [], _ => hP.pure _
  | a :: as, h => by
    simp only [evalEach]
    exact hP.bind (h a (by simp)) fun r => hP.bind (evalEach_pred hP as fun a ha => h a (by simp [ha])) fun _ => hP.pure _

theorem evalGroup_pred (hP : EvalPred P) {ev : Graph → EvalM (Val × Option Err)} : ∀ (as : List Graph) (r : Graph), (∀ a ∈ as, P (ev a)) →
    P (evalGroup ev as r)
  | [], _, _ => hP.pure _
  | a :: as, r, h => by
    simp only [evalGroup]
    exact hP.bind (h a (by simp)) fun _ => evalGroup_pred hP as _ fun a ha => h a (by simp [ha])

/-- The predicate holds of all the functions, with fuel `f`. -/
structure EvalAll (E : Ext) (P : {α : Type} → EvalM α → Prop) (f : Nat) : Prop where
  function : ∀ p v, FuelFor P 1 f p → AssignFor E P p → P (function E f p v)
  getName : ∀ p b s, FuelFor P 2 f p → AssignFor E P p → P (getName E f p b s)
  evalName : ∀ p b s, FuelFor P 2 f p → AssignFor E P p → P (evalName E f p b s)
  indexOf : ∀ p, FuelFor P 1 f p → AssignFor E P p → P (indexOf E f p)
  getStep : ∀ t o, ∀ n ∈ o, ∀ s, FuelFor P 3 f (.node t o) → AssignFor E P (.node t o) → P (getStep E f (.node t o) n s)
  evalStep : ∀ t o, ∀ n ∈ o, ∀ s, FuelFor P 3 f (.node t o) → AssignFor E P (.node t o) → P (evalStep E f (.node t o) n s)
  getPath : ∀ p, FuelFor P 4 f p → AssignFor E P p → P (getPath E f p)
  evalPath : ∀ p b, FuelFor P 4 f p → AssignFor E P p → P (evalPath E f p b)
  assign : ∀ p v op, FuelFor P 5 f p → AssignFor E P p → (∀ v, P (assign.put E p v)) → P (assign E f p v op)
  evalBinary : ∀ p, FuelFor P 1 f p → AssignFor E P p → P (evalBinary E f p)
  evalExpr : ∀ p b, FuelFor P 5 f p → AssignFor E P p → P (evalExpr E f p b)
  eval : ∀ p, FuelFor P 6 f p → AssignFor E P p → P (eval E f p)
  evalBool : ∀ p, FuelFor P 7 f p → AssignFor E P p → P (evalBool E f p)

theorem evalAll (hP : EvalPred P) : ∀ f, EvalAll E P f
  | 0 => by
    have hz : ∀ {α : Type} {c : Nat} {p : Graph}, FuelFor P (c + 1) 0 p → P (EvalM.oof (α := α)) := by
      intro α c p h
      rcases h with h | h
      · exact h α
      · omega
    constructor
    all_goals intros
    all_goals simp only [Ogdl.function, Ogdl.getName, Ogdl.evalName, Ogdl.indexOf, Ogdl.getStep, Ogdl.evalStep, Ogdl.getPath, Ogdl.evalPath,
      Ogdl.assign, Ogdl.evalBinary, Ogdl.evalExpr, Ogdl.eval, Ogdl.evalBool]
    all_goals apply hz; assumption
  | f + 1 => by
    have ih := evalAll hP f
    constructor
    · intro p v hf ha
      simp only [Ogdl.function]
      split
      · exact hP.pure _
      · split
        next t o rest hout =>
          cases p with
          | nil => cases hout
          | node pt po =>
            simp only [Graph.out_node] at hout
            subst hout
            split
            · split
              · exact hP.bind (hP.pure _) fun _ => hP.lift callFunc_ne_oof
              · exact hP.bind hP.panic fun _ => hP.lift callFunc_ne_oof
              next t2 o2 _ =>
                exact hP.bind (evalEach_pred hP _ fun a hx => ih.evalExpr a true (hf.grand (List.mem_cons_of_mem _ (List.mem_cons_of_mem _ List.mem_cons_self)) hx (by omega))
                  ((ha.child (List.mem_cons_of_mem _ (List.mem_cons_of_mem _ List.mem_cons_self))).child hx)) fun _ => hP.lift callFunc_ne_oof
            · exact hP.bind (evalEach_pred hP _ fun a hx => ih.evalExpr a true
                (hf.grand (List.mem_cons_of_mem _ List.mem_cons_self) hx (by omega))
                ((ha.child (List.mem_cons_of_mem _ List.mem_cons_self)).child hx)) fun _ => hP.lift callFunc_ne_oof
        next => exact hP.panic
      · split
        next fnode rest hout =>
          cases p with
          | nil => cases hout
          | node pt po =>
            simp only [Graph.out_node] at hout
            subst hout
            split
            · exact hP.pure _
            · split
              · exact hP.pure _
              · split
                · exact hP.bind (hP.pure _) fun _ => hP.lift callMethod_ne_oof
                · exact hP.bind hP.panic fun _ => hP.lift callMethod_ne_oof
                next t2 o2 _ =>
                  exact hP.bind (evalEach_pred hP _ fun a hx => ih.evalExpr a false (hf.grand (List.mem_cons_of_mem _ (List.mem_cons_of_mem _ List.mem_cons_self)) hx (by omega))
                    ((ha.child (List.mem_cons_of_mem _ (List.mem_cons_of_mem _ List.mem_cons_self))).child hx)) fun _ => hP.lift callMethod_ne_oof
        next => exact hP.pure _
    · intro p b s hf ha
      simp only [Ogdl.getName]
      refine hP.bind (hP.lift nodeNamed_ne_oof) fun n => ?_
      split
      · refine hP.bind (hP.lift firstThis_ne_oof) fun t => hP.bind (ih.function p t (hf.same (by omega)) ha) fun r => ?_
        split <;> exact hP.pure _
      · exact hP.pure _
    · intro p b s hf ha
      simp only [Ogdl.evalName]
      refine hP.bind (hP.lift nodeNamed_ne_oof) fun n => ?_
      split
      · refine hP.bind (hP.lift firstThis_ne_oof) fun t => hP.bind (ih.function p t (hf.same (by omega)) ha) fun r => ?_
        split <;> exact hP.pure _
      · exact hP.pure _
    · intro p hf ha
      cases p with
      | nil => exact hP.panic
      | node t o =>
        cases o with
        | nil => exact hP.pure _
        | cons x xs =>
          simp only [Ogdl.indexOf]
          refine hP.bind (ih.evalExpr x true (hf.child (by simp) (by omega)) (ha.child (by simp))) fun r => ?_
          repeat' split
          all_goals exact hP.pure _
    · intro t o n hn s hf ha
      have hix : P (Ogdl.indexOf E f n) := ih.indexOf n (hf.child hn (by omega)) (ha.child hn)
      simp only [Ogdl.getStep]
      split
      · refine hP.bind hix fun ix => ?_
        split
        · exact hP.pure _
        · exact hP.bind (hP.lift getAt_ne_oof) fun _ => hP.pure _
      · split
        · split
          · exact hP.pure _
          · refine hP.bind hix fun ix => hP.bind (hP.lift selectNodes_ne_oof) fun r => ?_
            split <;> exact hP.pure _
        · split
          · split
            · refine hP.bind (hP.lift firstThis_ne_oof) fun t' =>
                hP.bind (ih.function (.node t o) t' (hf.same (by omega)) ha) fun r => ?_
              split <;> exact hP.pure _
            · exact hP.pure _
          · split
            · split
              · exact hP.panic
              next x xs hout =>
                have hx : x ∈ n.out := by rw [hout]; simp
                cases n with
                | nil => cases hout
                | node nt no =>
                  refine hP.bind (ih.eval x (hf.grand hn hx (by omega)) ((ha.child hn).child hx)) fun r => ?_
                  split
                  · exact hP.pure _
                  · split
                    · exact hP.pure _
                    · exact ih.getName _ _ _ (hf.same (by omega)) ha
            · exact ih.getName _ _ _ (hf.same (by omega)) ha
    · intro t o n hn s hf ha
      have hix : P (Ogdl.indexOf E f n) := ih.indexOf n (hf.child hn (by omega)) (ha.child hn)
      rw [Ogdl.evalStep]
      dsimp only
      refine pred_ite ?_ (pred_ite ?_ (pred_ite (hP.pure _) (pred_ite (hP.pure _) (pred_ite (hP.pure _) (pred_ite ?_ (pred_ite ?_ (pred_ite ?_ (pred_ite ?_ ?_))))))))
      · refine hP.bind hix fun ix => pred_ite (hP.pure _) ?_
        exact hP.bind (hP.lift getAt_ne_oof) fun _ => hP.pure _
      · refine pred_ite (hP.pure _) ?_
        refine hP.bind hix fun ix => hP.bind (hP.lift selectNodes_ne_oof) fun r => ?_
        split <;> exact hP.pure _
      · exact hP.bind (hP.lift string_ne_oof) fun _ => hP.pure _
      · exact hP.bind (hP.lift json_ne_oof) fun _ => hP.pure _
      · refine pred_ite ?_ (hP.pure _)
        refine hP.bind (hP.lift firstThis_ne_oof) fun t' =>
          hP.bind (ih.function (.node t o) t' (hf.same (by omega)) ha) fun r => ?_
        split <;> exact hP.pure _
      · split
        · exact hP.panic
        next x xs hout =>
          have hx : x ∈ n.out := by rw [hout]; simp
          cases n with
          | nil => cases hout
          | node nt no =>
            refine hP.bind (ih.eval x (hf.grand hn hx (by omega)) ((ha.child hn).child hx)) fun r => ?_
            split
            · exact hP.pure _
            · exact pred_ite (hP.pure _) (ih.evalName _ _ _ (hf.same (by omega)) ha)
      · exact ih.evalName _ _ _ (hf.same (by omega)) ha
    · intro p hf ha
      simp only [Ogdl.getPath]
      refine hP.bind hP.ctx fun g => ?_
      split
      · exact hP.pure _
      · cases p with
        | nil => exact hP.panic
        | node t o =>
          refine hP.bind (walkPath_pred hP _ _ fun e he s => ih.getStep t o e he s (hf.same (by omega)) ha) fun r => ?_
          split <;> exact hP.pure _
    · intro p b hf ha
      simp only [Ogdl.evalPath]
      refine hP.bind hP.ctx fun g => ?_
      split
      · exact hP.pure _
      · cases p with
        | nil => exact hP.panic
        | node t o =>
          refine hP.bind (walkPath_pred hP _ _ fun e he s => ih.evalStep t o e he s (hf.same (by omega)) ha) fun r => ?_
          split <;> exact hP.pure _
    · intro p v op hf hx ha
      cases op with
      | none => exact ha v
      | some op =>
        simp only [Ogdl.assign]
        refine hP.bind (ih.getPath p (hf.same (by omega)) hx) fun r => ?_
        split
        · split
          · exact ha _
          · exact hP.bind (hP.lift calc'_ne_oof) fun _ => ha _
          · exact ha _
          · exact ha _
          · exact ha _
        · exact hP.bind (hP.lift firstThis_ne_oof) fun _ => hP.bind (hP.lift calc'_ne_oof) fun _ => ha _
    · intro p hf ha
      simp only [Ogdl.evalBinary]
      split
      next n1 n2 rest hout =>
        cases p with
        | nil => cases hout
        | node t o =>
          simp only [Graph.out_node] at hout
          subst hout
          refine hP.bind (ih.evalExpr n2 true (hf.child (by simp) (by omega)) (ha.child (by simp))) fun r => ?_
          split
          · exact hP.pure _
          · split
            next op hop =>
              exact ih.assign n1 _ op (hf.child (by simp) (by omega)) (ha.child (by simp)) (ha.1 op hop n1 rfl)
            · refine hP.bind (ih.evalExpr n1 true (hf.child (by simp) (by omega)) (ha.child (by simp))) fun r => ?_
              split
              · exact hP.pure _
              · split
                · exact hP.lift calc'_ne_oof
                · exact hP.bind (hP.lift compare'_ne_oof) fun _ => hP.pure _
                · exact hP.pure _
                · exact hP.pure _
                · exact hP.pure _
      next => exact hP.panic
    · intro p b hf ha
      rw [Ogdl.evalExpr.eq_def]
      dsimp only
      split
      · exact hP.panic
      · exact hP.pure _
      next t o _ =>
        refine pred_ite (hP.pure _) (pred_ite ?_ (pred_ite ?_ (pred_ite ?_ (pred_ite ?_ (pred_ite ?_ (pred_ite (hP.pure _) (pred_ite ?_
          (pred_ite (hP.pure _) (pred_ite (pred_ite (hP.pure _) (pred_ite (hP.pure _) (hP.pure _))) (hP.pure _)))))))))) 
        · exact hP.bind (hP.lift number'_ne_oof) fun _ => hP.pure _
        · split
          · exact hP.panic
          · exact hP.bind (ih.evalBool _ (hf.child (by simp) (by omega)) (ha.child (by simp))) fun _ => hP.pure _
        · cases o with
          | nil =>
            refine ih.evalExpr .nil b ?_ trivial
            rcases hf with hf | hf
            · exact .inl hf
            · right
              simp only [Graph.height, Graph.heightL] at hf ⊢
              omega
          | cons x xs => exact ih.evalExpr x b (hf.child (by simp) (by omega)) (ha.child (by simp))
        · exact ih.evalPath _ b (hf.same (by omega)) ha
        · exact hP.bind (evalGroup_pred hP _ _ fun a hx => ih.evalExpr a b (hf.child hx (by omega)) (ha.child hx)) fun _ => hP.pure _
        · exact hP.bind (ih.evalBinary _ (hf.same (by omega)) ha) fun _ => hP.pure _
    · intro p hf ha
      simp only [Ogdl.eval]
      split
      · exact ih.evalPath p true (hf.same (by omega)) ha
      · split
        · exact ih.evalExpr p true (hf.same (by omega)) ha
        · split
          · exact hP.bind (hP.lift thisScalar_ne_oof) fun _ => hP.pure _
          · exact hP.pure _
    · intro p hf ha
      simp only [Ogdl.evalBool]
      exact hP.bind (ih.eval p (hf.same (by omega)) ha) fun _ => hP.pure _

end
end Ogdl
