import Verif.Lemmas.LiveRun
import Verif.Lemmas.HeapWitness

/-!
# Loops over the context itself, and assignments through a loop variable
-/

namespace Ogdl
open Spec
variable (E : Ext)

/-- `_ (a)` -/
def selfOps : List TOp := [.new (.str b!"_"), .add 0 (.str b!"a")]

/-- The template `$for(v, _this)=$v$end` -/
def selfLoop : Graph := .node (.str []) [.node (.str b!"!for") [.node (.str b!"!a") [exprOf (pathOf [b!"v"]), exprOf (pathOf [b!"_this"])], .node (.str b!"!t") [leaf b!"=", pathOf [b!"v"]]]]

/-- Memory before the loop. -/
def selfH0 : Heap := ⟨[⟨.val (.str b!"_"), ⟨some 0, 1⟩⟩, ⟨.val (.str b!"a"), {}⟩], [[some 1, none]]⟩

/-- Memory in the second turn of the loop. -/
def selfH1 : Heap := ⟨[⟨.val (.str b!"_"), ⟨some 0, 2⟩⟩, ⟨.val (.str b!"a"), {}⟩, ⟨.val (.str b!"v"), ⟨some 2, 1⟩⟩], [[some 1, some 2], [some 1, none], [some 2, none]]⟩

theorem self_0 (n : Nat) : (memRun E growOne n selfOps []).run {} = (.ok [some 0], selfH0) := rfl

theorem self_tree (n : Nat) : (hTree n (some 2)).run selfH1 = (.oof, selfH1) := by
  induction n with
  | zero => rfl
  | succ n ih =>
    unfold hTree
    have e1 : (HM.load (some 2)).run selfH1 = (.ok ⟨.val (.str b!"v"), ⟨some 2, 1⟩⟩, selfH1) := rfl
    rw [ok_bind' e1]
    have e2 : (HM.elems ⟨some 2, 1⟩).run selfH1 = (.ok [some 2], selfH1) := rfl
    rw [ok_bind' e2]
    apply oof_bind'
    exact oof_bind' ih

theorem self_body (n f : Nat) : (hProc growOne E (n + 5) (some 0) (f + 1) (.node (.str b!"!t") [leaf b!"=", pathOf [b!"v"]])).run selfH1 = (.oof, selfH1) := by
  have e1 : (hEval growOne E (n + 5) (some 0) (evalFuel (pathOf [b!"v"])) (pathOf [b!"v"])).run selfH1 = (.ok (.ptr (some 2), none), selfH1) := rfl
  have e2 : (hValue (n + 5) (.ptr (some 2))).run selfH1 = (.oof, selfH1) := oof_bind' (self_tree _)
  show (HM.run ((hEval growOne E (n + 5) (some 0) (evalFuel (pathOf [b!"v"])) (pathOf [b!"v"]) >>= _) >>= _) selfH1) = _
  apply oof_bind'
  rw [ok_bind' e1]
  exact oof_bind' e2

/-- Memory after the first turn of the loop. -/
def selfH2 : Heap := ⟨[⟨.val (.str b!"_"), ⟨some 0, 2⟩⟩, ⟨.val (.str b!"a"), {}⟩, ⟨.val (.str b!"v"), ⟨some 1, 1⟩⟩], [[some 1, some 2], [some 1, none]]⟩

/-- Memory when the loop begins. -/
def selfH3 : Heap := ⟨[⟨.val (.str b!"_"), ⟨some 0, 2⟩⟩, ⟨.val (.str b!"a"), {}⟩, ⟨.val (.str b!"v"), {}⟩], [[some 1, some 2]]⟩

/-- One turn of a loop that does not end. -/
theorem forLoop_halt {s : Slice} {it ee p : Ptr} {body : HM (Bool × Bytes)} {k i : Nat} {h h1 h2 h' : Heap} (e1 : (HM.index s i).run h = (.ok ee, h))
    (e2 : (HM.putOut it {}).run h = (.ok (), h1)) (e3 : (hAdd growOne it (.ptr ee)).run h1 = (.ok p, h2)) (e4 : body.run h2 = (.oof, h')) :
    (hForLoop growOne s it body (k + 1) i).run h = (.oof, h') := by
  unfold hForLoop
  rw [ok_bind' e1, ok_bind' e2, ok_bind' e3]
  exact oof_bind' e4

/-- One turn of a loop that goes on and does not end. -/
theorem forLoop_later {s : Slice} {it ee p : Ptr} {body : HM (Bool × Bytes)} {o : Bytes} {k i : Nat} {h h1 h2 h3 h' : Heap} (e1 : (HM.index s i).run h = (.ok ee, h))
    (e2 : (HM.putOut it {}).run h = (.ok (), h1)) (e3 : (hAdd growOne it (.ptr ee)).run h1 = (.ok p, h2)) (e4 : body.run h2 = (.ok (false, o), h3))
    (e5 : (hForLoop growOne s it body k (i + 1)).run h3 = (.oof, h')) :
    (hForLoop growOne s it body (k + 1) i).run h = (.oof, h') := by
  unfold hForLoop
  rw [ok_bind' e1, ok_bind' e2, ok_bind' e3, ok_bind' e4]
  exact oof_bind' e5

theorem self_loop (n f : Nat) : (hForLoop growOne ⟨some 0, 2⟩ (some 2) (hProc growOne E (n + 5) (some 0) (f + 1) (.node (.str b!"!t") [leaf b!"=", pathOf [b!"v"]])) 2 0).run selfH3 = (.oof, selfH1) :=
  forLoop_later (h1 := selfH3) (h2 := selfH2) (h3 := selfH2) (ee := some 1) (p := some 1) (o := b!"=a") rfl rfl rfl rfl
    (forLoop_halt (h1 := ⟨selfH3.nodes, selfH2.arrays⟩) (h2 := selfH1) (ee := some 2) (p := some 2) rfl rfl rfl (self_body E n f))

/-- The `for` node of `selfLoop`. -/
def selfFor : Graph := .node (.str b!"!for") [.node (.str b!"!a") [exprOf (pathOf [b!"v"]), exprOf (pathOf [b!"_this"])], .node (.str b!"!t") [leaf b!"=", pathOf [b!"v"]]]

theorem self_over (n f : Nat) : (hForOver growOne E (some 0) (hProc growOne E (n + 5) (some 0) (f + 1)) selfFor (some 0)).run selfH0 = (.oof, selfH1) := by
  unfold hForOver
  have e1 : (HM.lift (selfFor.getAt 0)).run selfH0 = (.ok (.node (.str b!"!a") [exprOf (pathOf [b!"v"]), exprOf (pathOf [b!"_this"])]), selfH0) := rfl
  rw [ok_bind' e1]
  have e2 : (HM.lift ((Graph.node (.str b!"!a") [exprOf (pathOf [b!"v"]), exprOf (pathOf [b!"_this"])]).getAt 0)).run selfH0 = (.ok (exprOf (pathOf [b!"v"])), selfH0) := rfl
  rw [ok_bind' e2]
  have e3 : (HM.lift ((exprOf (pathOf [b!"v"])).getAt 0)).run selfH0 = (.ok (pathOf [b!"v"]), selfH0) := rfl
  rw [ok_bind' e3]
  have e4 : (HM.lift ((pathOf [b!"v"]).string E)).run selfH0 = (.ok b!"v", selfH0) := rfl
  rw [ok_bind' e4]
  have e5 : (hDelete E growOne (some 0) (.val (.str b!"v"))).run selfH0 = (.ok (), selfH0) := rfl
  rw [ok_bind' e5]
  have e6 : (hAdd growOne (some 0) (.val (.str b!"v"))).run selfH0 = (.ok (some 2), selfH3) := rfl
  rw [ok_bind' e6]
  have e7 : (HM.lift (selfFor.getAt 1)).run selfH3 = (.ok (.node (.str b!"!t") [leaf b!"=", pathOf [b!"v"]]), selfH3) := rfl
  rw [ok_bind' e7]
  have e8 : (HM.load (some 0)).run selfH3 = (.ok ⟨.val (.str b!"_"), ⟨some 0, 2⟩⟩, selfH3) := rfl
  rw [ok_bind' e8]
  dsimp only
  exact self_loop E n f

theorem self_node (n f : Nat) : (hForNode growOne E (n + 5) (some 0) (hProc growOne E (n + 5) (some 0) (f + 1)) selfFor).run selfH0 = (.oof, selfH1) := by
  unfold hForNode
  have e1 : (HM.lift (selfFor.getAt 0)).run selfH0 = (.ok (.node (.str b!"!a") [exprOf (pathOf [b!"v"]), exprOf (pathOf [b!"_this"])]), selfH0) := rfl
  rw [ok_bind' e1]
  have e2 : (HM.lift ((Graph.node (.str b!"!a") [exprOf (pathOf [b!"v"]), exprOf (pathOf [b!"_this"])]).getAt 1)).run selfH0 = (.ok (exprOf (pathOf [b!"_this"])), selfH0) := rfl
  rw [ok_bind' e2]
  have e3 : (hEval growOne E (n + 5) (some 0) (evalFuel (exprOf (pathOf [b!"_this"]))) (exprOf (pathOf [b!"_this"]))).run selfH0 = (.ok (.ptr (some 0), none), selfH0) := rfl
  rw [ok_bind' e3]
  have e4 : (hLen (some 0)).run selfH0 = (.ok 1, selfH0) := rfl
  show (HM.run (hLen (some 0) >>= _) _) = _
  rw [ok_bind' e4]
  have e5 : (hThisString E (n + 5) (some 0) none).run selfH0 = (.ok b!"_", selfH0) := rfl
  show (HM.run (hThisString E (n + 5) (some 0) none >>= _) _) = _
  rw [ok_bind' e5]
  rw [if_neg (by decide)]
  exact self_over E n f

theorem self_never (n : Nat) : (hProcess growOne E (n + 5) (some 0) selfLoop).run selfH0 = (.oof, selfH1) := by
  unfold hProcess
  apply oof_bind'
  have e0 : selfLoop.height + 1 = 5 + 1 + 1 := rfl
  rw [e0]
  have e2 : hProc growOne E (n + 5) (some 0) (5 + 1 + 1) selfLoop = hProcNodes growOne E (n + 5) (some 0) (hProc growOne E (n + 5) (some 0) (5 + 1)) [selfFor] false := by
    unfold selfLoop selfFor
    rw [hProc]
  rw [e2]
  unfold hProcNodes
  have e1 : selfFor.thisString E = tyFor := rfl
  simp only [e1]
  rw [if_neg (by decide), if_neg (by decide), if_neg (by decide), if_neg (by decide), if_neg (by decide), if_pos trivial]
  exact oof_bind' (self_node E n 5)

theorem self_oof (n : Nat) : ((hProcess growOne E (n + 5) (some 0) selfLoop).run selfH0).1 = .oof := by
  rw [self_never]

/-- The template `$for(v,a)$(v.k=5)$end$a.k` -/
def aliasLoop : Graph := .node (.str []) [.node (.str b!"!for") [.node (.str b!"!a") [exprOf (pathOf [b!"v"]), exprOf (pathOf [b!"a"])], .node (.str b!"!t") [binary b!"=" (pathOf [b!"v", b!"k"]) (leaf b!"5")]], pathOf [b!"a", b!"k"]]

/-- `_ (a (k (u)))` -/
def aliasOps : List TOp := [.new (.str b!"_"), .set 0 [leaf b!"a", leaf b!"k"] [.name (.str b!"a"), .name (.str b!"k")] (.str b!"u")]

/-- `_ (l (a (x) b (y)))` -/
def listOps : List TOp := [.new (.str b!"_"), .set 0 [leaf b!"l", leaf b!"a"] [.name (.str b!"l"), .name (.str b!"a")] (.str b!"x"),
  .set 0 [leaf b!"l", leaf b!"b"] [.name (.str b!"l"), .name (.str b!"b")] (.str b!"y")]

/-- `_ (l (a (x) b (y)))` -/
def listTree : Graph := .node (.str b!"_") [.node (.str b!"l") [.node (.str b!"a") [leaf b!"x"], .node (.str b!"b") [leaf b!"y"]]]

end Ogdl
