import Verif.Lemmas.ShowsSet

/-!
# Two memories in which a node has two parents
-/

namespace Ogdl
open Spec
variable (E : Ext)

/-- Slices grow by one. -/
abbrev growOne : Nat → Nat → Nat := fun _ _ => 1

/-- `_ (a (k (u) m (v)))` -/
def sharedOps : List AOp :=
  [.op (.new (.str b!"_")), .op (.set 0 [leaf b!"a", leaf b!"k"] [.name (.str b!"a"), .name (.str b!"k")] (.str b!"u")),
   .op (.set 0 [leaf b!"a", leaf b!"m"] [.name (.str b!"a"), .name (.str b!"m")] (.str b!"v"))]
/-- Memory after step 1. -/
def sharedH1 : Heap := ⟨[⟨.val (.str b!"_"), ⟨some 0, 1⟩⟩, ⟨.val (.str b!"a"), ⟨some 1, 2⟩⟩, ⟨.val (.str b!"k"), ⟨some 2, 1⟩⟩, ⟨.val (.str b!"u"), {}⟩, ⟨.val (.str b!"m"), ⟨some 3, 1⟩⟩,⟨.val (.str b!"v"), {}⟩],
  [[some 1, none],[some 2, some 4],[some 3, none],[some 5, none]]⟩
/-- Memory after step 2. -/
def sharedH2 : Heap := ⟨[⟨.val (.str b!"_"), ⟨some 0, 2⟩⟩, ⟨.val (.str b!"a"), ⟨some 1, 2⟩⟩, ⟨.val (.str b!"k"), ⟨some 2, 1⟩⟩, ⟨.val (.str b!"u"), {}⟩, ⟨.val (.str b!"m"), ⟨some 3, 1⟩⟩,⟨.val (.str b!"v"), {}⟩, ⟨.val (.str b!"x"), ⟨some 4, 2⟩⟩],
  [[some 1, some 6],[some 2, some 4],[some 3, none],[some 5, none], [some 2, some 4, none]]⟩

theorem shared_1 (n : Nat) : (askMem E growOne (n + 5) sharedOps []).run {} = (.ok ([some 0], []), sharedH1) := rfl

theorem shared_2 (n : Nat) : (hEval growOne E (n + 5) (some 0) (evalFuel (binary b!"=" (pathOf [b!"x"]) (pathOf [b!"a"]))) (binary b!"=" (pathOf [b!"x"]) (pathOf [b!"a"]))).run sharedH1 = (.ok (.ptr (some 1), none), sharedH2) := rfl
/-- Memory after step 3. -/
def sharedH3 : Heap := ⟨[⟨.val (.str b!"_"), ⟨some 0, 2⟩⟩, ⟨.val (.str b!"a"), ⟨some 1, 2⟩⟩, ⟨.val (.str b!"k"), ⟨some 5, 1⟩⟩, ⟨.val (.str b!"u"), {}⟩, ⟨.val (.str b!"m"), ⟨some 3, 1⟩⟩,⟨.val (.str b!"v"), {}⟩, ⟨.val (.str b!"x"), ⟨some 4, 2⟩⟩,⟨.val (.int .int64 5), {}⟩],
  [[some 1, some 6],[some 2, some 4],[some 3, none],[some 5, none], [some 2, some 4, none], [some 7, none]]⟩

theorem shared_3 (n : Nat) : (hEval growOne E (n + 5) (some 0) (evalFuel (binary b!"=" (pathOf [b!"a", b!"k"]) (leaf b!"5"))) (binary b!"=" (pathOf [b!"a", b!"k"]) (leaf b!"5"))).run sharedH2 = (.ok (.ptr (some 7), none), sharedH3) := rfl

theorem shared_4 (n : Nat) : (hEval growOne E (n + 5) (some 0) (evalFuel (exprOf (pathOf [b!"x", b!"k"]))) (exprOf (pathOf [b!"x", b!"k"]))).run sharedH3 = (.ok (.val (.int .int64 5), none), sharedH3) := rfl

/-- `_ (a (b (u) c (v)))` -/
def cycleOps : List AOp :=
  [.op (.new (.str b!"_")), .op (.set 0 [leaf b!"a", leaf b!"b"] [.name (.str b!"a"), .name (.str b!"b")] (.str b!"u")),
   .op (.set 0 [leaf b!"a", leaf b!"c"] [.name (.str b!"a"), .name (.str b!"c")] (.str b!"v"))]
/-- Memory after step 1. -/
def cycleH1 : Heap := ⟨[⟨.val (.str b!"_"), ⟨some 0, 1⟩⟩, ⟨.val (.str b!"a"), ⟨some 1, 2⟩⟩, ⟨.val (.str b!"b"), ⟨some 2, 1⟩⟩, ⟨.val (.str b!"u"), {}⟩, ⟨.val (.str b!"c"), ⟨some 3, 1⟩⟩,⟨.val (.str b!"v"), {}⟩],
  [[some 1, none],[some 2, some 4],[some 3, none],[some 5, none]]⟩
/-- Memory after step 2. -/
def cycleH2 : Heap := ⟨[⟨.val (.str b!"_"), ⟨some 0, 1⟩⟩, ⟨.val (.str b!"a"), ⟨some 1, 2⟩⟩, ⟨.val (.str b!"b"), ⟨some 4, 2⟩⟩, ⟨.val (.str b!"u"), {}⟩, ⟨.val (.str b!"c"), ⟨some 3, 1⟩⟩,⟨.val (.str b!"v"), {}⟩],
  [[some 1, none],[some 2, some 4],[some 3, none],[some 5, none],[some 2, some 4, none]]⟩

theorem cycle_1 (n : Nat) : (askMem E growOne (n + 5) cycleOps []).run {} = (.ok ([some 0], []), cycleH1) := rfl

theorem cycle_2 (n : Nat) : (hEval growOne E (n + 5) (some 0) (evalFuel (binary b!"=" (pathOf [b!"a", b!"b"]) (pathOf [b!"a"]))) (binary b!"=" (pathOf [b!"a", b!"b"]) (pathOf [b!"a"]))).run cycleH1 = (.ok (.ptr (some 1), none), cycleH2) := rfl

theorem oof_bind' {m : HM α} {f : α → HM β} {h h' : Heap} (e : m.run h = (.oof, h')) : (m >>= f).run h = (.oof, h') := by
  show (HM.bind m f).run h = _
  unfold HM.bind
  simp only [e]

theorem clone_down {f q k l q' : Nat} {t : HVal} {ps : List Ptr} {h : Heap} (hq : h.nodes[q]? = some ⟨t, ⟨some k, l + 1⟩⟩) (hk : h.arrays[k]? = some (some q' :: ps))
    (ih : ∃ h', (hClone growOne f (some q')).run ⟨h.nodes ++ [⟨t, {}⟩], h.arrays⟩ = (.oof, h')) : ∃ h', (hClone growOne (f + 1) (some q)).run h = (.oof, h') := by
  obtain ⟨h', e⟩ := ih
  refine ⟨h', ?_⟩
  have hlt : q < h.nodes.length := (List.getElem?_eq_some_iff.1 hq).1
  unfold hClone
  have e1 : (HM.alloc (.val .nil)).run h = (.ok h.nodes.length, ⟨h.nodes ++ [⟨.val .nil, {}⟩], h.arrays⟩) := rfl
  rw [ok_bind' e1]
  have e2 : (HM.load (some q)).run ⟨h.nodes ++ [⟨.val .nil, {}⟩], h.arrays⟩ = (.ok ⟨t, ⟨some k, l + 1⟩⟩, ⟨h.nodes ++ [⟨.val .nil, {}⟩], h.arrays⟩) := by
    simp [HM.load, HM.read, List.getElem?_append_left hlt, hq]
  rw [ok_bind' e2]
  have e3 : (HM.putThis (some h.nodes.length) t).run ⟨h.nodes ++ [⟨.val .nil, {}⟩], h.arrays⟩ = (.ok (), ⟨h.nodes ++ [⟨t, {}⟩], h.arrays⟩) := by
    simp [HM.putThis, HM.update]
  rw [ok_bind' e3]
  apply oof_bind'
  show (HM.range _ _ (l + 1) 0).run _ = _
  unfold HM.range
  have e4 : (HM.index ⟨some k, l + 1⟩ 0).run ⟨h.nodes ++ [⟨t, {}⟩], h.arrays⟩ = (.ok (some q'), ⟨h.nodes ++ [⟨t, {}⟩], h.arrays⟩) := by
    simp [HM.index, HM.read, Heap.array, hk]
  rw [ok_bind' e4]
  apply oof_bind'
  exact oof_bind' e

theorem clone_itself : ∀ (f : Nat) (r : List HNode), ∃ h, (hClone growOne f (some 2)).run ⟨cycleH2.nodes ++ r, cycleH2.arrays⟩ = (.oof, h)
  | 0, r => ⟨_, rfl⟩
  | f + 1, r => clone_down rfl rfl (by dsimp only; rw [List.append_assoc]; exact clone_itself f _)

theorem clone_never (f : Nat) : ((hClone growOne f (some 0)).run cycleH2).1 = .oof := by
  have h1 : ∀ (f : Nat) (r : List HNode), ∃ h, (hClone growOne f (some 1)).run ⟨cycleH2.nodes ++ r, cycleH2.arrays⟩ = (.oof, h) := by
    intro f r
    cases f with
    | zero => exact ⟨_, rfl⟩
    | succ f => exact clone_down rfl rfl (by dsimp only; rw [List.append_assoc]; exact clone_itself f _)
  cases f with
  | zero => rfl
  | succ f =>
    obtain ⟨h, e⟩ := clone_down (f := f) (h := cycleH2) (q := 0) rfl rfl (h1 f _)
    rw [e]

theorem askMem_append {grow : Nat → Nat → Nat} {fuel : Nat} : ∀ (a b : List AOp) (ps : List Ptr),
    askMem E grow fuel (a ++ b) ps = askMem E grow fuel a ps >>= fun r => askMem E grow fuel b r.1 >>= fun r' => Pure.pure (r'.1, r.2 ++ r'.2)
  | [], b, ps => by
    rw [List.nil_append]
    show _ = (Pure.pure (ps, []) : HM _) >>= _
    rw [hm_pure]
    apply hm_ext
    intro x
    show _ = (HM.bind (askMem E grow fuel b ps) _).run x
    unfold HM.bind
    dsimp only
    rcases (askMem E grow fuel b ps).run x with ⟨⟨gs, outs⟩ | _ | _, h'⟩ <;> rfl
  | op :: a, b, ps => by
    rw [List.cons_append]
    show (op.mem E grow fuel ps >>= fun r => askMem E grow fuel (a ++ b) r.1 >>= fun r' => Pure.pure (r'.1, r.2 ++ r'.2)) =
      (op.mem E grow fuel ps >>= fun r => askMem E grow fuel a r.1 >>= fun r' => Pure.pure (r'.1, r.2 ++ r'.2)) >>= _
    rw [hm_assoc]
    congr 1
    funext r
    rw [askMem_append a b, hm_assoc, hm_assoc]
    congr 1
    funext r1
    rw [hm_pure, hm_assoc]
    congr 1
    funext r2
    rw [hm_pure, List.append_assoc]

theorem askMem_assign {grow : Nat → Nat → Nat} {fuel : Nat} {i : Nat} {o : Bytes} {p e : Graph} {ops : List AOp} {ps : List Ptr} {x : HVal × Option Err} {h h1 h2 : Heap}
    {r : List Ptr × List (Val × Option Err)} (h0 : (hEval grow E fuel (held ps i) (evalFuel (binary o p e)) (binary o p e)).run h = (.ok x, h1))
    (h3 : (askMem E grow fuel ops ps).run h1 = (.ok r, h2)) : (askMem E grow fuel (.assign i o p e :: ops) ps).run h = (.ok r, h2) := by
  have e1 : ((AOp.assign i o p e).mem E grow fuel ps).run h = (.ok (ps, []), h1) := ok_bind' h0
  unfold askMem
  rw [ok_bind' e1, ok_bind' h3]
  rfl

theorem askMem_ask {grow : Nat → Nat → Nat} {fuel : Nat} {i : Nat} {e : Graph} {ps : List Ptr} {x : HVal} {err : Option Err} {v : Val} {h h1 h2 : Heap}
    (h0 : (hEval grow E fuel (held ps i) (evalFuel e) e).run h = (.ok (x, err), h1)) (h3 : (hValue fuel x).run h1 = (.ok v, h2)) :
    (askMem E grow fuel [.ask i e] ps).run h = (.ok (ps, [(v, err)]), h2) := by
  have e1 : ((AOp.ask i e).mem E grow fuel ps).run h = (.ok (ps, [(v, err)]), h2) := by
    show (HM.run (_ >>= _) h) = _
    rw [ok_bind' h0, ok_bind' h3]
    rfl
  unfold askMem
  rw [ok_bind' e1]
  rfl

end Ogdl
