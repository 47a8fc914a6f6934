import Verif.Spec.Read

/-!
# Slices that are empty only when they are nil

Without removals of single subnodes no node has an empty slice that is not nil.
-/

namespace Ogdl
open Spec

/-- Empty only if nil. -/
def TidyS (s : Slice) : Prop := s.len = 0 → s.arr = none

/-- The same for all nodes. -/
def TidyH (h : Heap) : Prop := ∀ c ∈ h.nodes, TidyS c.out

/-- The computation keeps memory tidy, and `P` holds of its result. -/
def HTidy (m : HM α) (P : α → Prop) : Prop := ∀ h, TidyH h → TidyH (m.run h).2 ∧ ∀ a, (m.run h).1 = .ok a → P a

/-- No claim about the result. -/
def anyR {α : Type} : α → Prop := fun _ => True

/-- The slice of a node that was read. -/
def tidyC (c : HNode) : Prop := TidyS c.out

namespace HTidy

variable {E : Ext} {grow : Nat → Nat → Nat} {fuel : Nat}

theorem read {f : Heap → Res α} {P : α → Prop} (h : ∀ x, TidyH x → ∀ a, f x = .ok a → P a) : HTidy (HM.read f) P := fun x hx => ⟨hx, h x hx⟩

theorem readAny {f : Heap → Res α} : HTidy (HM.read f) anyR := read fun _ _ _ _ => trivial

theorem pure {a : α} {P : α → Prop} (h : P a) : HTidy (Pure.pure a : HM α) P := read fun _ _ _ hx => by cases hx; exact h

theorem pureAny {a : α} : HTidy (Pure.pure a : HM α) anyR := pure trivial

theorem bind {m : HM α} {f : α → HM β} {P : α → Prop} {Q : β → Prop} (hm : HTidy m P) (hf : ∀ a, P a → HTidy (f a) Q) : HTidy (m >>= f) Q := by
  intro h hh
  show TidyH ((HM.bind m f).run h).2 ∧ ∀ a, ((HM.bind m f).run h).1 = .ok a → Q a
  unfold HM.bind
  dsimp only
  have hm := hm h hh
  rcases hr : m.run h with ⟨r, h'⟩
  rw [hr] at hm
  cases r with
  | ok a => exact hf a (hm.2 a rfl) h' hm.1
  | panic => exact ⟨hm.1, nofun⟩
  | oof => exact ⟨hm.1, nofun⟩

theorem ite {c : Prop} [Decidable c] {m n : HM α} {P : α → Prop} (hm : HTidy m P) (hn : HTidy n P) : HTidy (if c then m else n) P := by
  by_cases h : c
  · rw [if_pos h]; exact hm
  · rw [if_neg h]; exact hn

theorem alloc {v : HVal} : HTidy (HM.alloc v) anyR := by
  intro h hh
  refine ⟨fun c hc => ?_, fun _ _ => trivial⟩
  simp only [HM.alloc, List.mem_append, List.mem_singleton] at hc
  rcases hc with hc | rfl
  · exact hh c hc
  · exact fun _ => rfl

theorem load {p : Ptr} : HTidy (HM.load p) tidyC := by
  refine read fun h hh c hc => ?_
  cases p with
  | none => cases hc
  | some a =>
    simp only [Option.bind_some] at hc
    cases hx : h.nodes[a]? with
    | none => rw [hx] at hc; cases hc
    | some x =>
      rw [hx] at hc
      cases hc
      exact hh _ (List.mem_of_getElem? hx)

theorem update {p : Ptr} {f : HNode → HNode} (hf : ∀ c, tidyC c → tidyC (f c)) : HTidy (HM.update p f) anyR := by
  intro h hh
  cases p with
  | none => exact ⟨hh, nofun⟩
  | some a =>
    simp only [HM.update]
    cases hc : h.nodes[a]? with
    | none => exact ⟨hh, nofun⟩
    | some c =>
      refine ⟨fun d hd => ?_, fun _ _ => trivial⟩
      rcases List.mem_or_eq_of_mem_set hd with hd | rfl
      · exact hh d hd
      · exact hf c (hh c (List.mem_of_getElem? hc))

theorem putThis {p : Ptr} {v : HVal} : HTidy (HM.putThis p v) anyR := update fun _ hc => hc

theorem putOut {p : Ptr} {s : Slice} (hs : TidyS s) : HTidy (HM.putOut p s) anyR := update fun _ _ => hs

theorem nilSlice : TidyS {} := fun _ => rfl

theorem putIndex {s : Slice} {i : Nat} {p : Ptr} : HTidy (HM.putIndex s i p) anyR := by
  intro h hh
  refine ⟨?_, fun _ _ => trivial⟩
  unfold HM.putIndex
  dsimp only
  split
  · exact hh
  · split
    · exact hh
    · exact hh

theorem make {ps : List Ptr} {n : Nat} (hp : ps ≠ []) : HTidy (HM.make ps n) TidyS := by
  intro h hh
  refine ⟨hh, fun s hs => ?_⟩
  simp only [HM.make, Res.ok.injEq] at hs
  subst hs
  intro h0
  exact absurd (List.length_eq_zero_iff.1 h0) hp

theorem append {s : Slice} {ps : List Ptr} (hs : TidyS s) : HTidy (HM.append grow s ps) TidyS := by
  intro h hh
  unfold HM.append
  dsimp only
  split
  · exact ⟨hh, fun t ht => by cases ht; exact hs⟩
  · rename_i he
    have hp : ps ≠ [] := fun e => he (by rw [e]; rfl)
    split
    · split
      · exact ⟨hh, nofun⟩
      · refine ⟨hh, fun t ht => ?_⟩
        cases ht
        intro h0
        have := List.length_pos_iff.2 hp
        dsimp only at h0
        omega
    · exact make (fun e => hp (List.append_eq_nil_iff.1 e).2) h hh

theorem range {s : Slice} {f : Ptr → HM Unit} (hf : ∀ p, HTidy (f p) anyR) : ∀ k i, HTidy (HM.range s f k i) anyR
  | 0, _ => pureAny
  | k + 1, i => bind readAny fun p _ => bind (hf p) fun _ _ => range hf k (i + 1)

theorem search {s : Slice} {f : Ptr → HM (Option α)} (hf : ∀ p, HTidy (f p) anyR) : ∀ k i, HTidy (HM.search s f k i) anyR
  | 0, _ => pureAny
  | k + 1, i => by
    unfold HM.search
    refine bind readAny fun p _ => bind (hf p) fun r _ => ?_
    cases r with
    | none => exact search hf k (i + 1)
    | some a => exact pureAny

theorem string : ∀ (f : Nat) (v : HVal), HTidy (hstring E f v) anyR
  | _, .val v => by unfold hstring; exact pureAny
  | _, .ptr none => by unfold hstring; exact pureAny
  | 0, .ptr (some _) => by unfold hstring; exact readAny
  | f + 1, .ptr (some a) => by
    unfold hstring
    exact bind load fun c _ => ite pureAny (bind readAny fun n _ => bind load fun c _ => string f c.this)

theorem new {v : HVal} : HTidy (hNew v) anyR := bind alloc fun _ _ => pureAny

theorem addOne {g : Ptr} {a : Nat} : HTidy (do
    let c ← HM.load g
    let s ← HM.append grow c.out [some a]
    HM.putOut g s
    Pure.pure (some a)) anyR :=
  bind load fun _ hc => bind (append hc) fun _ hs => bind (putOut hs) fun _ _ => pureAny

theorem add {g : Ptr} {v : HVal} : HTidy (hAdd grow g v) anyR := by
  unfold hAdd
  split
  · exact pureAny
  · exact pureAny
  · exact addOne
  · exact bind alloc fun a _ => addOne

theorem addNodesVal {g : Ptr} {v : HVal} : HTidy (hAddNodesVal grow g v) anyR := by
  unfold hAddNodesVal
  split
  · exact pureAny
  · exact pureAny
  · exact bind load fun c hc => bind load fun x _ => bind readAny fun ps _ => bind (append hc) fun s hs => bind (putOut hs) fun _ _ => pureAny
  · exact bind alloc fun a _ => addOne

theorem addNodes {g g2 : Ptr} : HTidy (hAddNodes grow g g2) anyR := by
  unfold hAddNodes
  split
  · exact pureAny
  · exact pureAny
  · exact bind load fun c hc => bind load fun x _ => bind readAny fun ps _ => bind (append hc) fun s hs => bind (putOut hs) fun _ _ => pureAny

theorem copy : ∀ (f : Nat) (g c : Ptr), HTidy (hCopy grow f g c) anyR
  | 0, _, _ => by unfold hCopy; exact readAny
  | f + 1, g, c => by
    unfold hCopy
    split
    · exact pureAny
    · exact pureAny
    · exact bind load fun x _ => range (fun n => bind load fun y _ => bind add fun nn _ => copy f nn n) _ _

theorem clone : ∀ (f : Nat) (g : Ptr), HTidy (hClone grow f g) anyR
  | 0, _ => by unfold hClone; exact readAny
  | f + 1, g => by
    unfold hClone
    split
    · exact pureAny
    · exact bind alloc fun a _ => bind load fun x _ => bind putThis fun _ _ =>
        bind (range (fun n => bind (clone f n) fun m _ => bind load fun c hc => bind (append hc) fun s hs => putOut hs) _ _) fun _ _ => pureAny

theorem findNode {c : HNode} {s : Bytes} : HTidy (HM.search c.out (fun n => do
      let x ← HM.load n
      let t ← hstring E fuel x.this
      if s = t then Pure.pure (some n) else Pure.pure none) c.out.len 0) anyR :=
  search (fun n => bind load fun x _ => bind (string _ _) fun t _ => ite pureAny pureAny) _ _

theorem node {g : Ptr} {s : Bytes} : HTidy (hNode E fuel g s) anyR := by
  unfold hNode
  split
  · exact pureAny
  · exact bind load fun c _ => bind findNode fun r _ => pureAny

theorem nodeOrNew {g : Ptr} {s : Bytes} : HTidy (hNodeOrNew E grow fuel g s) anyR := by
  unfold hNodeOrNew
  split
  · exact pureAny
  · refine bind load fun c _ => bind findNode fun r _ => ?_
    cases r with
    | none => exact add
    | some p => exact pureAny

theorem clear {g : Ptr} : HTidy (hClear g) anyR := by
  unfold hClear
  split
  · exact pureAny
  · exact putOut nilSlice

theorem nodeSet {g : Ptr} {s : Bytes} {v : HVal} : HTidy (hNodeSet E grow fuel g s v) anyR := bind nodeOrNew fun _ _ => bind clear fun _ _ => add

theorem create {g : Ptr} {s : Bytes} : HTidy (hCreate E grow fuel g s) anyR := by
  refine bind node fun n _ => ?_
  split
  · exact add
  · exact bind clear fun _ _ => pureAny

theorem setIndex {g : Ptr} {i : Int} {v : HVal} : HTidy (hSetIndex g i v) anyR := by
  unfold hSetIndex
  have hlast : HTidy (do
      let n ← hNew v
      if i < 0 then HM.panic
      else do
        let c ← HM.load g
        HM.putIndex c.out i.toNat n
        Pure.pure n) anyR :=
    bind new fun n _ => ite readAny (bind load fun c _ => bind putIndex fun _ _ => pureAny)
  refine bind load fun c _ => ?_
  by_cases hi : (c.out.len : Int) ≤ i
  · rw [if_pos hi]
    by_cases hb : i ≥ 2 ^ 63 - 1
    · rw [if_pos hb]
      exact bind (readAny (f := fun _ => .panic)) fun _ _ => hlast
    · rw [if_neg hb]
      refine bind (P := fun ps : List Ptr => ps.length ≤ c.out.len) (read fun h _ a ha => ?_) fun ps hps => bind (make ?_) fun o ho => bind (putOut ho) fun _ _ => hlast
      · cases ha
        rw [List.length_take]
        exact Nat.min_le_left ..
      · intro e
        have e := congrArg List.length e
        rw [List.length_append, List.length_replicate, List.length_nil] at e
        omega
  · rw [if_neg hi]
    exact hlast

theorem setNew {v : HVal} : ∀ (ps : List HStep) (g : Ptr), HTidy (hSetNew grow v g ps) anyR
  | [], _ => pureAny
  | .index _ :: _, _ => bind setIndex fun _ _ => pureAny
  | .name _ :: ps, _ => bind add fun n _ => setNew ps n

theorem setWalk {v : HVal} : ∀ (ps : List HStep) (g : Ptr), HTidy (hSetWalk E grow fuel v g ps) anyR
  | [], _ => pureAny
  | .index _ :: _, _ => bind setIndex fun _ _ => pureAny
  | .name _ :: ps, g => by
    unfold hSetWalk
    refine bind node fun n _ => ?_
    split
    · exact setNew _ _
    · exact setWalk ps _

theorem set {g : Ptr} {ps : List HStep} {v : HVal} : HTidy (hSet E grow fuel g ps v) anyR := by
  unfold hSet
  split
  · exact pureAny
  · exact bind (setWalk ps _) fun r _ => ite pureAny (bind (putOut nilSlice) fun _ _ => addNodesVal)

theorem substitute {s : Bytes} {v : HVal} : ∀ (f : Nat) (g : Ptr), HTidy (hSubstitute E fuel s v f g) anyR
  | 0, _ => by unfold hSubstitute; exact readAny
  | f + 1, g => by
    unfold hSubstitute
    split
    · exact pureAny
    · exact bind load fun c _ => range (fun n => bind load fun x _ => bind (string _ _) fun t _ =>
        ite (bind putThis fun _ _ => substitute f n) (substitute f n)) _ _

theorem merge : ∀ (f : Nat) (g src : Ptr), HTidy (hMerge E grow fuel f g src) anyR
  | 0, _, _ => by unfold hMerge; exact readAny
  | f + 1, g, src => by
    unfold hMerge
    refine bind load fun x _ => range (fun nd => bind (string _ _) fun t _ => bind node fun n _ => ?_) _ _
    split
    · exact bind add fun _ _ => pureAny
    · exact bind (putOut nilSlice) fun _ _ => merge f _ _

theorem op {o : TOp} (hr : ¬ o.Removes) (regs : List Ptr) : HTidy (o.mem E grow fuel regs) anyR := by
  refine bind (P := anyR) ?_ fun _ _ => pureAny
  cases o with
  | new v => exact new
  | add i v => exact add
  | graft i j => exact add
  | addNodes i j => exact addNodes
  | clone i => exact clone _ _
  | copy i j => exact bind (copy _ _ _) fun _ _ => pureAny
  | nodeOrNew i s => exact nodeOrNew
  | nodeSet i s v => exact nodeSet
  | create i s => exact create
  | delete i v => exact absurd trivial hr
  | clear i => exact bind clear fun _ _ => pureAny
  | deleteAt i k => exact absurd trivial hr
  | set i es ss v => exact set
  | substitute i s v => exact bind (substitute _ _) fun _ _ => pureAny
  | merge i j => exact bind (merge _ _ _) fun _ _ => pureAny

theorem history : ∀ {ops : List TOp}, (∀ o ∈ ops, ¬ o.Removes) → ∀ regs : List Ptr, HTidy (memRun E grow fuel ops regs) anyR
  | [], _, _ => pureAny
  | _ :: _, h, regs => by
    unfold memRun
    exact bind (op (h _ (List.mem_cons_self ..)) regs) fun r _ => history (fun o ho => h o (List.mem_cons_of_mem _ ho)) r

end HTidy
end Ogdl
