import Verif.Lemmas.RefineRun

/-!
# More fuel does not change a result in memory
-/

namespace Ogdl
open Spec HM

variable {E : Ext} {grow : Nat → Nat → Nat}

/-- Where the first computation does not run out of fuel, the second one does the same. -/
def Steady (m m' : HM α) : Prop := ∀ h, (m.run h).1 ≠ .oof → m'.run h = m.run h

namespace Steady

theorem refl (m : HM α) : Steady m m := fun _ _ => rfl

theorem oof (m : HM α) : Steady HM.oof m := fun _ hne => absurd rfl hne

theorem bind {m m' : HM α} {f f' : α → HM β} (hm : Steady m m') (hf : ∀ a, Steady (f a) (f' a)) : Steady (m >>= f) (m' >>= f') := by
  intro h hne
  have hm' := hm h
  revert hne
  show ((HM.bind m f).run h).1 ≠ _ → (HM.bind m' f').run h = (HM.bind m f).run h
  unfold HM.bind
  dsimp only
  rcases hr : m.run h with ⟨a | _ | _, h'⟩
  · intro hne
    rw [hm' (by rw [hr]; nofun), hr]
    exact hf a h' hne
  · intro hne
    rw [hm' (by rw [hr]; nofun), hr]
  · intro hne
    exact absurd rfl hne

theorem range {s : Slice} {f f' : Ptr → HM Unit} (hf : ∀ p, Steady (f p) (f' p)) : ∀ k i, Steady (HM.range s f k i) (HM.range s f' k i)
  | 0, _ => .refl _
  | k + 1, i => by
    unfold HM.range
    exact .bind (.refl _) fun p => .bind (hf p) fun _ => range hf k (i + 1)

theorem search {s : Slice} {f f' : Ptr → HM (Option α)} (hf : ∀ p, Steady (f p) (f' p)) : ∀ k i, Steady (HM.search s f k i) (HM.search s f' k i)
  | 0, _ => .refl _
  | k + 1, i => by
    unfold HM.search
    refine .bind (.refl _) fun p => .bind (hf p) fun r => ?_
    cases r with
    | some a => exact .refl _
    | none => exact search hf k (i + 1)

theorem ite {c : Prop} [Decidable c] {m m' n n' : HM α} (h1 : Steady m n) (h2 : Steady m' n') : Steady (if c then m else m') (if c then n else n') := by
  by_cases hc : c <;> simp only [hc, ↓reduceIte] <;> assumption

theorem string : ∀ {n k : Nat} (_ : n ≤ k) (x : HVal), Steady (hstring E n x) (hstring E k x)
  | n, k, _, .val v => by
    cases n <;> cases k <;> (simp only [hstring]; exact .refl _)
  | n, k, _, .ptr none => by
    cases n <;> cases k <;> (simp only [hstring]; exact .refl _)
  | 0, k, _, .ptr (some a) => by
    show Steady HM.oof _
    exact .oof _
  | n + 1, 0, hk, .ptr (some a) => by omega
  | n + 1, k + 1, hk, .ptr (some a) => by
    simp only [hstring]
    refine .bind (.refl _) fun c => .ite (.refl _) (.bind (.refl _) fun p => .bind (.refl _) fun c => string (by omega) c.this)

theorem copy : ∀ {n k : Nat} (_ : n ≤ k) (g c : Ptr), Steady (hCopy grow n g c) (hCopy grow k g c)
  | 0, k, _, g, c => by
    show Steady HM.oof _
    exact .oof _
  | n + 1, 0, hk, _, _ => by omega
  | n + 1, k + 1, hk, g, c => by
    unfold hCopy
    cases g with
    | none => exact .refl _
    | some a =>
      cases c with
      | none => exact .refl _
      | some b => exact .bind (.refl _) fun x => .range (fun p => .bind (.refl _) fun y => .bind (.refl _) fun nn => copy (by omega) nn p) _ _

theorem clone : ∀ {n k : Nat} (_ : n ≤ k) (g : Ptr), Steady (hClone grow n g) (hClone grow k g)
  | 0, k, _, g => by
    show Steady HM.oof _
    exact .oof _
  | n + 1, 0, hk, _ => by omega
  | n + 1, k + 1, hk, g => by
    unfold hClone
    cases g with
    | none => exact .refl _
    | some a =>
      exact .bind (.refl _) fun b => .bind (.refl _) fun x => .bind (.refl _) fun _ =>
        .bind (.range (fun p => .bind (clone (by omega) p) fun _ => .refl _) _ _) fun _ => .refl _

variable {n k : Nat}

theorem node (hk : n ≤ k) (g : Ptr) (s : Bytes) : Steady (hNode E n g s) (hNode E k g s) := by
  unfold hNode
  cases g with
  | none => exact .refl _
  | some a => exact .bind (.refl _) fun c => .bind (.search (fun p => .bind (.refl _) fun x => .bind (string hk _) fun t => .refl _) _ _) fun _ => .refl _

theorem nodeOrNew (hk : n ≤ k) (g : Ptr) (s : Bytes) : Steady (hNodeOrNew E grow n g s) (hNodeOrNew E grow k g s) := by
  unfold hNodeOrNew
  cases g with
  | none => exact .refl _
  | some a => exact .bind (.refl _) fun c => .bind (.search (fun p => .bind (.refl _) fun x => .bind (string hk _) fun t => .refl _) _ _) fun _ => .refl _

theorem nodeSet (hk : n ≤ k) (g : Ptr) (s : Bytes) (v : HVal) : Steady (hNodeSet E grow n g s v) (hNodeSet E grow k g s v) := by
  unfold hNodeSet
  exact .bind (nodeOrNew hk g s) fun _ => .refl _

theorem create (hk : n ≤ k) (g : Ptr) (s : Bytes) : Steady (hCreate E grow n g s) (hCreate E grow k g s) := by
  unfold hCreate
  exact .bind (node hk g s) fun _ => .refl _

theorem setWalk (hk : n ≤ k) (v : HVal) : ∀ (ss : List HStep) (g : Ptr), Steady (hSetWalk E grow n v g ss) (hSetWalk E grow k v g ss)
  | [], g => by simp only [hSetWalk]; exact .refl _
  | .index i :: _, g => by simp only [hSetWalk]; exact .refl _
  | .name w :: ss, g => by
    simp only [hSetWalk]
    refine .bind (node hk _ _) fun p => ?_
    cases p with
    | none => exact .refl _
    | some a => exact setWalk hk v ss (some a)

theorem set (hk : n ≤ k) (g : Ptr) (ss : List HStep) (v : HVal) : Steady (hSet E grow n g ss v) (hSet E grow k g ss v) := by
  unfold hSet
  cases g with
  | none => exact .refl _
  | some a => exact .bind (setWalk hk v ss _) fun _ => .refl _

theorem substitute (hk : n ≤ k) (s : Bytes) (v : HVal) : ∀ {f l : Nat} (_ : f ≤ l) (g : Ptr), Steady (hSubstitute E n s v f g) (hSubstitute E k s v l g)
  | 0, l, _, g => by
    show Steady HM.oof _
    exact .oof _
  | f + 1, 0, hl, _ => by omega
  | f + 1, l + 1, hl, g => by
    unfold hSubstitute
    cases g with
    | none => exact .refl _
    | some a =>
      refine .bind (.refl _) fun c => .range (fun p => .bind (.refl _) fun x => .bind (string hk _) fun t => ?_) _ _
      refine .ite (.bind (.refl _) fun _ => substitute hk s v (by omega) p) (substitute hk s v (by omega) p)

theorem merge (hk : n ≤ k) : ∀ {f l : Nat} (_ : f ≤ l) (g src : Ptr), Steady (hMerge E grow n f g src) (hMerge E grow k l g src)
  | 0, l, _, g, _ => by
    show Steady HM.oof _
    exact .oof _
  | f + 1, 0, hl, _, _ => by omega
  | f + 1, l + 1, hl, g, src => by
    unfold hMerge
    refine .bind (.refl _) fun x => .range (fun p => .bind (string hk _) fun t => .bind (node hk _ _) fun q => ?_) _ _
    cases q with
    | none => exact .refl _
    | some a => exact .bind (.refl _) fun _ => merge hk (by omega) _ _

theorem exec (hk : n ≤ k) (regs : List Ptr) (op : HOp) : Steady (op.exec E grow n regs) (op.exec E grow k regs) := by
  cases op with
  | copy g c => exact .bind (copy hk _ _) fun _ => .refl _
  | clone g => exact clone hk _
  | node g s => exact node hk _ _
  | nodeOrNew g s => exact nodeOrNew hk _ _
  | nodeSet g s v => exact nodeSet hk _ _ _
  | create g s => exact create hk _ _
  | set g path v => exact set hk _ _ _
  | substitute g s v => exact .bind (substitute hk _ _ hk _) fun _ => .refl _
  | merge g src => exact .bind (merge hk hk _ _) fun _ => .refl _
  | _ => exact .refl _

theorem mem (hk : n ≤ k) (regs : List Ptr) (op : TOp) : Steady (op.mem E grow n regs) (op.mem E grow k regs) := by
  unfold TOp.mem
  exact .bind (exec hk regs _) fun _ => .refl _

end Steady

/-- From a result for each fuel to one result. -/
theorem Gives.steady {m : Nat → HM α} (hm : ∀ n k, n ≤ k → Steady (m n) (m k)) {h : Heap} {r : Res β} {Q : α → β → Heap → Prop} {N : Nat}
    (hg : Gives (m N) h r Q) :
    match r with
    | .ok b => ∃ a h', (∀ n, N ≤ n → (m n).run h = (.ok a, h')) ∧ Q a b h'
    | .panic => ∃ h', ∀ n, N ≤ n → (m n).run h = (.panic, h')
    | .oof => True := by
  cases r with
  | ok b =>
    obtain ⟨a, h', hr, hq⟩ := hg
    exact ⟨a, h', fun n hn => by rw [hm N n hn h (by rw [hr]; nofun), hr], hq⟩
  | panic =>
    obtain ⟨h', hr⟩ := hg
    exact ⟨h', fun n hn => by rw [hm N n hn h (by rw [hr]; nofun), hr]⟩
  | oof => trivial

end Ogdl
