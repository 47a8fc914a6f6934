import Verif.Lemmas.LiveRun
import Verif.Lemmas.Conc
import Verif.Model.ConcTemplate

/-!
# Goroutines that share memory

Each node belongs to one goroutine, or to none and is shared.  A goroutine changes its own
nodes only, and looks at those and at the shared ones.
-/

namespace Ogdl
open Spec HM

/-- Memory, and whom its nodes belong to. -/
structure World where
  heap : Heap
  own : Nat → Option Nat

namespace World

/-- How many nodes there are. -/
def size (w : World) : Nat := w.heap.nodes.length

/-- What goroutine `i` may look at: its own nodes and the shared ones. -/
def sees (w : World) (i : Nat) : Nat → Prop := fun b => b < w.size → w.own b = some i ∨ w.own b = none

/-- After a step of goroutine `i`: new nodes are its own. -/
def next (w : World) (i : Nat) (h : Heap) : World := ⟨h, fun b => if b < w.size then w.own b else some i⟩

end World

/-- Of what goroutine `i` looks at only nodes in `F` are changed. -/
structure Keep (i : Nat) (F : List Nat) (w w' : World) : Prop where
  solid : Solid w'.heap
  le : w.size ≤ w'.size
  own : ∀ b, b < w.size → w'.own b = w.own b
  keep : ∀ b, b < w.size → w.sees i b → b ∉ F → w'.heap.nodes[b]? = w.heap.nodes[b]? ∧ look w'.heap b = look w.heap b

/-- A step of goroutine `i` as others see it. -/
structure Acts (i : Nat) (w w' : World) : Prop where
  solid : Solid w'.heap
  le : w.size ≤ w'.size
  own : ∀ b, b < w.size → w'.own b = w.own b
  keep : ∀ b, b < w.size → w.own b ≠ some i → w'.heap.nodes[b]? = w.heap.nodes[b]? ∧ look w'.heap b = look w.heap b

namespace Keep

variable {i : Nat} {F F' : List Nat} {w w1 w2 : World}

theorem sees (k : Keep i F w w1) {b : Nat} (hb : b < w.size) (hs : w.sees i b) : w1.sees i b := fun _ => by rw [k.own b hb]; exact hs hb

theorem refl (hs : Solid w.heap) : Keep i F w w := ⟨hs, Nat.le_refl _, fun _ _ => rfl, fun _ _ _ _ => ⟨rfl, rfl⟩⟩

theorem trans (k : Keep i F w w1) (k' : Keep i F' w1 w2) (hw : ∀ b ∈ F', b ∈ F ∨ w.size ≤ b) : Keep i F w w2 := by
  refine ⟨k'.solid, Nat.le_trans k.le k'.le, fun b hb => (k'.own b (Nat.lt_of_lt_of_le hb k.le)).trans (k.own b hb), fun b hb hs hF => ?_⟩
  have hF' : b ∉ F' := fun hx => by
    rcases hw b hx with hx | hx
    · exact hF hx
    · omega
  obtain ⟨h1, h2⟩ := k.keep b hb hs hF
  obtain ⟨h3, h4⟩ := k'.keep b (Nat.lt_of_lt_of_le hb k.le) (k.sees hb hs) hF'
  exact ⟨h3.trans h1, h4.trans h2⟩

theorem mono (k : Keep i F w w1) (hF : ∀ b ∈ F, b ∈ F') : Keep i F' w w1 := ⟨k.solid, k.le, k.own, fun b hb hs hx => k.keep b hb hs fun h => hx (hF b h)⟩

end Keep

theorem Acts.keep' {i j : Nat} {w w' : World} (a : Acts i w w') (hij : i ≠ j) : Keep j [] w w' :=
  ⟨a.solid, a.le, a.own, fun b hb hs _ => a.keep b hb fun e => by
    rcases hs hb with h | h
    · rw [h] at e; exact hij (Option.some.inj e).symm
    · rw [h] at e; cases e⟩

theorem next_keep {i : Nat} {F : List Nat} {w : World} {h : Heap} (t : Turns F w.heap h) : Keep i F w (w.next i h) :=
  ⟨t.solid, t.le, fun b hb => by unfold World.next; dsimp only; rw [if_pos hb], fun b hb _ hF => t.keep b hb hF⟩

theorem next_acts {i : Nat} {F : List Nat} {w : World} {h : Heap} (t : Turns F w.heap h) (hF : ∀ b ∈ F, b < w.size → w.own b = some i) : Acts i w (w.next i h) :=
  ⟨t.solid, t.le, fun b hb => by unfold World.next; dsimp only; rw [if_pos hb], fun b hb ho => t.keep b hb fun hx => ho (hF b hx hb)⟩

theorem next_sees {i : Nat} {w : World} {h : Heap} {b : Nat} (hs : w.sees i b) : (w.next i h).sees i b := fun _ => by
  unfold World.next
  dsimp only
  by_cases hb : b < w.size
  · rw [if_pos hb]; exact hs hb
  · rw [if_neg hb]; exact .inl rfl

/-! ## Goroutines with enough fuel -/

/-- With enough fuel the goroutine returns with `R` after some steps that others do not
notice, whatever the others do in between. -/
inductive Bears {α : Type} (i : Nat) (R : α → World → Prop) : World → (Nat → Thread Heap α) → Prop
  | done {w : World} {τ : Nat → Thread Heap α} (a : α) (N : Nat) : (∀ n, N ≤ n → τ n = .done a) → R a w → Bears i R w τ
  | steps {w : World} {τ : Nat → Thread Heap α} (N : World → Nat) (nx : World → World) (tx : World → Nat → Thread Heap α) :
      (∀ w', Keep i [] w w' → ∀ n, N w' ≤ n → ∃ u x, τ n = .step u x ∧ u w'.heap = (nx w').heap ∧ x w'.heap = tx w' n) →
      (∀ w', Keep i [] w w' → Acts i w' (nx w')) → (∀ w', Keep i [] w w' → Bears i R (nx w') (tx w')) → Bears i R w τ

namespace Bears

variable {α β : Type} {i : Nat} {R : α → World → Prop}

theorem step {w : World} {τ : Nat → Thread Heap α} (h : ∀ w', Keep i [] w w' → ∃ (N : Nat) (w'' : World) (τ' : Nat → Thread Heap α),
    (∀ n, N ≤ n → ∃ u x, τ n = .step u x ∧ u w'.heap = w''.heap ∧ x w'.heap = τ' n) ∧ Acts i w' w'' ∧ Bears i R w'' τ') : Bears i R w τ := by
  have h' : ∀ w', ∃ (N : Nat) (w'' : World) (τ' : Nat → Thread Heap α), Keep i [] w w' →
      (∀ n, N ≤ n → ∃ u x, τ n = .step u x ∧ u w'.heap = w''.heap ∧ x w'.heap = τ' n) ∧ Acts i w' w'' ∧ Bears i R w'' τ' := fun w' => by
    by_cases hk : Keep i [] w w'
    · obtain ⟨N, w'', τ', h1⟩ := h w' hk
      exact ⟨N, w'', τ', fun _ => h1⟩
    · exact ⟨0, w, τ, fun hk' => absurd hk' hk⟩
  exact .steps (fun w' => (h' w').choose) (fun w' => (h' w').choose_spec.choose) (fun w' => (h' w').choose_spec.choose_spec.choose)
    (fun w' hk => ((h' w').choose_spec.choose_spec.choose_spec hk).1) (fun w' hk => ((h' w').choose_spec.choose_spec.choose_spec hk).2.1)
    (fun w' hk => ((h' w').choose_spec.choose_spec.choose_spec hk).2.2)

/-- With enough fuel the goroutine is the other one. -/
theorem same {w : World} {τ τ' : Nat → Thread Heap α} (h : Bears i R w τ) {N : Nat} (e : ∀ n, N ≤ n → τ' n = τ n) : Bears i R w τ' := by
  cases h with
  | done a N' h1 h2 => exact .done a (max N N') (fun n hn => by rw [e n (by omega)]; exact h1 n (by omega)) h2
  | steps N' nx tx h1 h2 h3 => exact .steps (fun w' => max N (N' w')) nx tx (fun w' hk n hn => by rw [e n (by omega)]; exact h1 w' hk n (by omega)) h2 h3

theorem bind {R' : β → World → Prop} {f : Nat → α → Thread Heap β} {w : World} {τ : Nat → Thread Heap α} (h : Bears i R w τ)
    (hf : ∀ a w', R a w' → Bears i R' w' fun n => f n a) : Bears i R' w fun n => (τ n).bind (f n) := by
  induction h with
  | done a N h1 h2 => exact (hf a _ h2).same (N := N) fun n hn => by rw [h1 n hn]; rfl
  | steps N nx tx h1 h2 h3 ih =>
    refine .steps N nx (fun w' n => (tx w' n).bind (f n)) (fun w' hk n hn => ?_) h2 ih
    obtain ⟨u, x, e1, e2, e3⟩ := h1 w' hk n hn
    exact ⟨u, fun s => (x s).bind (f n), by rw [e1]; rfl, e2, by dsimp only; rw [e3]⟩

theorem mono {R' : α → World → Prop} (hR : ∀ a w, R a w → R' a w) {w : World} {τ : Nat → Thread Heap α} (h : Bears i R w τ) : Bears i R' w τ := by
  induction h with
  | done a N h1 h2 => exact .done a N h1 (hR _ _ h2)
  | steps N nx tx h1 h2 h3 ih => exact .steps N nx tx h1 h2 ih

/-- Others make steps. -/
theorem wait {w w1 : World} {τ : Nat → Thread Heap α} (h : Bears i R w τ) (hw : Keep i [] w w1) (hR : ∀ a, R a w → R a w1) : Bears i R w1 τ := by
  cases h with
  | done a N h1 h2 => exact .done a N h1 (hR a h2)
  | steps N nx tx h1 h2 h3 =>
    exact .steps N nx tx (fun w' hk => h1 w' (hw.trans hk nofun)) (fun w' hk => h2 w' (hw.trans hk nofun)) fun w' hk => h3 w' (hw.trans hk nofun)

end Bears

/-- All goroutines run as described. -/
def AllBear {α : Type} (R : Nat → α → Prop) (w : World) (τs : List (Nat → Thread Heap α)) : Prop :=
  ∀ i τ, τs[i]? = some τ → Bears i (fun a _ => R i a) w τ

/-- Several goroutines under a schedule. -/
theorem joint_run {α : Type} {R : Nat → α → Prop} : ∀ (sched : List Nat) (w : World) (τs : List (Nat → Thread Heap α)), Solid w.heap → AllBear R w τs →
    ∃ (N : Nat) (w' : World) (τs' : List (Nat → Thread Heap α)), (∀ n, N ≤ n → runSched sched w.heap (τs.map (· n)) = (w'.heap, τs'.map (· n))) ∧ Solid w'.heap ∧
      (∀ b, b < w.size → w.own b = none → look w'.heap b = look w.heap b) ∧ AllBear R w' τs' ∧ ∀ i, i ∉ sched → τs'[i]? = τs[i]? ∧ Keep i [] w w'
  | [], w, τs, hs, h => ⟨0, w, τs, fun _ _ => rfl, hs, fun _ _ _ => rfl, h, fun _ _ => ⟨rfl, .refl hs⟩⟩
  | i :: is, w, τs, hs, h => by
    cases ht : τs[i]? with
    | none =>
      obtain ⟨N, w', τs', h1, h2, h3, h4, h5⟩ := joint_run is w τs hs h
      refine ⟨N, w', τs', fun n hn => ?_, h2, h3, h4, fun j hj => h5 j fun hm => hj (List.mem_cons_of_mem _ hm)⟩
      rw [← h1 n hn]
      unfold runSched
      rw [List.getElem?_map, ht]
      cases is <;> rfl
    | some τ =>
      cases h i τ ht with
      | done a N0 h1 h2 =>
        obtain ⟨N, w', τs', h3, h4, h5, h6, h7⟩ := joint_run is w τs hs h
        refine ⟨max N0 N, w', τs', fun n hn => ?_, h4, h5, h6, fun j hj => h7 j fun hm => hj (List.mem_cons_of_mem _ hm)⟩
        rw [← h3 n (by omega)]
        rw [runSched.eq_def]
        simp only [List.getElem?_map, ht, Option.map_some, h1 n (by omega)]
      | steps N0 nx tx h1 h2 h3 =>
        have kr := Keep.refl (i := i) (F := []) hs
        have ha := h2 w kr
        have hnext : AllBear R (nx w) (τs.set i (tx w)) := by
          intro j σ hj
          by_cases hij : i = j
          · subst hij
            rw [List.getElem?_set_self (List.getElem?_eq_some_iff.1 ht).1] at hj
            cases hj
            exact h3 w kr
          · rw [List.getElem?_set_ne hij] at hj
            exact (h j σ hj).wait (ha.keep' hij) fun _ h => h
        obtain ⟨N, w', τs', h3, h4, h5, h6, h7⟩ := joint_run is (nx w) (τs.set i (tx w)) ha.solid hnext
        refine ⟨max (N0 w) N, w', τs', fun n hn => ?_, h4, fun b hb ho => ?_, h6, fun j hj => ?_⟩
        · rw [← h3 n (by omega)]
          obtain ⟨u, x, e1, e2, e3⟩ := h1 w kr n (by omega)
          rw [runSched.eq_def]
          simp only [List.getElem?_map, ht, Option.map_some, e1, e2, e3, List.map_set]
        · rw [h5 b (Nat.lt_of_lt_of_le hb ha.le) ((ha.own b hb).trans ho), (ha.keep b hb (by rw [ho]; nofun)).2]
        · have hij : i ≠ j := fun e => hj (by simp [e])
          obtain ⟨h8, h9⟩ := h7 j fun hm => hj (List.mem_cons_of_mem _ hm)
          exact ⟨h8.trans (List.getElem?_set_ne hij), (ha.keep' hij).trans h9 nofun⟩

theorem bears_done {α : Type} {i : Nat} {R : α → Prop} {w : World} {τ : Nat → Thread Heap α} (hs : Solid w.heap) (h : Bears i (fun a _ => R a) w τ) :
    ∃ N, ∀ n, N ≤ n → ∀ a, τ n = .done a → R a := by
  cases h with
  | done a N h1 h2 =>
    refine ⟨N, fun n hn b e => ?_⟩
    rw [h1 n hn] at e
    cases e
    exact h2
  | steps N nx tx h1 =>
    refine ⟨N w, fun n hn b e => ?_⟩
    obtain ⟨u, x, e1, _⟩ := h1 w (.refl hs) n hn
    rw [e1] at e
    cases e

/-- The first place where `i` is next. -/
theorem first_turn (s : Nat → Nat) (i : Nat) : ∀ m, s m = i → ∃ k, s k = i ∧ i ∉ (List.range k).map s
  | m, hm => by
    induction m using Nat.strongRecOn with
    | _ m ih =>
      by_cases h : i ∈ (List.range m).map s
      · obtain ⟨k, hk, e⟩ := List.mem_map.1 h
        exact ih k (by simpa using hk) e
      · exact ⟨m, hm, h⟩

theorem runSched_append {σ α : Type} : ∀ (xs ys : List Nat) (s : σ) (ts : List (Thread σ α)), runSched (xs ++ ys) s ts = runSched ys (runSched xs s ts).1 (runSched xs s ts).2
  | [], _, _, _ => rfl
  | x :: xs, ys, s, ts => by
    rw [List.cons_append, runSched.eq_def, runSched.eq_def (x :: xs)]
    dsimp only
    split
    · exact runSched_append xs ys _ _
    · exact runSched_append xs ys _ _

/-- A goroutine that is always scheduled again returns, whatever the others do. -/
theorem joint_ends {α : Type} {R : Nat → α → Prop} {i : Nat} {w0 : World} {τ : Nat → Thread Heap α} (hb : Bears i (fun a _ => R i a) w0 τ) :
    ∀ (s : Nat → Nat) (w : World) (τs : List (Nat → Thread Heap α)), (∀ m, ∃ k, m ≤ k ∧ s k = i) → Keep i [] w0 w → AllBear R w τs → τs[i]? = some τ →
      ∃ m N a, R i a ∧ ∀ n, N ≤ n → (runSched ((List.range m).map s) w.heap (τs.map (· n))).2[i]? = some (.done a) := by
  induction hb with
  | done a N h1 h2 =>
    intro s w τs _ _ _ ht
    exact ⟨0, N, a, h2, fun n hn => by simp [runSched, ht, h1 n hn]⟩
  | @steps w0 τ N nx tx h1 h2 h3 ih =>
    intro s w τs hs hk hall ht
    obtain ⟨m0, _, hm0⟩ := hs 0
    obtain ⟨k, hk1, hk2⟩ := first_turn s i m0 hm0
    obtain ⟨N1, w1, τs1, hr1, hs1, _, hall1, hno⟩ := joint_run ((List.range k).map s) w τs hk.solid hall
    obtain ⟨hsame, hkeep⟩ := hno i hk2
    have hk1w := hk.trans hkeep (F := []) nofun
    have ht1 : τs1[i]? = some τ := hsame.trans ht
    have ha := h2 w1 hk1w
    have hall2 : AllBear R (nx w1) (τs1.set i (tx w1)) := by
      intro j σ hj
      by_cases hij : i = j
      · subst hij
        rw [List.getElem?_set_self (List.getElem?_eq_some_iff.1 ht1).1] at hj
        cases hj
        exact h3 w1 hk1w
      · rw [List.getElem?_set_ne hij] at hj
        exact (hall1 j σ hj).wait (ha.keep' hij) fun _ h => h
    obtain ⟨m, N2, a, hR, hr2⟩ := ih w1 hk1w (fun x => s (k + 1 + x)) (nx w1) (τs1.set i (tx w1)) (fun m => by
      obtain ⟨x, hx, e⟩ := hs (k + 1 + m)
      exact ⟨x - (k + 1), by omega, by rw [← e]; congr 1; omega⟩) (.refl ha.solid) hall2 (List.getElem?_set_self (List.getElem?_eq_some_iff.1 ht1).1)
    refine ⟨k + 1 + m, max (max (N w1) N1) N2, a, hR, fun n hn => ?_⟩
    have e : (List.range (k + 1 + m)).map s = (List.range k).map s ++ i :: (List.range m).map fun x => s (k + 1 + x) := by
      rw [List.range_add, List.map_append, List.range_succ, List.map_append, List.append_assoc, List.map_map]
      simp [hk1, Function.comp_def]
    obtain ⟨u, x, e1, e2, e3⟩ := h1 w1 hk1w n (by omega)
    rw [e, runSched_append, hr1 n (by omega), ← hr2 n (by omega)]
    dsimp only
    rw [runSched.eq_def]
    simp only [List.getElem?_map, ht1, Option.map_some, e1, e2, e3, List.map_set]

end Ogdl
