import Verif.Lemmas.Event

/-!
# C13: event levels rebuild the tree
-/

namespace Ogdl
open Spec

/-- A call on an event handler. -/
inductive EvOp where
  | add (v : Val)
  | addAt (v : Val) (lv : Nat)
  | setLevel (l : Nat)
  | inc
  | dec
  | delete

/-- Perform one call. -/
def EvOp.run (e : Ev) : EvOp → Ev
  | .add v => e.add v
  | .addAt v lv => e.addAt v lv
  | .setLevel l => e.setLevel l
  | .inc => e.inc
  | .dec => e.dec
  | .delete => e.delete

/-- The state of a fresh handler after a history of calls. -/
def evRun (ops : List EvOp) : Ev := ops.foldl EvOp.run {}

namespace Spec

/-- The events a history of calls stands for, newest first, together with the
current level: `Add` records an item at the current level, `AddAt` at the given
one, `Delete` drops the newest. -/
def events : List EvOp → Nat × List (Nat × Val)
  | ops => ops.foldl (fun (cur, evs) op =>
      match op with
      | .add v => (cur, (cur, v) :: evs)
      | .addAt v lv => (cur, (lv, v) :: evs)
      | .setLevel l => (l, evs)
      | .inc => (cur + 1, evs)
      | .dec => (cur - 1, evs)
      | .delete => (cur, evs.tail)) (0, [])

end Spec

/-- The handler invariant: no recorded level and not the current one exceeds `max`. -/
theorem evRun_inv (ops : List EvOp) :
    (evRun ops).current ≤ (evRun ops).max ∧ ∀ it ∈ (evRun ops).items, it.1 ≤ (evRun ops).max := by
  suffices ∀ (ops : List EvOp) (e : Ev), (e.current ≤ e.max ∧ ∀ it ∈ e.items, it.1 ≤ e.max) →
      ((ops.foldl EvOp.run e).current ≤ (ops.foldl EvOp.run e).max ∧
        ∀ it ∈ (ops.foldl EvOp.run e).items, it.1 ≤ (ops.foldl EvOp.run e).max) from
    this ops {} ⟨Nat.le_refl _, by simp⟩
  intro ops
  induction ops with
  | nil => intro e h; exact h
  | cons op ops ih =>
    intro e h
    refine ih _ ?_
    cases op with
    | add v =>
      refine ⟨h.1, ?_⟩
      intro it hit
      simp only [EvOp.run, Ev.add, List.mem_append, List.mem_singleton] at hit
      rcases hit with hit | rfl
      · exact h.2 it hit
      · exact h.1
    | addAt v lv =>
      constructor
      · simp only [EvOp.run, Ev.addAt]; have := h.1; split <;> omega
      · intro it hit
        simp only [EvOp.run, Ev.addAt, List.mem_append, List.mem_singleton] at hit ⊢
        rcases hit with hit | rfl
        · have := h.2 it hit; split <;> omega
        · simp only; split <;> omega
    | setLevel l =>
      constructor
      · simp only [EvOp.run, Ev.setLevel]; split <;> omega
      · intro it hit
        have := h.2 it hit
        simp only [EvOp.run, Ev.setLevel]; split <;> omega
    | inc =>
      constructor
      · simp only [EvOp.run, Ev.inc]; split <;> omega
      · intro it hit
        have := h.2 it hit
        simp only [EvOp.run, Ev.inc]; split <;> omega
    | dec =>
      refine ⟨?_, h.2⟩
      have := h.1
      simp only [EvOp.run, Ev.dec]; omega
    | delete =>
      refine ⟨h.1, fun it hit => h.2 it ?_⟩
      exact (List.dropLast_sublist _).subset hit

/-- The handler records exactly the events the calls stand for. -/
theorem evRun_items (ops : List EvOp) : (evRun ops).items = (Spec.events ops).2.reverse := by
  suffices ∀ (ops : List EvOp) (e : Ev) (s : Nat × List (Nat × Val)),
      e.current = s.1 → e.items = s.2.reverse →
      (ops.foldl EvOp.run e).items = (ops.foldl (fun (cur, evs) op =>
      match op with
      | .add v => (cur, (cur, v) :: evs)
      | .addAt v lv => (cur, (lv, v) :: evs)
      | .setLevel l => (l, evs)
      | .inc => (cur + 1, evs)
      | .dec => (cur - 1, evs)
      | .delete => (cur, evs.tail)) s).2.reverse from
    this ops {} (0, []) rfl rfl
  intro ops
  induction ops with
  | nil => intro e s _ h; exact h
  | cons op ops ih =>
    intro e s h1 h2
    obtain ⟨c, l⟩ := s
    simp only at h1 h2
    rw [List.foldl_cons, List.foldl_cons]
    apply ih
    · cases op <;> simp [EvOp.run, Ev.add, Ev.addAt, Ev.setLevel, Ev.inc, Ev.dec, Ev.delete, h1]
    · cases op <;> simp [EvOp.run, Ev.add, Ev.addAt, Ev.setLevel, Ev.inc, Ev.dec, Ev.delete, h1, h2]

theorem steps_append {prev : Nat} : ∀ {a b : List (Nat × Val)}, Steps prev (a ++ b) →
    Steps prev a
  | [], _, _ => trivial
  | (_, _) :: a, b, h => ⟨h.1, steps_append (a := a) (b := b) h.2⟩

theorem steps_suffix : ∀ {a b : List (Nat × Val)} {prev : Nat}, Steps prev (a ++ b) →
    ∃ prev', Steps prev' b
  | [], _, prev, h => ⟨prev, h⟩
  | (_, _) :: a, b, _, h => steps_suffix (a := a) (b := b) h.2

/-- Every list of levels that starts at `d`, stays at `d` or deeper and grows by
at most one is the preorder of a forest. -/
theorem exists_forest : ∀ (n d : Nat) (items : List (Nat × Val)), items.length ≤ n →
    (∀ it ∈ items, d ≤ it.1) → (∀ it ∈ items.head?, it.1 = d) → (∃ prev, Steps prev items) →
    ∃ gs, NoNilL gs ∧ preorderL d gs = items
  | _, _, [], _, _, _, _ => ⟨[], trivial, rfl⟩
  | 0, _, _ :: _, hn, _, _, _ => by simp at hn
  | n + 1, d, (l, t) :: items, hn, hge, hhd, ⟨prev, hst⟩ => by
    have hl : l = d := hhd (l, t) (by simp)
    subst hl
    have hsplit : items = items.takeWhile (fun it => decide (l < it.1)) ++
        items.dropWhile (fun it => decide (l < it.1)) := (List.takeWhile_append_dropWhile).symm
    generalize hA : items.takeWhile (fun it => decide (l < it.1)) = A at hsplit
    generalize hB : items.dropWhile (fun it => decide (l < it.1)) = B at hsplit
    have hlenA : A.length ≤ n := by
      have := congrArg List.length hsplit; simp at this hn; omega
    have hlenB : B.length ≤ n := by
      have := congrArg List.length hsplit; simp at this hn; omega
    have hst' : Steps l items := hst.2
    have hAgt : ∀ it ∈ A, l < it.1 := by
      intro it hit
      rw [← hA] at hit
      have := List.all_takeWhile (p := fun it : Nat × Val => decide (l < it.1)) (l := items)
      rw [List.all_eq_true] at this
      simpa using this it hit
    obtain ⟨gsA, hnA, hpA⟩ := exists_forest n (l + 1) A hlenA hAgt
      (by
        intro it hit
        cases A with
        | nil => simp at hit
        | cons a A' =>
          simp only [List.head?_cons, Option.mem_def, Option.some.injEq] at hit
          subst hit
          have h1 := hAgt a (by simp)
          rw [hsplit] at hst'
          have h2 := hst'.1
          omega)
      ⟨l, by rw [hsplit] at hst'; exact steps_append hst'⟩
    obtain ⟨gsB, hnB, hpB⟩ := exists_forest n l B hlenB
      (fun it hit => hge it (by rw [hsplit]; simp [hit]))
      (by
        intro it hit
        have h1 : l ≤ it.1 := hge it (by
          rw [hsplit]; simp [List.mem_of_mem_head? hit])
        have h2 : ¬ l < it.1 := by
          rw [← hB] at hit
          have := List.head?_dropWhile_not (fun it : Nat × Val => decide (l < it.1)) items
          simp only [Option.mem_def] at hit
          rw [hit] at this
          simpa using this
        omega)
      (by rw [hsplit] at hst'; exact steps_suffix hst')
    refine ⟨.node t gsA :: gsB, ?_, ?_⟩
    · simp only [NoNilL, NoNil]; exact ⟨hnA, hnB⟩
    · simp only [preorderL, preorder, hpA, hpB, List.cons_append]
      rw [← hsplit]

/-- **C13.** After any history of calls whose recorded levels start at 0 and grow
by at most one at a time, `Tree` returns the unique ordered tree (under `_`) whose
preorder with depths is the recorded sequence. -/
theorem C13_tree_of_events (ops : List EvOp) (h : ValidLevels (Spec.events ops).2.reverse) :
    ∃ gs, NoNilL gs ∧ preorderL 0 gs = (Spec.events ops).2.reverse ∧
      (evRun ops).tree = .ok (.node (.str b!"_") gs) ∧
      ∀ gs', NoNilL gs' → preorderL 0 gs' = (Spec.events ops).2.reverse → gs' = gs := by
  have hinv := evRun_inv ops
  obtain ⟨gs, hn, hp⟩ := exists_forest _ 0 (Spec.events ops).2.reverse (Nat.le_refl _)
    (fun _ _ => Nat.zero_le _)
    (by
      intro it hit
      cases hl : (Spec.events ops).2.reverse with
      | nil => simp [hl] at hit
      | cons a l => rw [hl] at h hit; simp at hit; subst hit; exact h.1)
    (by
      cases hl : (Spec.events ops).2.reverse with
      | nil => exact ⟨0, trivial⟩
      | cons a l => rw [hl] at h; exact ⟨0, by simp [h.1], h.2⟩)
  have ht : ∀ gs', NoNilL gs' → preorderL 0 gs' = (Spec.events ops).2.reverse →
      (evRun ops).tree = .ok (.node (.str b!"_") gs') := fun gs' hn' hp' =>
    tree_of_preorder _ gs' hn' (by rw [hp', evRun_items]) hinv.2
  refine ⟨gs, hn, hp, ht gs hn hp, fun gs' hn' hp' => ?_⟩
  have h1 := ht gs hn hp
  rw [ht gs' hn' hp'] at h1
  simpa using h1

/-- A non-trivial history meets the hypothesis (levels 0 1 2 1 0). -/
example : ValidLevels (Spec.events [.add (.str b!"a"), .inc, .add (.str b!"b"),
    .addAt (.str b!"c") 2, .add (.str b!"d"), .dec, .add (.str b!"e")]).2.reverse := by
  simp [Spec.events, ValidLevels, Steps]

/-- Levels that jump by two lose the node: the hypothesis of C13 is needed. -/
theorem C13_jump_loses_node :
    (evRun [.addAt (.str b!"a") 0, .addAt (.str b!"b") 2]).tree =
      .ok (.node (.str b!"_") [.node (.str b!"a") []]) := by
  rfl

end Ogdl
