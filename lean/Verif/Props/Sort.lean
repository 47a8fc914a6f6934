import Verif.Model.Sort
import Verif.Props.Get

/-!
# Sorting (C30)

`S` is any implementation of the standard library's `sort.Sort`.
-/

namespace Ogdl
open Spec

theorem strLess_iff : ∀ a b : Bytes, strLess a b = true ↔ a < b
  | [], [] => by simp [strLess]
  | a :: as, [] => by simp [strLess]
  | [], b :: bs => by simp [strLess]
  | a :: as, b :: bs => by
    have ih := strLess_iff as bs
    rw [List.cons_lt_cons_iff, strLess]
    by_cases h : a < b
    · simp [h]
    · by_cases h2 : b < a
      · have : a ≠ b := fun e => by subst e; exact h h2
        simp [h, h2, this]
      · have : a = b := UInt8.le_antisymm (UInt8.not_lt.1 h2) (UInt8.not_lt.1 h)
        simp [this, ih]

theorem strLess_false (a b : Bytes) : strLess a b = false ↔ b ≤ a := by
  rw [← List.not_lt, ← strLess_iff, Bool.not_eq_true]

theorem withKeys_spec {κ : Type} {key : Graph → Res κ} : ∀ {o : List Graph} {r : List (Graph × κ)}, withKeys key o = .ok r →
    r.map (·.1) = o ∧ ∀ p ∈ r, key p.1 = .ok p.2
  | [], r, h => by cases h; simp
  | n :: ns, r, h => by
    rw [withKeys] at h
    cases hk : key n with
    | ok k =>
      cases hr : withKeys key ns with
      | ok rs =>
        rw [hk, hr] at h
        cases h
        obtain ⟨h1, h2⟩ := withKeys_spec hr
        refine ⟨by simp [h1], fun p hp => ?_⟩
        rcases List.mem_cons.1 hp with rfl | hp
        · exact hk
        · exact h2 p hp
      | panic => rw [hk, hr] at h; cases h
      | oof => rw [hk, hr] at h; cases h
    | panic => rw [hk] at h; cases h
    | oof => rw [hk] at h; cases h

theorem withKeys_ok {κ : Type} {key : Graph → Res κ} : ∀ {o : List Graph}, (∀ n ∈ o, ∃ k, key n = .ok k) → ∃ r, withKeys key o = .ok r
  | [], _ => ⟨[], rfl⟩
  | n :: ns, h => by
    obtain ⟨k, hk⟩ := h n (by simp)
    obtain ⟨r, hr⟩ := withKeys_ok (o := ns) fun m hm => h m (by simp [hm])
    exact ⟨(n, k) :: r, by simp [withKeys, hk, hr]⟩

/-- The nodes `o'` are the nodes `o` reordered, each with a key, the keys not decreasing. -/
def Ordered {κ : Type} [LE κ] (key : Graph → Res κ) (o o' : List Graph) : Prop :=
  o'.Perm o ∧ (2 ≤ o.length → ∀ n ∈ o', ∃ k, key n = .ok k) ∧
  o'.Pairwise (fun a b => ∀ x y, key a = .ok x → key b = .ok y → x ≤ y)

theorem sortNodes_spec {κ : Type} [LE κ] {S : Sorter} (hS : S.Correct) {key : Graph → Res κ} {less : κ → κ → Bool}
    (hle : ∀ a b, less b a = false ↔ a ≤ b) (htot : ∀ a b : κ, a ≤ b ∨ b ≤ a) (htr : ∀ a b c : κ, a ≤ b → b ≤ c → a ≤ c)
    {o o' : List Graph} (h : sortNodes S key less o = .ok o') : Ordered key o o' := by
  unfold sortNodes at h
  split at h
  next hl =>
    cases h
    refine ⟨.refl _, fun h => by omega, ?_⟩
    match o, hl with
    | [], _ => exact .nil
    | [a], _ => simp
  next hl =>
    cases hk : withKeys key o with
    | ok ks =>
      rw [hk] at h
      simp only [Res.ok_bind, Res.ok.injEq] at h
      subst h
      obtain ⟨h1, h2⟩ := withKeys_spec hk
      obtain ⟨p1, p2⟩ := hS (Graph × κ) (fun a b => less a.2 b.2) ks
        (fun a b hab => by
          rw [hle]
          rcases htot a.2 b.2 with h | h
          · exact h
          · rw [(hle _ _).2 h] at hab; cases hab)
        (fun a b c hab hbc => (hle _ _).2 (htr _ _ _ ((hle _ _).1 hab) ((hle _ _).1 hbc)))
      refine ⟨?_, fun _ n hn => ?_, ?_⟩
      · rw [← h1]; exact p1.map _
      · obtain ⟨p, hp, rfl⟩ := List.mem_map.1 hn
        exact ⟨p.2, h2 p (p1.mem_iff.1 hp)⟩
      · rw [List.pairwise_map]
        refine p2.imp_of_mem fun {a b} ha hb hab x y hx hy => ?_
        rw [h2 a (p1.mem_iff.1 ha)] at hx
        rw [h2 b (p1.mem_iff.1 hb)] at hy
        cases hx; cases hy
        exact (hle _ _).1 hab
    | panic => rw [hk] at h; cases h
    | oof => rw [hk] at h; cases h

/-- `Sort(field)` on any graph and field, if it returns: the subnodes are reordered, none
lost or doubled, and the texts `n.Get(field).String()` do not decrease (bytewise). -/
theorem C30 (E : Ext) (S : Sorter) (hS : S.Correct) (field : Bytes) (t : Val) (o : List Graph) (g' : Graph)
    (h : (Graph.node t o).sort E S field = .ok g') :
    ∃ o', g' = .node t o' ∧ Ordered (fun n => (n.get E field).bind fun r => r.1.string E) o o' := by
  rw [Graph.sort] at h
  cases hs : sortNodes S (textKey E field) strLess o with
  | ok o' =>
    rw [hs] at h
    cases h
    exact ⟨o', rfl, sortNodes_spec hS (fun a b => strLess_false b a) List.le_total (fun a b c => List.le_trans) hs⟩
  | panic => rw [hs] at h; cases h
  | oof => rw [hs] at h; cases h

/-- `SortAsInt(field)`: the same with `n.Get(field).Int64()`. -/
theorem C30_int (E : Ext) (S : Sorter) (hS : S.Correct) (field : Bytes) (t : Val) (o : List Graph) (g' : Graph)
    (h : (Graph.node t o).sortAsInt E S field = .ok g') :
    ∃ o', g' = .node t o' ∧ Ordered (fun n => (n.get E field).bind fun r => r.1.int64 E) o o' := by
  rw [Graph.sortAsInt] at h
  cases hs : sortNodes S (intKey E field) (fun a b => decide (a < b)) o with
  | ok o' =>
    rw [hs] at h
    cases h
    exact ⟨o', rfl, sortNodes_spec hS (fun a b => by simp) (fun a b => by omega) (fun a b c => by omega) hs⟩
  | panic => rw [hs] at h; cases h
  | oof => rw [hs] at h; cases h

/-- Both return for every graph of data and every field that is a path of names (for
integers: if no content is a nil `*Graph`). -/
theorem C30_returns (E : Ext) (S : Sorter) (p : List Bytes) (hp : Path E p) (hl : Fits (dotted p)) (t : Val) (o : List Graph)
    (hg : Data E (.node t o)) :
    (∃ g', (Graph.node t o).sort E S (dotted p) = .ok g') ∧
    (AllThis (· ≠ .graph .nil) (.node t o) → ∃ g', (Graph.node t o).sortAsInt E S (dotted p) = .ok g') := by
  have hmem : ∀ n ∈ o, Data E n := fun n hn => ⟨noNilL_of_mem hg.1 hn, allThis_mem hn hg.2.2⟩
  have hget : ∀ n ∈ o, n.get E (dotted p) = .ok (lookup E p n, n) := fun n hn => get_names hp hl (.inr (hmem n hn))
  have key : ∀ {κ : Type} (key : Graph → Res κ) (less : κ → κ → Bool), (∀ n ∈ o, ∃ k, key n = .ok k) → ∃ o', sortNodes S key less o = .ok o' := by
    intro κ key less hk
    obtain ⟨r, hr⟩ := withKeys_ok hk
    unfold sortNodes
    split
    · exact ⟨o, rfl⟩
    · exact ⟨_, by rw [hr]; rfl⟩
  have hitf : ∀ n ∈ o, ∃ v, (lookup E p n).interface = .ok v ∧ (AllThis (· ≠ .graph .nil) (lookup E p n) → v ≠ .graph .nil) := by
    intro n hn
    rcases lookup_data (E := E) p (hmem n hn) with h | h
    · rw [h]; exact ⟨.nil, rfl, fun _ => by simp⟩
    · cases hx : lookup E p n with
      | nil => exact ⟨.nil, rfl, fun _ => by simp⟩
      | node t' o'' =>
        rw [hx] at h
        match o'', h with
        | [], _ => exact ⟨.nil, rfl, fun _ => by simp⟩
        | .nil :: _, h => exact absurd h.1.1 (by simp [NoNil])
        | .node t2 _ :: _, _ => exact ⟨t2, rfl, fun h => h.2.1.1⟩
  constructor
  · obtain ⟨o', ho'⟩ := key (textKey E (dotted p)) strLess fun n hn => by
      obtain ⟨v, hv, _⟩ := hitf n hn
      unfold textKey
      rw [hget n hn]
      simp only [Res.ok_bind]
      cases hx : lookup E p n with
      | nil => exact ⟨_, rfl⟩
      | node t' o'' => rw [hx] at hv; exact ⟨vstr E v, by simp only [Graph.string, hv, Res.ok_bind]⟩
    exact ⟨_, by rw [Graph.sort, ho']; rfl⟩
  · intro hnn
    obtain ⟨o', ho'⟩ := key (intKey E (dotted p)) (fun a b => decide (a < b)) fun n hn => by
      obtain ⟨v, hv, hv'⟩ := hitf n hn
      have hl' : AllThis (· ≠ .graph .nil) (lookup E p n) :=
        lookupR_allThis p n (allThis_mem hn hnn.2) (lookupR_noNil p n (.inr (hmem n hn).1))
      unfold intKey
      rw [hget n hn]
      simp only [Res.ok_bind, Graph.int64, hv]
      have : ∃ i, vintf E v = .ok i := by
        cases v with
        | graph x =>
          cases x with
          | nil => exact absurd rfl (hv' hl')
          | node a b => exact ⟨_, rfl⟩
        | _ => exact ⟨_, rfl⟩
      obtain ⟨i, hi⟩ := this
      rw [hi]
      cases i <;> exact ⟨_, rfl⟩
    exact ⟨_, by rw [Graph.sortAsInt, ho']; rfl⟩

/-! ## The hypotheses are met -/

/-- A correct sorter exists. -/
def mergeSorter : Sorter := ⟨fun less l => l.mergeSort fun a b => !less b a⟩

theorem mergeSorter_correct : mergeSorter.Correct := by
  intro α less l h1 h2
  refine ⟨List.mergeSort_perm _ _, ?_⟩
  have := List.pairwise_mergeSort (le := fun a b => !less b a) (fun a b c => by simpa using h2 a b c)
    (fun a b => by
      cases h : less a b with
      | false => simp
      | true => simp [h1 a b h]) l
  exact this.imp (by simp)

/-- Three nodes with the field `k`: 10, none, 9. -/
def unsorted : Graph :=
  .node (.str b!"_")
    [.node (.str b!"x") [.node (.str b!"k") [.node (.str b!"10") []]], .node (.str b!"y") [],
     .node (.str b!"z") [.node (.str b!"k") [.node (.str b!"9") []]]]

example (E : Ext) : Path E [b!"k"] ∧ Data E unsorted ∧ AllThis (· ≠ .graph .nil) unsorted := by
  refine ⟨⟨by simp, fun id hid => ?_⟩, by simp [unsorted, Data, NoNil, NoNilL, AllThis, AllThisL, Inert],
    by simp [unsorted, AllThis, AllThisL]⟩
  simp only [List.mem_cons, List.not_mem_nil, or_false] at hid
  subst hid
  exact nameA E 107 (by unfold AsciiLetter; decide)

example : ¬ (b!"9" ≤ b!"10") ∧ b!"" ≤ b!"10" ∧ b!"10" ≤ b!"9" := by decide

end Ogdl
