import Verif.Lemmas.Binary

/-! Termination analysis of the binary reader on arbitrary bytes. -/

namespace Ogdl
open Spec

/-- `p'` is `p` after consuming some bytes. -/
def BinR.After (p p' : BinR) : Prop := p'.rest <:+ p.rest

theorem BinR.read_after (p : BinR) : p.After p.read.2 := by
  obtain ⟨rest, n⟩ := p
  cases rest with
  | nil => exact List.suffix_refl _
  | cons c t => exact List.suffix_cons _ _

theorem BinR.read_none {p p' : BinR} (h : p.read = (none, p')) : p'.rest = [] ∧ p.rest = [] := by
  obtain ⟨rest, n⟩ := p
  cases rest with
  | nil => simp [BinR.read] at h; subst h; simp
  | cons c t => simp [BinR.read] at h

theorem BinR.read_some {p p' : BinR} {c : UInt8} (h : p.read = (some c, p')) :
    p.rest = c :: p'.rest := by
  obtain ⟨rest, n⟩ := p
  cases rest with
  | nil => simp [BinR.read] at h
  | cons c t => simp [BinR.read] at h; obtain ⟨rfl, rfl⟩ := h; rfl

/-- A varInt leaves a suffix; unless the stream was empty it consumes something.
It consumes at most four bytes, and only one if the first byte is below 0x80. -/
theorem BinR.varInt_spec (p : BinR) :
    p.varInt.2.rest <:+ p.rest ∧
    (p.rest = [] → p.varInt.1 = -1 ∧ p.varInt.2.rest = []) ∧
    (∀ c t, p.rest = c :: t → p.varInt.2.rest <:+ t ∧
      (c = 0 → p.varInt.1 = 0) ∧
      (0 ≤ p.varInt.1 → t.length ≤ p.varInt.2.rest.length + 3)) := by
  obtain ⟨rest, n⟩ := p
  cases rest with
  | nil => simp [BinR.varInt, BinR.read]
  | cons c t =>
    have key : (BinR.varInt ⟨c :: t, n⟩).2.rest <:+ t ∧
        (c = 0 → (BinR.varInt ⟨c :: t, n⟩).1 = 0) ∧
        (0 ≤ (BinR.varInt ⟨c :: t, n⟩).1 →
          t.length ≤ (BinR.varInt ⟨c :: t, n⟩).2.rest.length + 3) := by
      simp only [BinR.varInt, BinR.read]
      split
      · refine ⟨List.suffix_refl _, ?_, by simp⟩
        rintro rfl; rfl
      · rename_i h0
        have hc : c ≠ 0 := by rintro rfl; exact h0 (by decide)
        simp only [hc, false_implies, true_and]
        split
        · cases t with
          | nil => simp
          | cons c1 t =>
            refine ⟨List.suffix_cons _ _, fun _ => ?_⟩; simp
        · split
          · cases t with
            | nil => simp
            | cons c1 t =>
              cases t with
              | nil => simp
              | cons c2 t =>
                refine ⟨⟨[c1, c2], rfl⟩, fun _ => ?_⟩; simp
          · split
            · cases t with
              | nil => simp
              | cons c1 t =>
                cases t with
                | nil => simp
                | cons c2 t =>
                  cases t with
                  | nil => simp
                  | cons c3 t =>
                    refine ⟨⟨[c1, c2, c3], rfl⟩, fun _ => ?_⟩; simp
            · exact ⟨List.suffix_refl _, fun h => by simp at h⟩
    refine ⟨key.1.trans (List.suffix_cons _ _), by simp, ?_⟩
    intro c' t' h
    simp only [List.cons.injEq] at h
    obtain ⟨rfl, rfl⟩ := h
    exact key

/-- A loop with a fuel parameter either settles on one result, reached by every
fuel from `N` on, or runs out of every fuel. -/
def Settles {α : Type} (X : Nat → Res α) (N : Nat) (P : α → Prop) : Prop :=
  (∃ r, P r ∧ (∀ f, X f = .oof ∨ X f = .ok r) ∧ ∀ f ≥ N, X f = .ok r) ∨ ∀ f, X f = .oof

theorem BinR.chunk_spec : ∀ (k : Nat) (p : BinR) (buf : Bytes),
    (p.chunk k buf).2.2.rest <:+ p.rest
  | 0, p, buf => List.suffix_refl _
  | k + 1, p, buf => by
    simp only [BinR.chunk]
    have ha := p.read_after
    split
    · rename_i p' h
      rw [h] at ha; exact ha
    · rename_i c p' h
      rw [h] at ha
      exact (BinR.chunk_spec k p' _).trans ha

theorem BinR.binNode_settles : ∀ (N : Nat) (p : BinR) (buf : Bytes), p.rest.length < N →
    ∃ r, r.2.rest <:+ p.rest ∧ (∀ f, p.binNode f buf = .oof ∨ p.binNode f buf = .ok r) ∧
      ∀ f ≥ N, p.binNode f buf = .ok r
  | 0, _, _, h => by omega
  | N + 1, p, buf, hN => by
    obtain ⟨hs, hnil, hcons⟩ := p.varInt_spec
    rcases hv : p.varInt with ⟨i, p1⟩
    rw [hv] at hs hnil hcons
    simp only at hs hnil hcons
    by_cases hi : i < 0
    · refine ⟨(buf, p1), hs, ?_, ?_⟩
      · intro f; cases f with
        | zero => left; rfl
        | succ f => right; simp [BinR.binNode, hv, hi]
      · intro f hf; cases f with
        | zero => omega
        | succ f => simp [BinR.binNode, hv, hi]
    · have hlt : p1.rest.length < p.rest.length := by
        cases hr : p.rest with
        | nil => exact absurd (hnil hr).1 (by omega)
        | cons c t =>
          have := (hcons c t hr).1.length_le
          simp; omega
      rcases hc : p1.chunk i.toNat buf with ⟨b, buf2, p2⟩
      have hcs := BinR.chunk_spec i.toNat p1 buf
      rw [hc] at hcs
      simp only at hcs
      cases b with
      | false =>
        refine ⟨(buf2, p2), hcs.trans hs, ?_, ?_⟩
        · intro f; cases f with
          | zero => left; rfl
          | succ f => right; simp [BinR.binNode, hv, hi, hc]
        · intro f hf; cases f with
          | zero => omega
          | succ f => simp [BinR.binNode, hv, hi, hc]
      | true =>
        have hl2 := hcs.length_le
        obtain ⟨r, h1, h2, h3⟩ := BinR.binNode_settles N p2 buf2 (by omega)
        refine ⟨r, (h1.trans hcs).trans hs, ?_, ?_⟩
        · intro f; cases f with
          | zero => left; rfl
          | succ f => simpa [BinR.binNode, hv, hi, hc] using h2 f
        · intro f hf; cases f with
          | zero => omega
          | succ f => simpa [BinR.binNode, hv, hi, hc] using h3 f (by omega)

theorem BinR.textNode_eof (n : Nat) : ∀ (f : Nat) (buf : Bytes),
    (BinR.mk [] n).textNode f buf = .oof
  | 0, _ => rfl
  | f + 1, buf => by
    simp only [BinR.textNode, BinR.read]
    exact BinR.textNode_eof n f _

theorem BinR.textNode_hang : ∀ (rest : Bytes) (n : Nat), 0 ∉ rest → ∀ (f : Nat) (buf : Bytes),
    (BinR.mk rest n).textNode f buf = .oof
  | [], n, _, f, buf => BinR.textNode_eof n f buf
  | c :: t, n, h, 0, buf => rfl
  | c :: t, n, h, f + 1, buf => by
    simp only [List.mem_cons, not_or] at h
    have hc : c ≠ 0 := fun e => h.1 e.symm
    simp only [BinR.textNode, BinR.read]
    exact BinR.textNode_hang t (n + 1) h.2 f _

theorem BinR.textNode_settles : ∀ (N : Nat) (p : BinR) (buf : Bytes), p.rest.length < N →
    0 ∈ p.rest →
    ∃ r, r.2.rest <:+ p.rest ∧ (∀ f, p.textNode f buf = .oof ∨ p.textNode f buf = .ok r) ∧
      ∀ f ≥ N, p.textNode f buf = .ok r
  | 0, _, _, h, _ => by omega
  | N + 1, ⟨[], n⟩, buf, _, hz => by simp at hz
  | N + 1, ⟨c :: t, n⟩, buf, hN, hz => by
    by_cases hc : c = 0
    · subst hc
      refine ⟨(buf, ⟨t, n + 1⟩), List.suffix_cons _ _, ?_, ?_⟩
      · intro f; cases f with
        | zero => left; rfl
        | succ f => right; simp [BinR.textNode, BinR.read]
      · intro f hf; cases f with
        | zero => omega
        | succ f => simp [BinR.textNode, BinR.read]
    · have hz' : 0 ∈ t := by simpa [Ne.symm hc] using hz
      obtain ⟨r, h1, h2, h3⟩ := BinR.textNode_settles N ⟨t, n + 1⟩ (buf ++ [c])
        (by simp at hN; simpa using hN) hz'
      refine ⟨r, h1.trans (List.suffix_cons _ _), ?_, ?_⟩
      · intro f; cases f with
        | zero => left; rfl
        | succ f => simpa [BinR.textNode, BinR.read, hc] using h2 f
      · intro f hf; cases f with
        | zero => omega
        | succ f => simpa [BinR.textNode, BinR.read, hc] using h3 f (by omega)

/-- A line settles or hangs; if it settles with a level it has consumed bytes; it
settles whenever at least five zero bytes are to come. -/
theorem BinR.line_settles (p : BinR) :
    Settles p.line (p.rest.length + 1)
      (fun r => r.2.2.2.rest <:+ p.rest ∧ (r.1 ≠ 0 → r.2.2.2.rest.length < p.rest.length)) := by
  obtain ⟨hs, hnil, hcons⟩ := p.varInt_spec
  rcases hv : p.varInt with ⟨i, p1⟩
  rw [hv] at hs hnil hcons
  simp only at hs hnil hcons
  by_cases hi : i < 1
  · left
    refine ⟨(0, false, [], p1), ⟨hs, by simp⟩, ?_, ?_⟩
    · intro f; right; simp [BinR.line, hv, hi]
    · intro f _; simp [BinR.line, hv, hi]
  have hlt : p1.rest.length < p.rest.length := by
    cases hr : p.rest with
    | nil => exact absurd (hnil hr).1 (by omega)
    | cons c t =>
      have := (hcons c t hr).1.length_le
      simp; omega
  rcases hrd : p1.read with ⟨o, p2⟩
  have hra := p1.read_after
  rw [hrd] at hra
  have hral : p2.rest <:+ p.rest := List.IsSuffix.trans hra hs
  have hral2 := List.IsSuffix.length_le hra
  cases o with
  | none =>
    right
    intro f
    have h2 := BinR.read_none hrd
    obtain ⟨r2, n2⟩ := p2
    simp only at h2
    obtain ⟨rfl, _⟩ := h2
    simp [BinR.line, hv, hi, hrd, BinR.textNode_eof]
  | some c =>
    by_cases hc : c = 1
    · subst hc
      left
      obtain ⟨r, h1, h2, h3⟩ := BinR.binNode_settles (p.rest.length + 1) p2 [] (by simp only at hral2; omega)
      have := h1.length_le
      refine ⟨(i.toNat, true, r.1, r.2), ⟨h1.trans hral, fun _ => ?_⟩, ?_, ?_⟩
      · simp only at hral2 ⊢; omega
      · intro f
        rcases h2 f with h | h
        · left; simp [BinR.line, hv, hi, hrd, h]
        · right; simp [BinR.line, hv, hi, hrd, h]
      · intro f hf; simp [BinR.line, hv, hi, hrd, h3 f hf]
    · by_cases hz : 0 ∈ p2.rest
      · left
        obtain ⟨r, h1, h2, h3⟩ := BinR.textNode_settles (p.rest.length + 1) p2 [c] (by simp only at hral2; omega) hz
        have := h1.length_le
        refine ⟨(i.toNat, false, r.1, r.2), ⟨h1.trans hral, fun _ => ?_⟩, ?_, ?_⟩
        · simp only at hral2 ⊢; omega
        · intro f
          rcases h2 f with h | h
          · left; simp [BinR.line, hv, hi, hrd, h]
          · right; simp [BinR.line, hv, hi, hrd, h]
        · intro f hf; simp [BinR.line, hv, hi, hrd, h3 f hf]
      · right
        intro f
        obtain ⟨r2, n2⟩ := p2
        simp [BinR.line, hv, hi, hrd, BinR.textNode_hang _ _ hz]

/-- With five zero bytes at the end of the stream, a line never hangs. -/
theorem BinR.line_no_hang (p : BinR) (b : Bytes) (h : p.rest <:+ b ++ [0, 0, 0, 0, 0]) :
    ¬ ∀ f, p.line f = .oof := by
  intro hh
  obtain ⟨hs, hnil, hcons⟩ := p.varInt_spec
  rcases hv : p.varInt with ⟨i, p1⟩
  rw [hv] at hs hnil hcons
  simp only at hs hnil hcons
  by_cases hi : i < 1
  · have := hh 0; simp [BinR.line, hv, hi] at this
  cases hr : p.rest with
  | nil => exact absurd (hnil hr).1 (by omega)
  | cons c t =>
    obtain ⟨q1, q2, q3⟩ := hcons c t hr
    have hc : c ≠ 0 := fun e => by have := q2 e; omega
    -- the five zeros are still to come after `c`
    have ht : [0, 0, 0, 0, 0] <:+ t := by
      rw [hr] at h
      obtain ⟨u, hu⟩ := h
      rcases List.append_eq_append_iff.mp hu with ⟨as, h1, h2⟩ | ⟨bs, h1, h2⟩
      · cases as with
        | nil =>
          simp at h2; exact absurd h2.1 hc
        | cons a as =>
          simp only [List.cons_append, List.cons.injEq] at h2
          exact ⟨as, h2.2.symm⟩
      · exfalso
        have : c ∈ ([0, 0, 0, 0, 0] : Bytes) := by rw [h2]; simp
        simp at this; exact hc this
    have hlen : t.length ≤ p1.rest.length + 3 := q3 (by omega)
    -- so at least two zeros are left
    have hz2 : [0, 0] <:+ p1.rest := by
      have h5 : ([0, 0] : Bytes) <:+ t := List.IsSuffix.trans ⟨[0, 0, 0], rfl⟩ ht
      rcases List.suffix_or_suffix_of_suffix h5 q1 with h | h
      · exact h
      · have l5 := ht.length_le
        have := h.length_le
        simp at this l5
        have : p1.rest.length = 2 := by omega
        rw [List.IsSuffix.eq_of_length h (by simpa using this)]; exact List.suffix_refl _
    rcases hrd : p1.read with ⟨o, p2⟩
    cases o with
    | none =>
      have := (BinR.read_none hrd).2
      rw [this] at hz2
      simp at hz2
    | some c1 =>
      have h1 := BinR.read_some hrd
      have hz1 : 0 ∈ p2.rest := by
        rw [h1] at hz2
        have hl := hz2.length_le
        have : ([0] : Bytes) <:+ p2.rest := by
          have a : ([0] : Bytes) <:+ c1 :: p2.rest := List.IsSuffix.trans ⟨[0], rfl⟩ hz2
          rcases List.suffix_cons_iff.mp a with h | h
          · simp only [List.length_cons, List.length_nil] at hl
            simp only [List.cons.injEq] at h
            rw [← h.2] at hl; simp at hl
          · exact h
        exact this.mem (by simp)
      by_cases hc1 : c1 = 1
      · subst hc1
        obtain ⟨r, _, _, h3⟩ := BinR.binNode_settles (p2.rest.length + 1) p2 [] (by omega)
        have := hh (p2.rest.length + 1)
        simp [BinR.line, hv, hi, hrd, h3 _ (Nat.le_refl _)] at this
      · obtain ⟨r, _, _, h3⟩ := BinR.textNode_settles (p2.rest.length + 1) p2 [c1] (by omega) hz1
        have := hh (p2.rest.length + 1)
        simp [BinR.line, hv, hi, hrd, h3 _ (Nat.le_refl _)] at this

/-- The line loop as a function of one fuel for both loops. -/
theorem BinR.lines_settles : ∀ (N : Nat) (p : BinR) (ev : Ev), p.rest.length < N →
    (∃ r, r.2.rest <:+ p.rest ∧ ((∀ it ∈ ev.items, it.1 ≤ ev.max) → ∀ it ∈ r.1.items, it.1 ≤ r.1.max) ∧
      (∀ fuel f, p.lines fuel f ev = .oof ∨ p.lines fuel f ev = .ok r) ∧
      ∀ fuel ≥ N, ∀ f ≥ N, p.lines fuel f ev = .ok r) ∨
    ((∀ fuel f, p.lines fuel f ev = .oof) ∧ ∀ b, ¬ p.rest <:+ b ++ [0, 0, 0, 0, 0])
  | 0, _, _, h => by omega
  | N + 1, p, ev, hN => by
    rcases p.line_settles with ⟨⟨lev, bin, b, p1⟩, ⟨hsuf, hlen⟩, hall, hok⟩ | hh
    · by_cases h0 : lev = 0
      · left
        refine ⟨(ev, p1), hsuf, fun h => h, ?_, ?_⟩
        · intro fuel f
          cases f with
          | zero => left; rfl
          | succ f =>
            rcases hall fuel with h | h
            · left; simp [BinR.lines, h]
            · right; simp [BinR.lines, h, h0]
        · intro fuel hfuel f hf
          cases f with
          | zero => omega
          | succ f => simp [BinR.lines, hok fuel (by omega), h0]
      · have hl := hlen h0
        simp only at hl
        have hrec := fun ev' => BinR.lines_settles N p1 ev' (by omega)
        have hv : ∀ v, (∀ it ∈ ev.items, it.1 ≤ ev.max) →
            ∀ it ∈ (ev.addAt v (lev - 1)).items, it.1 ≤ (ev.addAt v (lev - 1)).max := by
          intro v h
          have := Ev.addAll_max [(lev - 1, v)] ev h
          simpa [Ev.addAll] using this
        cases bin with
        | true =>
          rcases hrec (ev.addAt (.bytes b) (lev - 1)) with ⟨r, r0, r1, r2, r3⟩ | ⟨hr, hr'⟩
          · left
            refine ⟨r, r0.trans hsuf, fun h => r1 (hv _ h), ?_, ?_⟩
            · intro fuel f
              cases f with
              | zero => left; rfl
              | succ f =>
                rcases hall fuel with h | h
                · left; simp [BinR.lines, h]
                · simpa [BinR.lines, h, h0] using r2 fuel f
            · intro fuel hfuel f hf
              cases f with
              | zero => omega
              | succ f => simpa [BinR.lines, hok fuel (by omega), h0] using r3 fuel (by omega) f (by omega)
          · right
            refine ⟨?_, fun b' hb' => hr' b' (List.IsSuffix.trans hsuf hb')⟩
            intro fuel f
            cases f with
            | zero => rfl
            | succ f =>
              rcases hall fuel with h | h
              · simp [BinR.lines, h]
              · simpa [BinR.lines, h, h0] using hr fuel f
        | false =>
          rcases hrec (ev.addAt (.str b) (lev - 1)) with ⟨r, r0, r1, r2, r3⟩ | ⟨hr, hr'⟩
          · left
            refine ⟨r, r0.trans hsuf, fun h => r1 (hv _ h), ?_, ?_⟩
            · intro fuel f
              cases f with
              | zero => left; rfl
              | succ f =>
                rcases hall fuel with h | h
                · left; simp [BinR.lines, h]
                · simpa [BinR.lines, h, h0] using r2 fuel f
            · intro fuel hfuel f hf
              cases f with
              | zero => omega
              | succ f => simpa [BinR.lines, hok fuel (by omega), h0] using r3 fuel (by omega) f (by omega)
          · right
            refine ⟨?_, fun b' hb' => hr' b' (List.IsSuffix.trans hsuf hb')⟩
            intro fuel f
            cases f with
            | zero => rfl
            | succ f =>
              rcases hall fuel with h | h
              · simp [BinR.lines, h]
              · simpa [BinR.lines, h, h0] using hr fuel f
    · right
      refine ⟨?_, fun b hb => BinR.line_no_hang p b hb hh⟩
      intro fuel f
      cases f with
      | zero => rfl
      | succ f => simp [BinR.lines, hh]

/-- `Tree` never panics when no level exceeds `max`. -/
theorem treeLoop_ok : ∀ (its : List (Nat × Val)) (s : TreeSt), (∀ it ∈ its, it.1 + 1 < s.slots.length) →
    ∃ s', treeLoop s its = .ok s'
  | [], s, _ => ⟨s, rfl⟩
  | it :: its, s, h => by
    have h1 := h it (by simp)
    have : ∃ s1, treeStep s it = .ok s1 ∧ s1.slots.length = s.slots.length := by
      simp only [treeStep, h1, ↓reduceIte]
      split
      · exact ⟨_, rfl, by simp⟩
      · exact ⟨_, rfl, by simp⟩
    obtain ⟨s1, e1, l1⟩ := this
    obtain ⟨s2, e2⟩ := treeLoop_ok its s1 (fun it' h' => by rw [l1]; exact h it' (by simp [h']))
    exact ⟨s2, by simp [treeLoop, e1, e2]⟩

theorem Ev.tree_ok (e : Ev) (h : ∀ it ∈ e.items, it.1 ≤ e.max) : ∃ g, e.tree = .ok g := by
  obtain ⟨s, hs⟩ := treeLoop_ok e.items ⟨[⟨.str b!"_", []⟩], some 0 :: List.replicate (e.max + 1) none⟩
    (fun it hit => by have := h it hit; simp; omega)
  exact ⟨readNode s.heap s.heap.length 0, by simp only [Ev.tree, hs, Res.ok_bind]⟩

theorem BinR.header_suffix (p : BinR) : p.header.2.rest <:+ p.rest := by
  simp only [BinR.header]
  have h0 := p.read_after
  split
  · rename_i p1 e1
    rw [e1] at h0
    have h1 := p1.read_after
    split
    · rename_i p2 e2
      rw [e2] at h1
      have h2 := p2.read_after
      split
      · rename_i p3 e3
        rw [e3] at h2
        exact List.IsSuffix.trans h2 (List.IsSuffix.trans h1 h0)
      · rename_i p3 _ e3
        rw [e3] at h2
        exact List.IsSuffix.trans h2 (List.IsSuffix.trans h1 h0)
    · rename_i p2 _ e2
      rw [e2] at h1
      exact List.IsSuffix.trans h1 h0
  · rename_i p1 _ e1
    rw [e1] at h0
    exact h0

/-- Parsing settles within `length + 1` iterations or never ends. -/
theorem BinR.parse_settles (p : BinR) :
    Settles p.parse (p.rest.length + 1) (fun r => r.2.rest <:+ p.rest) ∧
    ∀ b, p.rest <:+ b ++ [0, 0, 0, 0, 0] → ¬ ∀ f, p.parse f = .oof := by
  have hs := p.header_suffix
  rcases hh : p.header with ⟨ok, p1⟩
  rw [hh] at hs
  have hl := List.IsSuffix.length_le hs
  simp only at hs hl
  cases ok with
  | false =>
    have : ∀ f, p.parse f = .ok (.nil, p1) := fun f => by simp [BinR.parse, hh]
    exact ⟨.inl ⟨_, hs, fun f => .inr (this f), fun f _ => this f⟩, fun _ _ h => by
      have := h 0; simp [BinR.parse, hh] at this⟩
  | true =>
    rcases BinR.lines_settles (p.rest.length + 1) p1 {} (by omega) with ⟨r, r0, r1, r2, r3⟩ | ⟨hr, hr'⟩
    · obtain ⟨g, hg⟩ := Ev.tree_ok r.1 (r1 (by simp))
      have hok : ∀ f ≥ p.rest.length + 1, p.parse f = .ok (g, r.2) := by
        intro f hf
        simp [BinR.parse, hh, r3 f hf f hf, hg]
      refine ⟨.inl ⟨(g, r.2), r0.trans hs, ?_, hok⟩, fun _ _ h => ?_⟩
      · intro f
        rcases r2 f f with h | h
        · left; simp [BinR.parse, hh, h]
        · right; simp [BinR.parse, hh, h, hg]
      · have h1 := hok _ (Nat.le_refl _); rw [h] at h1; simp at h1
    · refine ⟨.inr fun f => by simp [BinR.parse, hh, hr], fun b hb _ => ?_⟩
      exact hr' b (List.IsSuffix.trans hs hb)

end Ogdl
