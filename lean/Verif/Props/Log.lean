import Verif.Model.Log
import Verif.Props.Binary

/-!
# C06-C08: the log
-/

namespace Ogdl
open Spec

/-- A call that appends to a log. -/
inductive LogOp where
  | add (g : Graph)
  | addBinary (b : Bytes)

section
variable (E : Ext)

/-- Perform one call; gives the new log and the returned position. -/
def LogOp.run (l : Log) : LogOp → Res (Log × Int)
  | .add g => l.add E g
  | .addBinary b => .ok (l.addBinary b)

/-- Perform a history of calls; gives the final log and the returned positions. -/
def logRun (l : Log) : List LogOp → Res (Log × List Int)
  | [] => .ok (l, [])
  | op :: ops => do
    let (l1, p) ← op.run E l
    let (l2, ps) ← logRun l1 ops
    .ok (l2, p :: ps)

namespace Spec

/-- The bytes a call appends: the binary form of the graph (nothing for a nil
graph), or the bytes given. -/
def Appends : LogOp → Bytes → Prop
  | .add g, b => g.binary E = .ok (some b) ∨ (g.binary E = .ok none ∧ b = [])
  | .addBinary b', b => b = b'

end Spec

theorem logRun_data : ∀ (ops : List LogOp) (l l' : Log) (ps : List Int),
    logRun E l ops = .ok (l', ps) →
    ∃ recs : List Bytes, recs.length = ops.length ∧ ps.length = ops.length ∧
      l'.isFile = l.isFile ∧ l'.data = l.data ++ recs.flatten ∧
      ∀ k op, ops[k]? = some op → ∃ b, recs[k]? = some b ∧ Spec.Appends E op b ∧
        (op = .add .nil ∨ ps[k]? = some (((l.data ++ (recs.take k).flatten).length : Nat) : Int))
  | [], l, l', ps, h => by
    simp [logRun] at h
    obtain ⟨rfl, rfl⟩ := h
    exact ⟨[], rfl, rfl, rfl, by simp, by simp⟩
  | op :: ops, l, l', ps, h => by
    simp only [logRun] at h
    cases h1 : op.run E l with
    | panic => simp [h1] at h
    | oof => simp [h1] at h
    | ok r =>
      obtain ⟨l1, p⟩ := r
      simp only [h1, Res.ok_bind] at h
      cases h2 : logRun E l1 ops with
      | panic => simp [h2] at h
      | oof => simp [h2] at h
      | ok r2 =>
        obtain ⟨l2, ps2⟩ := r2
        simp only [h2, Res.ok_bind, Res.ok.injEq, Prod.mk.injEq] at h
        obtain ⟨rfl, rfl⟩ := h
        obtain ⟨recs, e1, e2, e3, e4, e5⟩ := logRun_data ops l1 l2 ps2 h2
        have hop : ∃ b, Spec.Appends E op b ∧ l1.data = l.data ++ b ∧ l1.isFile = l.isFile ∧
            (op = .add .nil ∨ p = ((l.data.length : Nat) : Int)) := by
          cases op with
          | addBinary b =>
            simp [LogOp.run, Log.addBinary] at h1
            obtain ⟨rfl, rfl⟩ := h1
            exact ⟨b, rfl, rfl, rfl, .inr rfl⟩
          | add g =>
            simp only [LogOp.run, Log.add] at h1
            cases hb : g.binary E with
            | panic => simp [hb] at h1
            | oof => simp [hb] at h1
            | ok o =>
              simp only [hb, Res.ok_bind] at h1
              cases o with
              | none =>
                simp only [Res.ok.injEq, Prod.mk.injEq] at h1
                obtain ⟨rfl, rfl⟩ := h1
                refine ⟨[], .inr ⟨hb, rfl⟩, by simp, rfl, .inl ?_⟩
                cases g with
                | nil => rfl
                | node t o =>
                  simp only [Graph.binary] at hb
                  cases hh : Graph.binList E 1 o <;> simp [hh] at hb
              | some b =>
                simp [Log.addBinary] at h1
                obtain ⟨rfl, rfl⟩ := h1
                exact ⟨b, .inl hb, rfl, rfl, .inr rfl⟩
        obtain ⟨b, f1, f2, f3, f4⟩ := hop
        refine ⟨b :: recs, by simp [e1], by simp [e2], by rw [e3, f3], by simp [e4, f2], ?_⟩
        intro k op' hk
        cases k with
        | zero =>
          simp at hk
          subst hk
          exact ⟨b, by simp, f1, by rcases f4 with h | h <;> simp [h]⟩
        | succ k =>
          obtain ⟨b', g1, g2, g3⟩ := e5 k op' (by simpa using hk)
          refine ⟨b', by simpa using g1, g2, ?_⟩
          rcases g3 with g3 | g3
          · exact .inl g3
          · refine .inr ?_
            simpa [f2, Nat.add_assoc] using g3

/-- Where the record appended by the `k`-th call sits in the final data. -/
theorem record_at (l : Bytes) (recs : List Bytes) (k : Nat) (b : Bytes) (h : recs[k]? = some b) :
    (l ++ recs.flatten).drop (l ++ (recs.take k).flatten).length =
      b ++ (recs.drop (k + 1)).flatten := by
  have hk : k < recs.length := by
    refine Nat.lt_of_not_le fun hc => ?_
    rw [List.getElem?_eq_none hc] at h
    simp at h
  have hb : recs[k] = b := by
    rw [List.getElem?_eq_getElem hk] at h; simpa using h
  have : recs = recs.take k ++ b :: recs.drop (k + 1) := by
    rw [← hb, List.getElem_cons_drop, List.take_append_drop]
  have hf : l ++ recs.flatten = (l ++ (recs.take k).flatten) ++ (b ++ (recs.drop (k + 1)).flatten) := by
    conv => lhs; rw [this]
    simp
  rw [hf, List.drop_left]

/-- **C06.** After any history of appends on a file log (starting from any file
content), `Get` at the position that an `Add` of an encodable graph returned gives
that graph back, with the position just behind its record as next position. -/
theorem C06_get_added (l0 l : Log) (ops : List LogOp) (ps : List Int) (hf : l0.isFile = true)
    (hrun : logRun E l0 ops = .ok (l, ps)) (k : Nat) (g : Graph) (hk : ops[k]? = some (.add g))
    (hg : Encodable E g) :
    ∃ pos bs, ps[k]? = some pos ∧ g.binary E = .ok (some bs) ∧
      ∀ fuel ≥ l.data.length,
        l.get fuel pos = .ok (.node (.str b!"_") (visibleL E g.out), pos + bs.length, true) := by
  obtain ⟨recs, e1, e2, e3, e4, e5⟩ := logRun_data E ops l0 l ps hrun
  obtain ⟨b, g1, g2, g3⟩ := e5 k _ hk
  obtain ⟨bs, h1, h4, h2⟩ := parse_binary E hg
  have hgn : g ≠ .nil := by rintro rfl; simp [Encodable, NoNil] at hg
  have hb : b = bs := by
    rcases g2 with g2 | g2
    · rw [h1] at g2; simpa using g2.symm
    · rw [h1] at g2; simp at g2
  subst hb
  have hpos : ps[k]? = some (((l0.data ++ (recs.take k).flatten).length : Nat) : Int) := by
    rcases g3 with g3 | g3
    · simp at g3; exact absurd g3 hgn
    · exact g3
  refine ⟨_, b, hpos, h1, fun fuel hfuel => ?_⟩
  have hnn : ¬ ((((l0.data ++ (recs.take k).flatten).length : Nat) : Int) < 0) := by omega
  have hle : b.length ≤ fuel := by
    have hd := congrArg List.length (record_at l0.data recs k b g1)
    rw [← e4] at hd
    simp only [List.length_drop, List.length_append] at hd
    omega
  simp only [Log.get, e3, hf, hnn, Bool.not_true, decide_false, Bool.or_self, Bool.false_eq_true,
    ↓reduceIte, Int.toNat_natCast]
  rw [e4, record_at l0.data recs k b g1, h2 _ 0 fuel hle]
  have : ¬ (b.length = 0) := by omega
  simp only [Res.ok_bind, Nat.zero_add, this, ↓reduceIte]

/-- What following the positions of a log from `pos` yields: the graphs read until
`Get` reports -1 (at most `steps` calls). -/
def followLog (l : Log) (fuel : Nat) : Nat → Int → Res (List Graph)
  | 0, _ => .oof
  | s + 1, pos => do
    let (g, next, _) ← l.get fuel pos
    if next = -1 then .ok []
    else do
      let gs ← followLog l fuel s next
      .ok (g :: gs)

/-- **C06.** Following the positions from 0 in a log made by adding encodable
graphs to an empty file enumerates them all, in order, and then `Get` reports -1. -/
theorem C06_enumerate (l : Log) (gs : List Graph) (ps : List Int)
    (hrun : logRun E ⟨true, []⟩ (gs.map .add) = .ok (l, ps)) (hg : ∀ g ∈ gs, Encodable E g)
    (fuel steps : Nat) (hfuel : l.data.length ≤ fuel) (hsteps : gs.length < steps) :
    followLog l fuel steps 0 = .ok (gs.map fun g => .node (.str b!"_") (visibleL E g.out)) := by
  obtain ⟨recs, e1, e2, e3, e4, e5⟩ := logRun_data E _ _ l ps hrun
  simp only [List.nil_append, List.length_map] at e1 e4 e5
  -- the records are the binary forms
  have hrec : ∀ (k : Nat) (g : Graph), gs[k]? = some g → ∃ b, recs[k]? = some b ∧ g.binary E = .ok (some b) := by
    intro k g hk
    obtain ⟨b, h1, h2, _⟩ := e5 k (.add g) (by simp [hk])
    refine ⟨b, h1, ?_⟩
    obtain ⟨bs, h3, _⟩ := parse_binary E (hg g (List.mem_of_getElem? hk))
    rcases h2 with h2 | h2
    · exact h2
    · rw [h3] at h2; simp at h2
  have hfile : l.isFile = true := e3
  have key : ∀ (n k : Nat), gs.length - k = n → k ≤ gs.length → ∀ steps, n < steps →
      followLog l fuel steps (((recs.take k).flatten.length : Nat) : Int) =
        .ok ((gs.drop k).map fun g => .node (.str b!"_") (visibleL E g.out)) := by
    intro n
    induction n with
    | zero =>
      intro k hk hkl steps hs
      have hk' : k = gs.length := by omega
      subst hk'
      cases steps with
      | zero => omega
      | succ s =>
        have hnn : ¬ (((recs.flatten.length : Nat) : Int) < 0) := by omega
        have ht : recs.take gs.length = recs := by rw [← e1, List.take_length]
        have hget : l.get fuel ((recs.flatten.length : Nat) : Int) = .ok (.nil, -1, true) := by
          simp only [Log.get, hfile, hnn, Bool.not_true, decide_false, Bool.or_self,
            Bool.false_eq_true, ↓reduceIte, Int.toNat_natCast, e4, List.drop_length]
          simp [BinR.parse, BinR.header, BinR.read]
        rw [ht]
        simp only [followLog, hget, Res.ok_bind, ↓reduceIte, List.drop_length, List.map_nil]
    | succ n ih =>
      intro k hk hkl steps hs
      have hkl' : k < gs.length := by omega
      cases steps with
      | zero => omega
      | succ s =>
        obtain ⟨b, h1, h2⟩ := hrec k gs[k] (by simp [hkl'])
        obtain ⟨bs, h3, h4, h5⟩ := parse_binary E (hg gs[k] (by simp))
        rw [h2] at h3
        simp only [Res.ok.injEq, Option.some.injEq] at h3
        subst h3
        have hnn : ¬ ((((recs.take k).flatten.length : Nat) : Int) < 0) := by omega
        have hra := record_at [] recs k b h1
        simp only [List.nil_append] at hra
        have hle : b.length ≤ fuel := by
          have hd := congrArg List.length hra
          rw [← e4] at hd
          simp only [List.length_drop, List.length_append] at hd
          omega
        have hget : l.get fuel (((recs.take k).flatten.length : Nat) : Int) =
            .ok (.node (.str b!"_") (visibleL E (gs[k]).out),
              (((recs.take (k + 1)).flatten.length : Nat) : Int), true) := by
          simp only [Log.get, hfile, hnn, Bool.not_true, decide_false, Bool.or_self,
            Bool.false_eq_true, ↓reduceIte, Int.toNat_natCast, e4]
          rw [hra, h5 _ 0 fuel hle]
          have : ¬ (b.length = 0) := by omega
          simp only [Res.ok_bind, Nat.zero_add, this, ↓reduceIte]
          congr 3
          rw [List.take_add_one, h1]
          simp
        have hne : ¬ ((((recs.take (k + 1)).flatten.length : Nat) : Int) = -1) := by omega
        simp only [followLog, hget, Res.ok_bind, hne, ↓reduceIte]
        rw [ih (k + 1) (by omega) (by omega) s (by omega)]
        simp only [Res.ok_bind]
        rw [← List.getElem_cons_drop hkl', List.map_cons]
  have := key gs.length 0 (by simp) (by simp) steps hsteps
  simpa using this

/-- A history with two graphs and foreign bytes in between meets the hypotheses of C06. -/
example : ∃ l ps, logRun E ⟨true, [9]⟩
    [.add (.node .nil [.node (.str b!"a") []]), .addBinary [7, 7], .add (.node .nil [.node (.str b!"b") []])]
      = .ok (l, ps) ∧ ps = [1, 8, 10] ∧ Encodable E (.node .nil [.node (.str b!"b") []]) := by
  refine ⟨_, _, rfl, ?_, ?_⟩
  · simp [vbytes, newVarInt]
  · simp [Encodable, NoNil, NoNilL, AllThisL, AllThis, Storable, vbytes, visibleL, visible, depthL, depth]

/-! ## C07 -/

theorem skip_of_lines : ∀ (f : Nat) (p p' : BinR) (fuel : Nat) (ev ev' : Ev),
    p.lines fuel f ev = .ok (ev', p') → p.skip fuel f = .ok p'
  | 0, _, _, _, _, _, h => by simp [BinR.lines] at h
  | f + 1, p, p', fuel, ev, ev', h => by
    simp only [BinR.lines] at h
    simp only [BinR.skip]
    cases hl : p.line fuel with
    | panic => simp [hl] at h
    | oof => simp [hl] at h
    | ok r =>
      obtain ⟨lev, bin, b, p1⟩ := r
      simp only [hl, Res.ok_bind] at h ⊢
      by_cases h0 : lev = 0
      · simp only [h0, ↓reduceIte, Res.ok.injEq, Prod.mk.injEq] at h ⊢
        exact h.2
      · simp only [h0, ↓reduceIte] at h ⊢
        cases bin
        · exact skip_of_lines f p1 p' fuel _ ev' h
        · exact skip_of_lines f p1 p' fuel _ ev' h

/-- **C07 (part).** `GetBinary` at a position returned by an `Add` gives exactly the
bytes stored for that record.  Missing: its second result is the length of the
record, not the position of the next one (`C07_refuted`), so the claim about the
next position holds only at position 0. -/
theorem C07_getBinary_partial (l0 l : Log) (ops : List LogOp) (ps : List Int) (hf : l0.isFile = true)
    (hrun : logRun E l0 ops = .ok (l, ps)) (k : Nat) (g : Graph) (hk : ops[k]? = some (.add g))
    (hg : Encodable E g) :
    ∃ pos bs, ps[k]? = some pos ∧ g.binary E = .ok (some bs) ∧
      ∀ fuel ≥ l.data.length, l.getBinary fuel pos = .ok (bs, bs.length, true) ∧
        (pos = 0 → l.getBinary fuel pos = .ok (bs, pos + bs.length, true)) := by
  obtain ⟨recs, e1, e2, e3, e4, e5⟩ := logRun_data E ops l0 l ps hrun
  obtain ⟨b, g1, g2, g3⟩ := e5 k _ hk
  obtain ⟨bs, h1, h4, h2⟩ := parse_binary E hg
  have hgn : g ≠ .nil := by rintro rfl; simp [Encodable, NoNil] at hg
  have hb : b = bs := by
    rcases g2 with g2 | g2
    · rw [h1] at g2; simpa using g2.symm
    · rw [h1] at g2; simp at g2
  subst hb
  have hpos : ps[k]? = some (((l0.data ++ (recs.take k).flatten).length : Nat) : Int) := by
    rcases g3 with g3 | g3
    · simp at g3; exact absurd g3 hgn
    · exact g3
  refine ⟨_, b, hpos, h1, fun fuel hfuel => ?_⟩
  have hnn : ¬ ((((l0.data ++ (recs.take k).flatten).length : Nat) : Int) < 0) := by omega
  have hle : b.length ≤ fuel := by
    have hd := congrArg List.length (record_at l0.data recs k b g1)
    rw [← e4] at hd
    simp only [List.length_drop, List.length_append] at hd
    omega
  have key : l.getBinary fuel (((l0.data ++ (recs.take k).flatten).length : Nat) : Int) =
      .ok (b, b.length, true) := by
    simp only [Log.getBinary, e3, hf, hnn, Bool.not_true, decide_false, Bool.or_self,
      Bool.false_eq_true, ↓reduceIte, Int.toNat_natCast]
    rw [e4, record_at l0.data recs k b g1]
    have hp := h2 (recs.drop (k + 1)).flatten 0 fuel hle
    simp only [BinR.parse] at hp
    split at hp
    · simp at hp
    · rename_i p1 hh
      rw [hh]
      simp only
      cases hl : p1.lines fuel fuel {} with
      | panic => simp [hl] at hp
      | oof => simp [hl] at hp
      | ok r =>
        obtain ⟨ev', p2⟩ := r
        simp only [hl, Res.ok_bind] at hp
        cases ht : ev'.tree with
        | panic => simp [ht] at hp
        | oof => simp [ht] at hp
        | ok gg =>
          simp only [ht, Res.ok_bind, Res.ok.injEq, Prod.mk.injEq] at hp
          obtain ⟨_, rfl⟩ := hp
          rw [skip_of_lines fuel p1 _ fuel _ _ hl]
          simp
  refine ⟨key, fun h0 => ?_⟩
  rw [key, h0]
  simp

/-- **C07 refuted.** After adding two graphs, `GetBinary` at the second position
(8) reports 8, although the next position is 16. -/
theorem C07_refuted : ∃ l : Log, ∃ ps : List Int,
    logRun E ⟨true, []⟩ [.add (.node .nil [.node (.str b!"ab") []]),
      .add (.node .nil [.node (.str b!"cd") []])] = .ok (l, ps) ∧ ps = [0, 8] ∧
    l.data.length = 16 ∧ l.getBinary 100 8 = .ok ([1, 71, 0, 1, 99, 100, 0, 0], 8, true) :=
  ⟨_, _, rfl, by simp [vbytes, newVarInt], rfl, rfl⟩

/-! ## C08 -/

/-- **C08.** Appending is append-only: whatever is done after the `k`-th call, and
even if the resulting file is then cut at any byte `m` behind the record of the
`k`-th call (a crash while a later record was being written), the record of the
`k`-th call is read back unchanged. -/
theorem C08_torn_tail (l0 l : Log) (ops : List LogOp) (ps : List Int) (hf : l0.isFile = true)
    (hrun : logRun E l0 ops = .ok (l, ps)) (k : Nat) (g : Graph) (hk : ops[k]? = some (.add g))
    (hg : Encodable E g) :
    ∃ pos bs, ps[k]? = some pos ∧ g.binary E = .ok (some bs) ∧
      ∀ m : Nat, pos + bs.length ≤ m → ∀ fuel ≥ l.data.length,
        Log.get fuel { l with data := l.data.take m } pos =
          .ok (.node (.str b!"_") (visibleL E g.out), pos + bs.length, true) := by
  obtain ⟨recs, e1, e2, e3, e4, e5⟩ := logRun_data E ops l0 l ps hrun
  obtain ⟨b, g1, g2, g3⟩ := e5 k _ hk
  obtain ⟨bs, h1, h4, h2⟩ := parse_binary E hg
  have hgn : g ≠ .nil := by rintro rfl; simp [Encodable, NoNil] at hg
  have hb : b = bs := by
    rcases g2 with g2 | g2
    · rw [h1] at g2; simpa using g2.symm
    · rw [h1] at g2; simp at g2
  subst hb
  have hpos : ps[k]? = some (((l0.data ++ (recs.take k).flatten).length : Nat) : Int) := by
    rcases g3 with g3 | g3
    · simp at g3; exact absurd g3 hgn
    · exact g3
  refine ⟨_, b, hpos, h1, fun m hm fuel hfuel => ?_⟩
  have hnn : ¬ ((((l0.data ++ (recs.take k).flatten).length : Nat) : Int) < 0) := by omega
  have hle : b.length ≤ fuel := by
    have hd := congrArg List.length (record_at l0.data recs k b g1)
    rw [← e4] at hd
    simp only [List.length_drop, List.length_append] at hd
    omega
  simp only [Log.get, e3, hf, hnn, Bool.not_true, decide_false, Bool.or_self, Bool.false_eq_true,
    ↓reduceIte, Int.toNat_natCast]
  rw [e4, List.drop_take, record_at l0.data recs k b g1, List.take_append,
    List.take_of_length_le (by omega), h2 _ 0 fuel hle]
  have : ¬ (b.length = 0) := by omega
  simp only [Res.ok_bind, Nat.zero_add, this, ↓reduceIte]

/-- **C08.** No append changes bytes already in the log. -/
theorem C08_append_only (l0 l : Log) (ops : List LogOp) (ps : List Int)
    (hrun : logRun E l0 ops = .ok (l, ps)) : l0.data <+: l.data := by
  obtain ⟨recs, _, _, _, e4, _⟩ := logRun_data E ops l0 l ps hrun
  exact ⟨_, e4.symm⟩

/-- **C08.** A log without a file keeps everything in memory: `Bytes` gives exactly
the records of the history, one after the other; for a file log it gives nil. -/
theorem C08_memory (l0 l : Log) (ops : List LogOp) (ps : List Int) (hrun : logRun E l0 ops = .ok (l, ps)) :
    (l0.isFile = true → l.bytes = none) ∧
    (l0.isFile = false → l0.data = [] → ∃ recs : List Bytes, recs.length = ops.length ∧ l.bytes = some recs.flatten ∧
      ∀ (k : Nat) (op : LogOp), ops[k]? = some op → ∃ b, recs[k]? = some b ∧ Spec.Appends E op b) := by
  obtain ⟨recs, e1, e2, e3, e4, e5⟩ := logRun_data E ops l0 l ps hrun
  refine ⟨fun h => by simp [Log.bytes, e3, h], fun h hd => ⟨recs, e1, by simp [Log.bytes, e3, h, e4, hd], fun k op hk => ?_⟩⟩
  obtain ⟨b, h1, h2, _⟩ := e5 k op hk
  exact ⟨b, h1, h2⟩

/-- Both kinds of log meet the hypotheses of C08_memory. -/
example : ∃ l ps, logRun E ⟨false, []⟩ [.addBinary b!"ab", .add .nil, .addBinary b!"c"] = .ok (l, ps) ∧ l.bytes = some b!"abc" :=
  ⟨_, _, rfl, rfl⟩

end
end Ogdl
