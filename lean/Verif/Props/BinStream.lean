import Verif.Model.BinStream
import Verif.Props.Rf1

/-!
# C107: streams of graphs
-/

namespace Ogdl
open Spec

variable (E : Ext)

theorem fromBufio_message (e : ConnEnd) {g : Graph} {b : Bytes} (hg : Encodable E g) (hb : g.binary E = .ok (some b)) (more : Bytes) (s : BufConn) (hs : ∀ x ∈ s.conn.inp, x ≠ [])
    (h : s.buf ++ s.conn.inp.flatten = b ++ more) :
    ∃ s', fromBufio e s = .ok (.node (.str b!"_") (visibleL E g.out), s') ∧ (∀ x ∈ s'.conn.inp, x ≠ []) ∧ s'.buf ++ s'.conn.inp.flatten = more := by
  obtain ⟨bs, h1, h2, h3⟩ := parse_binary E hg
  rw [hb] at h1
  cases h1
  have hfuel := fuel_ge s.conn
  have hlen := congrArg List.length h
  simp only [List.length_append] at hlen
  have hp := h3 (more ++ [0]) 0 (s.buf.length + s.conn.fuel + 8) (by omega)
  have hh : (BinR.mk (b ++ (more ++ [0])) 0).header.1 = true := by
    cases hb1 : (BinR.mk (b ++ (more ++ [0])) 0).header with
    | mk o p1 =>
      cases o with
      | true => rfl
      | false => simp [BinR.parse, hb1] at hp
  obtain ⟨s', e1, hr⟩ := srcParse_sim (coming_sims e [] s.conn.out s.conn.fails) _ (s := s)
    (p := BinR.mk (b ++ (more ++ [0])) 0) ⟨rfl, rfl, hs, by rw [h]; simp, fun _ => ⟨s.conn.inp, by simp⟩⟩ hh hp (by simp)
  obtain ⟨_, _, r3, r4, _⟩ := hr
  refine ⟨s', e1, r3, ?_⟩
  have r4' : s'.buf ++ s'.conn.inp.flatten ++ [0] = more ++ [0] := r4.symm
  exact List.append_cancel_right r4'

/-- **C107** Graphs written one after the other, in binary form, are read one after the other
by `FromBinaryBufioReader` from one reader, however the bytes arrive; then it returns nil. -/
theorem C107 (e : ConnEnd) (gs : List Graph) (hg : ∀ g ∈ gs, Encodable E g) :
    ∃ bs : List Bytes, (∀ (i : Nat) (g : Graph), gs[i]? = some g → ∃ b, bs[i]? = some b ∧ g.binary E = .ok (some b)) ∧ bs.length = gs.length ∧
      ∀ ss out fs, Segments bs.flatten ss →
        ∃ s, fromBufioN e gs.length ⟨[], ⟨ss, out, fs⟩⟩ = .ok (gs.map fun g => .node (.str b!"_") (visibleL E g.out), s) ∧ fromBufio e s = .ok (.nil, s) := by
  have key : ∃ bs : List Bytes, (∀ (i : Nat) (g : Graph), gs[i]? = some g → ∃ b, bs[i]? = some b ∧ g.binary E = .ok (some b)) ∧ bs.length = gs.length ∧
      ∀ s : BufConn, (∀ x ∈ s.conn.inp, x ≠ []) → s.buf ++ s.conn.inp.flatten = bs.flatten →
        ∃ s', fromBufioN e gs.length s = .ok (gs.map fun g => .node (.str b!"_") (visibleL E g.out), s') ∧ (∀ x ∈ s'.conn.inp, x ≠ []) ∧ s'.buf ++ s'.conn.inp.flatten = [] := by
    induction gs with
    | nil => exact ⟨[], fun i g hi => by simp at hi, rfl, fun s h1 h2 => ⟨s, rfl, h1, h2⟩⟩
    | cons g gs ih =>
      obtain ⟨bs, h1, h2, h3⟩ := ih fun g hm => hg g (List.mem_cons_of_mem _ hm)
      have hge := hg g (List.mem_cons_self ..)
      obtain ⟨b, hb, _⟩ := parse_binary E hge
      refine ⟨b :: bs, fun i g' hi => ?_, by simp [h2], fun s hs hf => ?_⟩
      · cases i with
        | zero => simp only [List.getElem?_cons_zero, Option.some.injEq] at hi; subst hi; exact ⟨b, rfl, hb⟩
        | succ i => exact h1 i g' (by simpa using hi)
      · obtain ⟨s1, e1, n1, f1⟩ := fromBufio_message E e hge hb bs.flatten s hs (by simpa using hf)
        obtain ⟨s2, e2, n2, f2⟩ := h3 s1 n1 f1
        refine ⟨s2, ?_, n2, f2⟩
        simp only [List.length_cons, fromBufioN, e1, Res.ok_bind, e2, List.map_cons]
  obtain ⟨bs, h1, h2, h3⟩ := key
  refine ⟨bs, h1, h2, fun ss out fs hs => ?_⟩
  obtain ⟨s, e1, n1, f1⟩ := h3 ⟨[], ⟨ss, out, fs⟩⟩ hs.2 (by simpa using hs.1)
  refine ⟨s, e1, ?_⟩
  obtain ⟨buf, ⟨inp, o, f⟩⟩ := s
  dsimp only at n1 f1
  obtain ⟨rfl, hi⟩ := List.append_eq_nil_iff.1 f1
  have hin : inp = [] := by
    cases inp with
    | nil => rfl
    | cons x xs =>
      simp only [List.flatten_cons, List.append_eq_nil_iff] at hi
      exact absurd hi.1 (n1 x (List.mem_cons_self ..))
  subst hin
  cases e <;> rfl

/-- **C107** (files) A file with the binary form of a graph gives the graph; a file that is
missing or empty gives nil. -/
theorem C107_file (g : Graph) (hg : Encodable E g) : fromBinaryFile none = .ok .nil ∧ fromBinaryFile (some []) = .ok .nil ∧
    ∃ b, g.binary E = .ok (some b) ∧ fromBinaryFile (some b) = .ok (.node (.str b!"_") (visibleL E g.out)) := by
  obtain ⟨b, hb, h2, h3⟩ := parse_binary E hg
  refine ⟨rfl, rfl, b, hb, ?_⟩
  have hp := h3 [] 0 (b.length + 1) (by omega)
  have hne : b ≠ [] := fun e => by subst e; simp [BinR.parse, BinR.header, BinR.read] at hp
  rw [List.append_nil] at hp
  simp only [fromBinaryFile, fromBinary, fromBinaryFuel, hp, Res.ok_bind]
  rw [if_neg (by simpa using hne)]

/-- The hypotheses are met: two graphs in three segments, none of which is a graph. -/
example : (∀ g ∈ [Graph.node .nil [.node (.str b!"a") []], .node .nil [.node (.str b!"b") []]], Encodable E g) ∧
    Segments ([1, 71, 0, 1, 97, 0, 0] ++ [1, 71, 0, 1, 98, 0, 0] : Bytes) [[1, 71], [0, 1, 97, 0, 0, 1, 71], [0, 1, 98, 0, 0]] := by
  refine ⟨fun g hg => ?_, by decide, by decide⟩
  simp only [List.mem_cons, List.not_mem_nil, or_false] at hg
  rcases hg with rfl | rfl
  all_goals
    refine ⟨by simp [NoNil, NoNilL], by simp [AllThisL, AllThis, Storable, vbytes], ?_⟩
    simp [visibleL, visible, vbytes, depthL, depth]

end Ogdl
