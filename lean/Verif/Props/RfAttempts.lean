import Verif.Spec.RfAttempts
import Verif.Lemmas.KernelRfl
import Verif.Lemmas.Parsed
import Verif.Props.Rf

/-!
# C69 and C70: the attempts of a call, and what becomes of its connections
-/

namespace Ogdl
open Spec

theorem write_part {c : Conn} {b : Bytes} : ((c.write b).1 = true ∧ (c.write b).2.out = c.out ++ [b]) ∨
    ((c.write b).1 = false ∧ ∃ n, (c.write b).2.out = c.out ++ [b.take n]) := by
  unfold Conn.write
  split
  · exact .inr ⟨rfl, _, rfl⟩
  · exact .inl ⟨rfl, rfl⟩
  · exact .inl ⟨rfl, rfl⟩

variable (E : Ext)

/-- An attempt writes one message or a part of it. -/
theorem attempt_writes {g : Graph} {req : Bytes} (hg : g.binary E = .ok (some req)) (hl : req.length < 2 ^ 32) {k k' : Conn} {r : Graph × Option RfErr}
    (h : callV2 E g k = .ok (r, k')) : ∃ ps, k'.out = k.out ++ ps ∧ PartOfMessage ps req := by
  have hh := be32_header _ hl
  simp only [callV2, hg, Res.ok_bind, Option.getD_some] at h
  have w1 := write_part (c := k) (b := be32 req.length)
  split at h
  · rename_i c1 e1
    rw [e1] at w1
    cases h
    rcases w1 with ⟨h, _⟩ | ⟨_, n, h⟩
    · cases h
    · exact ⟨_, h, .inr ⟨_, n, hh, .inl rfl⟩⟩
  · rename_i c1 e1
    rw [e1] at w1
    rcases w1 with ⟨_, o1⟩ | ⟨h, _⟩
    · have w2 := write_part (c := c1) (b := req)
      split at h
      · rename_i c2 e2
        rw [e2] at w2
        cases h
        rcases w2 with ⟨h, _⟩ | ⟨_, n, o2⟩
        · cases h
        · refine ⟨[be32 req.length, req.take n], ?_, .inr ⟨_, n, hh, .inr rfl⟩⟩
          dsimp only at o1 o2
          rw [o2, o1]; simp
      · rename_i c2 e2
        rw [e2] at w2
        rcases w2 with ⟨_, o2⟩ | ⟨h, _⟩
        · have key : k'.out = c2.out → ∃ ps, k'.out = k.out ++ ps ∧ PartOfMessage ps req := fun ho => by
            refine ⟨[be32 req.length, req], ?_, .inl ⟨_, rfl, hh⟩⟩
            dsimp only at o1 o2
            rw [ho, o2, o1]; simp
          have r1 := read_out c2 4
          split at h
          · rename_i e3
            rw [e3] at r1
            cases h; exact key r1
          · rename_i e3
            rw [e3] at r1
            split at h
            · cases h; exact key r1
            · obtain ⟨⟨x, c4⟩, h4, h⟩ := res_bind_ok h
              have r4 := readBody_out _ _ _ _ _ _ _ h4
              cases x with
              | error e => cases h; exact key (r4.trans r1)
              | ok buf =>
                dsimp only at h
                obtain ⟨g', _, h⟩ := res_bind_ok h
                split at h <;> cases h <;> exact key (r4.trans r1)
        · cases h
    · cases h

theorem callLoop_attempts {g : Graph} : ∀ (n : Nat) (c : Client) {r : Graph} {e : Option RfErr} {c' : Client}, callLoop E g n c = .ok ((r, e), c') →
    ∃ fs : List (Conn × Conn), fs.length ≤ n ∧ (∀ f ∈ fs, ∃ e, Attempted E g f.1 f.2 (some e)) ∧ c'.dropped = c.dropped ++ fs.map (·.2) ∧ c'.closed = c.closed ∧
      ((∃ k k', tries c = fs.map (fun f => some f.1) ++ some k :: c'.dials ∧ callV2 E g k = .ok ((r, e), k') ∧ c'.conn = some k' ∧ (e = none ∨ fs.length = n)) ∨
       ((tries c = fs.map (fun f => some f.1) ++ none :: c'.dials ∨ tries c = fs.map (fun f => some f.1) ∧ c'.dials = []) ∧ r = .nil ∧ e = some .cannotConnect ∧ c'.conn = none))
  | n, ⟨conn, dials, dr, cl⟩, r, e, c', h => by
    have turn : ∀ (k : Conn) (ds : List (Option Conn)), (do
          match ← callV2 E g k with
          | ((r, none), k) => .ok ((r, none), ({ conn := some k, dials := ds, dropped := dr, closed := cl } : Client))
          | ((r, some e), k) =>
            match n with
            | 0 => .ok ((r, some e), ({ conn := some k, dials := ds, dropped := dr, closed := cl } : Client))
            | n + 1 => callLoop E g n { conn := none, dials := ds, dropped := dr ++ [k], closed := cl }) = Res.ok ((r, e), c') →
        ∃ fs : List (Conn × Conn), fs.length ≤ n ∧ (∀ f ∈ fs, ∃ e, Attempted E g f.1 f.2 (some e)) ∧ c'.dropped = dr ++ fs.map (·.2) ∧ c'.closed = cl ∧
          ((∃ l l', some k :: ds = fs.map (fun f => some f.1) ++ some l :: c'.dials ∧ callV2 E g l = .ok ((r, e), l') ∧ c'.conn = some l' ∧ (e = none ∨ fs.length = n)) ∨
           ((some k :: ds = fs.map (fun f => some f.1) ++ none :: c'.dials ∨ some k :: ds = fs.map (fun f => some f.1) ∧ c'.dials = []) ∧ r = .nil ∧ e = some .cannotConnect ∧ c'.conn = none)) := by
      intro k ds h
      obtain ⟨⟨⟨r1, e1⟩, k1⟩, h1, h⟩ := res_bind_ok h
      cases e1 with
      | none => cases h; exact ⟨[], by simp, by simp, by simp, rfl, .inl ⟨k, k1, rfl, h1, rfl, .inl rfl⟩⟩
      | some err =>
        cases n with
        | zero => cases h; exact ⟨[], by simp, by simp, by simp, rfl, .inl ⟨k, k1, rfl, h1, rfl, .inr rfl⟩⟩
        | succ n =>
          obtain ⟨fs, a1, a2, a3, a4, a5⟩ := callLoop_attempts n ⟨none, ds, dr ++ [k1], cl⟩ h
          refine ⟨(k, k1) :: fs, by simp; omega, ?_, by simp [a3], a4, ?_⟩
          · intro f hf
            rcases List.mem_cons.1 hf with rfl | hf
            · exact ⟨err, r1, h1⟩
            · exact a2 f hf
          · have ht : tries ⟨none, ds, dr ++ [k1], cl⟩ = ds := rfl
            rw [ht] at a5
            rcases a5 with ⟨l, l', b1, b2, b3, b4⟩ | ⟨b1, b2⟩
            · exact .inl ⟨l, l', by simp only [List.map_cons, List.cons_append]; rw [← b1], b2, b3, b4.imp id (fun h => by simp [h])⟩
            · refine .inr ⟨?_, b2⟩
              rcases b1 with b1 | ⟨b1, b3⟩
              · exact .inl (by simp only [List.map_cons, List.cons_append]; rw [← b1])
              · exact .inr ⟨by simp only [List.map_cons]; rw [← b1], b3⟩
    rw [callLoop] at h
    cases conn with
    | some k => exact turn k dials h
    | none =>
      cases dials with
      | nil => cases h; exact ⟨[], by simp, by simp, by simp [Client.close], rfl, .inr ⟨.inr ⟨rfl, rfl⟩, rfl, rfl, rfl⟩⟩
      | cons d ds =>
        cases d with
        | none => cases h; exact ⟨[], by simp, by simp, by simp [Client.close], rfl, .inr ⟨.inl rfl, rfl, rfl, rfl⟩⟩
        | some k => exact turn k ds h

/-- **C69** A request is written, wholly or in part, at most once on each of at most three
connections, and on no other: for all requests, clients and failures.  All attempts but the
last have failed; there is a second or third one only after a failure.  Partial: how often
a server executes it, see `C69_refuted`. -/
theorem C69_attempts_partial (g : Graph) {req : Bytes} (hg : g.binary E = .ok (some req)) (hl : req.length < 2 ^ 32) (c c' : Client) (r : Graph) (e : Option RfErr)
    (h : call E g c = .ok ((r, e), c')) :
    ∃ ks : List (Conn × Conn), ks.length ≤ 3 ∧
      (∀ k ∈ ks, ∃ ps, k.2.out = k.1.out ++ ps ∧ PartOfMessage ps req) ∧
      ((tries c = ks.map (fun k => some k.1) ++ c'.dials ∧ c'.dropped ++ c'.conn.toList = c.dropped ++ ks.map (·.2) ∧
          ∃ k ∈ ks.getLast?, callV2 E g k.1 = .ok ((r, e), k.2)) ∨
        ((tries c = ks.map (fun k => some k.1) ++ none :: c'.dials ∨ tries c = ks.map (fun k => some k.1)) ∧ c'.dropped = c.dropped ++ ks.map (·.2) ∧
          e = some .cannotConnect ∧ ∀ k ∈ ks, ∃ e, Attempted E g k.1 k.2 (some e))) ∧
      ∀ k ∈ ks.dropLast, ∃ e, Attempted E g k.1 k.2 (some e) := by
  obtain ⟨fs, h1, h2, h3, h4, h5⟩ := callLoop_attempts E 2 c h
  rcases h5 with ⟨k, k', b1, b2, b3, _⟩ | ⟨b1, b2, b3, b4⟩
  · refine ⟨fs ++ [(k, k')], by simp; omega, ?_, .inl ⟨by simp [b1], by simp [h3, b3], (k, k'), by simp, b2⟩, by simpa using h2⟩
    intro f hf
    rcases List.mem_append.1 hf with hf | hf
    · obtain ⟨e, r, hx⟩ := h2 f hf
      exact attempt_writes E hg hl hx
    · rw [List.mem_singleton.1 hf]
      exact attempt_writes E hg hl b2
  · refine ⟨fs, by omega, ?_, .inr ⟨b1.imp id (·.1), h3, b3, h2⟩, fun f hf => h2 f (List.dropLast_subset _ hf)⟩
    intro f hf
    obtain ⟨e, r, hx⟩ := h2 f hf
    exact attempt_writes E hg hl hx

/-- **C70** What a call leaves open, exactly: the connections on which an attempt failed that
was followed by another one, or by a failed dial.  `Close` closes the one in use. -/
theorem C70_exact (g : Graph) (c c' : Client) (r : Graph) (e : Option RfErr) (h : call E g c = .ok ((r, e), c')) :
    ∃ fs : List (Conn × Conn), fs.length ≤ 2 ∧ (fs.map (fun f => some f.1)) <+: tries c ∧ (∀ f ∈ fs, ∃ e, Attempted E g f.1 f.2 (some e)) ∧
      (e = none → ∃ k k', fs.map (fun f => some f.1) ++ [some k] <+: tries c ∧ Attempted E g k k' none) ∧
      c'.close.conn = none ∧ c'.close.dropped = c.dropped ++ fs.map (·.2) ∧ c'.close.closed = c.closed ++ c'.conn.toList := by
  obtain ⟨fs, h1, h2, h3, h4, h5⟩ := callLoop_attempts E 2 c h
  have hc : c'.close.conn = none ∧ c'.close.dropped = c'.dropped ∧ c'.close.closed = c'.closed ++ c'.conn.toList := by
    unfold Client.close
    split <;> simp_all
  refine ⟨fs, h1, ?_, h2, ?_, hc.1, hc.2.1.trans h3, by rw [hc.2.2, h4]⟩
  · rcases h5 with ⟨k, k', b1, _⟩ | ⟨b1 | ⟨b1, _⟩, _⟩
    · exact ⟨_, b1.symm⟩
    · exact ⟨_, b1.symm⟩
    · rw [b1]; exact List.prefix_rfl
  · rintro rfl
    rcases h5 with ⟨k, k', b1, b2, _⟩ | ⟨_, _, b, _⟩
    · exact ⟨k, k', ⟨c'.dials, by simp [b1]⟩, r, b2⟩
    · cases b

theorem opened_append (a b : List (Option Conn)) : opened (a ++ b) = opened a + opened b := by simp [opened]

theorem opened_some (k : Conn) (a : List (Option Conn)) : opened (some k :: a) = opened a + 1 := by simp [opened]

theorem opened_none (a : List (Option Conn)) : opened (none :: a) = opened a := by simp [opened]

theorem opened_map (fs : List (Conn × Conn)) : opened (fs.map (fun f => some f.1)) = fs.length := by
  induction fs with
  | nil => rfl
  | cons f fs ih => rw [List.map_cons, opened_some, ih]; rfl

/-- The connections of a client: those in its hands, and those it may still open. -/
def Client.total (c : Client) : Nat := c.closed.length + c.dropped.length + c.conn.toList.length + opened c.dials

theorem total_close (c : Client) : c.close.total = c.total ∧ c.close.dropped = c.dropped := by
  unfold Client.close Client.total
  split <;> simp_all; omega

theorem total_dial (c : Client) : c.dial.2.total = c.total ∧ c.dial.2.dropped = c.dropped := by
  have hc : c.close.conn = none := by unfold Client.close; split <;> simp_all
  rw [← (total_close c).1, ← (total_close c).2]
  unfold Client.dial
  generalize c.close = d at *
  dsimp only
  split
  · rename_i e
    simp [Client.total, e, hc, opened_some]; omega
  · rename_i e
    simp [Client.total, e, hc, opened_none]
  · rename_i e
    simp [Client.total, e, hc]

theorem total_tries (c : Client) : c.total = c.closed.length + c.dropped.length + opened (tries c) := by
  obtain ⟨conn, ds, dr, cl⟩ := c
  cases conn <;> simp [Client.total, tries, opened_some]; omega

theorem total_call {g : Graph} {c c' : Client} {r : Graph × Option RfErr} (h : call E g c = .ok (r, c')) :
    c'.total = c.total ∧ c'.dropped.length ≤ c.dropped.length + 2 := by
  obtain ⟨fs, h1, h2, h3, h4, h5⟩ := callLoop_attempts E 2 c (r := r.1) (e := r.2) h
  refine ⟨?_, by rw [h3]; simp; omega⟩
  rw [total_tries c]
  rcases h5 with ⟨k, k', b1, _, b3, _⟩ | ⟨b1 | ⟨b1, b5⟩, _, _, b4⟩
  · rw [b1, opened_append, opened_map, opened_some]
    simp [Client.total, h3, h4, b3]; omega
  · rw [b1, opened_append, opened_map, opened_none]
    simp [Client.total, h3, h4, b4]; omega
  · rw [b1, opened_map]
    simp [Client.total, h3, h4, b4, b5, opened]; omega

theorem run_total : ∀ (ops : List ClientOp) (c c' : Client), clientRun E ops c = some c' → c'.total = c.total ∧ c'.dropped.length ≤ c.dropped.length + 2 * calls ops
  | [], c, c', h => by cases h; exact ⟨rfl, Nat.le_refl _⟩
  | .call g :: ops, c, c', h => by
    simp only [clientRun] at h
    split at h
    · rename_i r d hd
      have h1 := total_call E hd
      have h2 := run_total ops d c' h
      exact ⟨h2.1.trans h1.1, by simp only [calls]; omega⟩
    · cases h
  | .dial :: ops, c, c', h => by
    have h1 := total_dial c
    have h2 := run_total ops _ c' h
    exact ⟨h2.1.trans h1.1, by simp only [calls]; rw [h1.2] at h2; omega⟩
  | .close :: ops, c, c', h => by
    have h1 := total_close c
    have h2 := run_total ops _ c' h
    exact ⟨h2.1.trans h1.1, by simp only [calls]; rw [h1.2] at h2; omega⟩

theorem run_first : ∀ (ops : List ClientOp) (c c' : Client), FirstAttempts E ops c → clientRun E ops c = some c' → c'.dropped = c.dropped
  | [], c, c', _, h => by cases h; rfl
  | .call g :: ops, c, c', hf, h => by
    simp only [clientRun] at h
    split at h
    · rename_i r d hd
      rw [run_first ops d c' (hf.2 _ _ hd) h]
      obtain ⟨fs, h1, h2, h3, h4, h5⟩ := callLoop_attempts E 2 c (r := r.1) (e := r.2) hd
      cases fs with
      | nil => simpa using h3
      | cons f fs =>
        have ht : (tries c).head? = some (some f.1) := by
          rcases h5 with ⟨_, _, b, _⟩ | ⟨b | ⟨b, _⟩, _⟩ <;> rw [b] <;> rfl
        obtain ⟨k', r1, hk⟩ := hf.1 f.1 ht
        obtain ⟨e, r2, hk'⟩ := h2 f (by simp)
        rw [hk] at hk'
        cases hk'
    · cases h
  | .dial :: ops, c, c', hf, h => (run_first ops _ c' hf h).trans (total_dial c).2
  | .close :: ops, c, c', hf, h => (run_first ops _ c' hf h).trans (total_close c).2

theorem clientRun_append (a b : List ClientOp) (c : Client) : clientRun E (a ++ b) c = (clientRun E a c).bind (clientRun E b) := by
  induction a generalizing c with
  | nil => rfl
  | cons o a ih =>
    cases o with
    | call g =>
      simp only [List.cons_append, clientRun]
      split
      · exact ih _
      · rfl
    | dial => exact ih _
    | close => exact ih _

/-- **C70** A client that has made any number of calls, whatever their ends, and is then
closed: of the connections it opened it has closed all but the given-up ones, at most two for
each call, and none if the first attempt of each call succeeds.  Partial: see `C70_refuted`. -/
theorem C70_history_partial (ops : List ClientOp) (ds : List (Option Conn)) (c : Client) (h : clientRun E (ops ++ [.close]) { dials := ds } = some c) :
    c.conn = none ∧ c.closed.length + c.dropped.length + opened c.dials = opened ds ∧ c.dropped.length ≤ 2 * calls ops ∧
      (FirstAttempts E ops { dials := ds } → c.dropped = []) := by
  rw [clientRun_append] at h
  obtain ⟨d, hd, h⟩ := Option.bind_eq_some_iff.1 h
  cases h
  have hc := total_close d
  have h1 := run_total E ops _ _ hd
  have hn : d.close.conn = none := by unfold Client.close; split <;> simp_all
  refine ⟨hn, ?_, ?_, fun hf => ?_⟩
  · have := hc.1.trans h1.1
    simpa [Client.total, hn] using this
  · rw [hc.2]; simpa using h1.2
  · rw [hc.2, run_first E ops _ _ hf hd]

/-- Two calls whose first attempts succeed, with a failed dial between: the connections are
opened and closed. -/
example (g : Graph) {req : Bytes} (hg : g.binary E = .ok (some req)) :
    let k : Conn := ⟨[be32 7, [1, 71, 0, 1, 97, 0, 0]], [], []⟩
    let ops : List ClientOp := [.call g, .dial, .call g]
    FirstAttempts E ops { dials := [some k, none, some k] } ∧ ∃ c, clientRun E (ops ++ [.close]) { dials := [some k, none, some k] } = some c ∧ c.closed.length = 2 := by
  intro k ops
  have hk : callV2 E g k = .ok ((.node (.str b!"_") [.node (.str b!"a") []], none), ⟨[], [be32 req.length, req], []⟩) := by
    simp only [callV2, hg]; kernel_rfl
  have h1 : ∀ ds cl, call E g ⟨none, some k :: ds, [], cl⟩ = .ok ((.node (.str b!"_") [.node (.str b!"a") []], none), ⟨some ⟨[], [be32 req.length, req], []⟩, ds, [], cl⟩) := by
    intro ds cl
    rw [call, callLoop]
    simp only [Client.dial, Client.close, Option.isNone_none, ↓reduceIte, hk, Res.ok_bind]
  have hfirst : ∀ ds cl k', (tries ⟨none, some k :: ds, [], cl⟩).head? = some (some k') → ∃ k'', Attempted E g k' k'' none := by
    intro ds cl k' h
    cases h
    exact ⟨_, _, hk⟩
  refine ⟨⟨hfirst _ _, fun r c' h => ?_⟩, ?_⟩
  · rw [h1] at h
    cases h
    exact ⟨hfirst _ _, fun _ _ _ => trivial⟩
  · simp only [ops, List.cons_append, List.nil_append, clientRun, h1, Client.dial, Client.close]
    exact ⟨_, rfl, rfl⟩

/-- A call with a failure, then a success. -/
example (g : Graph) {req : Bytes} (hg : g.binary E = .ok (some req)) :
    let k : Conn := ⟨[be32 7, [1, 71, 0, 1, 97, 0, 0]], [], []⟩
    ∃ c r, call E g { dials := [some ⟨[], [], [some 2]⟩, some k] } = .ok ((r, none), c) ∧ c.dropped.map (·.out) = [[(be32 req.length).take 2]] := by
  intro k
  refine ⟨⟨some ⟨[], [be32 req.length, req], []⟩, [], [⟨[], [(be32 req.length).take 2], []⟩], []⟩, .node (.str b!"_") [.node (.str b!"a") []], ?_, rfl⟩
  have hk : callV2 E g k = .ok ((.node (.str b!"_") [.node (.str b!"a") []], none), ⟨[], [be32 req.length, req], []⟩) := by
    simp only [callV2, hg]; kernel_rfl
  have hk' : callV2 E g ⟨[], [], [some 2]⟩ = .ok ((.nil, some .writingHeader), ⟨[], [(be32 req.length).take 2], []⟩) := by
    simp only [callV2, hg]; kernel_rfl
  rw [call, callLoop]
  simp only [Client.dial, Client.close, Option.isNone_none, ↓reduceIte, hk', Res.ok_bind]
  rw [callLoop]
  simp only [Client.dial, Client.close, Option.isNone_none, ↓reduceIte, hk, Res.ok_bind]
  rfl

end Ogdl
