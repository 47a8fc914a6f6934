import Verif.Lemmas.KernelRfl
import Verif.Lemmas.Parsed
import Verif.Props.Rf1

/-!
# C106: a call returns a response or an error
-/

namespace Ogdl
open Spec

/-- A response with nodes and no error, or no response and an error. -/
def Spec.ResponseOrError (r : Graph × Option RfErr) : Prop := (r.1.out ≠ [] ∧ r.2 = none) ∨ (r.1 = .nil ∧ r.2 ≠ none)

/-- No read returns zero bytes without an error. -/
def Spec.NoEmptyReads (c : Conn) : Prop := ∀ s ∈ c.inp, s ≠ []

theorem response_of {r : Graph} (h : ¬ (r.isNil || r.out.isEmpty) = true) : ResponseOrError (r, none) :=
  .inl ⟨fun e => h (by simp [show r.out = [] from e]), rfl⟩

theorem error_of (e : RfErr) : ResponseOrError (.nil, some e) := .inr ⟨rfl, nofun⟩

theorem write_inp (c : Conn) (b : Bytes) : (c.write b).2.inp = c.inp := by
  unfold Conn.write
  split <;> rfl

theorem read_noEmpty {c : Conn} (h : NoEmptyReads c) {n : Nat} (hn : 0 < n) : (c.read n).1 ≠ some [] ∧ NoEmptyReads (c.read n).2 := by
  unfold Conn.read
  split
  · exact ⟨nofun, h⟩
  · rename_i s rest e
    have hs := h s (by rw [e]; simp)
    have hr : ∀ t ∈ rest, t ≠ [] := fun t ht => h t (by rw [e]; simp [ht])
    split
    · exact ⟨fun e => hs (Option.some.inj e), hr⟩
    · rename_i hlt
      refine ⟨fun e => ?_, fun t ht => ?_⟩
      · have := congrArg List.length (Option.some.inj e)
        simp only [List.length_take, List.length_nil] at this
        omega
      · rcases List.mem_cons.1 ht with rfl | ht
        · intro e
          have := congrArg List.length e
          simp only [List.length_drop, List.length_nil] at this
          omega
        · exact hr t ht

theorem readBody_error (l : Nat) : ∀ (f l2 : Nat) (buf : Bytes) (c : Conn) (e : Option RfErr) (c' : Conn), NoEmptyReads c → readBody l f l2 buf c = .ok (.error e, c') → e ≠ none
  | 0, _, _, _, _, _, _, h => by cases h
  | f + 1, l2, buf, c, e, c', hc, h => by
    unfold readBody at h
    have h1 := read_noEmpty hc (n := 10000) (by omega)
    split at h
    · cases h; nofun
    · rename_i hr
      rw [hr] at h1
      exact absurd rfl h1.1
    · rename_i hr
      rw [hr] at h1
      dsimp only at h
      split at h
      · cases h
      · exact readBody_error l f _ _ _ _ _ h1.2 h

variable (E : Ext)

theorem callV2_result {g : Graph} {k k' : Conn} {r : Graph × Option RfErr} (hk : NoEmptyReads k) (h : callV2 E g k = .ok (r, k')) : ResponseOrError r := by
  unfold callV2 at h
  obtain ⟨b, _, h⟩ := res_bind_ok h
  dsimp only at h
  split at h
  · cases h; exact error_of _
  · rename_i c1 e1
    have i1 : c1.inp = k.inp := by have := write_inp k (be32 (b.getD []).length); rwa [e1] at this
    split at h
    · cases h; exact error_of _
    · rename_i c2 e2
      have i2 : c2.inp = c1.inp := by have := write_inp c1 (b.getD []); rwa [e2] at this
      split at h
      · cases h; exact error_of _
      · rename_i b4 c3 e3
        have i3 : NoEmptyReads c3 := by
          have := (read_noEmpty (c := c2) (by unfold NoEmptyReads; rw [i2, i1]; exact hk) (n := 4) (by omega)).2
          rwa [e3] at this
        split at h
        · cases h; exact error_of _
        · obtain ⟨⟨x, c4⟩, h4, h⟩ := res_bind_ok h
          cases x with
          | error e =>
            cases h
            exact .inr ⟨rfl, readBody_error _ _ _ _ _ _ _ i3 h4⟩
          | ok buf3 =>
            dsimp only at h
            obtain ⟨g', _, h⟩ := res_bind_ok h
            split at h
            · cases h; exact error_of _
            · rename_i hn
              cases h
              exact response_of hn

theorem callV1_result {e : ConnEnd} {g : Graph} {k : Conn} {k' : Option Conn} {r : Graph × Option RfErr} (h : callV1 E e g k = .ok (r, k')) : ResponseOrError r := by
  unfold callV1 at h
  obtain ⟨b, _, h⟩ := res_bind_ok h
  dsimp only at h
  split at h
  · cases h; exact error_of _
  · obtain ⟨⟨g', c'⟩, _, h⟩ := res_bind_ok h
    dsimp only at h
    split at h
    · cases h; exact error_of _
    · rename_i hn
      cases h
      exact response_of hn


theorem callLoop_result {g : Graph} : ∀ (n : Nat) (c : Client) {r : Graph × Option RfErr} {c' : Client}, (∀ k, some k ∈ tries c → NoEmptyReads k) →
    callLoop E g n c = .ok (r, c') → ResponseOrError r
  | n, ⟨conn, dials, dr, cl⟩, r, c', hc, h => by
    have turn : ∀ (k : Conn) (cl : List Conn) (ds : List (Option Conn)), NoEmptyReads k → (∀ k, some k ∈ ds → NoEmptyReads k) → (do
          match ← callV2 E g k with
          | ((r, none), k) => .ok ((r, none), ({ conn := some k, dials := ds, dropped := dr, closed := cl } : Client))
          | ((r, some e), k) =>
            match n with
            | 0 => .ok ((r, some e), ({ conn := some k, dials := ds, dropped := dr, closed := cl } : Client))
            | n + 1 => callLoop E g n { conn := none, dials := ds, dropped := dr ++ [k], closed := cl }) = Res.ok (r, c') → ResponseOrError r := by
      intro k cl ds hk hds h
      obtain ⟨⟨⟨r1, e1⟩, k1⟩, h1, h⟩ := res_bind_ok h
      have h2 := callV2_result E hk h1
      cases e1 with
      | none => cases h; exact h2
      | some err =>
        cases n with
        | zero => cases h; exact h2
        | succ n => exact callLoop_result n ⟨none, ds, dr ++ [k1], cl⟩ hds h
    rw [callLoop] at h
    cases conn with
    | some k => exact turn k cl dials (hc k (by simp [tries])) (fun k' hk => hc k' (by simp [tries, hk])) h
    | none =>
      cases dials with
      | nil => cases h; exact error_of _
      | cons d ds =>
        cases d with
        | none => cases h; exact error_of _
        | some k => exact turn k cl ds (hc k (by simp [tries])) (fun k' hk => hc k' (by simp [tries, hk])) h

theorem callLoop1_result {e : ConnEnd} {g : Graph} : ∀ (n : Nat) (c : Client) {r : Graph × Option RfErr} {c' : Client},
    callLoop1 E e g n c = .ok (r, c') → ResponseOrError r
  | n, ⟨conn, dials, dr, cl⟩, r, c', h => by
    have turn : ∀ (k : Conn) (cl : List Conn) (ds : List (Option Conn)), (do
          match ← callV1 E e g k with
          | ((r, none), k) => .ok ((r, none), ({ conn := k, dials := ds, dropped := dr, closed := cl } : Client))
          | ((r, some err), k) =>
            match n with
            | 0 => .ok ((r, some err), ({ conn := k, dials := ds, dropped := dr, closed := cl } : Client))
            | n + 1 => callLoop1 E e g n { conn := none, dials := ds, dropped := dr ++ k.toList, closed := cl }) = Res.ok (r, c') → ResponseOrError r := by
      intro k cl ds h
      obtain ⟨⟨⟨r1, e1⟩, k1⟩, h1, h⟩ := res_bind_ok h
      have h2 := callV1_result E h1
      cases e1 with
      | none => cases h; exact h2
      | some err =>
        cases n with
        | zero => cases h; exact h2
        | succ n => exact callLoop1_result n _ h
    rw [callLoop1] at h
    cases conn with
    | some k => exact turn k cl dials h
    | none =>
      cases dials with
      | nil => cases h; exact error_of _
      | cons d ds =>
        cases d with
        | none => cases h; exact error_of _
        | some k => exact turn k cl ds h

/-- **C106** A call that returns gives a response with nodes and no error, or no response and
an error: for every request, every client, however its connections behave.  Here protocol 2,
on connections where no read returns zero bytes without an error. -/
theorem C106_partial (g : Graph) (c : Client) (hc : ∀ k, some k ∈ tries c → NoEmptyReads k) (r : Graph × Option RfErr) (c' : Client) (h : call E g c = .ok (r, c')) :
    ResponseOrError r := callLoop_result E 2 c hc h

/-- **C106** for protocol 1, on all connections. -/
theorem C106_protocol1 (e : ConnEnd) (g : Graph) (c : Client) (r : Graph × Option RfErr) (c' : Client) (h : call1 E e g c = .ok (r, c')) :
    ResponseOrError r := callLoop1_result E 2 c h

/-- Both ends occur: no dial succeeds; a response with nodes in one segment. -/
example (g : Graph) {req : Bytes} (hg : g.binary E = .ok (some req)) : (∃ c', call E g {} = .ok ((.nil, some .cannotConnect), c')) ∧
    ∃ c', call E g { conn := some ⟨[be32 7, [1, 71, 0, 1, 97, 0, 0]], [], []⟩ } = .ok ((.node (.str b!"_") [.node (.str b!"a") []], none), c') := by
  refine ⟨⟨_, rfl⟩, ⟨{ conn := some ⟨[], [be32 req.length, req], []⟩ }, ?_⟩⟩
  rw [call, callLoop]
  simp only [callV2, hg]
  kernel_rfl

/-- C106 is false for protocol 2 when a read of the body returns zero bytes without an error,
as `io.Reader` allows: `Call` then returns no response and no error. -/
theorem C106_refuted (g : Graph) (req : Bytes) (hg : g.binary E = .ok (some req)) :
    ∃ c', call E g { conn := some ⟨[be32 6, []], [], []⟩ } = .ok ((.nil, none), c') := by
  refine ⟨{ conn := some ⟨[], [be32 req.length, req], []⟩ }, ?_⟩
  rw [call, callLoop]
  simp only [callV2, hg]
  kernel_rfl

end Ogdl
