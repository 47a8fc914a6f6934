import Verif.Lemmas.Rf1
import Verif.Props.Rf

/-!
# C80, C81: remote functions without a length (protocol 1)

`Spec.Exchange`: requests that arrive one after the other, each cut into any segments,
with the bytes of the answers.  `Spec.Segments b ss`: the bytes `b` cut anywhere.
`ConnEnd` says how a connection ends: closed by the other side, or at the deadline.
-/

namespace Ogdl
open Spec

/-! ## C80: segmentation and calls -/

/-- **C80** (server) Requests that come one after the other are all answered, in order,
each with one write, however each of them has been cut on the way and however the
connection ends.  For all requests, handlers and segmentations.  Partial: a request
that arrives together with the one before it is lost, see below. -/
theorem C80_server_partial (E : Ext) (e : ConnEnd) (handler : Graph → Res Graph) (segments answers : List Bytes)
    (h : Exchange E handler segments answers) : serveConn1 E e handler ⟨segments, [], []⟩ = .ok ⟨[], answers, []⟩ := by
  have := process1N_exchange e h [] _ (fuel_gt ⟨segments, [], []⟩)
  simpa [serveConn1] using this

/-- A request that arrives in one segment with the one before it is never answered: for
every handler and every two requests that fit into 4096 bytes. -/
theorem C80_together_refuted (E : Ext) (e : ConnEnd) (handler : Graph → Res Graph) (g : Graph) (hg : Encodable E g) {b b' : Bytes}
    (hb : g.binary E = .ok (some b)) (hlen : (b ++ b').length ≤ 4096) {r : Graph} {a : Option Bytes}
    (hh : handler (.node (.str b!"_") (visibleL E g.out)) = .ok r) (ha : r.binary E = .ok a) :
    serveConn1 E e handler ⟨[b ++ b'], [], []⟩ = .ok ⟨[], [a.getD []], []⟩ := by
  obtain ⟨f, hf⟩ : ∃ f, Conn.fuel ⟨[b ++ b'], [], []⟩ = f + 2 := by
    have := fuel_gt ⟨[b ++ b'], [], []⟩
    simp only [List.length_cons, List.length_nil] at this
    exact ⟨Conn.fuel ⟨[b ++ b'], [], []⟩ - 2, by omega⟩
  rw [serveConn1, hf, process1N, fromConn_ahead E e hg hb b' hlen]
  simp only [Res.ok_bind, Graph.isNil, Bool.false_eq_true, ↓reduceIte, hh, ha, Conn.write, List.nil_append]
  rw [process1N, fromConn_end]
  simp [Graph.isNil]

/-- **C80** (call) A remote call gives what the handler returns: the client writes a
request to which the server writes a response, whatever the segments in which the
request arrives, and from any segments of the response the client returns the answer
of the handler, both as the binary format shows them.  For all graphs, handlers and
segmentations. -/
theorem C80_call (E : Ext) (handler : Graph → Res Graph) (g r : Graph) (hg : Encodable E g)
    (hh : handler (.node (.str b!"_") (visibleL E g.out)) = .ok r) (hr : Encodable E r) (hrv : visibleL E r.out ≠ []) :
    ∃ request response : Bytes,
      (∀ e ss, Segments request ss → serveConn1 E e handler ⟨ss, [], []⟩ = .ok ⟨[], [response], []⟩) ∧
      (∀ e ss, Segments response ss → ∀ ds, ∃ c, call1 E e g { dials := some ⟨ss, [], []⟩ :: ds } =
          .ok ((.node (.str b!"_") (visibleL E r.out), none), c) ∧ c.conn = some ⟨[], [request], []⟩ ∧ c.dials = ds) := by
  obtain ⟨b, hb, _⟩ := parse_binary E hg
  obtain ⟨a, ha, _⟩ := parse_binary E hr
  refine ⟨b, a, ?_, ?_⟩
  · intro e ss hs
    have := C80_server_partial E e handler (ss ++ []) [a] (.cons hg hb hs hh ha .nil)
    simpa using this
  · intro e ss hs ds
    have hread := fromConn_message E e hr ha hs (later := []) (by simp) [b] []
    rw [List.append_nil] at hread
    have hv : (visibleL E r.out).isEmpty = false := by
      cases h : visibleL E r.out with
      | nil => exact absurd h hrv
      | cons => rfl
    have hc : callV1 E e g ⟨ss, [], []⟩ = .ok ((.node (.str b!"_") (visibleL E r.out), none), some ⟨[], [b], []⟩) := by
      simp [callV1, hb, Conn.write, hread, Graph.isNil, Graph.out] at hv ⊢
      exact hv
    refine ⟨{ conn := some ⟨[], [b], []⟩, dials := ds }, ?_, rfl, rfl⟩
    rw [call1, callLoop1]
    simp only [Client.dial, Client.close, Option.isNone_none, ↓reduceIte, hc, Res.ok_bind]

/-- **C50** for protocol 1: `Call` makes at most three attempts, stops at the first
success with that response and at a dial that fails with an error, and otherwise returns
the error of the third attempt.  For every history of dials, connections and responses on
which each attempt returns. -/
theorem C50_protocol1 (E : Ext) (e : ConnEnd) (g : Graph) (c : Client) (h : ∀ k, some k ∈ tries c → ∃ x, callV1 E e g k = .ok x) :
    ∃ res c', call1 E e g c = .ok (res, c') ∧ CallOutcome1 E e g 3 (tries c) res c'.dials :=
  callLoop1_outcome E e g 2 c h

/-- Three connections that end without a response: the error of the third. -/
example (E : Ext) (g : Graph) {req : Bytes} (hg : g.binary E = .ok (some req)) :
    ∃ c', call1 E .closed g { dials := [some ⟨[], [], []⟩, some ⟨[], [], []⟩, some ⟨[], [], []⟩] } = .ok ((.nil, some .emptyResponse), c') := by
  have h : callV1 E .closed g ⟨[], [], []⟩ = .ok ((.nil, some .emptyResponse), some ⟨[], [req], []⟩) := by
    have : fromConn .closed ⟨[], [req], []⟩ = .ok (.nil, ⟨[], [req], []⟩) := rfl
    simp [callV1, hg, Conn.write, this, Graph.isNil]
  obtain ⟨res, c', h1, i, hi, h2, h3, h4⟩ := C50_protocol1 E .closed g { dials := [some ⟨[], [], []⟩, some ⟨[], [], []⟩, some ⟨[], [], []⟩] }
    (by intro k hk; simp [tries] at hk; subst hk; exact ⟨_, h⟩)
  have hi3 : i = 0 ∨ i = 1 ∨ i = 2 := by omega
  refine ⟨c', ?_⟩
  rcases h4 with ⟨h4, _⟩ | ⟨k, k', h4, h5, h6⟩ | ⟨_, k, k', h4, h5, _⟩
  · rcases hi3 with rfl | rfl | rfl <;> simp [tries] at h4
  · have : k = ⟨[], [], []⟩ := by rcases hi3 with rfl | rfl | rfl <;> (simp [tries] at h4; exact h4.symm)
    subst this
    rw [h] at h5
    simp only [Res.ok.injEq, Prod.mk.injEq] at h5
    rw [← h5.1] at h6
    cases h6
  · have : k = ⟨[], [], []⟩ := by rcases hi3 with rfl | rfl | rfl <;> (simp [tries] at h4; exact h4.symm)
    subst this
    rw [h] at h5
    simp only [Res.ok.injEq, Prod.mk.injEq] at h5
    rw [h1, ← h5.1]

/-- Two requests, the first cut inside the header and inside a text, with a handler that
sends the request back. -/
example (E : Ext) : Exchange E .ok ([[1], [71, 0, 1, 97], [98, 0, 0]] ++ ([[1, 71, 0, 1, 99, 0, 0]] ++ []))
    [[1, 71, 0, 1, 97, 98, 0, 0], [1, 71, 0, 1, 99, 0, 0]] := by
  have henc : ∀ s : Bytes, s ≠ [] → 0 ∉ s → s.head? ≠ some 1 → Encodable E (.node .nil [.node (.str s) []]) := by
    intro s h1 h2 h3
    refine ⟨by simp [NoNil, NoNilL], ?_, ?_⟩
    · simp [AllThisL, AllThis, Storable, vbytes, h2, h3]
    · simp [visibleL, visible, vbytes, depthL, depth, h1]
  refine .cons (g := .node .nil [.node (.str b!"ab") []]) (b := [1, 71, 0, 1, 97, 98, 0, 0]) (a := some [1, 71, 0, 1, 97, 98, 0, 0])
    (henc _ (by decide) (by decide) (by decide)) ?_ ⟨by decide, by decide⟩ rfl ?_
    (.cons (g := .node .nil [.node (.str b!"c") []]) (b := [1, 71, 0, 1, 99, 0, 0]) (a := some [1, 71, 0, 1, 99, 0, 0])
      (henc _ (by decide) (by decide) (by decide)) ?_ ⟨by decide, by decide⟩ rfl ?_ .nil)
  · simp [Graph.binary, Graph.binList, Graph.bin, vbytes, newVarInt, byteOf]
  · simp [Graph.binary, Graph.binList, Graph.bin, vbytes, newVarInt, byteOf, visibleL, visible, Graph.out]
  · simp [Graph.binary, Graph.binList, Graph.bin, vbytes, newVarInt, byteOf]
  · simp [Graph.binary, Graph.binList, Graph.bin, vbytes, newVarInt, byteOf, visibleL, visible, Graph.out]

/-! ## C81: requests that are cut short -/

theorem read_front (c c' : Conn) (n : Nat) (s : Bytes) (h : c.read n = (some s, c')) :
    s ++ c'.inp.flatten = c.inp.flatten ∧ c'.out = c.out ∧ c'.fails = c.fails := by
  obtain ⟨inp, out, fs⟩ := c
  cases inp with
  | nil => simp [Conn.read] at h
  | cons a inp =>
    simp only [Conn.read] at h
    split at h
    · cases h; exact ⟨rfl, rfl, rfl⟩
    · cases h
      refine ⟨?_, rfl, rfl⟩
      simp only [List.flatten_cons]
      rw [← List.append_assoc, List.take_append_drop]

theorem read_fail (c c' : Conn) (n : Nat) (h : c.read n = (none, c')) : c' = c := by
  obtain ⟨inp, out, fs⟩ := c
  cases inp with
  | nil => simp [Conn.read] at h; exact h.symm
  | cons a inp =>
    simp only [Conn.read] at h
    split at h <;> simp at h

/-- **C81** (protocol 2) A request of which only a part arrives is not executed and not
answered: for every handler, every announced length and every segmentation of the
part.  Partial: for protocol 1 this is not so, see below. -/
theorem C81_length_partial (E : Ext) (handler : Graph → Res Graph) (h part : Bytes) (n : Nat) (hh : IsHeader h n) (hp : part.length < n)
    (ss : List Bytes) (hs : ss.flatten = h ++ part) : ∃ left, serveConn E handler ⟨ss, [], []⟩ = .ok ⟨left, [], []⟩ := by
  obtain ⟨hun, hlen⟩ := unBe32_header hh
  obtain ⟨f, hf⟩ : ∃ f, Conn.fuel ⟨ss, [], []⟩ = f + 1 := ⟨_, rfl⟩
  rw [serveConn, hf, processN]
  cases h1 : Conn.read ⟨ss, [], []⟩ 4 with
  | mk o c =>
    cases o with
    | none =>
      have := read_fail _ _ _ h1
      subst this
      exact ⟨_, rfl⟩
    | some b4 =>
      obtain ⟨e1, e2, e3⟩ := read_front _ _ _ _ h1
      obtain ⟨inp, out, fs⟩ := c
      simp only at e1 e2 e3
      subst e2 e3
      dsimp only
      split
      · exact ⟨_, rfl⟩
      · rename_i hl
        have hl : b4.length = h.length := by omega
        rw [hs] at e1
        obtain ⟨rfl, e2⟩ := List.append_inj e1 hl
        simp only [hun]
        rw [if_neg (by omega)]
        cases h2 : Conn.read ⟨inp, [], []⟩ n with
        | mk o c =>
          cases o with
          | none =>
            have := read_fail _ _ _ h2
            subst this
            exact ⟨_, rfl⟩
          | some buf =>
            obtain ⟨e4, e5, e6⟩ := read_front _ _ _ _ h2
            obtain ⟨inp, out, fs⟩ := c
            simp only at e4 e5 e6
            subst e5 e6
            rw [e2] at e4
            have := congrArg List.length e4
            simp only [List.length_append] at this
            dsimp only
            rw [if_pos (by omega)]
            exact ⟨_, rfl⟩

/-- Of a request of 20 bytes three arrive, one of them with the header. -/
example : ∃ (h part : Bytes) (ss : List Bytes), IsHeader h 20 ∧ part.length < 20 ∧ ss.flatten = h ++ part ∧ ss.length = 2 :=
  ⟨[0, 0, 0, 20], [1, 71, 0], [[0, 0, 0, 20, 1], [71, 0]], ⟨0, 0, 0, 20, rfl, rfl⟩, by decide, by decide, rfl⟩

/-- Protocol 1: of the request `abc` the part `ab` arrives; at the deadline the server
executes the request `ab`, for every handler. -/
theorem C81_deadline_refuted (E : Ext) (handler : Graph → Res Graph) {r : Graph} {a : Option Bytes}
    (hh : handler (.node (.str b!"_") [.node (.str b!"ab") []]) = .ok r) (ha : r.binary E = .ok a) :
    (Graph.node .nil [.node (.str b!"abc") []]).binary E = .ok (some ([1, 71, 0, 1, 97, 98] ++ [99, 0, 0])) ∧
    serveConn1 E .deadline handler ⟨[[1, 71, 0, 1, 97, 98]], [], []⟩ = .ok ⟨[], [a.getD []], []⟩ := by
  refine ⟨by simp [Graph.binary, Graph.binList, Graph.bin, vbytes, newVarInt, byteOf], ?_⟩
  have h1 : fromConn .deadline ⟨[[1, 71, 0, 1, 97, 98]], [], []⟩ = .ok (.node (.str b!"_") [.node (.str b!"ab") []], ⟨[], [], []⟩) := by
    rfl
  have hf : Conn.fuel ⟨[[1, 71, 0, 1, 97, 98]], [], []⟩ = 6 + 2 := rfl
  rw [serveConn1, hf, process1N, h1]
  simp only [Res.ok_bind, Graph.isNil, Bool.false_eq_true, ↓reduceIte, hh, ha, Conn.write, List.nil_append]
  rw [process1N, fromConn_end]
  simp [Graph.isNil]

theorem srcTextNode_closed (k : Conn) (hk : k.inp = []) : ∀ (f : Nat) (buf : Bytes),
    srcTextNode (BufConn.read .closed) ⟨[], k⟩ f buf = .oof
  | 0, _ => rfl
  | f + 1, buf => by
    obtain ⟨inp, out, fs⟩ := k
    simp only at hk
    subst hk
    have : BufConn.read .closed ⟨[], ⟨[], out, fs⟩⟩ = (none, ⟨[], ⟨[], out, fs⟩⟩) := rfl
    rw [srcTextNode, this]
    exact srcTextNode_closed ⟨[], out, fs⟩ rfl f _

/-- If the client closes the connection instead, the server never returns from reading
that part. -/
theorem C81_closed_refuted (fuel : Nat) : fromConnFuel .closed fuel ⟨[[1, 71, 0, 1, 97, 98]], [], []⟩ = .oof := by
  have hh : srcHeader (BufConn.read .closed) ⟨[], ⟨[[1, 71, 0, 1, 97, 98]], [], []⟩⟩ = (true, ⟨[1, 97, 98], ⟨[], [], []⟩⟩) := rfl
  have hv : srcVarInt (BufConn.read .closed) ⟨[1, 97, 98], ⟨[], [], []⟩⟩ = (1, ⟨[97, 98], ⟨[], [], []⟩⟩) := rfl
  have hr : BufConn.read .closed ⟨[97, 98], ⟨[], [], []⟩⟩ = (some 97, ⟨[98], ⟨[], [], []⟩⟩) := rfl
  have hr2 : BufConn.read .closed ⟨[98], ⟨[], [], []⟩⟩ = (some 98, ⟨[], ⟨[], [], []⟩⟩) := rfl
  have ht : srcTextNode (BufConn.read .closed) ⟨[98], ⟨[], [], []⟩⟩ fuel [97] = .oof := by
    cases fuel with
    | zero => rfl
    | succ f =>
      rw [srcTextNode, hr2]
      exact srcTextNode_closed ⟨[], [], []⟩ rfl f _
  have hl : srcLine (BufConn.read .closed) ⟨[1, 97, 98], ⟨[], [], []⟩⟩ fuel = .oof := by
    rw [srcLine, hv]
    simp only [hr]
    rw [if_neg (by decide)]
    show (srcTextNode (BufConn.read .closed) ⟨[98], ⟨[], [], []⟩⟩ fuel [97] >>= _) = _
    rw [ht]
    rfl
  rw [fromConnFuel, srcParse, hh]
  cases fuel with
  | zero => rfl
  | succ f =>
    simp only [srcLines, hl]
    rfl

end Ogdl
