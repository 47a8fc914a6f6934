import Verif.Lemmas.Rf
import Verif.Props.Text
import Verif.Props.Binary

/-!
# C48, C49, C50, C68, C69: remote functions

A connection is what will arrive, in segments, and what was written.
`Spec.IsMessage`: a length in four bytes, then the body.  `Spec.Segments b ss`: the
bytes `b` cut anywhere.  `Spec.Coalesced ps ss`: segments made of whole pieces.
-/

namespace Ogdl
open Spec

/-! ## C48: routing -/

/-- The handlers after a history of `AddRoute`. -/
def routes (hist : List (Bytes × (Graph → Res Graph))) : Bytes → Option (Graph → Res Graph) :=
  hist.foldl (fun t r => addRoute t r.1 (some r.2)) (fun _ => none)

theorem routes_last (hist : List (Bytes × (Graph → Res Graph))) (s : Bytes) :
    routes hist s = (hist.reverse.find? (fun r => r.1 == s)).map (·.2) := by
  have key : ∀ (hist : List (Bytes × (Graph → Res Graph))) (t : Bytes → Option (Graph → Res Graph)),
      hist.foldl (fun t r => addRoute t r.1 (some r.2)) t s =
        match hist.reverse.find? (fun r => r.1 == s) with
        | some r => some r.2
        | none => t s := by
    intro hist
    induction hist with
    | nil => intro t; rfl
    | cons r hist ih =>
      intro t
      rw [List.foldl_cons, ih, List.reverse_cons, List.find?_append]
      cases h : hist.reverse.find? (fun r => r.1 == s) with
      | some x => rfl
      | none =>
        by_cases hr : r.1 = s
        · simp [hr, addRoute]
        · have : ¬ s = r.1 := fun h => hr h.symm
          simp [hr, addRoute, this]
  rw [routes, key]
  cases hist.reverse.find? (fun r => r.1 == s) <;> rfl

/-- **C48** A request is answered by the handler that was registered last for the text
of its first node; if there is none, or no first node, by the graph of the text
`error notFound`.  For every history of registrations and every request. -/
theorem C48_route (E : Ext) (hist : List (Bytes × (Graph → Res Graph))) (v : Val) (o : List Graph) :
    (∀ n rest h before after, o = n :: rest → hist = before ++ (n.thisString E, h) :: after → (∀ r ∈ after, r.1 ≠ n.thisString E) →
      router E (routes hist) (.node v o) = h (.node v o)) ∧
    (∀ n rest, o = n :: rest → (∀ r ∈ hist, r.1 ≠ n.thisString E) → router E (routes hist) (.node v o) = fromString E b!"error notFound") ∧
    (o = [] → router E (routes hist) (.node v o) = fromString E b!"error notFound") := by
  have hnf : fromString E b!"error notFound" = .ok notFound := by
    rw [fromString_small _ _ (by decide)]; rfl
  refine ⟨?_, ?_, ?_⟩
  · rintro n rest h before after rfl rfl ha
    have : (after.reverse.find? fun r => r.1 == n.thisString E) = none := by
      rw [List.find?_eq_none]
      intro r hr
      simpa using ha r (by simpa using hr)
    simp only [router, routes_last]
    rw [List.reverse_append, List.reverse_cons, List.find?_append, List.find?_append, this]
    simp
  · rintro n rest rfl ha
    have : (hist.reverse.find? fun r => r.1 == n.thisString E) = none := by
      rw [List.find?_eq_none]
      intro r hr
      simpa using ha r (by simpa using hr)
    simp [router, routes_last, this, hnf]
  · rintro rfl
    simp [router, hnf]

/-- Three registrations, two of them for the same path: the later one answers. -/
example (E : Ext) (f g h : Graph → Res Graph) :
    router E (routes [(b!"a", f), (b!"b", g), (b!"a", h)]) (.node .nil [.node (.str b!"a") []]) = h (.node .nil [.node (.str b!"a") []]) :=
  (C48_route E _ _ _).1 (.node (.str b!"a") []) [] h [(b!"a", f), (b!"b", g)] [] rfl rfl (by simp)

/-! ## C49: segmentation -/

/-- **C49** (server) The server answers every message, in order, when no header and no
body has been cut, however many of them arrive together.  Partial: a body that
arrives in two parts is not answered, see below. -/
theorem C49_server_partial (E : Ext) (handler : Graph → Res Graph) (requests answers ps ss : List Bytes)
    (hm : AreMessages ps requests) (hb : ∀ b ∈ requests, b ≠ []) (ha : AnswerL E handler requests answers)
    (hl : ∀ a ∈ answers, a.length < 2 ^ 32) (hc : Coalesced ps ss) :
    ∃ ws, serveConn E handler ⟨ss, [], []⟩ = .ok ⟨[], ws, []⟩ ∧ AreMessages ws answers := by
  have h1 := areMessages_length hm
  have h2 := fuel_ge ⟨ss, [], []⟩
  have h3 := coalesced_flatten hc
  obtain ⟨ws, hw, hwm⟩ := processN_messages E handler requests answers ps ss [] (Conn.fuel ⟨ss, [], []⟩) hm hb ha hl hc
    (by simp only [h3] at h2; omega)
  exact ⟨ws, by simpa [serveConn] using hw, hwm⟩

/-- Cutting the body in two, at any place, makes the server close the connection
without an answer: for every handler and every request. -/
theorem C49_server_refuted (E : Ext) (handler : Graph → Res Graph) (h b1 b2 : Bytes) (hh : IsHeader h (b1 ++ b2).length) (h1 : b1 ≠ []) (h2 : b2 ≠ []) :
    serveConn E handler ⟨[h, b1, b2], [], []⟩ = .ok ⟨[b2], [], []⟩ := by
  obtain ⟨hun, hlen⟩ := unBe32_header hh
  have p1 : 0 < b1.length := List.length_pos_iff.2 h1
  have p2 : 0 < b2.length := List.length_pos_iff.2 h2
  have hf : ∃ f, Conn.fuel ⟨[h, b1, b2], [], []⟩ = f + 1 := ⟨_, rfl⟩
  obtain ⟨f, hf⟩ := hf
  simp only [List.length_append] at hun
  have e1 : ¬ b1.length = b1.length + b2.length := by omega
  have e2 : ¬ b1.length + b2.length = 0 := by omega
  simp only [serveConn, hf, processN]
  rw [read_all h _ _ _ 4 (by omega)]
  simp only [hlen, ne_eq, not_true_eq_false, ↓reduceIte, hun, e2]
  rw [read_all b1 _ _ _ _ (by omega)]
  simp only [e1, not_false_eq_true, ↓reduceIte]

/-- The same for the header. -/
theorem C49_server_header_refuted (E : Ext) (handler : Graph → Res Graph) (s : Bytes) (ss : List Bytes) (hs : s.length < 4) :
    serveConn E handler ⟨s :: ss, [], []⟩ = .ok ⟨ss, [], []⟩ := by
  have hf : ∃ f, Conn.fuel ⟨s :: ss, [], []⟩ = f + 1 := ⟨_, rfl⟩
  obtain ⟨f, hf⟩ := hf
  have : ¬ s.length = 4 := by omega
  simp only [serveConn, hf, processN]
  rw [read_all s _ _ _ 4 (by omega)]
  simp [this]

/-- **C49** (client) The client gets the body intact from any segments of the response,
of whatever sizes, if the header is not cut; what it wrote is the request as one
message.  Partial: for a header in two parts see below. -/
theorem C49_client_partial (E : Ext) (g : Graph) {req : Bytes} (hg : g.binary E = .ok (some req)) (hlen : req.length < 2 ^ 32)
    {h body : Bytes} (hh : IsHeader h body.length) (hb : body ≠ []) {s : Bytes} {ss : List Bytes} (hs : Segments (h ++ body) (s :: ss)) (h4 : 4 ≤ s.length)
    {r : Graph} (hr : fromBinary body = .ok r) (hn : r.isNil = false) (ho : r.out ≠ []) :
    ∃ ws, callV2 E g ⟨s :: ss, [], []⟩ = .ok ((r, none), ⟨[], ws, []⟩) ∧ IsMessage ws req :=
  ⟨[be32 req.length, req], callV2_segments E g hg hh hb hs h4 hr hn ho [], _, rfl, be32_header _ hlen⟩

/-- A response whose first segment has less than four bytes is an error. -/
theorem C49_client_refuted (E : Ext) (g : Graph) {req : Bytes} (hg : g.binary E = .ok (some req)) (s : Bytes) (ss : List Bytes) (hs : s.length < 4) :
    ∃ c, callV2 E g ⟨s :: ss, [], []⟩ = .ok ((.nil, some .header), c) := by
  have h1 : ¬ s.length = 4 := by omega
  have h2 : s.length ≤ 4 := by omega
  refine ⟨⟨ss, [be32 req.length, req], []⟩, ?_⟩
  simp only [callV2, hg, Res.ok_bind, Conn.write, Option.getD_some, List.nil_append]
  rw [read_all s _ _ _ 4 h2]
  simp [h1]

/-! ## C68: a remote call from end to end -/

/-- **C68** A remote call gives what the handler returns: the client writes a request
to which the server, if the request is not cut on the way, writes a response, and
from any segments of that response whose header is not cut the client returns the
answer of the handler to the request, both as the binary format shows them.  For all
graphs, handlers and segmentations.  Missing: segmentations that cut a header or the
request, and answers without nodes, for which the claim is false (C49, C69). -/
theorem C68_call_partial (E : Ext) (handler : Graph → Res Graph) (g r : Graph) (hg : Encodable E g) (hgv : visibleL E g.out ≠ [])
    (hh : handler (.node (.str b!"_") (visibleL E g.out)) = .ok r) (hr : Encodable E r) (hrv : visibleL E r.out ≠ [])
    (hgl : ∀ b, g.binary E = .ok (some b) → b.length < 2 ^ 32) (hrl : ∀ b, r.binary E = .ok (some b) → b.length < 2 ^ 32) :
    ∃ request response : List Bytes,
      (∀ ss, Coalesced request ss → serveConn E handler ⟨ss, [], []⟩ = .ok ⟨[], response, []⟩) ∧
      (∀ s ss, Segments response.flatten (s :: ss) → 4 ≤ s.length → ∀ ds,
        ∃ c, call E g { dials := some ⟨s :: ss, [], []⟩ :: ds } = .ok ((.node (.str b!"_") (visibleL E r.out), none), c) ∧
          c.conn = some ⟨[], request, []⟩ ∧ c.dials = ds) := by
  obtain ⟨b, hb, hb2⟩ := C02_binary_roundtrip E g hg
  obtain ⟨a, ha, ha2⟩ := C02_binary_roundtrip E r hr
  have fb : fromBinary b = .ok (.node (.str b!"_") (visibleL E g.out)) := hb2 _ (by omega)
  have fa : fromBinary a = .ok (.node (.str b!"_") (visibleL E r.out)) := ha2 _ (by omega)
  have hbne : b ≠ [] := by
    rintro rfl
    rw [show fromBinary [] = .ok .nil from rfl] at fb
    simp at fb
  have hane : a ≠ [] := by
    rintro rfl
    rw [show fromBinary [] = .ok .nil from rfl] at fa
    simp at fa
  have hbh := be32_header b.length (hgl b hb)
  have hah := be32_header a.length (hrl a ha)
  refine ⟨[be32 b.length, b], [be32 a.length, a], ?_, ?_⟩
  · intro ss hc
    obtain ⟨ws, hw, hwm⟩ := C49_server_partial E handler [b] [a] [be32 b.length, b] ss
      ⟨_, [], by simp, ⟨_, rfl, hbh⟩, rfl⟩ (by simpa using hbne)
      ⟨⟨_, r, some a, fb, rfl, hgv, hh, ha, rfl⟩, trivial⟩ (by simpa using hrl a ha) hc
    obtain ⟨m, qs, rfl, ⟨h, rfl, hh'⟩, hq⟩ := hwm
    have hq : qs = [] := hq
    rw [hw, hq, header_unique hh' hah]
    rfl
  · intro s ss hs h4 ds
    have := callV2_segments E g hb hah hane (by simpa using hs) h4 fa rfl hrv []
    refine ⟨{ conn := some ⟨[], [be32 b.length, b], []⟩, dials := ds }, ?_, rfl, rfl⟩
    rw [call, callLoop]
    simp only [Client.dial, Client.close, Option.isNone_none, ↓reduceIte, this, Res.ok_bind]
    rfl

/-- The request `ping` and a handler that answers with two nodes, in concrete bytes. -/
example (E : Ext) : ∃ (handler : Graph → Res Graph) (g r : Graph), Encodable E g ∧ visibleL E g.out ≠ [] ∧ handler (.node (.str b!"_") (visibleL E g.out)) = .ok r ∧
    Encodable E r ∧ visibleL E r.out ≠ [] ∧ g.binary E = .ok (some [1, 71, 0, 1, 112, 0, 0]) ∧
    r.binary E = .ok (some [1, 71, 0, 1, 97, 0, 2, 98, 0, 0]) := by
  refine ⟨fun _ => .ok (.node (.str b!"_") [.node (.str b!"a") [.node (.str b!"b") []]]), .node (.str b!"_") [.node (.str b!"p") []], _, ?_, ?_, rfl, ?_, ?_, ?_, ?_⟩
  · refine ⟨by simp [NoNil, NoNilL], ?_, ?_⟩
    · simp [AllThisL, AllThis, Storable, vbytes]
    · simp [visibleL, visible, vbytes, depthL, depth]
  · simp [visibleL, visible, vbytes]
  · refine ⟨by simp [NoNil, NoNilL], ?_, ?_⟩
    · simp [AllThisL, AllThis, Storable, vbytes]
    · simp [visibleL, visible, vbytes, depthL, depth]
  · simp [visibleL, visible, vbytes]
  · simp [Graph.binary, Graph.binList, Graph.bin, vbytes, newVarInt, byteOf]
  · simp [Graph.binary, Graph.binList, Graph.bin, vbytes, newVarInt, byteOf]

/-- The response cut in the middle of the body and after the header. -/
example : Segments (be32 3 ++ b!"abc") [be32 3 ++ b!"a", b!"bc"] ∧ Coalesced [be32 3, b!"abc", be32 1, b!"x"] [be32 3 ++ b!"abc", be32 1 ++ b!"x"] :=
  ⟨⟨by decide, by decide⟩, .joined (.apart (.joined (.apart .nil)))⟩

/-! ## C50: attempts -/

/-- **C50** `Call` makes at most three attempts, each on the next connection (the open
one first, if there is one): it stops at the first success with that response, and
at a dial that fails with an error; otherwise it returns the error of the third
attempt.  For every history of dials, connections and responses, where each attempt
returns (that is, every response is one on which `FromBinary` returns). -/
theorem C50_attempts (E : Ext) (g : Graph) (c : Client) (h : ∀ k, some k ∈ tries c → ∃ x, callV2 E g k = .ok x) :
    ∃ res c', call E g c = .ok (res, c') ∧ CallOutcome E g 3 (tries c) res c'.dials :=
  callLoop_outcome E g 2 c h

/-- A client whose open connection is dead, whose first dial succeeds with a dead
connection too and whose second dial fails: the outcome is that of the dial. -/
example (E : Ext) (g : Graph) {req : Bytes} (hg : g.binary E = .ok (some req)) :
    ∃ c', call E g { conn := some ⟨[], [], []⟩, dials := [some ⟨[], [], []⟩, none, none] } = .ok ((.nil, some .cannotConnect), c') ∧ c'.dials = [none] := by
  have h : callV2 E g ⟨[], [], []⟩ = .ok ((.nil, some .header), ⟨[], [be32 req.length, req], []⟩) := by
    simp [callV2, hg, Conn.write, Conn.read]
  obtain ⟨res, c', h1, i, hi, h2, h3, h4⟩ := C50_attempts E g { conn := some ⟨[], [], []⟩, dials := [some ⟨[], [], []⟩, none, none] }
    (by intro k hk; simp [tries] at hk; subst hk; exact ⟨_, h⟩)
  refine ⟨{ dials := [none], dropped := [⟨[], [be32 req.length, req], []⟩, ⟨[], [be32 req.length, req], []⟩] }, ?_, rfl⟩
  rw [call, callLoop]
  simp only [Option.isNone_some, Bool.false_eq_true, ↓reduceIte, h, Res.ok_bind]
  rw [callLoop]
  simp only [Client.dial, Client.close, Option.isNone_none, ↓reduceIte, h, Res.ok_bind]
  rw [callLoop]
  rfl

/-! ## C69: requests are not repeated -/

/-- The reply to a request that was executed but whose answer has no nodes. -/
theorem emptyReply (E : Ext) (g : Graph) {req : Bytes} (hg : g.binary E = .ok (some req)) :
    callV2 E g ⟨[be32 4, [1, 71, 0, 0]], [], []⟩ = .ok ((.nil, some .emptyResponse), ⟨[], [be32 req.length, req], []⟩) := by
  have hr : fromBinary [1, 71, 0, 0] = .ok .nil ∨ ∃ v, fromBinary [1, 71, 0, 0] = .ok (.node v []) := by
    first
    | exact .inl rfl
    | exact .inr ⟨_, rfl⟩
  simp only [callV2, hg, Res.ok_bind, Conn.write, Option.getD_some, List.nil_append]
  rw [read_all _ _ _ _ 4 (by decide)]
  have hb : readBody 4 (Conn.fuel ⟨[[1, 71, 0, 0]], [be32 req.length, req], []⟩) 0 [] ⟨[[1, 71, 0, 0]], [be32 req.length, req], []⟩ =
      .ok (.ok [1, 71, 0, 0], ⟨[], [be32 req.length, req], []⟩) := by
    have : Conn.fuel ⟨[[1, 71, 0, 0]], [be32 req.length, req], []⟩ = 5 + 1 := rfl
    rw [this]
    rfl
  have h4 : unBe32 (be32 4) = 4 := by decide
  have hl : ¬ ((be32 4).length ≠ 4) := by decide
  simp only [hl, ↓reduceIte, h4]
  simp only [List.cons_append, List.nil_append]
  rw [hb]
  rcases hr with hr | ⟨v, hr⟩ <;> simp [hr]

/-- A request whose answer is an empty graph is sent, and executed, three times. -/
theorem C69_refuted (E : Ext) (g : Graph) {req : Bytes} (hg : g.binary E = .ok (some req)) (hl : req.length < 2 ^ 32) :
    let k : Conn := ⟨[be32 4, [1, 71, 0, 0]], [], []⟩
    ∃ c', call E g { dials := [some k, some k, some k] } = .ok ((.nil, some .emptyResponse), c') ∧
      c'.dropped.length = 2 ∧ (∀ k' ∈ c'.dropped, IsMessage k'.out req) ∧ ∃ k', c'.conn = some k' ∧ IsMessage k'.out req := by
  intro k
  have := emptyReply E g hg
  have hm : IsMessage [be32 req.length, req] req := ⟨_, rfl, be32_header _ hl⟩
  refine ⟨{ conn := some ⟨[], [be32 req.length, req], []⟩, dropped := [⟨[], [be32 req.length, req], []⟩, ⟨[], [be32 req.length, req], []⟩] },
    ?_, rfl, ?_, _, rfl, hm⟩
  · rw [call, callLoop]
    simp only [Client.dial, Client.close, Option.isNone_none, ↓reduceIte, k, this, Res.ok_bind]
    rw [callLoop]
    simp only [Client.dial, Client.close, Option.isNone_none, ↓reduceIte, k, this, Res.ok_bind]
    rw [callLoop]
    simp only [Client.dial, Client.close, Option.isNone_none, ↓reduceIte, k, this, Res.ok_bind]
    rfl
  · intro k' hk
    simp at hk
    subst hk
    exact hm

/-- **C69** When the first attempt gets a response with nodes, the request has been
sent once, as one message.  Partial: see `C69_refuted`. -/
theorem C69_once_partial (E : Ext) (g r : Graph) {req : Bytes} (hg : g.binary E = .ok (some req)) (hl : req.length < 2 ^ 32) (k k' : Conn)
    (ds : List (Option Conn)) (hk : k.out = []) (h : callV2 E g k = .ok ((r, none), k')) :
    ∃ c', call E g { dials := some k :: ds } = .ok ((r, none), c') ∧ c'.conn = some k' ∧ c'.dropped = [] ∧ c'.dials = ds ∧ IsMessage k'.out req := by
  refine ⟨{ conn := some k', dials := ds }, ?_, rfl, rfl, rfl, ?_⟩
  · rw [call, callLoop]
    simp only [Client.dial, Client.close, Option.isNone_none, ↓reduceIte, h, Res.ok_bind]
  · rw [callV2_written E g r hg k k' h, hk]
    exact ⟨_, rfl, be32_header _ hl⟩

/-! ## C70: connections are closed -/

/-- **C70** After a call whose first attempt succeeds, `Close` closes the connection. -/
theorem C70_close_partial (E : Ext) (g r : Graph) (k k' : Conn) (ds : List (Option Conn)) (h : callV2 E g k = .ok ((r, none), k')) :
    ∃ c', call E g { dials := some k :: ds } = .ok ((r, none), c') ∧ c'.close.conn = none ∧ c'.close.dropped = [] ∧ c'.close.closed = [k'] := by
  refine ⟨{ conn := some k', dials := ds }, ?_, rfl, rfl, rfl⟩
  rw [call, callLoop]
  simp only [Client.dial, Client.close, Option.isNone_none, ↓reduceIte, h, Res.ok_bind]

/-- A connection on which an attempt has failed is given up without being closed: after
`Close` it is still open. -/
theorem C70_refuted (E : Ext) (g r r' : Graph) (e : RfErr) (k k' l l' : Conn) (ds : List (Option Conn))
    (h : callV2 E g k = .ok ((r, some e), k')) (h' : callV2 E g l = .ok ((r', none), l')) :
    ∃ c', call E g { dials := some k :: some l :: ds } = .ok ((r', none), c') ∧ c'.close.conn = none ∧ c'.close.closed = [l'] ∧ c'.close.dropped = [k'] := by
  refine ⟨{ conn := some l', dials := ds, dropped := [k'] }, ?_, rfl, rfl, rfl⟩
  rw [call, callLoop]
  simp only [Client.dial, Client.close, Option.isNone_none, ↓reduceIte, h, Res.ok_bind]
  rw [callLoop]
  simp only [Client.dial, Client.close, Option.isNone_none, ↓reduceIte, h', Res.ok_bind]
  rfl

/-- A connection that fails and one that succeeds. -/
example (E : Ext) (g : Graph) {req : Bytes} (hg : g.binary E = .ok (some req)) :
    (∃ k', callV2 E g ⟨[], [], []⟩ = .ok ((.nil, some .header), k')) ∧
    (∃ k', callV2 E g ⟨[be32 7, [1, 71, 0, 1, 97, 0, 0]], [], []⟩ = .ok ((.node (.str b!"_") [.node (.str b!"a") []], none), k')) := by
  refine ⟨⟨⟨[], [be32 req.length, req], []⟩, by simp [callV2, hg, Conn.write, Conn.read]⟩, ?_⟩
  exact ⟨_, callV2_segments E g hg (h := be32 7) (body := [1, 71, 0, 1, 97, 0, 0]) (be32_header 7 (by decide)) (by simp) (s := be32 7) (ss := [[1, 71, 0, 1, 97, 0, 0]]) ⟨by simp, by decide⟩
    (by decide) (r := .node (.str b!"_") [.node (.str b!"a") []]) rfl rfl (by simp) []⟩

end Ogdl
