import Verif.Model.Rf

/-!
# ogdlrf: protocol 1

Messages are graphs in binary form, without a length.  Each message is read with a new
buffered reader (binary.go:60-62), which takes up to 4096 bytes from the connection at
a time; what it has taken beyond the message is lost with it.
-/

namespace Ogdl

section
variable {σ : Type} (rd : σ → Option UInt8 × σ)

/-! The reader of binary.go, for any source `rd` of bytes.  `BinR` in Model/Binary.lean is
the same code for a source that is a list of bytes. -/

/-- binary.go:201-213 `header`. -/
def srcHeader (p : σ) : Bool × σ :=
  match rd p with
  | (some 1, p) =>
    match rd p with
    | (some 71, p) =>
      match rd p with
      | (some 0, p) => (true, p)
      | (_, p) => (false, p)
    | (_, p) => (false, p)
  | (_, p) => (false, p)

/-- binary.go:223-250 `varInt`.  An end of stream (-1) in any position makes the
result -1. -/
def srcVarInt (p : σ) : Int × σ :=
  match rd p with
  | (none, p) => (-1, p)
  | (some b0, p) =>
    let b0 := b0.toNat
    if b0 < 0x80 then (b0, p)
    else if b0 < 0xc0 then
      match rd p with
      | (none, p) => (-1, p)
      | (some b1, p) => (((b0 &&& 0x3f) <<< 8 ||| b1.toNat : Nat), p)
    else if b0 < 0xe0 then
      match rd p with
      | (none, p) => (-1, p)
      | (some b1, p) =>
        match rd p with
        | (none, p) => (-1, p)
        | (some b2, p) => (((b0 &&& 0x1f) <<< 16 ||| b1.toNat <<< 8 ||| b2.toNat : Nat), p)
    else if b0 < 0xf0 then
      match rd p with
      | (none, p) => (-1, p)
      | (some b1, p) =>
        match rd p with
        | (none, p) => (-1, p)
        | (some b2, p) =>
          match rd p with
          | (none, p) => (-1, p)
          | (some b3, p) =>
            (((b0 &&& 0x0f) <<< 24 ||| b1.toNat <<< 16 ||| b2.toNat <<< 8 ||| b3.toNat : Nat), p)
    else (-1, p)

/-- binary.go:288-296: the inner loop of a binary node. -/
def srcChunk (p : σ) : Nat → Bytes → Bool × Bytes × σ
  | 0, buf => (true, buf, p)
  | n + 1, buf =>
    match rd p with
    | (none, p) => (false, buf, p)
    | (some c, p) => srcChunk p n (buf ++ [c])

/-- binary.go:283-298: the chunk loop of a binary node. -/
def srcBinNode (p : σ) : Nat → Bytes → Res (Bytes × σ)
  | 0, _ => .oof
  | f + 1, buf =>
    match srcVarInt rd p with
    | (n, p) =>
      if n < 0 then .ok (buf, p)
      else
        match srcChunk rd p n.toNat buf with
        | (true, buf, p) => srcBinNode p f buf
        | (false, buf, p) => .ok (buf, p)

/-- binary.go:307-315: the text loop. -/
def srcTextNode (p : σ) : Nat → Bytes → Res (Bytes × σ)
  | 0, _ => .oof
  | f + 1, buf =>
    match rd p with
    | (some 0, p) => .ok (buf, p)
    | (some c, p) => srcTextNode p f (buf ++ [c])
    | (none, p) => srcTextNode p f (buf ++ [255])

/-- binary.go:266-316 `line`. -/
def srcLine (p : σ) (fuel : Nat) : Res (Nat × Bool × Bytes × σ) :=
  match srcVarInt rd p with
  | (level, p) =>
    if level < 1 then .ok (0, false, [], p)
    else
      match rd p with
      | (some 1, p) => do
        let (buf, p) ← srcBinNode rd p fuel []
        .ok (level.toNat, true, buf, p)
      | (some c, p) => do
        let (buf, p) ← srcTextNode rd p fuel [c]
        .ok (level.toNat, false, buf, p)
      | (none, p) => do
        let (buf, p) ← srcTextNode rd p fuel [255]
        .ok (level.toNat, false, buf, p)

/-- binary.go:141-153: the loop of `parse`. -/
def srcLines (p : σ) (fuel : Nat) : Nat → Ev → Res (Ev × σ)
  | 0, _ => .oof
  | f + 1, ev => do
    let (lev, bin, b, p) ← srcLine rd p fuel
    if lev = 0 then .ok (ev, p)
    else if bin then srcLines p fuel f (ev.addAt (.bytes b) (lev - 1))
    else srcLines p fuel f (ev.addAt (.str b) (lev - 1))

/-- binary.go:133-155 `parse`. -/
def srcParse (p : σ) (fuel : Nat) : Res (Graph × σ) :=
  match srcHeader rd p with
  | (false, p) => .ok (.nil, p)
  | (true, p) => do
    let (ev, p) ← srcLines rd p fuel fuel {}
    let g ← ev.tree
    .ok (g, p)

end

/-- How a connection ends: the other side closes it, or nothing arrives until the
deadline. The `net.Conn` of ogdlrf/server.go:191. -/
inductive ConnEnd where
  | closed | deadline
  deriving DecidableEq

/-- binary.go:60-62: a buffered reader on a connection: what is in the buffer, and the
connection. -/
structure BufConn where
  buf : Bytes
  conn : Conn

/-- binary.go:320-334 `read`, with `ReadByte` of bufio: when the buffer is empty, up to
4096 bytes are read from the connection (a read that returns nothing is repeated).  At
the end of a connection that was closed the result is -1 (`none`); on any other error,
such as a deadline, it is the zero byte that `ReadByte` returns with the error. -/
def BufConn.read (e : ConnEnd) (p : BufConn) : Option UInt8 × BufConn :=
  match p.buf with
  | c :: t => (some c, { p with buf := t })
  | [] =>
    match ({ p.conn with inp := p.conn.inp.dropWhile List.isEmpty } : Conn).read 4096 with
    | (some (c :: t), k) => (some c, ⟨t, k⟩)
    | (some [], k) => (none, ⟨[], k⟩)
    | (none, k) => (match e with | .closed => none | .deadline => some 0, ⟨[], k⟩)

/-- binary.go:71-74 `FromBinaryReader` on a connection: the graph, and the connection
without what was read ahead.  `fuel` bounds the number of loop turns. -/
def fromConnFuel (e : ConnEnd) (fuel : Nat) (c : Conn) : Res (Graph × Conn) := do
  let (g, p) ← srcParse (BufConn.read e) ⟨[], c⟩ fuel
  .ok (g, p.conn)

/-- The same with as many turns as there are bytes, and some more. Fuel of the model only. -/
def fromConn (e : ConnEnd) (c : Conn) : Res (Graph × Conn) := fromConnFuel e (c.fuel + 8) c

section
variable (E : Ext)

/-- client.go:141-167 `callV1`.  After a failed write the connection is forgotten. -/
def callV1 (e : ConnEnd) (g : Graph) (c : Conn) : Res ((Graph × Option RfErr) × Option Conn) := do
  let b := (← g.binary E).getD []
  match c.write b with
  | (false, _) => .ok ((.nil, some .writing), none)
  | (true, c) =>
    let (r, c) ← fromConn e c
    if r.isNil || r.out.isEmpty then .ok ((.nil, some .emptyResponse), some c)
    else .ok ((r, none), some c)

/-- client.go:44-74 `Call` (protocol 1): the loop with `n` as in line 49. -/
def callLoop1 (e : ConnEnd) (g : Graph) : Nat → Client → Res ((Graph × Option RfErr) × Client)
  | n, c =>
    match (if c.conn.isNone then c.dial else (true, c)) with
    | (false, c) => .ok ((.nil, some .cannotConnect), c)
    | (true, c) =>
      match c.conn with
      | none => .panic
      | some k => do
        match ← callV1 E e g k with
        | ((r, none), k) => .ok ((r, none), { c with conn := k })
        | ((r, some err), k) =>
          match n with
          | 0 => .ok ((r, some err), { c with conn := k })
          | n + 1 => callLoop1 e g n { c with conn := none, dropped := c.dropped ++ k.toList }

/-- client.go:44-74 `Call` with `Protocol` 1. -/
def call1 (e : ConnEnd) (g : Graph) (c : Client) : Res ((Graph × Option RfErr) × Client) := callLoop1 E e g 2 c

/-- server.go:191-222 `process1`: the connection when it is closed.  Fuel: number of
requests. -/
def process1N (e : ConnEnd) (handler : Graph → Res Graph) : Nat → Conn → Res Conn
  | 0, _ => .oof
  | f + 1, c => do
    let (g, c) ← fromConn e c
    if g.isNil then .ok c
    else do
      let r ← handler g
      let b := (← r.binary E).getD []
      match c.write b with
      | (false, c) => .ok c
      | (true, c) => process1N e handler f c

/-- `process1` with enough fuel: every turn reads at least the header. ogdlrf/server.go:191-222. -/
def serveConn1 (e : ConnEnd) (handler : Graph → Res Graph) (c : Conn) : Res Conn := process1N E e handler c.fuel c

end
end Ogdl
