import Verif.Model.Binary

/-!
# ogdlrf: remote functions

A TCP connection is what will arrive on it and what has been written to it.  Bytes
arrive in segments; a `Read` returns at most one segment.  After the last segment a
`Read` fails (the other side has closed, or nothing came within the deadline).
Simplifications: a `Read` does not return bytes and an error at once; handlers are
functions of the request (they do not use the connection and keep no state); logging
is left out.  Protocol 1 is in Model/Rf1.lean.
-/

namespace Ogdl

/-- A connection: the segments that will arrive, the `Write`s that were made, and how
the next writes end (`some n`: only `n` bytes are written, with an error; by default
a write succeeds). The `net.Conn` of ogdlrf/client.go:27-33 and ogdlrf/server.go:107. -/
structure Conn where
  inp : List Bytes := []
  out : List Bytes := []
  fails : List (Option Nat) := []

/-- `conn.Read(buf)` with a buffer of `n` bytes: the bytes read, `none` on an error. As in ogdlrf/server.go:107-189. -/
def Conn.read (c : Conn) (n : Nat) : Option Bytes × Conn :=
  match c.inp with
  | [] => (none, c)
  | s :: rest =>
    if s.length ≤ n then (some s, { c with inp := rest })
    else (some (s.take n), { c with inp := s.drop n :: rest })

/-- `conn.Write(b)`: whether all of `b` was written without an error.
ogdlrf/server.go:170 and 177, ogdlrf/client.go:88 and 94. -/
def Conn.write (c : Conn) (b : Bytes) : Bool × Conn :=
  match c.fails with
  | some n :: fs => (false, { c with out := c.out ++ [b.take n], fails := fs })
  | none :: fs => (true, { c with out := c.out ++ [b], fails := fs })
  | [] => (true, { c with out := c.out ++ [b] })

/-- `binary.BigEndian.PutUint32(b4, uint32(n))`. ogdlrf/server.go:168, ogdlrf/client.go:85. -/
def be32 (n : Nat) : Bytes :=
  [UInt8.ofNat (n / 2 ^ 24), UInt8.ofNat (n / 2 ^ 16), UInt8.ofNat (n / 2 ^ 8), UInt8.ofNat n]

/-- `binary.BigEndian.Uint32(b4)`. ogdlrf/server.go:133, ogdlrf/client.go:110. -/
def unBe32 (b : Bytes) : Nat := b.foldl (fun n c => n * 256 + c.toNat) 0

/-- The errors of client.go: lines 18-21, 50 and 104, and the error of a failed read. -/
inductive RfErr where
  | emptyResponse | writingHeader | writingBody | writing | header | cannotConnect | readFailed
  deriving DecidableEq

/-- `FromBinary` (binary.go:67-70) with enough fuel; out of fuel means that it does
not return (C04). -/
def fromBinary (b : Bytes) : Res Graph := fromBinaryFuel (b.length + 1) b

/-- client.go:112-131: the loop that reads the body; `l2` is a uint32.  The result is
the body, or `error err` for `return nil, err` (`err` may be nil).  Fuel: number of
reads. -/
def readBody (l : Nat) : Nat → Nat → Bytes → Conn → Res (Except (Option RfErr) Bytes × Conn)
  | 0, _, _, _ => .oof
  | f + 1, l2, buf3, c =>
    match c.read 10000 with
    | (none, c) => .ok (.error (some .readFailed), c)
    | (some [], c) => .ok (.error none, c)
    | (some tmp, c) =>
      let l2 := (l2 + tmp.length) % 2 ^ 32
      let buf3 := buf3 ++ tmp
      if l ≤ l2 then .ok (.ok buf3, c) else readBody l f l2 buf3 c

/-- The number of reads that empty the input. Fuel of the model only. -/
def Conn.fuel (c : Conn) : Nat := (c.inp.map (fun s => s.length + 1)).sum + 1

section
variable (E : Ext)

/-- client.go:78-139 `callV2`. -/
def callV2 (g : Graph) (c : Conn) : Res ((Graph × Option RfErr) × Conn) := do
  let buf := (← g.binary E).getD []
  match c.write (be32 buf.length) with
  | (false, c) => .ok ((.nil, some .writingHeader), c)
  | (true, c) =>
    match c.write buf with
    | (false, c) => .ok ((.nil, some .writingBody), c)
    | (true, c) =>
      match c.read 4 with
      | (none, c) => .ok ((.nil, some .header), c)
      | (some b4, c) =>
        if b4.length ≠ 4 then .ok ((.nil, some .header), c)
        else do
          match ← readBody (unBe32 b4) c.fuel 0 [] c with
          | (.error e, c) => .ok ((.nil, e), c)
          | (.ok buf3, c) =>
            let r ← fromBinary buf3
            if r.isNil || r.out.isEmpty then .ok ((.nil, some .emptyResponse), c)
            else .ok ((r, none), c)

/-- server.go:107-188 `process`: the connection when it is closed.  Fuel: number of
requests. -/
def processN (handler : Graph → Res Graph) : Nat → Conn → Res Conn
  | 0, _ => .oof
  | f + 1, c =>
    match c.read 4 with
    | (none, c) => .ok c
    | (some b4, c) =>
      if b4.length ≠ 4 then .ok c
      else
        let l := unBe32 b4
        if l = 0 then .ok c
        else
          match c.read l with
          | (none, c) => .ok c
          | (some buf, c) =>
            if buf.length ≠ l then .ok c
            else do
              let g ← fromBinary buf
              if g.isNil || g.out.isEmpty then .ok c
              else do
                let r ← handler g
                let buf := (← r.binary E).getD []
                match c.write (be32 buf.length) with
                | (false, c) => .ok c
                | (true, c) =>
                  match c.write buf with
                  | (false, c) => .ok c
                  | (true, c) => processN handler f c

/-- `process` with enough fuel: every turn reads at least the header. ogdlrf/server.go:107-189. -/
def serveConn (handler : Graph → Res Graph) (c : Conn) : Res Conn := processN E handler c.fuel c

/-- server.go:28-33 `AddRoute` on the map of handlers (a nil handler is `none`). -/
def addRoute (t : Bytes → Option (Graph → Res Graph)) (path : Bytes) (f : Option (Graph → Res Graph)) :
    Bytes → Option (Graph → Res Graph) :=
  fun s => if s = path then f else t s

/-- server.go:24: `ogdl.FromString("error notFound")`. -/
def notFound : Graph := .node (.str b!"_") [.node (.str b!"error") [.node (.str b!"notFound") []]]

/-- server.go:35-50 `router`; line 38 panics on a nil request. -/
def router (t : Bytes → Option (Graph → Res Graph)) (g : Graph) : Res Graph :=
  match g with
  | .nil => .panic
  | .node _ [] => .ok notFound
  | .node _ (n :: _) =>
    match t (n.thisString E) with
    | some h => h g
    | none => .ok notFound

/-- client.go:27-32 `Client`.  `dials` is how the next dials end (a connection or an
error; after the list they fail); `dropped` are the connections that were given up
without being closed and `closed` those that were closed. -/
structure Client where
  conn : Option Conn := none
  dials : List (Option Conn) := []
  dropped : List Conn := []
  closed : List Conn := []

/-- client.go:170-175 `Close`. -/
def Client.close (c : Client) : Client :=
  match c.conn with
  | none => c
  | some k => { c with conn := none, closed := c.closed ++ [k] }

/-- client.go:35-40 `Dial`: whether it succeeded. -/
def Client.dial (c : Client) : Bool × Client :=
  let c := c.close
  match c.dials with
  | some k :: ds => (true, { c with conn := some k, dials := ds })
  | none :: ds => (false, { c with conn := none, dials := ds })
  | [] => (false, { c with conn := none })

/-- client.go:44-74 `Call` (protocol 2): the loop with `n` as in line 49. -/
def callLoop (g : Graph) : Nat → Client → Res ((Graph × Option RfErr) × Client)
  | n, c =>
    match (if c.conn.isNone then c.dial else (true, c)) with
    | (false, c) => .ok ((.nil, some .cannotConnect), c)
    | (true, c) =>
      match c.conn with
      | none => .panic
      | some k => do
        match ← callV2 E g k with
        | ((r, none), k) => .ok ((r, none), { c with conn := some k })
        | ((r, some e), k) =>
          match n with
          | 0 => .ok ((r, some e), { c with conn := some k })
          | n + 1 => callLoop g n { c with conn := none, dropped := c.dropped ++ [k] }

/-- client.go:44-74 `Call`. -/
def call (g : Graph) (c : Client) : Res ((Graph × Option RfErr) × Client) := callLoop E g 2 c

end
end Ogdl
