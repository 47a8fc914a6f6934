import Verif.Model.Event

/-!
# binary.go

Writer and reader of the binary format.
-/

namespace Ogdl

/-- `byte(i)` for a non-negative int: truncation to 8 bits. Used for binary.go:159-198. -/
def byteOf (i : Nat) : UInt8 := UInt8.ofNat i

/-- binary.go:159-196 `newVarInt` (nil is the empty slice; `append` of nil adds
nothing).  Line 189 has `i>>16 | 0xff` where `& 0xff` is meant; kept as is. -/
def newVarInt (i : Int) : Bytes :=
  if i < 0 then []
  else
    let i := i.toNat
    if i < 0x80 then [byteOf i]
    else if i < 0x4000 then [byteOf ((i >>> 8) ||| 0x80), byteOf (i &&& 0xff)]
    else if i < 0x200000 then
      [byteOf ((i >>> 16) ||| 0xc0), byteOf ((i >>> 8) &&& 0xff), byteOf (i &&& 0xff)]
    else if i < 0x10000000 then
      [byteOf ((i >>> 24) ||| 0xe0), byteOf ((i >>> 16) ||| 0xff), byteOf ((i >>> 8) &&& 0xff),
       byteOf (i &&& 0xff)]
    else []

section
variable (E : Ext)

mutual
/-- binary.go:114-130 `bin`, as the bytes appended to `buf`.  Panics on a nil
node (line 117). -/
def Graph.bin (level : Nat) : Graph → Res Bytes
  | .nil => .panic
  | .node t o =>
    let b := vbytes E t
    if b.length != 0 then do
      let r ← Graph.binList (level + 1) o
      .ok (newVarInt level ++ b ++ [0] ++ r)
    else Graph.binList level o
/-- binary.go:125-127: the loop over the subnodes. -/
def Graph.binList (level : Nat) : List Graph → Res Bytes
  | [] => .ok []
  | g :: gs => do
    let a ← Graph.bin level g
    let b ← Graph.binList level gs
    .ok (a ++ b)
end

/-- binary.go:91-112 `Binary`; nil gives the nil slice (`none`). -/
def Graph.binary : Graph → Res (Option Bytes)
  | .nil => .ok none
  | .node _ o => do
    let r ← Graph.binList E 1 o
    .ok (some ([1, 71, 0] ++ r ++ [0]))

end

/-- binary.go:28-33 `binParser`: the unread bytes of the stream and the count of
bytes read.  (`last` is only used by `unread`, which nothing calls.) -/
structure BinR where
  rest : Bytes
  n : Nat := 0

/-- binary.go:320-334 `read`: a byte, or `none` for -1 at the end of the stream. -/
def BinR.read (p : BinR) : Option UInt8 × BinR :=
  match p.rest with
  | [] => (none, p)
  | c :: t => (some c, ⟨t, p.n + 1⟩)

/-- binary.go:201-213 `header`. -/
def BinR.header (p : BinR) : Bool × BinR :=
  match p.read with
  | (some 1, p) =>
    match p.read with
    | (some 71, p) =>
      match p.read with
      | (some 0, p) => (true, p)
      | (_, p) => (false, p)
    | (_, p) => (false, p)
  | (_, p) => (false, p)

/-- binary.go:223-250 `varInt`.  An end of stream (-1) in any position makes the
result -1, since `x | -1 = -1` and the end of stream is sticky. -/
def BinR.varInt (p : BinR) : Int × BinR :=
  match p.read with
  | (none, p) => (-1, p)
  | (some b0, p) =>
    let b0 := b0.toNat
    if b0 < 0x80 then (b0, p)
    else if b0 < 0xc0 then
      match p.read with
      | (none, p) => (-1, p)
      | (some b1, p) => (((b0 &&& 0x3f) <<< 8 ||| b1.toNat : Nat), p)
    else if b0 < 0xe0 then
      match p.read with
      | (none, p) => (-1, p)
      | (some b1, p) =>
        match p.read with
        | (none, p) => (-1, p)
        | (some b2, p) => (((b0 &&& 0x1f) <<< 16 ||| b1.toNat <<< 8 ||| b2.toNat : Nat), p)
    else if b0 < 0xf0 then
      match p.read with
      | (none, p) => (-1, p)
      | (some b1, p) =>
        match p.read with
        | (none, p) => (-1, p)
        | (some b2, p) =>
          match p.read with
          | (none, p) => (-1, p)
          | (some b3, p) =>
            (((b0 &&& 0x0f) <<< 24 ||| b1.toNat <<< 16 ||| b2.toNat <<< 8 ||| b3.toNat : Nat), p)
    else (-1, p)

/-- binary.go:288-296: the inner loop of a binary node, reading `n` bytes.
The flag is false if the stream ended (line 291 returns from `line`). -/
def BinR.chunk (p : BinR) : Nat → Bytes → Bool × Bytes × BinR
  | 0, buf => (true, buf, p)
  | n + 1, buf =>
    match p.read with
    | (none, p) => (false, buf, p)
    | (some c, p) => BinR.chunk p n (buf ++ [c])

/-- binary.go:283-298: the chunk loop of a binary node.  A zero length does not
end it; only a negative varInt (end of stream, or a byte >= 0xf0) does. -/
def BinR.binNode (p : BinR) : Nat → Bytes → Res (Bytes × BinR)
  | 0, _ => .oof
  | f + 1, buf =>
    match p.varInt with
    | (n, p) =>
      if n < 0 then .ok (buf, p)
      else
        match p.chunk n.toNat buf with
        | (true, buf, p) => BinR.binNode p f buf
        | (false, buf, p) => .ok (buf, p)

/-- binary.go:307-315: the text loop.  It ends only at a 0 byte; at the end of
the stream `read` keeps returning -1, `byte(-1)` is written, and it goes on. -/
def BinR.textNode (p : BinR) : Nat → Bytes → Res (Bytes × BinR)
  | 0, _ => .oof
  | f + 1, buf =>
    match p.read with
    | (some 0, p) => .ok (buf, p)
    | (some c, p) => BinR.textNode p f (buf ++ [c])
    | (none, p) => BinR.textNode p f (buf ++ [255])

/-- binary.go:266-316 `line`: level (0 ends the stream), binary flag, content.
The `write` flag only suppresses the content. -/
def BinR.line (p : BinR) (fuel : Nat) : Res (Nat × Bool × Bytes × BinR) :=
  match p.varInt with
  | (level, p) =>
    if level < 1 then .ok (0, false, [], p)
    else
      match p.read with
      | (some 1, p) => do
        let (buf, p) ← p.binNode fuel []
        .ok (level.toNat, true, buf, p)
      | (some c, p) => do
        let (buf, p) ← p.textNode fuel [c]
        .ok (level.toNat, false, buf, p)
      | (none, p) => do
        let (buf, p) ← p.textNode fuel [255]
        .ok (level.toNat, false, buf, p)

/-- binary.go:141-153: the loop of `parse`. -/
def BinR.lines (p : BinR) (fuel : Nat) : Nat → Ev → Res (Ev × BinR)
  | 0, _ => .oof
  | f + 1, ev => do
    let (lev, bin, b, p) ← p.line fuel
    if lev = 0 then .ok (ev, p)
    else if bin then p.lines fuel f (ev.addAt (.bytes b) (lev - 1))
    else p.lines fuel f (ev.addAt (.str b) (lev - 1))

/-- binary.go:133-155 `parse`: graph (nil without a header) and final reader state. -/
def BinR.parse (p : BinR) (fuel : Nat) : Res (Graph × BinR) :=
  match p.header with
  | (false, p) => .ok (.nil, p)
  | (true, p) => do
    let (ev, p) ← p.lines fuel fuel {}
    let g ← ev.tree
    .ok (g, p)

/-- binary.go:65-68 `FromBinary` (also 71-74 `FromBinaryReader`, 79-82
`FromBinaryBufioReader`), with a bound on the number of loop iterations. -/
def fromBinaryFuel (fuel : Nat) (b : Bytes) : Res Graph := do
  let (g, _) ← (BinR.mk b 0).parse fuel
  .ok g

/-- `FromBinary` returns `g` (with any sufficient number of iterations). binary.go:65-68. -/
def FromBinary (b : Bytes) (g : Graph) : Prop := ∃ fuel, fromBinaryFuel fuel b = .ok g

end Ogdl
