import Verif.Model.Block

/-!
# lexer.go:28-180: the 4096 byte buffer

The implementation of the lexer operations over an `io.Reader`.
-/

namespace Ogdl

/-- lexer.go:29 -/
def bufSize : Nat := 4096
/-- lexer.go:30 -/
def halfSize : Nat := 2048

/-- An `io.Reader`: the bytes still to be delivered, how many bytes each of the
next `Read` calls delivers at most (after the listed calls there is no limit), and
whether the last bytes are returned together with `io.EOF` (which the contract of
`io.Reader` permits).  `bytes.Buffer` is the reader with `sizes = []` and
`eofWithData = false`. The field `rd` of lexer.go:39-48. -/
structure Reader where
  data : Bytes
  sizes : List Nat := []
  eofWithData : Bool := false

namespace Reader

/-- `Read(p)` with `len(p) = k`: the bytes stored in `p`, whether the error is
nil, and the reader afterwards. `p.rd.Read` in lexer.go:51-99. -/
def read (rd : Reader) (k : Nat) : Bytes × Bool × Reader :=
  let lim := match rd.sizes with
    | [] => k
    | n :: _ => min n k
  let got := rd.data.take lim
  let rest := rd.data.drop lim
  let ok := !(rd.data.isEmpty || (rd.eofWithData && rest.isEmpty))
  (got, ok, { rd with data := rest, sizes := rd.sizes.tail })

end Reader

/-- lexer.go:39-46 `Lexer` (without `err`, which no parser function reads). -/
structure Buf where
  buf : Bytes
  r : Nat
  last : Nat
  rd : Reader
  runes : List Nat := []

namespace Buf

/-- Overwrite the bytes from `offset` on by `w`. The effect of a `Read` into part of `p.buf`, lexer.go:66-99. -/
def write (buf : Bytes) (offset : Nat) (w : Bytes) : Bytes :=
  buf.take offset ++ w ++ buf.drop (offset + w.length)

/-- lexer.go:83-97: up to `i` calls of `Read`; buffer, offset and reader. -/
def fillLoop : Nat → Bytes → Nat → Reader → Bytes × Nat × Reader
  | 0, buf, offset, rd => (buf, offset, rd)
  | i + 1, buf, offset, rd =>
    let (got, ok, rd') := rd.read (bufSize - offset)
    let buf' := write buf offset got
    if !ok then (buf', offset, rd')
    else if offset + got.length ≥ halfSize then (buf', offset + got.length, rd')
    else fillLoop i buf' (offset + got.length) rd'

/-- lexer.go:66-100 `fill`, for `p.r >= 0`. -/
def fill (b : Buf) : Buf :=
  if b.r < bufSize then b
  else
    let (buf, offset, rd) := fillLoop 100 (b.buf.drop halfSize ++ b.buf.drop halfSize) halfSize b.rd
    { b with buf := buf, r := halfSize, last := offset, rd := rd }

/-- lexer.go:51-59 `NewLexer`, parser.go:20-29 `NewParser`: the first `fill`. -/
def start (rd : Reader) : Buf :=
  let (buf, offset, rd') := fillLoop 100 (List.replicate bufSize 0) 0 rd
  { buf := buf, r := 0, last := offset, rd := rd' }

/-- lexer.go:133-143 `Byte`. -/
def byte (b : Buf) : Res (Option UInt8 × Buf) :=
  if b.last < bufSize ∧ b.r ≥ b.last then .ok (none, { b with r := b.last + 1 })
  else
    match b.buf[b.r]? with
    | none => .panic
    | some c => .ok (some c, { b with r := b.r + 1 }.fill)

/-- lexer.go:146-152 `UnreadByte`. -/
def unread (b : Buf) : Buf := { b with r := b.r - 1 }

/-- lexer.go:157-168 `Rune`: no check for the end of the stream. -/
def rune (b0 : Buf) : Res (Nat × Buf) :=
  let b := b0.fill
  match b.buf[b.r]? with
  | none => .panic
  | some c =>
    if c < 0x80 then .ok (c.toNat, { b with r := b.r + 1, runes := 1 :: b.runes })
    else if b.r > b.last then .panic
    else
      let d := decodeRune ((b.buf.take b.last).drop b.r)
      .ok (d.1, { b with r := b.r + d.2, runes := d.2 :: b.runes })

/-- lexer.go:171-180 `UnreadRune`.  Simplification: where more is unread than the buffer keeps, Go's
`p.r` becomes negative; here it stops at 0.  Token8 and PeekRune unread one rune that was just
read, and the theorems about sequences of calls (C115) do not go back that far. -/
def unreadRune (b : Buf) : Buf :=
  match b.runes with
  | [] => b
  | n :: t => { b with r := b.r - n, runes := t }

end Buf

/-- The buffered lexer as a machine. lexer.go:133-180. -/
def bufM : Machine Buf where
  byte := Buf.byte
  unread := Buf.unread
  rune := Buf.rune
  unreadRune := Buf.unreadRune

/-- parser.go:75-79 `FromReader`.  `types` selects `OgdlTypes`. -/
def fromReader (E : Ext) (types : Bool) (rd : Reader) : Res Graph := do
  let r ← (ogdl E (loopFuel rd.data) types (treeFuel rd.data)).run bufM (Buf.start rd) {}
  r.2.2.tree

/-- parser.go:52-63 `FromBytes`/`FromString`: the reader is a `bytes.Buffer`. -/
def fromString (E : Ext) (s : Bytes) : Res Graph := fromReader E false { data := s }

/-- parser.go:68-72 `FromStringTypes`. -/
def fromStringTypes (E : Ext) (s : Bytes) : Res Graph := fromReader E true { data := s }

end Ogdl
