import Verif.Model.Buffer

/-!
# Calls of a lexer, and the error of its reader

`Buf` leaves out the field `err` of lexer.go:39-46, which no parser function reads.  Here it is added,
for clients that call `Error`.  Which error it is, is not modelled: only whether there is one.
-/

namespace Ogdl

/-- lexer.go:39-46 `Lexer`, with `err` (whether it is not nil). -/
structure ErrLexer where
  b : Buf
  err : Bool := false

/-- lexer.go:83-97, the same loop as `Buf.fillLoop`: whether it sets `p.err` (lines 88-91). -/
def readFails : Nat → Nat → Reader → Bool
  | 0, _, _ => false
  | i + 1, offset, rd =>
    let (got, ok, rd') := rd.read (bufSize - offset)
    if !ok then true
    else if offset + got.length ≥ halfSize then false
    else readFails i (offset + got.length) rd'

/-- lexer.go:66-100, the same as `Buf.fill`: whether it sets `p.err`. -/
def fillFails (b : Buf) : Bool := if b.r < bufSize then false else readFails 100 halfSize b.rd

/-- lexer.go:51-59 `NewLexer`. -/
def ErrLexer.start (rd : Reader) : ErrLexer := ⟨Buf.start rd, readFails 100 0 rd⟩

/-- A call of `Byte`, `UnreadByte`, `Rune` or `Error`. lexer.go:102-168. -/
inductive ErrCall where
  | byte
  | unread
  | rune
  | error

/-- What a method returns: a byte or `ErrEOS`, nothing, a rune, or whether `Error` returns an error.
lexer.go:102-168. -/
inductive ErrOut where
  | byte (c : Option UInt8)
  | unread
  | rune (r : Nat)
  | error (failed : Bool)

/-- The method: lexer.go:133-143 `Byte` (which calls `fill` at its end only if there is a byte),
146-152 `UnreadByte`, 157-168 `Rune` (which calls `fill` first), 102-106 `Error`. -/
def ErrCall.run (l : ErrLexer) : ErrCall → Res (ErrOut × ErrLexer)
  | .byte => do
    let (c, b') ← l.b.byte
    .ok (.byte c, ⟨b', l.err || (c.isSome && fillFails { l.b with r := l.b.r + 1 })⟩)
  | .unread => .ok (.unread, { l with b := l.b.unread })
  | .rune => do
    let (r, b') ← l.b.rune
    .ok (.rune r, ⟨b', l.err || fillFails l.b⟩)
  | .error => .ok (.error l.err, { l with err := false })

/-- The calls one after the other: what they return, and the lexer afterwards. A user of lexer.go:102-168. -/
def errCalls : List ErrCall → ErrLexer → Res (List ErrOut × ErrLexer)
  | [], l => .ok ([], l)
  | c :: cs, l => do
    let (o, l') ← c.run l
    let (os, l'') ← errCalls cs l'
    .ok (o :: os, l'')

end Ogdl
