import Verif.Model.Event

/-!
# Parser programs

Every lexer and parser method of the repository touches its input only through
`Byte`, `UnreadByte`, `Rune` and `UnreadRune` (lexer.go:133-180) and its output
only through the event handler (event.go).  `Prog` is a program over exactly
these operations; the methods in `Verif.Model.Lexer`, `Verif.Model.Block` and
`Verif.Model.Flow` are written as such programs.  A program is then run on a
`Machine`: either the abstract cursor of this file or the 4096 byte buffer of
`Verif.Model.Buffer`.
-/

namespace Ogdl

/-- A program over the lexer operations and the event handler. `byte` yields
`none` when Go's `Byte` returns `ErrEOS`.
What parser.go:14-17 holds: a lexer (lexer.go) and an event handler (event.go). -/
inductive Prog (α : Type) : Type where
  | ret (a : α)
  | byte (k : Option UInt8 → Prog α)
  | unread (k : Prog α)
  | rune (k : Nat → Prog α)
  | unreadRune (k : Prog α)
  | getEv (k : Ev → Prog α)
  | setEv (e : Ev) (k : Prog α)
  | oof

namespace Prog

/-- Go's sequencing of statements. -/
def bind {α β : Type} : Prog α → (α → Prog β) → Prog β
  | ret a, f => f a
  | byte k, f => byte fun c => bind (k c) f
  | unread k, f => unread (bind k f)
  | rune k, f => rune fun r => bind (k r) f
  | unreadRune k, f => unreadRune (bind k f)
  | getEv k, f => getEv fun e => bind (k e) f
  | setEv e k, f => setEv e (bind k f)
  | oof, _ => oof

instance : Monad Prog where
  pure := ret
  bind := bind

end Prog

/-- Implementation of the four lexer operations on a state `σ`. lexer.go:133-180. -/
structure Machine (σ : Type) where
  byte : σ → Res (Option UInt8 × σ)
  unread : σ → σ
  rune : σ → Res (Nat × σ)
  unreadRune : σ → σ

/-- Run a program on a machine with an event handler. Go's sequencing of statements. -/
def Prog.run {σ α : Type} (M : Machine σ) : Prog α → σ → Ev → Res (α × σ × Ev)
  | .ret a, s, e => .ok (a, s, e)
  | .byte k, s, e =>
    match M.byte s with
    | .ok (c, s') => (k c).run M s' e
    | .panic => .panic
    | .oof => .oof
  | .unread k, s, e => k.run M (M.unread s) e
  | .rune k, s, e =>
    match M.rune s with
    | .ok (r, s') => (k r).run M s' e
    | .panic => .panic
    | .oof => .oof
  | .unreadRune k, s, e => k.run M (M.unreadRune s) e
  | .getEv k, s, e => (k e).run M s e
  | .setEv e' k, s, _ => k.run M s e'
  | .oof, _, _ => .oof

/-! ## Event handler operations as programs (event.go) -/

/-- event.go:21-31 `Add`, `AddItf`. -/
def evAdd (v : Val) : Prog Unit := .getEv fun e => .setEv (e.add v) (.ret ())
/-- event.go:71-76 `Inc`. -/
def evInc : Prog Unit := .getEv fun e => .setEv e.inc (.ret ())
/-- event.go:79-83 `Dec`. -/
def evDec : Prog Unit := .getEv fun e => .setEv e.dec (.ret ())
/-- event.go:58-60 `Level`. -/
def evLevel : Prog Nat := .getEv fun e => .ret e.current
/-- event.go:63-68 `SetLevel`. -/
def evSetLevel (l : Nat) : Prog Unit := .getEv fun e => .setEv (e.setLevel l) (.ret ())
/-- event.go:52-55 `Delete`. -/
def evDelete : Prog Unit := .getEv fun e => .setEv e.delete (.ret ())

/-! ## The abstract cursor -/

/-- A cursor over the input: bytes already passed (last one first), bytes to
come, how far the read position is beyond the end of the input (Go sets
`p.r = p.lastByte+1` at the end, lexer.go:135), and the rune sizes of
lexer.go:44. -/
structure Cur where
  pre : Bytes
  post : Bytes
  over : Nat := 0
  runes : List Nat := []
  deriving DecidableEq

namespace Cur

/-- lexer.go:133-143 `Byte`. -/
def byte (s : Cur) : Option UInt8 × Cur :=
  match s.post with
  | [] => (none, { s with over := 1 })
  | c :: t => (some c, { s with pre := c :: s.pre, post := t })

/-- lexer.go:146-152 `UnreadByte`: no effect at the start. -/
def unread (s : Cur) : Cur :=
  match s.over with
  | n + 1 => { s with over := n }
  | 0 =>
    match s.pre with
    | [] => s
    | c :: p => { s with pre := p, post := c :: s.post }

/-- Move forward `n` bytes. The effect of lexer.go:157-168 without a buffer. -/
def forward : Nat → Cur → Cur
  | 0, s => s
  | n + 1, s =>
    match s.post with
    | [] => s
    | c :: t => forward n { s with pre := c :: s.pre, post := t }

/-- `p.r -= n`. The effect of lexer.go:146-154 without a buffer. -/
def back : Nat → Cur → Cur
  | 0, s => s
  | n + 1, s => back n s.unread

/-- lexer.go:157-168 `Rune`.  At the end of the input the buffer holds zeros, so
the rune is 0 and the position moves on (see `Verif.Model.Buffer` for inputs
longer than the buffer). -/
def rune (s : Cur) : Nat × Cur :=
  match s.post with
  | [] => (0, { s with over := s.over + 1, runes := 1 :: s.runes })
  | c :: t =>
    if c < 0x80 then
      (c.toNat, { s with pre := c :: s.pre, post := t, runes := 1 :: s.runes })
    else
      let d := decodeRune (c :: t)
      (d.1, { (forward d.2 s) with runes := d.2 :: s.runes })

/-- lexer.go:171-180 `UnreadRune`. -/
def unreadRune (s : Cur) : Cur :=
  match s.runes with
  | [] => s
  | n :: r => back n { s with runes := r }

/-- The cursor at the beginning of an input. lexer.go:51-63 without a buffer. -/
def start (s : Bytes) : Cur := { pre := [], post := s }

end Cur

/-- The abstract cursor as a machine. lexer.go:133-180 without a buffer. -/
def curM : Machine Cur where
  byte s := .ok s.byte
  unread := Cur.unread
  rune s := .ok s.rune
  unreadRune := Cur.unreadRune

end Ogdl
