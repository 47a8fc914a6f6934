import Verif.Model.Buffer

/-!
# Calls of the methods of a lexer that read runes

A client of lexer.go that calls `Rune`, `PeekRune` and `UnreadRune` one after the other.
-/

namespace Ogdl

/-- A call of `Rune`, `PeekRune` or `UnreadRune`. lexer.go:121-180. -/
inductive RuneCall where
  | rune
  | peek
  | unread

/-- What a method returns: a rune (the error of `Rune` and `PeekRune` is always nil), or whether there
is an error (`ErrInvalidUnread`). lexer.go:121-180. -/
inductive RuneOut where
  | rune (r : Nat)
  | unread (failed : Bool)

/-- The method: lexer.go:157-168 `Rune`, lexer.go:121-129 `PeekRune`, lexer.go:171-180 `UnreadRune`.
Simplified: a step back to before the beginning of the buffer, possible only after a refill, makes the
position negative in the code and 0 here; the theorems are about calls that do not go there. -/
def RuneCall.run (b : Buf) : RuneCall → Res (RuneOut × Buf)
  | .rune => do
    let (r, b') ← b.rune
    .ok (.rune r, b')
  | .peek => do
    let (r, b') ← b.rune
    .ok (.rune r, b'.unreadRune)
  | .unread => .ok (.unread b.runes.isEmpty, b.unreadRune)

/-- The calls one after the other. A user of lexer.go:121-180. -/
def runeCalls : List RuneCall → Buf → Res (List RuneOut)
  | [], _ => .ok []
  | c :: cs, b => do
    let (o, b') ← c.run b
    let os ← runeCalls cs b'
    .ok (o :: os)

/-- lexer.go:51-59 `NewLexer` of a text (as strings.NewReader gives it) and the calls: what they return. -/
def newLexerRunes (inp : Bytes) (cs : List RuneCall) : Res (List RuneOut) := runeCalls cs (Buf.start { data := inp })

end Ogdl
