import Verif.Model.Buffer

/-!
# Calls of the methods of a lexer

A client of lexer.go that calls one method after the other.
-/

namespace Ogdl
open Lex

/-- A call of a method of `Lexer`.  The methods that read runes are left out, and `UnreadByte`;
numbers of blanks are not negative. lexer.go:102-531. -/
inductive LexCall where
  | byte
  | peekByte
  | string
  | stringStop (stop : Bytes)
  | brk
  | endp
  | whiteSpace
  | space
  | spaceMax (max : Nat)
  | integer
  | number
  | operator
  | templateText
  | comment
  | quoted (ind : Nat)
  | scalar (ind : Nat)
  | scalarType (ind : Nat)
  | block (nsp : Nat)

/-- What a method returns: a byte (or an error), a text (the second result is whether it is empty),
a boolean, a number of blanks and their kind, the text of a number or a value, or a Go value (`none`
for a false second result). lexer.go:102-531. -/
inductive LexOut where
  | byte (c : Option UInt8)
  | text (s : Bytes)
  | found (b : Bool)
  | blanks (n : Nat) (kind : UInt8)
  | number (s : Option Bytes)
  | value (s : Option Bytes)
  | typed (v : Option Val)

/-- The method (lexer.go:109-629), with the number of turns of its loop. -/
def LexCall.prog (E : Ext) (L : Nat) : LexCall → Prog LexOut
  | .byte => do pure (.byte (← byteErr))
  | .peekByte => do pure (.byte (some (← Lex.peekByte)))
  | .string => do pure (.text (← str L))
  | .stringStop stop => do pure (.text (← Lex.stringStop L stop))
  | .brk => do pure (.found (← Lex.brk))
  | .endp => do pure (.found (← Lex.endp))
  | .whiteSpace => do pure (.found (← Lex.whiteSpace L))
  | .space => do
    let r ← Lex.space L
    pure (.blanks r.1 r.2)
  | .spaceMax max => do
    let r ← Lex.spaceMax L max
    pure (.blanks r.1 r.2)
  | .integer => do pure (.text (← Lex.integer L))
  | .number => do pure (.number (← Lex.number L))
  | .operator => do pure (.text (← Lex.operator L))
  | .templateText => do pure (.text (← Lex.templateText L))
  | .comment => do pure (.found (← Lex.comment L))
  | .quoted ind => do pure (.value (← Lex.quoted L ind))
  | .scalar ind => do pure (.value (← Lex.scalar L ind))
  | .scalarType ind => do pure (.typed (← Lex.scalarType E L ind))
  | .block nsp => do pure (.value (← Lex.block L nsp))

/-- The calls one after the other. A user of lexer.go:102-531. -/
def lexCalls (E : Ext) (L : Nat) : List LexCall → Prog (List LexOut)
  | [] => pure []
  | c :: cs => do
    let o ← c.prog E L
    let os ← lexCalls E L cs
    pure (o :: os)

/-- lexer.go:51-59 `NewLexer` of a reader and the calls: what they return. -/
def newLexerCalls (E : Ext) (L : Nat) (rd : Reader) (cs : List LexCall) : Res (List LexOut) := do
  let r ← (lexCalls E L cs).run bufM (Buf.start rd) {}
  .ok r.1

end Ogdl
