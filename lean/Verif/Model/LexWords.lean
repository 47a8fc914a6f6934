import Verif.Model.LexCalls

/-!
# Calls of the methods of a lexer, and words

As `Verif.Model.LexCalls`, with `Token8`.
-/

namespace Ogdl
open Lex

/-- A call of `Token8` or of another method of `Lexer`. lexer.go:397-412. -/
inductive WordCall where
  | token8
  | other (c : LexCall)

/-- The method.  `Token8` (lexer.go:397-411) returns a text; its second result is whether it is empty. -/
def WordCall.prog (E : Ext) (L : Nat) : WordCall → Prog LexOut
  | .token8 => do pure (.text (← Lex.token8 E L))
  | .other c => c.prog E L

/-- The calls one after the other. A user of lexer.go:102-531. -/
def wordCalls (E : Ext) (L : Nat) : List WordCall → Prog (List LexOut)
  | [] => pure []
  | c :: cs => do
    let o ← c.prog E L
    let os ← wordCalls E L cs
    pure (o :: os)

/-- lexer.go:51-59 `NewLexer` of a text (as strings.NewReader gives it) and the calls: what they return. -/
def newLexerWords (E : Ext) (L : Nat) (inp : Bytes) (cs : List WordCall) : Res (List LexOut) := do
  let r ← (wordCalls E L cs).run bufM (Buf.start { data := inp }) {}
  .ok r.1

end Ogdl
