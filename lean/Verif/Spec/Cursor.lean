import Verif.Model.Buffer

/-! A cursor over a byte string: what `Byte` and `UnreadByte` should do. -/

namespace Ogdl

/-- A call on the lexer. -/
inductive LexOp where
  | byte
  | unread
  deriving Repr, DecidableEq

/-- The results of the `Byte` calls (`none` is the end of the stream) of a cursor at
`pos`.  Beyond the end the position is one after the last byte. -/
def cursorRun (inp : Bytes) : Nat → List LexOp → List (Option UInt8)
  | _, [] => []
  | pos, .byte :: ops => inp[pos]? :: cursorRun inp (min (pos + 1) (inp.length + 1)) ops
  | pos, .unread :: ops => cursorRun inp (pos - 1) ops

/-- The calls never step back to a position more than 2048 bytes (half a buffer)
before the furthest position reached, `hi`. -/
def nearBack (inp : Bytes) : Nat → Nat → List LexOp → Bool
  | _, _, [] => true
  | pos, hi, .byte :: ops =>
    nearBack inp (min (pos + 1) (inp.length + 1)) (max hi (min (pos + 1) (inp.length + 1))) ops
  | pos, hi, .unread :: ops => hi - (pos - 1) ≤ 2048 && nearBack inp (pos - 1) hi ops

/-- The results of the `Byte` calls of the lexer. -/
def lexerRun : Buf → List LexOp → Res (List (Option UInt8))
  | _, [] => .ok []
  | b, .byte :: ops => do
    let (c, b') ← b.byte
    let cs ← lexerRun b' ops
    pure (c :: cs)
  | b, .unread :: ops => lexerRun b.unread ops

end Ogdl
