import Verif.Model.Prog

/-!
# lexer.go:108-129 and 182-629

The lexer methods as programs.  `L` is the fuel of every `for` loop that reads
the input byte by byte.
-/

namespace Ogdl
namespace Lex

/-- `c, _ := p.Byte()`: a missing byte reads as 0 (lexer.go:136). -/
def byte0 : Prog UInt8 := .byte fun c => .ret (c.getD 0)
/-- lexer.go:133-143 `Byte` with its error. -/
def byteErr : Prog (Option UInt8) := .byte fun c => .ret c
/-- lexer.go:146-152 `UnreadByte`. -/
def unread : Prog Unit := .unread (.ret ())
/-- lexer.go:157-168 `Rune`. -/
def rune : Prog Nat := .rune fun r => .ret r
/-- lexer.go:171-180 `UnreadRune`. -/
def unreadRune : Prog Unit := .unreadRune (.ret ())

/-- `for i := n; i > 0; i-- { p.UnreadByte() }` (block.go:23, 39, 82, 89). -/
def unreadN : Nat → Prog Unit
  | 0 => pure ()
  | n + 1 => do unread; unreadN n

/-- lexer.go:109-118 `PeekByte`: at the end of the input the position is not
stepped back. -/
def peekByte : Prog UInt8 := do
  match ← byteErr with
  | none => pure 0
  | some c => do
    unread
    pure c

/-- The loop shared by `String`, `StringStop`, `WhiteSpace`, `Space`, `Integer`,
`Operator` and `TemplateText`: collect bytes while `p` holds, then unread one.
lexer.go:183-214, 249-300, 415-431 and 468-498. -/
def readWhile (p : UInt8 → Bool) : Nat → Prog Bytes
  | 0 => .oof
  | f + 1 => do
    let c ← byte0
    if p c then do
      let r ← readWhile p f
      pure (c :: r)
    else do
      unread
      pure []

variable (E : Ext) (L : Nat)

/-- lexer.go:183-197 `String` (the second result is `len(buf) > 0`). -/
def str : Prog Bytes := readWhile isTextChar L

/-- lexer.go:200-214 `StringStop`. -/
def stringStop (stop : Bytes) : Prog Bytes :=
  readWhile (fun c => isTextChar c && !stop.contains c) L

/-- lexer.go:217-230 `Break`.  A CR that is not followed by NL stays consumed. -/
def brk : Prog Bool := do
  let c ← byte0
  let c ← if c == 13 then byte0 else pure c
  if c == 10 then pure true
  else do
    unread
    pure false

/-- lexer.go:233-245 `End`. -/
def endp : Prog Bool := do
  match ← byteErr with
  | none => pure true
  | some c =>
    if isEndChar c then pure true
    else do
      unread
      pure false

/-- lexer.go:249-262 `WhiteSpace`. -/
def whiteSpace : Prog Bool := do
  let s ← readWhile (fun c => c == 13 || c == 10 || c == 9 || c == 32) L
  pure !s.isEmpty

/-- lexer.go:289-296: the kind of space of a run: 32 without tabs, 9 without
spaces, 0 if mixed. -/
def spaceKind (s : Bytes) : UInt8 :=
  if !s.contains 9 then 32 else if !s.contains 32 then 9 else 0

/-- lexer.go:267-297 `Space`: number of spaces and tabs, and their kind. -/
def space : Prog (Nat × UInt8) := do
  let s ← readWhile isSpaceChar L
  pure (s.length, spaceKind s)

/-- lexer.go:308-332: the loop of `SpaceMax`. -/
def spaceMaxLoop (max : Nat) : Nat → Nat → Nat → Prog (Nat × UInt8)
  | 0, _, _ => .oof
  | f + 1, spaces, tabs => do
    let c ← byte0
    if c != 9 && c != 32 then do
      unread
      pure (fin spaces tabs)
    else
      let spaces := if c == 32 then spaces + 1 else spaces
      let tabs := if c == 32 then tabs else tabs + 1
      if spaces == max || tabs == max then pure (fin spaces tabs)
      else spaceMaxLoop max f spaces tabs
where
  /-- lexer.go:325-332 -/
  fin (spaces tabs : Nat) : Nat × UInt8 :=
    (spaces + tabs, if tabs == 0 then 32 else if spaces == 0 then 9 else 0)

/-- lexer.go:303-333 `SpaceMax`. -/
def spaceMax (max : Nat) : Prog (Nat × UInt8) := spaceMaxLoop max L 0 0

/-- lexer.go:348-391: the loop of `Quoted`, with the bytes collected so far (in
order) and the previous byte `c2`.  `none` is `("", false, err)`. -/
def quotedLoop (ind : Nat) (c1 : UInt8) : Nat → Bytes → UInt8 → Prog (Option Bytes)
  | 0, _, _ => .oof
  | f + 1, buf, c2 => do
    let c ← byte0
    if isEndChar c then pure none
    else if c == c1 && c1 == 96 then pure (some buf)
    else if c == c1 && c2 != 92 then pure (some buf)
    else if c == 92 then quotedLoop ind c1 f buf c
    else
      let buf := if c2 == 92 && c != 39 && c != 34 then buf ++ [92] else buf
      let buf := buf ++ [c]
      if c == 10 then do
        let (n, u) ← spaceMax L ind
        if u == 0 then pure none
        else if n < ind then pure (some buf)
        else quotedLoop ind c1 f buf c
      else quotedLoop ind c1 f buf c

/-- lexer.go:337-392 `Quoted`.  `none` stands for a false second result; no
caller looks at the error. -/
def quoted (ind : Nat) : Prog (Option Bytes) := do
  let c1 ← byte0
  if c1 != 34 && c1 != 39 && c1 != 96 then do
    unread
    pure none
  else quotedLoop L ind c1 L [] 0

/-- lexer.go:676-678 `IsLetter` of a rune. -/
def isLetterRune (r : Nat) : Bool :=
  (if r < 256 then latinLetter r else E.runeLetter r) || r == 95

/-- lexer.go:686-688 `isTokenChar`. -/
def isTokenRune (r : Nat) : Bool :=
  (if r < 256 then latinLetter r || latinDigit r else E.runeLetter r || E.runeDigit r) || r == 95

/-- lexer.go:401-407: the loop of `Token8`. -/
def tokenLoop : Nat → Prog (List Nat)
  | 0 => .oof
  | f + 1 => do
    let r ← rune
    if isTokenRune E r then do
      let rs ← tokenLoop f
      pure (r :: rs)
    else do
      unreadRune
      pure []

/-- lexer.go:397-411 `Token8`. -/
def token8 : Prog Bytes := do
  let rs ← tokenLoop E L
  pure (encodeRunes rs)

/-- lexer.go:415-429 `Integer`. -/
def integer : Prog Bytes := readWhile isDigitByte L

/-- lexer.go:446-457: the loop of `Number`. -/
def numberLoop : Nat → Bool → Prog Bytes
  | 0, _ => .oof
  | f + 1, point => do
    let c ← byte0
    if isDigitByte c then do
      let r ← numberLoop f point
      pure (c :: r)
    else if !point && c == 46 then do
      let r ← numberLoop f true
      pure (c :: r)
    else do
      unread
      pure []

/-- lexer.go:434-464 `Number`: `none` if no digits or point were found (a sign
stays consumed). -/
def number : Prog (Option Bytes) := do
  let c ← peekByte
  let sign := c == 45 || c == 43
  if sign then do
    let _ ← byte0
  let buf ← numberLoop L false
  if buf.isEmpty then pure none
  else pure (some (if c == 45 then 45 :: buf else buf))

/-- lexer.go:468-482 `Operator`. -/
def operator : Prog Bytes := readWhile isOperatorChar L

/-- lexer.go:485-498 `TemplateText`. -/
def templateText : Prog Bytes := readWhile isTemplateTextChar L

/-- lexer.go:507-512: the loop of `Comment`. -/
def commentLoop : Nat → Prog Unit
  | 0 => .oof
  | f + 1 => do
    let c ← byte0
    if isEndChar c || isBreakChar c then pure () else commentLoop f

/-- lexer.go:501-519 `Comment`. -/
def comment : Prog Bool := do
  let c ← byte0
  if c == 35 then do
    let c ← byte0
    if isSpaceChar c then do
      commentLoop L
      pure true
    else do
      unread
      unread
      pure false
  else do
    unread
    pure false

/-- lexer.go:555-571: one line of a block, up to and including NL; CRs dropped. -/
def blockLine : Nat → Prog Bytes
  | 0 => .oof
  | f + 1 => do
    let c ← byte0
    if isEndChar c then pure []
    else if c == 13 then blockLine f
    else if c == 10 then pure [10]
    else do
      let r ← blockLine f
      pure (c :: r)

/-- lexer.go:545-572: the lines of a block, while indented more than `nsp`. -/
def blockLoop (nsp : Nat) : Nat → Prog Bytes
  | 0 => .oof
  | f + 1 => do
    let (ns, u) ← space L
    if u == 0 || ns ≤ nsp then pure []
    else do
      let l ← blockLine L
      let r ← blockLoop nsp f
      pure (l ++ r)

/-- lexer.go:574-587: remove trailing NLs. -/
def trimNL (s : Bytes) : Bytes := (s.reverse.dropWhile (· == 10)).reverse

/-- lexer.go:522-590 `Block`. -/
def block (nsp : Nat) : Prog (Option Bytes) := do
  let c ← byte0
  if c != 92 then do
    unread
    pure none
  else do
    let c ← byte0
    if c != 10 && c != 13 then do
      unread
      unread
      pure none
    else do
      if c == 13 then do
        let _ ← byte0
      let s ← blockLoop L nsp L
      pure (some (trimNL s))

/-- lexer.go:593-599 `Scalar`. -/
def scalar (n : Nat) : Prog (Option Bytes) := do
  match ← quoted L n with
  | some b => pure (some b)
  | none => do
    let s ← str L
    pure (if s.isEmpty then none else some s)

/-- lexer.go:613-628: the typed value of an unquoted string. -/
def typed (s : Bytes) : Val :=
  match parseInt s with
  | some i => .int .int64 i
  | none =>
    match E.parseFloat s with
    | some f => .f64 f
    | none =>
      if s = b!"true" then .bool true
      else if s = b!"false" then .bool false
      else .str s

/-- lexer.go:602-629 `ScalarType`. -/
def scalarType (n : Nat) : Prog (Option Val) := do
  match ← quoted L n with
  | some b => pure (some (.str b))
  | none => do
    let s ← str L
    pure (if s.isEmpty then none else some (typed E s))

end Lex
end Ogdl
