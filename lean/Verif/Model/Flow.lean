import Verif.Model.Buffer

/-!
# flow.go: paths and expressions; template.go:291-360: template text

All functions recurse on one fuel `f`.
-/

namespace Ogdl
open Lex

/-- vars.go:15-32 -/
def tyExpression : Bytes := b!"!e"
/-- vars.go:17 -/
def tyPath : Bytes := b!"!p"
/-- vars.go:19 -/
def tySelector : Bytes := b!"!s"
/-- vars.go:20 -/
def tyIndex : Bytes := b!"!i"
/-- vars.go:21 -/
def tyGroup : Bytes := b!"!g"
/-- vars.go:22 -/
def tyArguments : Bytes := b!"!a"
/-- vars.go:23 -/
def tyTemplate : Bytes := b!"!t"
/-- vars.go:24 -/
def tyString : Bytes := b!"!string"
/-- vars.go:26 -/
def tyIf : Bytes := b!"!if"
/-- vars.go:27 -/
def tyEnd : Bytes := b!"!end"
/-- vars.go:28 -/
def tyElse : Bytes := b!"!else"
/-- vars.go:29 -/
def tyElseIf : Bytes := b!"!elseif"
/-- vars.go:30 -/
def tyFor : Bytes := b!"!for"
/-- vars.go:31 -/
def tyBreak : Bytes := b!"!break"

section
variable (E : Ext) (L : Nat)

mutual
/-- flow.go:22-46 `Index` (`opn = '['`) and 49-73 `Selector` (`opn = '{'`), which
differ only in brackets and type.  A missing closing bracket returns false and
leaves the level where it is. -/
def bracket (opn cls : UInt8) (ty : Bytes) : Nat → Prog Bool
  | 0 => .oof
  | f + 1 => do
    let c ← peekByte
    if c != opn then pure false
    else do
      let _ ← byte0
      let i ← evLevel
      evAdd (.str ty)
      evInc
      let _ ← space L
      let _ ← expression f
      let _ ← space L
      let c ← peekByte
      if c != cls then pure false
      else do
        let _ ← byte0
        evSetLevel i
        pure true

/-- flow.go:88-117: the loop of `ArgList`; `level` is restored by the deferred
`SetLevel` (line 86) in `argList`. -/
def argLoop (level : Nat) (something : Bool) : Nat → Prog Bool
  | 0 => .oof
  | f + 1 => do
    let _ ← whiteSpace L
    evAdd (.str tyExpression)
    evInc
    if !(← expression f) then do
      evDec
      evDelete
      pure something
    else do
      evDec
      let _ ← whiteSpace L
      let c ← peekByte
      if c == 41 then pure true
      else if c == 44 then do
        let _ ← byte0
        evSetLevel level
        argLoop level true f
      else do
        evInc
        argLoop level true f

/-- flow.go:121-149 `Args`, with `ArgList` (81-118) inlined. -/
def args (dot : Bool) : Nat → Prog Bool
  | 0 => .oof
  | f + 1 => do
    let c ← peekByte
    if c != 40 then pure false
    else do
      let _ ← byte0
      let i ← evLevel
      evAdd (.str (if dot then tyGroup else tyArguments))
      evInc
      let _ ← whiteSpace L
      let level ← evLevel
      let _ ← argLoop level false f
      evSetLevel level
      let _ ← whiteSpace L
      let c ← peekByte
      if c != 41 then pure false
      else do
        let _ ← byte0
        evSetLevel i
        pure true

/-- flow.go:152-172 `Expression`. -/
def expression : Nat → Prog Bool
  | 0 => .oof
  | f + 1 => do
    if !(← unary f) then pure false
    else exprLoop f

/-- flow.go:158-171: the loop of `Expression`. -/
def exprLoop : Nat → Prog Bool
  | 0 => .oof
  | f + 1 => do
    let _ ← space L
    let b ← operator L
    if b.isEmpty then pure true
    else do
      evAdd (.str b)
      let _ ← space L
      if !(← unary f) then pure false
      else do
        let _ ← space L
        exprLoop f

/-- flow.go:175-226 `UnaryExpression`. -/
def unary : Nat → Prog Bool
  | 0 => .oof
  | f + 1 => do
    let c ← peekByte
    if isLetterByte c then do
      evAdd (.str tyPath)
      evInc
      let _ ← path f
      evDec
      pure true
    else do
      match ← number L with
      | some b => do
        evAdd (.str b)
        pure true
      | none => do
        match ← quoted L 0 with
        | some b => do
          evAdd (.str tyString)
          evInc
          evAdd (.str b)
          evDec
          pure true
        | none => do
          let b ← operator L
          if !b.isEmpty then evAdd (.str b)
          let c ← peekByte
          if c == 40 then do
            let _ ← byte0
            evAdd (.str tyGroup)
            evInc
            let _ ← space L
            let _ ← expression f
            let _ ← space L
            evDec
            let c ← peekByte
            if c != 41 then pure false
            else do
              let _ ← byte0
              pure true
          else path f

/-- flow.go:247-320 `Path`. -/
def path : Nat → Prog Bool
  | 0 => .oof
  | f + 1 => pathElem true false f

/-- flow.go:267-281: between two elements. -/
def pathLoop (anything : Bool) : Nat → Prog Bool
  | 0 => .oof
  | f + 1 => do
    let c ← byte0
    if c == 46 then pathElem true anything f
    else do
      unread
      if c != 91 && c != 40 && c != 123 then pure anything
      else pathElem false anything f

/-- flow.go:285-316: one element. -/
def pathElem (dot anything : Bool) : Nat → Prog Bool
  | 0 => .oof
  | f + 1 => do
    match ← quoted L 0 with
    | some b => do
      evAdd (.str b)
      pathLoop true f
    | none => do
      let b ← token8 E L
      if !b.isEmpty then do
        evAdd (.str b)
        pathLoop true f
      else if ← bracket 91 93 tyIndex f then pathLoop true f
      else if ← bracket 123 125 tySelector f then pathLoop true f
      else if ← args dot f then pathLoop true f
      else pure anything
end

/-- template.go:313-360 `Variable`. -/
def variable' (f : Nat) : Prog Bool := do
  let c ← byte0
  if c != 36 then do
    unread
    pure false
  else do
    let c ← byte0
    if c == 92 then do
      evAdd (.str b!"$")
      pure true
    else do
      unread
      let i ← evLevel
      let c ← byte0
      if c == 40 then do
        evAdd (.str tyExpression)
        evInc
        let _ ← expression E L f
        let _ ← space L
        let _ ← byte0
      else do
        evAdd (.str tyPath)
        evInc
        if c != 123 then unread
        else do
          let _ ← space L
        let _ ← path E L f
        if c == 123 then do
          let _ ← space L
          let _ ← byte0
      evSetLevel i
      pure true

/-- template.go:292-298 `Template` with 301-310 `Text`: `f` is the fuel of the
loop, `g` that of expressions. -/
def template (g : Nat) : Nat → Prog Unit
  | 0 => .oof
  | f + 1 => do
    let s ← templateText L
    if !s.isEmpty then do
      evAdd (.str s)
      template g f
    else if ← variable' E L g then template g f
    else pure ()

end

/-- Fuel of the recursion in flow.go. Fuel of the model only. -/
def flowFuel (s : Bytes) : Nat := 12 * s.length + 20

/-- Run a parser program on a text and build the graph (`NewParser` on a
`bytes.Buffer`, the method, `p.Graph()`). parser.go:20-44. -/
def runParser {α : Type} (p : Prog α) (s : Bytes) : Res Graph := do
  let r ← p.run bufM (Buf.start { data := s }) {}
  r.2.2.tree

/-- `g.This = v` (flow.go:17, expression.go:17, template.go:43). -/
def Graph.setThis (g : Graph) (v : Val) : Graph :=
  match g with
  | .nil => .nil
  | .node _ o => .node v o

/-- flow.go:13-19 `NewPath`. -/
def newPathFuel (E : Ext) (f : Nat) (s : Bytes) : Res Graph := do
  let g ← runParser (path E (loopFuel s) f) s
  .ok (g.setThis (.str tyPath))

/-- flow.go:13-19 `NewPath` with the default fuel. -/
def newPath (E : Ext) (s : Bytes) : Res Graph := newPathFuel E (flowFuel s) s

end Ogdl
