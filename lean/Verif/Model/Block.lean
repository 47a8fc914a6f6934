import Verif.Model.Lexer

/-!
# block.go and parser.go: OGDL text

`tree` and `line` recurse on fuel `f`; `L` is the fuel of the lexer loops.
-/

namespace Ogdl
open Lex

section
variable (E : Ext) (L : Nat)

/-- block.go:144-156: one scalar of a line, added to the events if present. -/
def lineScalar (types : Bool) (n : Nat) : Prog Unit :=
  if types then do
    match ← scalarType E L n with
    | some v => evAdd v
    | none => pure ()
  else do
    match ← scalar L n with
    | some b => evAdd (.str b)
    | none => pure ()

/-- block.go:114-164: the loop of `line`; false if it returned at an end. -/
def lineBody (types : Bool) (n : Nat) : Nat → Prog Bool
  | 0 => .oof
  | f + 1 => do
    if ← endp then pure false
    else if ← brk then pure true
    else if ← comment L then pure true
    else do
      match ← block L n with
      | some s => do
        evAdd (.str s)
        let _ ← brk
        pure true
      | none => do
        lineScalar E L types n
        if ← brk then pure true
        else do
          let _ ← space L
          evInc
          lineBody types n f

/-- block.go:98-168: a line whose indentation is the expected one. -/
def lineHere (types : Bool) (n : Nat) : Prog Bool := do
  let level ← evLevel
  if ← endp then pure false
  else do
    let c ← peekByte
    if c == 44 then do
      let _ ← byte0
      let _ ← space L
    if ← lineBody E L types n L then do
      evSetLevel level
      pure true
    else pure false

mutual
/-- block.go:45-53 `tree`.  (`line` never returns an error: lines 100-102 require
`u == 0 && n == 0`, and a run of length 0 has kind 32.) -/
def tree (types : Bool) : Nat → Nat → Prog Unit
  | 0, _ => .oof
  | f + 1, ns => do
    if ← line types f ns then tree types f ns
    else do
      let _ ← endp
/-- block.go:77-170 `line`. -/
def line (types : Bool) : Nat → Nat → Prog Bool
  | 0, _ => .oof
  | f + 1, ns => do
    let (n, _) ← space L
    if n < ns then do
      unreadN n
      pure false
    else if n > ns then do
      unreadN n
      evInc
      tree types f n
      evDec
      pure true
    else lineHere E L types n
end

/-- block.go:18-27 `Ogdl` and 33-42 `OgdlTypes`. -/
def ogdl (types : Bool) (f : Nat) : Prog Unit := do
  let (n, u) ← space L
  if u == 0 then pure ()
  else do
    unreadN n
    tree E L types f n

end

/-- Fuel of the lexer loops: each iteration reads a byte, and the last one
reads past the end. Fuel of the model only; no counterpart in lexer.go. -/
def loopFuel (s : Bytes) : Nat := s.length + 2
/-- Fuel of `tree`/`line`: at most three calls per byte. Fuel of the model only; no counterpart in block.go:45-170. -/
def treeFuel (s : Bytes) : Nat := 3 * s.length + 5

/-- parser.go:52-63 `FromBytes`, `FromString` and 68-72 `FromStringTypes` on the
abstract cursor. -/
def parseText (E : Ext) (types : Bool) (s : Bytes) : Res Graph := do
  let r ← (ogdl E (loopFuel s) types (treeFuel s)).run curM (Cur.start s) {}
  r.2.2.tree

end Ogdl
