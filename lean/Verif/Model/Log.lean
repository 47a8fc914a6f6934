import Verif.Model.Binary

/-!
# log.go

A log over a file (or, without a file, over a byte buffer).  Simplification:
`Write`, `Seek` and `ReadAt` on the file do not fail; a failing or interrupted
write is represented in the theorems by truncating the data.
-/

namespace Ogdl

/-- log.go:16-20.  `isFile` is `log.f != nil`; `data` the file content (or the
buffer `b`). -/
structure Log where
  isFile : Bool
  data : Bytes

section
variable (E : Ext)

/-- log.go:94-112 `AddBinary`: new log and starting position. -/
def Log.addBinary (l : Log) (b : Bytes) : Log × Int :=
  ({ l with data := l.data ++ b }, l.data.length)

/-- log.go:56-82 `Add`: new log and starting position (0 and no change for nil). -/
def Log.add (l : Log) (g : Graph) : Res (Log × Int) := do
  match ← g.binary E with
  | none => .ok (l, 0)
  | some b => .ok (l.addBinary b)

end

/-- log.go:85-90 `Bytes`. -/
def Log.bytes (l : Log) : Option Bytes := if l.isFile then none else some l.data

/-- log.go:116-132 `Get`: graph, next position and whether `err == nil`.  Seeking
to a negative position, or on a nil file, is an error. -/
def Log.get (fuel : Nat) (l : Log) (i : Int) : Res (Graph × Int × Bool) :=
  if !l.isFile || i < 0 then .ok (.nil, -1, false)
  else do
    let (g, p) ← (BinR.mk (l.data.drop i.toNat) 0).parse fuel
    if p.n = 0 then .ok (g, -1, true) else .ok (g, i + p.n, true)

/-- log.go:154-159: the loop of `GetBinary`, returning the bytes consumed. -/
def BinR.skip (p : BinR) (fuel : Nat) : Nat → Res BinR
  | 0 => .oof
  | f + 1 => do
    let (lev, _, _, p) ← p.line fuel
    if lev = 0 then .ok p else p.skip fuel f

/-- log.go:137-168 `GetBinary`: bytes, the second result (the *length* `n`, line
167) and whether `err == nil`. -/
def Log.getBinary (fuel : Nat) (l : Log) (i : Int) : Res (Bytes × Int × Bool) :=
  if !l.isFile || i < 0 then .ok ([], 0, false)
  else
    match (BinR.mk (l.data.drop i.toNat) 0).header with
    | (false, _) => .ok ([], 0, true)
    | (true, p) => do
      let p ← p.skip fuel fuel
      .ok ((l.data.drop i.toNat).take p.n, p.n, true)

end Ogdl
