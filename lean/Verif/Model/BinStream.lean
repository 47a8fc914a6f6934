import Verif.Model.Rf1

/-!
# binary.go: several graphs from one buffered reader, and files
-/

namespace Ogdl

/-- binary.go:79-82 `FromBinaryBufioReader` on a buffered reader: the graph, and the reader
with what it has read ahead.  The reader is that of Model/Rf1: a buffer and what will
arrive. -/
def fromBufio (e : ConnEnd) (s : BufConn) : Res (Graph × BufConn) := srcParse (BufConn.read e) s (s.buf.length + s.conn.fuel + 8)

/-- Calls of `FromBinaryBufioReader` on the same reader. binary.go:79-82 called again and again. -/
def fromBufioN (e : ConnEnd) : Nat → BufConn → Res (List Graph × BufConn)
  | 0, s => .ok ([], s)
  | n + 1, s => do
    let (g, s) ← fromBufio e s
    let (gs, s) ← fromBufioN e n s
    .ok (g :: gs, s)

/-- binary.go:85-88 `FromBinaryFile` with `newFileBinParser` (43-52): a file that is empty or
cannot be read (`none`) has no parser, and `parse` of none gives nil. -/
def fromBinaryFile (file : Option Bytes) : Res Graph :=
  match file with
  | none => .ok .nil
  | some b => if b.isEmpty then .ok .nil else fromBinary b

end Ogdl
