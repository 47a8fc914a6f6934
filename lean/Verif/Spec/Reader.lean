import Verif.Model.Buffer

/-! What the lexer sees of an `io.Reader`. -/

namespace Ogdl

/-- Bytes that enter the buffer by successive refills of its upper half: one
`Read` each; a short one is the last. -/
def refills : Nat → Reader → Bytes
  | 0, _ => []
  | f + 1, rd =>
    match rd.read 2048 with
    | (got, ok, rd') =>
      if !ok then []
      else if got.length = 2048 then got ++ refills f rd'
      else got

/-- Bytes that enter the buffer when the parser is created: reads until there are
2048 or more, at most `i` times. -/
def firstFill : Nat → Nat → Reader → Bytes × Reader
  | 0, _, rd => ([], rd)
  | i + 1, off, rd =>
    match rd.read (4096 - off) with
    | (got, ok, rd') =>
      if !ok then ([], rd')
      else if off + got.length ≥ 2048 then (got, rd')
      else (got ++ (firstFill i (off + got.length) rd').1, (firstFill i (off + got.length) rd').2)

/-- The part of the reader's data that reaches the parser. -/
def delivered (rd : Reader) : Bytes :=
  match firstFill 100 0 rd with
  | (d, rd') => if d.length = 4096 then d ++ refills (rd'.data.length + 1) rd' else d

end Ogdl
