import Verif.Model.Text

/-!
# gettypes.go: numbers and scalars
-/

namespace Ogdl

section
variable (E : Ext)

/-- gettypes.go:664-674 `isNumber`: a digit, or a minus sign and a digit, first. -/
def isNumber : Bytes → Bool
  | [] => false
  | [c] => isDigitByte c
  | c :: d :: _ => isDigitByte c || (c == 45 && isDigitByte d)

/-- gettypes.go:679-720 `isInteger`; `s[i]` (line 695) panics if all bytes are
spaces. -/
def isInteger (s : Bytes) : Res Bool :=
  if s.isEmpty then .ok false
  else
    match s.dropWhile isSpaceChar with
    | [] => .panic
    | c :: t =>
      let t := if c == 45 then t else c :: t
      if (t.takeWhile isDigitByte).isEmpty then .ok false
      else .ok ((t.dropWhile isDigitByte).all isSpaceChar)

/-- gettypes.go:288-322 `number`: an int64, a float64 or nil. -/
def number' (v : Val) : Res Val :=
  match v with
  | .nil => .ok .nil
  | v =>
    match vfloat E v with
    | some f => .ok (.f64 f)
    | none =>
      match vint v with
      | some i => .ok (.int .int64 i)
      | none =>
        let s := vstr E v
        if s.isEmpty then .ok .nil
        else do
          if ← isInteger s then
            match parseInt s with
            | some i => .ok (.int .int64 i)
            | none => .ok .nil
          else
            match E.parseFloat s with
            | some f => .ok (.f64 f)
            | none => .ok .nil

/-- gettypes.go:237-251 and 261-275: a number, a bool, or the value itself. -/
def scalarOf (v : Val) : Res Val := do
  match ← number' E v with
  | .nil =>
    match vboolf v with
    | (b, true) => .ok (.bool b)
    | (_, false) => .ok v
  | n => .ok n

/-- gettypes.go:231-252 `Scalar`.  Simplification: an empty `Out` is taken to be a
nil slice (with a non-nil empty one line 235 panics: see Model/HeapRead.lean). -/
def Graph.scalar (g : Graph) : Res Val :=
  match g with
  | .nil => .panic
  | g => do
    let v ← g.interface
    scalarOf E v

/-- gettypes.go:255-276 `ThisScalar`.  Simplification: an empty `Out` is taken to be
a nil slice (with a non-nil empty one line 259 panics: see Model/HeapRead.lean). -/
def Graph.thisScalar : Graph → Res Val
  | .nil => .panic
  | .node .nil [] => scalarOf E .nil
  | .node .nil (.nil :: _) => .panic
  | .node .nil (.node t _ :: _) => scalarOf E t
  | .node t _ => scalarOf E t

/-- gettypes.go:199-201 `Number`. -/
def Graph.number (g : Graph) : Res Val := do
  let v ← g.interface
  number' E v

/-- gettypes.go:204-206 `ThisNumber`; panics on a nil receiver. -/
def Graph.thisNumber : Graph → Res Val
  | .nil => .panic
  | .node t _ => number' E t

/-- gettypes.go:209-211 `ThisInt64`: the number and whether it is one. -/
def Graph.thisInt64 : Graph → Res (Option Int)
  | .nil => .panic
  | .node t _ => vintf E t

/-- gettypes.go:214-216 `ThisFloat64`: the number and whether it is one. -/
def Graph.thisFloat64 : Graph → Res (Option UInt64)
  | .nil => .panic
  | .node t _ => .ok (vfloatf E t)

/-- gettypes.go:189-191 `Bytes`. -/
def Graph.bytes (g : Graph) : Res Bytes := do
  let v ← g.interface
  .ok (vbytes E v)

/-- gettypes.go:194-196 `ThisBytes`; panics on a nil receiver. -/
def Graph.thisBytes : Graph → Res Bytes
  | .nil => .panic
  | .node t _ => .ok (vbytes E t)

/-- gettypes.go:596-604 `_simplify` of a `*Graph`. -/
def simplify (g : Graph) : Val :=
  match g with
  | .node _ [.node t []] => t
  | g => .graph g

/-- gettypes.go:622-636 `_text`. -/
def vtext (v : Val) : Res Bytes :=
  match v with
  | .graph g => g.text E
  | v => .ok (vstr E v)

/-- `reflect.TypeOf(v).String()` of a non-nil value. graph.go:34-36. -/
def typeName : Val → Bytes
  | .nil => []
  | .str _ => b!"string"
  | .bytes _ => b!"[]uint8"
  | .bool _ => b!"bool"
  | .int .int _ => b!"int"
  | .int .int8 _ => b!"int8"
  | .int .int16 _ => b!"int16"
  | .int .int32 _ => b!"int32"
  | .int .int64 _ => b!"int64"
  | .int .uint _ => b!"uint"
  | .int .uint8 _ => b!"uint8"
  | .int .uint16 _ => b!"uint16"
  | .int .uint32 _ => b!"uint32"
  | .int .uint64 _ => b!"uint64"
  | .f64 _ => b!"float64"
  | .f32 _ => b!"float32"
  | .graph _ => b!"*ogdl.Graph"
  | .other t => E.otherType t

end
end Ogdl
