import Verif.Model.Heap
import Verif.Model.Scalar

/-!
# Methods that read a graph, with pointers

The typed getters of gettypes.go and `Len`, `Equals` of graph.go on explicit memory.  Here
a nil slice and an empty one differ.
-/

namespace Ogdl
open HM

section
variable (E : Ext) (fuel : Nat)

/-- graph.go:26-31 `Len`. -/
def hLen (g : Ptr) : HM Int :=
  match g with
  | none => pure (-1)
  | g => do
    let c ← load g
    pure c.out.len

/-- gettypes.go:279-284 `Interface`. -/
def hInterface (g : Ptr) : HM HVal :=
  match g with
  | none => pure (.val .nil)
  | g => do
    let c ← load g
    if c.out.len = 0 then pure (.val .nil)
    else do
      let n ← index c.out 0
      let x ← load n
      pure x.this

/-- gettypes.go:92-103 `String(def...)`. -/
def hStringDef (g : Ptr) (dflt : Option Bytes) : HM Bytes :=
  match g with
  | none => pure (dflt.getD [])
  | g => do
    let v ← hInterface g
    hstring E fuel v

/-- gettypes.go:175-186 `ThisString(def...)`. -/
def hThisString (g : Ptr) (dflt : Option Bytes) : HM Bytes :=
  match g with
  | none => pure (dflt.getD [])
  | g => do
    let c ← load g
    hstring E fuel c.this

/-- gettypes.go:606-620 `_bytes`. -/
def hbytes (v : HVal) : HM Bytes :=
  match v with
  | .val v => pure (vbytes E v)
  | .ptr p => hThisString E fuel p none

/-- gettypes.go:189-191 `Bytes`. -/
def hBytes (g : Ptr) : HM Bytes := do
  let v ← hInterface g
  hbytes E fuel v

/-- gettypes.go:194-196 `ThisBytes`. -/
def hThisBytes (g : Ptr) : HM Bytes := do
  let c ← load g
  hbytes E fuel c.this

/-- The texts of `k` elements of a slice from index `i` on: the loops of gettypes.go:119-122,
141-143 and 166-169. -/
def hTexts (s : Slice) : Nat → Nat → HM (List Bytes)
  | 0, _ => pure []
  | k + 1, i => do
    let n ← index s i
    let x ← load n
    let t ← hstring E fuel x.this
    let ts ← hTexts s k (i + 1)
    pure (t :: ts)

/-- gettypes.go:128-146 `Strings`. -/
def hStrings (g : Ptr) : HM (List Bytes) :=
  match g with
  | none => pure []
  | g => do
    let c ← load g
    hTexts E fuel c.out c.out.len 0

/-- gettypes.go:108-125 `StringCSV`: the slice expression of line 124 panics without
subnodes. -/
def hStringCSV (g : Ptr) (dflt : Option Bytes) : HM Bytes :=
  match g with
  | none => pure (dflt.getD [])
  | g => do
    let c ← load g
    let ss ← hTexts E fuel c.out c.out.len 0
    let s := ss.flatMap fun x => 44 :: 32 :: x
    if s.length < 2 then panic else pure (s.drop 2)

/-- gettypes.go:151-172 `StringTxt`. -/
def hStringTxt (g : Ptr) (dflt : Option Bytes) : HM Bytes :=
  match g with
  | none => pure (dflt.getD [])
  | g => do
    let c ← load g
    if c.out.len = 0 then pure []
    else do
      let ss ← hTexts E fuel c.out c.out.len 0
      pure ((ss.flatMap fun x => 32 :: x).drop 1)

/-- gettypes.go:470-494 `_int64f`: a graph stands for its own content. -/
def hintf (v : HVal) : HM (Option Int) :=
  match v with
  | .val v => lift (vintf E v)
  | .ptr p => do
    let c ← load p
    match c.this with
    | .val v => pure (vintf.go E v)
    | .ptr _ => pure none

/-- gettypes.go:40-49 `Int64(def...)`. -/
def hInt64 (g : Ptr) (dflt : Option Int) : HM Int := do
  let v ← hInterface g
  match ← hintf E v with
  | some n => pure n
  | none => pure (dflt.getD 0)

/-- gettypes.go:209-211 `ThisInt64`. -/
def hThisInt64 (g : Ptr) : HM (Option Int) := do
  let c ← load g
  hintf E c.this

/-- gettypes.go:432-451 `_float64f`: the text of a graph (line 444) is that of its first
subnode. -/
def hfloatf (v : HVal) : HM (Option UInt64) :=
  match v with
  | .val v => pure (vfloatf E v)
  | v => do
    let s ← hstring E fuel v
    pure (E.parseFloat s)

/-- gettypes.go:53-62 `Float64(def...)`. -/
def hFloat64 (g : Ptr) (dflt : Option UInt64) : HM UInt64 := do
  let s ← hStringDef E fuel g none
  match vfloatf E (.str s) with
  | some f => pure f
  | none => pure (dflt.getD E.nan)

/-- gettypes.go:214-216 `ThisFloat64`. -/
def hThisFloat64 (g : Ptr) : HM (Option UInt64) := do
  let c ← load g
  hfloatf E fuel c.this

/-- gettypes.go:528-572 `_boolf`: a graph stands for its own content; a nil one is no
boolean. -/
def hboolf (v : HVal) : HM (Bool × Bool) :=
  match v with
  | .val v => pure (vboolf v)
  | .ptr none => pure (false, false)
  | .ptr p => do
    let c ← load p
    match c.this with
    | .val v => pure (vboolf.go v)
    | .ptr _ => pure (false, false)

/-- gettypes.go:66-75 `Bool(def...)`. -/
def hBool (g : Ptr) (dflt : Option Bool) : HM Bool := do
  let s ← hStringDef E fuel g none
  match vboolf (.str s) with
  | (b, true) => pure b
  | (_, false) => pure (dflt.getD false)

/-- gettypes.go:288-322 `number`; a graph is read as its text (line 304). -/
def hnumber (v : HVal) : HM Val :=
  match v with
  | .val v => lift (number' E v)
  | v => do
    let s ← hstring E fuel v
    lift (number' E (.str s))

/-- gettypes.go:199-201 `Number`. -/
def hNumber (g : Ptr) : HM Val := do
  let v ← hInterface g
  hnumber E fuel v

/-- gettypes.go:204-206 `ThisNumber`. -/
def hThisNumber (g : Ptr) : HM Val := do
  let c ← load g
  hnumber E fuel c.this

/-- gettypes.go:237-251 and 261-275: a number, a bool, or the value itself. -/
def hscalar (v : HVal) : HM HVal := do
  match ← hnumber E fuel v with
  | .nil =>
    match ← hboolf v with
    | (b, true) => pure (.val (.bool b))
    | (_, false) => pure v
  | n => pure (.val n)

/-- gettypes.go:234-236 and 258-260: a nil content is replaced by that of the first
subnode, if the slice of subnodes is not nil.  An empty slice that is not nil makes
`g.Out[0]` panic. -/
def hOrFirst (g : Ptr) (v : HVal) : HM HVal :=
  match v with
  | .val .nil => do
    let c ← load g
    if c.out.arr.isSome then do
      let n ← index c.out 0
      let x ← load n
      pure x.this
    else pure (.val .nil)
  | v => pure v

/-- gettypes.go:231-252 `Scalar`. -/
def hScalar (g : Ptr) : HM HVal := do
  let v ← hInterface g
  let v ← hOrFirst g v
  hscalar E fuel v

/-- gettypes.go:255-276 `ThisScalar`. -/
def hThisScalar (g : Ptr) : HM HVal := do
  let c ← load g
  let v ← hOrFirst g c.this
  hscalar E fuel v

/-- graph.go:48-52: `k` turns from index `i` on. -/
def hPairwise (f : Ptr → Ptr → HM Bool) (x y : Slice) : Nat → Nat → HM Bool
  | 0, _ => pure true
  | k + 1, i => do
    let p ← index x i
    let q ← index y i
    if ← f p q then hPairwise f x y k (i + 1) else pure false

/-- graph.go:39-54 `Equals`.  Fuel: depth. -/
def hEquals : Nat → Ptr → Ptr → HM Bool
  | 0, _, _ => oof
  | f + 1, g, c => do
    let y ← load c
    let x ← load g
    if ← lift (hvalEq E y.this x.this) then
      if x.out.len ≠ y.out.len then pure false
      else hPairwise (hEquals f) x.out y.out x.out.len 0
    else pure false

end
end Ogdl
