import Verif.Model.Go

/-!
# Values and graphs

`interface{}` and `*Graph` (graph.go:13-18).  A nil `*Graph` is the constructor
`Graph.nil`, so nil pointers inside `Out` are representable.

Simplification: graphs are trees without pointer identity.  Sharing of one node
between two parents is modelled separately in `Verif.Model.Heap`.
-/

namespace Ogdl

/-- The Go integer types that `_int64` (gettypes.go:498-525) distinguishes. -/
inductive IntKind where
  | int | int8 | int16 | int32 | int64 | uint | uint8 | uint16 | uint32 | uint64
  deriving DecidableEq, Repr

mutual
/-- An `interface{}` value.  `f64`/`f32` hold IEEE bits, `graph` a `*Graph`
(possibly a typed nil), `other` any other dynamic type (functions, structs, ...). The field `This` of graph.go:15-18. -/
inductive Val where
  | nil
  | str (s : Bytes)
  | bytes (b : Bytes)
  | bool (b : Bool)
  | int (k : IntKind) (i : Int)
  | f64 (bits : UInt64)
  | f32 (bits : UInt32)
  | graph (g : Graph)
  | other (tag : Nat)
/-- A `*Graph` (graph.go:15-18): nil, or a node with its content and subnodes. -/
inductive Graph where
  | nil
  | node (this : Val) (out : List Graph)
end

instance : Inhabited Val := ⟨.nil⟩
instance : Inhabited Graph := ⟨.nil⟩

/-- The errors returned by eval.go and function.go (vars.go:34-54 and
function.go:90, 95, 112, 130). -/
inductive Err where
  | nilReceiver | invalidArgs | invalidIndex | notFound | functionNoGraph
  | argCount | argTypes | noMethod
  deriving DecidableEq, Repr

/-- What `function` (function.go:35-44) finds in a value through `reflect`: a Go
function (`remote` if its type is `func(*Graph) (*Graph, error)`) with the names of
its parameter types, a pointer with its methods, or anything else.  A call yields
`none` if it panics, otherwise its first result if it has one.  Called functions
are assumed not to change the context graph. -/
inductive Callable where
  | none
  | func (remote : Bool) (ins : List Bytes) (fn : List Val → Option (Option Val))
  | ptr (method : Bytes → Option (List Bytes × (List Val → Option (Option Val))))

/-- Standard library and run-time behaviour outside the repository.  All
theorems quantify over every such structure; nothing is assumed about it.
Called in gettypes.go, function.go, eval.go and lexer.go. -/
structure Ext where
  /-- `float64(v)` for a float32 -/
  f32to64 : UInt32 → UInt64
  /-- `fmt.Sprint` of float64 / float32 / any other dynamic type -/
  fmtF64 : UInt64 → Bytes
  fmtF32 : UInt32 → Bytes
  fmtOther : Nat → Bytes
  /-- `fmt.Sprintf("%f ", f)` without the trailing space -/
  fmtFixed : UInt64 → Bytes
  /-- `strconv.ParseFloat(s, 64)` -/
  parseFloat : Bytes → Option UInt64
  fadd : UInt64 → UInt64 → UInt64
  fsub : UInt64 → UInt64 → UInt64
  fmul : UInt64 → UInt64 → UInt64
  fdiv : UInt64 → UInt64 → UInt64
  feq : UInt64 → UInt64 → Bool
  flt : UInt64 → UInt64 → Bool
  fle : UInt64 → UInt64 → Bool
  /-- `float64(i)` and `int64(f)` -/
  ofInt : Int → UInt64
  toInt : UInt64 → Int
  nan : UInt64
  /-- `unicode.IsLetter` / `unicode.IsDigit` above Latin-1 -/
  runeLetter : Nat → Bool
  runeDigit : Nat → Bool
  /-- pointer comparison of two `*Graph` contents -/
  ptrEq : Graph → Graph → Bool
  /-- `==` on two values of other dynamic types; `none` is the run-time panic -/
  otherEq : Nat → Nat → Option Bool
  /-- `reflect.TypeOf(x).String()` for other dynamic types -/
  otherType : Nat → Bytes
  /-- `reflect` view of a value (function.go:35-44, 117) -/
  callable : Val → Callable
  /-- `reflect.Zero` of the type with the given name -/
  zero : Bytes → Val
  /-- a `[]string` as interface value -/
  ofStrings : List Bytes → Val
  /-- the interface value that holds an error (eval.go:401, 421) -/
  errTag : Err → Nat
  /-- `regexp` matching: `none` if the expression does not compile -/
  regexp : Bytes → Option (Bytes → Bool)

namespace Graph

/-- The field `g.This` of a non-nil node. graph.go:15-18. -/
def this : Graph → Val
  | .nil => .nil
  | .node t _ => t

/-- The field `g.Out` of a non-nil node. graph.go:15-18. -/
def out : Graph → List Graph
  | .nil => []
  | .node _ o => o

/-- `g == nil`. As in graph.go:27 and 225. -/
def isNil : Graph → Bool
  | .nil => true
  | _ => false

@[simp] theorem this_node (t : Val) (o : List Graph) : (Graph.node t o).this = t := rfl
@[simp] theorem out_node (t : Val) (o : List Graph) : (Graph.node t o).out = o := rfl
@[simp] theorem isNil_node (t : Val) (o : List Graph) : (Graph.node t o).isNil = false := rfl
@[simp] theorem isNil_nil : Graph.nil.isNil = true := rfl

end Graph

section
variable (E : Ext)

mutual
/-- gettypes.go:574-588 `_string`.  Simplification: if the content is a `*Graph`
whose first subnode is a nil pointer the Go code panics; the model yields "". -/
def vstr : Val → Bytes
  | .nil => []
  | .bytes b => b
  | .str s => s
  | .graph g => vstrG g
  | .bool b => if b then b!"true" else b!"false"
  | .int _ i => itoa i
  | .f64 x => E.fmtF64 x
  | .f32 x => E.fmtF32 x
  | .other t => E.fmtOther t
/-- gettypes.go:92-103 `String()` of a `*Graph` content (first subnode's content). -/
def vstrG : Graph → Bytes
  | .nil => []
  | .node _ o => vstrL o
/-- gettypes.go:279-284 `Interface()`: content of the first subnode, as text. -/
def vstrL : List Graph → Bytes
  | [] => []
  | g :: _ => vstrH g
/-- content of one node as text. gettypes.go:574-588. -/
def vstrH : Graph → Bytes
  | .nil => []
  | .node t _ => vstr t
end

/-- gettypes.go:175-186 `ThisString()` without default. -/
def Graph.thisString (g : Graph) : Bytes :=
  match g with
  | .nil => []
  | .node t _ => vstr E t

/-- gettypes.go:606-620 `_bytes` (length and content; nil and empty slices are
not distinguished, no caller does). -/
def vbytes : Val → Bytes
  | .nil => []
  | .bytes b => b
  | .str s => s
  | .graph g => g.thisString E
  | .bool b => if b then b!"true" else b!"false"
  | .int _ i => itoa i
  | .f64 x => E.fmtF64 x
  | .f32 x => E.fmtF32 x
  | .other t => E.fmtOther t

/-- gettypes.go:455-466 `_float64`. -/
def vfloat : Val → Option UInt64
  | .f32 x => some (E.f32to64 x)
  | .f64 x => some x
  | _ => none

/-- gettypes.go:498-525 `_int64`: `int64(v)` of any integer type wraps. -/
def vint : Val → Option Int
  | .int _ i => some (wrap64 i)
  | _ => none

/-- gettypes.go:470-494 `_int64f`.  Panics on a typed nil `*Graph` (line 473). -/
def vintf : Val → Res (Option Int)
  | .graph .nil => .panic
  | .graph (.node t _) => .ok (go t)
  | v => .ok (go v)
where
  /-- gettypes.go:476-493, after the `*Graph` has been replaced by its content -/
  go : Val → Option Int
  | .bytes b => parseInt b
  | .str s => parseInt s
  | .f32 x => some (E.toInt (E.f32to64 x))
  | .f64 x => some (E.toInt x)
  | v => vint v

/-- gettypes.go:432-451 `_float64f`. -/
def vfloatf (v : Val) : Option UInt64 :=
  match vfloat E v with
  | some f => some f
  | none =>
    match vint v with
    | some i => some (E.ofInt i)
    | none => E.parseFloat (vstr E v)

/-- gettypes.go:528-572 `_boolf`: value and ok. -/
def vboolf (v : Val) : Bool × Bool :=
  match v with
  | .graph .nil => (false, false)
  | .graph (.node t _) => go t
  | v => go v
where
  /-- gettypes.go:538-571 -/
  go : Val → Bool × Bool
  | .bytes s | .str s =>
    if s = b!"false" then (false, true)
    else if s = b!"true" then (true, true)
    else (false, false)
  | .bool b => (b, true)
  | .int .int i => (i != 0, true)
  | .int .int64 i => (i != 0, true)
  | _ => (false, false)

/-- Go `==` on two interface values (used by `Equals`, `Delete`): different
dynamic types are unequal, comparing two `[]byte` panics. graph.go:39-54 and 240. -/
def itfEq : Val → Val → Res Bool
  | .nil, .nil => .ok true
  | .str a, .str b => .ok (a == b)
  | .bytes _, .bytes _ => .panic
  | .bool a, .bool b => .ok (a == b)
  | .int k a, .int l b => .ok (k == l && a == b)
  | .f64 a, .f64 b => .ok (E.feq a b)
  | .f32 a, .f32 b => .ok (E.feq (E.f32to64 a) (E.f32to64 b))
  | .graph a, .graph b => .ok (E.ptrEq a b)
  | .other a, .other b => match E.otherEq a b with | some r => .ok r | none => .panic
  | _, _ => .ok false

end
end Ogdl
