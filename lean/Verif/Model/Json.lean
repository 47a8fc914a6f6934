import Verif.Model.Text

/-!
# encoding.go: `JSON` and `FromJSON`
-/

namespace Ogdl

/-- `strings.Replace(s, "\"", "\\\"", -1)` (encoding.go:161). -/
def escapeQuotes (s : Bytes) : Bytes := s.flatMap fun c => if c == 34 then [92, 34] else [c]

section
variable (E : Ext)

/-- encoding.go:158-165 `writeString`. -/
def writeString (v : Val) : Bytes := 34 :: escapeQuotes (vstr E v) ++ [34, 32]

/-- encoding.go:167-179 `writeValue`. -/
def writeValue (v : Val) : Bytes :=
  match vint v with
  | some n => itoa n ++ [32]
  | none =>
    match vfloat E v with
    | some f => E.fmtFixed f ++ [32]
    | none => writeString E v

mutual
/-- encoding.go:110-156 `json`; a nil pointer panics (line 130). -/
def Graph.jsonNode : Graph → Res Bytes
  | .nil => .panic
  | .node t [] => .ok (writeValue E t)
  | .node t (g :: gs) => do
    let body ← Graph.jsonList false (g :: gs)
    if vstr E t = b!"_" then .ok (b!"[ " ++ body ++ b!"]")
    else if (g :: gs).length > 1 then .ok (b!"{ " ++ body ++ b!"}")
    else .ok body
/-- encoding.go:130-147: the loop over the subnodes; `comma` is set after the first
subnode that is not a leaf. -/
def Graph.jsonList (comma : Bool) : List Graph → Res Bytes
  | [] => .ok []
  | g :: gs => do
    let sep := if comma then b!", " else []
    match g with
    | .nil => .panic
    | .node t [] => do
      let rest ← Graph.jsonList comma gs
      .ok (sep ++ writeValue E t ++ rest)
    | .node t [x] => do
      let v ← Graph.jsonNode (.node t [x])
      let rest ← Graph.jsonList true gs
      .ok (sep ++ writeString E t ++ b!": " ++ v ++ rest)
    | .node t (x :: y :: zs) => do
      let v ← Graph.jsonNode (.node t (x :: y :: zs))
      let rest ← Graph.jsonList true gs
      .ok (sep ++ v ++ rest)
end

/-- encoding.go:87-108 `JSON`, with the graph as it is left: the root content is set to
"" (line 98), the graph written (line 100) and the root content restored (line 103),
which is not reached when `json` panics. -/
def Graph.jsonRun : Graph → Res Bytes × Graph
  | .nil => (.ok [], .nil)
  | .node i o =>
    let g := Graph.node (.str []) o
    match g.jsonNode E with
    | .ok b => (.ok b, .node i g.out)
    | r => (r, g)

/-- The text that `JSON` returns. encoding.go:97-115. -/
def Graph.json (g : Graph) : Res Bytes := (g.jsonRun E).1

end

/-- A decoded JSON document (`json.Decoder` with `UseNumber`).  `int`/`float` are the
two outcomes of `json.Number.Int64`/`Float64`; an object is the list of its entries
in the order in which the map iteration visits them. The argument of encoding.go:49-94. -/
inductive Json where
  | null
  | bool (b : Bool)
  | int (i : Int)
  | float (bits : UInt64)
  | str (s : Bytes)
  | arr (l : List Json)
  | obj (l : List (Bytes × Json))

mutual
/-- encoding.go:48-80 `toGraph`: subnodes of the `_` node it returns.  `Add(nil)`
adds nothing. -/
def toGraphOut : Json → List Graph
  | .null => []
  | .bool b => [.node (.bool b) []]
  | .int i => [.node (.int .int64 i) []]
  | .float f => [.node (.f64 f) []]
  | .str s => [.node (.str s) []]
  | .arr l => toGraphArr l
  | .obj l => [.node (.str b!"_") (toGraphObj l)]
/-- encoding.go:56-58: the elements of an array, each under a `_` node. -/
def toGraphArr : List Json → List Graph
  | [] => []
  | j :: js => .node (.str b!"_") (toGraphOut j) :: toGraphArr js
/-- encoding.go:61-63: the entries of an object, in the order given. -/
def toGraphObj : List (Bytes × Json) → List Graph
  | [] => []
  | (k, j) :: js => .node (.str k) (toGraphOut j) :: toGraphObj js
end

/-- encoding.go:31-46 `FromJSON` on a decoded document: `toGraph(v).GetAt(0)`. -/
def fromJSON (j : Json) : Graph := (toGraphOut j).headD .nil

end Ogdl
