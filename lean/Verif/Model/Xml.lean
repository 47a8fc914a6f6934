import Verif.Model.Graph

/-!
# io/gxml/xml.go: `FromXML` and `Simplify`

The decoder (`encoding/xml`) is outside the model: the input is the sequence of
tokens that it delivers before it stops, at the end of the input or at an error
(line 59: both end the loop).
-/

namespace Ogdl

/-- The tokens of `encoding/xml`; namespaces of names are not used by the code. xml.go:40-107. -/
inductive XmlToken where
  | start (name : Bytes) (attrs : List (Bytes × Bytes))
  | chars (s : Bytes)
  | stop
  | other

/-- Text functions from outside the repository: the removal of accents (line 72) and
`strings.TrimSpace` (line 88). Called in xml.go:40-107. -/
structure XmlExt where
  plainKey : Bytes → Bytes
  trim : Bytes → Bytes

/-- xml.go:71-74: the name of the node of an element. -/
def xmlKey (X : XmlExt) (name : Bytes) : Bytes := (X.plainKey name).map fun c => if c == 45 then 95 else c

/-- xml.go:79-83: the subnodes made from the attributes. -/
def attrNodes (attrs : List (Bytes × Bytes)) : List Graph := attrs.map fun a => .node (.str (64 :: a.1)) [.node (.str a.2) []]

/-- The stack of line 52: content and subnodes of the open nodes, innermost first.  A
node is added to its parent when it is opened; as the parent gets no other subnodes
while it is open, it is added here when it is closed.  `done` is the root once it has
been popped. xml.go:40-107. -/
structure XmlSt where
  stack : List (Val × List Graph)
  done : Graph := .nil

/-- xml.go:57-103: one turn of the loop.  Without an open node lines 76, 90 and 98
panic. -/
def xmlStep (X : XmlExt) (s : XmlSt) : XmlToken → Res XmlSt
  | .start name attrs =>
    match s.stack with
    | [] => .panic
    | st => .ok { s with stack := (.str (xmlKey X name), attrNodes attrs) :: st }
  | .chars t =>
    match s.stack with
    | [] => .panic
    | (v, o) :: st =>
      let val := X.trim t
      if val.length > 0 then .ok { s with stack := (v, o ++ [.node (.str val) []]) :: st } else .ok s
  | .stop =>
    match s.stack with
    | [] => .panic
    | [(v, o)] => .ok ⟨[], .node v o⟩
    | (v, o) :: (v', o') :: st => .ok { s with stack := (v', o' ++ [.node v o]) :: st }
  | .other => .ok s

/-- The root, with the nodes that are still open. xml.go:40-107. -/
def xmlRoot (s : XmlSt) : Graph :=
  match s.stack with
  | [] => s.done
  | f :: st => .node (up f st).1 (up f st).2
where
  /-- Adds the open nodes to their parents. -/
  up (f : Val × List Graph) : List (Val × List Graph) → Val × List Graph
    | [] => f
    | p :: st => up (p.1, p.2 ++ [.node f.1 f.2]) st

/-- xml.go:40-107 `FromXML`. -/
def fromXML (X : XmlExt) (ts : List XmlToken) : Res Graph := do
  let s ← ts.foldlM (xmlStep X) { stack := [(.nil, [])] }
  .ok (xmlRoot s)

section
variable (E : Ext)

/-- xml.go:22-33: the new content of a node and the subnodes that remain; `rs` are the
results of `Simplify` for the subnodes, of which only those that remain count. -/
def simplifyXmlNode (v : Val) (o : List Graph) (rs : List (Res Graph)) : Res (Val × List (Res Graph)) :=
  match o with
  | [] => .ok (v, rs)
  | first :: _ =>
    if first.thisString E == b!"@id" && o.length ≥ 2 then
      let keep := match rs.getLast? with
        | some r => [r]
        | none => []
      match v with
      | .str [112] => .ok (v, keep)
      | _ =>
        match first with
        | .node _ (.node t _ :: _) => .ok (t, keep)
        | _ => .panic
    else
      match first with
      | .node k [c] =>
        if vstr E v == b!"field" && vstr E k == b!"@name" then
          .ok (.str ((c.thisString E).map fun x => if x == 32 then 95 else x), rs.drop 1)
        else .ok (v, rs)
      | _ => .ok (v, rs)

mutual
/-- xml.go:20-34: what the loop of `Simplify` does to one subnode; nil pointers panic
(line 22).  `n.String()` of line 29 is the text of the first subnode. -/
def simplifyXmlChild : Graph → Res Graph
  | .nil => .panic
  | .node v o => do
    let (v, rs) ← simplifyXmlNode E v o (simplifyXmlEach o)
    let o ← rs.mapM id
    .ok (.node v o)
/-- The results for all subnodes. xml.go:20-34. -/
def simplifyXmlEach : List Graph → List (Res Graph)
  | [] => []
  | g :: gs => simplifyXmlChild g :: simplifyXmlEach gs
end

/-- xml.go:15-37 `Simplify`; a nil graph panics. -/
def simplifyXml : Graph → Res Graph
  | .nil => .panic
  | .node v o => do
    let o ← (simplifyXmlEach E o).mapM id
    .ok (.node v o)

end
end Ogdl
