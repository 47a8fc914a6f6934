import Verif.Model.Xml

/-! # XML documents and the graphs they stand for -/

namespace Ogdl
namespace Spec

/-- What an XML document consists of: elements, text, and comments and the like. -/
inductive XmlItem where
  | elem (name : Bytes) (attrs : List (Bytes × Bytes)) (items : List XmlItem)
  | text (s : Bytes)
  | misc

mutual
/-- The tokens of an item. -/
def tokens : XmlItem → List XmlToken
  | .elem name attrs items => .start name attrs :: tokensL items ++ [.stop]
  | .text s => [.chars s]
  | .misc => [.other]
/-- The tokens of items in a row. -/
def tokensL : List XmlItem → List XmlToken
  | [] => []
  | i :: is => tokens i ++ tokensL is
end

/-- What has been read of a document: complete items, then perhaps an element that is
still open. -/
inductive CutDoc where
  | here (items : List XmlItem)
  | inside (items : List XmlItem) (name : Bytes) (attrs : List (Bytes × Bytes)) (rest : CutDoc)

/-- Its tokens. -/
def cutTokens : CutDoc → List XmlToken
  | .here items => tokensL items
  | .inside items name attrs rest => tokensL items ++ .start name attrs :: cutTokens rest

section
variable (X : XmlExt)

mutual
/-- The graph: a node for an element, first the attributes with `@`, then what is in
it; a leaf for text, unless it is blank. -/
def xmlGraph : XmlItem → List Graph
  | .elem name attrs items =>
    [.node (.str ((X.plainKey name).map fun c => if c = 45 then 95 else c))
      (attrs.map (fun a => .node (.str (b!"@" ++ a.1)) [.node (.str a.2) []]) ++ xmlGraphL items)]
  | .text s => if X.trim s = [] then [] else [.node (.str (X.trim s)) []]
  | .misc => []
/-- The same for items in a row. -/
def xmlGraphL : List XmlItem → List Graph
  | [] => []
  | i :: is => xmlGraph i ++ xmlGraphL is
end

/-- The graph of what has been read. -/
def cutGraph : CutDoc → List Graph
  | .here items => xmlGraphL X items
  | .inside items name attrs rest => xmlGraphL X items ++
    [.node (.str ((X.plainKey name).map fun c => if c = 45 then 95 else c))
      (attrs.map (fun a => .node (.str (b!"@" ++ a.1)) [.node (.str a.2) []]) ++ cutGraph rest)]

/-- The name of the node of an element. -/
def xmlName (name : Bytes) : Bytes := (X.plainKey name).map fun c => if c = 45 then 95 else c

/-- The nodes of attributes. -/
def xmlAttrs (attrs : List (Bytes × Bytes)) : List Graph := attrs.map fun a => .node (.str (b!"@" ++ a.1)) [.node (.str a.2) []]

mutual
/-- The simplified graph.  An element whose first attribute is `id` and that has
something besides it gets the id as its name (unless it is a `p`), and the last of its
nodes.  A `field` whose first attribute is `name` gets that name, with `_` for spaces,
and its other nodes. -/
def simpleGraph : XmlItem → List Graph
  | .elem name attrs items =>
    match attrs with
    | (a, v) :: rest =>
      match (xmlAttrs rest ++ simpleGraphL items).getLast? with
      | some last =>
        if a = b!"id" then [.node (.str (if xmlName X name = b!"p" then b!"p" else v)) [last]]
        else if a = b!"name" ∧ xmlName X name = b!"field" then
          [.node (.str (v.map fun c => if c = 32 then 95 else c)) (xmlAttrs rest ++ simpleGraphL items)]
        else [.node (.str (xmlName X name)) (xmlAttrs attrs ++ simpleGraphL items)]
      | none =>
        if a = b!"name" ∧ xmlName X name = b!"field" then [.node (.str (v.map fun c => if c = 32 then 95 else c)) []]
        else [.node (.str (xmlName X name)) (xmlAttrs attrs)]
    | [] => [.node (.str (xmlName X name)) (simpleGraphL items)]
  | .text s => if X.trim s = [] then [] else [.node (.str (X.trim s)) []]
  | .misc => []
/-- The same for items in a row. -/
def simpleGraphL : List XmlItem → List Graph
  | [] => []
  | i :: is => simpleGraph i ++ simpleGraphL is
end

mutual
/-- No name of an element starts with `@` and no text is `@id`. -/
def NoAt : XmlItem → Prop
  | .elem name _ items => (xmlName X name).head? ≠ some 64 ∧ NoAtL items
  | .text s => X.trim s ≠ b!"@id"
  | .misc => True
/-- The same for items in a row. -/
def NoAtL : List XmlItem → Prop
  | [] => True
  | i :: is => NoAt i ∧ NoAtL is
end

mutual
/-- No element has `id` as its first attribute, no `field` has `name` as its first
attribute. -/
def NoId : XmlItem → Prop
  | .elem name attrs items => (∀ a rest, attrs = a :: rest → a.1 ≠ b!"id" ∧ (a.1 = b!"name" → xmlName X name ≠ b!"field")) ∧ NoIdL items
  | _ => True
/-- The same for items in a row. -/
def NoIdL : List XmlItem → Prop
  | [] => True
  | i :: is => NoId i ∧ NoIdL is
end

end
end Spec
end Ogdl
