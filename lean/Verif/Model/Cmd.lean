import Verif.Model.Buffer
import Verif.Model.Text
import Verif.Model.Template
import Verif.Model.Json
import Verif.Model.Xml

/-!
# cmd: the four programs

The result is what a program writes to its standard output.  Not modelled: messages on
the standard error, flags other than those named, exit codes (always 0, or 2 after a
panic), errors while reading a file that could be opened.
-/

namespace Ogdl

section
variable (E : Ext)

/-- cmd/gpath/main.go:46-56: a final newline is added if there is text and it does not end
with NL or CR. -/
def finalNewline (s : Bytes) : Bytes :=
  match s.getLast? with
  | none => []
  | some c => if c != 10 && c != 13 then s ++ [10] else s

/-- cmd/gpath/main.go:40-44 and cmd/xml2ogdl/main.go:38-40: the node to print. -/
def nodeAt (g : Graph) (path : Bytes) : Res Graph :=
  if path == b!"." then .ok g else (g.get E path).bind fun r => .ok r.1

/-- cmd/gpath/main.go:36-56: what is printed for the input `rd`. -/
def gpathFrom (path : Bytes) (rd : Reader) : Res Bytes := do
  let g ← fromReader E false rd
  let r ← nodeAt E g path
  let s ← r.text E
  .ok (finalNewline s)

/-- cmd/gpath/main.go:14-57 `main`; `args` without the name of the program, `open_` are the
files that can be opened. -/
def cmdGpath (args : List Bytes) (open_ : Bytes → Option Reader) (stdin : Reader) : Res Bytes :=
  match args with
  | [] => .ok []
  | [path] => gpathFrom E path stdin
  | path :: f :: _ =>
    match open_ f with
    | none => .ok []
    | some rd => gpathFrom E path rd

/-- parser.go:82-92 `FromFile`; an empty file gives nil, like one that cannot be read. -/
def fromFile (file : Option Bytes) : Res Graph :=
  match file with
  | none => .ok .nil
  | some b => if b.length == 0 then .ok .nil else fromReader E false { data := b }

/-- cmd/gtemplate/main.go:35-44: the loop over the files after the first. -/
def moreFiles (fs : Bytes → Option Bytes) (data : Graph) : List Bytes → Res Graph
  | [] => .ok data
  | f :: more => do
    let g ← fromFile E (fs f)
    moreFiles fs (data.addNodes g) more

/-- cmd/gtemplate/main.go:29-44: the data; nil without data files. -/
def allFiles (fs : Bytes → Option Bytes) : List Bytes → Res Graph
  | [] => .ok .nil
  | f :: more => do
    let g ← fromFile E (fs f)
    moreFiles E fs g more

/-- cmd/gtemplate/main.go:20-48 `main`; `args` without flags.  A template file that cannot
be read is an empty template (line 32). -/
def cmdGtemplate (args : List Bytes) (fs : Bytes → Option Bytes) : Res Bytes :=
  match args with
  | [] => .ok []
  | t :: files => do
    let tpl ← newTemplate E ((fs t).getD [])
    let data ← allFiles E fs files
    let (b, _) ← tpl.process E data
    .ok (b ++ [10])

/-- cmd/json2ogdl/main.go:34-43: the loop that reads the input; bytes that come with an
error are dropped, and a read of no bytes ends the input.  `n` bounds the number of
turns. -/
def readJson : Nat → Reader → Bytes
  | 0, _ => []
  | n + 1, rd =>
    let (got, ok, rd') := rd.read 4096
    if !ok || got.length == 0 then [] else got ++ readJson n rd'

/-- cmd/json2ogdl/main.go:31-47: what is printed for the input `rd`.  `decode` is the JSON
decoder; on an error the graph is nil (line 45 drops it). -/
def json2ogdlFrom (decode : Bytes → Option Json) (rd : Reader) : Res Bytes := do
  let s ← (match decode (readJson (rd.data.length + 1) rd) with
    | some j => fromJSON j
    | none => Graph.nil).text E
  .ok (s ++ [10])

/-- cmd/json2ogdl/main.go:17-48 `main`. -/
def cmdJson2ogdl (decode : Bytes → Option Json) (args : List Bytes) (open_ : Bytes → Option Reader) (stdin : Reader) : Res Bytes :=
  match args with
  | [] => json2ogdlFrom E decode stdin
  | f :: _ =>
    match open_ f with
    | none => .ok []
    | some rd => json2ogdlFrom E decode rd

/-- cmd/xml2ogdl/main.go:58-66: the new content of a node and the subnodes that remain, as
in `simplifyXmlNode` but without the case of fields. -/
def simplifyCmdNode (v : Val) (o : List Graph) (rs : List (Res Graph)) : Res (Val × List (Res Graph)) :=
  match o with
  | [] => .ok (v, rs)
  | first :: _ =>
    if first.thisString E == b!"@id" && o.length ≥ 2 then
      let keep := match rs.getLast? with
        | some r => [r]
        | none => []
      match v with
      | .str [112] => .ok (v, keep)
      | _ =>
        match first with
        | .node _ (.node t _ :: _) => .ok (t, keep)
        | _ => .panic
    else .ok (v, rs)

mutual
/-- cmd/xml2ogdl/main.go:56-69: one turn of the loop of `simplify`. -/
def simplifyCmdChild : Graph → Res Graph
  | .nil => .panic
  | .node v o => do
    let (v, rs) ← simplifyCmdNode E v o (simplifyCmdEach o)
    let o ← rs.mapM id
    .ok (.node v o)
/-- The results for all subnodes. The loop of cmd/xml2ogdl/main.go:51-70. -/
def simplifyCmdEach : List Graph → List (Res Graph)
  | [] => []
  | g :: gs => simplifyCmdChild g :: simplifyCmdEach gs
end

/-- cmd/xml2ogdl/main.go:51-70 `simplify`; a nil graph panics (line 52). -/
def simplifyCmd : Graph → Res Graph
  | .nil => .panic
  | .node v o => do
    let o ← (simplifyCmdEach E o).mapM id
    .ok (.node v o)

/-- cmd/xml2ogdl/main.go:42-44 -/
def withId (optId : Bool) (g : Graph) : Res Graph := if optId then simplifyCmd E g else .ok g

/-- cmd/xml2ogdl/main.go:18-49 `main`: `optId` is the flag `-id`; `xml2graph` (lines
72-131) is the same code as `FromXML` of io/gxml/xml.go:40-107.  `decode` gives the
tokens of the XML decoder. -/
def cmdXml2ogdl (X : XmlExt) (decode : Bytes → List XmlToken) (optId : Bool) (args : List Bytes) (fs : Bytes → Option Bytes) : Res Bytes :=
  match args with
  | path :: file :: _ =>
    match fs file with
    | none => .ok []
    | some b => do
      let g ← fromXML X (decode b)
      let g ← nodeAt E g path
      let g ← withId E optId g
      let s ← g.text E
      .ok (s ++ [10])
  | _ => .ok []

end
end Ogdl
