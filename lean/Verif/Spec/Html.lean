import Verif.Model.Html
import Verif.Spec.Tree

/-! # What a page of links should look like -/

namespace Ogdl
namespace Spec

/-- Links are opened (`<a `) and closed (`</a>`) in turns; the flag tells whether one is
open. -/
def linksClose : Bool → Bytes → Bool
  | inside, [] => !inside
  | inside, c :: t =>
    if b!"<a " <+: c :: t then !inside && linksClose true t
    else if b!"</a>" <+: c :: t then inside && linksClose false t
    else linksClose inside t

section
variable (E : Ext)

/-- The text of a node, `_` if there is none. -/
def nodeName (t : Val) : Bytes := if vstr E t = [] then b!"_" else vstr E t

mutual
/-- The lines of a node: its text, indented; if it has subnodes, as a link to its path;
then the lines of the subnodes. -/
def pageLines (level : Nat) (path : Bytes) : Graph → List Bytes
  | .nil => []
  | .node t o =>
    (match o with
      | [] => (List.replicate level b!"&nbsp;&nbsp;").flatten ++ nodeName E t ++ b!"<br>"
      | _ => b!"<a href='" ++ path ++ b!"/" ++ nodeName E t ++ b!"'>" ++ (List.replicate level b!"&nbsp;&nbsp;").flatten ++ nodeName E t ++ b!"</a><br>")
      :: pageLinesL (level + 1) (path ++ b!"/" ++ nodeName E t) o
/-- The same for nodes in a row. -/
def pageLinesL (level : Nat) (path : Bytes) : List Graph → List Bytes
  | [] => []
  | g :: gs => pageLines level path g ++ pageLinesL level path gs
end

/-- Text without blanks, line breaks, quotes, commas, parentheses and angle brackets. -/
def PlainName (s : Bytes) : Prop :=
  ∀ c ∈ s, c ≠ 10 ∧ c ≠ 13 ∧ c ≠ 32 ∧ c ≠ 9 ∧ c ≠ 39 ∧ c ≠ 34 ∧ c ≠ 44 ∧ c ≠ 40 ∧ c ≠ 41 ∧ c ≠ 60 ∧ c ≠ 62

end
end Spec
end Ogdl
