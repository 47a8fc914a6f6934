import Verif.Spec.Template

/-!
# Specification of a break inside an if

`Items.mended` is the template in which the body of every `$if`, `$elseif` and `$else`
ends before its first `$break`: the `$break` and what follows it in that body are left
out.
-/

namespace Ogdl
namespace Spec

/-- The piece is a `$break`. -/
def Item.isBreak : Item → Bool
  | .brk => true
  | _ => false

mutual
/-- A piece with the bodies of its ifs ended before their first `$break`. -/
def Item.mended : Item → Item
  | .cond c body more => .cond c body.ended more.mended
  | .loop v id ids body => .loop v id ids body.mended
  | i => i
/-- A template with the bodies of its ifs ended before their first `$break`. -/
def Items.mended : Items → Items
  | .nil => .nil
  | .cons i is => .cons i.mended is.mended
/-- The body of an if, ended before its first `$break`, and the ifs in it likewise. -/
def Items.ended : Items → Items
  | .nil => .nil
  | .cons i is => if i.isBreak then .nil else .cons i.mended is.ended
/-- Further branches, with their bodies ended before their first `$break`. -/
def Branches.mended : Branches → Branches
  | .done => .done
  | .els body => .els body.ended
  | .elif c body more => .elif c body.ended more.mended
end

end Spec
end Ogdl
