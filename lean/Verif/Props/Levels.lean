import Verif.Lemmas.Levels
import Verif.Props.Event

/-!
# The tree of events with any levels (C13)
-/

namespace Ogdl
open Spec

/-- **C13, for any levels.** After any history of calls `Tree` returns the root `_`, and below
each node the items of the next level that come after it and before the next item of its own
level (`Spec.below`).  In particular an item whose level is skipped over hangs below the last
item of the level above its own, even if that is in an earlier branch, and is lost if there is
none. -/
theorem C13_any_levels (ops : List EvOp) : (evRun ops).tree = .ok (.node (.str b!"_") (below 0 (Spec.events ops).2.reverse)) := by
  rw [tree_below _ (evRun_inv ops).2, evRun_items]

/-- Levels 0 1 0 2 2 and then 4: `d` and `e` hang below `b`, which is in the branch of `a`,
and not below `c`; `f` is lost. -/
example : (evRun [.addAt (.str b!"a") 0, .addAt (.str b!"b") 1, .addAt (.str b!"c") 0, .addAt (.str b!"d") 2, .addAt (.str b!"e") 2,
    .addAt (.str b!"f") 4]).tree =
    .ok (.node (.str b!"_") [.node (.str b!"a") [.node (.str b!"b") [.node (.str b!"d") [], .node (.str b!"e") []]], .node (.str b!"c") []]) := by
  rw [C13_any_levels]
  rfl

end Ogdl
