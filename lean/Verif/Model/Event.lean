import Verif.Model.Graph

/-!
# event.go

`SimpleEventHandler`: a list of (level, item) events and the `Tree` builder.
-/

namespace Ogdl

/-- event.go:8-13.  `items` pairs `levels[i]` with `items[i]`. -/
structure Ev where
  current : Nat := 0
  max : Nat := 0
  items : List (Nat × Val) := []

namespace Ev

/-- event.go:16-31 `AddBytes`/`Add`/`AddItf`: an item at the current level. -/
def add (e : Ev) (v : Val) : Ev := { e with items := e.items ++ [(e.current, v)] }

/-- event.go:34-49 `AddBytesAt`/`AddAt`: an item at the given level. -/
def addAt (e : Ev) (v : Val) (lv : Nat) : Ev :=
  { e with items := e.items ++ [(lv, v)], max := if e.max < lv then lv else e.max }

/-- event.go:52-55 `Delete`: drops the last item.  (On an empty handler the Go
code panics; the only caller, flow.go:97, has always just added one.) -/
def delete (e : Ev) : Ev := { e with items := e.items.dropLast }

/-- event.go:63-68 `SetLevel`. -/
def setLevel (e : Ev) (l : Nat) : Ev :=
  { e with current := l, max := if e.max < l then l else e.max }

/-- event.go:71-76 `Inc`. -/
def inc (e : Ev) : Ev :=
  { e with current := e.current + 1,
           max := if e.max < e.current + 1 then e.current + 1 else e.max }

/-- event.go:79-83 `Dec`. -/
def dec (e : Ev) : Ev := { e with current := e.current - 1 }

end Ev

/-- A node allocated by `Tree`: its content and the indexes of its subnodes. event.go:88-103. -/
structure Cell where
  this : Val
  out : List Nat

/-- Memory of `Tree`: allocated nodes (index 0 is the root) and the slice `g`
of event.go:90, one pointer per level, nil initially. -/
structure TreeSt where
  heap : List Cell
  slots : List (Option Nat)

/-- event.go:93-100: one iteration of the loop.  `g[lv] = n` panics when out of
range; `Add` on a nil `g[lv-1]` does nothing. -/
def treeStep (s : TreeSt) (it : Nat × Val) : Res TreeSt :=
  let lv := it.1 + 1
  let id := s.heap.length
  let heap := s.heap ++ [⟨it.2, []⟩]
  if lv < s.slots.length then
    let slots := s.slots.set lv (some id)
    match slots[lv - 1]? with
    | some (some p) =>
      .ok ⟨heap.modify p fun c => { c with out := c.out ++ [id] }, slots⟩
    | _ => .ok ⟨heap, slots⟩
  else .panic

/-- event.go:93-100: the loop over all items. -/
def treeLoop : TreeSt → List (Nat × Val) → Res TreeSt
  | s, [] => .ok s
  | s, it :: its => do
    let s' ← treeStep s it
    treeLoop s' its

/-- Read a node and everything below it out of the memory.  `fuel` bounds the
depth; subnodes are always allocated after their parent, so the number of
allocated nodes suffices. The pointers that event.go:88-103 leaves. -/
def readNode (h : List Cell) : Nat → Nat → Graph
  | 0, _ => .nil
  | f + 1, id =>
    match h[id]? with
    | none => .nil
    | some c => .node c.this (c.out.map (readNode h f))

/-- event.go:88-103 `Tree`. -/
def Ev.tree (e : Ev) : Res Graph := do
  let s ← treeLoop ⟨[⟨.str b!"_", []⟩], some 0 :: List.replicate (e.max + 1) none⟩ e.items
  .ok (readNode s.heap s.heap.length 0)

end Ogdl
