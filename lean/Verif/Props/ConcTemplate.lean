import Verif.Lemmas.JointAlone
import Verif.Lemmas.KernelRfl
import Verif.Lemmas.JointMake
import Verif.Props.HeapTemplate

/-!
# C105: templates processed by several goroutines
-/

namespace Ogdl
open Spec

variable (E : Ext) (grow : Nat → Nat → Nat)

/-- A goroutine that is not interrupted processes templates as C104 says. -/
theorem C105_alone (fuel : Nat) (c : Ptr) (ts : List Graph) (h : Heap) : (tRenders grow E fuel c ts).alone h = (rendersMem E grow fuel c ts).run h :=
  renders_alone ts h

theorem agrees_writes {ts : List Graph} {g : Graph} {x : Res (List Bytes)} (h : Agrees (rendersTree E ts g) (fun b r => b = r.1) x) : x = writesAlone E ts g := by
  unfold writesAlone
  cases x with
  | ok b =>
    obtain ⟨a, e, rfl⟩ := h
    rw [e]
    rfl
  | panic =>
    have h : rendersTree E ts g = .panic := h
    rw [h]
    rfl
  | oof => exact h.elim

/-- One bound for all goroutines. -/
theorem bears_all {R : Nat → β → Prop} {w : World} (hs : Solid w.heap) : ∀ (τs : List (Nat → Thread Heap β)), AllBear R w τs →
    ∃ N, ∀ n, N ≤ n → ∀ i a, (τs.map (· n))[i]? = some (.done a) → R i a := by
  intro τs hall
  have : ∀ k, ∃ N, ∀ n, N ≤ n → ∀ i a, i < k → (τs.map (· n))[i]? = some (.done a) → R i a := by
    intro k
    induction k with
    | zero => exact ⟨0, fun _ _ _ _ h => absurd h (by omega)⟩
    | succ k ih =>
      obtain ⟨N, hN⟩ := ih
      cases ht : τs[k]? with
      | none =>
        refine ⟨N, fun n hn i a hi e => ?_⟩
        by_cases hik : i = k
        · subst hik; simp [ht] at e
        · exact hN n hn i a (by omega) e
      | some τ =>
        obtain ⟨M, hM⟩ := bears_done hs (hall k τ ht)
        refine ⟨max N M, fun n hn i a hi e => ?_⟩
        by_cases hik : i = k
        · subst hik
          refine hM n (by omega) a ?_
          simpa [ht] using e
        · exact hN n (by omega) i a (by omega) e
  obtain ⟨N, hN⟩ := this τs.length
  exact ⟨N, fun n hn i a e => hN n hn i a (by simpa using (List.getElem?_eq_some_iff.1 e).1) e⟩

/-- C105: take any history of operations of a client that gives a graph away when it puts it
into another one.  Then, for every goroutine, the client makes a context: a new node with some
of its graphs as subnodes.  Goroutines may have the same graphs in their contexts.  Each
goroutine processes templates without assignments, one after the other, in its context.

Whatever the schedule, a goroutine that has returned has written what it writes alone, on
trees, and no node of the client's graphs has changed.  A goroutine that is scheduled again
and again returns, whatever the others do.

What is missing: the evaluation of one expression is one step of the model; templates with
assignments and loops over `_this` or over a group; nil graphs, graphs with nil subnodes and
functions that return them.  For goroutines that share a context it is false
(C105_refuted). -/
theorem C105_partial (hE : WholeCalls E) (ops : List TOp) (hv : ∀ op ∈ ops, op.Valid E) (gs : List Graph) (h1 : treeRun E ops [] = .ok gs)
    (jss : List (List Nat)) (hj : ∀ js ∈ jss, js.Nodup ∧ ∀ j ∈ js, j < gs.length ∧ gs.getD j .nil ≠ .nil ∧ Whole (gs.getD j .nil))
    (tss : List (List Graph)) (ht : ∀ ts ∈ tss, ∀ t ∈ ts, Calm E t) :
    ∃ N ps h cs h', (∀ fuel, N ≤ fuel → (memRun E grow fuel ops []).run {} = (.ok ps, h)) ∧ (makeContexts grow ps jss).run h = (.ok cs, h') ∧
      (∀ sched, ∃ M, ∀ fuel, M ≤ fuel → OnlyAt [] h (runSched sched h' (goroutines E grow fuel cs tss)).1 ∧
        ∀ (i : Nat) (js : List Nat) (ts : List Graph) (r : Res (List Bytes)), jss[i]? = some js → tss[i]? = some ts →
          (runSched sched h' (goroutines E grow fuel cs tss)).2[i]? = some (.done r) → r = writesAlone E ts (contextTree gs js)) ∧
      ∀ (s : Nat → Nat) (i : Nat) (js : List Nat) (ts : List Graph), jss[i]? = some js → tss[i]? = some ts → (∀ m, ∃ k, m ≤ k ∧ s k = i) →
        ∃ m M, ∀ fuel, M ≤ fuel → (runSched ((List.range m).map s) h' (goroutines E grow fuel cs tss)).2[i]? = some (.done (writesAlone E ts (contextTree gs js))) := by
  have h0 := memRun_ends (grow := grow) hv
  rw [h1] at h0
  obtain ⟨N, ps, h, hr, hs, F, hl⟩ := h0
  obtain ⟨as, h', hr', tn, hlen, hnd, hin, hlk⟩ := makeContexts_run (grow := grow) (ps := ps) jss hs fun js hjs j hjm => holdsL_some hl ((hj js hjs).2 j hjm).1 ((hj js hjs).2 j hjm).2.1
  let R : Nat → Res (List Bytes) → Prop := fun i x => ∀ js ts, jss[i]? = some js → tss[i]? = some ts → x = writesAlone E ts (contextTree gs js)
  let τs : List (Nat → Job (List Bytes)) := List.zipWith (fun a ts n => tRenders grow E n (some a) ts) as tss
  have hgo : ∀ n, goroutines E grow n (as.map some) tss = τs.map (· n) := fun n => by
    unfold goroutines
    simp [τs, List.zipWith_map_left, List.map_zipWith]
  have hall : AllBear R (madeWorld as h') τs := by
    intro i τ hi
    rw [List.getElem?_zipWith] at hi
    cases ha : as[i]? with
    | none => simp [ha] at hi
    | some a =>
      cases hts : tss[i]? with
      | none => simp [ha, hts] at hi
      | some ts =>
        simp only [ha, hts, Option.some.injEq] at hi
        subst hi
        have hil : i < jss.length := by rw [← hlen]; exact (List.getElem?_eq_some_iff.1 ha).1
        have hjs := List.getElem?_eq_getElem hil
        have hm := List.mem_of_getElem? hjs
        obtain ⟨zs, o, e⟩ := made_on hl tn hnd hin ha (hj _ hm).1 (hj _ hm).2 (hlk i a _ ha hjs)
        have hJ := tRenders_join (grow := grow) hE ts (ht ts (List.mem_of_getElem? hts)) o
        rw [e] at hJ
        rcases hJ with hJ | hJ
        · exact absurd hJ (rendersTree_ne_oof ts _)
        · refine hJ.mono fun x w' hx js' ts' e1 e2 => ?_
          rw [hjs] at e1
          rw [hts] at e2
          cases e1
          cases e2
          exact agrees_writes E hx.2
  refine ⟨N, ps, h, as.map some, h', hr, hr', fun sched => ?_, fun s i js ts e1 e2 hfair => ?_⟩
  · obtain ⟨M1, w', τs', g1, g2, g3, g4, _⟩ := joint_run sched (madeWorld as h') τs tn.solid hall
    obtain ⟨M2, g5⟩ := bears_all g2 τs' g4
    refine ⟨max M1 M2, fun fuel hf => ?_⟩
    have e := g1 fuel (by omega)
    rw [hgo, show h' = (madeWorld as h').heap from rfl, e]
    refine ⟨fun b hb _ => ?_, fun i js ts r e1 e2 e3 => g5 fuel (by omega) i r e3 js ts e1 e2⟩
    have hba : b ∉ as := fun hm => by have := (hin b hm).1; omega
    exact (g3 b (Nat.lt_of_lt_of_le hb tn.le) (made_none hba)).trans (tn.keep b hb nofun).2
  · have hia : i < as.length := by rw [hlen]; exact (List.getElem?_eq_some_iff.1 e1).1
    have hτ : τs[i]? = some (fun n => tRenders grow E n (some as[i]) ts) := by simp [τs, List.getElem?_zipWith, List.getElem?_eq_getElem hia, e2]
    obtain ⟨m, M, a, hR, hrun⟩ := joint_ends (hall i _ hτ) s (madeWorld as h') τs hfair (.refl tn.solid) hall hτ
    refine ⟨m, M, fun fuel hf => ?_⟩
    rw [hgo, ← hR js ts e1 e2]
    exact hrun fuel hf

/-- The list `l (a (x) b (y))` of a client. -/
def sharedList : List TOp := [.new (.str b!"l"), .set 0 [leaf b!"a"] [.name (.str b!"a")] (.str b!"x"), .set 0 [leaf b!"b"] [.name (.str b!"b")] (.str b!"y")]

/-- The hypotheses are met: two goroutines with the same list in their contexts process
`$for(v, l)=$v$end`. -/
example : treeRun E sharedList [] = .ok [.node (.str b!"l") [.node (.str b!"a") [leaf b!"x"], .node (.str b!"b") [leaf b!"y"]]] ∧ (∀ op ∈ sharedList, op.Valid E) ∧
    (∀ js ∈ [[0], [0]], js.Nodup ∧ ∀ j ∈ js, j < 1 ∧ Whole (.node (.str b!"l") [.node (.str b!"a") [leaf b!"x"], .node (.str b!"b") [leaf b!"y"]])) ∧
    ∃ t, newTemplate E b!"$for(v, l)=$v$end" = .ok t ∧ Calm E t ∧
      writesAlone E [t] (contextTree [.node (.str b!"l") [.node (.str b!"a") [leaf b!"x"], .node (.str b!"b") [leaf b!"y"]]] [0]) = .ok [b!"=a\n  x=b\n  y"] := by
  refine ⟨rfl, ?_, ?_, ?_⟩
  · intro op h
    simp only [sharedList, List.mem_cons, List.not_mem_nil, or_false] at h
    rcases h with rfl | rfl | rfl
    · intro g e; cases e
    · exact ⟨fun g e => (by cases e), .name (by decide : (b!"a" : Bytes) ≠ tyIndex) nofun nofun .nil⟩
    · exact ⟨fun g e => (by cases e), .name (by decide : (b!"b" : Bytes) ≠ tyIndex) nofun nofun .nil⟩
  · simp [Whole, WholeV, WholeL, leaf]
  · have ho := sampleWalk_ok E (id := b!"l") rfl (by unfold AsciiLetter; decide)
    have hc : (sampleWalk b!"l").Calm E := by simp [sampleWalk, Items.Calm, Item.Calm]
    obtain ⟨t, h1, h2⟩ := C104_text E _ ho hc (.short (by decide))
    have h3 := newTemplate_exact ho (.short (by decide))
    rw [h1] at h3
    cases h3
    exact ⟨_, h1, h2, rfl⟩

/-- `$for(v, l)=$v$end` as a template. -/
def listLoop : Graph := .node (.str []) (sampleWalk b!"l").trees

/-- C105 does not hold for goroutines that share a context: both have the loop variable in it.
Alone, the template `$for(v, l)=$v$end` writes `=a x=b y` in the context
`_ (l (a (x) b (y)))`.  Let the first goroutine delete the old variable, then the second one
run to its end, then the first one go on: it writes `b` twice and never `a`. -/
theorem C105_refuted : newTemplate E b!"$for(v, l)=$v$end" = .ok listLoop ∧ Calm E listLoop ∧ treeRun E listOps [] = .ok [listTree] ∧
    writesAlone E [listLoop] listTree = .ok [b!"=a\n  x=b\n  y"] ∧
    ∀ n, ((memRun E growOne (n + 5) listOps []).run {}).1 = .ok [some 0] ∧
      (runSched (List.replicate 4 0 ++ List.replicate 20 1 ++ List.replicate 20 0) ((memRun E growOne (n + 5) listOps []).run {}).2
          (goroutines E growOne (n + 5) [some 0, some 0] [[listLoop], [listLoop]])).2 =
        [.done (.ok [b!"=b\n  y=b\n  y"]), .done (.ok [b!"=a\n  x=b\n  y"])] := by
  have ho := sampleWalk_ok E (id := b!"l") rfl (by unfold AsciiLetter; decide)
  have hc : (sampleWalk b!"l").Calm E := by simp [sampleWalk, Items.Calm, Item.Calm]
  obtain ⟨t, h1, h2⟩ := C104_text E _ ho hc (.short (by decide))
  have h3 := newTemplate_exact ho (.short (by decide))
  rw [h1] at h3
  cases h3
  exact ⟨h1, h2, rfl, rfl, fun n => ⟨rfl, by kernel_rfl⟩⟩

end Ogdl
