import Verif.Lemmas.LiveRun
import Verif.Lemmas.TameSource

/-!
# Assignments to a name in the context of a template in memory
-/

namespace Ogdl
open Spec HM

variable {E : Ext} {grow : Nat → Nat → Nat} {F : List Nat} {Z : Nat → Prop} {W : List Bytes}

/-- As `Live`, with all subnodes of the root in `A` and without graphs as contents. -/
structure Neat (Z : Nat → Prop) (a : Nat) (A : List Nat) (h : Heap) (t : Val) (zs : List (Graph × Ptr)) : Prop where
  live : Live Z a A h t zs
  owned : ∀ z ∈ zs, ∃ i ∈ A, z.2 = some i
  top : FlatV t
  flat : ∀ z ∈ zs, Flat z.1

theorem flat_list : ∀ {zs : List (Graph × Ptr)}, (∀ z ∈ zs, Flat z.1) → AllThisL FlatV (zs.map (·.1))
  | [], _ => trivial
  | z :: zs, h => ⟨h z (List.mem_cons_self ..), flat_list fun y hy => h y (List.mem_cons_of_mem _ hy)⟩

theorem Neat.whole {a : Nat} {A : List Nat} {h : Heap} {t : Val} {zs : List (Graph × Ptr)} (T : Neat Z a A h t zs) : Flat (treeOf t zs) := ⟨T.top, flat_list T.flat⟩

theorem Neat.turns {a : Nat} {A : List Nat} {h h' : Heap} {t : Val} {zs : List (Graph × Ptr)} (T : Neat Z a A h t zs) (tn : Turns [] h h') : Neat Z a A h' t zs :=
  ⟨T.live.turns tn, T.owned, T.top, T.flat⟩

/-- The addresses of the subnodes with a text in `W`. -/
def wk (E : Ext) (W : List Bytes) (zs : List (Graph × Ptr)) : List Nat := (zs.filter fun z => z.1.thisString E ∈ W).filterMap (·.2)

theorem mem_wk {zs : List (Graph × Ptr)} {i : Nat} : i ∈ wk E W zs ↔ ∃ z ∈ zs, z.1.thisString E ∈ W ∧ z.2 = some i := by
  unfold wk
  simp only [List.mem_filterMap, List.mem_filter, decide_eq_true_eq]
  constructor
  · rintro ⟨z, ⟨h1, h2⟩, h3⟩; exact ⟨z, h1, h2, h3⟩
  · rintro ⟨z, h1, h2, h3⟩; exact ⟨z, ⟨h1, h2⟩, h3⟩

theorem Neat.wk_mem {a : Nat} {A : List Nat} {h : Heap} {t : Val} {zs : List (Graph × Ptr)} (T : Neat Z a A h t zs) {i : Nat} (hi : i ∈ wk E W zs) : i ∈ A := by
  obtain ⟨z, hz, _, e⟩ := mem_wk.1 hi
  obtain ⟨j, hj, e'⟩ := T.owned z hz
  rw [e] at e'
  cases e'
  exact hj

/-! ## The subnode with that name -/

theorem search_live {a : Nat} {A : List Nat} {h : Heap} {t : Val} {zs : List (Graph × Ptr)} (l : Live Z a A h t zs) {c : HNode} (hc : h.nodes[a]? = some c) (nm : Bytes) :
    ∀ (ys : List (Graph × Ptr)) (k : Nat), zs.drop k = ys →
      ((∃ N, ∀ n, N ≤ n → (HM.search c.out (fun p => do
          let x ← HM.load p
          let t ← hstring E n x.this
          if nm = t then pure (some p) else pure none) ys.length k).run h = (.ok none, h)) ∧ findName E nm (ys.map (·.1)) = .ok none ∧ ∀ z ∈ ys, z.1.thisString E ≠ nm) ∨
      ∃ j z, ys[j]? = some z ∧ z.1.thisString E = nm ∧ findName E nm (ys.map (·.1)) = .ok (some j) ∧ ∃ N, ∀ n, N ≤ n → (HM.search c.out (fun p => do
          let x ← HM.load p
          let t ← hstring E n x.this
          if nm = t then pure (some p) else pure none) ys.length k).run h = (.ok (some z.2), h)
  | [], k, _ => .inl ⟨⟨0, fun _ _ => rfl⟩, rfl, nofun⟩
  | z :: ys, k, hk => by
    have hzm : z ∈ zs := List.mem_of_mem_drop (i := k) (by rw [hk]; exact List.mem_cons_self ..)
    have hpi : zs[k]? = some z := by have := congrArg (·[0]?) hk; simpa using this
    have hys : zs.drop (k + 1) = ys := by rw [← List.tail_drop, hk]; rfl
    obtain ⟨x, hl, _⟩ := l.root
    obtain ⟨hn, hg⟩ := l.kids z hzm
    have hpi' : (zs.map (·.2))[k]? = some z.2 := by rw [List.getElem?_map, hpi]; rfl
    have ih := search_live l hc nm ys (k + 1) hys
    cases hz1 : z.1 with
    | nil => exact absurd hz1 hn
    | node u o1 =>
      rw [hz1] at hg
      obtain ⟨b, y, qs, hb, _, hlb, hy, _⟩ := hg
      obtain ⟨d, hd, hldd, hthis, _, _⟩ := load_look l.solid hlb
      obtain ⟨N0, s0, h0, hr0, _, e0, e1⟩ := string_comes (E := E) (F := []) l.solid hy
      subst e0 e1
      have first : nm = vstr E u → ∀ n, N0 ≤ n → (HM.search c.out (fun p => do
          let x ← HM.load p
          let t ← hstring E n x.this
          if nm = t then pure (some p) else pure none) (ys.length + 1) k).run h0 = (.ok (some z.2), h0) := by
        intro hs n hn
        rw [search_succ]
        rw [ok_bind' (index_look l.solid hl hc hpi'), hb]
        simp only [hm_assoc]
        rw [ok_bind' hldd, hthis, ok_bind' (hr0 n hn), if_pos hs]
        rfl
      have next : ¬ nm = vstr E u → ∀ n, N0 ≤ n → (HM.search c.out (fun p => do
          let x ← HM.load p
          let t ← hstring E n x.this
          if nm = t then pure (some p) else pure none) (ys.length + 1) k).run h0 = (HM.search c.out (fun p => do
          let x ← HM.load p
          let t ← hstring E n x.this
          if nm = t then pure (some p) else pure none) ys.length (k + 1)).run h0 := by
        intro hs n hn
        rw [search_succ]
        rw [ok_bind' (index_look l.solid hl hc hpi'), hb]
        simp only [hm_assoc]
        rw [ok_bind' hldd, hthis, ok_bind' (hr0 n hn), if_neg hs]
        rfl
      rw [List.length_cons, List.map_cons, hz1]
      have ef : findName E nm (.node u o1 :: ys.map (·.1)) = (if nm = vstr E u then .ok (some 0) else findName E nm (ys.map (·.1)) >>= fun r => .ok (r.map (· + 1))) := by
        rw [findName]
      by_cases hs : nm = vstr E u
      · refine .inr ⟨0, z, rfl, by rw [hz1]; exact hs.symm, by rw [ef, if_pos hs], N0, fun n hn => ?_⟩
        exact first hs n hn
      · rw [ef, if_neg hs]
        rcases ih with ⟨⟨N, hN⟩, h1, h2⟩ | ⟨j, w, h1, h2, h3, N, hN⟩
        · refine .inl ⟨⟨max N0 N, fun n hn => ?_⟩, by rw [h1]; rfl, fun y hy => ?_⟩
          · rw [next hs n (by omega)]
            exact hN n (by omega)
          · rcases List.mem_cons.1 hy with rfl | hy
            · rw [hz1]; exact fun e => hs e.symm
            · exact h2 y hy
        · refine .inr ⟨j + 1, w, h1, h2, by rw [h3]; rfl, max N0 N, fun n hn => ?_⟩
          rw [next hs n (by omega)]
          exact hN n (by omega)

theorem node_live {a : Nat} {A : List Nat} {h : Heap} {t : Val} {zs : List (Graph × Ptr)} (l : Live Z a A h t zs) (nm : Bytes) :
    ((∃ N, ∀ n, N ≤ n → (hNode E n (some a) nm).run h = (.ok none, h)) ∧ findName E nm (zs.map (·.1)) = .ok none ∧ ∀ z ∈ zs, z.1.thisString E ≠ nm) ∨
    ∃ j z, zs[j]? = some z ∧ z.1.thisString E = nm ∧ findName E nm (zs.map (·.1)) = .ok (some j) ∧ ∃ N, ∀ n, N ≤ n → (hNode E n (some a) nm).run h = (.ok z.2, h) := by
  obtain ⟨x, hl, _⟩ := l.root
  obtain ⟨c, hc, hld, hthis, hlen, _⟩ := load_look l.solid hl
  have e : ∀ n, (hNode E n (some a) nm).run h = (HM.search c.out (fun p => do
          let x ← HM.load p
          let t ← hstring E n x.this
          if nm = t then pure (some p) else pure none) zs.length 0 >>= fun r => pure (r.getD none)).run h := by
    intro n
    unfold hNode
    dsimp only
    rw [ok_bind' hld, hlen, List.length_map]
  rcases search_live (E := E) l hc nm zs 0 rfl with ⟨⟨N, hN⟩, h1, h2⟩ | ⟨j, w, h1, h2, h3, N, hN⟩
  · exact .inl ⟨⟨N, fun n hn => by rw [e, ok_bind' (hN n hn)]; rfl⟩, h1, h2⟩
  · exact .inr ⟨j, w, h1, h2, h3, N, fun n hn => by rw [e, ok_bind' (hN n hn)]; rfl⟩

/-! ## Other subnodes of a subnode -/

/-- The subnodes of cell `i`. -/
def subsAt (i : Nat) (es : List Graph) (z : Graph × Ptr) : Graph × Ptr := if z.2 = some i then (.node z.1.this es, z.2) else z

theorem subsAt_snd {i : Nat} {es : List Graph} (z : Graph × Ptr) : (subsAt i es z).2 = z.2 := by unfold subsAt; split <;> rfl

theorem subsAt_this {i : Nat} {es : List Graph} {z : Graph × Ptr} : (subsAt i es z).1.this = z.1.this := by
  unfold subsAt
  split
  · rfl
  · rfl

theorem subsAt_string {i : Nat} {es : List Graph} {z : Graph × Ptr} (hz : z.1 ≠ .nil) : (subsAt i es z).1.thisString E = z.1.thisString E := by
  unfold subsAt
  split
  · cases h : z.1 with
    | nil => exact absurd h hz
    | node u o => rfl
  · rfl

theorem subsAt_off {i : Nat} {es : List Graph} : ∀ {zs : List (Graph × Ptr)}, (∀ z ∈ zs, z.2 ≠ some i) → zs.map (subsAt i es) = zs
  | [], _ => rfl
  | z :: zs, h => by
    rw [List.map_cons, subsAt_off fun y hy => h y (List.mem_cons_of_mem _ hy)]
    unfold subsAt
    rw [if_neg (h z (List.mem_cons_self ..))]

theorem subsAt_set {i : Nat} {es : List Graph} : ∀ {zs : List (Graph × Ptr)} {j : Nat} {z : Graph × Ptr}, (zs.map (·.2)).Nodup → zs[j]? = some z → z.2 = some i →
    zs.map (subsAt i es) = zs.set j (.node z.1.this es, z.2)
  | [], j, z, _, h, _ => by simp at h
  | y :: zs, 0, z, hd, h, hi => by
    simp only [List.getElem?_cons_zero, Option.some.injEq] at h
    subst h
    have hd' := List.nodup_cons.1 hd
    rw [List.map_cons, subsAt_off fun w hw e => hd'.1 (by show y.2 ∈ _; rw [hi, ← e]; exact List.mem_map_of_mem hw), List.set_cons_zero]
    unfold subsAt
    rw [if_pos hi]
  | y :: zs, j + 1, z, hd, h, hi => by
    have hd' := List.nodup_cons.1 hd
    rw [List.getElem?_cons_succ] at h
    rw [List.map_cons, subsAt_set hd'.2 h hi, List.set_cons_succ]
    unfold subsAt
    rw [if_neg]
    intro e
    exact hd'.1 (by show y.2 ∈ _; rw [e, ← hi]; exact List.mem_map_of_mem (List.mem_of_getElem? h))

/-- The subnode at `i` gets other subnodes. -/
theorem subs_live {a i : Nat} {A : List Nat} {t : Val} {h h2 : Heap} {zs : List (Graph × Ptr)} {es : List Graph} {y : HVal} {ps qs : List Ptr} (l : Live Z a A h t zs) (hi : i ∈ A)
    (hia : i ≠ a) (tn : Turns [i] h h2) (hl : look h i = some (y, qs)) (hl2 : look h2 i = some (y, ps)) (he : ShowsL (Stay Z A) h2 es ps) :
    Live Z a A h2 t (zs.map (subsAt i es)) := by
  have hP : ∀ b, Stay Z A b → b < h.nodes.length → Stay Z A b ∧ look h2 b = look h b := fun b hb hlt =>
    ⟨hb, (tn.keep b hlt (by simp only [List.mem_singleton]; rintro rfl; exact hb.1 hi)).2⟩
  obtain ⟨x, hla, hx⟩ := l.root
  have hsnd : (zs.map (subsAt i es)).map (·.2) = zs.map (·.2) := by
    rw [List.map_map]
    exact List.map_congr_left fun z _ => subsAt_snd z
  refine ⟨tn.solid, ⟨x, ?_, hx.frame t hP⟩, fun z hz' => ?_, by rw [hsnd]; exact l.nodup, l.mem, fun b hb => ?_, l.zone, l.more.turns tn⟩
  · rw [hsnd, (tn.keep a (look_lt hla) (by simpa using hia.symm)).2]
    exact hla
  · obtain ⟨z, hzm, rfl⟩ := List.mem_map.1 hz'
    obtain ⟨hnz, hg⟩ := l.kids z hzm
    by_cases hzi : z.2 = some i
    · unfold subsAt
      rw [if_pos hzi]
      refine ⟨nofun, i, y, _, hzi, ⟨hia, l.zone i hi⟩, hl2, ?_, he⟩
      obtain ⟨g, p⟩ := z
      cases g with
      | nil => exact absurd rfl hnz
      | node u o =>
        obtain ⟨a', x', ps', e1, _, e2, hv, _⟩ := hg
        rw [show p = some i from hzi] at e1
        cases e1
        rw [hl] at e2
        cases e2
        exact hv.frame _ hP
    · have e0 : subsAt i es z = z := by unfold subsAt; rw [if_neg hzi]
      rw [e0]
      refine ⟨hnz, ?_⟩
      cases hz1 : z.1 with
      | nil => exact absurd hz1 hnz
      | node u o =>
        rw [hz1] at hg
        obtain ⟨d, x', ps', e1, hd, e2, hv, ho⟩ := hg
        refine ⟨d, x', ps', e1, hd, ?_, hv.frame _ hP, ho.frame _ hP⟩
        rw [(tn.keep d (look_lt e2) ?_).2]
        · exact e2
        · simp only [List.mem_singleton]
          rintro rfl
          exact hzi e1
  · exact Nat.lt_of_lt_of_le (l.below b hb) tn.le

/-- The value as the one subnode; nil is none. -/
def one : Val → List Graph
  | .nil => []
  | v => [.node v []]

theorem addNodesVal_one {t v : Val} (hv : NoGraph v) : (Graph.node t []).addNodesVal v = .node t (one v) := by
  cases v with
  | graph g => exact absurd rfl (hv g)
  | _ => rfl

/-- The subnode at `i` gets the value as its one subnode. -/
theorem fill_live {a i : Nat} {A : List Nat} {t v : Val} {h : Heap} {zs : List (Graph × Ptr)} (l : Live Z a A h t zs) (hi : i ∈ A) (hia : i ≠ a) (hv : NoGraph v) :
    ∃ q h', (do HM.putOut (some i) {}; hAddNodesVal grow (some i) (.val v) : HM Ptr).run h = (.ok q, h') ∧ Turns [i] h h' ∧ Live Z a A h' t (zs.map (subsAt i (one v))) := by
  obtain ⟨y, qs, hl⟩ := l.lookAt hi
  obtain ⟨h1, hr1, c1⟩ := clear_look l.solid hl
  have hl1 : look h1 i = some (y, []) := by rw [c1.look]; unfold upd; rw [if_pos rfl]
  by_cases hn : v = .nil
  · subst hn
    refine ⟨none, h1, by rw [ok_bind' hr1]; rfl, c1.turns, subs_live l hi hia c1.turns hl hl1 (by unfold one ShowsL; rfl)⟩
  · obtain ⟨h2, hr2, tn, l1, l2, hlen⟩ := alloc_append (grow := grow) (y := .val v) c1.turns.solid hl1
    have e1 : one v = [.node v []] := by cases v <;> first | rfl | exact absurd rfl hn
    have e2 : hAddNodesVal grow (some i) (.val v) = (do let n ← HM.alloc (.val v); let c ← HM.load (some i); let s ← HM.append grow c.out [some n]; HM.putOut (some i) s; pure (some n) : HM Ptr) := by
      cases v <;> first | rfl | exact absurd rfl hn
    have t2 : Turns [i] h h2 := c1.turns.trans tn .refl
    refine ⟨some h1.nodes.length, h2, by rw [ok_bind' hr1, e2]; exact hr2, t2, ?_⟩
    rw [e1]
    have hle := c1.turns.le
    refine subs_live l hi hia t2 hl (by simpa using l1) (.cons nofun (.mk ⟨fun hA => ?_, l.more _ hle⟩ l2 (.plain hv) (by unfold ShowsL; rfl)) (by unfold ShowsL; rfl))
    have := l.below _ hA
    omega

end Ogdl
