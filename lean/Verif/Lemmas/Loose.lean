import Verif.Lemmas.ShowsAll
import Verif.Spec.HeapTemplate

/-!
# Evaluation in a context whose top nodes may change

The root of the context and its subnodes may be anywhere; what is below them is in `P`.
-/

namespace Ogdl
open Spec HM

variable {E : Ext} {grow : Nat → Nat → Nat} {P N : Nat → Prop} {F : List Nat}

/-- The relation holds for the subnodes, none of which is nil. -/
inductive Kids (R : Graph → Ptr → Prop) : List Graph → List Ptr → Prop where
  | nil : Kids R [] []
  | cons {g : Graph} {p : Ptr} {gs : List Graph} {ps : List Ptr} : g ≠ .nil → R g p → Kids R gs ps → Kids R (g :: gs) (p :: ps)

theorem Kids.imp {R S : Graph → Ptr → Prop} (hRS : ∀ g p, R g p → S g p) : ∀ {gs : List Graph} {ps : List Ptr}, Kids R gs ps → Kids S gs ps
  | _, _, .nil => .nil
  | _, _, .cons hn h1 h2 => .cons hn (hRS _ _ h1) (h2.imp hRS)

theorem Kids.length {R : Graph → Ptr → Prop} : ∀ {gs : List Graph} {ps : List Ptr}, Kids R gs ps → gs.length = ps.length
  | _, _, .nil => rfl
  | _, _, .cons _ _ h2 => by simp [h2.length]

theorem Kids.at {R : Graph → Ptr → Prop} : ∀ {gs : List Graph} {ps : List Ptr}, Kids R gs ps → ∀ i, i < gs.length → ∃ p, ps[i]? = some p ∧ R (gs.getD i .nil) p
  | _, _, .nil, i, hi => by simp at hi
  | _, _, .cons _ h1 h2, i, hi => by
    cases i with
    | zero => exact ⟨_, rfl, h1⟩
    | succ i => exact h2.at i (by simpa using hi)

theorem showsL_kids {h : Heap} : ∀ {gs : List Graph} {ps : List Ptr}, ShowsL P h gs ps ↔ Kids (Shows P h) gs ps
  | [], ps => by
    unfold ShowsL
    constructor
    · rintro rfl; exact .nil
    · intro hk; cases hk; rfl
  | g :: gs, ps => by
    constructor
    · intro hs
      unfold ShowsL at hs
      obtain ⟨hn, p, ps', rfl, h1, h2⟩ := hs
      exact .cons hn h1 (showsL_kids.1 h2)
    · intro hk
      cases hk with
      | cons hn h1 h2 => exact .cons hn h1 (showsL_kids.2 h2)

/-- A node at an address in `N`, with content and subnodes in `P`. -/
def Loose (P N : Nat → Prop) (h : Heap) : Graph → Ptr → Prop
  | .nil, p => p = none
  | .node v gs, p => ∃ a x ps, p = some a ∧ N a ∧ look h a = some (x, ps) ∧ ShowsV P h v x ∧ ShowsL P h gs ps

/-- A node anywhere, with content in `P` and such subnodes. -/
def Root (P N : Nat → Prop) (h : Heap) : Graph → Ptr → Prop
  | .nil, p => p = none
  | .node v gs, p => ∃ a x ps, p = some a ∧ look h a = some (x, ps) ∧ ShowsV P h v x ∧ Kids (Loose P N h) gs ps

theorem Spec.Shows.loose (hN : ∀ b, P b → N b) {h : Heap} {g : Graph} {p : Ptr} (hg : Shows P h g p) : Loose P N h g p := by
  cases g with
  | nil => exact hg.null
  | node v gs =>
    obtain ⟨a, x, ps, e, hp, hl, hv, ho⟩ := hg.parts
    exact ⟨a, x, ps, e, hN a hp, hl, hv, ho⟩

theorem Loose.root (hN : ∀ b, P b → N b) {h : Heap} {g : Graph} {p : Ptr} (hg : Loose P N h g p) : Root P N h g p := by
  cases g with
  | nil => exact hg
  | node v gs =>
    obtain ⟨a, x, ps, e, hp, hl, hv, ho⟩ := hg
    exact ⟨a, x, ps, e, hl, hv, (showsL_kids.1 ho).imp fun _ _ hs => hs.loose hN⟩

theorem Spec.Shows.any {h : Heap} {g : Graph} {p : Ptr} (hg : Shows P h g p) : Shows (fun _ => True) h g p := hg.frame g fun _ _ _ => ⟨trivial, rfl⟩
theorem Spec.ShowsV.any {h : Heap} {v : Val} {x : HVal} (hg : ShowsV P h v x) : ShowsV (fun _ => True) h v x := hg.frame v fun _ _ _ => ⟨trivial, rfl⟩
theorem Spec.ShowsL.any {h : Heap} {gs : List Graph} {ps : List Ptr} (hg : ShowsL P h gs ps) : ShowsL (fun _ => True) h gs ps := hg.frame gs fun _ _ _ => ⟨trivial, rfl⟩

theorem Loose.mono {P' N' : Nat → Prop} (hP : ∀ a, P a → P' a) (hN : ∀ a, N a → N' a) {h : Heap} {g : Graph} {p : Ptr} (hg : Loose P N h g p) : Loose P' N' h g p := by
  cases g with
  | nil => exact hg
  | node v gs =>
    obtain ⟨a, x, ps, e, hp, hl, hv, ho⟩ := hg
    exact ⟨a, x, ps, e, hN a hp, hl, hv.frame v fun d hd _ => ⟨hP d hd, rfl⟩, ho.frame gs fun d hd _ => ⟨hP d hd, rfl⟩⟩

theorem Loose.any {h : Heap} {g : Graph} {p : Ptr} (hg : Loose P N h g p) : Shows (fun _ => True) h g p := by
  cases g with
  | nil => unfold Shows; exact hg
  | node v gs =>
    obtain ⟨a, x, ps, rfl, hp, hl, hv, ho⟩ := hg
    exact .mk trivial hl hv.any ho.any

theorem Root.any {h : Heap} {g : Graph} {p : Ptr} (hg : Root P N h g p) : Shows (fun _ => True) h g p := by
  cases g with
  | nil => unfold Shows; exact hg
  | node v gs =>
    obtain ⟨a, x, ps, rfl, hl, hv, ho⟩ := hg
    exact .mk trivial hl hv.any (showsL_kids.2 (ho.imp fun _ _ hs => hs.any))

theorem Loose.turns {h h' : Heap} {g : Graph} {p : Ptr} (hg : Loose P N h g p) (t : Turns [] h h') : Loose P N h' g p := by
  cases g with
  | nil => exact hg
  | node v gs =>
    obtain ⟨a, x, ps, e, hp, hl, hv, ho⟩ := hg
    exact ⟨a, x, ps, e, hp, by rw [(t.keep a (look_lt hl) nofun).2]; exact hl, hv.turns t, ho.turns t⟩

theorem Root.turns {h h' : Heap} {g : Graph} {p : Ptr} (hg : Root P N h g p) (t : Turns [] h h') : Root P N h' g p := by
  cases g with
  | nil => exact hg
  | node v gs =>
    obtain ⟨a, x, ps, e, hl, hv, ho⟩ := hg
    exact ⟨a, x, ps, e, by rw [(t.keep a (look_lt hl) nofun).2]; exact hl, hv.turns t, ho.imp fun _ _ hs => hs.turns t⟩

theorem Root.isNone {h : Heap} {g : Graph} {p : Ptr} (hg : Root P N h g p) : p.isNone = g.isNil := hg.any.isNone
theorem Root.null {h : Heap} {p : Ptr} (hg : Root P N h .nil p) : p = none := hg
theorem loose_nil {h : Heap} : Loose P N h .nil none := rfl

/-! ## Nodes -/

theorem getAt_root {h : Heap} (hs : Solid h) {g : Graph} {p : Ptr} (hg : Root P N h g p) (i : Int) : Comes F (fun _ => hGetAt p i) h (g.getAt i) (Just h fun p g => Loose P N h g p) := by
  cases g with
  | nil =>
    rw [hg.null]
    exact ⟨0, h, fun _ _ => rfl, .refl hs⟩
  | node t o =>
    obtain ⟨a, y, ps, rfl, hl, _, ho⟩ := hg
    obtain ⟨c, hc, hld, _, hlen, _⟩ := load_look hs hl
    unfold hGetAt Graph.getAt
    refine .step (fun _ => hld) ?_
    dsimp only
    rw [hlen, ← ho.length]
    by_cases hi : i ≥ o.length ∨ i < 0
    · simp only [hi, ↓reduceIte]
      exact .ret hs ⟨rfl, loose_nil⟩
    · simp only [hi, ↓reduceIte]
      obtain ⟨p, hp, hgp⟩ := ho.at i.toNat (by omega)
      exact ⟨0, p, h, fun _ _ => index_look hs hl hc hp, .refl hs, rfl, hgp⟩

theorem firstThis_root {h : Heap} (hs : Solid h) {g : Graph} {p : Ptr} (hg : Root P N h g p) : Comes F (fun _ => hFirstThis p) h (firstThis g) (Just h fun x v => ShowsV P h v x) := by
  cases g with
  | nil =>
    rw [hg.null]
    exact ⟨0, h, fun _ _ => rfl, .refl hs⟩
  | node t o =>
    obtain ⟨a, y, ps, rfl, hl, _, ho⟩ := hg
    obtain ⟨c, hc, hld, _, hlen, _⟩ := load_look hs hl
    cases ho with
    | nil =>
      refine ⟨0, h, fun _ _ => ?_, .refl hs⟩
      unfold hFirstThis hGetAt
      rw [hm_assoc, ok_bind' hld, hlen]
      rfl
    | @cons g1 p1 gs ps' hn h1 hr =>
      cases g1 with
      | nil => exact absurd rfl hn
      | node u o1 =>
        obtain ⟨b, z, qs, rfl, _, hlb, hz, _⟩ := h1
        obtain ⟨d, hd, hldd, hthis, _, _⟩ := load_look hs hlb
        refine ⟨0, z, h, fun _ _ => ?_, .refl hs, rfl, hz⟩
        unfold hFirstThis hGetAt
        rw [hm_assoc, ok_bind' hld, hlen]
        rw [if_neg (by simp only [List.length_cons]; omega)]
        rw [show (0 : Int).toNat = 0 from rfl, ok_bind' (index_look hs hl hc (i := 0) (p := some b) rfl), ok_bind' hldd, hthis]
        rfl

theorem search_kids {nm : Bytes} {h : Heap} {a : Nat} {c : HNode} {z : HVal} {ps : List Ptr} (hs : Solid h) (hc : h.nodes[a]? = some c)
    (hl : look h a = some (z, ps)) :
    ∀ (xs : List Graph) (ps2 : List Ptr) (i : Nat), ps.drop i = ps2 → Kids (Loose P N h) xs ps2 →
      Comes F (fun fuel => HM.search c.out (fun n => do
        let x ← HM.load n
        let t ← hstring E fuel x.this
        if nm = t then pure (some n) else pure none) xs.length i >>= fun r => pure (r.getD none)) h (nodeLoop E nm xs) (Just h fun p g => Loose P N h g p)
  | [], ps2, i, _, _ => by
    unfold nodeLoop
    exact .ret hs ⟨rfl, loose_nil⟩
  | .nil :: gs, ps2, i, hps, ho => by cases ho with | cons hn _ _ => exact absurd rfl hn
  | .node u o1 :: gs, ps2, i, hps, ho => by
    cases ho with
    | @cons _ p1 _ ps' hn hg1 hr =>
    obtain ⟨hpi, hps'⟩ := getElem?_of_drop hps
    rw [List.length_cons]
    simp only [search_succ, hm_assoc]
    refine .step (fun _ => index_look hs hl hc hpi) ?_
    have hg1' := hg1
    obtain ⟨b, y, qs, rfl, _, hlb, hy, _⟩ := hg1
    obtain ⟨d, hd, hldd, hthis, _, _⟩ := load_look hs hlb
    refine .step (fun _ => hldd) ?_
    rw [hthis]
    have e : nodeLoop E nm (.node u o1 :: gs) = (Res.ok (vstr E u) >>= fun s => if nm = s then .ok (.node u o1) else nodeLoop E nm gs) := by
      rw [nodeLoop]; rfl
    rw [e]
    refine .bind (string_comes hs hy) fun s s' h' t hq => ?_
    obtain ⟨rfl, rfl⟩ := hq
    by_cases hn : nm = s
    · simp only [hn, ↓reduceIte, hm_pure]
      exact .ret hs ⟨rfl, hg1'⟩
    · simp only [hn, ↓reduceIte, hm_pure]
      exact search_kids hs hc hl gs ps' (i + 1) hps' hr

theorem node_root {h : Heap} (hs : Solid h) {g : Graph} {p : Ptr} (hg : Root P N h g p) (nm : Bytes) :
    Comes F (fun n => hNode E n p nm) h (g.nodeNamed E nm) (Just h fun p g => Loose P N h g p) := by
  cases g with
  | nil =>
    rw [hg.null]
    exact .ret hs ⟨rfl, loose_nil⟩
  | node t o =>
    obtain ⟨a, y, ps, rfl, hl, hy, ho⟩ := hg
    obtain ⟨c, hc, hld, hthis, hlen, _⟩ := load_look hs hl
    unfold hNode Graph.nodeNamed
    refine .step (fun _ => hld) ?_
    dsimp only
    rw [hlen, ← ho.length]
    exact search_kids hs hc hl o ps 0 rfl ho

/-! ## Selection -/

theorem nth_kids {key : Bytes} {h : Heap} {a : Nat} {c : HNode} {z : HVal} {ps : List Ptr} (hs : Solid h) (hc : h.nodes[a]? = some c)
    (hl : look h a = some (z, ps)) :
    ∀ (xs : List Graph) (ps2 : List Ptr) (i k : Nat), ps.drop i = ps2 → Kids (Loose P N h) xs ps2 →
      Comes F (fun n => hNthNamed E n c.out key k xs.length i) h (.ok (nthNamed E key k xs)) (Just h fun p g => Loose P N h g p)
  | [], ps2, i, k, _, _ => by
    have : ∀ n, hNthNamed E n c.out key k 0 i = pure none := fun n => by unfold hNthNamed; rfl
    simp only [List.length_nil, this]
    exact .ret hs ⟨rfl, by unfold nthNamed; exact loose_nil⟩
  | g :: gs, ps2, i, k, hps, ho => by
    cases ho with
    | @cons _ p1 _ ps' hn hg1 hr =>
    obtain ⟨hpi, hps'⟩ := getElem?_of_drop hps
    rw [List.length_cons]
    unfold hNthNamed
    refine .step (fun _ => index_look hs hl hc hpi) ?_
    have e : Res.ok (nthNamed E key k (g :: gs)) = (Res.ok (g.thisString E) >>= fun s =>
        .ok (if s = key then (match k with | 0 => g | k + 1 => nthNamed E key k gs) else nthNamed E key k gs)) := by
      rw [nthNamed.eq_def]
      cases k <;> rfl
    rw [e]
    refine .bind (thisString_comes hs hg1.any) fun s s' h' t hq => ?_
    obtain ⟨rfl, rfl⟩ := hq
    by_cases hn : s = key
    · simp only [hn, ↓reduceIte]
      cases k with
      | zero => exact .ret hs ⟨rfl, hg1⟩
      | succ k => exact nth_kids hs hc hl gs ps' (i + 1) k hps' hr
    · simp only [hn, ↓reduceIte]
      exact nth_kids hs hc hl gs ps' (i + 1) k hps' hr

theorem Loose.aside {h h' : Heap} {g : Graph} {p : Ptr} {a : Nat} (hg : Loose (Off P a) (Off N a) h g p) (t : Turns [a] h h') : Loose (Off P a) (Off N a) h' g p := by
  cases g with
  | nil => exact hg
  | node v gs =>
    obtain ⟨b, x, ps, e, hp, hl, hv, ho⟩ := hg
    exact ⟨b, x, ps, e, hp, by rw [(t.keep b (look_lt hl) (by simpa using hp.2)).2]; exact hl, hv.aside t, ho.aside t⟩

theorem Loose.off {h : Heap} {g : Graph} {p : Ptr} (hg : Loose P N h g p) : Loose (Off P h.nodes.length) (Off N h.nodes.length) h g p := by
  cases g with
  | nil => exact hg
  | node v gs =>
    obtain ⟨b, x, ps, e, hp, hl, hv, ho⟩ := hg
    have := look_lt hl
    exact ⟨b, x, ps, e, ⟨hp, by omega⟩, hl, hv.off, ho.frame gs fun a hp ha => ⟨⟨hp, by omega⟩, rfl⟩⟩

theorem addNodes_loose {h : Heap} (hs : Solid h) {a : Nat} {x : HVal} {o : List Graph} {g : Graph} {p : Ptr} (ho : Building P h a x o) (hg : Loose (Off P a) (Off N a) h g p) :
    ∃ r h', (hAddNodes grow (some a) p).run h = (.ok r, h') ∧ Turns [a] h h' ∧ Building P h' a x (o ++ g.out) := by
  obtain ⟨ps, hl, hgo⟩ := ho
  cases g with
  | nil =>
    obtain rfl : p = none := hg
    exact ⟨none, h, rfl, .refl hs, ps, hl, by simpa [Graph.out] using hgo⟩
  | node w xs =>
    obtain ⟨b, z, qs, rfl, _, hlb, _, hxs⟩ := hg
    obtain ⟨cb, hcb, hldb, _, _, hel⟩ := load_look hs hlb
    obtain ⟨h1, hr, c1⟩ := kids_append (grow := grow) hs hl qs (some a)
    obtain ⟨ca, hca, hlda, _, _, _⟩ := load_look hs hl
    refine ⟨some a, h1, ?_, c1.turns, ps ++ qs, by rw [c1.look]; unfold upd; rw [if_pos rfl], (hgo.aside c1.turns).append (hxs.aside c1.turns)⟩
    unfold hAddNodes
    dsimp only
    rw [ok_bind' hlda] at hr ⊢
    rw [ok_bind' hldb, ok_bind' (elems_run hel)]
    exact hr

theorem equal_kids {key : Bytes} {a b : Nat} {c : HNode} {t : Val} {x z : HVal} {ps : List Ptr} (hba : b ≠ a) :
    ∀ (xs : List Graph) (h : Heap) (o : List Graph) (ps2 : List Ptr) (i : Nat), Solid h → h.nodes[b]? = some c → look h b = some (z, ps) → ps.drop i = ps2 →
      Kids (Loose (Off P a) (Off N a) h) xs ps2 → Building P h a x o →
      Comes [a] (fun fuel => HM.range c.out (fun n => do
        let x ← HM.load n
        let t ← hstring E fuel x.this
        if key = t then do
          let _ ← hAddNodes grow (some a) n
          pure ()
        else pure ()) xs.length i) h (Graph.addEqualNodes.loop E key (.node t o) xs) fun _ g h' => ∃ o', g = .node t o' ∧ Building P h' a x o'
  | [], h, o, ps2, i, hs, _, _, _, _, ho => by
    unfold Graph.addEqualNodes.loop
    exact .ret hs ⟨o, rfl, ho⟩
  | .nil :: gs, h, o, ps2, i, hs, hc, hl, hps, hx, ho => by cases hx with | cons hn _ _ => exact absurd rfl hn
  | .node u o1 :: gs, h, o, ps2, i, hs, hc, hl, hps, hx, ho => by
    cases hx with
    | @cons _ p1 _ ps' hn hg1 hr =>
    obtain ⟨hpi, hps'⟩ := getElem?_of_drop hps
    rw [List.length_cons]
    simp only [range_succ, hm_assoc]
    refine .step (fun _ => index_look hs hl hc hpi) ?_
    have hg1' := hg1
    obtain ⟨m, y, qs, rfl, _, hlb, hy, _⟩ := hg1
    obtain ⟨d, hd, hldd, hthis, _, _⟩ := load_look hs hlb
    refine .step (fun _ => hldd) ?_
    rw [hthis]
    have e : Graph.addEqualNodes.loop E key (.node t o) (.node u o1 :: gs) = (Res.ok (vstr E u) >>= fun s =>
        Graph.addEqualNodes.loop E key (if key = s then (Graph.node t o).addNodes (.node u o1) else .node t o) gs) := by
      rw [Graph.addEqualNodes.loop]; rfl
    rw [e]
    refine .bind (string_comes hs hy) fun s s' h' t' hq => ?_
    obtain ⟨rfl, rfl⟩ := hq
    by_cases hn : key = s
    · simp only [hn, ↓reduceIte, hm_assoc, hm_pure]
      obtain ⟨r, h2, hr2, t2, own2⟩ := addNodes_loose (grow := grow) hs ho hg1'
      rw [addNodes_out]
      have hk := t2.keep b (look_lt hl) (by simpa using hba)
      refine .go (fun _ => hr2) t2 .refl ?_
      rw [← hn]
      exact equal_kids hba gs h2 _ ps' (i + 1) t2.solid (hk.1.trans hc) (hk.2.trans hl) hps' (hr.imp fun _ _ hx => hx.aside t2) own2
    · simp only [hn, ↓reduceIte, hm_pure]
      exact equal_kids hba gs h' o ps' (i + 1) hs hc hl hps' hr ho

/-- The states of the loop over a path agree. -/
structure StRoot (P N : Nat → Prop) (h : Heap) (s : HPathSt) (t : PathSt) : Prop where
  ctx : Root P N h t.ctx s.ctx
  prev : Root P N h t.prev s.prev
  elem : s.elem = t.elem
  addRoot : s.addRoot = t.addRoot

theorem StRoot.turns {h h' : Heap} {s : HPathSt} {t : PathSt} (hst : StRoot P N h s t) (tn : Turns [] h h') : StRoot P N h' s t :=
  ⟨hst.ctx.turns tn, hst.prev.turns tn, hst.elem, hst.addRoot⟩

theorem select_root {h : Heap} (hs : Solid h) (hN : ∀ b, P b → N b) (hf : Fresh P h) {s : HPathSt} {t : PathSt} (hst : StRoot P N h s t) (hp : t.prev ≠ .nil) (ix : Int) :
    Comes F (fun n => hSelect grow E n s ix) h (selectNodes E t ix) fun p g h' =>
      match p, g with
      | none, none => True
      | some p, some g => Loose P N h' g p
      | _, _ => False := by
  unfold hSelect selectNodes
  dsimp only
  by_cases h0 : wrap64 (ix + 1) < 0
  · simp only [h0, ↓reduceIte]
    exact .ret hs trivial
  · simp only [h0, ↓reduceIte]
    obtain ⟨h1, hr1, t1, own1, hlen⟩ := new_own (P := P) hs (.val (.str b!"{"))
    have hw : Within h F [h.nodes.length] := fun b hb => .inr (by simp only [List.mem_singleton] at hb; omega)
    refine .go (F' := [h.nodes.length]) (fun _ => hr1) t1.any hw ?_
    have hprev := hst.prev
    cases hpv : t.prev with
    | nil => exact absurd hpv hp
    | node w xs =>
      rw [hpv] at hprev
      obtain ⟨b, z, ps, hb, hl0, _, hxs⟩ := hprev
      have hl : look h1 b = some (z, ps) := by rw [(t1.keep b (look_lt hl0) nofun).2]; exact hl0
      have hbn : b ≠ h.nodes.length := by have := look_lt hl0; omega
      have hxs : Kids (Loose (Off P h.nodes.length) (Off N h.nodes.length) h1) xs ps := hxs.imp fun _ _ hx => hx.off.turns t1
      obtain ⟨c, hc, hld, _, hlenc, _⟩ := load_look t1.solid hl
      rw [hb]
      have fin : ∀ {h' : Heap} {o : List Graph}, Building P h' h.nodes.length (.val (.str b!"{")) o → Loose P N h' (.node (.str b!"{") o) (some h.nodes.length) :=
        fun own => (own.shows (hf _ (Nat.le_refl _)) (.plain nofun)).loose hN
      by_cases h2 : wrap64 (ix + 1) = 0
      · simp only [h2, ↓reduceIte]
        unfold hAddEqualNodes Graph.addEqualNodes
        simp only [hm_assoc]
        refine .step (fun _ => hld) ?_
        rw [hlenc, ← hxs.length, hst.elem]
        refine .bind (equal_kids hbn (z := z) (ps := ps) xs h1 [] ps 0 t1.solid hc hl rfl hxs own1) fun _ g h' t' hq => ?_
        obtain ⟨o', rfl, own⟩ := hq
        exact .ret t'.solid (fin own)
      · simp only [h2, ↓reduceIte]
        refine .step (fun _ => hld) ?_
        rw [hlenc, ← hxs.length, hst.elem]
        have e : Res.ok (some ((Graph.new (.str b!"{")).addNodes (nthNamed E t.elem ((wrap64 (ix + 1)).toNat - 1) (Graph.node w xs).out))) =
            (Res.ok (nthNamed E t.elem ((wrap64 (ix + 1)).toNat - 1) xs) >>= fun g => Res.ok (some ((Graph.node (.str b!"{") []).addNodes g))) := rfl
        rw [e]
        refine .bind (nth_kids t1.solid hc hl xs ps 0 _ rfl hxs) fun q g h' t' hq => ?_
        obtain ⟨rfl, hgq⟩ := hq
        obtain ⟨r, h2, hr2, t2, own2⟩ := addNodes_loose (grow := grow) t'.solid own1 hgq
        refine .go (fun _ => hr2) t2 .refl ?_
        rw [addNodes_out]
        exact .ret t2.solid (fin own2)

/-! ## Paths -/

/-- A value in `P`, or a node with what is below it in `P`. -/
def LooseV (P N : Nat → Prop) (h : Heap) (v : Val) (x : HVal) : Prop := ShowsV P h v x ∨ ∃ g p, v = .graph g ∧ x = .ptr p ∧ Loose P N h g p

/-- The results of one iteration. -/
def StepLoose (P N : Nat → Prop) : HPathStep (HVal × Option Err) → PathStep (Val × Option Err) → Heap → Prop
  | .next s, .next t, h => StRoot P N h s t ∧ Loose P N h t.ctx s.ctx
  | .done b, .done a, h => b.2 = a.2 ∧ LooseV P N h a.1 b.1
  | _, _, _ => False

theorem both_loose {b : HVal × Option Err} {a : Val × Option Err} {h : Heap} (hq : Both P b a h) : b.2 = a.2 ∧ LooseV P N h a.1 b.1 := ⟨hq.1, .inl hq.2⟩

section
variable {f : Nat} {h : Heap} {g : Graph} {p : Ptr}

theorem evalName_root (hN : ∀ b, P b → N b) (ih : AllSim E grow f) (c : Ctx (fun _ => True) h g p) (hf : Fresh P h) (e : Graph) (he : Fit E e) (nm : Bytes) (s : HPathSt) (t : PathSt) (hst : StRoot P N h s t) :
    Sim [] (fun n => hEvalName grow E n p (f + 1) e nm s) h (evalName E (f + 1) e nm t) g (StepLoose P N) := by
  unfold hEvalName evalName
  refine .bind (.lift (node_root c.solid hst.ctx nm)) fun q n h' tn hq => ?_
  obtain ⟨e1, hn⟩ := hq
  subst e1
  refine .step (fun _ => len_run c.solid hst.ctx.any) ?_
  rw [hn.any.isNone]
  refine .ite (fun _ => ?_) fun _ => .ret c.solid ⟨⟨hn.root hN, hst.ctx, rfl, rfl⟩, hn⟩
  refine .bind (.lift (firstThis_root c.solid hst.ctx)) fun x v h' t1 hq => ?_
  obtain ⟨e1, hv⟩ := hq
  subst e1
  refine .bind (ih.function c hf e he x v hv.any) fun b a h2 t2 hq => ?_
  obtain ⟨y, er⟩ := b
  obtain ⟨w, er'⟩ := a
  obtain ⟨rfl, hw⟩ := hq
  cases er with
  | some err => exact .ret t2.solid ⟨rfl, .inl (.plain nofun)⟩
  | none => exact .ret t2.solid ⟨rfl, .inl hw⟩

theorem prevRoot_isNone {s : HPathSt} {t : PathSt} (hst : StRoot P N h s t) : (s.prev.isNone || s.elem.isEmpty) = (t.prev.isNil || t.elem.isEmpty) := by
  rw [hst.prev.isNone, hst.elem]

theorem evalStep_root (hN : ∀ b, P b → N b) (hE : WholeCalls E) (c : Ctx (fun _ => True) h g p) (hf : Fresh P h) (e : Graph) (he : Fit E e) (k : Graph) (hk : Fit E k) (s : HPathSt) (t : PathSt)
    (hst : StRoot P N h s t) (hthis : k.thisString E = b!"_this" → Loose P N h t.ctx s.ctx) :
    Sim [] (fun n => hEvalStep grow E n p (f + 1) e k s) h (evalStep E (f + 1) e k t) g (StepLoose P N) := by
  have ih := allSim (grow := grow) hE f
  have name : ∀ (h : Heap), Ctx (fun _ => True) h g p → Fresh P h → StRoot P N h s t → ∀ nm, Sim [] (fun n => hEvalName grow E n p f e nm s) h (evalName E f e nm t) g (StepLoose P N) := by
    intro h c hf hst nm
    cases f with
    | zero => unfold evalName; trivial
    | succ f => exact evalName_root hN (allSim hE f) c hf e he nm s t hst
  unfold hEvalStep evalStep
  dsimp only
  refine .ite (fun _ => ?_) fun _ => .ite (fun _ => ?_) fun _ => .ite (fun _ => ?_) fun _ => .ite (fun ht => ?_) fun _ => .ite (fun _ => ?_) fun _ =>
    .ite (fun _ => ?_) fun _ => .ite (fun _ => ?_) fun _ => .ite (fun _ => ?_) fun _ => .ite (fun _ => ?_) fun _ => name h c hf hst _
  · refine .bind (ih.indexOf c k hk) fun b a h1 t1 hq => ?_
    subst hq
    refine .ite (fun _ => .ret t1.solid ⟨rfl, .inl (.plain nofun)⟩) fun _ => ?_
    have hst := hst.turns t1
    refine .bind (.lift (getAt_root t1.solid hst.ctx _)) fun q x h2 t2 hq => ?_
    obtain ⟨e2, hx⟩ := hq
    subst e2
    exact .ret t1.solid ⟨⟨hx.root hN, hst.ctx, hst.elem, rfl⟩, hx⟩
  · rw [prevRoot_isNone hst]
    refine .ite (fun _ => .ret c.solid ⟨rfl, .inl (.plain nofun)⟩) fun hp => ?_
    have hp : t.prev ≠ .nil := by intro hn; rw [hn] at hp; exact hp rfl
    refine .bind (ih.indexOf c k hk) fun b a h1 t1 hq => ?_
    subst hq
    have hst := hst.turns t1
    refine .bind (.lift (select_root t1.solid hN (hf.turns t1) hst hp _)) fun q x h2 t2 hq => ?_
    cases q with
    | none =>
      cases x with
      | none => exact .ret t2.solid ⟨rfl, .inl (.plain nofun)⟩
      | some x => exact hq.elim
    | some q =>
      cases x with
      | none => exact hq.elim
      | some x =>
        have hq : Loose P N h2 x q := hq
        exact .ret t2.solid ⟨⟨hq.root hN, hst.ctx.turns t2, hst.elem, rfl⟩, hq⟩
  · refine .step (fun _ => len_run c.solid hst.ctx.any) ?_
    exact .ret c.solid ⟨rfl, .inl (.plain nofun)⟩
  · exact .ret c.solid ⟨rfl, .inr ⟨_, _, rfl, rfl, hthis ht⟩⟩
  · refine .have' (thisString_comes c.solid hst.ctx.any) fun q h' t1 hq => ?_
    obtain ⟨e1, rfl⟩ := hq
    subst e1
    exact .ret c.solid ⟨rfl, .inl (.plain nofun)⟩
  · refine .bind (.lift (stringDef_comes c.solid hst.ctx.any)) fun q x h' t1 hq => ?_
    obtain ⟨e1, rfl⟩ := hq
    subst e1
    exact .ret c.solid ⟨rfl, .inl (.plain nofun)⟩
  · refine .have' (tree_comes c.solid hst.ctx.any) fun q h' t1 hq => ?_
    obtain ⟨e1, rfl⟩ := hq
    subst e1
    refine .bind (.lift (.lifted (Q := fun a b _ => a = b) c.solid fun a _ => rfl)) fun q x h' t2 hq => ?_
    subst hq
    exact .ret t2.solid ⟨rfl, .inl (.plain nofun)⟩
  · refine .step (fun _ => len_run c.solid hst.ctx.any) ?_
    refine .ite (fun _ => ?_) fun _ => .ret c.solid ⟨rfl, .inl (.plain nofun)⟩
    refine .bind (.lift (firstThis_root c.solid hst.ctx)) fun x v h' t1 hq => ?_
    obtain ⟨e1, hv⟩ := hq
    subst e1
    refine .bind (ih.function c hf e he x v hv.any) fun b a h2 t2 hq => ?_
    obtain ⟨y, er⟩ := b
    obtain ⟨w, er'⟩ := a
    obtain ⟨rfl, hw⟩ := hq
    cases er with
    | some err => exact .ret t2.solid ⟨rfl, .inl (.plain nofun)⟩
    | none =>
      dsimp only at hw ⊢
      rcases hw.cases with ⟨hn, rfl⟩ | ⟨gr, q, rfl, rfl, hg⟩
      · have : Sim (g := g) [] (fun _ => (pure (HPathStep.done (HVal.val w, none)) : HM (HPathStep (HVal × Option Err)))) h2
            (pure (PathStep.done (w, none))) (StepLoose P N) := .ret t2.solid ⟨rfl, .inl hw⟩
        cases w <;> first | exact this | exact absurd rfl (hn _)
      · exact .ret t2.solid ⟨⟨(hg.loose hN).root hN, hst.ctx.turns t2, hst.elem, rfl⟩, hg.loose hN⟩
  · cases k with
    | nil => exact .halt c.solid
    | node w o =>
      cases o with
      | nil => exact .halt c.solid
      | cons x xs =>
        dsimp only [Graph.out_node]
        refine .bind (ih.eval c x (hk.child (List.mem_cons_self ..))) fun b a h2 t2 hq => ?_
        obtain ⟨y, er⟩ := b
        obtain ⟨w, er'⟩ := a
        obtain ⟨rfl, hw⟩ := hq
        cases er with
        | some err => exact .ret t2.solid ⟨rfl, .inl (.plain nofun)⟩
        | none =>
          dsimp only at hw ⊢
          refine .have' (string_comes t2.solid hw) fun q h3 t3 hq => ?_
          obtain ⟨e3, rfl⟩ := hq
          subst e3
          refine .ite (fun _ => .ret t2.solid ⟨rfl, .inl (.plain nofun)⟩) fun _ => name _ (c.turns t2) (hf.turns t2) (hst.turns t2) _

theorem walk_root (hN : ∀ b, P b → N b) (hE : WholeCalls E) (e : Graph) (he : Fit E e) :
    ∀ (es : List Graph) (h : Heap) (s : HPathSt) (t : PathSt), (∀ k ∈ es, Fit E k) → Ctx (fun _ => True) h g p → Fresh P h → StRoot P N h s t →
      (∀ k ks, es = k :: ks → k.thisString E = b!"_this" → Loose P N h t.ctx s.ctx) → (es = [] → Loose P N h t.ctx s.ctx) →
      Sim [] (fun n => hWalkPath (hEvalStep grow E n p f e) es s) h (walkPath (evalStep E f e) es t) g (StepLoose P N)
  | [], h, s, t, _, c, _, hst, _, hl => by
    unfold hWalkPath walkPath
    exact .ret c.solid ⟨hst, hl rfl⟩
  | k :: es, h, s, t, hk, c, hf, hst, hthis, _ => by
    have hctx := hst.ctx
    cases htc : t.ctx with
    | nil =>
      rw [htc] at hctx
      have hsc := hctx.null
      unfold hWalkPath walkPath
      rw [hsc, htc]
      exact .ret c.solid ⟨hst, by rw [htc, hsc]; exact loose_nil⟩
    | node w xs =>
      rw [htc] at hctx
      obtain ⟨a, _, _, hsc, _⟩ := hctx
      unfold hWalkPath walkPath
      rw [hsc, htc]
      have hstep : Sim [] (fun n => hEvalStep grow E n p f e k s) h (evalStep E f e k t) g (StepLoose P N) := by
        cases f with
        | zero => unfold evalStep; trivial
        | succ f => exact evalStep_root hN hE c hf e he k (hk k (List.mem_cons_self ..)) s t hst (hthis k es rfl)
      refine .bind hstep fun b a h' tn hq => ?_
      cases b with
      | next s' =>
        cases a with
        | next t' =>
          obtain ⟨hst', hl'⟩ : StRoot P N h' s' t' ∧ Loose P N h' t'.ctx s'.ctx := hq
          exact walk_root hN hE e he es h' s' t' (fun e he => hk e (List.mem_cons_of_mem _ he)) (c.turns tn) (hf.turns tn) hst' (fun _ _ _ _ => hl') fun _ => hl'
        | done r => exact hq.elim
      | done r =>
        cases a with
        | next t' => exact hq.elim
        | done r' => exact .ret tn.solid hq

/-- A value in `P`, a node with what is below it in `P`, or such a node below `[`. -/
def SourceV (P N : Nat → Prop) (h : Heap) (v : Val) (x : HVal) : Prop :=
  LooseV P N h v x ∨ ∃ o p, v = .graph (.node (.str b!"[") o) ∧ x = .ptr p ∧ Root P N h (.node (.str b!"[") o) p

theorem simplify_loose (hs : Solid h) (hg : Root P N h g p) :
    Comes F (fun _ => hSimplify p) h (.ok (simplify g)) (Just h fun x v => ShowsV P h v x ∨ v = .graph g ∧ x = .ptr p) := by
  cases g with
  | nil =>
    rw [hg.null]
    exact .ret hs ⟨rfl, .inr ⟨rfl, rfl⟩⟩
  | node t o =>
    obtain ⟨a, y, ps, rfl, hl, _, ho⟩ := hg
    obtain ⟨c, hc, hld, _, hlen, _⟩ := load_look hs hl
    unfold hSimplify
    refine .step (fun _ => hld) ?_
    rw [hlen]
    cases ho with
    | nil => exact .ret hs ⟨rfl, .inr ⟨rfl, rfl⟩⟩
    | @cons g1 p1 gs ps' hn hg1 hr =>
      cases g1 with
      | nil => exact absurd rfl hn
      | node u o1 =>
        cases hr with
        | @cons g2 p2 gs ps' hn2 hg2 hr =>
          simp only [List.length_cons, Nat.add_eq_right, Nat.add_eq_zero_iff, Nat.succ_ne_self, and_false, ↓reduceIte]
          refine .ret hs ⟨rfl, .inr ⟨?_, rfl⟩⟩
          unfold simplify; cases o1 <;> rfl
        | nil =>
          simp only [List.length_cons, List.length_nil, Nat.zero_add, ↓reduceIte]
          refine .step (fun _ => index_look hs hl hc (i := 0) (p := p1) rfl) (.step (fun _ => len_run hs hg1.any) ?_)
          cases o1 with
          | nil =>
            obtain ⟨b, z, qs, rfl, _, hlb, hz, _⟩ := hg1
            obtain ⟨d, hd, hldd, hthis, _, _⟩ := load_look hs hlb
            rw [show (Graph.node u []).len = 0 from rfl]
            simp only [↓reduceIte]
            refine .step (fun _ => hldd) ?_
            rw [hthis]
            exact .ret hs ⟨rfl, .inl hz⟩
          | cons g3 gs3 =>
            rw [if_neg (by simp only [Graph.len, List.length_cons]; omega)]
            exact .ret hs ⟨rfl, .inr ⟨rfl, rfl⟩⟩

theorem bracket_root (hs : Solid h) (hN : ∀ b, P b → N b) (hf : Fresh P h) (hg : Loose P N h g p) :
    Comes F (fun _ => hBracket grow p) h (.ok ((Graph.new (.str b!"[")).add (.graph g)).1) fun p g h' => ∃ o, g = .node (.str b!"[") o ∧ Root P N h' g p := by
  obtain ⟨h1, hr1, t1, ⟨ps1, hl1, own1⟩, hlen⟩ := new_own (P := P) hs (.val (.str b!"["))
  obtain rfl : ps1 = [] := by unfold ShowsL at own1; exact own1
  have fin : ∀ {h2 : Heap} {r : Ptr} {q : Ptr} {g' : Graph}, (hAdd grow (some h.nodes.length) (.ptr p)).run h1 = (.ok r, h2) → Turns [h.nodes.length] h1 h2 →
      look h2 h.nodes.length = some (.val (.str b!"["), [q]) → g' ≠ .nil → Loose P N h2 g' q → ((Graph.new (.str b!"[")).add (.graph g)).1 = .node (.str b!"[") [g'] →
      Comes F (fun _ => hBracket grow p) h (.ok ((Graph.new (.str b!"[")).add (.graph g)).1) fun p g h' => ∃ o, g = .node (.str b!"[") o ∧ Root P N h' g p := by
    intro h2 r q g' hr2 t2 hl hn hq hadd
    refine ⟨0, some h.nodes.length, h2, fun _ _ => ?_, ?_, _, hadd, ?_⟩
    · unfold hBracket
      rw [ok_bind' hr1, ok_bind' hr2]
      rfl
    · refine (t1.trans t2 fun b hb => .inr ?_).mono nofun
      simp only [List.mem_singleton] at hb
      omega
    · rw [hadd]
      exact ⟨_, _, _, rfl, hl, .plain nofun, .cons hn hq .nil⟩
  cases g with
  | nil =>
    obtain rfl : p = none := hg
    obtain ⟨h2, hr2, t2, l1, l2, hlen2⟩ := alloc_append (grow := grow) (y := .ptr none) t1.solid hl1
    refine fin hr2 t2 l1 (g' := .node (.graph .nil) []) nofun ⟨_, _, _, rfl, hN _ (hf _ (by omega)), l2, .graph (by unfold Shows; rfl), .nil⟩ rfl
  | node v gs =>
    have hg' := hg.off.turns t1
    obtain ⟨b, x, ps, rfl, _, hb, _⟩ := hg
    have hlt := look_lt hb
    obtain ⟨h2, hr2, c2⟩ := add_ptr (grow := grow) (b := b) t1.solid hl1
    refine fin (g' := .node v gs) hr2 c2.turns (by rw [c2.look]; unfold upd; rw [if_pos rfl]; rfl) nofun ?_ rfl
    exact (hg'.aside c2.turns).mono (fun _ hd => hd.1) fun _ hd => hd.1

/-- The results of a path: the errors and the values agree. -/
def Sources (P N : Nat → Prop) (b : HVal × Option Err) (a : Val × Option Err) (h : Heap) : Prop := b.2 = a.2 ∧ SourceV P N h a.1 b.1

theorem evalPath_root (hN : ∀ b, P b → N b) (hE : WholeCalls E) (c : Ctx (fun _ => True) h g p) (hf : Fresh P h) (hr : Root P N h g p) (e : Graph) (he : Fit E e)
    (hthis : ∀ k ks, e.out = k :: ks → k.thisString E ≠ b!"_this") (b : Bool) :
    Sim [] (fun n => hEvalPath grow E n p f e b) h (evalPath E f e b) g (Sources P N) := by
  cases f with
  | zero => unfold evalPath; trivial
  | succ f =>
  unfold hEvalPath evalPath
  show Sim [] _ h (if e.len = 0 ∨ g.isNil then _ else _) g _
  simp only [ctx_cond c]
  refine .ite (fun _ => .ret c.solid ⟨rfl, .inl (.inl (.plain nofun))⟩) fun hlen => ?_
  cases e with
  | nil => exact .halt c.solid
  | node w o =>
    dsimp only [Graph.out_node] at hthis ⊢
    have hst : StRoot P N h { ctx := p } { ctx := g } := ⟨hr, rfl, rfl, rfl⟩
    refine .bind (walk_root hN hE (.node w o) he o h _ _ (fun k hk => he.child hk) c hf hst (fun k ks ho ht => absurd ht (hthis k ks ho))
      (fun ho => absurd (.inl (by rw [ho]; rfl)) hlen)) fun b' a h1 t1 hq => ?_
    have fin : ∀ {h1 : Heap} {q : Ptr} {g' : Graph}, Solid h1 → Root P N h1 g' q → SourceV P N h1 (.graph g') (.ptr q) →
        Sim [] (fun _ => if b = true then do let x ← hSimplify q; pure (x, none) else pure (HVal.ptr q, none)) h1
        (pure (if b = true then simplify g' else .graph g', none)) g (Sources P N) := by
      intro h1 q g' hs hq hsrc
      cases b with
      | true =>
        simp only [↓reduceIte]
        refine .have' (simplify_loose hs hq) fun x h2 t2 hx => ?_
        obtain ⟨e2, hx⟩ := hx
        subst e2
        refine .ret hs ⟨rfl, ?_⟩
        dsimp only
        rcases hx with hx | ⟨hx, rfl⟩
        · exact .inl (.inl hx)
        · rw [hx]; exact hsrc
      | false => exact .ret hs ⟨rfl, hsrc⟩
    cases b' with
    | next s =>
      cases a with
      | next t =>
        dsimp only
        obtain ⟨hq, hl⟩ : StRoot P N h1 s t ∧ Loose P N h1 t.ctx s.ctx := hq
        rw [hq.addRoot]
        cases t.addRoot with
        | true =>
          simp only [↓reduceIte]
          refine .have' (bracket_root t1.solid hN (hf.turns t1) hl) fun r h3 t3 hr => ?_
          obtain ⟨o', ho', hr⟩ := hr
          exact fin t3.solid hr (.inr ⟨o', r, by rw [ho'], rfl, by rw [← ho']; exact hr⟩)
        | false =>
          simp only [Bool.false_eq_true, ↓reduceIte]
          exact fin t1.solid (hl.root hN) (.inl (.inr ⟨_, _, rfl, rfl, hl⟩))
      | done r => exact hq.elim
    | done r =>
      cases a with
      | next t => exact hq.elim
      | done r' => exact .ret t1.solid ⟨hq.1, .inl hq.2⟩

theorem evalExpr_source (hN : ∀ b, P b → N b) (hE : WholeCalls E) (c : Ctx (fun _ => True) h g p) (hf : Fresh P h) (hr : Root P N h g p) :
    ∀ (f : Nat) (e : Graph), Fit E e → Source E e → ∀ b : Bool, Sim [] (fun n => hEvalExpr grow E n p f e b) h (evalExpr E f e b) g (Sources P N)
  | 0, e, _, _, b => by unfold evalExpr; trivial
  | f + 1, .nil, _, _, b => by
    unfold hEvalExpr evalExpr
    exact .halt c.solid
  | f + 1, .node .nil o, _, _, b => by
    unfold hEvalExpr evalExpr
    exact .ret c.solid ⟨rfl, .inl (.inl (.plain nofun))⟩
  | f + 1, .node w o, he, hsrc, b => by
    have ih := allSim (grow := grow) hE f
    cases w with
    | nil =>
      unfold hEvalExpr evalExpr
      exact .ret c.solid ⟨rfl, .inl (.inl (.plain nofun))⟩
    | _ =>
      unfold hEvalExpr evalExpr
      dsimp only
      have pl : ∀ {v : Val} {er : Option Err}, NoGraph v → Sim [] (fun _ => (pure (HVal.val v, er) : HM (HVal × Option Err))) h (pure (v, er)) g (Sources P N) :=
        fun hv => .ret c.solid ⟨rfl, .inl (.inl (.plain hv))⟩
      refine .ite (fun _ => pl nofun) fun _ => .ite (fun _ => ?num) fun _ => .ite (fun _ => ?not) fun _ =>
        .ite (fun hs => ?inExpr) fun he' => .ite (fun hs => ?inPath) fun hp => .ite (fun hs => ?group) fun _ =>
        .ite (fun _ => pl nofun) fun _ => .ite (fun _ => ?bin) fun _ => .ite (fun _ => pl nofun) fun _ =>
        .ite (fun _ => .ite (fun _ => pl nofun) fun _ => .ite (fun _ => pl nofun) fun _ => pl nofun)
          fun _ => ?self
      case num =>
        refine .bind (.lift (.lifted (Q := fun a b _ => a = b ∧ NoGraph a) c.solid fun a ha => ⟨rfl, number_whole ha⟩)) fun q x h' t2 hq => ?_
        obtain ⟨rfl, hg⟩ := hq
        have hw : WholeV q := by cases q <;> first | trivial | exact absurd rfl (hg _)
        refine .have' (putVal_comes t2.solid (hf.turns t2) hw) fun x h'' t' hq => ?_
        exact .ret t'.solid ⟨rfl, .inl (.inl hq)⟩
      case not =>
        cases o with
        | nil => exact .halt c.solid
        | cons x xs =>
          refine .bind (ih.evalBool c x (he.child (List.mem_cons_self ..))) fun q x h' t2 hq => ?_
          subst hq
          exact .ret t2.solid ⟨rfl, .inl (.inl (.plain nofun))⟩
      case inExpr =>
        cases hsrc with
        | path h1 _ => exact absurd (h1.symm.trans hs) (by decide)
        | expr _ h2 => exact evalExpr_source hN hE c hf hr f _ (headD_fit he) h2 b
        | other _ h1 _ => exact absurd hs h1
      case inPath =>
        cases hsrc with
        | path _ h2 => exact evalPath_root hN hE c hf hr _ he h2 b
        | expr h1 _ => exact absurd (hs.symm.trans h1) (by decide)
        | other h1 _ _ => exact absurd hs h1
      case group =>
        cases hsrc with
        | path h1 _ => exact absurd (h1.symm.trans hs) (by decide)
        | expr h1 _ => exact absurd (hs.symm.trans h1) (by decide)
        | other _ _ h1 => exact absurd hs h1
      case bin =>
        refine .bind (ih.evalBinary c _ he) fun q r h2 t2 hq => ?_
        exact .ret t2.solid ⟨rfl, .inl (.inl (by rw [hq.2]; exact .plain hq.1))⟩
      case self =>
        refine .have' (put_comes c.solid hf he.whole) fun q h' t hq => ?_
        exact .ret t.solid ⟨rfl, .inl (.inl (.graph hq))⟩

theorem eval_source (hN : ∀ b, P b → N b) (hE : WholeCalls E) (c : Ctx (fun _ => True) h g p) (hf : Fresh P h) (hr : Root P N h g p) (e : Graph) (he : Fit E e)
    (hsrc : Source E e) : Sim [] (fun n => hEval grow E n p f e) h (eval E f e) g (Sources P N) := by
  cases f with
  | zero => unfold eval; trivial
  | succ f =>
  unfold hEval eval
  refine .ite (fun hs => ?_) fun _ => .ite (fun _ => evalExpr_source hN hE c hf hr f e he hsrc true) fun _ => ?_
  · cases hsrc with
    | path _ h2 => exact evalPath_root hN hE c hf hr _ he h2 true
    | expr h1 _ => exact absurd (hs.symm.trans h1) (by decide)
    | other h1 _ _ => exact absurd hs h1
  have hwhole : Sim [] (fun _ => do let q ← hPut grow e; pure (HVal.ptr q, none)) h (pure (.graph e, none)) g (Sources P N) := by
    refine .have' (put_comes c.solid hf he.whole) fun q h' t hq => ?_
    exact .ret t.solid ⟨rfl, .inl (.inl (.graph hq))⟩
  cases e with
  | nil => exact hwhole
  | node t o =>
    cases o with
    | cons x xs => exact hwhole
    | nil =>
      have hlift : Comes [] (fun _ => HM.lift ((Graph.node t []).thisScalar E)) h ((Graph.node t []).thisScalar E) fun a b h' => a = b ∧ WholeV b := by
        refine .lifted c.solid fun a ha => ⟨rfl, ?_⟩
        have hw := he.whole
        unfold Whole at hw
        cases t <;> (unfold Graph.thisScalar at ha; exact scalar_whole hw.1 ha)
      refine .bind (.lift hlift) fun b a h' t hq => ?_
      obtain ⟨rfl, hw⟩ := hq
      refine .have' (putVal_comes t.solid (hf.turns t) hw) fun x h'' t' hq => ?_
      exact .ret t'.solid ⟨rfl, .inl (.inl hq)⟩

end
end Ogdl
