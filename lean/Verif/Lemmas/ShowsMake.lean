import Verif.Lemmas.Shows

/-!
# New nodes for trees, and trees read from memory
-/

namespace Ogdl
open Spec HM

variable {E : Ext} {grow : Nat → Nat → Nat} {P Q : Nat → Prop} {F : List Nat}

/-! ## Reading a whole tree -/

theorem elems_run {h : Heap} {c : HNode} {ps : List Ptr} (hp : (h.array c.out).take c.out.len = ps) : (HM.elems c.out).run h = (.ok ps, h) := by
  rw [← hp]; rfl

mutual
theorem tree_run : ∀ (g : Graph) {h : Heap} {p : Ptr}, Solid h → Shows P h g p → ∃ N, ∀ n, N ≤ n → (hTree n p).run h = (.ok g, h)
  | .nil, h, p, hs, hg => by
    rw [hg.null]
    exact ⟨0, fun n _ => by cases n <;> (unfold hTree; rfl)⟩
  | .node v gs, h, p, hs, hg => by
    obtain ⟨a, x, ps, rfl, _, hl, hv, ho⟩ := hg.parts
    obtain ⟨c, hc, hld, hthis, hlen, hps⟩ := load_look hs hl
    obtain ⟨N1, h1⟩ := value_run v hs hv
    obtain ⟨N2, h2⟩ := trees_run gs hs ho
    refine ⟨max N1 N2 + 1, fun n hn => ?_⟩
    cases n with
    | zero => omega
    | succ n =>
      unfold hTree
      rw [ok_bind' hld, ok_bind' (elems_run hps), ok_bind' (h2 n (by omega)), hthis]
      have := h1 n (by omega)
      rcases hv.cases with ⟨_, rfl⟩ | ⟨g, q, rfl, rfl, _⟩
      · rfl
      · unfold hValue at this
        dsimp only at this ⊢
        have h3 : (hTree n q).run h = (.ok g, h) := by
          rcases hq : (hTree n q).run h with ⟨r, h'⟩
          cases r with
          | ok t =>
            rw [ok_bind' hq] at this
            cases this
            rfl
          | panic =>
            rw [panic_bind' hq] at this
            cases this
          | oof =>
            have e : (hTree n q >>= fun t => (pure (Val.graph t) : HM Val)).run h = (.oof, h') := by
              show (HM.bind _ _).run h = _
              unfold HM.bind
              dsimp only
              rw [hq]
            rw [e] at this
            cases this
        rw [ok_bind' h3]
        rfl
theorem value_run : ∀ (v : Val) {h : Heap} {x : HVal}, Solid h → ShowsV P h v x → ∃ N, ∀ n, N ≤ n → (hValue n x).run h = (.ok v, h)
  | .graph g, h, x, hs, hv => by
    unfold ShowsV at hv
    obtain ⟨p, rfl, hg⟩ := hv
    obtain ⟨N, h1⟩ := tree_run g hs hg
    refine ⟨N, fun n hn => ?_⟩
    unfold hValue
    dsimp only
    rw [ok_bind' (h1 n hn)]
    rfl
  | .nil, h, x, _, hv | .str _, h, x, _, hv | .bytes _, h, x, _, hv | .bool _, h, x, _, hv | .int _ _, h, x, _, hv | .f64 _, h, x, _, hv | .f32 _, h, x, _, hv
  | .other _, h, x, _, hv => by
    unfold ShowsV at hv
    subst hv
    exact ⟨0, fun n _ => rfl⟩
theorem trees_run : ∀ (gs : List Graph) {h : Heap} {ps : List Ptr}, Solid h → ShowsL P h gs ps → ∃ N, ∀ n, N ≤ n → (hEach (hTree n) ps).run h = (.ok gs, h)
  | [], h, ps, hs, hl => by
    unfold ShowsL at hl
    subst hl
    exact ⟨0, fun n _ => rfl⟩
  | g :: gs, h, ps, hs, hl => by
    unfold ShowsL at hl
    obtain ⟨_, p, ps', rfl, hg, hr⟩ := hl
    obtain ⟨N1, h1⟩ := tree_run g hs hg
    obtain ⟨N2, h2⟩ := trees_run gs hs hr
    refine ⟨max N1 N2, fun n hn => ?_⟩
    unfold hEach
    rw [ok_bind' (h1 n (by omega)), ok_bind' (h2 n (by omega))]
    rfl
end

theorem tree_comes {h : Heap} (hs : Solid h) {g : Graph} {p : Ptr} (hg : Shows P h g p) : Comes F (fun n => hTree n p) h (.ok g) (Just h Eq) := by
  obtain ⟨N, hN⟩ := tree_run g hs hg
  exact ⟨N, g, h, hN, .refl hs, rfl, rfl⟩

theorem value_comes {h : Heap} (hs : Solid h) {v : Val} {x : HVal} (hv : ShowsV P h v x) : Comes F (fun n => hValue n x) h (.ok v) (Just h Eq) := by
  obtain ⟨N, hN⟩ := value_run v hs hv
  exact ⟨N, v, h, hN, .refl hs, rfl, rfl⟩

theorem callable_comes {h : Heap} (hs : Solid h) {v : Val} {x : HVal} (hv : ShowsV P h v x) : Comes F (fun n => hCallable E n x) h (.ok (callableOf E v)) (Just h Eq) := by
  obtain ⟨N, hN⟩ := value_run v hs hv
  refine ⟨N, _, h, fun n hn => ?_, .refl hs, rfl, rfl⟩
  unfold hCallable
  rw [ok_bind' (hN n hn)]
  rfl

/-! ## New memory -/

/-- All new addresses are in the set. -/
def Fresh (P : Nat → Prop) (h : Heap) : Prop := ∀ b, h.nodes.length ≤ b → P b

theorem Fresh.turns {h h' : Heap} (hf : Fresh P h) (t : Turns F h h') : Fresh P h' := fun b hb => hf b (Nat.le_trans t.le hb)

/-- Without one address. -/
def Off (P : Nat → Prop) (a : Nat) : Nat → Prop := fun b => P b ∧ b ≠ a

theorem Spec.Shows.off {h : Heap} {g : Graph} {p : Ptr} (hg : Shows P h g p) : Shows (Off P h.nodes.length) h g p :=
  hg.frame g fun a hp ha => ⟨⟨hp, by omega⟩, rfl⟩
theorem Spec.ShowsV.off {h : Heap} {v : Val} {x : HVal} (hg : ShowsV P h v x) : ShowsV (Off P h.nodes.length) h v x :=
  hg.frame v fun a hp ha => ⟨⟨hp, by omega⟩, rfl⟩

theorem Spec.Shows.aside {h h' : Heap} {g : Graph} {p : Ptr} {a : Nat} (hg : Shows (Off P a) h g p) (t : Turns [a] h h') : Shows (Off P a) h' g p :=
  hg.frame g fun b hp hb => ⟨hp, (t.keep b hb (by simpa using hp.2)).2⟩
theorem Spec.ShowsV.aside {h h' : Heap} {v : Val} {x : HVal} {a : Nat} (hg : ShowsV (Off P a) h v x) (t : Turns [a] h h') : ShowsV (Off P a) h' v x :=
  hg.frame v fun b hp hb => ⟨hp, (t.keep b hb (by simpa using hp.2)).2⟩
theorem Spec.ShowsL.aside {h h' : Heap} {gs : List Graph} {ps : List Ptr} {a : Nat} (hg : ShowsL (Off P a) h gs ps) (t : Turns [a] h h') : ShowsL (Off P a) h' gs ps :=
  hg.frame gs fun b hp hb => ⟨hp, (t.keep b hb (by simpa using hp.2)).2⟩

/-- A node in the making: its subnodes do not contain it. -/
def Building (P : Nat → Prop) (h : Heap) (a : Nat) (x : HVal) (o : List Graph) : Prop := ∃ ps, look h a = some (x, ps) ∧ ShowsL (Off P a) h o ps

theorem Building.shows {h : Heap} {a : Nat} {x : HVal} {v : Val} {o : List Graph} (ho : Building P h a x o) (hp : P a) (hv : ShowsV P h v x) : Shows P h (.node v o) (some a) := by
  obtain ⟨ps, hl, hg⟩ := ho
  exact .mk hp hl hv (hg.frame o fun b hb _ => ⟨hb.1, rfl⟩)

theorem Building.turns {h h' : Heap} {a : Nat} {x : HVal} {o : List Graph} (ho : Building P h a x o) (t : Turns [] h h') : Building P h' a x o := by
  obtain ⟨ps, hl, hg⟩ := ho
  exact ⟨ps, by rw [(t.keep a (look_lt hl) nofun).2]; exact hl, hg.turns t⟩

theorem alloc_turns {h : Heap} (hs : Solid h) (x : HVal) :
    ∃ h', (HM.alloc x).run h = (.ok h.nodes.length, h') ∧ Turns [] h h' ∧ look h' h.nodes.length = some (x, []) ∧ h'.nodes.length = h.nodes.length + 1 ∧
      h'.nodes[h.nodes.length]? = some ⟨x, {}⟩ := by
  obtain ⟨h', hr, hs', hlen, hlk, hkeep⟩ := alloc_look hs x
  refine ⟨h', hr, ⟨hs', by omega, fun a ha _ => ⟨hkeep a ha, by rw [hlk]; unfold upd; rw [if_neg (by omega)]⟩⟩, by rw [hlk]; unfold upd; rw [if_pos rfl], hlen, ?_⟩
  cases hr
  simp

theorem new_own {h : Heap} (hs : Solid h) (x : HVal) :
    ∃ h', (hNew x).run h = (.ok (some h.nodes.length), h') ∧ Turns [] h h' ∧ Building P h' h.nodes.length x [] ∧ h'.nodes.length = h.nodes.length + 1 := by
  obtain ⟨h', hr, t, hl, hlen, _⟩ := alloc_turns hs x
  refine ⟨h', ?_, t, ⟨[], hl, .nil⟩, hlen⟩
  unfold hNew
  rw [ok_bind' hr]
  rfl

/-- What `Add` adds. -/
def addedNodes : Val → List Graph
  | .nil => []
  | v => [addedNode v]

theorem add_out (t v : Val) (o : List Graph) : ((Graph.node t o).add v).1 = .node t (o ++ addedNodes v) := by
  cases v with
  | nil => simp [Graph.add, addedNodes]
  | _ => rfl

theorem add_own {h : Heap} (hs : Solid h) (hf : Fresh (Off P a) h) {x y : HVal} {o : List Graph} {v : Val} (ho : Building P h a x o) (hv : ShowsV (Off P a) h v y) :
    ∃ r h', (hAdd grow (some a) y).run h = (.ok r, h') ∧ Turns [a] h h' ∧ Building P h' a x (o ++ addedNodes v) := by
  obtain ⟨ps, hl, hg⟩ := ho
  have fresh : ∀ v : Val, v ≠ .nil → ShowsV (Off P a) h v y → (hAdd grow (some a) y = do
      let n ← HM.alloc y
      let c ← HM.load (some a)
      let s ← HM.append grow c.out [some n]
      HM.putOut (some a) s
      pure (some n)) → addedNode v = .node v [] →
      ∃ r h', (hAdd grow (some a) y).run h = (.ok r, h') ∧ Turns [a] h h' ∧ Building P h' a x (o ++ [addedNode v]) := by
    intro v _ hv he hadd
    rw [he]
    obtain ⟨h', hr, t, l1, l2, hlen⟩ := alloc_append (grow := grow) (y := y) hs hl
    refine ⟨_, h', hr, t, _, l1, (hg.aside t).append (.cons (by rw [hadd]; nofun) ?_ .nil)⟩
    rw [hadd]
    exact .mk (hf _ (Nat.le_refl _)) l2 (hv.aside t) .nil
  rcases hv.cases with ⟨hn, rfl⟩ | ⟨g, p, rfl, rfl, hgp⟩
  · cases v with
    | nil =>
      refine ⟨none, h, rfl, .refl hs, ps, hl, ?_⟩
      simpa [addedNodes] using hg
    | graph g => exact absurd rfl (hn g)
    | _ => exact fresh _ nofun hv rfl rfl
  · cases g with
    | nil =>
      obtain rfl := hgp.null
      exact fresh _ nofun hv rfl rfl
    | node t1 o1 =>
      have hgp' := hgp
      obtain ⟨b, z, qs, rfl, _⟩ := hgp.parts
      obtain ⟨h', hr, c'⟩ := add_ptr (grow := grow) (b := b) hs hl
      exact ⟨_, h', hr, c'.turns, _, by rw [c'.look]; unfold upd; rw [if_pos rfl], (hg.aside c'.turns).append (.cons nofun (hgp'.aside c'.turns) .nil)⟩

/-- What `AddNodes` adds. -/
theorem addNodes_out (t : Val) (o : List Graph) (g : Graph) : (Graph.node t o).addNodes g = .node t (o ++ g.out) := by
  cases g with
  | nil => simp [Graph.addNodes, Graph.out]
  | node t' o' => rfl

theorem addNodes_own {h : Heap} (hs : Solid h) {x : HVal} {o : List Graph} {g : Graph} {p : Ptr} (ho : Building P h a x o) (hg : Shows (Off P a) h g p) :
    ∃ r h', (hAddNodes grow (some a) p).run h = (.ok r, h') ∧ Turns [a] h h' ∧ Building P h' a x (o ++ g.out) := by
  obtain ⟨ps, hl, hgo⟩ := ho
  cases g with
  | nil =>
    obtain rfl := hg.null
    exact ⟨none, h, rfl, .refl hs, ps, hl, by simpa [Graph.out] using hgo⟩
  | node w xs =>
    obtain ⟨b, z, qs, rfl, _, hlb, _, hxs⟩ := hg.parts
    obtain ⟨cb, hcb, hldb, _, _, hel⟩ := load_look hs hlb
    obtain ⟨h1, hr, c1⟩ := kids_append (grow := grow) hs hl qs (some a)
    obtain ⟨ca, hca, hlda, _, _, _⟩ := load_look hs hl
    refine ⟨some a, h1, ?_, c1.turns, ps ++ qs, by rw [c1.look]; unfold upd; rw [if_pos rfl], (hgo.aside c1.turns).append (hxs.aside c1.turns)⟩
    unfold hAddNodes
    dsimp only
    rw [ok_bind' hlda] at hr ⊢
    rw [ok_bind' hldb, ok_bind' (elems_run hel)]
    exact hr

theorem bracket_comes {h : Heap} (hs : Solid h) (hf : Fresh P h) {g : Graph} {p : Ptr} (hg : Shows P h g p) :
    Comes F (fun _ => hBracket grow p) h (.ok ((Graph.new (.str b!"[")).add (.graph g)).1) fun p g h' => Shows P h' g p := by
  obtain ⟨h1, hr1, t1, own1, hlen⟩ := new_own (P := P) hs (.val (.str b!"["))
  have hf1 : Fresh (Off P h.nodes.length) h1 := fun b hb => ⟨hf b (by omega), by omega⟩
  obtain ⟨r, h2, hr2, t2, own2⟩ := add_own (grow := grow) t1.solid hf1 own1 (.graph (hg.off.turns t1))
  refine ⟨0, some h.nodes.length, h2, fun _ _ => ?_, ?_, ?_⟩
  · unfold hBracket
    rw [ok_bind' hr1, ok_bind' hr2]
    rfl
  · refine (t1.trans t2 fun b hb => .inr ?_).mono nofun
    simp only [List.mem_singleton] at hb
    omega
  · rw [show Graph.new (.str b!"[") = .node (.str b!"[") [] from rfl, add_out]
    exact own2.shows (hf _ (Nat.le_refl _)) (.plain nofun)

/-! ## Trees from elsewhere -/

mutual
theorem put_run : ∀ (g : Graph) {h : Heap}, Whole g → Solid h → Fresh P h → ∃ p h', (hPut grow g).run h = (.ok p, h') ∧ Turns [] h h' ∧ Shows P h' g p
  | .nil, h, _, hs, _ => ⟨none, h, by unfold hPut; rfl, .refl hs, by unfold Shows; rfl⟩
  | .node v gs, h, hw, hs, hf => by
    unfold Whole at hw
    obtain ⟨x, h1, hr1, t1, hv1⟩ := putVal_run v hw.1 hs hf
    obtain ⟨ps, h2, hr2, t2, hl2⟩ := putAll_run gs hw.2 t1.solid (hf.turns t1)
    obtain ⟨h3, hr3, t3, hl3, hlen3, hc3⟩ := alloc_turns t2.solid x
    obtain ⟨h4, hr4, c4⟩ := append_look (grow := grow) t3.solid hl3 hc3 0 (Nat.le_refl _) ps
    have t13 : Turns [] h h3 := (t1.trans t2 .refl).trans t3 .refl
    have hlt : h.nodes.length ≤ h2.nodes.length := (t1.trans t2 .refl).le
    refine ⟨some h2.nodes.length, h4, ?_, t13.trans c4.turns fun b hb => .inr ?_, ?_⟩
    · unfold hPut
      rw [ok_bind' hr1, ok_bind' hr2, ok_bind' hr3]
      have : (HM.append grow {} ps >>= fun s => HM.putOut (some h2.nodes.length) s >>= fun _ => (Pure.pure (some h2.nodes.length) : HM Ptr)) =
          ((HM.append grow {} ps >>= fun s => HM.putOut (some h2.nodes.length) s) >>= fun _ => Pure.pure (some h2.nodes.length)) := by rw [hm_assoc]
      show (HM.append grow {} ps >>= fun s => HM.putOut (some h2.nodes.length) s >>= fun _ => (Pure.pure (some h2.nodes.length) : HM Ptr)).run h3 = _
      rw [this, ok_bind' hr4]
      rfl
    · simp only [List.mem_singleton] at hb
      omega
    · refine .mk (hf _ hlt) (by rw [c4.look]; unfold upd; rw [if_pos rfl]) ?_ ?_
      · exact (((hv1.turns t2).off.turns t3).aside c4.turns).frame v fun b hb _ => ⟨hb.1, rfl⟩
      · have : ShowsL (Off P h2.nodes.length) h2 gs ps := hl2.frame gs fun b hb hlt => ⟨⟨hb, by omega⟩, rfl⟩
        rw [List.take_zero, List.nil_append]
        exact ((this.turns t3).aside c4.turns).frame gs fun b hb _ => ⟨hb.1, rfl⟩
theorem putVal_run : ∀ (v : Val) {h : Heap}, WholeV v → Solid h → Fresh P h → ∃ x h', (hPutVal grow v).run h = (.ok x, h') ∧ Turns [] h h' ∧ ShowsV P h' v x
  | .graph g, h, hw, hs, hf => by
    unfold WholeV at hw
    obtain ⟨p, h', hr, t, hg⟩ := put_run g hw hs hf
    refine ⟨.ptr p, h', ?_, t, .graph hg⟩
    unfold hPutVal
    rw [ok_bind' hr]
    rfl
  | .nil, h, _, hs, _ | .str _, h, _, hs, _ | .bytes _, h, _, hs, _ | .bool _, h, _, hs, _ | .int _ _, h, _, hs, _ | .f64 _, h, _, hs, _ | .f32 _, h, _, hs, _
  | .other _, h, _, hs, _ => ⟨_, h, by unfold hPutVal; rfl, .refl hs, .plain nofun⟩
theorem putAll_run : ∀ (gs : List Graph) {h : Heap}, WholeL gs → Solid h → Fresh P h → ∃ ps h', (hPutAll grow gs).run h = (.ok ps, h') ∧ Turns [] h h' ∧ ShowsL P h' gs ps
  | [], h, _, hs, _ => ⟨[], h, by unfold hPutAll; rfl, .refl hs, .nil⟩
  | g :: gs, h, hw, hs, hf => by
    unfold WholeL at hw
    obtain ⟨p, h1, hr1, t1, hg1⟩ := put_run g hw.2.1 hs hf
    obtain ⟨ps, h2, hr2, t2, hl2⟩ := putAll_run gs hw.2.2 t1.solid (hf.turns t1)
    refine ⟨p :: ps, h2, ?_, t1.trans t2 .refl, .cons hw.1 (hg1.turns t2) hl2⟩
    unfold hPutAll
    rw [ok_bind' hr1, ok_bind' hr2]
    rfl
end

theorem Turns.any {h h' : Heap} (t : Turns [] h h') : Turns F h h' := t.mono nofun

theorem put_comes {h : Heap} (hs : Solid h) (hf : Fresh P h) {g : Graph} (hw : Whole g) : Comes F (fun _ => hPut grow g) h (.ok g) fun p g h' => Shows P h' g p := by
  obtain ⟨p, h', hr, t, hg⟩ := put_run (grow := grow) g hw hs hf
  exact ⟨0, p, h', fun _ _ => hr, t.any, hg⟩

theorem putVal_comes {h : Heap} (hs : Solid h) (hf : Fresh P h) {v : Val} (hw : WholeV v) : Comes F (fun _ => hPutVal grow v) h (.ok v) fun x v h' => ShowsV P h' v x := by
  obtain ⟨p, h', hr, t, hg⟩ := putVal_run (grow := grow) v hw hs hf
  exact ⟨0, p, h', fun _ _ => hr, t.any, hg⟩

/-! ## Selection -/

theorem nth_comes {key : Bytes} {h : Heap} {a : Nat} {c : HNode} {z : HVal} {ps : List Ptr} (hs : Solid h) (hc : h.nodes[a]? = some c)
    (hl : look h a = some (z, ps)) :
    ∀ (xs : List Graph) (ps2 : List Ptr) (i k : Nat), ps.drop i = ps2 → ShowsL P h xs ps2 →
      Comes F (fun n => hNthNamed E n c.out key k xs.length i) h (.ok (nthNamed E key k xs)) (Just h fun p g => Shows P h g p)
  | [], ps2, i, k, _, _ => by
    have : ∀ n, hNthNamed E n c.out key k 0 i = pure none := fun n => by unfold hNthNamed; rfl
    simp only [List.length_nil, this]
    exact .ret hs ⟨rfl, by unfold nthNamed Shows; rfl⟩
  | g :: gs, ps2, i, k, hps, ho => by
    obtain ⟨u, o1, p1, ps', rfl, rfl, hg1, hr⟩ := ho.parts
    obtain ⟨hpi, hps'⟩ := getElem?_of_drop hps
    rw [List.length_cons]
    unfold hNthNamed
    refine .step (fun _ => index_look hs hl hc hpi) ?_
    have e : Res.ok (nthNamed E key k (.node u o1 :: gs)) = (Res.ok ((Graph.node u o1).thisString E) >>= fun s =>
        .ok (if s = key then (match k with | 0 => .node u o1 | k + 1 => nthNamed E key k gs) else nthNamed E key k gs)) := by
      rw [nthNamed.eq_def]
      cases k <;> rfl
    rw [e]
    refine .bind (thisString_comes hs hg1) fun s s' h' t hq => ?_
    obtain ⟨rfl, rfl⟩ := hq
    by_cases hn : s = key
    · simp only [hn, ↓reduceIte]
      cases k with
      | zero => exact .ret hs ⟨rfl, hg1⟩
      | succ k => exact nth_comes hs hc hl gs ps' (i + 1) k hps' hr
    · simp only [hn, ↓reduceIte]
      exact nth_comes hs hc hl gs ps' (i + 1) k hps' hr

theorem equal_loop {key : Bytes} {a b : Nat} {c : HNode} {t : Val} {x z : HVal} {ps : List Ptr} (hba : b ≠ a) :
    ∀ (xs : List Graph) (h : Heap) (o : List Graph) (ps2 : List Ptr) (i : Nat), Solid h → h.nodes[b]? = some c → look h b = some (z, ps) → ps.drop i = ps2 →
      ShowsL (Off P a) h xs ps2 → Building P h a x o →
      Comes [a] (fun fuel => HM.range c.out (fun n => do
        let x ← HM.load n
        let t ← hstring E fuel x.this
        if key = t then do
          let _ ← hAddNodes grow (some a) n
          pure ()
        else pure ()) xs.length i) h (Graph.addEqualNodes.loop E key (.node t o) xs) fun _ g h' => ∃ o', g = .node t o' ∧ Building P h' a x o'
  | [], h, o, ps2, i, hs, _, _, _, _, ho => by
    unfold Graph.addEqualNodes.loop
    exact .ret hs ⟨o, rfl, ho⟩
  | g :: gs, h, o, ps2, i, hs, hc, hl, hps, hx, ho => by
    obtain ⟨u, o1, p1, ps', rfl, rfl, hg1, hr⟩ := hx.parts
    obtain ⟨hpi, hps'⟩ := getElem?_of_drop hps
    rw [List.length_cons]
    simp only [range_succ, hm_assoc]
    refine .step (fun _ => index_look hs hl hc hpi) ?_
    have hg1' := hg1
    obtain ⟨m, y, qs, rfl, _, hlb, hy, _⟩ := hg1.parts
    obtain ⟨d, hd, hldd, hthis, _, _⟩ := load_look hs hlb
    refine .step (fun _ => hldd) ?_
    rw [hthis]
    have e : Graph.addEqualNodes.loop E key (.node t o) (.node u o1 :: gs) = (Res.ok (vstr E u) >>= fun s =>
        Graph.addEqualNodes.loop E key (if key = s then (Graph.node t o).addNodes (.node u o1) else .node t o) gs) := by
      rw [Graph.addEqualNodes.loop]; rfl
    rw [e]
    refine .bind (string_comes hs hy) fun s s' h' t' hq => ?_
    obtain ⟨rfl, rfl⟩ := hq
    by_cases hn : key = s
    · simp only [hn, ↓reduceIte, hm_assoc, hm_pure]
      obtain ⟨r, h2, hr2, t2, own2⟩ := addNodes_own (grow := grow) hs ho hg1'
      rw [addNodes_out]
      have hk := t2.keep b (look_lt hl) (by simpa using hba)
      refine .go (fun _ => hr2) t2 .refl ?_
      rw [← hn]
      exact equal_loop hba gs h2 _ ps' (i + 1) t2.solid (hk.1.trans hc) (hk.2.trans hl) hps' (hr.aside t2) own2
    · simp only [hn, ↓reduceIte, hm_pure]
      exact equal_loop hba gs h' o ps' (i + 1) hs hc hl hps' hr ho

/-- The states of the loop over a path agree. -/
structure StShows (P : Nat → Prop) (h : Heap) (s : HPathSt) (t : PathSt) : Prop where
  ctx : Shows P h t.ctx s.ctx
  prev : Shows P h t.prev s.prev
  elem : s.elem = t.elem
  addRoot : s.addRoot = t.addRoot

theorem StShows.turns {h h' : Heap} {s : HPathSt} {t : PathSt} (hst : StShows P h s t) (tn : Turns [] h h') : StShows P h' s t :=
  ⟨hst.ctx.turns tn, hst.prev.turns tn, hst.elem, hst.addRoot⟩

theorem select_comes {h : Heap} (hs : Solid h) (hf : Fresh P h) {s : HPathSt} {t : PathSt} (hst : StShows P h s t) (hp : t.prev ≠ .nil) (ix : Int) :
    Comes F (fun n => hSelect grow E n s ix) h (selectNodes E t ix) fun p g h' =>
      match p, g with
      | none, none => True
      | some p, some g => Shows P h' g p
      | _, _ => False := by
  unfold hSelect selectNodes
  dsimp only
  by_cases h0 : wrap64 (ix + 1) < 0
  · simp only [h0, ↓reduceIte]
    exact .ret hs trivial
  · simp only [h0, ↓reduceIte]
    obtain ⟨h1, hr1, t1, own1, hlen⟩ := new_own (P := P) hs (.val (.str b!"{"))
    have hw : Within h F [h.nodes.length] := fun b hb => .inr (by simp only [List.mem_singleton] at hb; omega)
    refine .go (F' := [h.nodes.length]) (fun _ => hr1) t1.any hw ?_
    have hprev := hst.prev.off.turns t1
    have hf1 : Fresh (Off P h.nodes.length) h1 := fun b hb => ⟨hf b (by omega), by omega⟩
    cases hpv : t.prev with
    | nil => exact absurd hpv hp
    | node w xs =>
      rw [hpv] at hprev
      obtain ⟨b, z, ps, hb, hPb, hl, _, hxs⟩ := hprev.parts
      obtain ⟨c, hc, hld, _, hlenc, _⟩ := load_look t1.solid hl
      rw [hb]
      by_cases h2 : wrap64 (ix + 1) = 0
      · simp only [h2, ↓reduceIte]
        unfold hAddEqualNodes Graph.addEqualNodes
        simp only [hm_assoc]
        refine .step (fun _ => hld) ?_
        rw [hlenc, ← hxs.length, hst.elem]
        refine .bind (equal_loop hPb.2 (z := z) (ps := ps) xs h1 [] ps 0 t1.solid hc hl rfl hxs own1) fun _ g h' t' hq => ?_
        obtain ⟨o', rfl, own⟩ := hq
        exact .ret t'.solid (own.shows (hf _ (Nat.le_refl _)) (.plain nofun))
      · simp only [h2, ↓reduceIte]
        refine .step (fun _ => hld) ?_
        rw [hlenc, ← hxs.length, hst.elem]
        have e : Res.ok (some ((Graph.new (.str b!"{")).addNodes (nthNamed E t.elem ((wrap64 (ix + 1)).toNat - 1) (Graph.node w xs).out))) =
            (Res.ok (nthNamed E t.elem ((wrap64 (ix + 1)).toNat - 1) xs) >>= fun g => Res.ok (some ((Graph.node (.str b!"{") []).addNodes g))) := rfl
        rw [e]
        refine .bind (nth_comes t1.solid hc hl xs ps 0 _ rfl hxs) fun q g h' t' hq => ?_
        obtain ⟨rfl, hgq⟩ := hq
        obtain ⟨r, h2, hr2, t2, own2⟩ := addNodes_own (grow := grow) t'.solid own1 hgq
        refine .go (fun _ => hr2) t2 .refl ?_
        rw [addNodes_out]
        exact .ret t2.solid (own2.shows (hf _ (Nat.le_refl _)) (.plain nofun))

end Ogdl
