import Verif.Lemmas.Refine

/-!
# Each method of graph.go on memory that holds a tree
-/

namespace Ogdl
open Spec HM

variable {E : Ext} {grow : Nat → Nat → Nat} {fuel : Nat}

theorem Gives.map {m : HM α} {h : Heap} {r : Res β} {φ : β → δ} {Q : α → β → Heap → Prop} {Q' : α → δ → Heap → Prop}
    (hm : Gives m h r Q) (hq : ∀ a b h', Q a b h' → Q' a (φ b) h') : Gives m h (r >>= fun b => .ok (φ b)) Q' := by
  cases r with
  | ok b =>
    obtain ⟨a, h', hr, h1⟩ := hm
    exact ⟨a, h', hr, hq _ _ _ h1⟩
  | panic => exact hm
  | oof => trivial

theorem Gives.panicked {m : HM α} {f : α → HM γ} {h h' : Heap} {Q : γ → β → Heap → Prop} (hm : m.run h = (.panic, h')) :
    Gives (m >>= f) h (.panic : Res β) Q := ⟨h', panic_bind' hm⟩

/-! ## Adding -/

theorem kids_append {h : Heap} (hs : Solid h) {a : Nat} {x : HVal} {ps : List Ptr} (hl : look h a = some (x, ps)) (qs : List Ptr) (r : α) :
    ∃ h', (do let c ← HM.load (some a); let s ← HM.append grow c.out qs; HM.putOut (some a) s; pure r : HM α).run h = (.ok r, h') ∧
      Chg h h' a (x, ps ++ qs) := by
  obtain ⟨c, hc, hld, hx, hlen, hp⟩ := load_look hs hl
  obtain ⟨h', hr, hchg⟩ := append_look (grow := grow) hs hl hc ps.length (Nat.le_refl _) qs
  rw [List.take_length] at hchg
  refine ⟨h', ?_, hchg⟩
  rw [ok_bind' hld]
  rw [← hlen] at hr
  have : (HM.append grow c.out qs >>= fun s => HM.putOut (some a) s >>= fun _ => Pure.pure r) =
      ((HM.append grow c.out qs >>= fun s => HM.putOut (some a) s) >>= fun _ => Pure.pure r) := by rw [hm_assoc]
  rw [this, ok_bind' hr]
  rfl

theorem add_ptr {h : Heap} (hs : Solid h) {a b : Nat} {x : HVal} {ps : List Ptr} (hl : look h a = some (x, ps)) :
    ∃ h', (hAdd grow (some a) (.ptr (some b))).run h = (.ok (some b), h') ∧ Chg h h' a (x, ps ++ [some b]) := by
  unfold hAdd
  exact kids_append hs hl [some b] (some b)

/-- A new node is made and added. -/
theorem alloc_append {h : Heap} (hs : Solid h) {a : Nat} {x y : HVal} {ps : List Ptr} (hl : look h a = some (x, ps)) :
    ∃ h', (do let n ← HM.alloc y; let c ← HM.load (some a); let s ← HM.append grow c.out [some n]; HM.putOut (some a) s; pure (some n) : HM Ptr).run h =
        (.ok (some h.nodes.length), h') ∧ Turns [a] h h' ∧
      look h' a = some (x, ps ++ [some h.nodes.length]) ∧ look h' h.nodes.length = some (y, []) ∧ h'.nodes.length = h.nodes.length + 1 := by
  obtain ⟨h1, hr, hs1, hlen, hlk, hkeep⟩ := alloc_look hs y
  have hal := look_lt hl
  have hl1 : look h1 a = some (x, ps) := by rw [hlk]; unfold upd; rw [if_neg (by omega)]; exact hl
  obtain ⟨h2, hr2, hc⟩ := kids_append (grow := grow) hs1 hl1 [some h.nodes.length] (some h.nodes.length)
  refine ⟨h2, ?_, ?_, by rw [hc.look]; unfold upd; rw [if_pos rfl], ?_, by rw [hc.len, hlen]⟩
  · rw [ok_bind' hr]; exact hr2
  · refine ⟨hc.solid, by rw [hc.len]; omega, fun b hb hx => ?_⟩
    simp only [List.mem_singleton] at hx
    refine ⟨(hc.keep b hx).trans (hkeep b hb), ?_⟩
    rw [hc.look]
    unfold upd
    rw [if_neg hx, hlk]
    unfold upd
    rw [if_neg (by omega)]
  · rw [hc.look]
    unfold upd
    rw [if_neg (by omega), hlk]
    unfold upd
    rw [if_pos rfl]

theorem add_content {h : Heap} (hs : Solid h) {a : Nat} {x y : HVal} {v : Val} {ps : List Ptr} (hl : look h a = some (x, ps)) (hy : Content y v) (hv : v ≠ .nil) :
    ∃ h', (hAdd grow (some a) y).run h = (.ok (some h.nodes.length), h') ∧ Turns [a] h h' ∧
      look h' a = some (x, ps ++ [some h.nodes.length]) ∧ look h' h.nodes.length = some (y, []) ∧ h'.nodes.length = h.nodes.length + 1 := by
  have hx := alloc_append (grow := grow) (y := y) hs hl
  cases hy with
  | val hg =>
    cases v <;> first | exact absurd rfl hv | (unfold hAdd; exact hx)
  | nil => unfold hAdd; exact hx

theorem addNodesVal_content {h : Heap} (hs : Solid h) {a : Nat} {x y : HVal} {v : Val} {ps : List Ptr} (hl : look h a = some (x, ps)) (hy : Content y v) (hv : v ≠ .nil) :
    ∃ h', (hAddNodesVal grow (some a) y).run h = (.ok (some h.nodes.length), h') ∧ Turns [a] h h' ∧
      look h' a = some (x, ps ++ [some h.nodes.length]) ∧ look h' h.nodes.length = some (y, []) ∧ h'.nodes.length = h.nodes.length + 1 := by
  have hx := alloc_append (grow := grow) (y := y) hs hl
  cases hy with
  | val hg =>
    cases v <;> first | exact absurd rfl hv | (unfold hAddNodesVal; exact hx)
  | nil => unfold hAddNodesVal; exact hx

/-- The tree at a node that got a new subnode. -/
theorem grown {h h' : Heap} {a : Nat} {x y : HVal} {t v : Val} {gs : List Graph} {ps : List Ptr} {F : List Nat} (tn : Turns [a] h h') (hx : Content x t) (hy : Content y v)
    (hg : HoldsL h gs ps F) (ha : a ∉ F) (hal : a < h.nodes.length)
    (h1 : look h' a = some (x, ps ++ [some h.nodes.length])) (h2 : look h' h.nodes.length = some (y, [])) :
    Holds h' (.node t (gs ++ [.node v []])) (some a) (a :: (F ++ [h.nodes.length])) := by
  have hF := hg.lt gs
  refine Spec.Holds.mk h1 hx (Spec.HoldsL.append (hg.turns tn fun b hb => ?_) (Spec.HoldsL.one (Spec.Holds.mk h2 hy Spec.HoldsL.nil nofun)) fun b hb hx => ?_) ?_
  · simp only [List.mem_singleton]
    rintro rfl
    exact ha hb
  · simp only [List.mem_singleton] at hx
    have := hF b hb
    omega
  · simp only [List.mem_append, List.mem_singleton, not_or]
    exact ⟨ha, by omega⟩

theorem addedNode_content {y : HVal} {v : Val} (hy : Content y v) : addedNode v = .node v [] := by
  cases hy with
  | val hg => cases v <;> first | rfl | exact absurd rfl (hg _)
  | nil => rfl

/-! ## Copy -/

theorem range_succ {s : Slice} {f : Ptr → HM Unit} {k i : Nat} : HM.range s f (k + 1) i = HM.index s i >>= fun p => f p >>= fun _ => HM.range s f k (i + 1) := rfl

/-- All elements of a list of subnodes in turn. -/
theorem getElem?_of_drop {ps : List Ptr} {i : Nat} {p : Ptr} {rest : List Ptr} (h : ps.drop i = p :: rest) : ps[i]? = some p ∧ ps.drop (i + 1) = rest := by
  constructor
  · have := congrArg (·[0]?) h
    simpa using this
  · rw [← List.tail_drop, h]
    rfl

theorem heightL_cons (g : Graph) (gs : List Graph) : Graph.heightL (g :: gs) = max g.height (Graph.heightL gs) := by
  rw [Graph.heightL]

theorem height_node (t : Val) (o : List Graph) : (Graph.node t o).height = Graph.heightL o + 1 := by rw [Graph.height]

theorem copy_loop {f : Nat} {s : Slice} {a b : Nat} {c : HNode}
    (ih : ∀ (x : HVal) (t : Val) (xs : List Graph) (h : Heap) (n m : Nat) (ps : List Ptr) (F : List Nat), Graph.heightL xs + 1 < f → Solid h → look h n = some (x, ps) →
      Holds h (.node t xs) (some m) F → n ∉ F →
      Gives (hCopy grow f (some n) (some m)) h (Graph.copyList xs) fun _ l h' => ∃ ns N, Turns [n] h h' ∧ look h' n = some (x, ps ++ ns) ∧
        HoldsL h' l ns N ∧ ∀ k ∈ N, h.nodes.length ≤ k) :
    ∀ (xs : List Graph) (h : Heap) (x z : HVal) (qs ps ps2 : List Ptr) (F2 : List Nat) (i : Nat), Graph.heightL xs < f → 0 < f → Solid h → s = c.out →
      h.nodes[b]? = some c → look h b = some (z, ps) → ps.drop i = ps2 → HoldsL h xs ps2 F2 → a ∉ F2 → b ≠ a → look h a = some (x, qs) →
      Gives (HM.range s (fun n => do
        let y ← HM.load n
        let nn ← hAdd grow (some a) y.this
        hCopy grow f nn n) xs.length i) h (Graph.copyList xs) fun _ l h' => ∃ ns N, Turns [a] h h' ∧ look h' a = some (x, qs ++ ns) ∧
          HoldsL h' l ns N ∧ ∀ k ∈ N, h.nodes.length ≤ k
  | [], h, x, z, qs, ps, ps2, F2, i, _, _, hs, _, _, _, _, _, _, _, ha => by
    unfold Graph.copyList
    exact .pure ⟨[], [], .refl hs, by rw [List.append_nil]; exact ha, Spec.HoldsL.nil, nofun⟩
  | g :: gs, h, x, z, qs, ps, ps2, F2, i, hf, hf0, hs, hse, hc, hb, hps, hl, haF, hba, ha => by
    unfold HoldsL at hl
    obtain ⟨p, ps', F1, F2, rfl, rfl, hd, hg, hr⟩ := hl
    obtain ⟨hpi, hps'⟩ := getElem?_of_drop hps
    rw [heightL_cons] at hf
    have hidx : (HM.index s i).run h = (.ok p, h) := by rw [hse]; exact index_look hs hb hc hpi
    rw [List.length_cons, range_succ]
    refine .step hidx ?_
    simp only [hm_assoc]
    cases g with
    | nil =>
      unfold Holds at hg
      rw [hg.1]
      unfold Graph.copyList
      exact .panicked load_none
    | node t o =>
      obtain ⟨m, y, pm, Fm, rfl, rfl, hmF, hlm, hcy, hom⟩ := hg.parts
      obtain ⟨cm, hcm, hldm, hthis, _, _⟩ := load_look hs hlm
      refine .step hldm ?_
      rw [hthis]
      rw [height_node] at hf
      have hfrest : Graph.heightL gs < f := by omega
      have haF2 : a ∉ F2 := fun hx => haF (List.mem_append_right _ hx)
      by_cases ht : t = .nil
      · subst ht
        cases hcy
        have h1 : (hAdd grow (some a) (.val .nil)).run h = (.ok none, h) := by unfold hAdd; rfl
        refine .step h1 ?_
        have h2 : (hCopy grow f none (some m)).run h = (.ok (), h) := by
          cases f with
          | zero => omega
          | succ f => unfold hCopy; rfl
        refine .step h2 ?_
        rw [show Graph.copyList (.node .nil o :: gs) = Graph.copyList gs by rw [Graph.copyList]]
        exact copy_loop ih gs h x z qs ps ps' F2 (i + 1) hfrest hf0 hs hse hc hb hps' hr haF2 hba ha
      · obtain ⟨h1, hr1, t1, la1, ln1, hlen1⟩ := add_content (grow := grow) hs ha hcy ht
        refine .step hr1 ?_
        have hmlt := look_lt hlm
        have halt := look_lt ha
        have hnm : h.nodes.length ∉ (m :: Fm) := fun hx => by
          have := hg.lt _ _ hx
          omega
        have hmem : ∀ k ∈ m :: Fm, k ∉ [a] := fun k hk hx => by
          simp only [List.mem_singleton] at hx
          subst hx
          exact haF (List.mem_append_left _ hk)
        have step2 := ih y t o h1 h.nodes.length m [] (m :: Fm) (by omega) t1.solid ln1 (hg.turns t1 hmem) hnm
        have hcl : Graph.copyList (.node t o :: gs) = (do
            let l ← Graph.copyList o
            let rest ← Graph.copyList gs
            .ok (.node t l :: rest)) := by
          have := addedNode_content hcy
          cases t <;> first | exact absurd rfl ht | (rw [Graph.copyList] <;> first | (rw [this]; rfl) | nofun)
        rw [hcl]
        refine .bind step2 ?_
        rintro _ l h2 ⟨ns, N, t2, ln2, hl2, hN⟩
        simp only [List.nil_append] at ln2
        have t12 : Turns [a] h h2 := t1.trans t2 fun k hk => .inr (by simp only [List.mem_singleton] at hk; omega)
        have hkb := t12.keep b (look_lt hb) (by simpa using hba)
        have la2 : look h2 a = some (x, qs ++ [some h.nodes.length]) := by
          rw [(t2.keep a (by omega) (by simp; omega)).2]; exact la1
        have hrest : HoldsL h2 gs ps' F2 := hr.turns t12 fun k hk hx => by
          simp only [List.mem_singleton] at hx
          subst hx
          exact haF2 hk
        refine .map (copy_loop ih gs h2 x z (qs ++ [some h.nodes.length]) ps ps' F2 (i + 1) hfrest hf0 t2.solid hse (hkb.1.trans hc) (hkb.2.trans hb) hps' hrest haF2 hba la2) ?_
        rintro _ rest h3 ⟨ns3, N3, t3, la3, hl3, hN3⟩
        have hle12 := t12.le
        have hlt2 : h.nodes.length < h2.nodes.length := by have := t2.le; omega
        refine ⟨some h.nodes.length :: ns3, (h.nodes.length :: N) ++ N3, t12.trans t3 .refl, by rw [la3, List.append_assoc]; rfl, ?_, ?_⟩
        · have hnode : Holds h2 (.node t l) (some h.nodes.length) (h.nodes.length :: N) :=
            Spec.Holds.mk ln2 hcy hl2 fun hx => by have := hN _ hx; omega
          refine Spec.HoldsL.cons (hnode.turns t3 fun k hk hx => ?_) hl3 fun k hk hx => ?_
          · simp only [List.mem_singleton] at hx
            subst hx
            rcases List.mem_cons.1 hk with hk | hk
            · omega
            · have := hN _ hk; omega
          · have h1' := hnode.lt _ k hk
            have h2' := hN3 k hx
            omega
        · intro k hk
          rcases List.mem_append.1 hk with hk | hk
          · rcases List.mem_cons.1 hk with rfl | hk
            · exact Nat.le_refl _
            · have := hN _ hk; omega
          · have := hN3 _ hk; omega

theorem copy_holds : ∀ (f : Nat) (x : HVal) (t : Val) (xs : List Graph) (h : Heap) (n m : Nat) (ps : List Ptr) (F : List Nat), Graph.heightL xs + 1 < f → Solid h →
      look h n = some (x, ps) → Holds h (.node t xs) (some m) F → n ∉ F →
      Gives (hCopy grow f (some n) (some m)) h (Graph.copyList xs) fun _ l h' => ∃ ns N, Turns [n] h h' ∧ look h' n = some (x, ps ++ ns) ∧
        HoldsL h' l ns N ∧ ∀ k ∈ N, h.nodes.length ≤ k
  | 0, _, _, _, _, _, _, _, _, hf, _, _, _, _ => by omega
  | f + 1, x, t, xs, h, n, m, ps, F, hf, hs, hn, hm, hnF => by
    obtain ⟨m', y, pm, Fm, e, rfl, hmF, hlm, hcy, hom⟩ := hm.parts
    cases e
    obtain ⟨cm, hcm, hldm, hthis, hlen, _⟩ := load_look hs hlm
    unfold hCopy
    dsimp only
    refine .step hldm ?_
    rw [hlen, ← hom.length]
    exact copy_loop (copy_holds f) xs h x y ps pm pm Fm 0 (by omega) (by omega) hs rfl hcm hlm (by rw [List.drop_zero]) hom
      (fun hx => hnF (List.mem_cons_of_mem _ hx)) (fun e => hnF (by rw [e]; exact List.mem_cons_self ..)) hn

/-! ## Clone -/

theorem clone_loop {f : Nat} {s : Slice} {a b : Nat} {c : HNode}
    (ih : ∀ (g : Graph) (h : Heap) (p : Ptr) (F : List Nat), g.height < f → Solid h → Holds h g p F →
      ∃ q h' N, (hClone grow f p).run h = (.ok q, h') ∧ Turns [] h h' ∧ Holds h' g q N ∧ ∀ k ∈ N, h.nodes.length ≤ k) :
    ∀ (xs : List Graph) (h : Heap) (x z : HVal) (qs ps ps2 : List Ptr) (F2 : List Nat) (i : Nat), Graph.heightL xs < f → Solid h → s = c.out →
      h.nodes[b]? = some c → look h b = some (z, ps) → ps.drop i = ps2 → HoldsL h xs ps2 F2 → a ∉ F2 → b ≠ a → look h a = some (x, qs) →
      ∃ h' ns N, (HM.range s (fun n => do
        let m ← hClone grow f n
        let c ← HM.load (some a)
        let s ← HM.append grow c.out [m]
        HM.putOut (some a) s) xs.length i).run h = (.ok (), h') ∧ Turns [a] h h' ∧ look h' a = some (x, qs ++ ns) ∧
          HoldsL h' xs ns N ∧ ∀ k ∈ N, h.nodes.length ≤ k
  | [], h, x, z, qs, ps, ps2, F2, i, _, hs, _, _, _, _, _, _, _, ha => by
    exact ⟨h, [], [], rfl, .refl hs, by rw [List.append_nil]; exact ha, Spec.HoldsL.nil, nofun⟩
  | g :: gs, h, x, z, qs, ps, ps2, F2, i, hf, hs, hse, hc, hb, hps, hl, haF, hba, ha => by
    unfold HoldsL at hl
    obtain ⟨p, ps', F1, F2, rfl, rfl, hd, hg, hr⟩ := hl
    obtain ⟨hpi, hps'⟩ := getElem?_of_drop hps
    rw [heightL_cons] at hf
    have hidx : (HM.index s i).run h = (.ok p, h) := by rw [hse]; exact index_look hs hb hc hpi
    have haF2 : a ∉ F2 := fun hx => haF (List.mem_append_right _ hx)
    obtain ⟨q, h1, N1, hr1, t1, hq1, hN1⟩ := ih g h p F1 (by omega) hs hg
    have halt := look_lt ha
    have ha1 : look h1 a = some (x, qs) := by rw [(t1.keep a halt nofun).2]; exact ha
    obtain ⟨h2, hr2, c2⟩ := kids_append (grow := grow) t1.solid ha1 [q] ()
    have t12 : Turns [a] h h2 := (t1.mono (F' := [a]) nofun).trans c2.turns .refl
    have hkb := t12.keep b (look_lt hb) (by simpa using hba)
    have hrest : HoldsL h2 gs ps' F2 := hr.turns t12 fun k hk hx => by
      simp only [List.mem_singleton] at hx
      subst hx
      exact haF2 hk
    have la2 : look h2 a = some (x, qs ++ [q]) := by rw [c2.look]; unfold upd; rw [if_pos rfl]
    obtain ⟨h3, ns, N, hr3, t3, la3, hl3, hN3⟩ := clone_loop ih gs h2 x z (qs ++ [q]) ps ps' F2 (i + 1) (by omega) c2.solid hse (hkb.1.trans hc) (hkb.2.trans hb)
      hps' hrest haF2 hba la2
    have hle := t12.le
    have hle1 := t1.le
    have hlen2 := c2.len
    have hNlt := hq1.lt
    refine ⟨h3, q :: ns, N1 ++ N, ?_, t12.trans t3 .refl, by rw [la3, List.append_assoc]; rfl, ?_, ?_⟩
    · rw [List.length_cons, range_succ, ok_bind' hidx]
      simp only [hm_assoc]
      rw [ok_bind' hr1]
      have : ∀ k : HM Unit, (do let c ← HM.load (some a); let s ← HM.append grow c.out [q]; HM.putOut (some a) s; k) =
          ((do let c ← HM.load (some a); let s ← HM.append grow c.out [q]; HM.putOut (some a) s; pure ()) >>= fun _ => k) := by
        intro k
        simp only [hm_assoc, hm_pure]
      rw [this, ok_bind' hr2]
      exact hr3
    · have hne : ∀ k ∈ N1, k ∉ [a] := fun k hk hx => by
        simp only [List.mem_singleton] at hx
        have := hN1 k hk
        omega
      refine Spec.HoldsL.cons ((hq1.turns c2.turns hne).turns t3 hne) hl3 fun k hk hx => ?_
      have h1' := hNlt k hk
      have h2' := hN3 k hx
      omega
    · intro k hk
      rcases List.mem_append.1 hk with hk | hk
      · exact hN1 k hk
      · have := hN3 k hk; omega

theorem clone_holds : ∀ (f : Nat) (g : Graph) (h : Heap) (p : Ptr) (F : List Nat), g.height < f → Solid h → Holds h g p F →
      ∃ q h' N, (hClone grow f p).run h = (.ok q, h') ∧ Turns [] h h' ∧ Holds h' g q N ∧ ∀ k ∈ N, h.nodes.length ≤ k
  | 0, _, _, _, _, hf, _, _ => by omega
  | f + 1, .nil, h, p, F, hf, hs, hh => by
    unfold Holds at hh
    obtain ⟨rfl, rfl⟩ := hh
    refine ⟨none, h, [], ?_, .refl hs, ?_, nofun⟩
    · unfold hClone; rfl
    · unfold Holds; exact ⟨rfl, rfl⟩
  | f + 1, .node t o, h, p, F, hf, hs, hh => by
    obtain ⟨b, x, ps, F', rfl, rfl, hbF, hlb, hcx, ho⟩ := hh.parts
    rw [height_node] at hf
    have hblt := look_lt hlb
    obtain ⟨h1, hr1, hs1, hlen1, hlk1, hkeep1⟩ := alloc_look hs (.val .nil)
    have lb1 : look h1 b = some (x, ps) := by rw [hlk1]; unfold upd; rw [if_neg (by omega)]; exact hlb
    have t1 : Turns [] h h1 := ⟨hs1, by omega, fun k hk _ => ⟨hkeep1 k hk, by rw [hlk1]; unfold upd; rw [if_neg (by omega)]⟩⟩
    have la1 : look h1 h.nodes.length = some (.val .nil, []) := by rw [hlk1]; unfold upd; rw [if_pos rfl]
    obtain ⟨c, hc, hld, hthis, hlen, _⟩ := load_look hs1 lb1
    obtain ⟨h2, hr2, c2⟩ := putThis_look hs1 la1 x
    have hbn : b ≠ h.nodes.length := by omega
    have hkb := c2.turns.keep b (by omega) (by simpa using hbn)
    have la2 : look h2 h.nodes.length = some (x, []) := by rw [c2.look]; unfold upd; rw [if_pos rfl]
    have hnF : h.nodes.length ∉ F' := fun hx => by have := ho.lt _ _ hx; omega
    have ho2 : HoldsL h2 o ps F' := (ho.turns t1 fun _ _ => nofun).turns c2.turns fun k hk hx => by
      simp only [List.mem_singleton] at hx
      subst hx
      exact hnF hk
    obtain ⟨h3, ns, N, hr3, t3, la3, hl3, hN3⟩ := clone_loop (clone_holds f) (s := c.out) (c := c) (b := b) (a := h.nodes.length) o h2 x x [] ps ps F' 0
      (by omega) c2.solid rfl (hkb.1.trans hc) (hkb.2.trans lb1) rfl ho2 hnF hbn la2
    have hlen2 := c2.len
    simp only [List.nil_append] at la3
    refine ⟨some h.nodes.length, h3, h.nodes.length :: N, ?_, ?_, Spec.Holds.mk la3 hcx hl3 fun hx => ?_, ?_⟩
    · unfold hClone
      dsimp only
      rw [ok_bind' hr1, ok_bind' hld, hthis, ok_bind' hr2, hlen, ← ho.length, ok_bind' hr3]
      rfl
    · refine ⟨t3.solid, by have := t3.le; omega, fun k hk _ => ?_⟩
      have e1 := t1.keep k hk nofun
      have e2 := c2.turns.keep k (by omega) (by simp; omega)
      have e3 := t3.keep k (by omega) (by simp; omega)
      exact ⟨e3.1.trans (e2.1.trans e1.1), e3.2.trans (e2.2.trans e1.2)⟩
    · have := hN3 _ hx; omega
    · intro k hk
      rcases List.mem_cons.1 hk with rfl | hk
      · exact Nat.le_refl _
      · have := hN3 k hk; omega

/-! ## Looking for a name -/

theorem search_succ {s : Slice} {f : Ptr → HM (Option α)} {k i : Nat} : HM.search s f (k + 1) i = HM.index s i >>= fun p => f p >>= fun r =>
    match r with
    | some a => pure (some a)
    | none => HM.search s f k (i + 1) := rfl

theorem search_holds {s : Slice} {b : Nat} {c : HNode} {nm : Bytes} {h : Heap} {z : HVal} {ps : List Ptr} (hs : Solid h) (hse : s = c.out) (hc : h.nodes[b]? = some c)
    (hb : look h b = some (z, ps)) :
    ∀ (xs : List Graph) (ps2 : List Ptr) (F2 : List Nat) (i : Nat), ps.drop i = ps2 → HoldsL h xs ps2 F2 →
      Gives (HM.search s (fun n => do
        let x ← HM.load n
        let t ← hstring E fuel x.this
        if nm = t then pure (some n) else pure none) xs.length i) h (findName E nm xs) fun r j h' => h' = h ∧
          match j with
          | none => r = none
          | some j => ∃ p, ps2[j]? = some p ∧ r = some p
  | [], ps2, F2, i, _, _ => by
    unfold findName
    exact .pure ⟨rfl, rfl⟩
  | g :: gs, ps2, F2, i, hps, hl => by
    unfold HoldsL at hl
    obtain ⟨p, ps', F1, F2, rfl, rfl, hd, hg, hr⟩ := hl
    obtain ⟨hpi, hps'⟩ := getElem?_of_drop hps
    have hidx : (HM.index s i).run h = (.ok p, h) := by rw [hse]; exact index_look hs hb hc hpi
    rw [List.length_cons, search_succ]
    refine .step hidx ?_
    simp only [hm_assoc]
    cases g with
    | nil =>
      unfold Holds at hg
      rw [hg.1]
      unfold findName
      exact .panicked load_none
    | node t o =>
      obtain ⟨m, y, pm, Fm, rfl, rfl, hmF, hlm, hcy, hom⟩ := hg.parts
      obtain ⟨cm, hcm, hldm, hthis, _, _⟩ := load_look hs hlm
      refine .step hldm (.step (by rw [hthis]; exact hstring_content hcy fuel h) ?_)
      rw [findName]
      by_cases hx : nm = vstr E t
      · simp only [hx, ↓reduceIte, hm_pure]
        exact .pure ⟨rfl, some m, rfl, rfl⟩
      · simp only [hx, ↓reduceIte, hm_pure]
        refine .map (search_holds hs hse hc hb gs ps' F2 (i + 1) hps' hr) ?_
        rintro r j h' ⟨e, hj⟩
        refine ⟨e, ?_⟩
        cases j with
        | none => exact hj
        | some j => exact hj

theorem findName_lt {nm : Bytes} : ∀ {xs : List Graph} {j : Nat}, findName E nm xs = .ok (some j) → ∃ t o, xs[j]? = some (.node t o)
  | [], j, h => by simp [findName] at h
  | .nil :: _, j, h => by simp [findName] at h
  | .node t o :: ns, j, h => by
    rw [findName] at h
    by_cases hx : nm = vstr E t
    · simp only [hx, ↓reduceIte, Res.ok.injEq, Option.some.injEq] at h
      subst h
      exact ⟨t, o, rfl⟩
    · simp only [hx, ↓reduceIte] at h
      cases hr : findName E nm ns with
      | panic => rw [hr] at h; cases h
      | oof => rw [hr] at h; cases h
      | ok r =>
        rw [hr] at h
        simp only [Res.ok_bind, Res.ok.injEq] at h
        cases r with
        | none => cases h
        | some k =>
          simp only [Option.map_some, Option.some.injEq] at h
          subst h
          obtain ⟨t', o', e⟩ := findName_lt hr
          exact ⟨t', o', by simpa using e⟩

end Ogdl
