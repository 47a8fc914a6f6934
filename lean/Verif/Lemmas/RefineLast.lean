import Verif.Lemmas.RefineMore

/-!
# Substitute, Merge and Set on memory that holds a tree
-/

namespace Ogdl
open Spec HM

variable {E : Ext} {grow : Nat → Nat → Nat} {fuel : Nat}

/-! ## Substitute -/

theorem substitute_loop {f : Nat} {sl : Slice} {b : Nat} {c : HNode} {s : Bytes} {y : HVal} {v : Val} (hy : Content y v)
    (ih : ∀ (x : HVal) (o : List Graph) (h : Heap) (n : Nat) (ps : List Ptr) (F : List Nat), Graph.heightL o + 1 < f → Solid h → look h n = some (x, ps) →
      HoldsL h o ps F → n ∉ F →
      Gives (hSubstitute E fuel s y f (some n)) h (Graph.substituteList E s v o) fun _ o' h' => Turns F h h' ∧ HoldsL h' o' ps F) :
    ∀ (xs : List Graph) (h : Heap) (z : HVal) (ps ps2 : List Ptr) (F2 : List Nat) (i : Nat), Graph.heightL xs < f → Solid h → sl = c.out →
      h.nodes[b]? = some c → look h b = some (z, ps) → ps.drop i = ps2 → HoldsL h xs ps2 F2 → b ∉ F2 →
      Gives (HM.range sl (fun n => do
        let x ← HM.load n
        let t ← hstring E fuel x.this
        if t = s then HM.putThis n y
        hSubstitute E fuel s y f n) xs.length i) h (Graph.substituteList E s v xs) fun _ xs' h' => Turns F2 h h' ∧ HoldsL h' xs' ps2 F2
  | [], h, z, ps, ps2, F2, i, _, hs, _, _, _, _, hl, _ => by
    unfold Graph.substituteList
    exact .pure ⟨.refl hs, hl⟩
  | g :: gs, h, z, ps, ps2, F2, i, hf, hs, hse, hc, hb, hps, hl, hbF => by
    unfold HoldsL at hl
    obtain ⟨p, ps', F1, F2, rfl, rfl, hd, hg, hr⟩ := hl
    obtain ⟨hpi, hps'⟩ := getElem?_of_drop hps
    rw [heightL_cons] at hf
    have hidx : (HM.index sl i).run h = (.ok p, h) := by rw [hse]; exact index_look hs hb hc hpi
    rw [List.length_cons, range_succ]
    refine .step hidx ?_
    simp only [hm_assoc]
    cases g with
    | nil =>
      unfold Holds at hg
      rw [hg.1]
      unfold Graph.substituteList
      exact .panicked load_none
    | node t o =>
      obtain ⟨m, x, pm, Fm, rfl, rfl, hmF, hlm, hcx, hom⟩ := hg.parts
      obtain ⟨cm, hcm, hldm, hthis, _, _⟩ := load_look hs hlm
      refine .step hldm (.step (by rw [hthis]; exact hstring_content hcx fuel h) ?_)
      rw [height_node] at hf
      rw [Graph.substituteList]
      simp only [List.mem_append, not_or] at hbF
      have hbm : b ∉ [m] := by
        intro hx
        simp only [List.mem_singleton] at hx
        exact hbF.1 (by rw [hx]; exact List.mem_cons_self ..)
      -- what remains once the content of the subnode is as it should be
      have rest : ∀ (h1 : Heap) (x' : HVal) (t' : Val), Turns [m] h h1 → look h1 m = some (x', pm) → Content x' t' →
          Gives (hSubstitute E fuel s y f (some m) >>= fun _ => HM.range sl (fun n => do
            let x ← HM.load n
            let t ← hstring E fuel x.this
            if t = s then HM.putThis n y
            hSubstitute E fuel s y f n) gs.length (i + 1)) h1 (do
              let o' ← Graph.substituteList E s v o
              let ns' ← Graph.substituteList E s v gs
              .ok (.node t' o' :: ns')) fun _ xs' h' => Turns ((m :: Fm) ++ F2) h h' ∧ HoldsL h' xs' (some m :: ps') ((m :: Fm) ++ F2) := by
        intro h1 x' t' t1 hl1 hc1
        have hmnot : ∀ k ∈ Fm, k ∉ [m] := fun k hk hx => by
          simp only [List.mem_singleton] at hx
          subst hx
          exact hmF hk
        refine .bind (ih x' o h1 m pm Fm (by omega) t1.solid hl1 (hom.turns t1 hmnot) hmF) ?_
        rintro _ o' h2 ⟨t2, hl2⟩
        have t12 : Turns (m :: Fm) h h2 := (t1.mono (by simp)).trans (t2.mono fun k hk => List.mem_cons_of_mem m hk) .refl
        have hkb := t12.keep b (look_lt hb) hbF.1
        have hrest := hr.turns t12 fun k hk hx => hd k hx hk
        refine .map (substitute_loop hy ih gs h2 z ps ps' F2 (i + 1) (by omega) t2.solid hse (hkb.1.trans hc) (hkb.2.trans hb) hps' hrest hbF.2) ?_
        rintro _ ns' h3 ⟨t3, hl3⟩
        refine ⟨(t12.mono fun k hk => List.mem_append_left _ hk).trans (t3.mono fun k hk => List.mem_append_right _ hk) .refl, ?_⟩
        have hm2 : look h2 m = some (x', pm) := ((t2.keep m (look_lt hl1) hmF).2).trans hl1
        exact Spec.HoldsL.cons ((Spec.Holds.mk hm2 hc1 hl2 hmF).turns t3 hd) hl3 hd
      by_cases hts : vstr E t = s
      · simp only [hts, ↓reduceIte, hm_assoc]
        obtain ⟨h1, hr1, c1⟩ := putThis_look hs hlm y
        refine .step hr1 ?_
        exact rest h1 y v c1.turns (by rw [c1.look]; unfold upd; rw [if_pos rfl]) hy
      · simp only [hts, ↓reduceIte]
        exact rest h x t (.refl hs) hlm hcx

theorem substitute_kids {s : Bytes} {y : HVal} {v : Val} (hy : Content y v) :
    ∀ (f : Nat) (x : HVal) (o : List Graph) (h : Heap) (n : Nat) (ps : List Ptr) (F : List Nat), Graph.heightL o + 1 < f → Solid h → look h n = some (x, ps) →
      HoldsL h o ps F → n ∉ F →
      Gives (hSubstitute E fuel s y f (some n)) h (Graph.substituteList E s v o) fun _ o' h' => Turns F h h' ∧ HoldsL h' o' ps F
  | 0, _, _, _, _, _, _, hf, _, _, _, _ => by omega
  | f + 1, x, o, h, n, ps, F, hf, hs, hn, ho, hnF => by
    obtain ⟨c, hc, hld, hthis, hlen, _⟩ := load_look hs hn
    unfold hSubstitute
    dsimp only
    refine .step hld ?_
    rw [hlen, ← ho.length]
    exact substitute_loop hy (substitute_kids hy f) o h x ps ps F 0 (by omega) hs rfl hc hn rfl ho hnF

theorem substitute_holds {h : Heap} (hs : Solid h) {g : Graph} {p : Ptr} {F : List Nat} (hg : Holds h g p F) {s : Bytes} {y : HVal} {v : Val} (hy : Content y v)
    {f : Nat} (hf : g.height < f) :
    Gives (hSubstitute E fuel s y f p) h (Graph.substitute E s v g) fun _ g' h' => Turns F h h' ∧ Holds h' g' p F := by
  cases g with
  | nil =>
    unfold Holds at hg
    obtain ⟨rfl, rfl⟩ := hg
    cases f with
    | zero => omega
    | succ f =>
      unfold hSubstitute Graph.substitute
      exact .pure ⟨.refl hs, by unfold Holds; exact ⟨rfl, rfl⟩⟩
  | node t o =>
    obtain ⟨a, x, ps, F', rfl, rfl, haF, hl, hc, ho⟩ := hg.parts
    rw [height_node] at hf
    rw [Graph.substitute]
    refine .map (substitute_kids hy f x o h a ps F' hf hs hl ho haF) ?_
    rintro _ o' h' ⟨t1, hl1⟩
    exact ⟨t1.mono (by simp +contextual), Spec.Holds.mk ((t1.keep a (look_lt hl) haF).2.trans hl) hc hl1 haF⟩

/-! ## Merge -/

theorem stringOf_holds {h : Heap} (hs : Solid h) {g : Graph} {p : Ptr} {F : List Nat} (hg : Holds h g p F) (hf : 0 < fuel) :
    Gives (hStringOf E fuel p) h (g.string E) fun s s' h' => h' = h ∧ s = s' := by
  cases g with
  | nil =>
    unfold Holds at hg
    obtain ⟨rfl, rfl⟩ := hg
    unfold hStringOf
    cases fuel <;> (unfold hstring; exact .pure ⟨rfl, rfl⟩)
  | node t o =>
    obtain ⟨a, x, ps, F', rfl, rfl, haF, hl, hc, ho⟩ := hg.parts
    obtain ⟨c, hc', hld, hthis, hlen, _⟩ := load_look hs hl
    unfold hStringOf
    cases fuel with
    | zero => omega
    | succ f =>
      unfold hstring
      refine .step hld ?_
      rw [hlen]
      cases o with
      | nil =>
        unfold HoldsL at ho
        rw [ho.1]
        exact .pure ⟨rfl, rfl⟩
      | cons g gs =>
        unfold HoldsL at ho
        obtain ⟨p, ps', F1, F2, rfl, rfl, hd, hg1, hr⟩ := ho
        simp only [List.length_cons, Nat.add_eq_zero_iff, Nat.succ_ne_self, and_false, ↓reduceIte]
        refine .step (index_look hs hl hc' (i := 0) (p := p) rfl) ?_
        cases g with
        | nil =>
          unfold Holds at hg1
          rw [hg1.1]
          exact .panicked load_none
        | node t1 o1 =>
          obtain ⟨m, x1, pm, Fm, rfl, rfl, hmF, hlm, hcx, hom⟩ := hg1.parts
          obtain ⟨cm, hcm, hldm, hthism, _, _⟩ := load_look hs hlm
          refine .step hldm ?_
          rw [hthism]
          exact ⟨_, h, hstring_content hcx f h, rfl, rfl⟩

theorem merge_loop {f : Nat} {sl : Slice} {a b : Nat} {c : HNode} (hfuel : 0 < fuel)
    (ih : ∀ (t w : Val) (o xs : List Graph) (h : Heap) (n m : Nat) (F S : List Nat), Graph.heightL xs + 1 < f → Solid h → Holds h (.node t o) (some n) F →
      Holds h (.node w xs) (some m) S → (∀ k ∈ F, k ∉ S) →
      Gives (hMerge E grow fuel f (some n) (some m)) h (Graph.mergeList E (.node t o) xs) fun _ g' h' => Done h (F ++ S) (some n) g' h') :
    ∀ (xs : List Graph) (h : Heap) (t : Val) (o : List Graph) (z : HVal) (ps ps2 : List Ptr) (F S : List Nat) (i : Nat), Graph.heightL xs < f → 0 < f → Solid h →
      sl = c.out → h.nodes[b]? = some c → look h b = some (z, ps) → ps.drop i = ps2 → HoldsL h xs ps2 S → Holds h (.node t o) (some a) F →
      b ∉ F → b ∉ S → (∀ k ∈ F, k ∉ S) →
      Gives (HM.range sl (fun node => do
        let t ← hStringOf E fuel node
        let n ← hNode E fuel (some a) t
        match n with
        | none => do
          let _ ← hAdd grow (some a) (.ptr node)
          pure ()
        | n => do
          HM.putOut n {}
          hMerge E grow fuel f n node) xs.length i) h (Graph.mergeList E (.node t o) xs) fun _ g' h' => Done h (F ++ S) (some a) g' h'
  | [], h, t, o, z, ps, ps2, F, S, i, _, _, hs, _, _, _, _, hl, ha, _, _, _ => by
    unfold Graph.mergeList
    exact .pure ⟨.refl hs, F, ha, fun k hk => .inl (List.mem_append_left _ hk)⟩
  | nd :: ns, h, t, o, z, ps, ps2, F, S, i, hf, hf0, hs, hse, hc, hb, hps, hl, ha, hbF, hbS, hFS => by
    unfold HoldsL at hl
    obtain ⟨p, ps', S1, S2, rfl, rfl, hd, hg, hr⟩ := hl
    obtain ⟨hpi, hps'⟩ := getElem?_of_drop hps
    rw [heightL_cons] at hf
    have hidx : (HM.index sl i).run h = (.ok p, h) := by rw [hse]; exact index_look hs hb hc hpi
    rw [List.length_cons, range_succ]
    refine .step hidx ?_
    simp only [hm_assoc]
    rw [Graph.mergeList]
    simp only [List.mem_append, not_or] at hbS
    have hblt := look_lt hb
    refine .bind (stringOf_holds hs hg hfuel) ?_
    rintro key _ h' ⟨rfl, rfl⟩
    dsimp only
    obtain ⟨a', x, qs, F', e, rfl, haF, hla, hcx, ho⟩ := ha.parts
    cases e
    have hsr := node_holds (E := E) (fuel := fuel) hs hla ho key
    -- the rest of the loop
    have rest : ∀ (h1 : Heap) (t1 : Val) (o1 : List Graph) (F1 : List Nat), Turns ((a :: F') ++ S1) h' h1 → Holds h1 (.node t1 o1) (some a) F1 →
        Within h' ((a :: F') ++ S1) F1 →
        Gives (HM.range sl (fun node => do
          let t ← hStringOf E fuel node
          let n ← hNode E fuel (some a) t
          match n with
          | none => do
            let _ ← hAdd grow (some a) (.ptr node)
            pure ()
          | n => do
            HM.putOut n {}
            hMerge E grow fuel f n node) ns.length (i + 1)) h1 (Graph.mergeList E (.node t1 o1) ns) fun _ g' h2 => Done h' ((a :: F') ++ (S1 ++ S2)) (some a) g' h2 := by
      intro h1 t1 o1 F1 tn hh1 hw1
      have hlt2 := hr.lt
      have hkb := tn.keep b hblt fun hx => by
        rcases List.mem_append.1 hx with hx | hx
        · exact hbF hx
        · exact hbS.1 hx
      have hF1b : b ∉ F1 := fun hx => by
        rcases hw1 b hx with hy | hy
        · rcases List.mem_append.1 hy with hy | hy
          · exact hbF hy
          · exact hbS.1 hy
        · omega
      have hF1S : ∀ k ∈ F1, k ∉ S2 := fun k hk hx => by
        rcases hw1 k hk with hy | hy
        · rcases List.mem_append.1 hy with hy | hy
          · exact hFS k hy (List.mem_append_right _ hx)
          · exact hd k hy hx
        · have := hlt2 k hx; omega
      have hrest : HoldsL h1 ns ps' S2 := hr.turns tn fun k hk hx => by
        rcases List.mem_append.1 hx with hx | hx
        · exact hFS k hx (List.mem_append_right _ hk)
        · exact hd k hx hk
      refine .mono (merge_loop hfuel ih ns h1 t1 o1 z ps ps' F1 S2 (i + 1) (by omega) hf0 tn.solid hse (hkb.1.trans hc) (hkb.2.trans hb) hps' hrest hh1 hF1b hbS.2 hF1S) ?_
      rintro _ g' h2 ⟨t2, F2, hh2, hw2⟩
      have hwA : Within h' ((a :: F') ++ (S1 ++ S2)) (F1 ++ S2) := fun k hk => by
        rcases List.mem_append.1 hk with hk | hk
        · rcases hw1 k hk with hy | hy
          · exact .inl (by rcases List.mem_append.1 hy with hy | hy <;> simp only [List.mem_append, hy, true_or, or_true])
          · exact .inr hy
        · exact .inl (by simp only [List.mem_append, hk, or_true])
      refine ⟨(tn.mono fun k hk => ?_).trans t2 hwA, F2, hh2, Within.trans hwA hw2 tn.le⟩
      rcases List.mem_append.1 hk with hk | hk <;> simp only [List.mem_append, hk, true_or, or_true]
    cases hfn : findName E key o with
    | oof => trivial
    | panic =>
      rw [hfn] at hsr
      obtain ⟨h1, hr1⟩ := hsr
      exact ⟨h1, panic_bind' hr1⟩
    | ok j =>
      rw [hfn] at hsr
      obtain ⟨q, h1, hr1, e, hj⟩ := hsr
      rw [e] at hr1
      refine .step hr1 ?_
      simp only [Res.ok_bind]
      cases j with
      | none =>
        subst hj
        dsimp only
        simp only [hm_assoc, hm_pure]
        cases nd with
        | nil =>
          unfold Holds at hg
          obtain ⟨rfl, rfl⟩ := hg
          obtain ⟨h2, hr2, t2, hh2, _⟩ := add_holds (grow := grow) hs ha Content.nil nofun
          refine .step hr2 ?_
          exact rest h2 t (o ++ [.node (.graph .nil) []]) _ (t2.mono (by simp)) hh2 fun k hk => by rw [List.append_nil]; exact within_snoc k hk
        | node w xs =>
          obtain ⟨m, y, pm, Fm, rfl, rfl, hmF, hlm, hcy, hom⟩ := hg.parts
          obtain ⟨h2, hr2, c2⟩ := add_ptr (grow := grow) hs hla (b := m)
          refine .step hr2 ?_
          have haS := hFS a (List.mem_cons_self ..)
          simp only [List.mem_append, not_or] at haS
          refine rest h2 t (o ++ [.node w xs]) (a :: (F' ++ (m :: Fm))) (c2.turns.mono (by simp)) ?_ fun k hk => .inl ?_
          · refine renode c2 hcx (Spec.HoldsL.append ho (Spec.HoldsL.one hg) fun k hk hx => hFS k (List.mem_cons_of_mem _ hk) (List.mem_append_left _ hx)) ?_
            simp only [List.mem_append, not_or]
            exact ⟨haF, haS.1⟩
          · rw [List.cons_append]; exact hk
      | some j =>
        obtain ⟨q, hq, rfl⟩ := hj
        obtain ⟨t', o', hj'⟩ := findName_lt hfn
        obtain ⟨q', Fg, hq', hgq, hFg, hfoc⟩ := ho.focus hj'
        rw [hq] at hq'
        cases hq'
        obtain ⟨n, y, pn, Fn, rfl, rfl, hnF, hln, hcy, hon⟩ := hgq.parts
        dsimp only
        simp only [hm_assoc]
        obtain ⟨h2, hr2, c2⟩ := clear_look hs hln
        refine .step hr2 ?_
        have hchild : Holds h2 (.node t' []) (some n) [n] := renode c2 hcy Spec.HoldsL.nil nofun
        have hgd : (o.getD j .nil).this = t' := by rw [List.getD_eq_getElem?_getD, hj']; rfl
        rw [hgd]
        have hnF' : n ∈ F' := hFg n (List.mem_cons_self ..)
        have hnS : n ∉ S1 := fun hx => hFS n (List.mem_cons_of_mem _ hnF') (List.mem_append_left _ hx)
        cases nd with
        | nil =>
          unfold Holds at hg
          obtain ⟨rfl, rfl⟩ := hg
          rw [Graph.merge]
          refine .panicked (h' := h2) ?_
          cases f with
          | zero => omega
          | succ f => unfold hMerge; exact panic_bind' load_none
        | node w xs =>
          obtain ⟨m, y', pm, Fm, rfl, rfl, hmF, hlm, hcy', hom⟩ := hg.parts
          rw [height_node] at hf
          rw [Graph.merge]
          have hg2 : Holds h2 (.node w xs) (some m) (m :: Fm) := hg.turns c2.turns fun k hk hx => by
            simp only [List.mem_singleton] at hx
            subst hx
            exact hnS hk
          refine .bind (ih t' w [] xs h2 n m [n] (m :: Fm) (by omega) c2.solid hchild hg2 fun k hk hx => ?_) ?_
          · simp only [List.mem_singleton] at hk
            subst hk
            exact hnS hx
          · rintro _ n' h3 ⟨t3, F3, hh3, hw3⟩
            have t23 : Turns ([n] ++ (m :: Fm)) h' h3 := (c2.turns.mono (by simp)).trans t3 .refl
            have hlen2 := c2.len
            have haX : a ∉ [n] ++ (m :: Fm) := fun hx => by
              rcases List.mem_append.1 hx with hx | hx
              · simp only [List.mem_singleton] at hx
                subst hx
                exact haF hnF'
              · exact hFS a (List.mem_cons_self ..) (List.mem_append_left _ hx)
            have hres := hfoc h3 ([n] ++ (m :: Fm)) (m :: Fm) n' F3 t23 (fun k hk => ?_) (fun k hk hx => hFS k (List.mem_cons_of_mem _ hx) (List.mem_append_left _ hk)) hh3
              (fun k hk => ?_)
            · obtain ⟨F4, hh4, hw4⟩ := back (t := t) hla hcx haF t23 haX (fun hx => hFS a (List.mem_cons_self ..) (List.mem_append_left _ hx)) hres
              exact rest h3 t (o.set j n') F4 (t23.mono fun k hk => by
                rcases List.mem_append.1 hk with hk | hk
                · simp only [List.mem_singleton] at hk
                  subst hk
                  exact List.mem_append_left _ (List.mem_cons_of_mem _ hnF')
                · exact List.mem_append_right _ hk) hh4 hw4
            · rcases List.mem_append.1 hk with hk | hk
              · simp only [List.mem_singleton] at hk
                subst hk
                exact .inl (List.mem_cons_self ..)
              · exact .inr hk
            · rcases hw3 k hk with hy | hy
              · rcases List.mem_append.1 hy with hy | hy
                · simp only [List.mem_singleton] at hy
                  subst hy
                  exact .inl (by simp)
                · exact .inl (List.mem_append_right _ hy)
              · exact .inr (by omega)

theorem merge_kids (hfuel : 0 < fuel) : ∀ (f : Nat) (t w : Val) (o xs : List Graph) (h : Heap) (n m : Nat) (F S : List Nat), Graph.heightL xs + 1 < f → Solid h →
      Holds h (.node t o) (some n) F → Holds h (.node w xs) (some m) S → (∀ k ∈ F, k ∉ S) →
      Gives (hMerge E grow fuel f (some n) (some m)) h (Graph.mergeList E (.node t o) xs) fun _ g' h' => Done h (F ++ S) (some n) g' h'
  | 0, _, _, _, _, _, _, _, _, _, hf, _, _, _, _ => by omega
  | f + 1, t, w, o, xs, h, n, m, F, S, hf, hs, hn, hm, hd => by
    obtain ⟨m', x, ps, S', e, rfl, hmS, hl, hc, ho⟩ := hm.parts
    cases e
    obtain ⟨c, hc', hld, hthis, hlen, _⟩ := load_look hs hl
    unfold hMerge
    refine .step hld ?_
    rw [hlen, ← ho.length]
    refine .mono (merge_loop hfuel (merge_kids hfuel f) xs h t o x ps ps F S' 0 (by omega) (by omega) hs rfl hc' hl rfl ho hn
      (fun hx => hd m hx (List.mem_cons_self ..)) hmS fun k hk hx => hd k hk (List.mem_cons_of_mem _ hx)) ?_
    rintro _ g' h' ⟨t1, F1, hh, hw⟩
    have hsub : ∀ k ∈ F ++ S', k ∈ F ++ m :: S' := fun k hk => by
      rcases List.mem_append.1 hk with hk | hk
      · exact List.mem_append_left _ hk
      · exact List.mem_append_right _ (List.mem_cons_of_mem _ hk)
    refine ⟨t1.mono hsub, F1, hh, fun k hk => ?_⟩
    rcases hw k hk with hy | hy
    · exact .inl (hsub k hy)
    · exact .inr hy

/-! ## Set -/

theorem Spec.HoldsL.pad {h : Heap} : ∀ k : Nat, HoldsL h (List.replicate k .nil) (List.replicate k none) []
  | 0 => Spec.HoldsL.nil
  | k + 1 => by
    have h1 : Holds h .nil none [] := by unfold Holds; exact ⟨rfl, rfl⟩
    exact Spec.HoldsL.cons h1 (Spec.HoldsL.pad k) nofun

/-- A subnode replaced by a new tree. -/
theorem Spec.HoldsL.swap {h : Heap} {gs : List Graph} {ps : List Ptr} {F : List Nat} (hl : HoldsL h gs ps F) {i : Nat} (hi : i < gs.length) {g : Graph} {p : Ptr}
    {X : List Nat} (hg : Holds h g p X) (hd : ∀ a ∈ F, a ∉ X) :
    ∃ F', HoldsL h (gs.set i g) (ps.set i p) F' ∧ ∀ a ∈ F', a ∈ F ++ X := by
  obtain ⟨q, ps1, ps2, F1, Fg, F2, rfl, hlen, rfl, h1, hq, h2, hd1, hd2⟩ := hl.split (List.getElem?_eq_getElem hi)
  refine ⟨F1 ++ (X ++ F2), ?_, fun a ha => by simp only [List.mem_append] at ha ⊢; rcases ha with ha | ha | ha <;> simp [ha]⟩
  rw [List.set_eq_take_append_cons_drop, if_pos hi]
  have : (ps1 ++ q :: ps2).set i p = ps1 ++ p :: ps2 := by
    rw [← hlen, List.set_append_right _ _ (Nat.le_refl _)]
    simp
  rw [this]
  refine Spec.HoldsL.append h1 (Spec.HoldsL.cons hg h2 fun a ha hx => ?_) fun a ha hx => ?_
  · exact hd a (by simp [hx]) ha
  · rcases List.mem_append.1 hx with hx | hx
    · exact hd a (by simp [ha]) hx
    · exact (hd1 a ha).2 hx

theorem setIndex_fits {h : Heap} (hs : Solid h) {a : Nat} {x : HVal} {t : Val} {ps : List Ptr} {o : List Graph} {F : List Nat} (hl : look h a = some (x, ps))
    (hc : Content x t) (ho : HoldsL h o ps F) (haF : a ∉ F) {i : Nat} (hi : i < o.length) {y : HVal} {v : Val} (hy : Content y v) :
    ∃ h', (do let n ← hNew y; let c ← HM.load (some a); HM.putIndex c.out i n; pure n : HM Ptr).run h = (.ok (some h.nodes.length), h') ∧
      Done h (a :: F) (some a) (.node t (o.set i (.node v []))) h' ∧ Holds h' (.node v []) (some h.nodes.length) [h.nodes.length] := by
  obtain ⟨h1, hr, hs1, hlen, hlk, hkeep⟩ := alloc_look hs y
  have hal := look_lt hl
  have hF := ho.lt o
  have hl1 : look h1 a = some (x, ps) := by rw [hlk]; unfold upd; rw [if_neg (by omega)]; exact hl
  have hn1 : look h1 h.nodes.length = some (y, []) := by rw [hlk]; unfold upd; rw [if_pos rfl]
  have t1 : Turns [] h h1 := ⟨hs1, by omega, fun b hb _ => ⟨hkeep b hb, by rw [hlk]; unfold upd; rw [if_neg (by omega)]⟩⟩
  obtain ⟨c, hc1, hld, _, _, _⟩ := load_look hs1 hl1
  obtain ⟨h2, hr2, c2⟩ := putIndex_look hs1 hl1 hc1 (i := i) (by rw [← ho.length]; exact hi) (some h.nodes.length)
  have hnew1 : Holds h1 (.node v []) (some h.nodes.length) [h.nodes.length] := Spec.Holds.mk hn1 hy Spec.HoldsL.nil nofun
  obtain ⟨F', hF', hw⟩ := (ho.turns t1 fun _ _ => nofun).swap hi hnew1 fun b hb hx => by
    simp only [List.mem_singleton] at hx
    have := hF b hb
    omega
  have haF' : a ∉ F' := fun hx => by
    rcases List.mem_append.1 (hw a hx) with hx | hx
    · exact haF hx
    · simp only [List.mem_singleton] at hx
      omega
  refine ⟨h2, ?_, ⟨(t1.mono nofun).trans (c2.turns.mono (by simp)) .refl, a :: F', renode c2 hc hF' haF', fun b hb => ?_⟩, hnew1.turns c2.turns fun b hb => ?_⟩
  · unfold hNew
    rw [hm_assoc, ok_bind' hr, hm_pure, ok_bind' hld, ok_bind' hr2]
    rfl
  · rcases List.mem_cons.1 hb with rfl | hb
    · exact .inl (List.mem_cons_self ..)
    · rcases List.mem_append.1 (hw b hb) with hx | hx
      · exact .inl (List.mem_cons_of_mem _ hx)
      · simp only [List.mem_singleton] at hx
        exact .inr (by omega)
  · simp only [List.mem_singleton] at hb ⊢
    omega

theorem setIndex_holds {h : Heap} (hs : Solid h) {a : Nat} {t : Val} {o : List Graph} {F : List Nat} (hg : Holds h (.node t o) (some a) F) (i : Int)
    {y : HVal} {v : Val} (hy : Content y v) :
    Gives (hSetIndex (some a) i y) h (putAt o i (Graph.new v)) fun q o' h' => Done h F (some a) (.node t o') h' ∧ ∃ X, Holds h' (.node v []) q X := by
  obtain ⟨a', x, ps, F', e, rfl, haF, hl, hc, ho⟩ := hg.parts
  cases e
  obtain ⟨c, hc', hld, hthis, hlen, hps⟩ := load_look hs hl
  have hput : ∀ c : Bool, decide (i < 0 ∨ (i ≥ o.length ∧ i ≥ 2 ^ 63 - 1)) = c → putAt o i (Graph.new v) = if c then .panic else
      .ok ((o ++ List.replicate (i.toNat + 1 - o.length) Graph.nil).set i.toNat (Graph.new v)) := by
    rintro c rfl
    unfold putAt
    simp only [decide_eq_true_eq]
  unfold hSetIndex
  refine .step hld ?_
  rw [hlen, ← ho.length]
  by_cases hi : (o.length : Int) ≤ i
  · simp only [hi, ↓reduceIte]
    by_cases hbig : i ≥ 2 ^ 63 - 1
    · simp only [hbig, ↓reduceIte]
      rw [hput true (by simp only [decide_eq_true_eq]; omega)]
      exact .panicked (h' := h) rfl
    · simp only [hbig, ↓reduceIte]
      have hneg : ¬ i < 0 := by omega
      rw [hput false (by simp only [decide_eq_false_iff_not]; omega)]
      simp only [hneg, ↓reduceIte, Bool.false_eq_true, hm_assoc]
      have hel : (HM.elems c.out).run h = (.ok ps, h) := by
        show (Res.ok _, h) = _
        rw [hps]
      refine .step hel ?_
      obtain ⟨h1, hr1, c1⟩ := make_look hs hl (ps ++ List.replicate (i.toNat + 1 - ps.length) none)
      have ho1 : HoldsL h (o ++ List.replicate (i.toNat + 1 - ps.length) .nil) (ps ++ List.replicate (i.toNat + 1 - ps.length) none) F' := by
        have := Spec.HoldsL.append ho (Spec.HoldsL.pad (h := h) (i.toNat + 1 - ps.length)) nofun
        rwa [List.append_nil] at this
      have hl1 : look h1 a = some (x, ps ++ List.replicate (i.toNat + 1 - ps.length) none) := by rw [c1.look]; unfold upd; rw [if_pos rfl]
      have hd : ∀ b ∈ F', b ∉ [a] := fun b hb hx => by
        simp only [List.mem_singleton] at hx
        subst hx
        exact haF hb
      obtain ⟨h2, hr2, ⟨t2, F2, hh2, hw2⟩, hn2⟩ := setIndex_fits c1.solid hl1 hc (ho1.turns c1.turns hd) haF (i := i.toNat) (by
        have := ho.length
        simp only [List.length_append, List.length_replicate]
        omega) hy
      have hml := c1.len
      rw [ho.length]
      refine ⟨_, h2, ?_, ⟨(c1.turns.mono (by simp)).trans t2 .refl, F2, hh2, fun b hb => ?_⟩, _, hn2⟩
      · have : (HM.make (ps ++ List.replicate (i.toNat + 1 - ps.length) none) 0 >>= fun s => HM.putOut (some a) s >>= fun _ => hNew y >>= fun n => HM.load (some a) >>= fun c =>
            HM.putIndex c.out i.toNat n >>= fun _ => (Pure.pure n : HM Ptr)) =
            ((HM.make (ps ++ List.replicate (i.toNat + 1 - ps.length) none) 0 >>= fun s => HM.putOut (some a) s) >>= fun _ => hNew y >>= fun n => HM.load (some a) >>= fun c =>
            HM.putIndex c.out i.toNat n >>= fun _ => (Pure.pure n : HM Ptr)) := by rw [hm_assoc]
        rw [this, ok_bind' hr1]
        exact hr2
      · rcases hw2 b hb with hx | hx
        · exact .inl hx
        · exact .inr (by omega)
  · simp only [hi, ↓reduceIte]
    by_cases hneg : i < 0
    · simp only [hneg, ↓reduceIte]
      rw [hput true (by simp only [decide_eq_true_eq]; omega)]
      obtain ⟨h1, hr, _⟩ := alloc_look hs y
      unfold hNew
      rw [hm_assoc]
      refine ⟨h1, ?_⟩
      rw [ok_bind' hr]
      rfl
    · rw [hput false (by simp only [decide_eq_false_iff_not]; omega)]
      simp only [hneg, ↓reduceIte, Bool.false_eq_true]
      have hpad : i.toNat + 1 - o.length = 0 := by omega
      rw [hpad, List.replicate_zero, List.append_nil]
      obtain ⟨h2, hr2, hd2, hn2⟩ := setIndex_fits hs hl hc ho haF (i := i.toNat) (by omega) hy
      exact ⟨_, h2, hr2, hd2, _, hn2⟩

/-- The end of `set`. -/
def setEnd (grow : Nat → Nat → Nat) (y : HVal) (r : Ptr × Bool) : HM Ptr :=
  if r.2 then Pure.pure r.1
  else do
    HM.putOut r.1 {}
    hAddNodesVal grow r.1 y

theorem setLast_holds {h : Heap} (hs : Solid h) {a : Nat} {t : Val} {o : List Graph} {F : List Nat} (hg : Holds h (.node t o) (some a) F)
    {y : HVal} {v : Val} (hy : Content y v) :
    Gives (setEnd grow y (some a, false)) h (setLast v (.node t o)) fun q r h' => Done h F (some a) r.1 h' ∧ ∃ X, Holds h' r.2 q X := by
  obtain ⟨a', x, ps, F', e, rfl, haF, hl, hc, ho⟩ := hg.parts
  cases e
  unfold setEnd setLast
  simp only [Bool.false_eq_true, ↓reduceIte]
  obtain ⟨h1, hr1, c1⟩ := clear_look hs hl
  refine .step hr1 ?_
  have hl1 : look h1 a = some (x, []) := by rw [c1.look]; unfold upd; rw [if_pos rfl]
  have hlen := c1.len
  have hnil : ∀ h, Holds h .nil none [] := fun h => by unfold Holds; exact ⟨rfl, rfl⟩
  by_cases hv : v = .nil
  · subst hv
    cases hy with
    | val _ =>
      refine .pure ⟨⟨c1.turns.mono (by simp), [a], Spec.Holds.mk hl1 hc Spec.HoldsL.nil nofun, fun b hb => .inl ?_⟩, [], hnil _⟩
      simp only [List.mem_singleton] at hb
      subst hb
      exact List.mem_cons_self ..
  · obtain ⟨h2, hr2, t2, la, ln, hlen2⟩ := addNodesVal_content (grow := grow) c1.solid hl1 hy hv
    have hal := look_lt hl1
    have e1 : (Graph.node t []).addNodesVal v = .node t [.node v []] := by
      cases hy with
      | val hx => cases v <;> first | rfl | exact absurd rfl hv | exact absurd rfl (hx _)
      | nil => rfl
    refine ⟨_, h2, hr2, ⟨(c1.turns.mono (by simp)).trans (t2.mono (by simp)) .refl, a :: ([] ++ [h1.nodes.length]), ?_, ?_⟩, [h1.nodes.length], ?_⟩
    · rw [e1]
      exact grown (gs := []) t2 hc hy Spec.HoldsL.nil nofun hal la ln
    · intro b hb
      rcases List.mem_cons.1 hb with rfl | hb
      · exact .inl (List.mem_cons_self ..)
      · simp only [List.nil_append, List.mem_singleton] at hb
        exact .inr (by omega)
    · have hn := Spec.Holds.mk ln hy Spec.HoldsL.nil nofun
      cases hy with
      | val hx => cases v <;> first | exact hn | exact absurd rfl hv | exact absurd rfl (hx _)
      | nil => exact hn

theorem setNew_holds {y : HVal} {v : Val} (hy : Content y v) : ∀ {es : List Graph} {ss : List HStep}, PathSteps E es ss → ∀ {h : Heap}, Solid h →
    ∀ {a : Nat} {t : Val} {o : List Graph} {F : List Nat}, Holds h (.node t o) (some a) F →
    Gives (hSetNew grow y (some a) ss >>= setEnd grow y) h (setNew E v es (.node t o)) fun q r h' => Done h F (some a) r.1 h' ∧ ∃ X, Holds h' r.2 q X
  | [], _, .nil, h, hs, a, t, o, F, hg => by
    unfold hSetNew setNew
    rw [hm_pure]
    exact setLast_holds hs hg hy
  | e :: es, _, .index hi hn _, h, hs, a, t, o, F, hg => by
    unfold hSetNew setNew
    simp only [hi, ↓reduceIte, hn, Res.ok_bind, hm_assoc, hm_pure]
    refine .bind (setIndex_holds hs hg _ hy) ?_
    rintro q o' h' ⟨hd, X, hx⟩
    exact .pure ⟨hd, X, hx⟩
  | _ :: es, _, .name (v := u) (o := oe) (ss := ss) hi hn hu hr, h, hs, a, t, o, F, hg => by
    unfold hSetNew
    rw [setNew]
    case x_2 => exact hn
    simp only [Graph.thisString, hi, ↓reduceIte, hm_assoc]
    obtain ⟨a', x, ps, F', e, rfl, haF, hl, hc, ho⟩ := hg.parts
    cases e
    obtain ⟨h1, hr1, t1, la, ln, hlen⟩ := add_content (grow := grow) hs hl (.val hu) hn
    have hF := ho.lt o
    have hal := look_lt hl
    refine .step hr1 ?_
    rw [addedNode_content (.val hu)]
    have hnew : Holds h1 (.node u []) (some h.nodes.length) [h.nodes.length] := Spec.Holds.mk ln (.val hu) Spec.HoldsL.nil nofun
    refine .map (φ := fun p : Graph × Graph => (Graph.node t (o ++ [p.1]), p.2)) (setNew_holds hy hr t1.solid hnew) ?_
    rintro q ⟨n', r⟩ h2 ⟨⟨t2, F2, hh2, hw2⟩, X, hX⟩
    refine ⟨⟨(t1.mono (by simp)).trans t2 fun b hb => ?_, a :: (F' ++ F2), ?_, ?_⟩, X, hX⟩
    · simp only [List.mem_singleton] at hb
      exact .inr (by omega)
    · have haX : a ∉ [h.nodes.length] := by simp; omega
      refine Spec.Holds.mk ((t2.keep a (by omega) haX).2.trans la) hc (Spec.HoldsL.append ?_ (Spec.HoldsL.one hh2) fun b hb hx => ?_) ?_
      · refine (ho.turns t1 fun b hb hx => ?_).turns t2 fun b hb hx => ?_
        · simp only [List.mem_singleton] at hx
          subst hx
          exact haF hb
        · simp only [List.mem_singleton] at hx
          have := hF b hb
          omega
      · have := hF b hb
        rcases hw2 b hx with hx | hx
        · simp only [List.mem_singleton] at hx
          omega
        · omega
      · simp only [List.mem_append, not_or]
        refine ⟨haF, fun hx => ?_⟩
        rcases hw2 a hx with hx | hx
        · simp only [List.mem_singleton] at hx
          omega
        · omega
    · intro b hb
      rcases List.mem_cons.1 hb with rfl | hb
      · exact .inl (List.mem_cons_self ..)
      · rcases List.mem_append.1 hb with hb | hb
        · exact .inl (List.mem_cons_of_mem _ hb)
        · rcases hw2 b hb with hx | hx
          · simp only [List.mem_singleton] at hx
            exact .inr (by omega)
          · exact .inr (by omega)

theorem setWalk_holds {y : HVal} {v : Val} (hy : Content y v) : ∀ {es : List Graph} {ss : List HStep}, PathSteps E es ss → ∀ {h : Heap}, Solid h →
    ∀ {a : Nat} {t : Val} {o : List Graph} {F : List Nat}, Holds h (.node t o) (some a) F →
    Gives (hSetWalk E grow fuel y (some a) ss >>= setEnd grow y) h (setPath E v es (.node t o)) fun q r h' => Done h F (some a) r.1 h' ∧ ∃ X, Holds h' r.2 q X
  | [], _, .nil, h, hs, a, t, o, F, hg => by
    unfold hSetWalk setPath
    rw [hm_pure]
    exact setLast_holds hs hg hy
  | e :: es, _, .index hi hn _, h, hs, a, t, o, F, hg => by
    unfold hSetWalk setPath
    simp only [hi, ↓reduceIte, hn, Res.ok_bind, hm_assoc, hm_pure]
    refine .bind (setIndex_holds hs hg _ hy) ?_
    rintro q o' h' ⟨hd, X, hx⟩
    exact .pure ⟨hd, X, hx⟩
  | _ :: es, _, .name (v := u) (o := oe) (ss := ss) hi hn hu hr, h, hs, a, t, o, F, hg => by
    unfold hSetWalk
    rw [setPath]
    simp only [Graph.thisString, hi, ↓reduceIte, hm_assoc]
    obtain ⟨a', x, ps, F', e, rfl, haF, hl, hc, ho⟩ := hg.parts
    cases e
    have hsr := node_holds (E := E) (fuel := fuel) hs hl ho (vstr E u)
    cases hfn : findName E (vstr E u) o with
    | oof => trivial
    | panic =>
      rw [hfn] at hsr
      obtain ⟨h1, hr1⟩ := hsr
      exact ⟨h1, panic_bind' hr1⟩
    | ok j =>
      rw [hfn] at hsr
      obtain ⟨q, h1, hr1, e, hj⟩ := hsr
      rw [e] at hr1
      refine .step hr1 ?_
      simp only [Res.ok_bind]
      cases j with
      | none =>
        subst hj
        exact setNew_holds hy (.name hi hn hu hr) hs hg
      | some j =>
        obtain ⟨q, hq, rfl⟩ := hj
        obtain ⟨t', o', hj'⟩ := findName_lt hfn
        obtain ⟨q', Fg, hq', hgq, hFg, hfoc⟩ := ho.focus hj'
        rw [hq] at hq'
        cases hq'
        obtain ⟨n, z, pn, Fn, rfl, rfl, hnF, hln, hcz, hon⟩ := hgq.parts
        dsimp only
        have hgd : o.getD j .nil = .node t' o' := by rw [List.getD_eq_getElem?_getD, hj']; rfl
        rw [hgd]
        refine .map (φ := fun p : Graph × Graph => (Graph.node t (o.set j p.1), p.2)) (setWalk_holds hy hr hs hgq) ?_
        rintro q ⟨n', r⟩ h2 ⟨⟨t2, F2, hh2, hw2⟩, X, hX⟩
        have haX : a ∉ n :: Fn := fun hx => haF (hFg a hx)
        have hres := hfoc h2 (n :: Fn) [] n' F2 t2 (fun b hb => .inl hb) nofun hh2 (by rw [List.append_nil]; exact hw2)
        obtain ⟨F4, hh4, hw4⟩ := back (t := t) hl hc haF t2 haX (by simp) hres
        rw [List.append_nil] at hw4
        exact ⟨⟨t2.mono fun b hb => List.mem_cons_of_mem _ (hFg b hb), F4, hh4, hw4⟩, X, hX⟩

theorem set_holds {h : Heap} (hs : Solid h) {g : Graph} {p : Ptr} {F : List Nat} (hg : Holds h g p F) (hne : g ≠ .nil) {es : List Graph} {ss : List HStep} (hp : PathSteps E es ss)
    {y : HVal} {v : Val} (hy : Content y v) :
    Gives (hSet E grow fuel p ss y) h (setPath E v es g) fun q r h' => Done h F p r.1 h' ∧ ∃ X, Holds h' r.2 q X := by
  cases g with
  | nil => exact absurd rfl hne
  | node t o =>
    have := hg
    obtain ⟨a, x, ps, F', rfl, rfl, haF, hl, hc, ho⟩ := this.parts
    exact setWalk_holds hy hp hs hg

end Ogdl
