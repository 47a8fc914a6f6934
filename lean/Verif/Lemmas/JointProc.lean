import Verif.Lemmas.JointLoop

/-!
# Templates in shared memory
-/

namespace Ogdl
open Spec HM

variable {E : Ext} {grow : Nat → Nat → Nat} {i : Nat} {F F' : List Nat} {w : World}

theorem Comes.and {m : Nat → HM β} {h : Heap} {r : Res α} {Q Q' : β → α → Heap → Prop} (h1 : Comes F m h r Q) (h2 : Comes F m h r Q') : Comes F m h r fun b a h' => Q b a h' ∧ Q' b a h' := by
  cases r with
  | ok a =>
    obtain ⟨N, b, h', hr, t, hq⟩ := h1
    obtain ⟨N', b', h'', hr', _, hq'⟩ := h2
    have e := (hr (max N N') (by omega)).symm.trans (hr' (max N N') (by omega))
    simp only [Prod.mk.injEq, Res.ok.injEq] at e
    obtain ⟨rfl, rfl⟩ := e
    exact ⟨N, b, h', hr, t, hq, hq'⟩
  | panic => exact h1
  | oof => trivial

/-- The context of goroutine `i` for evaluation. -/
theorem On.ctx {a : Nat} {A : List Nat} {t : Val} {zs : List (Graph × Ptr)} (o : On i a A w t zs) : Ctx (w.sees i) w.heap (treeOf t zs) (some a) := by
  refine ⟨o.solid, o.live.more, ?_⟩
  obtain ⟨x, hl, hv⟩ := o.live.root
  refine .mk (o.live.zone a o.live.mem) hl (hv.frame t fun b hb _ => ⟨hb.2, rfl⟩) (showsL_kids.2 ((kids_of o.live.kids).imp fun g p hg => ?_))
  cases g with
  | nil => unfold Shows; exact hg
  | node u gs =>
    obtain ⟨b, y, ps, rfl, hb, hl, hv, ho⟩ := hg
    exact .mk hb.2 hl (hv.frame u fun b hb _ => ⟨hb.2, rfl⟩) (ho.frame gs fun b hb _ => ⟨hb.2, rfl⟩)

theorem Keep.under {w w' : World} {a : Nat} (k : Keep i [] w w') :
    ∀ b, Under (w.sees i) a b → b < w.heap.nodes.length → Under (w'.sees i) a b ∧ look w'.heap b = look w.heap b := fun b hb hlt =>
  ⟨⟨hb.1, k.sees hlt hb.2⟩, (k.keep b hlt hb.2 nofun).2⟩

theorem Keep.see {w w' : World} (k : Keep i [] w w') : ∀ b, w.sees i b → b < w.heap.nodes.length → w'.sees i b ∧ look w'.heap b = look w.heap b := fun b hb hlt =>
  ⟨k.sees hlt hb, (k.keep b hlt hb nofun).2⟩

/-- The list that a loop walks through: `[` with the list below it, or the list. -/
structure Walks (i : Nat) (a : Nat) (A : List Nat) (w : World) (v : Val) (x : HVal) : Prop where
  shows : ShowsV (w.sees i) w.heap v x
  source : SourceV (Stay (w.sees i) A) (Under (w.sees i) a) w.heap v x

theorem Walks.next {a : Nat} {A : List Nat} {v : Val} {x : HVal} {h : Heap} (h1 : ShowsV (w.sees i) h v x) (h2 : SourceV (Stay (w.sees i) A) (Under (w.sees i) a) h v x) :
    Walks i a A (w.next i h) v x := by
  have hP : ∀ b, Stay (w.sees i) A b → Stay ((w.next i h).sees i) A b := fun b hb => ⟨hb.1, next_sees hb.2⟩
  have hN : ∀ b, Under (w.sees i) a b → Under ((w.next i h).sees i) a b := fun b hb => ⟨hb.1, next_sees hb.2⟩
  refine ⟨h1.frame v fun b hb _ => ⟨next_sees hb, rfl⟩, ?_⟩
  rcases h2 with (h2 | ⟨g, p, e1, e2, h2⟩) | ⟨o, p, e1, e2, h2⟩
  · exact .inl (.inl (h2.frame v fun b hb _ => ⟨hP b hb, rfl⟩))
  · exact .inl (.inr ⟨g, p, e1, e2, h2.mono hP hN⟩)
  · obtain ⟨q, y, ps, rfl, hl, hv, ho⟩ := h2
    exact .inr ⟨o, _, e1, e2, q, y, ps, rfl, hl, hv.frame _ fun b hb _ => ⟨hP b hb, rfl⟩, ho.imp fun _ _ hg => hg.mono hP hN⟩

section
variable {a : Nat} {t : Val}

theorem forNode_join (hE : WholeCalls E) {tsub : Nat → Graph → Job (Bool × Bytes)} {sub : Graph → EvalM Proc} (hs : ∀ T, Calm E T → JRuns i a t (fun n => tsub n T) (sub T)) {n : Graph}
    (hn : CalmPiece E n) (hfor : n.thisString E = tyFor) {A : List Nat} {w : World} {zs : List (Graph × Ptr)} (o : On i a A w t zs) :
    JRun i [a] w (fun k => tForNode grow E k (some a) (tsub k) n) (forNode E sub n) (treeOf t zs) fun b r g' w' => b = r.out ∧ r.brk = false ∧ Moved i a A w t zs r.loops g' w' := by
  unfold tForNode
  rw [forNode_over]
  refine .lifted o.solid fun args hargs => .lifted o.solid fun src hsrc => ?_
  obtain ⟨h1, h2⟩ := calmPiece_for hn hfor
  obtain ⟨hask, hok⟩ := h1 args src hargs hsrc
  have hfit : Fit E src := hask.fit
  refine .sim (Q := fun b ag w' => On i a A w' t zs ∧ Walks i a A w' ag.1 b.1) (fun w' kp => ?_) fun b ag w1 k1 hq => ?_
  · have o' := o.keep kp
    refine Comes.mono (Comes.and (eval_source o'.live.under hE o'.live.ctx o'.live.fresh o'.live.isRoot src hfit hok) ((allSim hE _).eval o'.ctx _ hfit)) fun b ag h tn hq => ?_
    obtain ⟨⟨e1, hq1⟩, _, hq2⟩ := hq
    exact ⟨e1, o'.next (o'.live.turns tn) fun _ hb => .inl hb, .next hq2.2 hq1.2⟩
  obtain ⟨x, er⟩ := b
  obtain ⟨v, er'⟩ := ag
  obtain ⟨o1, hv⟩ := hq
  dsimp only at hv ⊢
  have hback : ∀ {w2 : World} {b : Bytes} {r : Proc} {g' : Graph} {w3 : World}, w.size ≤ w2.size → b = r.out ∧ r.brk = false ∧ Moved i a A w2 t zs r.loops g' w3 →
      b = r.out ∧ r.brk = false ∧ Moved i a A w t zs r.loops g' w3 := by
    rintro w2 b r g' w3 hle ⟨e1, e2, m⟩
    exact ⟨e1, e2, m.before hle⟩
  have hnone : ∀ {w2 : World}, Keep i [] w w2 → JRun i [a] w2 (fun _ => (Job.ret [] : Job Bytes)) (pure (⟨false, [], []⟩ : Proc)) (treeOf t zs) fun b r g' w' => b = r.out ∧ r.brk = false ∧ Moved i a A w t zs r.loops g' w' :=
    fun k => .ret k.solid ⟨rfl, rfl, .still o k⟩
  by_cases hg : ∃ gi, v = .graph gi
  · obtain ⟨gi, rfl⟩ := hg
    obtain ⟨p, rfl, hroot, hloose⟩ := hv.source.graph o1.live.under
    have hsh : Shows (w1.sees i) w1.heap gi p := by
      have := hv.shows
      unfold ShowsV at this
      obtain ⟨p', e, h⟩ := this
      cases e
      exact h
    dsimp only
    refine .look (fun w' kp => ⟨0, fun _ _ => len_run kp.solid (hsh.frame gi kp.see).any⟩) fun w2 k2 => ?_
    rw [hroot.isNone]
    refine .ite (fun _ => hnone (k1.trans k2 nofun)) fun hk => ?_
    refine .look (b := gi.thisString E) (fun w' kp => ?_) fun w3 k3 => ?_
    · obtain ⟨N, b, h', hr, _, e1, e2⟩ := thisString_comes (F := []) (E := E) kp.solid (((hsh.frame gi k2.see).frame gi kp.see).any)
      subst e1 e2
      exact ⟨N, hr⟩
    have k13 : Keep i [] w1 w3 := k2.trans k3 nofun
    have hle3 : w.size ≤ w3.size := Nat.le_trans k1.le k13.le
    cases gi with
    | nil => exact absurd rfl hk
    | node u xs =>
    obtain ⟨q, y, ps, rfl, hq, hl0, _, _⟩ := hsh.parts
    obtain ⟨q', y', ps', e', hl', hy, ho⟩ := hroot
    cases e'
    rw [hl0] at hl'
    cases hl'
    by_cases hb : (Graph.node u xs).thisString E = b!"["
    · simp only [hb, ↓reduceIte]
      cases ho with
      | nil => exact absurd rfl hk
      | @cons g1 p1 gs ps' hn1 h1 hr =>
        have hq1 : q < w1.size := look_lt hl0
        have hq3 := k13.keep q hq1 hq nofun
        obtain ⟨c, hc, _, _, _, _⟩ := load_look k13.solid (hq3.2.trans hl0)
        refine .look (b := c) (fun w' kp => ?_) fun w4 k4 => ?_
        · have := kp.keep q (Nat.lt_of_lt_of_le hq1 k13.le) (k13.sees hq1 hq) nofun
          obtain ⟨c', hc', hld, _⟩ := load_look kp.solid (this.2.trans (hq3.2.trans hl0))
          rw [this.1, hc] at hc'
          cases hc'
          exact ⟨0, fun _ _ => hld⟩
        have k14 : Keep i [] w1 w4 := k13.trans k4 nofun
        refine .look (b := p1) (fun w' kp => ?_) fun w5 k5 => ?_
        · have k1' : Keep i [] w1 w' := k14.trans kp nofun
          have k3' : Keep i [] w3 w' := k4.trans kp nofun
          have h3 := k3'.keep q (Nat.lt_of_lt_of_le hq1 k13.le) (k13.sees hq1 hq) nofun
          exact ⟨0, fun _ _ => index_look kp.solid ((k1'.keep q hq1 hq nofun).2.trans hl0) (h3.1.trans hc) (i := 0) (p := p1) rfl⟩
        have k15 : Keep i [] w1 w5 := k14.trans k5 nofun
        exact (forOver_join hs h2 (o1.keep k15) (h1.frame (k15.stay nofun fun _ hb => .inl hb) k15.under) hn1).mono fun _ _ _ _ _ hq => hback (Nat.le_trans k1.le k15.le) hq
    · simp only [hb, ↓reduceIte]
      refine (forOver_join hs h2 (o1.keep k13) ((hloose ?_).frame (k13.stay nofun fun _ hb => .inl hb) k13.under) nofun).mono fun _ _ _ _ _ hq => hback hle3 hq
      intro e
      obtain rfl : u = .str b!"[" := e
      exact hb rfl
  · have hng : NoGraph v := fun g e => hg ⟨g, e⟩
    have := hv.source.plain hng
    subst this
    cases v <;> first | exact hnone k1 | exact absurd rfl (hng _)

theorem procNodes_join (hE : WholeCalls E) {tsub : Nat → Graph → Job (Bool × Bytes)} {sub : Graph → EvalM Proc} (hs : ∀ T, Calm E T → JRuns i a t (fun n => tsub n T) (sub T)) :
    ∀ (ns : List Graph) (yes : Bool), (∀ n ∈ ns, CalmPiece E n) → JRuns i a t (fun k => tProcNodes grow E k (some a) (tsub k) ns yes) (procNodes E sub ns yes)
  | [], yes, _, A, w, zs, o => by
    unfold tProcNodes procNodes
    exact .ret o.solid ⟨rfl, .still o (.refl o.solid)⟩
  | n :: rest, yes, ho, A, w, zs, o => by
    have hn := ho n (List.mem_cons_self ..)
    have ih := fun yes => procNodes_join hE hs rest yes fun m hm => ho m (List.mem_cons_of_mem _ hm)
    have next : ∀ {r : Proc} {b : Bytes} {g' : Graph} {w' : World} (yes : Bool), b = r.out → Moved i a A w t zs r.loops g' w' →
        JRun i [a] w' (fun k => (tProcNodes grow E k (some a) (tsub k) rest yes).andThen fun r => Job.ret (r.1, b ++ r.2)) (do
          let r' ← procNodes E sub rest yes
          pure (⟨r'.brk, r.out ++ r'.out, r.loops ++ r'.loops⟩ : Proc)) g' fun b r g' w' => b = (r.brk, r.out) ∧ Moved i a A w t zs r.loops g' w' := by
      intro r b g' w' yes eb m
      obtain ⟨A1, zs1, o1, rfl, s1, n1, le1, f1⟩ := m
      refine .bind (ih yes A1 w' zs1 o1) fun b' r' g2 w2 k2 hq => ?_
      obtain ⟨rfl, m2⟩ := hq
      exact .ret k2.solid ⟨by rw [eb], .trans s1 n1 le1 f1 m2⟩
    have skip : ∀ {w' : World} (yes : Bool) (s : Bytes), Keep i [] w w' →
        JRun i [a] w' (fun k => (tProcNodes grow E k (some a) (tsub k) rest yes).andThen fun r => Job.ret (r.1, s ++ r.2)) (do
          let r' ← procNodes E sub rest yes
          pure (⟨r'.brk, s ++ r'.out, [] ++ r'.loops⟩ : Proc)) (treeOf t zs) fun b r g' w' => b = (r.brk, r.out) ∧ Moved i a A w t zs r.loops g' w' :=
      fun yes s kp => next (r := ⟨false, s, []⟩) yes rfl (.still o kp)
    have into : ∀ {w' : World} (j : Int) (yes : Bool), (∀ T, n.getAt j = .ok T → Calm E T) → Keep i [] w w' →
        JRun i [a] w' (fun k => (Job.lift (n.getAt j)).andThen fun t => (tsub k t).andThen fun r =>
          (tProcNodes grow E k (some a) (tsub k) rest yes).andThen fun r' => Job.ret (r'.1, r.2 ++ r'.2)) (do
          let t ← .lift (n.getAt j)
          let r ← sub t
          let r' ← procNodes E sub rest yes
          pure (⟨r'.brk, r.out ++ r'.out, r.loops ++ r'.loops⟩ : Proc)) (treeOf t zs) fun b r g' w' => b = (r.brk, r.out) ∧ Moved i a A w t zs r.loops g' w' := by
      intro w' j yes hc kp
      refine .lifted kp.solid fun T hT => ?_
      refine .bind (hs T (hc T hT) A w' zs (o.keep kp)) fun b r g2 w2 k2 hq => ?_
      obtain ⟨rfl, m⟩ := hq
      exact next yes rfl (m.before kp.le)
    have ev : ∀ {x : Graph} (f : Nat), Fit E x → ∀ w', Keep i [] w w' → Sim [] (fun k => hEval grow E k (some a) f x) w'.heap (eval E f x) (treeOf t zs)
        fun b ag h => ShowsV ((w'.next i h).sees i) h ag.1 b.1 := fun f hx w' kp =>
      Comes.mono ((allSim hE f).eval (o.keep kp).ctx _ hx) fun b ag h tn hq => ⟨hq.1, hq.2.2.frame _ fun b hb _ => ⟨next_sees hb, rfl⟩⟩
    have cond : (∀ l e, n.getAt 0 = .ok l → l.getAt 0 = .ok e → Fit E e) → ∀ {f : Nat → Bool → Job (Bool × Bytes)} {k : Bool → EvalM Proc} {Q : Bool × Bytes → Proc → Graph → World → Prop},
        (∀ b w', Keep i [] w w' → JRun i [a] w' (fun n => f n b) (k b) (treeOf t zs) Q) →
        JRun i [a] w (fun m => Job.andThen ((Job.lift (n.getAt 0)).andThen fun y => (Job.lift (y.getAt 0)).andThen fun x => Job.atom (hEvalBool grow E m (some a) (evalFuel x + 1) x)) (f m)) ((do
          let y ← .lift (n.getAt 0)
          let x ← .lift (y.getAt 0)
          evalBool E (evalFuel x + 1) x) >>= k) (treeOf t zs) Q := by
      intro hfit f k Q hc
      refine .bind (Q := fun b b' g' w' => b = b' ∧ g' = treeOf t zs ∧ Keep i [] w w') ?_ fun b b' g' w' _ hq => ?_
      · refine .lifted o.solid fun y hy => .lifted o.solid fun x hx => ?_
        have h1 : Joins i [] w (fun m => Job.atom (hEvalBool grow E m (some a) (evalFuel x + 1) x)) (evalBool E (evalFuel x + 1) x (treeOf t zs)) fun b ag w' => ag.2 = treeOf t zs ∧ b = ag.1 :=
          Joins.atom nofun fun w' kp => (allSim hE _).evalBool (o.keep kp).ctx _ (hfit _ _ hy hx)
        exact Joins.weaken (F := []) (Joins.mono h1 fun b ag w' kp hq => ⟨hq.2, hq.1, kp⟩) nofun
      · obtain ⟨rfl, rfl, kp⟩ := hq
        exact hc b w' kp
    unfold tProcNodes procNodes
    dsimp only
    refine .ite (fun hp => ?_) fun _ => .ite (fun he => ?_) fun _ => .ite (fun hi => ?_) fun _ => .ite (fun hi => ?_) fun _ => .ite (fun hl => ?_) fun _ =>
      .ite (fun hfor => ?_) fun _ => .ite (fun _ => ?_) fun _ => skip yes _ (.refl o.solid)
    · refine .sim (Q := fun b ag w' => ShowsV (w'.sees i) w'.heap ag.1 b.1) (ev _ (calmPiece_value hn (.inl hp))) fun b ag w1 k1 hv => ?_
      obtain ⟨x, er⟩ := b
      obtain ⟨v, er'⟩ := ag
      dsimp only at hv
      refine .look (b := v) (fun w' kp => ?_) fun w2 k2 => ?_
      · obtain ⟨N, b, h', hr, _, e1, e2⟩ := value_comes (F := []) kp.solid (hv.frame v kp.see)
        subst e1 e2
        exact ⟨N, hr⟩
      refine .lifted k2.solid fun s _ => skip yes s (k1.trans k2 nofun)
    · refine .sim (Q := fun _ _ _ => True) (fun w' kp => Comes.mono (ev _ (calmPiece_value hn (.inr he)) w' kp) fun _ _ _ _ hq => ⟨hq.1, trivial⟩) fun b ag w1 k1 _ => ?_
      exact skip yes [] k1
    · obtain ⟨c1, c2⟩ := calmPiece_cond hn (.inl hi)
      refine cond c1 fun b w1 k1 => ?_
      refine .ite (fun _ => into 1 true c2 k1) fun _ => skip false [] k1
    · obtain ⟨c1, c2⟩ := calmPiece_cond hn (.inr hi)
      refine .ite (fun _ => skip true [] (.refl o.solid)) fun _ => cond c1 fun b w1 k1 => ?_
      refine .ite (fun _ => into 1 true c2 k1) fun _ => skip false [] k1
    · refine .ite (fun _ => skip true [] (.refl o.solid)) fun _ => into 0 false (calmPiece_else hn hl) (.refl o.solid)
    · refine .bind (forNode_join hE hs hn hfor o) fun b r g' w' k1 hq => ?_
      exact next yes hq.1 hq.2.2
    · exact .ret o.solid ⟨rfl, .still o (.refl o.solid)⟩

theorem process_join (hE : WholeCalls E) : ∀ (f : Nat) (T : Graph), Calm E T → JRuns i a t (fun k => tProc grow E k (some a) f T) (process E f T)
  | 0, T, _, A, w, zs, o => .inl rfl
  | f + 1, .nil, _, A, w, zs, o => by
    unfold tProc process
    exact .ret o.solid ⟨rfl, .still o (.refl o.solid)⟩
  | f + 1, .node u ns, hT, A, w, zs, o => by
    unfold tProc process
    exact procNodes_join hE (fun T hT => process_join hE f T hT) ns false (by cases hT with | node h => exact h) A w zs o

theorem tProcess_join (hE : WholeCalls E) {T : Graph} (hT : Calm E T) {A : List Nat} {w : World} {zs : List (Graph × Ptr)} (o : On i a A w t zs) :
    Joins i [a] w (fun n => tProcess grow E n (some a) T) (T.process E (treeOf t zs)) fun b r w' => b = r.1 ∧ ∃ A' zs', On i a A' w' t zs' ∧ r.2 = treeOf t zs' := by
  unfold tProcess Graph.process
  refine Joins.bind (process_join hE (T.height + 1) T hT A w zs o) (fun _ hb => .inl hb) fun b rg w' k' hq => ?_
  obtain ⟨r, g'⟩ := rg
  obtain ⟨rfl, A', zs', o', e', _⟩ := hq
  exact .ret k'.solid ⟨rfl, A', zs', o', e'⟩

theorem tRenders_join (hE : WholeCalls E) : ∀ (ts : List Graph), (∀ T ∈ ts, Calm E T) → ∀ {A : List Nat} {w : World} {zs : List (Graph × Ptr)}, On i a A w t zs →
    Joins i [a] w (fun n => tRenders grow E n (some a) ts) (rendersTree E ts (treeOf t zs)) fun b r _ => b = r.1
  | [], _, A, w, zs, o => by
    unfold tRenders rendersTree
    exact .ret o.solid rfl
  | T :: ts, hT, A, w, zs, o => by
    unfold tRenders rendersTree
    refine .bind (tProcess_join hE (hT T (List.mem_cons_self ..)) o) (fun _ hb => .inl hb) fun b r w1 k1 hq => ?_
    obtain ⟨x, g'⟩ := r
    obtain ⟨rfl, A', zs', o', e'⟩ := hq
    dsimp only at e'
    subst e'
    refine .bind (tRenders_join hE ts (fun U hU => hT U (List.mem_cons_of_mem _ hU)) o') (fun _ hb => .inl hb) fun b r w2 k2 hq => ?_
    subst hq
    exact .ret k2.solid rfl

end
end Ogdl
