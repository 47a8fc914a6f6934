import Verif.Lemmas.TameAssign

/-!
# Processing a template with assignments in memory
-/

namespace Ogdl
open Spec HM

variable {E : Ext} {grow : Nat → Nat → Nat} {F : List Nat} {Z : Nat → Prop} {W : List Bytes}

/-- A value, or an assignment of a value to a name. -/
def ValueOrAssign (E : Ext) (W : List Bytes) (n : Graph) : Prop :=
  Fit E n ∨ ∃ o m r, n = binary o (pathOf [m]) r ∧ o ∈ assignments ∧ Name E m ∧ m ∈ W ∧ Fit E r ∧ NeverGraph E r

theorem tamePiece_value {n : Graph} (h : TamePiece E W n) (hn : n.thisString E = tyPath) : Fit E n := by
  cases h with
  | text h => exact absurd (by rw [hn]; decide) h
  | value _ h => exact h.fit
  | assign => exact absurd (show tyExpression = tyPath from hn) (by decide)
  | cond h => rw [hn] at h; exact absurd h (by decide)
  | els h => rw [hn] at h; exact absurd h (by decide)
  | loop h => rw [hn] at h; exact absurd h (by decide)

theorem tamePiece_expr {n : Graph} (h : TamePiece E W n) (hn : n.thisString E = tyExpression) : ValueOrAssign E W n := by
  cases h with
  | text h => exact absurd (by rw [hn]; decide) h
  | value _ h => exact .inl h.fit
  | assign h1 h2 h3 h4 h5 => exact .inr ⟨_, _, _, rfl, h1, h2, h3, h4.fit, h5⟩
  | cond h => rw [hn] at h; exact absurd h (by decide)
  | els h => rw [hn] at h; exact absurd h (by decide)
  | loop h => rw [hn] at h; exact absurd h (by decide)

theorem tamePiece_cond {n : Graph} (h : TamePiece E W n) (hn : n.thisString E = tyIf ∨ n.thisString E = tyElseIf) :
    (∀ l e, n.getAt 0 = .ok l → l.getAt 0 = .ok e → Fit E e) ∧ ∀ t, n.getAt 1 = .ok t → Tame E W t := by
  cases h with
  | text h => exact absurd (by rcases hn with e | e <;> (rw [e]; decide)) h
  | value h => rcases hn with e | e <;> rw [e] at h <;> exact absurd h (by decide)
  | assign => exact absurd (show tyExpression = tyIf ∨ tyExpression = tyElseIf from hn) (by decide)
  | cond _ h1 h2 => exact ⟨fun l e hl he => (h1 l e hl he).fit, h2⟩
  | els h => rcases hn with e | e <;> rw [e] at h <;> exact absurd h (by decide)
  | loop h => rcases hn with e | e <;> rw [e] at h <;> exact absurd h (by decide)

theorem tamePiece_else {n : Graph} (h : TamePiece E W n) (hn : n.thisString E = tyElse) : ∀ t, n.getAt 0 = .ok t → Tame E W t := by
  cases h with
  | text h => exact absurd (by rw [hn]; decide) h
  | value h => rw [hn] at h; exact absurd h (by decide)
  | assign => exact absurd (show tyExpression = tyElse from hn) (by decide)
  | cond h => rw [hn] at h; exact absurd h (by decide)
  | els _ h => exact h
  | loop h => rw [hn] at h; exact absurd h (by decide)

theorem tamePiece_for {n : Graph} (h : TamePiece E W n) (hn : n.thisString E = tyFor) :
    (∀ l e, n.getAt 0 = .ok l → l.getAt 1 = .ok e → ∃ ids id, e = exprOf (pathOf (ids ++ [id])) ∧ (∀ x ∈ ids ++ [id], Name E x ∧ x ∉ reserved) ∧ id ∉ W) ∧
      ∀ t, n.getAt 1 = .ok t → Tame E W t := by
  cases h with
  | text h => exact absurd (by rw [hn]; decide) h
  | value h => rw [hn] at h; exact absurd h (by decide)
  | assign => exact absurd (show tyExpression = tyFor from hn) (by decide)
  | cond h => rw [hn] at h; exact absurd h (by decide)
  | els h => rw [hn] at h; exact absurd h (by decide)
  | loop _ h1 h2 => exact ⟨h1, h2⟩

section
variable {a : Nat} {t : Val}

/-- A body, or a template, does the same in memory. -/
def Does (E : Ext) (W : List Bytes) (Z : Nat → Prop) (a : Nat) (t : Val) (hm : Nat → HM (Bool × Bytes)) (m : EvalM Proc) : Prop :=
  ∀ (A : List Nat) (h : Heap) (zs : List (Graph × Ptr)), Neat Z a A h t zs →
    Run (a :: wk E W zs) hm h m (treeOf t zs) fun b r g' h' => b = (r.brk, r.out) ∧ Fared E W Z a A h t zs r.loops g' h'

theorem bindAt_string {v : Bytes} {i : Nat} {ee : Graph} {zs : List (Graph × Ptr)} (hGA : Gone i zs ∨ Active v i zs) (hn : ∀ z ∈ zs, z.1 ≠ .nil) :
    ∀ z ∈ zs, (bindAt v i ee z).1.thisString E = z.1.thisString E := by
  intro z hz
  unfold bindAt
  split
  · rename_i e
    rcases hGA with hg | hg
    · exact absurd e (hg z hz)
    · have := (hg.2 z hz).1 e
      cases hz1 : z.1 with
      | nil => exact absurd hz1 (hn z hz)
      | node u o =>
        rw [hz1] at this
        cases this
        rfl
  · rfl

theorem within_cons {h : Heap} {F F' : List Nat} {x : Nat} (hw : Within h F F') : Within h (x :: F) (x :: F') := by
  intro b hb
  rcases List.mem_cons.1 hb with rfl | hb
  · exact .inl (List.mem_cons_self ..)
  · rcases hw b hb with hb | hb
    · exact .inl (List.mem_cons_of_mem _ hb)
    · exact .inr hb

theorem doLoop_run {v : Bytes} {hbody : Nat → HM (Bool × Bytes)} {body : EvalM Proc} {i q : Nat} {c : HNode} {z : HVal} {ps : List Ptr}
    (hb : Does E W Z a t hbody body) (hia : i ≠ a) (hqa : q ≠ a) (hqi : q ≠ i) :
    ∀ (es : List Graph) (A : List Nat) (h : Heap) (zs : List (Graph × Ptr)) (ps2 : List Ptr) (k : Nat) (away : Bool), Neat Z a A h t zs → i ∈ A → q ∉ wk E W zs → AllThisL FlatV es →
      h.nodes[q]? = some c → look h q = some (z, ps) → ps.drop k = ps2 → ShowsL (Stay Z A) h es ps2 → (if away then Gone i zs else Active v i zs) →
      Run (a :: i :: wk E W zs) (fun n => hForLoop grow c.out (some i) (hbody n) es.length k) h (forLoop v body es away) (treeOf t zs)
        fun b r g' h' => b = r.out ∧ r.brk = false ∧ Fared E W Z a A h t zs r.loops g' h'
  | [], A, h, zs, ps2, k, away, T, hi, hq, hfl, hc, hl, hps, hes, ha => by
    unfold hForLoop forLoop
    exact .ret T.live.solid ⟨rfl, rfl, .still T (.refl T.live.solid)⟩
  | ee :: es, A, h, zs, ps2, k, away, T, hi, hq, hfl, hc, hl, hps, hes, ha => by
    have l := T.live
    obtain ⟨te, oe, p1, ps', rfl, rfl, hee, hr⟩ := hes.parts
    obtain ⟨hpi, hps'⟩ := getElem?_of_drop hps
    have hee' := hee
    obtain ⟨b, _, _, rfl, _⟩ := hee.parts
    have hGA : Gone i zs ∨ Active v i zs := by cases away; exact .inr ha; exact .inl ha
    obtain ⟨h1, h2, hr1, hr2, t0, t1, l2⟩ := setVar_live (grow := grow) (v := v) l hi hia hGA hee' nofun
    have t2 : Turns [i] h h2 := t0.trans t1 .refl
    have T2 : Neat Z a A h2 t (zs.map (bindAt v i (.node te oe))) := by
      refine ⟨l2, fun z hz => ?_, T.top, fun z hz => ?_⟩
      · obtain ⟨y, hy, rfl⟩ := List.mem_map.1 hz
        rw [bindAt_snd]
        exact T.owned y hy
      · obtain ⟨y, hy, rfl⟩ := List.mem_map.1 hz
        unfold bindAt
        split
        · exact ⟨nofun, hfl.1, trivial⟩
        · exact T.flat y hy
    have k2 : ∀ j, j ∈ wk E W (zs.map (bindAt v i (.node te oe))) ↔ j ∈ wk E W zs := wk_map (bindAt_string hGA fun z hz => (l.kids z hz).1) fun z _ => bindAt_snd z
    have e2 : (Graph.node t (if away then zs.map (·.1) else setVar v (.node te oe) (zs.map (·.1)))) = treeOf t (zs.map (bindAt v i (.node te oe))) := by
      cases away with
      | true => rw [bindAt_gone (show Gone i zs from ha)]; rfl
      | false =>
        have ha : Active v i zs := ha
        simp only [Bool.false_eq_true, ↓reduceIte]
        rw [setVar_bind (ee := .node te oe) nofun l.nodup ha.2 fun z hz => (l.kids z hz).1]
        rfl
    have tr2 : VarsGo h.nodes.length zs [] (zs.map (bindAt v i (.node te oe))) := by
      intro j _
      refine ⟨fun hg => hg.bind, fun w hw => ⟨fun _ => ?_, nofun⟩⟩
      rcases hGA with hg | hg
      · rw [bindAt_gone hg]; exact hw
      · exact hw.bind hg
    have ha2 : if away then Gone i (zs.map (bindAt v i (.node te oe))) else Active v i (zs.map (bindAt v i (.node te oe))) := by
      cases away with
      | true => exact Gone.bind ha
      | false => exact Active.bind ha ha
    have hc2 : h2.nodes[q]? = some c ∧ look h2 q = some (z, ps) := by
      have := t2.keep q (look_lt hl) (by simpa using hqi)
      exact ⟨this.1.trans hc, this.2.trans hl⟩
    have hr2' : ShowsL (Stay Z A) h2 es ps' := hr.frame es fun d hd hlt => ⟨hd, (t2.keep d hlt (by simp only [List.mem_singleton]; rintro rfl; exact hd.1 hi)).2⟩
    unfold Run
    rw [List.length_cons]
    unfold hForLoop
    rw [show treeOf t zs = .node t (zs.map (·.1)) from rfl, forLoop_cons, e2]
    refine .step (fun _ => index_look l.solid hl hc hpi) ?_
    refine .go (F' := a :: i :: wk E W zs) (h1 := h1) (fun _ => hr1) ?_ .refl (.go (F' := a :: i :: wk E W zs) (fun _ => hr2) ?_ .refl ?_)
    · exact t0.mono (by simp)
    · exact t1.mono (by simp)
    have h3 : Comes (a :: i :: wk E W zs) hbody h2 (body (treeOf t (zs.map (bindAt v i (.node te oe))))) fun b rg h' => Turns (a :: wk E W zs) h2 h' ∧ b = (rg.1.brk, rg.1.out) ∧
        Fared E W Z a A h2 t (zs.map (bindAt v i (.node te oe))) rg.1.loops rg.2 h' := by
      refine Comes.weaken (Comes.mono (hb A h2 _ T2) fun _ _ _ t hq => ⟨t.mono fun b hb => ?_, hq⟩) fun b hb => ?_
      · rcases List.mem_cons.1 hb with rfl | hb
        · exact List.mem_cons_self ..
        · exact List.mem_cons_of_mem _ ((k2 b).1 hb)
      · rcases List.mem_cons.1 hb with rfl | hb
        · exact List.mem_cons_self ..
        · exact List.mem_cons_of_mem _ (List.mem_cons_of_mem _ ((k2 b).1 hb))
    refine .then h3 fun b rg h3 _ hq3 => ?_
    obtain ⟨r, g3⟩ := rg
    obtain ⟨t3, rfl, w3⟩ := hq3
    dsimp only at w3 ⊢
    obtain ⟨A3, zs3, T3, rfl, s3, n3, le3, f3, k3⟩ := w3
    have hlen : h.nodes.length ≤ h2.nodes.length := t2.le
    have n3' : Within h A A3 := (Within.refl (h := h)).trans n3 hlen
    have k3' : Within h2 (wk E W zs) (wk E W zs3) := fun b hb => by
      rcases k3 b hb with hb | hb
      · exact .inl ((k2 b).1 hb)
      · exact .inr hb
    have k3'' : Within h (wk E W zs) (wk E W zs3) := (Within.refl (h := h)).trans k3' hlen
    have f3' : VarsGo h.nodes.length zs r.loops zs3 := by
      have := tr2.trans f3 hlen
      simpa using this
    refine ⟨a :: i :: wk E W zs3, within_cons (within_cons k3'), ?_⟩
    cases hbrk : r.brk with
    | true =>
      simp only [↓reduceIte]
      exact .ret t3.solid ⟨rfl, rfl, A3, zs3, T3, rfl, s3, n3', Nat.le_trans hlen le3, f3', k3''⟩
    | false =>
      simp only [Bool.false_eq_true, ↓reduceIte]
      have hql := look_lt hc2.2
      have hq3 := t3.keep q hql (by simp only [List.mem_cons, not_or]; exact ⟨hqa, hq⟩)
      have hqw : q ∉ wk E W zs3 := fun hx => by
        rcases k3' q hx with hx | hx
        · exact hq hx
        · omega
      have hr3 : ShowsL (Stay Z A3) h3 es ps' := hr2'.frame es fun d hd hlt => by
        refine ⟨⟨fun hx => ?_, hd.2⟩, (t3.keep d hlt ?_).2⟩
        · rcases n3 d hx with hx | hx
          · exact hd.1 hx
          · omega
        · intro hx
          rcases List.mem_cons.1 hx with rfl | hx
          · exact hd.1 l.mem
          · exact hd.1 (T.wk_mem hx)
      have ha3 : if (away || r.loops.contains v) then Gone i zs3 else Active v i zs3 := by
        obtain ⟨fg, fa⟩ := f3 i (l2.below i hi)
        cases away with
        | true => exact fg ha2
        | false =>
          simp only [Bool.false_or]
          by_cases hv : v ∈ r.loops
          · rw [if_pos (by simpa using hv)]; exact (fa v ha2).2 hv
          · rw [if_neg (by simpa using hv)]; exact (fa v ha2).1 hv
      have := doLoop_run hb hia hqa hqi es A3 h3 zs3 ps' (k + 1) (away || r.loops.contains v) T3 (s3 i hi) hqw hfl.2 (hq3.1.trans hc2.1) (hq3.2.trans hc2.2) hps' hr3 ha3
      refine Comes.bind this fun o rg' h4 t4 hq => ?_
      obtain ⟨r', g4⟩ := rg'
      obtain ⟨rfl, _, w4⟩ := hq
      refine .ret t4.solid ⟨rfl, rfl, ?_⟩
      obtain ⟨A4, zs4, l4, e4, s4, n4, le4, f4, k4⟩ := w4
      exact ⟨A4, zs4, l4, e4, fun b hb => s4 b (s3 b hb), n3'.trans n4 (by omega), by omega, f3'.trans f4 (by omega), k3''.trans k4 (by omega)⟩

theorem doOver_run {hsub : Nat → Graph → HM (Bool × Bytes)} {sub : Graph → EvalM Proc} (hs : ∀ T, Tame E W T → Does E W Z a t (fun n => hsub n T) (sub T)) {n : Graph}
    (hn : ∀ T, n.getAt 1 = .ok T → Tame E W T) {A : List Nat} {h : Heap} {zs : List (Graph × Ptr)} (T : Neat Z a A h t zs) {gi : Graph} {p : Ptr} (hgi : Loose (Stay Z A) (Under Z a) h gi p) (hnil : gi ≠ .nil)
    (hfl : Flat gi) (hqw : ∀ q, p = some q → q ∉ wk E W zs) :
    Run (a :: wk E W zs) (fun k => hForOver grow E (some a) (hsub k) n p) h (forOver E sub n gi) (treeOf t zs) fun b r g' h' => b = r.out ∧ r.brk = false ∧ Fared E W Z a A h t zs r.loops g' h' := by
  have l := T.live
  unfold hForOver forOver
  refine .lifted l.solid fun args _ => .lifted l.solid fun x _ => .lifted l.solid fun y _ => .lifted l.solid fun nm _ => ?_
  obtain ⟨h1, hr1, t1, l1, e1⟩ := hDelete_live (E := E) (grow := grow) (nm := nm) l
  obtain ⟨h2, hr2, t2, hlen2, l2, e2⟩ := addVar_live (grow := grow) (nm := nm) l1
  have T2 : Neat Z a (h1.nodes.length :: A) h2 t (zs.filter (keeps nm) ++ [(.node (.str nm) [], some h1.nodes.length)]) := by
    refine ⟨l2, fun z hz => ?_, T.top, fun z hz => ?_⟩
    · rcases List.mem_append.1 hz with hz | hz
      · obtain ⟨i, hi, e⟩ := T.owned z (List.mem_filter.1 hz).1
        exact ⟨i, List.mem_cons_of_mem _ hi, e⟩
      · rw [List.mem_singleton] at hz
        subst hz
        exact ⟨_, List.mem_cons_self .., rfl⟩
    · rcases List.mem_append.1 hz with hz | hz
      · exact T.flat z (List.mem_filter.1 hz).1
      · rw [List.mem_singleton] at hz
        subst hz
        exact ⟨nofun, trivial⟩
  cases gi with
  | nil => exact absurd rfl hnil
  | node w es =>
  obtain ⟨q, z, ps, rfl, hqa, hl, _, hes⟩ := hgi
  have hql := look_lt hl
  have hle1 := t1.le
  have k2 : ∀ b ∈ wk E W (zs.filter (keeps nm) ++ [((.node (.str nm) [] : Graph), some h1.nodes.length)]), b ∈ wk E W zs ∨ b = h1.nodes.length := by
    intro b hb
    obtain ⟨z, hz, e1, e2⟩ := mem_wk.1 hb
    rcases List.mem_append.1 hz with hz | hz
    · exact .inl (mem_wk.2 ⟨z, (List.mem_filter.1 hz).1, e1, e2⟩)
    · rw [List.mem_singleton] at hz
      subst hz
      cases e2
      exact .inr rfl
  have hP : ∀ d, Stay Z A d → d < h.nodes.length → Stay Z (h1.nodes.length :: A) d ∧ look h2 d = look h d := fun d hd hlt => by
    have hda : d ≠ a := (l.under d hd).1
    refine ⟨⟨fun hx => ?_, hd.2⟩, ((t2.keep d (by omega) (by simpa using hda)).2.trans (t1.keep d hlt (by simpa using hda)).2)⟩
    rcases List.mem_cons.1 hx with rfl | hx
    · omega
    · exact hd.1 hx
  have hl2 : look h2 q = some (z, ps) := by
    have hqa : q ≠ a := hqa.1
    rw [(t2.keep q (by omega) (by simpa using hqa)).2, (t1.keep q hql (by simpa using hqa)).2]
    exact hl
  obtain ⟨c, hc, hld, _, hlen, _⟩ := load_look t2.solid hl2
  unfold Run
  rw [evalM_bind]
  have e3 : EvalM.modify (fun c => do
      let c ← c.delete E (.str nm)
      .ok ((c.add (.str nm)).1, ())) (treeOf t zs) = .ok ((), treeOf t (zs.filter (keeps nm) ++ [(.node (.str nm) [], some h1.nodes.length)])) := by
    unfold EvalM.modify
    dsimp only
    rw [e1]
    simp only [Res.ok_bind]
    rw [e2]
  rw [e3]
  refine .go (F' := a :: wk E W zs) (fun _ => hr1) (t1.mono (by simp)) .refl
    (.go (F' := a :: h1.nodes.length :: wk E W (zs.filter (keeps nm) ++ [((.node (.str nm) [] : Graph), some h1.nodes.length)])) (fun _ => hr2) (t2.mono (by simp)) (fun b hb => ?_) ?_)
  · rcases List.mem_cons.1 hb with rfl | hb
    · exact .inl (List.mem_cons_self ..)
    rcases List.mem_cons.1 hb with rfl | hb
    · exact .inr (Nat.le_refl _)
    rcases k2 b hb with hb | rfl
    · exact .inl (List.mem_cons_of_mem _ hb)
    · exact .inr (Nat.le_refl _)
  show Run (a :: h1.nodes.length :: wk E W (zs.filter (keeps nm) ++ [((.node (.str nm) [] : Graph), some h1.nodes.length)]))
    (fun k => HM.lift (n.getAt 1) >>= fun body => HM.load (some q) >>= fun l => hForLoop grow l.out (some h1.nodes.length) (hsub k body) l.out.len 0) h2
    (EvalM.lift (n.getAt 1) >>= fun body => do let r ← forLoop nm (sub body) es false; pure { r with loops := nm :: r.loops })
    (treeOf t (zs.filter (keeps nm) ++ [(.node (.str nm) [], some h1.nodes.length)])) fun b r g' h' => b = r.out ∧ r.brk = false ∧ Fared E W Z a A h t zs r.loops g' h'
  refine .lifted l2.solid fun body hbody => ?_
  have hgone : ∀ z ∈ zs.filter (keeps nm), z.2 ≠ some h1.nodes.length := by
    intro z hz e
    obtain ⟨i, _, _, e', _, _, _, hlt⟩ := T.kid (List.mem_filter.1 hz).1
    rw [e] at e'
    cases e'
    omega
  have hact : Active nm h1.nodes.length (zs.filter (keeps nm) ++ [(.node (.str nm) [], some h1.nodes.length)]) := by
    refine ⟨⟨_, List.mem_append_right _ (List.mem_singleton.2 rfl), rfl⟩, fun z hzm => ?_⟩
    rcases List.mem_append.1 hzm with hzm | hzm
    · constructor
      · intro e; exact absurd e (hgone z hzm)
      · intro e
        have := (List.mem_filter.1 hzm).2
        unfold keeps at this
        rw [isStr_iff.2 e] at this
        exact absurd this (by simp)
    · rw [List.mem_singleton] at hzm
      subst hzm
      exact ⟨fun _ => rfl, fun _ => rfl⟩
  have hlen' : c.out.len = es.length := by rw [hlen, hes.length]
  have hal := l.below a l.mem
  have hq2 : q ∉ wk E W (zs.filter (keeps nm) ++ [((.node (.str nm) [] : Graph), some h1.nodes.length)]) := fun hx => by
    rcases k2 q hx with hx | hx
    · exact hqw q rfl hx
    · omega
  have hloop := doLoop_run (grow := grow) (v := nm) (i := h1.nodes.length) (hs body (hn body hbody)) (show h1.nodes.length ≠ a by omega) hqa.1 (show q ≠ h1.nodes.length by omega) es _ h2 _ ps 0 false T2
    (List.mem_cons_self ..) hq2 hfl.2 hc hl2 rfl (hes.frame es hP) hact
  refine .step (fun _ => hld) ?_
  rw [hlen']
  have hret := Run.bind (hk := fun _ o => pure o) (k := fun r => pure { r with loops := nm :: r.loops }) (Q' := fun b r g' h' => b = r.out ∧ r.brk = false ∧ Fared E W Z a A h t zs r.loops g' h')
    hloop fun o r g' h' t' hq => by
      obtain ⟨e, hb, A', zs', L', e', s', n', le', f', k'⟩ := hq
      refine .ret t'.solid ⟨e, hb, A', zs', L', e', fun b hb => s' b (List.mem_cons_of_mem _ hb), fun b hb => ?_, by omega, ?_, fun b hb => ?_⟩
      · rcases n' b hb with hb | hb
        · rcases List.mem_cons.1 hb with rfl | hb
          · exact .inr hle1
          · exact .inl hb
        · exact .inr (by omega)
      · exact (varsGo_new (nm := nm) (i := h1.nodes.length) hle1).trans f' (by omega)
      · rcases k' b hb with hb | hb
        · rcases k2 b hb with hb | rfl
          · exact .inl hb
          · exact .inr hle1
        · exact .inr (by omega)
  simpa only [hm_bind_pure] using hret

theorem string_same {h : Heap} (hs : Solid h) {g1 g2 : Graph} {p : Ptr} (h1 : Shows (fun _ => True) h g1 p) (h2 : Shows (fun _ => True) h g2 p) : g1.thisString E = g2.thisString E := by
  obtain ⟨N1, s1, x1, hr1, _, _, e1⟩ := thisString_comes (E := E) (F := []) hs h1
  obtain ⟨N2, s2, x2, hr2, _, _, e2⟩ := thisString_comes (E := E) (F := []) hs h2
  have h1 := hr1 (max N1 N2) (by omega)
  rw [hr2 (max N1 N2) (by omega)] at h1
  rw [← e1, ← e2]
  cases h1
  rfl

theorem source_names {ids : List Bytes} {id : Bytes} (hid : ∀ x ∈ ids ++ [id], Name E x ∧ x ∉ reserved) : Asks E (exprOf (pathOf (ids ++ [id]))) ∧ Source E (exprOf (pathOf (ids ++ [id]))) := by
  refine ⟨exprOf_asks nofun (pathOf_asks fun x hx => (hid x hx).1), .expr rfl (.path rfl fun k ks e => ?_)⟩
  cases ids with
  | nil =>
    cases e
    exact fun e => (hid id (by simp)).2 (by rw [show id = _ from e]; decide)
  | cons x xs =>
    cases e
    exact fun e => (hid x (by simp)).2 (by rw [show x = _ from e]; decide)

theorem doNode_run (hE : ScalarCalls E) {hsub : Nat → Graph → HM (Bool × Bytes)} {sub : Graph → EvalM Proc} (hs : ∀ T, Tame E W T → Does E W Z a t (fun n => hsub n T) (sub T)) {n : Graph}
    (hn : TamePiece E W n) (hfor : n.thisString E = tyFor) {A : List Nat} {h : Heap} {zs : List (Graph × Ptr)} (T : Neat Z a A h t zs) :
    Run (a :: wk E W zs) (fun k => hForNode grow E k (some a) (hsub k) n) h (forNode E sub n) (treeOf t zs) fun b r g' h' => b = r.out ∧ r.brk = false ∧ Fared E W Z a A h t zs r.loops g' h' := by
  have l := T.live
  unfold hForNode
  rw [forNode_over]
  refine .lifted l.solid fun args hargs => .lifted l.solid fun src hsrc => ?_
  obtain ⟨h1, h2⟩ := tamePiece_for hn hfor
  obtain ⟨ids, id, rfl, hid, hidW⟩ := h1 args src hargs hsrc
  obtain ⟨hask, hok⟩ := source_names hid
  refine .sim (eval_source l.under (ScalarCalls.whole hE) l.ctx l.fresh l.isRoot _ hask.fit hok).known fun b ag h' t1 hq => ?_
  obtain ⟨x, er⟩ := b
  obtain ⟨v, er'⟩ := ag
  obtain ⟨⟨_, hv⟩, hev⟩ := hq
  have T1 := T.turns t1
  have l1 := T1.live
  dsimp only at hv ⊢
  have hback : ∀ {b : Bytes} {r : Proc} {g' : Graph} {h'' : Heap}, b = r.out ∧ r.brk = false ∧ Fared E W Z a A h' t zs r.loops g' h'' → b = r.out ∧ r.brk = false ∧ Fared E W Z a A h t zs r.loops g' h'' :=
    fun ⟨e1, e2, w⟩ => ⟨e1, e2, w.after t1⟩
  have hnone : Run (a :: wk E W zs) (fun _ => (pure [] : HM Bytes)) h' (pure (⟨false, [], []⟩ : Proc)) (treeOf t zs) fun b r g' h' => b = r.out ∧ r.brk = false ∧ Fared E W Z a A h t zs r.loops g' h' :=
    .ret t1.solid ⟨rfl, rfl, .still T t1⟩
  by_cases hg : ∃ gi, v = .graph gi
  · obtain ⟨gi, rfl⟩ := hg
    obtain ⟨p, rfl, hroot, hloose⟩ := hv.graph l.under
    dsimp only
    refine .step (fun _ => len_run t1.solid hroot.any) ?_
    rw [hroot.isNone]
    refine .ite (fun _ => hnone) fun hk => ?_
    refine .have' (thisString_comes t1.solid hroot.any) fun s hs' => ?_
    subst hs'
    have hfl := source_flat hE hid T.whole hev gi rfl
    cases gi with
    | nil => exact absurd rfl hk
    | node w o =>
    obtain ⟨hflat, htext⟩ := hfl.resolve_left nofun
    have hb : ¬ (Graph.node w o).thisString E = b!"[" := by
      rw [htext]
      exact name_not_bracket (hid id (by simp)).1
    simp only [hb, ↓reduceIte]
    have hlo := hloose (by
      intro e
      obtain rfl : w = .str b!"[" := e
      exact hb rfl)
    refine (doOver_run hs h2 T1 hlo nofun hflat fun q hp hq => ?_).mono fun _ _ _ _ _ hq => hback hq
    obtain ⟨z, hz, e1, e2⟩ := mem_wk.1 hq
    have hz' := (l1.kids z hz).2.any
    rw [e2, ← hp] at hz'
    have := string_same (E := E) t1.solid hz' hlo.any
    rw [this, htext] at e1
    exact hidW e1
  · have hng : NoGraph v := fun g e => hg ⟨g, e⟩
    have := hv.plain hng
    subst this
    cases v <;> first | exact hnone | exact absurd rfl (hng _)

/-! ## Templates -/

theorem doNodes_run (hE : ScalarCalls E) {hsub : Nat → Graph → HM (Bool × Bytes)} {sub : Graph → EvalM Proc} (hs : ∀ T, Tame E W T → Does E W Z a t (fun n => hsub n T) (sub T)) :
    ∀ (o : List Graph) (yes : Bool), (∀ n ∈ o, TamePiece E W n) → Does E W Z a t (fun k => hProcNodes grow E k (some a) (hsub k) o yes) (procNodes E sub o yes)
  | [], yes, _, A, h, zs, T => by
    unfold hProcNodes procNodes
    exact .ret T.live.solid ⟨rfl, .still T (.refl T.live.solid)⟩
  | n :: rest, yes, ho, A, h, zs, T => by
    have l := T.live
    have hn := ho n (List.mem_cons_self ..)
    have ih := fun yes => doNodes_run hE hs rest yes fun m hm => ho m (List.mem_cons_of_mem _ hm)
    have next : ∀ {r : Proc} {b : Bytes} {g' : Graph} {h' : Heap} (yes : Bool), b = r.out → Fared E W Z a A h t zs r.loops g' h' →
        ∃ F', Within h (a :: wk E W zs) F' ∧ Run F' (fun k => do
          let r ← hProcNodes grow E k (some a) (hsub k) rest yes
          pure (r.1, b ++ r.2)) h' (do
          let r' ← procNodes E sub rest yes
          pure (⟨r'.brk, r.out ++ r'.out, r.loops ++ r'.loops⟩ : Proc)) g' fun b r g' h' => b = (r.brk, r.out) ∧ Fared E W Z a A h t zs r.loops g' h' := by
      intro r b g' h' yes eb w
      obtain ⟨A1, zs1, T1, rfl, s1, n1, le1, f1, k1⟩ := w
      refine ⟨a :: wk E W zs1, within_cons k1, ?_⟩
      refine .bind (ih yes A1 h' zs1 T1) fun b' r' g2 h2 t2 hq => ?_
      obtain ⟨rfl, A2, zs2, L2, e2, s2, n2, le2, f2, k2⟩ := hq
      exact .ret t2.solid ⟨by rw [eb], A2, zs2, L2, e2, fun b hb => s2 b (s1 b hb), n1.trans n2 le1, by omega, f1.trans f2 le1, k1.trans k2 le1⟩
    have skip : ∀ {h' : Heap} (yes : Bool) (s : Bytes), Turns [] h h' →
        Run (a :: wk E W zs) (fun k => do
          let r ← hProcNodes grow E k (some a) (hsub k) rest yes
          pure (r.1, s ++ r.2)) h' (do
          let r' ← procNodes E sub rest yes
          pure (⟨r'.brk, s ++ r'.out, [] ++ r'.loops⟩ : Proc)) (treeOf t zs) fun b r g' h' => b = (r.brk, r.out) ∧ Fared E W Z a A h t zs r.loops g' h' := by
      intro h' yes s tn
      refine .bind (ih yes A h' zs (T.turns tn)) fun b' r' g2 h2 t2 hq => ?_
      obtain ⟨rfl, w⟩ := hq
      exact .ret t2.solid ⟨rfl, by simpa using w.after tn⟩
    have into : ∀ {h' : Heap} (i : Int) (yes : Bool), (∀ T, n.getAt i = .ok T → Tame E W T) → Turns [] h h' →
        Run (a :: wk E W zs) (fun k => do
          let t ← HM.lift (n.getAt i)
          let r ← hsub k t
          let r' ← hProcNodes grow E k (some a) (hsub k) rest yes
          pure (r'.1, r.2 ++ r'.2)) h' (do
          let t ← .lift (n.getAt i)
          let r ← sub t
          let r' ← procNodes E sub rest yes
          pure (⟨r'.brk, r.out ++ r'.out, r.loops ++ r'.loops⟩ : Proc)) (treeOf t zs) fun b r g' h' => b = (r.brk, r.out) ∧ Fared E W Z a A h t zs r.loops g' h' := by
      intro h' i yes hc tn
      refine .lifted tn.solid fun U hU => ?_
      refine .then (hs U (hc U hU) A h' zs (T.turns tn)) fun b r g2 h2 t2 hq => ?_
      obtain ⟨rfl, w⟩ := hq
      obtain ⟨A1, zs1, T1, rfl, s1, n1, le1, f1, k1⟩ := w
      refine ⟨a :: wk E W zs1, within_cons k1, ?_⟩
      refine .bind (ih yes A1 h2 zs1 T1) fun b' r' g3 h3 t3 hq => ?_
      obtain ⟨rfl, A2, zs2, L2, e2, s2, n2, le2, f2, k2⟩ := hq
      exact .ret t3.solid ⟨rfl, Fared.after tn ⟨A2, zs2, L2, e2, fun b hb => s2 b (s1 b hb), n1.trans n2 le1, by omega, f1.trans f2 le1, k1.trans k2 le1⟩⟩
    have ev : ∀ {x : Graph} (f : Nat), Fit E x → Sim [] (fun k => hEval grow E k (some a) f x) h (eval E f x) (treeOf t zs) (Both fun _ => True) :=
      fun f hx => (allSim (ScalarCalls.whole hE) f).eval l.ctx _ hx
    have cond : (∀ l e, n.getAt 0 = .ok l → l.getAt 0 = .ok e → Fit E e) → ∀ {hk : Nat → Bool → HM (Bool × Bytes)} {k : Bool → EvalM Proc} {Q : Bool × Bytes → Proc → Graph → Heap → Prop},
        (∀ b h', Turns [] h h' → Run (a :: wk E W zs) (fun n => hk n b) h' (k b) (treeOf t zs) Q) →
        Run (a :: wk E W zs) (fun m => (do
          let y ← HM.lift (n.getAt 0)
          let x ← HM.lift (y.getAt 0)
          hEvalBool grow E m (some a) (evalFuel x + 1) x) >>= hk m) h ((do
          let y ← .lift (n.getAt 0)
          let x ← .lift (y.getAt 0)
          evalBool E (evalFuel x + 1) x) >>= k) (treeOf t zs) Q := by
      intro hfit hk k Q hc
      have : Sim [] (fun m => (do
          let y ← HM.lift (n.getAt 0)
          let x ← HM.lift (y.getAt 0)
          hEvalBool grow E m (some a) (evalFuel x + 1) x)) h (do
          let y ← .lift (n.getAt 0)
          let x ← .lift (y.getAt 0)
          evalBool E (evalFuel x + 1) x) (treeOf t zs) fun b a _ => b = a := by
        refine .bind (.lift (.lifted (Q := fun a b h' => a = b ∧ n.getAt 0 = .ok b ∧ h' = h) l.solid fun a ha => ⟨rfl, ha, rfl⟩)) fun y y' h1 t1 hq => ?_
        obtain ⟨rfl, hy, rfl⟩ := hq
        refine .bind (.lift (.lifted (Q := fun a b h' => a = b ∧ y.getAt 0 = .ok b ∧ h' = h1) l.solid fun a ha => ⟨rfl, ha, rfl⟩)) fun x x' h2 t2 hq => ?_
        obtain ⟨rfl, hx, rfl⟩ := hq
        exact (allSim (ScalarCalls.whole hE) _).evalBool l.ctx _ (hfit _ _ hy hx)
      exact .sim this fun b b' h' t1 e => by subst e; exact hc b h' t1
    unfold hProcNodes procNodes
    dsimp only
    refine .ite (fun hp => ?_) fun _ => .ite (fun he => ?_) fun _ => .ite (fun hi => ?_) fun _ => .ite (fun hi => ?_) fun _ => .ite (fun hl => ?_) fun _ =>
      .ite (fun hfor => ?_) fun _ => .ite (fun _ => ?_) fun _ => skip yes _ (.refl l.solid)
    · refine .sim (ev _ (tamePiece_value hn hp)) fun b ag h1 t1 hq => ?_
      obtain ⟨x, er⟩ := b
      obtain ⟨v, er'⟩ := ag
      obtain ⟨_, hv⟩ := hq
      refine .have' (value_comes t1.solid hv) fun v' e => ?_
      subst e
      refine .lifted t1.solid fun s _ => skip yes s t1
    · rcases tamePiece_expr hn he with hfit | ⟨o, m, r, rfl, ho, hm, hW, hr, hng⟩
      · refine .sim (ev _ hfit) fun b ag h1 t1 hq => ?_
        exact skip yes [] t1
      · refine .then (binary_neat (ScalarCalls.whole hE) T ho hm hW hr hng) fun b ag g' h1 t1 hq => ?_
        exact next (r := ⟨false, [], []⟩) yes rfl hq
    · obtain ⟨c1, c2⟩ := tamePiece_cond hn (.inl hi)
      refine cond c1 fun b h1 t1 => ?_
      refine .ite (fun _ => into 1 true c2 t1) fun _ => skip false [] t1
    · obtain ⟨c1, c2⟩ := tamePiece_cond hn (.inr hi)
      refine .ite (fun _ => skip true [] (.refl l.solid)) fun _ => cond c1 fun b h1 t1 => ?_
      refine .ite (fun _ => into 1 true c2 t1) fun _ => skip false [] t1
    · refine .ite (fun _ => skip true [] (.refl l.solid)) fun _ => into 0 false (tamePiece_else hn hl) (.refl l.solid)
    · refine .then (doNode_run hE hs hn hfor T) fun b r g' h' t1 hq => ?_
      exact next yes hq.1 hq.2.2
    · exact .ret l.solid ⟨rfl, .still T (.refl l.solid)⟩

theorem doProcess_run (hE : ScalarCalls E) : ∀ (f : Nat) (U : Graph), Tame E W U → Does E W Z a t (fun k => hProc grow E k (some a) f U) (process E f U)
  | 0, U, _, A, h, zs, T => by unfold process; trivial
  | f + 1, .nil, _, A, h, zs, T => by
    unfold hProc process
    exact .ret T.live.solid ⟨rfl, .still T (.refl T.live.solid)⟩
  | f + 1, .node w o, hU, A, h, zs, T => by
    unfold hProc process
    exact doNodes_run hE (fun U hU => doProcess_run hE f U hU) o false (by cases hU with | node h => exact h) A h zs T

/-! ## Several templates -/

theorem doOne_run (hE : ScalarCalls E) {U : Graph} (hU : Tame E W U) {A : List Nat} {h : Heap} {zs : List (Graph × Ptr)} (T : Neat Z a A h t zs) :
    Comes (a :: wk E W zs) (fun n => hProcess grow E n (some a) U) h (U.process E (treeOf t zs)) fun b r h' => b = r.1 ∧ ∃ l, Fared E W Z a A h t zs l r.2 h' := by
  unfold hProcess Graph.process
  refine Comes.bind (doProcess_run hE (U.height + 1) U hU A h zs T) fun b rg h' t' hq => ?_
  obtain ⟨r, g'⟩ := rg
  obtain ⟨rfl, w⟩ := hq
  exact .ret t'.solid ⟨rfl, _, w⟩

theorem doAll_run (hE : ScalarCalls E) : ∀ (ts : List Graph), (∀ T ∈ ts, Tame E W T) → ∀ {A : List Nat} {h : Heap} {zs : List (Graph × Ptr)}, Neat Z a A h t zs →
    Comes (a :: wk E W zs) (fun n => rendersMem E grow n (some a) ts) h (rendersTree E ts (treeOf t zs)) fun b r h' => b = r.1 ∧ ∃ A' zs', Neat Z a A' h' t zs' ∧ r.2 = treeOf t zs'
  | [], _, A, h, zs, T => by
    unfold rendersMem rendersTree
    exact .ret T.live.solid ⟨rfl, A, zs, T, rfl⟩
  | U :: ts, hU, A, h, zs, T => by
    unfold rendersMem rendersTree
    refine .then (doOne_run hE (hU U (List.mem_cons_self ..)) T) fun b r h1 t1 hq => ?_
    obtain ⟨o, g'⟩ := r
    obtain ⟨rfl, loops, A1, zs1, T1, e1, s1, n1, le1, f1, k1⟩ := hq
    dsimp only at e1
    subst e1
    refine ⟨a :: wk E W zs1, within_cons k1, ?_⟩
    refine .bind (doAll_run hE ts (fun U hU' => hU U (List.mem_cons_of_mem _ hU')) T1) fun b r h2 t2 hq => ?_
    obtain ⟨rfl, A2, zs2, L2, e2⟩ := hq
    exact .ret t2.solid ⟨rfl, A2, zs2, L2, e2⟩

/-! ## Any context -/

mutual
theorem holds_flat {h : Heap} : ∀ (g : Graph) {p : Ptr} {F : List Nat}, Holds h g p F → Flat g
  | .nil, _, _, _ => trivial
  | .node v gs, p, F, hg => by
    obtain ⟨a, x, ps, F', _, _, _, _, hc, ho⟩ := hg.parts
    refine ⟨fun g e => ?_, holds_flatL gs ho⟩
    cases hc with
    | val h => exact absurd e (h g)
    | nil => cases e; rfl
theorem holds_flatL {h : Heap} : ∀ (gs : List Graph) {ps : List Ptr} {F : List Nat}, HoldsL h gs ps F → AllThisL FlatV gs
  | [], _, _, _ => trivial
  | g :: gs, ps, F, hg => by
    unfold HoldsL at hg
    obtain ⟨p, ps', F1, F2, _, _, _, h1, h2⟩ := hg
    exact ⟨holds_flat g h1, holds_flatL gs h2⟩
end

end
end Ogdl
