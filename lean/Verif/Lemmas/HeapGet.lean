import Verif.Lemmas.ShowsSet
import Verif.Lemmas.Get

/-!
# Paths of names lead to nodes of the graph
-/

namespace Ogdl
open HM Spec

variable {E : Ext} {grow : Nat → Nat → Nat}

/-- A name is found. -/
theorem node_leads {h : Heap} (hs : Solid h) {a : Nat} {x : HVal} {ps : List Ptr} {o : List Graph} {F : List Nat} (hl : look h a = some (x, ps)) (ho : HoldsL h o ps F)
    {id : Bytes} {i : Nat} (hi : findName E id o = .ok (some i)) (fuel : Nat) : ∃ q, ps[i]? = some q ∧ (hNode E fuel (some a) id).run h = (.ok q, h) := by
  have h0 := node_holds (E := E) (fuel := fuel) hs hl ho id
  rw [hi] at h0
  obtain ⟨q, h', hr, rfl, q', hq, rfl⟩ := h0
  exact ⟨q, hq, hr⟩

theorem len_leads {h : Heap} (hs : Solid h) {a : Nat} {x : HVal} {ps : List Ptr} (hl : look h a = some (x, ps)) : (hLen (some a)).run h = (.ok ps.length, h) := by
  obtain ⟨c, _, hld, _, hlen, _⟩ := load_look hs hl
  show (load (some a) >>= _).run h = _
  rw [ok_bind' hld, hlen]
  rfl

theorem getStep_leads {h : Heap} {fuel f : Nat} {root : Ptr} {pg : Graph} {id : Bytes} (hid : id ∉ stepMarks) {s : HPathSt} {b : Nat} {k : Int}
    (hn : (hNode E fuel s.ctx id).run h = (.ok (some b), h)) (hk : (hLen s.ctx).run h = (.ok k, h)) :
    (hGetStep grow E fuel root (f + 2) pg (leaf id) s).run h = (.ok (.next { ctx := some b, prev := s.ctx, elem := id }), h) := by
  simp only [stepMarks, reserved, List.mem_append, List.mem_cons, List.not_mem_nil, or_false, not_or] at hid
  obtain ⟨⟨h1, h2, h3, h4⟩, _⟩ := hid
  unfold hGetStep
  simp only [leaf_thisString, tyIndex, tySelector, tyArguments, tyGroup, h1, h2, h3, h4, ↓reduceIte]
  unfold hGetName
  rw [ok_bind' hn, ok_bind' hk]
  rfl

theorem evalStep_leads {h : Heap} {fuel f : Nat} {root : Ptr} {pg : Graph} {id : Bytes} (hid : id ∉ stepMarks) {s : HPathSt} {b : Nat} {k : Int}
    (hn : (hNode E fuel s.ctx id).run h = (.ok (some b), h)) (hk : (hLen s.ctx).run h = (.ok k, h)) :
    (hEvalStep grow E fuel root (f + 2) pg (leaf id) s).run h = (.ok (.next { ctx := some b, prev := s.ctx, elem := id, addRoot := false }), h) := by
  simp only [stepMarks, reserved, List.mem_append, List.mem_cons, List.not_mem_nil, or_false, not_or] at hid
  obtain ⟨⟨h1, h2, h3, h4⟩, h5, h6, h7, h8, h9⟩ := hid
  unfold hEvalStep
  simp only [leaf_thisString, tyIndex, tySelector, tyArguments, tyGroup, h1, h2, h3, h4, h5, h6, h7, h8, h9, ↓reduceIte]
  unfold hEvalName
  rw [ok_bind' hn, ok_bind' hk]
  rfl

/-- Where a path leads. -/
structure Leads (E : Ext) (grow : Nat → Nat → Nat) (h : Heap) (ids : List Bytes) (g : Graph) (p : Ptr) (F : List Nat) (q : Ptr) (X : List Nat) : Prop where
  holds : Holds h (lookup E ids g) q X
  sub : ∀ a ∈ X, a ∈ F
  get : ∀ (fuel f : Nat) (pg : Graph) (root : Ptr) (s : HPathSt), s.ctx = p →
    ∃ s', (hWalkPath (hGetStep grow E fuel root (f + 2) pg) (ids.map leaf) s).run h = (.ok (.next s'), h) ∧ s'.ctx = q
  eval : ∀ (fuel f : Nat) (pg : Graph) (root : Ptr) (s : HPathSt), s.ctx = p → s.addRoot = false →
    ∃ s', (hWalkPath (hEvalStep grow E fuel root (f + 2) pg) (ids.map leaf) s).run h = (.ok (.next s'), h) ∧ s'.ctx = q ∧ s'.addRoot = false
  frame : ∀ (h' : Heap) (r : Graph) (X' : List Nat), Turns X h h' → Holds h' r q X' → Within h X X' → ∃ F', Holds h' (replaceAt E ids r g) p F' ∧ Within h F F'

theorem walk_step {step : Graph → HPathSt → HM (HPathStep α)} {e : Graph} {es : List Graph} {s s' : HPathSt} {a : Nat} {h : Heap} (hc : s.ctx = some a)
    (hr : (step e s).run h = (.ok (.next s'), h)) : (hWalkPath step (e :: es) s).run h = (hWalkPath step es s').run h := by
  unfold hWalkPath
  rw [hc]
  dsimp only
  rw [ok_bind' hr]
  cases es <;> rfl

theorem path_leads {h : Heap} (hs : Solid h) : ∀ (ids : List Bytes), (∀ id ∈ ids, id ∉ stepMarks) → ∀ {g : Graph} {p : Ptr} {F : List Nat}, Holds h g p F → NoNil g →
    lookup E ids g ≠ .nil → ∃ q X, Leads E grow h ids g p F q X
  | [], _, g, p, F, hg, _, _ => ⟨p, F, hg, fun _ ha => ha, fun _ _ _ _ s e => ⟨s, rfl, e⟩, fun _ _ _ _ s e e' => ⟨s, rfl, e, e'⟩, fun h' r X' _ hr hw => ⟨X', hr, hw⟩⟩
  | id :: ids, hids, .nil, p, F, hg, hn, hl => absurd hn (by simp [NoNil])
  | id :: ids, hids, .node t o, p, F, hg, hn, hl => by
    obtain ⟨a, x, ps, F', rfl, rfl, haF, hla, hc, ho⟩ := hg.parts
    have hno : NoNilL o := hn
    have hl' : lookup E ids (firstNamed E id o) ≠ .nil := hl
    rcases findName_first (E := E) id (fun g => g) hno with ⟨_, h2, _⟩ | ⟨i, hi, hlt, hgd, hnf, _⟩
    · rw [h2] at hl'
      exact absurd (lookup_nil E ids) hl'
    obtain ⟨q, Fg, hq, hgq, hsub, hrest⟩ := ho.focus (List.getElem?_eq_getElem hlt)
    have hgi : o[i] = firstNamed E id o := by rw [← hgd, List.getD_eq_getElem?_getD, List.getElem?_eq_getElem hlt]; rfl
    rw [hgi] at hgq
    obtain ⟨b, rfl⟩ : ∃ b, q = some b := by
      cases hf : firstNamed E id o with
      | nil => rw [hf] at hnf; exact absurd hnf (by simp [NoNil])
      | node t' o' =>
        rw [hf] at hgq
        obtain ⟨b, _, _, _, rfl, _⟩ := hgq.parts
        exact ⟨b, rfl⟩
    obtain ⟨r, X, ld⟩ := path_leads hs ids (fun x hx => hids x (List.mem_cons_of_mem _ hx)) hgq hnf hl'
    have hnode : ∀ fuel, (hNode E fuel (some a) id).run h = (.ok (some b), h) := by
      intro fuel
      obtain ⟨q', hq', hr⟩ := node_leads (E := E) hs hla ho hi fuel
      rw [hq] at hq'
      cases hq'
      exact hr
    have hlen := len_leads hs hla
    refine ⟨r, X, ld.holds, fun y hy => List.mem_cons_of_mem _ (hsub y (ld.sub y hy)), ?_, ?_, ?_⟩
    · intro fuel f pg root s hsc
      have hst := getStep_leads (grow := grow) (f := f) (root := root) (pg := pg) (s := s) (hids id (List.mem_cons_self ..)) (by rw [hsc]; exact hnode fuel) (by rw [hsc]; exact hlen)
      rw [List.map_cons, walk_step hsc hst]
      exact ld.get fuel f pg root _ rfl
    · intro fuel f pg root s hsc _
      have hst := evalStep_leads (grow := grow) (f := f) (root := root) (pg := pg) (s := s) (hids id (List.mem_cons_self ..)) (by rw [hsc]; exact hnode fuel) (by rw [hsc]; exact hlen)
      rw [List.map_cons, walk_step hsc hst]
      exact ld.eval fuel f pg root _ rfl rfl
    · intro h' r' X' tn hr hw
      obtain ⟨Fn, hn1, hw1⟩ := ld.frame h' r' X' tn hr hw
      rcases findName_first (E := E) id (replaceAt E ids r') hno with ⟨h1, _, _⟩ | ⟨j, hj, _, _, _, hu⟩
      · rw [hi] at h1; cases h1
      rw [hi] at hj
      cases hj
      obtain ⟨F1, h1, hw2⟩ := hrest h' X [] _ Fn tn (fun y hy => .inl (ld.sub y hy)) nofun hn1 (by rw [List.append_nil]; exact hw1)
      have hax : a ∉ X := fun hx => haF (hsub a (ld.sub a hx))
      obtain ⟨F2, h2, hw3⟩ := back (j := i) (g' := replaceAt E ids r' (firstNamed E id o)) (o := o) hla hc haF tn hax (Y := []) nofun ⟨F1, h1, hw2⟩
      refine ⟨F2, ?_, by rw [List.append_nil] at hw3; exact hw3⟩
      unfold replaceAt
      rw [hu, hgd]
      exact h2

/-! ## Registers -/

theorem hm_ok {m : HM α} {f : α → HM β} {h h2 : Heap} {b : β} (e : (m >>= f).run h = (.ok b, h2)) : ∃ a h1, m.run h = (.ok a, h1) ∧ (f a).run h1 = (.ok b, h2) := by
  have e : (HM.bind m f).run h = _ := e
  unfold HM.bind at e
  dsimp only at e
  rcases hm : m.run h with ⟨a | _ | _, h1⟩
  · rw [hm] at e
    exact ⟨a, h1, rfl, e⟩
  · rw [hm] at e; cases e
  · rw [hm] at e; cases e

theorem mem_stays {op : AOp} {k : Nat} (hk : ¬ op.Takes k) {ps : List Ptr} (hlt : k < ps.length) {fuel : Nat} {h h' : Heap} {r : List Ptr × List (Val × Option Err)}
    (hr : (op.mem E grow fuel ps).run h = (.ok r, h')) : r.1[k]? = ps[k]? := by
  cases op with
  | op o =>
    obtain ⟨ps', h1, hr1, hr2⟩ := hm_ok hr
    cases hr2
    obtain ⟨p, h2, _, hr3⟩ := hm_ok hr1
    cases hr3
    dsimp only
    cases o <;> simp only [TOp.keep]
    all_goals first
      | rw [List.getElem?_append_left hlt]
      | (simp only [AOp.Takes] at hk
         rw [List.getElem?_set_ne hk])
  | ask i e =>
    obtain ⟨x, h1, hr1, hr2⟩ := hm_ok hr
    obtain ⟨v, h2, hr3, hr4⟩ := hm_ok hr2
    cases hr4
    rfl
  | assign i o p e =>
    obtain ⟨x, h1, hr1, hr2⟩ := hm_ok hr
    cases hr2
    rfl

theorem askMem_stays {k : Nat} {fuel : Nat} : ∀ {ops : List AOp}, (∀ op ∈ ops, ¬ op.Takes k) → ∀ {ps : List Ptr}, k < ps.length → ∀ {h h' : Heap}
    {r : List Ptr × List (Val × Option Err)}, (askMem E grow fuel ops ps).run h = (.ok r, h') → r.1[k]? = ps[k]?
  | [], _, ps, _, h, h', r, hr => by cases hr; rfl
  | op :: ops, hk, ps, hlt, h, h', r, hr => by
    unfold askMem at hr
    obtain ⟨r1, h1, hr1, hr2⟩ := hm_ok hr
    obtain ⟨r2, h2, hr3, hr4⟩ := hm_ok hr2
    cases hr4
    have e1 := mem_stays (hk op (List.mem_cons_self ..)) hlt hr1
    have hlt1 : k < r1.1.length := by
      rw [List.getElem?_eq_getElem hlt] at e1
      exact (List.getElem?_eq_some_iff.1 e1).1
    exact (askMem_stays (fun o ho => hk o (List.mem_cons_of_mem _ ho)) hlt1 hr3).trans e1

/-! ## Get and Eval -/

theorem get_leads {h : Heap} {ids : List Bytes} (hne : ids ≠ []) {g : Graph} {p q : Ptr} {F X : List Nat} (hp : p ≠ none) (ld : Leads E grow h ids g p F q X) (fuel : Nat) :
    (hGet grow E fuel p (pathOf ids)).run h = (.ok q, h) := by
  cases p with
  | none => exact absurd rfl hp
  | some a =>
    obtain ⟨id, ids', rfl⟩ : ∃ id ids', ids = id :: ids' := by
      cases ids with
      | nil => exact absurd rfl hne
      | cons a b => exact ⟨a, b, rfl⟩
    show (hGetPath grow E fuel (some a) (evalFuel (pathOf (id :: ids'))) (pathOf (id :: ids')) >>= _).run h = _
    obtain ⟨f, hf⟩ : ∃ f, evalFuel (pathOf (id :: ids')) = f + 3 := ⟨_, rfl⟩
    rw [hf]
    unfold hGetPath
    have hlen : ¬ ((pathOf (id :: ids')).len = 0 ∨ (some a : Ptr) = none) := by
      simp [pathOf, Graph.len]
      omega
    rw [if_neg hlen]
    obtain ⟨s', hw, hs'⟩ := ld.get fuel f (pathOf (id :: ids')) (some a) { ctx := some a } rfl
    have e0 : (hWalkPath (hGetStep grow E fuel (some a) (f + 2) (pathOf (id :: ids'))) (pathOf (id :: ids')).out { ctx := some a } >>= fun r =>
        match r with
        | .done r => (Pure.pure r : HM (Ptr × Option Err))
        | .next s => Pure.pure (s.ctx, none)).run h = (.ok (q, none), h) := by
      refine (ok_bind' hw).trans ?_
      dsimp only
      rw [hs']
      rfl
    exact ok_bind' e0

theorem eval_leads {h : Heap} {ids : List Bytes} (hne : ids ≠ []) {g : Graph} {p q : Ptr} {F X : List Nat} (hp : p ≠ none) (ld : Leads E grow h ids g p F q X) (fuel : Nat) :
    (hEval grow E fuel p (evalFuel (pathOf ids)) (pathOf ids)).run h = (hSimplify q >>= fun x => (Pure.pure (x, none) : HM (HVal × Option Err))).run h := by
  cases p with
  | none => exact absurd rfl hp
  | some a =>
    obtain ⟨id, ids', rfl⟩ : ∃ id ids', ids = id :: ids' := by
      cases ids with
      | nil => exact absurd rfl hne
      | cons a b => exact ⟨a, b, rfl⟩
    obtain ⟨f, hf⟩ : ∃ f, evalFuel (pathOf (id :: ids')) = f + 4 := ⟨_, rfl⟩
    rw [hf]
    unfold hEval
    rw [if_pos (by rfl)]
    unfold hEvalPath
    have hlen : ¬ ((pathOf (id :: ids')).len = 0 ∨ (some a : Ptr) = none) := by
      simp [pathOf, Graph.len]
      omega
    rw [if_neg hlen]
    obtain ⟨s', hw, hs', hr'⟩ := ld.eval fuel f (pathOf (id :: ids')) (some a) { ctx := some a } rfl rfl
    refine (ok_bind' hw).trans ?_
    dsimp only
    rw [hs', hr']
    rfl

/-- A node that is a value itself. -/
theorem simplify_self {h : Heap} (hs : Solid h) {g : Graph} {q : Ptr} {X : List Nat} (hg : Holds h g q X) (hne : g ≠ .nil) (hsm : simplify g = .graph g) :
    (hSimplify q).run h = (.ok (.ptr q), h) := by
  cases g with
  | nil => exact absurd rfl hne
  | node t o =>
    obtain ⟨a, x, ps, F', rfl, rfl, haF, hla, hc, ho⟩ := hg.parts
    obtain ⟨c, hcn, hld, _, hlen, _⟩ := load_look hs hla
    unfold hSimplify
    dsimp only
    rw [ok_bind' hld]
    by_cases h1 : c.out.len = 1
    · rw [if_pos h1]
      match o, ps, ho, hlen with
      | [], ps, ho, hlen => rw [← ho.length] at hlen; simp at hlen; omega
      | k :: k' :: o', ps, ho, hlen => rw [← ho.length] at hlen; simp at hlen; omega
      | [k], ps, ho, hlen =>
        obtain ⟨n, hn, hk⟩ : ∃ n, ps[0]? = some n ∧ ∃ Y, Holds h k n Y := by
          obtain ⟨n, Y, hn, hk, _⟩ := ho.focus (i := 0) rfl
          exact ⟨n, hn, Y, hk⟩
        obtain ⟨Y, hk⟩ := hk
        rw [ok_bind' (index_look hs hla hcn hn)]
        cases k with
        | nil =>
          unfold Holds at hk
          rw [hk.1]
          rfl
        | node t' o' =>
          obtain ⟨b, y, ps', F2, rfl, rfl, _, hlb, _, ho'⟩ := hk.parts
          rw [ok_bind' (len_leads hs hlb)]
          cases o' with
          | nil =>
            have hsm : t' = .graph (.node t [.node t' []]) := hsm
            have := congrArg sizeOf hsm
            simp at this
            omega
          | cons k1 o1 =>
            rw [if_neg (by rw [← ho'.length]; simp; omega)]
            rfl
    · rw [if_neg h1]
      rfl

end Ogdl
