import Verif.Lemmas.JointRun

/-!
# Loops in shared memory
-/

namespace Ogdl
open Spec HM

variable {E : Ext} {grow : Nat → Nat → Nat} {i : Nat} {F F' : List Nat} {w : World}

/-- The context afterwards. -/
def Moved (i : Nat) (a : Nat) (A : List Nat) (w : World) (t : Val) (zs : List (Graph × Ptr)) (loops : List Bytes) (g' : Graph) (w' : World) : Prop :=
  ∃ A' zs', On i a A' w' t zs' ∧ g' = treeOf t zs' ∧ (∀ b ∈ A, b ∈ A') ∧ (∀ b ∈ A', b ∈ A ∨ w.size ≤ b) ∧ w.size ≤ w'.size ∧ VarsGo w.size zs loops zs'

theorem Moved.still {a : Nat} {A : List Nat} {w w' : World} {t : Val} {zs : List (Graph × Ptr)} (o : On i a A w t zs) (k : Keep i [] w w') : Moved i a A w t zs [] (treeOf t zs) w' :=
  ⟨A, zs, o.keep k, rfl, fun _ hb => hb, fun _ hb => .inl hb, k.le, .refl⟩

theorem Moved.trans {a : Nat} {A : List Nat} {w w1 w2 : World} {t : Val} {zs zs1 : List (Graph × Ptr)} {A1 : List Nat} {l1 l2 : List Bytes} {g2 : Graph}
    (hs : ∀ b ∈ A, b ∈ A1) (hn : ∀ b ∈ A1, b ∈ A ∨ w.size ≤ b) (hle : w.size ≤ w1.size) (hv : VarsGo w.size zs l1 zs1)
    (m : Moved i a A1 w1 t zs1 l2 g2 w2) : Moved i a A w t zs (l1 ++ l2) g2 w2 := by
  obtain ⟨A2, zs2, o2, e2, s2, n2, le2, f2⟩ := m
  refine ⟨A2, zs2, o2, e2, fun b hb => s2 b (hs b hb), fun b hb => ?_, Nat.le_trans hle le2, hv.trans f2 hle⟩
  rcases n2 b hb with hb | hb
  · exact hn b hb
  · exact .inr (by omega)

theorem Moved.before {a : Nat} {A : List Nat} {w w1 w2 : World} {t : Val} {zs : List (Graph × Ptr)} {l2 : List Bytes} {g2 : Graph} (hle : w.size ≤ w1.size)
    (m : Moved i a A w1 t zs l2 g2 w2) : Moved i a A w t zs l2 g2 w2 := by
  have := Moved.trans (w := w) (fun _ hb => hb) (fun _ hb => .inl hb) hle .refl m
  simpa using this

/-- As `Joins`, with a context that changes. -/
def JRun (i : Nat) (F : List Nat) (w : World) (τ : Nat → Job β) (m : EvalM α) (g : Graph) (Q : β → α → Graph → World → Prop) : Prop :=
  Joins i F w τ (m g) fun b ag w' => Q b ag.1 ag.2 w'

namespace JRun

variable {g : Graph}

theorem bind {τ : Nat → Job β} {f : Nat → β → Job δ} {m : EvalM α} {k : α → EvalM γ} {Q : β → α → Graph → World → Prop} {Q' : δ → γ → Graph → World → Prop}
    (h1 : JRun i F w τ m g Q) (h2 : ∀ b a g' w', Keep i F w w' → Q b a g' w' → JRun i F w' (fun n => f n b) (k a) g' Q') :
    JRun i F w (fun n => (τ n).andThen (f n)) (m >>= k) g Q' := by
  unfold JRun at h1 ⊢
  rw [evalM_bind]
  exact Joins.bind h1 (fun _ hb => .inl hb) fun b ag w' kp hq => h2 b ag.1 ag.2 w' kp hq

/-- One step that evaluates. -/
theorem sim {hm : Nat → HM β} {f : Nat → β → Job δ} {m : EvalM α} {k : α → EvalM γ} {Q : β → α → World → Prop} {Q' : δ → γ → Graph → World → Prop}
    (h1 : ∀ w', Keep i [] w w' → Sim [] hm w'.heap m g fun b a h => Q b a (w'.next i h)) (h2 : ∀ b a w', Keep i [] w w' → Q b a w' → JRun i F w' (fun n => f n b) (k a) g Q') :
    JRun i F w (fun n => (Job.atom (hm n)).andThen (f n)) (m >>= k) g Q' := by
  unfold JRun
  rw [evalM_bind]
  have h3 : Joins i [] w (fun n => Job.atom (hm n)) (m g) fun b ag w' => ag.2 = g ∧ Q b ag.1 w' := Joins.atom nofun fun w' kp => h1 w' kp
  refine Joins.bind (Joins.weaken (F := []) (F' := F) (Joins.mono (Q' := fun b ag w' => Keep i [] w w' ∧ ag.2 = g ∧ Q b ag.1 w') h3 fun b ag w' kp hq => ⟨kp, hq⟩) nofun)
    (fun _ hb => .inl hb) fun b ag w' _ hq => ?_
  obtain ⟨a, g'⟩ := ag
  obtain ⟨kp, e, hq⟩ := hq
  dsimp only at e hq
  subst e
  exact h2 b a w' kp hq

theorem ret (hs : Solid w.heap) {b : β} {a : α} {Q : β → α → Graph → World → Prop} (hq : Q b a g w) : JRun i F w (fun _ => Job.ret b) (Pure.pure a) g Q := Joins.ret hs hq

theorem mono {τ : Nat → Job β} {m : EvalM α} {Q Q' : β → α → Graph → World → Prop} (h1 : JRun i F w τ m g Q) (hq : ∀ b a g' w', Keep i F w w' → Q b a g' w' → Q' b a g' w') : JRun i F w τ m g Q' :=
  Joins.mono h1 fun b ag w' t hx => hq b ag.1 ag.2 w' t hx

theorem lifted {f : Nat → α → Job δ} {r : Res α} {k : α → EvalM γ} {Q' : δ → γ → Graph → World → Prop} (hs : Solid w.heap)
    (h2 : ∀ a, r = .ok a → JRun i F w (fun n => f n a) (k a) g Q') : JRun i F w (fun n => (Job.lift r).andThen (f n)) (EvalM.lift r >>= k) g Q' := by
  cases r with
  | ok a => exact h2 a rfl
  | panic =>
    exact .inr (.done .panic 0 (fun _ _ => rfl) ⟨.refl hs, rfl⟩)
  | oof => exact .inl rfl

theorem ite {c : Prop} [Decidable c] {τ τ' : Nat → Job β} {m m' : EvalM α} {Q : β → α → Graph → World → Prop} (h1 : c → JRun i F w τ m g Q) (h2 : ¬ c → JRun i F w τ' m' g Q) :
    JRun i F w (fun n => if c then τ n else τ' n) (if c then m else m') g Q := by
  by_cases hc : c
  · simp only [hc, ↓reduceIte]; exact h1 hc
  · simp only [hc, ↓reduceIte]; exact h2 hc

/-- A step that only reads, without counterpart. -/
theorem look {hm : Nat → HM β} {f : Nat → β → Job δ} {b : β} {m : EvalM α} {Q : δ → α → Graph → World → Prop}
    (h : ∀ w', Keep i [] w w' → ∃ N, ∀ n, N ≤ n → (hm n).run w'.heap = (.ok b, w'.heap))
    (h2 : ∀ w', Keep i [] w w' → JRun i F w' (fun n => f n b) m g Q) : JRun i F w (fun n => (Job.atom (hm n)).andThen (f n)) m g Q :=
  Joins.go [] nofun (fun _ hb => .inl hb) (I := fun b' _ => b' = b)
    (fun w' kp => by
      obtain ⟨N, hr⟩ := h w' kp
      exact ⟨N, b, w'.heap, hr, .refl kp.solid, rfl⟩)
    fun b' w' kp e => by subst e; exact h2 w' kp

end JRun

section
variable {a : Nat} {t : Val}

/-- A body, or a template, does the same in shared memory. -/
def JRuns (i : Nat) (a : Nat) (t : Val) (τ : Nat → Job (Bool × Bytes)) (m : EvalM Proc) : Prop :=
  ∀ (A : List Nat) (w : World) (zs : List (Graph × Ptr)), On i a A w t zs →
    JRun i [a] w τ m (treeOf t zs) fun b r g' w' => b = (r.brk, r.out) ∧ Moved i a A w t zs r.loops g' w'

theorem forLoop_join {v : Bytes} {τ : Nat → Job (Bool × Bytes)} {body : EvalM Proc} {j q : Nat} {c : HNode} {z : HVal} {ps : List Ptr}
    (hb : JRuns i a t τ body) (hja : j ≠ a) (hqa : q ≠ a) (hqj : q ≠ j) :
    ∀ (es : List Graph) (A : List Nat) (w : World) (zs : List (Graph × Ptr)) (ps2 : List Ptr) (k : Nat) (away : Bool), On i a A w t zs → j ∈ A → w.sees i q →
      w.heap.nodes[q]? = some c → look w.heap q = some (z, ps) → ps.drop k = ps2 → ShowsL (Stay (w.sees i) A) w.heap es ps2 → (if away then Gone j zs else Active v j zs) →
      JRun i [a, j] w (fun n => tForLoop grow c.out (some j) (τ n) es.length k) (forLoop v body es away) (treeOf t zs) fun b r g' w' => b = r.out ∧ r.brk = false ∧ Moved i a A w t zs r.loops g' w'
  | [], A, w, zs, ps2, k, away, o, hj, hq, hc, hl, hps, hes, ha => by
    unfold tForLoop forLoop
    exact .ret o.solid ⟨rfl, rfl, .still o (.refl o.solid)⟩
  | ee :: es, A, w, zs, ps2, k, away, o, hj, hq, hc, hl, hps, hes, ha => by
    obtain ⟨te, oe, p1, ps', rfl, rfl, hee, hr⟩ := hes.parts
    obtain ⟨hpi, hps'⟩ := getElem?_of_drop hps
    obtain ⟨b, _, _, rfl, _⟩ := hee.parts
    have hGA : Gone j zs ∨ Active v j zs := by cases away; exact .inr ha; exact .inl ha
    have hGA1 : Gone j (zs.map (kidsAt v j [])) ∨ Active v j (zs.map (kidsAt v j [])) := by
      rcases hGA with h | h
      · exact .inl h.kids
      · exact .inr (h.kids h)
    have e2 : (Graph.node t (if away then zs.map (·.1) else setVar v (.node te oe) (zs.map (·.1)))) = treeOf t (zs.map (bindAt v j (.node te oe))) := by
      cases away with
      | true => rw [bindAt_gone (show Gone j zs from ha)]; rfl
      | false =>
        have ha : Active v j zs := ha
        simp only [Bool.false_eq_true, ↓reduceIte]
        rw [setVar_bind (ee := .node te oe) nofun o.live.nodup ha.2 fun z hz => (o.live.kids z hz).1]
        rfl
    have tr2 : VarsGo w.size zs [] (zs.map (bindAt v j (.node te oe))) := by
      intro j' _
      refine ⟨fun hg => hg.bind, fun u hu => ⟨fun _ => ?_, nofun⟩⟩
      rcases hGA with hg | hg
      · rw [bindAt_gone hg]; exact hu
      · exact hu.bind hg
    have ha2 : if away then Gone j (zs.map (bindAt v j (.node te oe))) else Active v j (zs.map (bindAt v j (.node te oe))) := by
      cases away with
      | true => exact Gone.bind ha
      | false => exact Active.bind ha ha
    unfold JRun
    rw [List.length_cons]
    unfold tForLoop
    rw [show treeOf t zs = .node t (zs.map (·.1)) from rfl, forLoop_cons, e2]
    -- the element
    refine .go (F' := [a, j]) (I := fun b' _ => b' = some b) [] nofun (fun _ hb => .inl hb) (fun w' kp => ?_) fun b' w1 k1 eb => ?_
    · have := kp.keep q (look_lt hl) hq nofun
      exact ⟨0, _, _, fun _ _ => index_look kp.solid (this.2.trans hl) (this.1.trans hc) hpi, .refl kp.solid, rfl⟩
    subst eb
    have o1 := o.keep k1
    -- the variable is emptied
    refine .go (F' := [a, j]) (I := fun _ w' => ∃ y, look w'.heap j = some (y, []) ∧ On i a A w' t (zs.map (kidsAt v j []))) [j]
      (fun b hb => ?_) (fun _ hb => .inl hb) (fun w' kp => ?_) fun _ w2 k2 hI => ?_
    · rw [List.mem_singleton] at hb
      subst hb
      exact ⟨by simp, o1.live.below _ hj, o1.own _ hj⟩
    · have o' := o1.keep kp
      obtain ⟨y, h1, hr1, t1, hl1, l1⟩ := clearVar_live (v := v) o'.live hj hja hGA
      exact ⟨0, (), h1, fun _ _ => hr1, t1, y, hl1, o'.next l1 fun _ hb => .inl hb⟩
    obtain ⟨y, hlj, o2⟩ := hI
    have hee2 : Shows (Stay (w2.sees i) A) w2.heap (.node te oe) (some b) :=
      (hee.frame _ (k1.stay nofun fun _ hb => .inl hb)).frame _ (k2.stay (fun b hb => by rw [List.mem_singleton] at hb; rw [hb]; exact hj) fun _ hb => .inl hb)
    -- and gets the element
    refine .go (F' := [a, j]) (I := fun _ w' => On i a A w' t (zs.map (bindAt v j (.node te oe)))) [j]
      (fun b hb => ?_) (fun _ hb => .inl hb) (fun w' kp => ?_) fun _ w3 k3 o3 => ?_
    · rw [List.mem_singleton] at hb
      subst hb
      exact ⟨by simp, o2.live.below _ hj, o2.own _ hj⟩
    · have o' := o2.keep kp
      have hl' := (kp.keep j (o2.live.below _ hj) (o2.live.zone _ hj) nofun).2.trans hlj
      obtain ⟨h2, hr2, t2, l2⟩ := fillVar_live (grow := grow) (v := v) o'.live hj hja hGA1 hl' (hee2.frame _ (kp.stay nofun fun _ hb => .inl hb)) nofun
      rw [List.map_map, show bindAt v j (.node te oe) ∘ kidsAt v j [] = bindAt v j (.node te oe) from funext fun z => kidsAt_bind z] at l2
      exact ⟨0, _, h2, fun _ _ => hr2, t2, o'.next l2 fun _ hb => .inl hb⟩
    have hjA : ∀ b ∈ [j], b ∈ A := fun b hb => by rw [List.mem_singleton] at hb; rw [hb]; exact hj
    have k13 : Keep i [j] w w3 := ((k1.mono nofun).trans k2 fun _ hb => .inl hb).trans k3 fun _ hb => .inl hb
    -- the body
    have h3 : Joins i [a, j] w3 τ (body (treeOf t (zs.map (bindAt v j (.node te oe))))) fun b rg w' => Keep i [a] w3 w' ∧ b = (rg.1.brk, rg.1.out) ∧
        Moved i a A w3 t (zs.map (bindAt v j (.node te oe))) rg.1.loops rg.2 w' := Joins.weaken (Joins.mono (hb A w3 _ o3) fun _ _ _ t hq => ⟨t, hq⟩) (by simp)
    refine .bind h3 (fun _ hb => .inl hb) fun b rg w4 _ hq => ?_
    obtain ⟨r, g3⟩ := rg
    obtain ⟨k4, rfl, m4⟩ := hq
    dsimp only at m4 ⊢
    obtain ⟨A4, zs4, o4, rfl, s4, n4, le4, f4⟩ := m4
    have n4' : ∀ b ∈ A4, b ∈ A ∨ w.size ≤ b := fun b hb => by
      rcases n4 b hb with h | h
      · exact .inl h
      · exact .inr (Nat.le_trans k13.le h)
    have f4' : VarsGo w.size zs r.loops zs4 := by
      have := tr2.trans f4 k13.le
      simpa using this
    have le4' : w.size ≤ w4.size := Nat.le_trans k13.le le4
    cases hbrk : r.brk with
    | true =>
      simp only [↓reduceIte]
      exact .ret o4.solid ⟨rfl, rfl, A4, zs4, o4, rfl, s4, n4', le4', f4'⟩
    | false =>
      simp only [Bool.false_eq_true, ↓reduceIte]
      have hqs := look_lt hl
      have hq3 := k13.keep q hqs hq (by simpa using hqj)
      have hq4 := k4.keep q (Nat.lt_of_lt_of_le hqs k13.le) (k13.sees hqs hq) (by simpa using hqa)
      have hr4 : ShowsL (Stay (w4.sees i) A4) w4.heap es ps' :=
        (hr.frame es (k13.stay hjA fun _ hb => .inl hb)).frame es (k4.stay (fun b hb => by rw [List.mem_singleton] at hb; rw [hb]; exact o.live.mem) n4)
      have ha4 : if (away || r.loops.contains v) then Gone j zs4 else Active v j zs4 := by
        obtain ⟨fg, fa⟩ := f4 j (o3.live.below j hj)
        cases away with
        | true => exact fg ha2
        | false =>
          simp only [Bool.false_or]
          by_cases hv : v ∈ r.loops
          · rw [if_pos (by simpa using hv)]; exact (fa v ha2).2 hv
          · rw [if_neg (by simpa using hv)]; exact (fa v ha2).1 hv
      have := forLoop_join hb hja hqa hqj es A4 w4 zs4 ps' (k + 1) (away || r.loops.contains v) o4 (s4 j hj) (k4.sees (Nat.lt_of_lt_of_le hqs k13.le) (k13.sees hqs hq))
        (hq4.1.trans (hq3.1.trans hc)) (hq4.2.trans (hq3.2.trans hl)) hps' hr4 ha4
      refine Joins.bind this (fun _ hb => .inl hb) fun o' rg' w5 k5 hq => ?_
      obtain ⟨r', g5⟩ := rg'
      obtain ⟨rfl, _, m5⟩ := hq
      exact .ret k5.solid ⟨rfl, rfl, .trans s4 n4' le4' f4' m5⟩

theorem job_ret (x : Job β) : (x.andThen fun o => Job.ret o) = x := by
  unfold Job.andThen
  induction x with
  | done r => cases r <;> rfl
  | step u n ih => simp only [Thread.step_bind, ih]

theorem forOver_join {tsub : Nat → Graph → Job (Bool × Bytes)} {sub : Graph → EvalM Proc} (hs : ∀ T, Calm E T → JRuns i a t (fun n => tsub n T) (sub T)) {n : Graph}
    (hn : ∀ T, n.getAt 1 = .ok T → Calm E T) {A : List Nat} {w : World} {zs : List (Graph × Ptr)} (o : On i a A w t zs) {gi : Graph} {p : Ptr}
    (hgi : Loose (Stay (w.sees i) A) (Under (w.sees i) a) w.heap gi p) (hnil : gi ≠ .nil) :
    JRun i [a] w (fun k => tForOver grow E (some a) (tsub k) n p) (forOver E sub n gi) (treeOf t zs) fun b r g' w' => b = r.out ∧ r.brk = false ∧ Moved i a A w t zs r.loops g' w' := by
  unfold tForOver forOver
  refine .lifted o.solid fun args _ => .lifted o.solid fun x _ => .lifted o.solid fun y _ => .lifted o.solid fun nm _ => ?_
  cases gi with
  | nil => exact absurd rfl hnil
  | node u es =>
  obtain ⟨q, z, ps, rfl, hqa, hl, _, hes⟩ := hgi
  have hql := look_lt hl
  have haA : ∀ b ∈ [a], b ∈ A := fun b hb => by rw [List.mem_singleton] at hb; rw [hb]; exact o.live.mem
  have hin : ∀ {w' : World} {A' : List Nat} {zs' : List (Graph × Ptr)}, On i a A' w' t zs' → ∀ b ∈ [a], b ∈ [a] ∧ b < w'.size ∧ w'.own b = some i := fun o' b hb => ⟨hb, o'.roots b hb⟩
  unfold JRun
  rw [evalM_bind]
  have e3 : ∀ c, EvalM.modify (fun c => do
      let c ← c.delete E (.str nm)
      .ok ((c.add (.str nm)).1, ())) (treeOf t zs) = .ok ((), treeOf t (zs.filter (keeps nm) ++ [(.node (.str nm) [], c)])) := by
    intro c
    obtain ⟨_, _, _, _, e1⟩ := hDelete_live (E := E) (grow := fun _ n => n) (nm := nm) o.live
    unfold EvalM.modify
    dsimp only
    rw [e1]
    simp only [Res.ok_bind]
    unfold treeOf Graph.add
    simp [addedNode]
  -- an old variable is deleted
  refine .go (F' := [a]) (I := fun _ w' => On i a A w' t (zs.filter (keeps nm))) [a] (hin o) (fun _ hb => .inl hb) (fun w' kp => ?_) fun _ w1 k1 o1 => ?_
  · have o' := o.keep kp
    obtain ⟨h1, hr1, t1, l1, _⟩ := hDelete_live (E := E) (grow := grow) (nm := nm) o'.live
    exact ⟨0, _, h1, fun _ _ => hr1, t1, o'.next l1 fun _ hb => .inl hb⟩
  have hqs := hqa.2
  have hqa := hqa.1
  have hl1 := (k1.keep q hql hqs (by simpa using hqa)).2.trans hl
  have hqs1 := k1.sees hql hqs
  have hql1 : q < w1.size := Nat.lt_of_lt_of_le hql k1.le
  have hes1 := hes.frame es (k1.stay (A' := A) haA fun _ hb => .inl hb)
  -- the variable is added
  refine .go' (I := fun p w' => ∃ j, p = some j ∧ w1.size ≤ j ∧ j < w'.size ∧ On i a (j :: A) w' t (zs.filter (keeps nm) ++ [(.node (.str nm) [], some j)])) [a] (hin o1)
    (fun w' kp => ?_) fun p w2 k2 hI => ?_
  · have o' := o1.keep kp
    obtain ⟨h2, hr2, t2, hlen, l2, _⟩ := addVar_live (grow := grow) (nm := nm) o'.live
    refine ⟨0, _, h2, fun _ _ => hr2, t2, _, rfl, kp.le, ?_, o'.next l2 fun b hb => ?_⟩
    · show w'.heap.nodes.length < h2.nodes.length
      omega
    · rcases List.mem_cons.1 hb with rfl | hb
      · exact .inr (Nat.le_refl _)
      · exact .inl hb
  obtain ⟨j, rfl, hj1, hj2, o2⟩ := hI
  have hjs : w.size ≤ j := Nat.le_trans k1.le hj1
  have hAj : ∀ b ∈ j :: A, b ∈ A ∨ w1.size ≤ b := fun b hb => by
    rcases List.mem_cons.1 hb with rfl | hb
    · exact .inr hj1
    · exact .inl hb
  have hl2 := (k2.keep q hql1 hqs1 (by simpa using hqa)).2.trans hl1
  have hqs2 := k2.sees hql1 hqs1
  have hes2 := hes1.frame es (k2.stay (A' := j :: A) haA hAj)
  refine ⟨[a, j], fun b hb => ?_, ?_⟩
  · simp only [List.mem_cons, List.not_mem_nil, or_false] at hb
    rcases hb with rfl | rfl
    · exact .inl (by simp)
    · exact .inr hj1
  rw [e3 (some j)]
  show JRun i [a, j] w2 _ (EvalM.lift (n.getAt 1) >>= fun body => do let r ← forLoop nm (sub body) es false; pure { r with loops := nm :: r.loops })
    (treeOf t (zs.filter (keeps nm) ++ [(.node (.str nm) [], some j)])) fun b r g' w' => b = r.out ∧ r.brk = false ∧ Moved i a A w t zs r.loops g' w'
  refine .lifted o2.solid fun body hbody => ?_
  have hgone : ∀ z ∈ zs.filter (keeps nm), z.2 ≠ some j := by
    intro z hz e
    obtain ⟨hn, hg⟩ := o1.live.kids z hz
    cases hz1 : z.1 with
    | nil => exact hn hz1
    | node v gs =>
      rw [hz1] at hg
      obtain ⟨b, _, _, e', _, hlb, _⟩ := hg
      have : b < w1.size := look_lt hlb
      rw [e] at e'
      cases e'
      omega
  have hact : Active nm j (zs.filter (keeps nm) ++ [(.node (.str nm) [], some j)]) := by
    refine ⟨⟨_, List.mem_append_right _ (List.mem_singleton.2 rfl), rfl⟩, fun z hzm => ?_⟩
    rcases List.mem_append.1 hzm with hzm | hzm
    · constructor
      · intro e; exact absurd e (hgone z hzm)
      · intro e
        have := (List.mem_filter.1 hzm).2
        unfold keeps at this
        rw [isStr_iff.2 e] at this
        exact absurd this (by simp)
    · rw [List.mem_singleton] at hzm
      subst hzm
      exact ⟨fun _ => rfl, fun _ => rfl⟩
  have hal : a < w.size := o.live.below a o.live.mem
  have hql' : q < w.size := hql
  -- the list
  obtain ⟨c, hc, _, _, hlen, _⟩ := load_look o2.solid hl2
  have hql2 : q < w2.size := look_lt hl2
  refine .look (b := c) (fun w' kp => ?_) fun w3 k3 => ?_
  · have := kp.keep q hql2 hqs2 nofun
    obtain ⟨c', hc', hld, _⟩ := load_look kp.solid (this.2.trans hl2)
    rw [this.1, hc] at hc'
    cases hc'
    exact ⟨0, fun _ _ => hld⟩
  have hq3 := k3.keep q hql2 hqs2 nofun
  have hloop := forLoop_join (grow := grow) (v := nm) (j := j) (hs body (hn body hbody)) (show j ≠ a by omega) hqa (show q ≠ j by omega) es _ w3 _ ps 0 false (o2.keep k3)
    (List.mem_cons_self ..) (k3.sees hql2 hqs2) (hq3.1.trans hc) (hq3.2.trans hl2) rfl (hes2.frame es (k3.stay nofun fun _ hb => .inl hb)) hact
  rw [hlen, ← hes.length]
  have hret := JRun.bind (f := fun _ o => Job.ret o) (k := fun r => pure { r with loops := nm :: r.loops }) (Q' := fun b r g' w' => b = r.out ∧ r.brk = false ∧ Moved i a A w t zs r.loops g' w')
    hloop fun o r g' w' t' hq => by
      obtain ⟨e, hb, m⟩ := hq
      refine .ret t'.solid ⟨e, hb, ?_⟩
      refine Moved.trans (A1 := j :: A) (l1 := [nm]) (fun b hb => List.mem_cons_of_mem _ hb) (fun b hb => ?_) (Nat.le_trans k1.le (Nat.le_trans k2.le k3.le)) (varsGo_new hjs) m
      rcases List.mem_cons.1 hb with rfl | hb
      · exact .inr hjs
      · exact .inl hb
  simpa only [job_ret] using hret

end
end Ogdl
