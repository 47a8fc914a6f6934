import Verif.Lemmas.TameLive

/-!
# An assignment to a name in the context of a template in memory
-/

namespace Ogdl
open Spec HM

variable {E : Ext} {grow : Nat → Nat → Nat} {F : List Nat} {Z : Nat → Prop} {W : List Bytes}

/-- The context afterwards. -/
def Fared (E : Ext) (W : List Bytes) (Z : Nat → Prop) (a : Nat) (A : List Nat) (h : Heap) (t : Val) (zs : List (Graph × Ptr)) (loops : List Bytes) (g' : Graph) (h' : Heap) : Prop :=
  ∃ A' zs', Neat Z a A' h' t zs' ∧ g' = treeOf t zs' ∧ (∀ b ∈ A, b ∈ A') ∧ Within h A A' ∧ h.nodes.length ≤ h'.nodes.length ∧
    VarsGo h.nodes.length zs loops zs' ∧ Within h (wk E W zs) (wk E W zs')

section
variable {a : Nat} {A : List Nat} {h h' h1 h2 : Heap} {t : Val} {zs : List (Graph × Ptr)} {l1 l2 : List Bytes} {g1 g2 g' : Graph}

theorem Fared.still (T : Neat Z a A h t zs) (tn : Turns [] h h') : Fared E W Z a A h t zs [] (treeOf t zs) h' :=
  ⟨A, zs, T.turns tn, rfl, fun _ hb => hb, .refl, tn.le, .refl, .refl⟩

theorem Fared.trans (w1 : Fared E W Z a A h t zs l1 g1 h1)
    (w2 : ∀ A1 zs1, Neat Z a A1 h1 t zs1 → g1 = treeOf t zs1 → Within h (wk E W zs) (wk E W zs1) → Fared E W Z a A1 h1 t zs1 l2 g2 h2) : Fared E W Z a A h t zs (l1 ++ l2) g2 h2 := by
  obtain ⟨A1, zs1, L1, e1, s1, n1, le1, f1, k1⟩ := w1
  obtain ⟨A2, zs2, L2, e2, s2, n2, le2, f2, k2⟩ := w2 A1 zs1 L1 e1 k1
  exact ⟨A2, zs2, L2, e2, fun b hb => s2 b (s1 b hb), n1.trans n2 le1, Nat.le_trans le1 le2, f1.trans f2 le1, k1.trans k2 le1⟩

theorem Fared.after (tn : Turns [] h h1) (w : Fared E W Z a A h1 t zs l1 g' h') : Fared E W Z a A h t zs l1 g' h' := by
  obtain ⟨A2, zs2, L2, e3, s2, n2, le2, f2, k2⟩ := w
  have hle := tn.le
  refine ⟨A2, zs2, L2, e3, s2, fun b hb => ?_, by omega, fun i hi => f2 i (by omega), fun b hb => ?_⟩
  · rcases n2 b hb with hb | hb
    · exact .inl hb
    · exact .inr (by omega)
  · rcases k2 b hb with hb | hb
    · exact .inl hb
    · exact .inr (by omega)

theorem Neat.kid (T : Neat Z a A h t zs) {z : Graph × Ptr} (hz : z ∈ zs) : ∃ i u o, z.2 = some i ∧ z.1 = .node u o ∧ i ∈ A ∧ i ≠ a ∧ i < h.nodes.length := by
  obtain ⟨i, hi, e⟩ := T.owned z hz
  obtain ⟨hn, hg⟩ := T.live.kids z hz
  cases hz1 : z.1 with
  | nil => exact absurd hz1 hn
  | node u o =>
    rw [hz1] at hg
    obtain ⟨b, _, _, e', hb, hl, _⟩ := hg
    rw [e] at e'
    cases e'
    exact ⟨i, u, o, e, rfl, hi, hb.1, look_lt hl⟩

theorem flat_one {u v : Val} (hu : FlatV u) (hv : NoGraph v) : Flat (.node u (one v)) := by
  refine ⟨hu, ?_⟩
  cases v with
  | nil => exact trivial
  | graph g => exact absurd rfl (hv g)
  | _ => exact ⟨⟨fun g e => (by cases e), trivial⟩, trivial⟩

theorem subsAt_vars {i n : Nat} {es : List Graph} : VarsGo n zs [] (zs.map (subsAt i es)) := by
  intro j _
  refine ⟨fun hg z hz => ?_, fun w hw => ⟨fun _ => ⟨?_, fun z hz => ?_⟩, nofun⟩⟩
  · obtain ⟨y, hy, rfl⟩ := List.mem_map.1 hz
    rw [subsAt_snd]
    exact hg y hy
  · obtain ⟨⟨z, hz, e⟩, _⟩ := hw
    exact ⟨_, List.mem_map_of_mem hz, by rw [subsAt_snd, e]⟩
  · obtain ⟨y, hy, rfl⟩ := List.mem_map.1 hz
    rw [subsAt_snd, subsAt_this]
    exact hw.2 y hy

theorem wk_map {f : Graph × Ptr → Graph × Ptr} (h1 : ∀ z ∈ zs, (f z).1.thisString E = z.1.thisString E) (h2 : ∀ z ∈ zs, (f z).2 = z.2) : ∀ i, i ∈ wk E W (zs.map f) ↔ i ∈ wk E W zs := by
  intro i
  rw [mem_wk, mem_wk]
  constructor
  · rintro ⟨y, hy, e1, e2⟩
    obtain ⟨z, hz, rfl⟩ := List.mem_map.1 hy
    exact ⟨z, hz, by rw [← h1 z hz]; exact e1, by rw [← h2 z hz]; exact e2⟩
  · rintro ⟨z, hz, e1, e2⟩
    exact ⟨f z, List.mem_map_of_mem hz, by rw [h1 z hz]; exact e1, by rw [h2 z hz]; exact e2⟩

theorem within_same {F F' : List Nat} (hs : ∀ i, i ∈ F' ↔ i ∈ F) : Within h F F' := fun i hi => .inl ((hs i).1 hi)

/-- The subnode at `i` gets the value as its one subnode. -/
theorem fill_neat {i : Nat} {v : Val} (T : Neat Z a A h t zs) (hi : i ∈ A) (hia : i ≠ a) (hv : NoGraph v) :
    ∃ q h', (do HM.putOut (some i) {}; hAddNodesVal grow (some i) (.val v) : HM Ptr).run h = (.ok q, h') ∧ Turns [i] h h' ∧
      Fared E W Z a A h t zs [] (treeOf t (zs.map (subsAt i (one v)))) h' := by
  obtain ⟨q, h', hr, tn, l'⟩ := fill_live (grow := grow) (t := t) T.live hi hia hv
  refine ⟨q, h', hr, tn, A, _, ⟨l', fun z hz => ?_, T.top, fun z hz => ?_⟩, rfl, fun _ hb => hb, .refl, tn.le, subsAt_vars, within_same (wk_map (fun z hz => subsAt_string (T.live.kids z hz).1) fun z _ => subsAt_snd z)⟩
  · obtain ⟨y, hy, rfl⟩ := List.mem_map.1 hz
    rw [subsAt_snd]
    exact T.owned y hy
  · obtain ⟨y, hy, rfl⟩ := List.mem_map.1 hz
    obtain ⟨_, u, o, _, e, _⟩ := T.kid hy
    have hf := T.flat y hy
    unfold subsAt
    split
    · rw [e] at hf ⊢
      exact flat_one hf.1 hv
    · exact hf

/-- A new subnode. -/
theorem add_neat {m : Bytes} (T : Neat Z a A h t zs) (hnew : ∀ z ∈ zs, z.1.thisString E ≠ m) :
    ∃ h', (hAdd grow (some a) (.val (.str m))).run h = (.ok (some h.nodes.length), h') ∧ Turns [a] h h' ∧
      Neat Z a (h.nodes.length :: A) h' t (zs ++ [(.node (.str m) [], some h.nodes.length)]) ∧
      VarsGo h.nodes.length zs [] (zs ++ [(.node (.str m) [], some h.nodes.length)]) ∧
      Within h (wk E W zs) (wk E W (zs ++ [(.node (.str m) [], some h.nodes.length)])) := by
  obtain ⟨h', hr, tn, hlen, l', _⟩ := addVar_live (grow := grow) (nm := m) T.live
  have T' : Neat Z a (h.nodes.length :: A) h' t (zs ++ [(.node (.str m) [], some h.nodes.length)]) := by
    refine ⟨l', fun z hz => ?_, T.top, fun z hz => ?_⟩
    · rcases List.mem_append.1 hz with hz | hz
      · obtain ⟨i, hi, e⟩ := T.owned z hz
        exact ⟨i, List.mem_cons_of_mem _ hi, e⟩
      · rw [List.mem_singleton] at hz
        subst hz
        exact ⟨_, List.mem_cons_self .., rfl⟩
    · rcases List.mem_append.1 hz with hz | hz
      · exact T.flat z hz
      · rw [List.mem_singleton] at hz
        subst hz
        exact ⟨nofun, trivial⟩
  refine ⟨h', hr, tn, T', fun j hj => ?_, fun j hj => ?_⟩
  · refine ⟨fun hg z hz => ?_, fun w hw => ⟨fun _ => ⟨?_, fun z hz => ?_⟩, nofun⟩⟩
    · rcases List.mem_append.1 hz with hz | hz
      · exact hg z hz
      · rw [List.mem_singleton] at hz
        subst hz
        intro e
        cases e
        omega
    · obtain ⟨⟨z, hz, e⟩, _⟩ := hw
      exact ⟨z, List.mem_append_left _ hz, e⟩
    · rcases List.mem_append.1 hz with hz | hz
      · exact hw.2 z hz
      · rw [List.mem_singleton] at hz
        subst hz
        constructor
        · intro e
          cases e
          omega
        · intro e
          cases e
          obtain ⟨⟨z, hz, e⟩, hi⟩ := hw
          have e2 := (hi z hz).1 e
          obtain ⟨_, u, o, _, e3, _⟩ := T.kid hz
          have := hnew z hz
          rw [e3] at e2 this
          cases e2
          exact absurd rfl this
  · obtain ⟨z, hz, e1, e2⟩ := mem_wk.1 hj
    rcases List.mem_append.1 hz with hz | hz
    · exact .inl (mem_wk.2 ⟨z, hz, e1, e2⟩)
    · rw [List.mem_singleton] at hz
      subst hz
      cases e2
      exact .inr (Nat.le_refl _)

/-! ## Set -/

/-- The subnode found, or a new one. -/
def orNew (grow : Nat → Nat → Nat) (p : Ptr) (m : Bytes) : Ptr → HM Ptr
  | none => hAdd grow p (.val (.str m))
  | q => pure q

theorem set_name {n : Nat} {m : Bytes} (hm : Name E m) {x : HVal} : hSetPath grow E n (some a) (pathOf [m]) x = (do
    let q ← hNode E n (some a) m
    let q ← orNew grow (some a) m q
    let r ← (do HM.putOut q {}; hAddNodesVal grow q x : HM Ptr)
    pure (.ptr r)) := by
  have e : hSteps E (pathOf [m]).out = .ok [.name (.str m)] := by
    show hSteps E [leaf m] = _
    unfold hSteps
    rw [if_neg (show (leaf m).thisString E ≠ tyIndex from name_not_bang hm _)]
    rfl
  unfold hSetPath
  show (HM.lift (hSteps E (pathOf [m]).out) >>= fun ss => _) = _
  rw [e]
  show (hSet E grow n (some a) [.name (.str m)] x >>= fun r => pure (HVal.ptr r)) = _
  unfold hSet
  dsimp only
  unfold hSetWalk
  simp only [hm_assoc]
  congr 1
  funext q
  cases q with
  | none =>
    unfold hSetNew
    simp only [hm_assoc]
    congr 1
    funext q
    unfold hSetNew
    simp only [hm_pure, Bool.false_eq_true, ↓reduceIte, hm_assoc]
  | some i =>
    unfold hSetWalk
    simp only [hm_pure, Bool.false_eq_true, ↓reduceIte, hm_assoc]
    rw [show orNew grow (some a) m (some i) = pure (some i) from rfl, hm_pure]

theorem put_neat {m : Bytes} {v : Val} (T : Neat Z a A h t zs) (hm : Name E m) (hW : m ∈ W) (hv : NoGraph v) :
    Run (a :: wk E W zs) (fun n => hSetPath grow E n (some a) (pathOf [m]) (.val v)) h (assign.put E (pathOf [m]) v) (treeOf t zs) fun _ _ g' h' => Fared E W Z a A h t zs [] g' h' := by
  have e0 : ∀ r, setPath E v [leaf m] (treeOf t zs) = .ok r → assign.put E (pathOf [m]) v (treeOf t zs) = .ok (.graph r.2, r.1) := by
    intro r hr
    rw [put_eq (by nofun)]
    show (setPath E v [leaf m] (treeOf t zs) >>= fun r => _) = _
    rw [hr]
    rfl
  have hni : ¬ (leaf m).thisString E = tyIndex := name_not_bang hm _
  unfold Run
  rcases node_live (E := E) T.live m with ⟨⟨N, hN⟩, hf, hnew⟩ | ⟨j, z, hj, hz, hf, N, hN⟩
  · obtain ⟨h1, hr1, t1, T1, f1, k1⟩ := add_neat (grow := grow) (W := W) T hnew
    obtain ⟨q, h2, hr2, t2, w2⟩ := fill_neat (E := E) (grow := grow) (W := W) T1 (List.mem_cons_self ..) (by have := T.live.below a T.live.mem; omega) hv
    obtain ⟨r, e1⟩ : ∃ r, setPath E v [leaf m] (treeOf t zs) = .ok (.node t (zs.map (·.1) ++ [.node (.str m) (one v)]), r) := by
      unfold treeOf setPath
      rw [if_neg hni]
      rw [show (leaf m).thisString E = m from rfl, hf]
      simp only [Res.ok_bind]
      unfold setNew
      rw [if_neg hni]
      rw [show leaf m = .node (.str m) [] from rfl]
      dsimp only
      rw [show addedNode (.str m) = .node (.str m) [] from rfl]
      unfold setNew setLast
      simp only [Res.ok_bind]
      rw [addNodesVal_one hv]
      exact ⟨_, rfl⟩
    rw [e0 _ e1]
    refine ⟨N, .ptr q, h2, fun n hn => ?_, (t1.mono (by simp)).trans t2 (fun b hb => .inr (by simp only [List.mem_singleton] at hb; omega)), ?_⟩
    · show (hSetPath grow E n (some a) (pathOf [m]) (.val v)).run h = _
      rw [set_name hm, ok_bind' (hN n hn)]
      show (hAdd grow (some a) (.val (.str m)) >>= _).run h = _
      rw [ok_bind' hr1, ok_bind' hr2]
      rfl
    · have e2 : treeOf t ((zs ++ [((.node (.str m) [] : Graph), some h.nodes.length)]).map (subsAt h.nodes.length (one v))) = .node t (zs.map (·.1) ++ [.node (.str m) (one v)]) := by
        rw [List.map_append, subsAt_off]
        · simp [treeOf, subsAt, Graph.this]
        · intro z hz e
          obtain ⟨i, _, _, e', _, _, _, hlt⟩ := T.kid hz
          rw [e] at e'
          cases e'
          omega
      dsimp only
      rw [← e2]
      obtain ⟨A2, zs2, L2, ee2, s2, n2, le2, f2, k2⟩ := w2
      have hA : Within h A (h.nodes.length :: A) := fun b hb => by
        rcases List.mem_cons.1 hb with rfl | hb
        · exact .inr (Nat.le_refl _)
        · exact .inl hb
      exact ⟨A2, zs2, L2, ee2, fun b hb => s2 b (List.mem_cons_of_mem _ hb), hA.trans n2 t1.le, Nat.le_trans t1.le le2, f1.trans f2 t1.le, k1.trans k2 t1.le⟩
  · obtain ⟨i, u, o, e, ez, hiA, hia, _⟩ := T.kid (List.mem_of_getElem? hj)
    obtain ⟨q, h2, hr2, t2, w2⟩ := fill_neat (E := E) (grow := grow) (W := W) T hiA hia hv
    obtain ⟨r, e1⟩ : ∃ r, setPath E v [leaf m] (treeOf t zs) = .ok (.node t ((zs.map (·.1)).set j (.node u (one v))), r) := by
      unfold treeOf setPath
      rw [if_neg hni]
      rw [show (leaf m).thisString E = m from rfl, hf]
      simp only [Res.ok_bind]
      rw [List.getD_eq_getElem?_getD, List.getElem?_map, hj]
      simp only [Option.map_some, Option.getD_some]
      rw [ez]
      unfold setPath setLast
      simp only [Res.ok_bind]
      rw [addNodesVal_one hv]
      exact ⟨_, rfl⟩
    rw [e0 _ e1]
    refine ⟨N, .ptr q, h2, fun n hn => ?_, t2.mono ?_, ?_⟩
    · show (hSetPath grow E n (some a) (pathOf [m]) (.val v)).run h = _
      rw [set_name hm, ok_bind' (hN n hn), e]
      show ((pure (some i) : HM Ptr) >>= _).run h = _
      rw [hm_pure, ok_bind' hr2]
      rfl
    · intro b hb
      simp only [List.mem_singleton] at hb
      subst hb
      exact List.mem_cons_of_mem _ (mem_wk.2 ⟨z, List.mem_of_getElem? hj, by rw [hz]; exact hW, e⟩)
    · have e2 : treeOf t (zs.map (subsAt i (one v))) = .node t ((zs.map (·.1)).set j (.node u (one v))) := by
        rw [subsAt_set T.live.nodup hj e, treeOf, List.map_set, ez]
        rfl
      dsimp only
      rw [← e2]
      exact w2

end
end Ogdl
