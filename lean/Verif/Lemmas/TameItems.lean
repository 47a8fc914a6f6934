import Verif.Lemmas.TameRun

/-!
# Texts of templates that assign to names only, and contexts of a client
-/

namespace Ogdl
open Spec HM

variable {E : Ext} {W : List Bytes}

theorem inner_never {y : Grouping} (hy : y.Ok E) (hs : y.Scalar) : NeverGraph E y.inner := by
  cases y with
  | atom o =>
    cases o with
    | num s => exact neverGraph_num (num_isNumber hy)
    | str s => exact neverGraph_str
    | path _ _ => exact absurd hs (by simp [Grouping.Scalar])
    | paren _ => exact absurd hs (by simp [Grouping.Scalar])
  | bin op l r => exact neverGraph_op hy.1 hs

theorem tame_cond {s : Bytes} {x : Graph} {ts : List Graph} (hs : s = b!"!if" ∨ s = b!"!elseif") (hw : Whole x) (hx : x ≠ .nil) (ha : NoAssignment E x) (hts : ∀ n ∈ ts, TamePiece E W n) :
    TamePiece E W (.node (.str s) [.node (.str b!"!a") [exprOf x], .node (.str b!"!t") ts]) := by
  refine .cond hs (fun l e hl he => ?_) fun t ht => ?_
  · cases hl
    cases he
    exact exprOf_asks hx ⟨hw, ha⟩
  · cases ht
    exact .node hts

mutual
theorem item_tame : ∀ {i : Item} {rest : Bytes}, i.Ok E rest → i.Tame E W → WholeL i.trees → ∀ n ∈ i.trees, TamePiece E W n
  | .plain s, rest, ho, _, _, n, hn => by
    simp only [Item.trees, List.mem_singleton] at hn
    subst hn
    unfold Item.Ok at ho
    have hm := ho.2.2.1
    simp only [markers, List.mem_cons, List.not_mem_nil, or_false, not_or] at hm
    refine .text ?_
    show s ∉ _
    simp only [List.mem_cons, List.not_mem_nil, or_false, not_or]
    exact ⟨hm.1, hm.2.1, hm.2.2.1, hm.2.2.2.2.2.1, hm.2.2.2.2.1, hm.2.2.2.2.2.2.1⟩
  | .dollar, rest, _, _, _, n, hn => by
    simp only [Item.trees, List.mem_singleton] at hn
    subst hn
    exact .text (by show b!"$" ∉ _; decide)
  | .var id ids br, rest, ho, _, _, n, hn => by
    simp only [Item.trees, List.mem_singleton] at hn
    subst hn
    unfold Item.Ok at ho
    exact .value (.inl rfl) (pathOf_asks ho.1.2)
  | .expr x, rest, ho, hc, hw, n, hn => by
    simp only [Item.trees, List.mem_singleton] at hn hw
    subst hn
    unfold Item.Tame at hc
    unfold Item.Ok at ho
    rcases hc with hc | ⟨o, m, y, rfl, hop, hm, hW, hs, hna⟩
    · exact .value (.inr rfl) (exprOf_asks hw.2.1.2.1 ⟨hw.2.1.2.2.1, hc⟩)
    · have hwy : Whole y.inner := hw.2.1.2.2.1.2.2.2.2.1
      exact TamePiece.assign hop hm hW ⟨hwy, hna⟩ (inner_never ho.2.2.2.2 hs)
  | .cond c body more, rest, ho, hc, hw, n, hn => by
    unfold Item.Ok at ho
    unfold Item.Tame at hc
    unfold Item.trees at hn hw
    have hw1 : Whole (exprOf c.full) := hw.2.1.2.2.1.2.2.1
    have hw2 : WholeL body.trees := hw.2.1.2.2.2.2.1.2
    rcases List.mem_cons.1 hn with rfl | hn
    · exact tame_cond (.inl rfl) hw1.2.2.1 hw1.2.1 hc.1 (items_tame ho.2.2.1 hc.2.1 hw2)
    · exact branches_tame ho.2.2.2 hc.2.2 hw.2.2 n hn
  | .loop v id ids body, rest, ho, hc, hw, n, hn => by
    simp only [Item.trees, List.mem_singleton] at hn hw
    subst hn
    unfold Item.Ok at ho
    unfold Item.Tame at hc
    have hw2 : WholeL body.trees := hw.2.1.2.2.2.2.1.2
    refine .loop rfl (fun l e hl he => ?_) fun t ht => ?_
    · cases hl
      cases he
      refine ⟨(id :: ids).dropLast, (id :: ids).getLast (by simp), ?_, ?_, hc.2.1⟩
      · rw [List.dropLast_concat_getLast]
        rfl
      · rw [List.dropLast_concat_getLast]
        exact fun x hx => ⟨ho.2.2.1.2 x hx, hc.1 x hx⟩
    · cases ht
      exact .node (items_tame ho.2.2.2.2.2.1 hc.2.2 hw2)
  | .brk, rest, _, _, _, n, hn => by
    simp only [Item.trees, List.mem_singleton] at hn
    subst hn
    exact .text (by show b!"!break" ∉ _; decide)
theorem items_tame : ∀ {is : Items} {rest : Bytes}, is.Ok E rest → is.Tame E W → WholeL is.trees → ∀ n ∈ is.trees, TamePiece E W n
  | .nil, _, _, _, _, n, hn => by simp [Items.trees] at hn
  | .cons i is, rest, ho, hc, hw, n, hn => by
    unfold Items.Ok at ho
    unfold Items.Tame at hc
    unfold Items.trees at hn hw
    obtain ⟨w1, w2⟩ := wholeL_append hw
    rcases List.mem_append.1 hn with hn | hn
    · exact item_tame ho.1 hc.1 w1 n hn
    · exact items_tame ho.2 hc.2 w2 n hn
theorem branches_tame : ∀ {b : Branches} {rest : Bytes}, b.Ok E rest → b.Tame E W → WholeL b.trees → ∀ n ∈ b.trees, TamePiece E W n
  | .done, _, _, _, _, n, hn => by simp [Branches.trees] at hn
  | .els body, rest, ho, hc, hw, n, hn => by
    simp only [Branches.trees, List.mem_singleton] at hn hw
    subst hn
    unfold Branches.Ok at ho
    unfold Branches.Tame at hc
    have hw2 : WholeL body.trees := hw.2.1.2.2.1.2
    refine .els rfl fun t ht => ?_
    cases ht
    exact .node (items_tame ho.2.1 hc hw2)
  | .elif c body more, rest, ho, hc, hw, n, hn => by
    unfold Branches.Ok at ho
    unfold Branches.Tame at hc
    unfold Branches.trees at hn hw
    have hw1 : Whole (exprOf c.full) := hw.2.1.2.2.1.2.2.1
    have hw2 : WholeL body.trees := hw.2.1.2.2.2.2.1.2
    rcases List.mem_cons.1 hn with rfl | hn
    · exact tame_cond (.inr rfl) hw1.2.2.1 hw1.2.1 hc.1 (items_tame ho.2.2.1 hc.2.1 hw2)
    · exact branches_tame ho.2.2.2 hc.2.2 hw.2.2 n hn
end

theorem text_tame {is : Items} (ho : is.Ok E []) (hc : is.Tame E W) (hl : Fits is.text) : ∃ t, newTemplate E is.text = .ok t ∧ Tame E W t := by
  have h := newTemplate_exact ho hl
  exact ⟨_, h, .node (items_tame ho hc (plainL_whole (newTemplate_plainG isText_str h).2))⟩

/-! ## The context of a client -/

theorem holdsL_tops {h : Heap} : ∀ (gs : List Graph) {ps : List Ptr} {F : List Nat}, HoldsL h gs ps F → WholeL gs →
    ∃ zs : List (Graph × Ptr), zs.map (·.1) = gs ∧ zs.map (·.2) = ps ∧ (zs.map (·.2)).Nodup ∧
      ∀ z ∈ zs, ∃ b u o x qs X, z.1 = .node u o ∧ z.2 = some b ∧ b ∈ F ∧ look h b = some (x, qs) ∧ Content x u ∧ HoldsL h o qs X ∧ WholeL o ∧ (∀ d ∈ X, d ∈ F) ∧ ∀ d ∈ X, ∀ y ∈ zs, y.2 ≠ some d
  | [], ps, F, hg, _ => by
    unfold HoldsL at hg
    exact ⟨[], rfl, hg.1.symm, .nil, nofun⟩
  | g :: gs, ps, F, hg, hw => by
    unfold HoldsL at hg
    obtain ⟨p, ps', F1, F2, rfl, rfl, hd, h1, h2⟩ := hg
    unfold WholeL at hw
    obtain ⟨zs, e1, e2, hn, hz⟩ := holdsL_tops gs h2 hw.2.2
    cases g with
    | nil => exact absurd rfl hw.1
    | node u o =>
      obtain ⟨b, x, qs, X, rfl, rfl, hbX, hl, hc, ho⟩ := h1.parts
      have hwo : WholeL o := by have := hw.2.1; unfold Whole at this; exact this.2
      refine ⟨(.node u o, some b) :: zs, by simp [e1], by simp [e2], ?_, fun z hzm => ?_⟩
      · rw [List.map_cons, List.nodup_cons]
        refine ⟨fun hm => ?_, hn⟩
        obtain ⟨z, hzm, e⟩ := List.mem_map.1 hm
        obtain ⟨b', _, _, _, _, _, _, eb, hb', _⟩ := hz z hzm
        rw [eb] at e
        cases e
        exact hd b (List.mem_cons_self ..) hb'
      · rcases List.mem_cons.1 hzm with rfl | hzm
        · refine ⟨b, u, o, x, qs, X, rfl, rfl, List.mem_append_left _ (List.mem_cons_self ..), hl, hc, ho, hwo, fun d hd' => List.mem_append_left _ (List.mem_cons_of_mem _ hd'), fun d hdX y hy => ?_⟩
          rcases List.mem_cons.1 hy with rfl | hy
          · intro e
            cases e
            exact hbX hdX
          · intro e
            obtain ⟨b', _, _, _, _, _, _, eb, hb', _⟩ := hz y hy
            rw [eb] at e
            cases e
            exact hd _ (List.mem_cons_of_mem _ hdX) hb'
        · obtain ⟨b', u', o', x', qs', X', a1, a2, a3, a4, a5, a6, a7, a8, a9⟩ := hz z hzm
          refine ⟨b', u', o', x', qs', X', a1, a2, List.mem_append_right _ a3, a4, a5, a6, a7, fun d hd' => List.mem_append_right _ (a8 d hd'), fun d hdX y hy => ?_⟩
          rcases List.mem_cons.1 hy with rfl | hy
          · intro e
            cases e
            exact hd _ (List.mem_cons_self ..) (a8 _ hdX)
          · exact a9 d hdX y hy

theorem content_shows {P : Nat → Prop} {h : Heap} {x : HVal} {u : Val} (hc : Content x u) : ShowsV P h u x := by
  cases hc with
  | val h => exact .plain h
  | nil => exact .graph (by unfold Shows; rfl)

theorem holds_neat {h : Heap} (hs : Solid h) {t : Val} {o : List Graph} {p : Ptr} {F : List Nat} (hg : Holds h (.node t o) p F) (hw : Whole (.node t o)) :
    ∃ a x zs A, p = some a ∧ Neat (fun _ => True) a A h t zs ∧ treeOf t zs = .node t o ∧ look h a = some (x, zs.map (·.2)) := by
  have hflat := holds_flat _ hg
  obtain ⟨a, x, ps, F', rfl, rfl, haF, hl, hc, ho⟩ := hg.parts
  unfold Whole at hw
  obtain ⟨zs, rfl, rfl, hn, hz⟩ := holdsL_tops o ho hw.2
  have hA : ∀ d, d ∈ a :: zs.filterMap (·.2) ↔ d = a ∨ ∃ y ∈ zs, y.2 = some d := by
    intro d
    rw [List.mem_cons, List.mem_filterMap]
  refine ⟨a, x, zs, a :: zs.filterMap (·.2), rfl, ⟨⟨hs, ⟨x, hl, content_shows hc⟩, fun z hzm => ?_, hn, List.mem_cons_self .., fun d hd => ?_, fun _ _ => trivial, fun _ _ => trivial⟩, fun z hzm => ?_, hflat.1, fun z hzm => ?_⟩, rfl, hl⟩
  · obtain ⟨b, u, o, y, qs, X, a1, a2, a3, a4, a5, a6, a7, a8, a9⟩ := hz z hzm
    rw [a1]
    refine ⟨nofun, b, y, qs, a2, ⟨fun e => haF (by rw [← e]; exact a3), trivial⟩, a4, content_shows a5, holds_showsL o a6 a7 fun d hd => ⟨fun hx => ?_, trivial⟩⟩
    rcases (hA d).1 hx with rfl | ⟨y, hy, e⟩
    · exact haF (a8 _ hd)
    · exact a9 d hd y hy e
  · rcases (hA d).1 hd with rfl | ⟨y, hy, e⟩
    · exact look_lt hl
    · obtain ⟨b, u, o, y', qs, X, a1, a2, a3, a4, _⟩ := hz y hy
      rw [a2] at e
      cases e
      exact look_lt a4
  · obtain ⟨b, u, o, y', qs, X, a1, a2, a3, a4, _⟩ := hz z hzm
    exact ⟨b, (hA b).2 (.inr ⟨z, hzm, a2⟩), a2⟩
  · obtain ⟨b, u, o, y', qs, X, a1, a2, a3, a4, a5, a6, _⟩ := hz z hzm
    rw [a1]
    refine ⟨fun g e => ?_, holds_flatL _ a6⟩
    cases a5 with
    | val h => exact absurd e (h g)
    | nil => cases e; rfl

end Ogdl
