import Verif.Lemmas.LiveRun
import Verif.Lemmas.TemplateFlow
import Verif.Props.Parsed

/-!
# Templates as texts that do not assign
-/

namespace Ogdl
open Spec

variable {E : Ext}

/-- A name does not begin with an ASCII character that is not in names. -/
theorem name_first {s t : Bytes} {k : UInt8} (h : Name E s) (hk : k < 0x80) (h1 : k ≠ 95) (h2 : latinLetter k.toNat = false) (h3 : ¬ (48 ≤ k.toNat ∧ k.toNat ≤ 57)) : s ≠ k :: t := by
  obtain ⟨rs, hne, hr, rfl⟩ := h
  cases rs with
  | nil => exact absurd rfl hne
  | cons r rs =>
    intro heq
    obtain ⟨c, w, hw, hc⟩ := encodeRune_head r
    rw [List.flatMap_cons, hw] at heq
    simp only [List.cons_append, List.cons.injEq] at heq
    obtain ⟨rfl, _⟩ := heq
    obtain ⟨hv, hn⟩ := hr r (by simp)
    by_cases h80 : r < 0x80
    · rw [if_pos h80] at hc
      have : r = c.toNat := hc.1.symm
      subst this
      rcases hn with h | h
      · exact h1 (UInt8.toNat_inj.1 h)
      · rw [if_pos (by omega)] at h
        rcases h with h | h
        · rw [h2] at h; cases h
        · exact h3 h
    · rw [if_neg h80] at hc
      exact absurd hk hc

theorem name_no_assignment {s : Bytes} (h : Name E s) : s ∉ assignments := by
  simp only [assignments, List.mem_cons, List.not_mem_nil, or_false, not_or]
  refine ⟨?_, ?_, ?_, ?_, ?_, ?_⟩ <;> exact name_first h (by decide) (by decide) (by decide) (by decide)

theorem path_asks : ∀ {ids : List Bytes}, (∀ x ∈ ids, Name E x) → AllThisL (fun v => vstr E v ∉ assignments) (ids.map leaf)
  | [], _ => trivial
  | id :: ids, h => ⟨⟨name_no_assignment (h id (by simp)), trivial⟩, path_asks fun x hx => h x (by simp [hx])⟩

theorem pathOf_asks {ids : List Bytes} (h : ∀ x ∈ ids, Name E x) : Asks E (pathOf ids) := by
  refine ⟨?_, ⟨(by decide : (b!"!p" : Bytes) ∉ assignments), path_asks h⟩⟩
  refine ⟨trivial, ?_⟩
  clear h
  induction ids with
  | nil => trivial
  | cons id ids ih => exact ⟨nofun, ⟨trivial, trivial⟩, ih⟩

theorem exprOf_asks {x : Graph} (hn : x ≠ .nil) (h : Asks E x) : Asks E (exprOf x) :=
  ⟨⟨trivial, hn, h.1, trivial⟩, ⟨(by decide : (b!"!e" : Bytes) ∉ assignments), h.2, trivial⟩⟩

theorem wholeL_append : ∀ {a b : List Graph}, WholeL (a ++ b) → WholeL a ∧ WholeL b
  | [], _, h => ⟨trivial, h⟩
  | _ :: _, _, h => ⟨⟨h.1, h.2.1, (wholeL_append h.2.2).1⟩, (wholeL_append h.2.2).2⟩

theorem calm_cond {s : Bytes} {x : Graph} {ts : List Graph} (hs : s = b!"!if" ∨ s = b!"!elseif") (hw : Whole x) (hx : x ≠ .nil) (ha : NoAssignment E x) (hts : ∀ n ∈ ts, CalmPiece E n) :
    CalmPiece E (.node (.str s) [.node (.str b!"!a") [exprOf x], .node (.str b!"!t") ts]) := by
  refine .cond hs (fun l e hl he => ?_) fun t ht => ?_
  · cases hl
    cases he
    exact exprOf_asks hx ⟨hw, ha⟩
  · cases ht
    exact .node hts

mutual
theorem item_calm : ∀ {i : Item} {rest : Bytes}, i.Ok E rest → i.Calm E → WholeL i.trees → ∀ n ∈ i.trees, CalmPiece E n
  | .plain s, rest, ho, _, _, n, hn => by
    simp only [Item.trees, List.mem_singleton] at hn
    subst hn
    unfold Item.Ok at ho
    have hm := ho.2.2.1
    simp only [markers, List.mem_cons, List.not_mem_nil, or_false, not_or] at hm
    refine .text ?_
    show s ∉ _
    simp only [List.mem_cons, List.not_mem_nil, or_false, not_or]
    exact ⟨hm.1, hm.2.1, hm.2.2.1, hm.2.2.2.2.2.1, hm.2.2.2.2.1, hm.2.2.2.2.2.2.1⟩
  | .dollar, rest, _, _, _, n, hn => by
    simp only [Item.trees, List.mem_singleton] at hn
    subst hn
    exact .text (by show b!"$" ∉ _; decide)
  | .var id ids br, rest, ho, _, _, n, hn => by
    simp only [Item.trees, List.mem_singleton] at hn
    subst hn
    unfold Item.Ok at ho
    exact .value (.inl rfl) (pathOf_asks ho.1.2)
  | .expr x, rest, _, hc, hw, n, hn => by
    simp only [Item.trees, List.mem_singleton] at hn hw
    subst hn
    exact .value (.inr rfl) (exprOf_asks hw.2.1.2.1 ⟨hw.2.1.2.2.1, hc⟩)
  | .cond c body more, rest, ho, hc, hw, n, hn => by
    unfold Item.Ok at ho
    unfold Item.Calm at hc
    unfold Item.trees at hn hw
    have hw1 : Whole (exprOf c.full) := hw.2.1.2.2.1.2.2.1
    have hw2 : WholeL body.trees := hw.2.1.2.2.2.2.1.2
    rcases List.mem_cons.1 hn with rfl | hn
    · exact calm_cond (.inl rfl) hw1.2.2.1 hw1.2.1 hc.1 (items_calm ho.2.2.1 hc.2.1 hw2)
    · exact branches_calm ho.2.2.2 hc.2.2 hw.2.2 n hn
  | .loop v id ids body, rest, ho, hc, hw, n, hn => by
    simp only [Item.trees, List.mem_singleton] at hn hw
    subst hn
    unfold Item.Ok at ho
    unfold Item.Calm at hc
    have hw2 : WholeL body.trees := hw.2.1.2.2.2.2.1.2
    refine .loop rfl (fun l e hl he => ?_) fun t ht => ?_
    · cases hl
      cases he
      refine ⟨exprOf_asks nofun (pathOf_asks ho.2.2.1.2), .expr rfl (.path rfl fun k ks e => ?_)⟩
      cases e
      exact hc.1
    · cases ht
      exact .node (items_calm ho.2.2.2.2.2.1 hc.2 hw2)
  | .brk, rest, _, _, _, n, hn => by
    simp only [Item.trees, List.mem_singleton] at hn
    subst hn
    exact .text (by show b!"!break" ∉ _; decide)
theorem items_calm : ∀ {is : Items} {rest : Bytes}, is.Ok E rest → is.Calm E → WholeL is.trees → ∀ n ∈ is.trees, CalmPiece E n
  | .nil, _, _, _, _, n, hn => by simp [Items.trees] at hn
  | .cons i is, rest, ho, hc, hw, n, hn => by
    unfold Items.Ok at ho
    unfold Items.Calm at hc
    unfold Items.trees at hn hw
    obtain ⟨w1, w2⟩ := wholeL_append hw
    rcases List.mem_append.1 hn with hn | hn
    · exact item_calm ho.1 hc.1 w1 n hn
    · exact items_calm ho.2 hc.2 w2 n hn
theorem branches_calm : ∀ {b : Branches} {rest : Bytes}, b.Ok E rest → b.Calm E → WholeL b.trees → ∀ n ∈ b.trees, CalmPiece E n
  | .done, _, _, _, _, n, hn => by simp [Branches.trees] at hn
  | .els body, rest, ho, hc, hw, n, hn => by
    simp only [Branches.trees, List.mem_singleton] at hn hw
    subst hn
    unfold Branches.Ok at ho
    unfold Branches.Calm at hc
    have hw2 : WholeL body.trees := hw.2.1.2.2.1.2
    refine .els rfl fun t ht => ?_
    cases ht
    exact .node (items_calm ho.2.1 hc hw2)
  | .elif c body more, rest, ho, hc, hw, n, hn => by
    unfold Branches.Ok at ho
    unfold Branches.Calm at hc
    unfold Branches.trees at hn hw
    have hw1 : Whole (exprOf c.full) := hw.2.1.2.2.1.2.2.1
    have hw2 : WholeL body.trees := hw.2.1.2.2.2.2.1.2
    rcases List.mem_cons.1 hn with rfl | hn
    · exact calm_cond (.inr rfl) hw1.2.2.1 hw1.2.1 hc.1 (items_calm ho.2.2.1 hc.2.1 hw2)
    · exact branches_calm ho.2.2.2 hc.2.2 hw.2.2 n hn
end

theorem text_calm {is : Items} (ho : is.Ok E []) (hc : is.Calm E) (hl : Fits is.text) : ∃ t, newTemplate E is.text = .ok t ∧ Calm E t := by
  have h := newTemplate_exact ho hl
  exact ⟨_, h, .node (items_calm ho hc (plainL_whole (newTemplate_plainG isText_str h).2))⟩

end Ogdl
