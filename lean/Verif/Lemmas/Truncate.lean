import Verif.Spec.Truncate
import Verif.Lemmas.At
import Verif.Props.At

namespace Ogdl
open Spec

theorem prefix_cases : ∀ {p a b : Bytes}, p <+: a ++ b → (p <+: a ∧ p ≠ a) ∨ ∃ q, p = a ++ q ∧ q <+: b
  | p, [], b, h => .inr ⟨p, rfl, h⟩
  | [], x :: a, b, _ => .inl ⟨by simp, by simp⟩
  | y :: p, x :: a, b, h => by
    rw [List.cons_append, List.cons_prefix_cons] at h
    obtain ⟨rfl, h⟩ := h
    rcases prefix_cases h with ⟨h1, h2⟩ | ⟨q, rfl, hq⟩
    · exact .inl ⟨by rw [List.cons_prefix_cons]; exact ⟨rfl, h1⟩, by simpa using h2⟩
    · exact .inr ⟨q, rfl, hq⟩

theorem count_part {n p : Bytes} {k : Nat} (h : Count n k) (hp : p <+: n) (hne : p ≠ n) : Unfinished p := by
  cases h with
  | one h =>
    match p, hp, hne with
    | [], _, _ => exact .none
    | [x], hp, hne => simp at hp; subst hp; exact absurd rfl hne
    | _ :: _ :: _, hp, _ => simp [List.cons_prefix_cons] at hp
  | two h1 h2 =>
    match p, hp, hne with
    | [], _, _ => exact .none
    | [x], hp, hne => simp [List.cons_prefix_cons] at hp; subst hp; exact .one h1 (by omega)
    | [x, y], hp, hne => simp [List.cons_prefix_cons] at hp; obtain ⟨rfl, rfl⟩ := hp; exact absurd rfl hne
    | _ :: _ :: _ :: _, hp, _ => simp [List.cons_prefix_cons] at hp
  | three h1 h2 =>
    match p, hp, hne with
    | [], _, _ => exact .none
    | [x], hp, hne => simp [List.cons_prefix_cons] at hp; subst hp; exact .one (by omega) (by omega)
    | [x, y], hp, hne => simp [List.cons_prefix_cons] at hp; obtain ⟨rfl, rfl⟩ := hp; exact .two h1 (by omega)
    | [x, y, z], hp, hne => simp [List.cons_prefix_cons] at hp; obtain ⟨rfl, rfl, rfl⟩ := hp; exact absurd rfl hne
    | _ :: _ :: _ :: _ :: _, hp, _ => simp [List.cons_prefix_cons] at hp
  | four h1 h2 =>
    match p, hp, hne with
    | [], _, _ => exact .none
    | [x], hp, hne => simp [List.cons_prefix_cons] at hp; subst hp; exact .one (by omega) (by omega)
    | [x, y], hp, hne => simp [List.cons_prefix_cons] at hp; obtain ⟨rfl, rfl⟩ := hp; exact .two (by omega) (by omega)
    | [x, y, z], hp, hne => simp [List.cons_prefix_cons] at hp; obtain ⟨rfl, rfl, rfl⟩ := hp; exact .three h1 (by omega)
    | [x, y, z, w], hp, hne => simp [List.cons_prefix_cons] at hp; obtain ⟨rfl, rfl, rfl, rfl⟩ := hp; exact absurd rfl hne
    | _ :: _ :: _ :: _ :: _ :: _, hp, _ => simp [List.cons_prefix_cons] at hp

theorem unfinished_part {t p : Bytes} (h : Unfinished t) (hp : p <+: t) : Unfinished p := by
  cases h with
  | none => simp at hp; subst hp; exact .none
  | one h1 h2 =>
    match p, hp with
    | [], _ => exact .none
    | [x], hp => simp at hp; subst hp; exact .one h1 h2
    | _ :: _ :: _, hp => simp [List.cons_prefix_cons] at hp
  | two h1 h2 =>
    match p, hp with
    | [], _ => exact .none
    | [x], hp => simp [List.cons_prefix_cons] at hp; subst hp; exact .one (by omega) h2
    | [x, y], hp => simp [List.cons_prefix_cons] at hp; obtain ⟨rfl, rfl⟩ := hp; exact .two h1 h2
    | _ :: _ :: _ :: _, hp => simp [List.cons_prefix_cons] at hp
  | three h1 h2 =>
    match p, hp with
    | [], _ => exact .none
    | [x], hp => simp [List.cons_prefix_cons] at hp; subst hp; exact .one (by omega) h2
    | [x, y], hp => simp [List.cons_prefix_cons] at hp; obtain ⟨rfl, rfl⟩ := hp; exact .two (by omega) h2
    | [x, y, z], hp => simp [List.cons_prefix_cons] at hp; obtain ⟨rfl, rfl, rfl⟩ := hp; exact .three h1 h2
    | _ :: _ :: _ :: _ :: _, hp => simp [List.cons_prefix_cons] at hp

theorem content_cut {cs bs rest : Bytes} (h : BinContent cs bs rest) : ∀ cs', cs' <+: cs →
    (∃ n, BinContent cs' (bs.take n) []) ∨ ∃ r', r' <+: rest ∧ BinContent cs' bs r' := by
  induction h with
  | @done c rest h =>
    intro cs' hp
    cases cs' with
    | nil => exact .inl ⟨0, .ended .none⟩
    | cons x r' =>
      rw [List.cons_prefix_cons] at hp
      obtain ⟨rfl, hp⟩ := hp
      exact .inr ⟨r', hp, .done h⟩
  | @chunk n xs cs bs rest k hk hx hc ih =>
    intro cs' hp
    rw [List.append_assoc] at hp
    rcases prefix_cases hp with ⟨h1, h2⟩ | ⟨q, rfl, hq⟩
    · exact .inl ⟨0, .ended (count_part hk h1 h2)⟩
    · rcases prefix_cases hq with ⟨h1, h2⟩ | ⟨q, rfl, hq2⟩
      · have hl : q.length < k := by
          have := h1.length_le
          rcases Nat.lt_or_ge q.length xs.length with h | h
          · omega
          · exact absurd (h1.eq_of_length (by omega)) h2
        refine .inl ⟨q.length, ?_⟩
        obtain ⟨z, rfl⟩ := h1
        have := BinContent.cut hk hl
        simpa using this
      · rcases ih q hq2 with ⟨m, hm⟩ | ⟨r', h1, h2⟩
        · refine .inl ⟨xs.length + m, ?_⟩
          have := BinContent.chunk hk hx hm
          rw [List.take_length_add_append]
          simpa using this
        · refine .inr ⟨r', h1, ?_⟩
          have := BinContent.chunk hk hx h2
          simpa using this
  | @cut n xs k hk hx =>
    intro cs' hp
    rcases prefix_cases hp with ⟨h1, h2⟩ | ⟨q, rfl, hq⟩
    · exact .inl ⟨0, .ended (count_part hk h1 h2)⟩
    · refine .inl ⟨q.length, ?_⟩
      have hl := hq.length_le
      obtain ⟨z, rfl⟩ := hq
      have := BinContent.cut (xs := q) hk (by omega)
      simpa using this
  | @ended t h =>
    intro cs' hp
    exact .inl ⟨0, .ended (unfinished_part h hp)⟩

theorem decodes_cut {t after : Bytes} {its : List (Nat × Val)} (h : Decodes t its after) : ∀ t', t' <+: t →
    Hangs t' ∨ ∃ its' after', Decodes t' its' after' ∧ FirstOf its' its := by
  induction h with
  | @zero n after hk =>
    intro t' hp
    rcases prefix_cases hp with ⟨h1, h2⟩ | ⟨q, rfl, hq⟩
    · exact .inr ⟨[], [], .ended (count_part hk h1 h2), .none _⟩
    · exact .inr ⟨[], q, .zero hk, .none _⟩
  | @mark c after hc =>
    intro t' hp
    cases t' with
    | nil => exact .inr ⟨[], [], .ended .none, .none _⟩
    | cons x r =>
      rw [List.cons_prefix_cons] at hp
      obtain ⟨rfl, hp⟩ := hp
      exact .inr ⟨[], r, .mark hc, .none _⟩
  | @ended t hu => exact fun t' hp => .inr ⟨[], [], .ended (unfinished_part hu hp), .none _⟩
  | @text n s rest after k c its hk hc hs _ ih =>
    intro t' hp
    rw [List.append_assoc, List.append_assoc] at hp
    rcases prefix_cases hp with ⟨h1, h2⟩ | ⟨q, rfl, hq⟩
    · exact .inr ⟨[], [], .ended (count_part hk h1 h2), .none _⟩
    · cases q with
      | nil => exact .inl ⟨[], n ++ [], nofun, by simpa using .bare hk (by omega), by simp⟩
      | cons x q =>
        rw [List.cons_append, List.cons_prefix_cons] at hq
        obtain ⟨rfl, hq⟩ := hq
        rw [← List.append_assoc] at hq
        have cutText : ∀ {q : Bytes}, q <+: s → Hangs (n ++ x :: q) := fun hq =>
          ⟨[], _, nofun, .text hk (by omega) hc fun h0 => hs (hq.subset h0), by simp⟩
        rcases prefix_cases hq with ⟨h1, h2⟩ | ⟨q, rfl, hq2⟩
        · rcases prefix_cases h1 with ⟨h3, _⟩ | ⟨z, rfl, hz⟩
          · exact .inl (cutText h3)
          · cases z with
            | nil => exact .inl (cutText (by simp))
            | cons a z =>
              rw [List.cons_prefix_cons] at hz
              obtain ⟨rfl, hz⟩ := hz
              simp at hz
              subst hz
              exact absurd rfl h2
        · rcases ih q hq2 with hh | ⟨its', after', hd, hf⟩
          · exact .inl (by simpa using hangs_text hk hc hs hh)
          · exact .inr ⟨_, after', by simpa using Decodes.text hk hc hs hd, .next _ hf⟩
  | @binary n cs bs rest after k its hk hb _ ih =>
    intro t' hp
    rw [List.append_assoc] at hp
    rcases prefix_cases hp with ⟨h1, h2⟩ | ⟨q, rfl, hq⟩
    · exact .inr ⟨[], [], .ended (count_part hk h1 h2), .none _⟩
    · cases q with
      | nil => exact .inl ⟨[], n ++ [], nofun, by simpa using .bare hk (by omega), by simp⟩
      | cons x q =>
        rw [List.cons_append, List.nil_append, List.cons_prefix_cons] at hq
        obtain ⟨rfl, hq⟩ := hq
        rcases content_cut hb q hq with ⟨m, hm⟩ | ⟨r', hr, hc⟩
        · exact .inr ⟨[(k, .bytes (bs.take m))], [], by simpa using Decodes.binary hk hm (.ended .none), .cut k m bs its⟩
        · rcases ih r' hr with hh | ⟨its', after', hd, hf⟩
          · exact .inl (hangs_binary hk hc hh)
          · exact .inr ⟨_, after', by simpa using Decodes.binary hk hc hd, .next _ hf⟩

/-- The nodes of a record that `Binary` has written. -/
theorem binary_decodes (E : Ext) {g : Graph} (h : Encodable E g) : ∃ t, g.binary E = .ok (some ([1, 71, 0] ++ t)) ∧ Decodes t (preorderL 0 (visibleL E g.out)) [] := by
  obtain ⟨hn, ha, hd⟩ := h
  cases g with
  | nil => simp [NoNil] at hn
  | node v o =>
    simp only [NoNil] at hn
    simp only [Graph.out_node] at ha hd ⊢
    obtain ⟨bs, e, hl, hr⟩ := lines_binL E o 1 hn (Nat.le_refl _) ha (by omega)
    refine ⟨bs ++ [0], by simp [Graph.binary, e], ?_⟩
    simp only [Nat.sub_self] at hl hr
    have h1 := hr [0] 3 (bs.length + 2) 1 {} (by omega)
    have h2 : (BinR.mk [0] (3 + bs.length)).lines (bs.length + 2) 1 ((({} : Ev)).addAll (preorderL 0 (visibleL E o))) =
        .ok ((({} : Ev)).addAll (preorderL 0 (visibleL E o)), ⟨[], 3 + bs.length + 1⟩) := by
      simp [BinR.lines, BinR.line, BinR.varInt, BinR.read]
    rw [h2] at h1
    have h3 := lines_more _ _ _ _ _ _ (Nat.le_refl _) h1 (bs.length + 2) (by omega)
    rcases decodes_exists _ (bs ++ [0]) (Nat.lt_succ_self _) with ⟨ns, c, k1, k2, k3⟩ | ⟨its, after, hi⟩
    · have := (C04_exact ([1, 71, 0] ++ (bs ++ [0]))).2 ⟨ns, c, k1, k2, by rw [k3, List.append_assoc]⟩ (bs.length + 2)
      simp only [fromBinaryFuel, BinR.parse, BinR.header, BinR.read, List.cons_append, List.nil_append, h3, Res.ok_bind] at this
      obtain ⟨g, hg⟩ := Ev.tree_ok ((({} : Ev)).addAll (preorderL 0 (visibleL E o))) (Ev.addAll_max _ _ (by simp))
      rw [hg] at this
      cases this
    · obtain ⟨m, _, e2⟩ := decodes_lines hi 3 (bs.length + 2) (bs.length + 2) {} (by simp) (by simp)
      rw [h3] at e2
      simp only [Res.ok.injEq, Prod.mk.injEq, BinR.mk.injEq] at e2
      have h4 := (addAll_items its {} (by simp)).1
      rw [← e2.1, Ev.addAll_items] at h4
      simp at h4
      obtain ⟨_, rfl, _⟩ := e2
      rw [h4]
      exact hi

mutual
/-- The nodes of a graph, as `Binary` writes them, have texts. -/
theorem visible_texts (E : Ext) : ∀ (g : Graph) (d : Nat), ∀ it ∈ preorderL d (visible E g), ∃ s, it.2 = .str s
  | .nil, d, it, h => by simp [visible, preorderL] at h
  | .node t o, d, it, h => by
    simp only [visible] at h
    split at h
    · exact visibleL_texts E o d it h
    · simp only [preorderL, preorder, List.append_nil, List.mem_cons] at h
      rcases h with rfl | h
      · exact ⟨_, rfl⟩
      · exact visibleL_texts E o (d + 1) it h
theorem visibleL_texts (E : Ext) : ∀ (gs : List Graph) (d : Nat), ∀ it ∈ preorderL d (visibleL E gs), ∃ s, it.2 = .str s
  | [], d, it, h => by simp [visibleL, preorderL] at h
  | g :: gs, d, it, h => by
    simp only [visibleL, preorderL_append, List.mem_append] at h
    rcases h with h | h
    · exact visible_texts E g d it h
    · exact visibleL_texts E gs d it h
end

mutual
/-- The first nodes of a tree are the nodes of some trees. -/
theorem first_tree : ∀ (g : Graph) (d m : Nat), ∃ gs, NoNilL gs ∧ preorderL d gs = (preorder d g).take m
  | .nil, d, m => ⟨[], trivial, by simp [preorderL, preorder]⟩
  | .node t o, d, 0 => ⟨[], trivial, by simp [preorderL]⟩
  | .node t o, d, m + 1 => by
    obtain ⟨gs, hn, hp⟩ := first_forest o (d + 1) m
    exact ⟨[.node t gs], ⟨hn, trivial⟩, by simp [preorderL, preorder, hp]⟩
theorem first_forest : ∀ (gs : List Graph) (d m : Nat), ∃ gs', NoNilL gs' ∧ preorderL d gs' = (preorderL d gs).take m
  | [], d, m => ⟨[], trivial, by simp [preorderL]⟩
  | g :: gs, d, m => by
    obtain ⟨g1, hn1, hp1⟩ := first_tree g d m
    obtain ⟨g2, hn2, hp2⟩ := first_forest gs d (m - (preorder d g).length)
    exact ⟨g1 ++ g2, noNilL_append _ _ hn1 hn2, by rw [preorderL_append, hp1, hp2, preorderL, List.take_append]⟩
end

theorem below_preorder (gs : List Graph) (hn : NoNilL gs) : below 0 (preorderL 0 gs) = gs := by
  have hi := addAll_items (preorderL 0 gs) {} (by simp)
  have h1 := tree_below (addAll (preorderL 0 gs) {}) hi.2
  have h2 := tree_of_preorder (addAll (preorderL 0 gs) {}) gs hn (by rw [hi.1]; rfl) hi.2
  rw [h1, hi.1] at h2
  simpa using h2

end Ogdl
