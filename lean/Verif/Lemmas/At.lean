import Verif.Spec.At
import Verif.Lemmas.Decode
import Verif.Props.Log
import Verif.Props.Cut
import Verif.Props.Decode

namespace Ogdl
open Spec

theorem content_part {cs bs rest : Bytes} (h : BinContent cs bs rest) :
    ∃ p, cs = p ++ rest ∧ ((∀ r, BinContent (p ++ r) bs r) ∨ rest = []) := by
  induction h with
  | @done c rest h => exact ⟨[c], rfl, .inl fun r => .done h⟩
  | @chunk bs xs cs bs' rest k hk hx hc ih =>
    obtain ⟨p, rfl, hp⟩ := ih
    refine ⟨bs ++ xs ++ p, by simp, ?_⟩
    rcases hp with hp | hp
    · exact .inl fun r => by
        have := BinContent.chunk hk hx (hp r)
        simpa using this
    · exact .inr hp
  | @cut bs xs k hk hx => exact ⟨bs ++ xs, by simp, .inr rfl⟩
  | @ended t h => exact ⟨t, by simp, .inr rfl⟩

theorem decodes_part {t after : Bytes} {its : List (Nat × Val)} (h : Decodes t its after) :
    ∃ body, t = body ++ after ∧ Decodes body its [] := by
  induction h with
  | @zero bs after hk => exact ⟨bs, rfl, by simpa using Decodes.zero (after := []) hk⟩
  | @mark c after hc => exact ⟨[c], rfl, .mark hc⟩
  | @ended t hu => exact ⟨t, by simp, .ended hu⟩
  | @text bs s rest after k c its hk hc hs _ ih =>
    obtain ⟨body, rfl, hb⟩ := ih
    exact ⟨bs ++ (c :: s) ++ [0] ++ body, by simp, .text hk hc hs hb⟩
  | @binary bs cs bs' rest after k its hk hb _ ih =>
    obtain ⟨body, rfl, hd⟩ := ih
    obtain ⟨p, rfl, hp⟩ := content_part hb
    rcases hp with hp | hp
    · exact ⟨bs ++ [1] ++ (p ++ body), by simp, .binary hk (hp body) hd⟩
    · simp only [List.append_eq_nil_iff] at hp
      obtain ⟨rfl, rfl⟩ := hp
      exact ⟨bs ++ [1] ++ (p ++ []), by simp, .binary hk hb hd⟩

theorem noHeader_header {d : Bytes} {k : Nat} (h : NoHeader d k) : ∃ r, (BinR.mk d 0).header = (false, ⟨r, k⟩) := by
  cases h with
  | ended h1 h2 =>
    match d, h1, h2 with
    | [], _, _ => exact ⟨_, rfl⟩
    | [a], _, h2 => simp at h2; subst h2; exact ⟨_, rfl⟩
    | [a, b], _, h2 => simp [List.cons_prefix_cons] at h2; obtain ⟨rfl, rfl⟩ := h2; exact ⟨_, rfl⟩
    | _ :: _ :: _ :: _, h1, _ => simp at h1; omega
  | @other p after c h1 h2 h3 =>
    match p, h1, h2, h3 with
    | [], _, _, h3 =>
      simp at h3
      refine ⟨after, ?_⟩
      unfold BinR.header
      simp only [BinR.read, List.nil_append]
      split
      next q e => simp at e; exact absurd e.1.symm (by simpa using fun h => h3 h.symm)
      next e => simp at e; simp [e]
    | [a], _, h2, h3 =>
      simp at h2; subst h2
      simp [List.cons_prefix_cons] at h3
      refine ⟨after, ?_⟩
      unfold BinR.header
      simp only [BinR.read, List.cons_append, List.nil_append]
      split
      next q e => simp at e; exact absurd e.1 h3
      next e => simp at e; simp [e]
    | [a, b], _, h2, h3 =>
      simp [List.cons_prefix_cons] at h2
      obtain ⟨rfl, rfl⟩ := h2
      simp [List.cons_prefix_cons] at h3
      refine ⟨after, ?_⟩
      unfold BinR.header
      simp only [BinR.read, List.cons_append, List.nil_append]
      split
      next q e => simp at e; exact absurd e.1 h3
      next e => simp at e; simp [e]
    | _ :: _ :: _ :: _, h1, _, _ => simp at h1; omega

theorem noHeader_or (d : Bytes) : (∃ k, NoHeader d k) ∨ ∃ t, d = [1, 71, 0] ++ t := by
  match d with
  | [] => exact .inl ⟨0, .ended (p := []) (by simp) (by simp)⟩
  | a :: d =>
    by_cases ha : a = 1
    · subst ha
      match d with
      | [] => exact .inl ⟨1, .ended (p := [1]) (by simp) (by simp)⟩
      | b :: d =>
        by_cases hb : b = 71
        · subst hb
          match d with
          | [] => exact .inl ⟨2, .ended (p := [1, 71]) (by simp) (by simp [List.cons_prefix_cons])⟩
          | c :: d =>
            by_cases hc : c = 0
            · subst hc; exact .inr ⟨d, rfl⟩
            · exact .inl ⟨3, .other (p := [1, 71]) (by simp) (by simp [List.cons_prefix_cons]) (by simp [List.cons_prefix_cons, hc])⟩
        · exact .inl ⟨2, .other (p := [1]) (by simp) (by simp) (by simp [List.cons_prefix_cons, hb])⟩
    · exact .inl ⟨1, .other (p := []) (by simp) (by simp) (by simp [ha])⟩

theorem noHeader_not {d : Bytes} {k : Nat} (h : NoHeader d k) (t : Bytes) : d ≠ [1, 71, 0] ++ t := by
  rintro rfl
  obtain ⟨r, e⟩ := noHeader_header h
  simp [BinR.header, BinR.read] at e

theorem noHeader_unique {d : Bytes} {k k' : Nat} (h : NoHeader d k) (h' : NoHeader d k') : k = k' := by
  obtain ⟨r, e⟩ := noHeader_header h
  obtain ⟨r', e'⟩ := noHeader_header h'
  rw [e] at e'
  simp at e'
  exact e'.2

theorem noHeader_le {d : Bytes} {k : Nat} (h : NoHeader d k) : k ≤ d.length := by
  cases h with
  | ended => exact Nat.le_refl _
  | other => simp

theorem noHeader_zero {d : Bytes} {k : Nat} (h : NoHeader d k) : k = 0 ↔ d = [] := by
  cases h with
  | ended => simp
  | other => simp

theorem hasRecord_parse {d rec : Bytes} {its : List (Nat × Val)} (h : HasRecord d rec its) : ∃ r, ∀ f, d.length + 1 ≤ f →
    (BinR.mk d 0).parse f = .ok (.node (.str b!"_") (below 0 its), ⟨r, rec.length⟩) := by
  obtain ⟨body, after, rfl, rfl, hd⟩ := h
  refine ⟨after, fun f hf => ?_⟩
  obtain ⟨m, hm, e⟩ := decodes_parse hd 0 f (by simp at hf ⊢; omega)
  have : m = ([1, 71, 0] ++ body : Bytes).length := by simp at hm ⊢; omega
  rw [List.append_assoc, e, this]

theorem hasRecord_skip {d rec : Bytes} {its : List (Nat × Val)} (h : HasRecord d rec its) : ∃ p r, (BinR.mk d 0).header = (true, p) ∧
    ∀ f, d.length + 1 ≤ f → p.skip f f = .ok ⟨r, rec.length⟩ := by
  obtain ⟨body, after, rfl, rfl, hd⟩ := h
  refine ⟨⟨body ++ after, 3⟩, after, by simp [BinR.header, BinR.read], fun f hf => ?_⟩
  obtain ⟨m, hm, e⟩ := decodes_lines hd 3 f f {} (by simp at hf ⊢; omega) (by simp at hf ⊢; omega)
  have : m = ([1, 71, 0] ++ body : Bytes).length := by simp at hm ⊢; omega
  rw [skip_of_lines _ _ _ _ _ _ e, this]

theorem hasRecord_or (d : Bytes) : (∃ k, NoHeader d k) ∨ CutInText d ∨ ∃ rec its, HasRecord d rec its := by
  rcases noHeader_or d with h | ⟨t, rfl⟩
  · exact .inl h
  · refine .inr ?_
    rcases decodes_exists _ t (Nat.lt_succ_self _) with ⟨ns, c, h1, h2, h3⟩ | ⟨its, after, hi⟩
    · exact .inl ⟨ns, c, h1, h2, by rw [h3, List.append_assoc]⟩
    · obtain ⟨body, rfl, hb⟩ := decodes_part hi
      exact .inr ⟨[1, 71, 0] ++ body, its, body, after, by simp, rfl, hi⟩

theorem parse_of_fuel {b : Bytes} {f : Nat} {x : Graph × BinR} (h : (BinR.mk b 0).parse f = .ok x) : fromBinaryFuel f b = .ok x.1 := by
  simp [fromBinaryFuel, h]

theorem hasRecord_notCut {d rec : Bytes} {its : List (Nat × Val)} (h : HasRecord d rec its) : ¬ CutInText d := by
  intro hc
  obtain ⟨r, hr⟩ := hasRecord_parse h
  have := (C04_exact d).2 hc (d.length + 1)
  rw [parse_of_fuel (hr _ (Nat.le_refl _))] at this
  cases this

theorem skip_more : ∀ (f : Nat) (p : BinR) (F F' : Nat) (r : BinR), F ≤ F' → p.skip F f = .ok r → ∀ f' ≥ f, p.skip F' f' = .ok r
  | 0, _, _, _, _, _, h, _, _ => by cases h
  | f + 1, p, F, F', r, hF, h, f', hf => by
    cases f' with
    | zero => omega
    | succ f' =>
      rw [BinR.skip] at h ⊢
      obtain ⟨x, h1, h2⟩ := res_bind_ok h
      rw [line_more_le h1 hF]
      simp only [Res.ok_bind] at h2 ⊢
      split at h2
      next h0 => rw [if_pos h0]; exact h2
      next h0 => rw [if_neg h0]; exact skip_more f _ F F' _ hF h2 f' (by omega)

theorem skip_lines : ∀ (f : Nat) (p : BinR) (F : Nat) (r : BinR) (ev : Ev), p.skip F f = .ok r → ∃ its, p.lines F f ev = .ok (addAll its ev, r)
  | 0, _, _, _, _, h => by cases h
  | f + 1, p, F, r, ev, h => by
    rw [BinR.skip] at h
    rw [BinR.lines]
    obtain ⟨⟨lev, bin, b, p1⟩, h1, h2⟩ := res_bind_ok h
    rw [h1]
    simp only [Res.ok_bind] at h2 ⊢
    split at h2
    next h0 => cases h2; rw [if_pos h0]; exact ⟨[], rfl⟩
    next h0 =>
      rw [if_neg h0]
      split
      · obtain ⟨its, e⟩ := skip_lines f p1 F r (ev.addAt (.bytes b) (lev - 1)) h2
        exact ⟨(lev - 1, .bytes b) :: its, e⟩
      · obtain ⟨its, e⟩ := skip_lines f p1 F r (ev.addAt (.str b) (lev - 1)) h2
        exact ⟨(lev - 1, .str b) :: its, e⟩

theorem parse_more {p : BinR} {f f' : Nat} {x : Graph × BinR} (h : p.parse f = .ok x) (hf : f ≤ f') : p.parse f' = .ok x := by
  unfold BinR.parse at h ⊢
  split at h
  next q e => exact h
  next q e =>
    obtain ⟨y, h3, h4⟩ := res_bind_ok h
    simp only [lines_more _ _ _ _ _ _ hf h3 _ hf, Res.ok_bind]
    exact h4

end Ogdl
