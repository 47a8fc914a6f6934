import Verif.Lemmas.Cut
import Verif.Lemmas.Levels
import Verif.Lemmas.Parsed
import Verif.Spec.Decode

/-! What the binary reader returns. -/

namespace Ogdl
open Spec

/-! ## More iterations make no difference -/

theorem textNode_more : ∀ (f : Nat) (p : BinR) (buf : Bytes) (r : Bytes × BinR), p.textNode f buf = .ok r → p.textNode (f + 1) buf = .ok r
  | 0, _, _, _, h => by cases h
  | f + 1, p, buf, r, h => by
    rw [BinR.textNode] at h ⊢
    split at h
    next q e => exact h
    next c q _ e => exact textNode_more f _ _ _ h
    next q e => exact textNode_more f _ _ _ h

theorem binNode_more : ∀ (f : Nat) (p : BinR) (buf : Bytes) (r : Bytes × BinR), p.binNode f buf = .ok r → p.binNode (f + 1) buf = .ok r
  | 0, _, _, _, h => by cases h
  | f + 1, p, buf, r, h => by
    rw [BinR.binNode] at h ⊢
    dsimp only at h ⊢
    split at h
    next h1 => rw [if_pos h1]; exact h
    next h1 =>
      rw [if_neg h1]
      split at h
      next b q e => exact binNode_more f _ _ _ h
      next b q e => exact h

theorem line_more {p : BinR} {f : Nat} {r : Nat × Bool × Bytes × BinR} (h : p.line f = .ok r) : p.line (f + 1) = .ok r := by
  unfold BinR.line at h ⊢
  dsimp only at h ⊢
  split at h
  next h1 => rw [if_pos h1]; exact h
  next h1 =>
    rw [if_neg h1]
    split at h
    all_goals
      obtain ⟨x, h2, h3⟩ := res_bind_ok h
      first
        | rw [binNode_more _ _ _ _ h2]; exact h3
        | rw [textNode_more _ _ _ _ h2]; exact h3

theorem line_more_le {p : BinR} {f f' : Nat} {r : Nat × Bool × Bytes × BinR} (h : p.line f = .ok r) (hf : f ≤ f') : p.line f' = .ok r := by
  induction hf with
  | refl => exact h
  | step _ ih => exact line_more ih

theorem lines_more : ∀ (f : Nat) (p : BinR) (F F' : Nat) (ev : Ev) (r : Ev × BinR), F ≤ F' → p.lines F f ev = .ok r → ∀ f' ≥ f, p.lines F' f' ev = .ok r
  | 0, _, _, _, _, _, _, h, _, _ => by cases h
  | f + 1, p, F, F', ev, r, hF, h, f', hf => by
    cases f' with
    | zero => omega
    | succ f' =>
      rw [BinR.lines] at h ⊢
      obtain ⟨⟨lev, bin, b, q⟩, h1, h2⟩ := res_bind_ok h
      rw [line_more_le h1 hF]
      simp only [Res.ok_bind] at h2 ⊢
      split at h2
      next h0 => rw [if_pos h0]; exact h2
      next h0 =>
        rw [if_neg h0]
        split at h2
        next hb => rw [if_pos hb]; exact lines_more f _ F F' _ _ hF h2 f' (by omega)
        next hb => rw [if_neg hb]; exact lines_more f _ F F' _ _ hF h2 f' (by omega)

theorem fromBinary_more {f f' : Nat} {b : Bytes} {g : Graph} (h : fromBinaryFuel f b = .ok g) (hf : f ≤ f') : fromBinaryFuel f' b = .ok g := by
  unfold fromBinaryFuel BinR.parse at h ⊢
  dsimp only at h ⊢
  split at h
  next p e => exact h
  next p e =>
    obtain ⟨x, h1, h2⟩ := res_bind_ok h
    obtain ⟨y, h3, h4⟩ := res_bind_ok h1
    rw [lines_more _ _ _ _ _ _ hf h3 _ hf]
    simp only [Res.ok_bind]
    rw [h4]
    exact h2

/-! ## Numbers -/

theorem unfinished_varInt {t : Bytes} (h : Unfinished t) (n : Nat) : (BinR.mk t n).varInt = (-1, ⟨[], n + t.length⟩) := by
  cases h with
  | none => simp [BinR.varInt, BinR.read]
  | @one a h1 h2 =>
    by_cases h3 : a.toNat < 192
    · simp [BinR.varInt, BinR.read, show ¬ a.toNat < 128 by omega, h3]
    · by_cases h4 : a.toNat < 224
      · simp [BinR.varInt, BinR.read, show ¬ a.toNat < 128 by omega, h3, h4]
      · simp [BinR.varInt, BinR.read, show ¬ a.toNat < 128 by omega, h3, h4, h2]
  | @two a b h1 h2 =>
    by_cases h4 : a.toNat < 224
    · simp [BinR.varInt, BinR.read, show ¬ a.toNat < 128 by omega, show ¬ a.toNat < 192 by omega, h4]
    · simp [BinR.varInt, BinR.read, show ¬ a.toNat < 128 by omega, show ¬ a.toNat < 192 by omega, h4, h2]
  | @three a b c h1 h2 =>
    simp [BinR.varInt, BinR.read, show ¬ a.toNat < 128 by omega, show ¬ a.toNat < 192 by omega, show ¬ a.toNat < 224 by omega, h2]

theorem mark_varInt {c : UInt8} (h : 0xf0 ≤ c.toNat) (rest : Bytes) (n : Nat) : (BinR.mk (c :: rest) n).varInt = (-1, ⟨rest, n + 1⟩) := by
  simp [BinR.varInt, BinR.read, show ¬ c.toNat < 128 by omega, show ¬ c.toNat < 192 by omega, show ¬ c.toNat < 224 by omega, show ¬ c.toNat < 240 by omega]

/-- Every stream begins with a number, is unfinished, or begins with a byte from F0 on. -/
theorem count_cases (t : Bytes) : (∃ n k r, Count n k ∧ t = n ++ r) ∨ Unfinished t ∨ ∃ c r, 0xf0 ≤ c.toNat ∧ t = c :: r := by
  cases t with
  | nil => exact .inr (.inl .none)
  | cons a t =>
    by_cases h1 : a.toNat < 128
    · exact .inl ⟨_, _, t, .one h1, rfl⟩
    by_cases h4 : a.toNat < 240
    · cases t with
      | nil => exact .inr (.inl (.one (by omega) h4))
      | cons b t =>
        by_cases h2 : a.toNat < 192
        · exact .inl ⟨_, _, t, .two (by omega) h2, rfl⟩
        cases t with
        | nil => exact .inr (.inl (.two (by omega) h4))
        | cons c t =>
          by_cases h3 : a.toNat < 224
          · exact .inl ⟨_, _, t, .three (by omega) h3, rfl⟩
          cases t with
          | nil => exact .inr (.inl (.three (by omega) h4))
          | cons d t => exact .inl ⟨_, _, t, .four (by omega) h4, rfl⟩
    · exact .inr (.inr ⟨a, t, by omega, rfl⟩)

theorem count_length {n : Bytes} {k : Nat} (h : Count n k) : 1 ≤ n.length := by cases h <;> simp

/-! ## Chunks -/

theorem chunk_short : ∀ (k : Nat) (xs : Bytes) (n : Nat) (buf : Bytes), xs.length < k → (BinR.mk xs n).chunk k buf = (false, buf ++ xs, ⟨[], n + xs.length⟩)
  | 0, xs, n, buf, h => by omega
  | k + 1, [], n, buf, _ => by simp [BinR.chunk, BinR.read]
  | k + 1, x :: xs, n, buf, h => by
    simp only [BinR.chunk, BinR.read]
    rw [chunk_short k xs (n + 1) (buf ++ [x]) (by simpa using h)]
    simp; omega

theorem content_length {cs bs rest : Bytes} (h : BinContent cs bs rest) : rest.length ≤ cs.length := by
  induction h with
  | done _ => simp
  | chunk _ _ _ ih => simp; omega
  | cut _ _ => simp
  | ended _ => simp

theorem content_binNode {cs bs rest : Bytes} (h : BinContent cs bs rest) : ∀ (n f : Nat) (buf : Bytes), cs.length + 1 ≤ f →
    ∃ m, m + rest.length = n + cs.length ∧ (BinR.mk cs n).binNode f buf = .ok (buf ++ bs, ⟨rest, m⟩) := by
  induction h with
  | @done c rest h =>
    intro n f buf hf
    cases f with
    | zero => omega
    | succ f => exact ⟨n + 1, by simp; omega, by simp [BinR.binNode, mark_varInt h]⟩
  | @chunk bs xs cs bs' rest k hk hx hc ih =>
    intro n f buf hf
    have := count_length hk
    cases f with
    | zero => omega
    | succ f =>
      simp only [List.append_assoc, BinR.binNode, count_varInt hk]
      rw [if_neg (by omega), Int.toNat_natCast, ← hx, chunk_whole]
      obtain ⟨m, hm, e⟩ := ih (n + bs.length + xs.length) f (buf ++ xs) (by simp at hf; omega)
      exact ⟨m, by simp; omega, by dsimp only; rw [e]; simp⟩
  | @cut bs xs k hk hx =>
    intro n f buf hf
    cases f with
    | zero => omega
    | succ f =>
      refine ⟨n + bs.length + xs.length, by simp; omega, ?_⟩
      simp only [BinR.binNode, count_varInt hk]
      rw [if_neg (by omega), Int.toNat_natCast, chunk_short k xs (n + bs.length) buf hx]
  | @ended t h =>
    intro n f buf hf
    cases f with
    | zero => omega
    | succ f => exact ⟨n + t.length, by simp, by simp [BinR.binNode, unfinished_varInt h n]⟩

theorem content_exists : ∀ (N : Nat) (t : Bytes), t.length < N → ∃ bs rest, BinContent t bs rest
  | 0, _, h => by omega
  | N + 1, t, h => by
    rcases count_cases t with ⟨n, k, r, hk, rfl⟩ | hu | ⟨c, r, hc, rfl⟩
    · by_cases hr : r.length < k
      · exact ⟨r, [], .cut hk hr⟩
      · have := count_length hk
        simp only [List.length_append] at h
        obtain ⟨bs, rest, hb⟩ := content_exists N (r.drop k) (by rw [List.length_drop]; omega)
        refine ⟨r.take k ++ bs, rest, ?_⟩
        have := BinContent.chunk (xs := r.take k) hk (by rw [List.length_take]; omega) hb
        rwa [List.append_assoc, List.take_append_drop] at this
    · exact ⟨[], [], .ended hu⟩
    · exact ⟨[], r, .done hc⟩

/-! ## Nodes -/

/-- The handler after the nodes. -/
def addAll (its : List (Nat × Val)) (ev : Ev) : Ev := its.foldl (fun ev it => ev.addAt it.2 it.1) ev

theorem decodes_lines {t after : Bytes} {its : List (Nat × Val)} (h : Decodes t its after) : ∀ (n F f : Nat) (ev : Ev), t.length + 1 ≤ F → t.length + 1 ≤ f →
    ∃ m, m + after.length = n + t.length ∧ (BinR.mk t n).lines F f ev = .ok (addAll its ev, ⟨after, m⟩) := by
  induction h with
  | @zero bs after hk =>
    intro n F f ev hF hf
    cases f with
    | zero => omega
    | succ f => exact ⟨n + bs.length, by simp; omega, by simp [BinR.lines, BinR.line, count_varInt hk, addAll]⟩
  | @mark c after hc =>
    intro n F f ev hF hf
    cases f with
    | zero => omega
    | succ f => exact ⟨n + 1, by simp; omega, by simp [BinR.lines, BinR.line, mark_varInt hc, addAll]⟩
  | @ended t hu =>
    intro n F f ev hF hf
    cases f with
    | zero => omega
    | succ f => exact ⟨n + t.length, by simp, by simp [BinR.lines, BinR.line, unfinished_varInt hu n, addAll]⟩
  | @text bs s rest after k c its hk hc hs _ ih =>
    intro n F f ev hF hf
    have hlen := count_length hk
    cases f with
    | zero => omega
    | succ f =>
      simp only [List.length_append, List.length_cons, List.length_nil] at hF hf
      have hlev : ¬ ((k + 1 : Nat) : Int) < 1 := by omega
      have hl : (BinR.mk (bs ++ (c :: s) ++ [0] ++ rest) n).line F = .ok (k + 1, false, c :: s, ⟨rest, n + bs.length + 1 + s.length + 1⟩) := by
        simp only [List.append_assoc, List.cons_append, List.nil_append, BinR.line, count_varInt hk, hlev, ↓reduceIte, BinR.read]
        rw [textNode_of hs rest _ F [c] (by omega)]
        rfl
      obtain ⟨m, hm, e⟩ := ih (n + bs.length + 1 + s.length + 1) F f (ev.addAt (.str (c :: s)) k) (by omega) (by omega)
      refine ⟨m, by simp; omega, ?_⟩
      rw [BinR.lines, hl]
      simp only [Res.ok_bind, Nat.add_sub_cancel]
      rw [if_neg (by omega)]
      exact e
  | @binary bs cs bs' rest after k its hk hb _ ih =>
    intro n F f ev hF hf
    have hlen := count_length hk
    have hlen2 := content_length hb
    cases f with
    | zero => omega
    | succ f =>
      simp only [List.length_append, List.length_cons, List.length_nil] at hF hf
      have hlev : ¬ ((k + 1 : Nat) : Int) < 1 := by omega
      obtain ⟨m1, hm1, e1⟩ := content_binNode hb (n + bs.length + 1) F [] (by omega)
      have hl : (BinR.mk (bs ++ [1] ++ cs) n).line F = .ok (k + 1, true, bs', ⟨rest, m1⟩) := by
        simp only [List.append_assoc, List.cons_append, List.nil_append, BinR.line, count_varInt hk, hlev, ↓reduceIte, BinR.read]
        rw [e1]
        rfl
      obtain ⟨m, hm, e⟩ := ih m1 F f (ev.addAt (.bytes bs') k) (by omega) (by omega)
      refine ⟨m, by simp; omega, ?_⟩
      rw [BinR.lines, hl]
      simp only [Res.ok_bind, Nat.add_sub_cancel, ↓reduceIte]
      rw [if_neg (by omega)]
      exact e

theorem addAll_items : ∀ (its : List (Nat × Val)) (ev : Ev), (∀ it ∈ ev.items, it.1 ≤ ev.max) →
    (addAll its ev).items = ev.items ++ its ∧ ∀ it ∈ (addAll its ev).items, it.1 ≤ (addAll its ev).max
  | [], ev, h => ⟨by simp [addAll], h⟩
  | (k, v) :: its, ev, h => by
    have ih := addAll_items its (ev.addAt v k) (by
      intro it hit
      simp only [Ev.addAt, List.mem_append, List.mem_singleton] at hit ⊢
      rcases hit with hit | rfl
      · have := h it hit; split <;> omega
      · simp only; split <;> omega)
    exact ⟨by rw [show addAll ((k, v) :: its) ev = addAll its (ev.addAt v k) from rfl, ih.1]; simp [Ev.addAt], ih.2⟩

/-- The chunks are whole if something follows them. -/
theorem content_whole {cs bs rest : Bytes} (hb : BinContent cs bs rest) : rest ≠ [] → ∃ w, Chunks w ∧ cs = w ++ rest := by
  induction hb with
  | @done c rest hc => exact fun _ => ⟨[c], .done hc, rfl⟩
  | @chunk n xs cs bs rest k hk hx _ ih =>
    intro hr
    obtain ⟨w, hw, rfl⟩ := ih hr
    exact ⟨n ++ xs ++ w, .chunk hk hx hw, by simp⟩
  | cut _ _ => exact fun h => absurd rfl h
  | ended _ => exact fun h => absurd rfl h

theorem hangs_binary {n cs bs rest : Bytes} {k : Nat} (hk : Count n (k + 1)) (hb : BinContent cs bs rest) (hh : Hangs rest) : Hangs (n ++ 1 :: cs) := by
  obtain ⟨ns, x, h1, h2, h3⟩ := hh
  have hx : x ≠ [] := by
    intro e
    subst e
    generalize hy : ([] : Bytes) = y at h2
    cases h2 with
    | bare h _ => exact count_ne_nil h hy.symm
    | text _ _ _ _ => simp at hy
  obtain ⟨w, hw, rfl⟩ := content_whole hb (by rw [h3]; simp [hx])
  refine ⟨(n ++ 1 :: w) :: ns, x, fun y hy => ?_, h2, by rw [h3]; simp⟩
  rcases List.mem_cons.1 hy with rfl | hy
  · exact .binary hk (by omega) hw
  · exact h1 y hy

theorem hangs_text {n s rest : Bytes} {k : Nat} {c : UInt8} (hk : Count n (k + 1)) (hc : c ≠ 1) (hs : 0 ∉ s) (hh : Hangs rest) : Hangs (n ++ (c :: s) ++ [0] ++ rest) := by
  obtain ⟨ns, x, h1, h2, h3⟩ := hh
  refine ⟨(n ++ c :: s ++ [0]) :: ns, x, fun y hy => ?_, h2, by rw [h3]; simp⟩
  rcases List.mem_cons.1 hy with rfl | hy
  · exact .text hk (by omega) hc hs
  · exact h1 y hy

/-- Every stream has nodes, or ends inside a text. -/
theorem decodes_exists : ∀ (N : Nat) (t : Bytes), t.length < N → Hangs t ∨ ∃ its after, Decodes t its after
  | 0, _, h => by omega
  | N + 1, t, h => by
    rcases count_cases t with ⟨n, k, r, hk, rfl⟩ | hu | ⟨c, r, hc, rfl⟩
    · cases k with
      | zero => exact .inr ⟨[], r, .zero hk⟩
      | succ k =>
        have hlen := count_length hk
        simp only [List.length_append] at h
        cases r with
        | nil => exact .inl ⟨[], n ++ [], nofun, by simpa using .bare hk (by omega), by simp⟩
        | cons c r =>
          by_cases hc : c = 1
          · subst hc
            obtain ⟨bs, rest, hb⟩ := content_exists _ r (Nat.lt_succ_self _)
            have hlen2 := content_length hb
            simp only [List.length_cons] at h
            rcases decodes_exists N rest (by omega) with hh | ⟨its, after, hi⟩
            · left
              exact hangs_binary hk hb hh
            · right
              refine ⟨(k, .bytes bs) :: its, after, ?_⟩
              have := Decodes.binary hk hb hi
              rwa [List.append_assoc] at this
          · by_cases hz : 0 ∈ r
            · obtain ⟨s, u, rfl, hs⟩ := List.append_of_mem hz |> fun ⟨s, t, e⟩ => List.eq_append_cons_of_mem hz
              simp only [List.length_append, List.length_cons] at h
              rcases decodes_exists N u (by omega) with ⟨ns, x, h1, h2, h3⟩ | ⟨its, after, hi⟩
              · left
                refine ⟨(n ++ c :: s ++ [0]) :: ns, x, fun y hy => ?_, h2, by rw [h3]; simp⟩
                rcases List.mem_cons.1 hy with rfl | hy
                · exact .text hk (by omega) hc hs
                · exact h1 y hy
              · right
                refine ⟨(k, .str (c :: s)) :: its, after, ?_⟩
                have := Decodes.text hk hc hs hi
                simpa using this
            · exact .inl ⟨[], n ++ c :: r, nofun, .text hk (by omega) hc hz, by simp⟩
    · exact .inr ⟨[], [], .ended hu⟩
    · exact .inr ⟨[], r, .mark hc⟩

/-- The header, or not. -/
theorem header_cases (b : Bytes) : (∃ t, b = [1, 71, 0] ++ t) ∨ ((¬ ∃ t, b = [1, 71, 0] ++ t) ∧ ∃ p, (BinR.mk b 0).header = (false, p)) := by
  by_cases h : ∃ t, b = [1, 71, 0] ++ t
  · exact .inl h
  · refine .inr ⟨h, ?_⟩
    rcases hh : (BinR.mk b 0).header with ⟨ok, p1⟩
    cases ok with
    | false => exact ⟨p1, rfl⟩
    | true =>
      refine absurd ⟨p1.rest, ?_⟩ h
      unfold BinR.header at hh
      split at hh
      next q1 e1 =>
        split at hh
        next q2 e2 =>
          split at hh
          next q3 e3 =>
            cases hh
            have h1 := BinR.read_some e1
            rw [BinR.read_some e2, BinR.read_some e3] at h1
            exact h1
          · cases hh
        · cases hh
      · cases hh

theorem decodes_parse {t after : Bytes} {its : List (Nat × Val)} (h : Decodes t its after) (n f : Nat) (hf : t.length + 1 ≤ f) :
    ∃ m, m + after.length = n + 3 + t.length ∧ (BinR.mk ([1, 71, 0] ++ t) n).parse f = .ok (.node (.str b!"_") (below 0 its), ⟨after, m⟩) := by
  obtain ⟨m, hm, e⟩ := decodes_lines h (n + 3) f f {} hf hf
  have hi := addAll_items its {} (by simp)
  have ht := tree_below _ hi.2
  rw [hi.1] at ht
  refine ⟨m, hm, ?_⟩
  simp only [BinR.parse, BinR.header, BinR.read, List.cons_append, List.nil_append, e, Res.ok_bind]
  rw [ht]
  rfl

theorem decodes_fuel {t after : Bytes} {its : List (Nat × Val)} (h : Decodes t its after) (f : Nat) (hf : t.length + 1 ≤ f) :
    fromBinaryFuel f ([1, 71, 0] ++ t) = .ok (.node (.str b!"_") (below 0 its)) := by
  obtain ⟨m, _, e⟩ := decodes_parse h 0 f hf
  simp only [fromBinaryFuel, e, Res.ok_bind]

end Ogdl
