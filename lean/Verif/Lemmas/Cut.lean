import Verif.Lemmas.BinaryTotal
import Verif.Spec.Cut

/-! When the binary reader returns. -/

namespace Ogdl
open Spec

theorem count_varInt {bs : Bytes} {k : Nat} (h : Count bs k) (rest : Bytes) (n : Nat) : (BinR.mk (bs ++ rest) n).varInt = ((k : Int), ⟨rest, n + bs.length⟩) := by
  cases h with
  | one h => simp [BinR.varInt, BinR.read, h]
  | @two a b h1 h2 =>
    have hb := b.toNat_lt
    simp only [List.cons_append, List.nil_append, BinR.varInt, BinR.read, if_neg (show ¬ a.toNat < 128 by omega), if_pos h2]
    rw [and_3f, shl_or _ _ 8 (by omega)]
    have : a.toNat % 64 * 2 ^ 8 + b.toNat = (a.toNat - 128) * 256 + b.toNat := by omega
    rw [this]; rfl
  | @three a b c h1 h2 =>
    have hb := b.toNat_lt
    have hc := c.toNat_lt
    simp only [List.cons_append, List.nil_append, BinR.varInt, BinR.read, if_neg (show ¬ a.toNat < 128 by omega), if_neg (show ¬ a.toNat < 192 by omega), if_pos h2]
    rw [and_1f, Nat.or_assoc, shl_or _ _ 8 (by omega), shl_or _ _ 16 (by omega)]
    have : a.toNat % 32 * 2 ^ 16 + (b.toNat * 2 ^ 8 + c.toNat) = (a.toNat - 192) * 65536 + b.toNat * 256 + c.toNat := by omega
    rw [this]; rfl
  | @four a b c d h1 h2 =>
    have hb := b.toNat_lt
    have hc := c.toNat_lt
    have hd := d.toNat_lt
    simp only [List.cons_append, List.nil_append, BinR.varInt, BinR.read, if_neg (show ¬ a.toNat < 128 by omega), if_neg (show ¬ a.toNat < 192 by omega),
      if_neg (show ¬ a.toNat < 224 by omega), if_pos h2]
    rw [and_0f, Nat.or_assoc, Nat.or_assoc, shl_or _ _ 8 (by omega), shl_or _ _ 16 (by omega), shl_or _ _ 24 (by omega)]
    have : a.toNat % 16 * 2 ^ 24 + (b.toNat * 2 ^ 16 + (c.toNat * 2 ^ 8 + d.toNat)) = (a.toNat - 224) * 16777216 + b.toNat * 65536 + c.toNat * 256 + d.toNat := by omega
    rw [this]; rfl

theorem count_ne_nil {bs : Bytes} {k : Nat} (h : Count bs k) : bs ≠ [] := by cases h <;> simp

/-- What a number can be. -/
theorem varInt_cases (p : BinR) :
    (∃ bs k rest n, Count bs k ∧ p.rest = bs ++ rest ∧ p.varInt = ((k : Int), ⟨rest, n⟩)) ∨ (p.varInt.1 = -1 ∧ p.varInt.2.rest = []) ∨
      ∃ c t n, p.rest = c :: t ∧ 0xf0 ≤ c.toNat ∧ p.varInt = (-1, ⟨t, n⟩) := by
  obtain ⟨rest, m⟩ := p
  have key : ∀ {bs rest' : Bytes} {k : Nat}, Count bs k → rest = bs ++ rest' →
      (∃ bs k rest' n, Count bs k ∧ (BinR.mk rest m).rest = bs ++ rest' ∧ (BinR.mk rest m).varInt = ((k : Int), ⟨rest', n⟩)) ∨ ((BinR.mk rest m).varInt.1 = -1 ∧ (BinR.mk rest m).varInt.2.rest = []) ∨
        ∃ c t n, (BinR.mk rest m).rest = c :: t ∧ 0xf0 ≤ c.toNat ∧ (BinR.mk rest m).varInt = (-1, ⟨t, n⟩) := by
    intro bs rest' k h e
    subst e
    exact .inl ⟨bs, k, rest', _, h, rfl, count_varInt h rest' m⟩
  cases rest with
  | nil => right; left; simp [BinR.varInt, BinR.read]
  | cons a t =>
    by_cases h1 : a.toNat < 128
    · exact key (.one h1) rfl
    by_cases h2 : a.toNat < 192
    · cases t with
      | nil => right; left; simp [BinR.varInt, BinR.read, h1, h2]
      | cons b t => exact key (.two (by omega) h2) (rest' := t) rfl
    by_cases h3 : a.toNat < 224
    · cases t with
      | nil => right; left; simp [BinR.varInt, BinR.read, h1, h2, h3]
      | cons b t =>
        cases t with
        | nil => right; left; simp [BinR.varInt, BinR.read, h1, h2, h3]
        | cons c t => exact key (.three (by omega) h3) (rest' := t) rfl
    by_cases h4 : a.toNat < 240
    · cases t with
      | nil => right; left; simp [BinR.varInt, BinR.read, h1, h2, h3, h4]
      | cons b t =>
        cases t with
        | nil => right; left; simp [BinR.varInt, BinR.read, h1, h2, h3, h4]
        | cons c t =>
          cases t with
          | nil => right; left; simp [BinR.varInt, BinR.read, h1, h2, h3, h4]
          | cons d t => exact key (.four (by omega) h4) (rest' := t) rfl
    · right; right
      exact ⟨a, t, m + 1, rfl, by omega, by simp [BinR.varInt, BinR.read, h1, h2, h3, h4]⟩

theorem chunk_whole : ∀ (xs rest : Bytes) (n : Nat) (buf : Bytes), (BinR.mk (xs ++ rest) n).chunk xs.length buf = (true, buf ++ xs, ⟨rest, n + xs.length⟩)
  | [], rest, n, buf => by simp [BinR.chunk]
  | x :: xs, rest, n, buf => by
    simp only [List.length_cons, List.cons_append, BinR.chunk, BinR.read]
    rw [chunk_whole xs rest (n + 1) (buf ++ [x])]
    simp; omega

theorem chunk_cut : ∀ (k : Nat) (xs : Bytes) (n : Nat) (buf : Bytes), xs.length < k → ∃ b m, (BinR.mk xs n).chunk k buf = (false, b, ⟨[], m⟩)
  | 0, xs, n, buf, h => by omega
  | k + 1, [], n, buf, _ => ⟨buf, n, by simp [BinR.chunk, BinR.read]⟩
  | k + 1, x :: xs, n, buf, h => by
    simp only [BinR.chunk, BinR.read]
    exact chunk_cut k xs (n + 1) (buf ++ [x]) (by simpa using h)

theorem binNode_chunks {cs : Bytes} (h : Chunks cs) (rest : Bytes) : ∀ (f n : Nat) (buf : Bytes), (BinR.mk (cs ++ rest) n).binNode f buf = .oof ∨
    ∃ b m, (BinR.mk (cs ++ rest) n).binNode f buf = .ok (b, ⟨rest, m⟩) := by
  induction h with
  | @done c h =>
    intro f n buf
    cases f with
    | zero => left; rfl
    | succ f =>
      right
      exact ⟨buf, n + 1, by simp [BinR.binNode, BinR.varInt, BinR.read, show ¬ c.toNat < 128 by omega, show ¬ c.toNat < 192 by omega, show ¬ c.toNat < 224 by omega, show ¬ c.toNat < 240 by omega]⟩
  | @chunk bs xs cs k hk hx hc ih =>
    intro f n buf
    cases f with
    | zero => left; rfl
    | succ f =>
      simp only [List.append_assoc, BinR.binNode, count_varInt hk]
      rw [if_neg (by omega), Int.toNat_natCast, ← hx, chunk_whole]
      exact ih f _ _

/-- What the content of a binary node can be. -/
theorem binNode_cases : ∀ (N : Nat) (p : BinR), p.rest.length < N →
    (∃ cs rest, Chunks cs ∧ p.rest = cs ++ rest ∧ ∀ f ≥ N, ∀ buf, ∃ b m, p.binNode f buf = .ok (b, ⟨rest, m⟩)) ∨
      ∀ f ≥ N, ∀ buf, ∃ b m, p.binNode f buf = .ok (b, ⟨[], m⟩)
  | 0, p, h => by omega
  | N + 1, p, h => by
    rcases varInt_cases p with ⟨bs, k, rest, n, hk, hr, hv⟩ | ⟨h1, h2⟩ | ⟨c, t, n, hr, hc, hv⟩
    · by_cases hl : rest.length < k
      · right
        intro f hf buf
        cases f with
        | zero => omega
        | succ f =>
          obtain ⟨b, m, e⟩ := chunk_cut k rest n buf hl
          exact ⟨b, m, by simp only [BinR.binNode, hv, if_neg (show ¬ (k : Int) < 0 by omega), Int.toNat_natCast, e]⟩
      · obtain ⟨xs, rest', rfl, hx⟩ : ∃ xs rest', rest = xs ++ rest' ∧ xs.length = k :=
          ⟨rest.take k, rest.drop k, (List.take_append_drop ..).symm, by rw [List.length_take]; omega⟩
        have hlen : bs.length ≠ 0 := by simpa using count_ne_nil hk
        have step : ∀ f buf, p.binNode (f + 1) buf = (BinR.mk rest' (n + xs.length)).binNode f (buf ++ xs) := by
          intro f buf
          simp only [BinR.binNode, hv, if_neg (show ¬ (k : Int) < 0 by omega), Int.toNat_natCast]
          rw [← hx, chunk_whole]
        rw [hr] at h
        simp only [List.length_append] at h
        rcases binNode_cases N ⟨rest', n + xs.length⟩ (by show rest'.length < N; omega) with ⟨cs, rest2, hcs, hr2, he⟩ | he
        · left
          have hr2 : rest' = cs ++ rest2 := hr2
          refine ⟨bs ++ xs ++ cs, rest2, .chunk hk hx hcs, by rw [hr, hr2]; simp, fun f hf buf => ?_⟩
          cases f with
          | zero => omega
          | succ f => rw [step]; exact he f (by omega) _
        · right
          intro f hf buf
          cases f with
          | zero => omega
          | succ f => rw [step]; exact he f (by omega) _
    · right
      intro f hf buf
      cases f with
      | zero => omega
      | succ f =>
        rcases hv : p.varInt with ⟨i, q, m⟩
        rw [hv] at h1 h2
        cases h1
        cases h2
        exact ⟨buf, m, by simp [BinR.binNode, hv]⟩
    · left
      refine ⟨[c], t, .done hc, by simpa using hr, fun f hf buf => ?_⟩
      cases f with
      | zero => omega
      | succ f => exact ⟨buf, n, by simp [BinR.binNode, hv]⟩

/-- What a node can be. -/
theorem line_cases (p : BinR) : CutNode p.rest ∨
    (∃ nb rest, WholeNode nb ∧ p.rest = nb ++ rest ∧ nb ≠ [] ∧ ∀ f ≥ p.rest.length + 1, ∃ lev bin b m, p.line f = .ok (lev, bin, b, ⟨rest, m⟩)) ∨
      ∀ f ≥ p.rest.length + 1, ∃ lev bin b p', p.line f = .ok (lev, bin, b, p') ∧ (lev = 0 ∨ p'.rest = [] ∧ p.rest ≠ []) := by
  rcases varInt_cases p with ⟨bs, k, rest, n, hk, hr, hv⟩ | ⟨h1, h2⟩ | ⟨c, t, n, hr, hc, hv⟩
  · have hlen : bs.length ≠ 0 := by simpa using count_ne_nil hk
    by_cases h0 : k = 0
    · right; right
      intro f _
      exact ⟨0, false, [], ⟨rest, n⟩, by simp [BinR.line, hv, h0], .inl rfl⟩
    have hlev : ¬ (k : Int) < 1 := by omega
    cases rest with
    | nil =>
      left
      rw [hr, List.append_nil]
      exact .bare hk (by omega)
    | cons c rest =>
      by_cases hc : c = 1
      · subst hc
        have hN : rest.length < p.rest.length + 1 := by rw [hr]; simp; omega
        rcases binNode_cases (p.rest.length + 1) ⟨rest, n + 1⟩ hN with ⟨cs, rest2, hcs, hr2, he⟩ | he
        · right; left
          have hr2 : rest = cs ++ rest2 := hr2
          refine ⟨bs ++ 1 :: cs, rest2, .binary hk (by omega) hcs, by rw [hr, hr2]; simp, by simp, fun f hf => ?_⟩
          obtain ⟨b, m, e⟩ := he f hf []
          exact ⟨k, true, b, m, by simp [BinR.line, hv, hlev, BinR.read, e]⟩
        · right; right
          intro f hf
          obtain ⟨b, m, e⟩ := he f hf []
          exact ⟨k, true, b, ⟨[], m⟩, by simp [BinR.line, hv, hlev, BinR.read, e], .inr ⟨rfl, by rw [hr]; simp⟩⟩
      · by_cases hz : 0 ∈ rest
        · right; left
          obtain ⟨s, t, rfl, hs⟩ := List.append_of_mem hz |> fun ⟨s, t, e⟩ => List.eq_append_cons_of_mem hz
          refine ⟨bs ++ c :: s ++ [0], t, .text hk (by omega) hc hs, by rw [hr]; simp, by simp, fun f hf => ?_⟩
          refine ⟨k, false, [c] ++ s, n + 1 + s.length + 1, ?_⟩
          rw [hr] at hf
          simp only [BinR.line, hv, hlev, BinR.read, ↓reduceIte]
          rw [textNode_of hs t (n + 1) f [c] (by simp at hf; omega)]
          rfl
        · left
          rw [hr]
          exact .text hk (by omega) hc hz
  · right; right
    intro f _
    rcases hv : p.varInt with ⟨i, q⟩
    rw [hv] at h1
    cases h1
    exact ⟨0, false, [], q, by simp [BinR.line, hv], .inl rfl⟩
  · right; right
    intro f _
    exact ⟨0, false, [], ⟨t, n⟩, by simp [BinR.line, hv], .inl rfl⟩

theorem line_whole {nb : Bytes} (h : WholeNode nb) (rest : Bytes) (n f : Nat) : (BinR.mk (nb ++ rest) n).line f = .oof ∨
    ∃ lev bin b m, (BinR.mk (nb ++ rest) n).line f = .ok (lev, bin, b, ⟨rest, m⟩) ∧ lev ≠ 0 := by
  cases h with
  | @text bs s k c hk h0 hc hs =>
    have hlev : ¬ (k : Int) < 1 := by omega
    simp only [List.append_assoc, List.cons_append, List.nil_append, BinR.line, count_varInt hk, hlev, ↓reduceIte, BinR.read]
    by_cases hf : s.length < f
    · right
      refine ⟨k, false, [c] ++ s, n + bs.length + 1 + s.length + 1, ?_, by omega⟩
      rw [textNode_of hs rest _ f [c] hf]
      rfl
    · left
      have : ∀ (s : Bytes) (n f : Nat) (buf : Bytes), 0 ∉ s → ¬ s.length < f → (BinR.mk (s ++ 0 :: rest) n).textNode f buf = .oof := by
        intro s
        induction s with
        | nil => intro n f buf _ h; cases f with | zero => rfl | succ f => simp at h
        | cons x s ih =>
          intro n f buf h1 h
          cases f with
          | zero => rfl
          | succ f =>
            simp only [List.mem_cons, not_or] at h1
            have hx : x ≠ 0 := fun e => h1.1 e.symm
            simp only [List.cons_append, BinR.textNode, BinR.read]
            exact ih _ _ _ h1.2 (by simpa using h)
      rw [this s _ f [c] hs hf]
      rfl
  | @binary bs cs k hk h0 hc =>
    have hlev : ¬ (k : Int) < 1 := by omega
    simp only [List.append_assoc, List.cons_append, BinR.line, count_varInt hk, hlev, ↓reduceIte, BinR.read]
    rcases binNode_chunks hc rest f (n + bs.length + 1) [] with e | ⟨b, m, e⟩
    · left; rw [e]; rfl
    · right; exact ⟨k, true, b, m, by rw [e]; rfl, by omega⟩

theorem line_cut {c : Bytes} (h : CutNode c) (n f : Nat) : (BinR.mk c n).line f = .oof := by
  cases h with
  | @bare _ k hk h0 =>
    have hlev : ¬ (k : Int) < 1 := by omega
    have := count_varInt hk [] n
    rw [List.append_nil] at this
    simp only [BinR.line, this, hlev, ↓reduceIte, BinR.read, BinR.textNode_eof]
    rfl
  | @text bs s k x hk h0 hc hs =>
    have hlev : ¬ (k : Int) < 1 := by omega
    simp only [BinR.line, count_varInt hk, hlev, ↓reduceIte, BinR.read]
    rw [BinR.textNode_hang s _ hs]
    rfl

theorem lines_cut {c : Bytes} (hc : CutNode c) : ∀ {ns : List Bytes}, (∀ n ∈ ns, WholeNode n) → ∀ (n F f : Nat) (ev : Ev), (BinR.mk (ns.flatten ++ c) n).lines F f ev = .oof
  | ns, _, n, F, 0, ev => rfl
  | [], _, n, F, f + 1, ev => by
    simp only [List.flatten_nil, List.nil_append, BinR.lines, line_cut hc]
    rfl
  | nb :: ns, h, n, F, f + 1, ev => by
    simp only [List.flatten_cons, List.append_assoc, BinR.lines]
    rcases line_whole (h nb (by simp)) (ns.flatten ++ c) n F with e | ⟨lev, bin, b, m, e, hl⟩
    · rw [e]; rfl
    · rw [e]
      have ih := fun ev => lines_cut hc (fun x hx => h x (by simp [hx])) m F f ev (ns := ns)
      simp only [Res.ok_bind, if_neg hl, ih]
      split <;> rfl

/-- Whole nodes and the beginning of one with a text. -/
def Hangs (rest : Bytes) : Prop := ∃ (ns : List Bytes) (c : Bytes), (∀ n ∈ ns, WholeNode n) ∧ CutNode c ∧ rest = ns.flatten ++ c

theorem lines_return : ∀ (N : Nat) (p : BinR), p.rest.length < N → ¬ Hangs p.rest → ∀ F ≥ N, ∀ f ≥ N, ∀ ev, p.lines F f ev ≠ .oof
  | 0, p, h, _, _, _, _, _, _ => by omega
  | N + 1, p, h, hn, F, hF, 0, hf, ev => by omega
  | N + 1, p, h, hn, F, hF, f + 1, hf, ev => by
    have go : ∀ {lev : Nat} {bin : Bool} {b : Bytes} {p' : BinR}, p.line F = .ok (lev, bin, b, p') → (lev ≠ 0 → ∀ ev, p'.lines F f ev ≠ .oof) → p.lines F (f + 1) ev ≠ .oof := by
      intro lev bin b p' e hr
      simp only [BinR.lines, e, Res.ok_bind]
      split
      · nofun
      next h0 =>
        split
        · exact hr h0 _
        · exact hr h0 _
    rcases line_cases p with hc | ⟨nb, rest, hw, hr, hne, he⟩ | he
    · exact absurd ⟨[], p.rest, nofun, hc, by simp⟩ hn
    · have hlen : nb.length ≠ 0 := by simpa using hne
      have hl : rest.length < N := by rw [hr, List.length_append] at h; omega
      obtain ⟨lev, bin, b, m, e⟩ := he F (by omega)
      refine go e fun _ ev => lines_return N ⟨rest, m⟩ hl (fun hh => hn ?_) F (by omega) f (by omega) ev
      obtain ⟨ns, c, h1, h2, h3⟩ := hh
      have h3 : rest = ns.flatten ++ c := h3
      refine ⟨nb :: ns, c, fun x hx => ?_, h2, by rw [hr, h3]; simp⟩
      rcases List.mem_cons.1 hx with rfl | hx
      · exact hw
      · exact h1 x hx
    · obtain ⟨lev, bin, b, p', e, h0⟩ := he F (by omega)
      refine go e fun hl ev => ?_
      rcases h0 with h0 | ⟨h0, h1⟩
      · exact absurd h0 hl
      · cases f with
        | zero =>
          have : p.rest.length ≠ 0 := by simpa using h1
          omega
        | succ f =>
          obtain ⟨r, m⟩ := p'
          cases h0
          simp [BinR.lines, BinR.line, BinR.varInt, BinR.read]

theorem fromBinary_hangs {b : Bytes} : (∀ fuel, fromBinaryFuel fuel b = .oof) ↔ CutInText b := by
  constructor
  · intro h
    have hp : ∀ f, (BinR.mk b 0).parse f = .oof := by
      intro f
      have := h f
      unfold fromBinaryFuel at this
      cases hx : (BinR.mk b 0).parse f with
      | oof => rfl
      | ok r => rw [hx] at this; cases this
      | panic => rw [hx] at this; cases this
    rcases hh : (BinR.mk b 0).header with ⟨ok, p1⟩
    cases ok with
    | false =>
      have := hp 0
      simp [BinR.parse, hh] at this
    | true =>
      have hb : b = [1, 71, 0] ++ p1.rest := by
        unfold BinR.header at hh
        split at hh
        next q1 e1 =>
          split at hh
          next q2 e2 =>
            split at hh
            next q3 e3 =>
              cases hh
              have h1 := BinR.read_some e1
              rw [BinR.read_some e2, BinR.read_some e3] at h1
              exact h1
            · cases hh
          · cases hh
        · cases hh
      by_cases hg : Hangs p1.rest
      · obtain ⟨ns, c, h1, h2, h3⟩ := hg
        exact ⟨ns, c, h1, h2, by rw [hb, h3]; simp⟩
      · rcases BinR.lines_settles (p1.rest.length + 1) p1 {} (by omega) with ⟨r, r0, r1, r2, r3⟩ | ⟨hr, _⟩
        · obtain ⟨g, hg⟩ := Ev.tree_ok r.1 (r1 (by simp))
          have := hp (p1.rest.length + 1)
          simp [BinR.parse, hh, r3 _ (Nat.le_refl _) _ (Nat.le_refl _), hg] at this
        · exact absurd (hr _ _) (lines_return _ p1 (Nat.lt_succ_self _) hg _ (Nat.le_refl _) _ (Nat.le_refl _) {})
  · rintro ⟨ns, c, h1, h2, rfl⟩ fuel
    have := lines_cut h2 h1 3 fuel fuel {}
    simp only [fromBinaryFuel, BinR.parse, BinR.header, BinR.read, List.cons_append, List.nil_append, this]
    rfl

end Ogdl
