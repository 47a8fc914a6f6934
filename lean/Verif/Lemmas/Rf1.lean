import Verif.Spec.Rf1
import Verif.Lemmas.Rf
import Verif.Lemmas.BinaryTotal

/-!
# Reading binary graphs from a connection

As long as there are bytes left, a source of bytes behaves as the list of them.
-/

namespace Ogdl
open Spec

section
variable {σ : Type} {rd : σ → Option UInt8 × σ} {R : σ → BinR → Prop}

/-- The source `rd` behaves as the bytes of the related list, the last one apart. -/
def Sims (rd : σ → Option UInt8 × σ) (R : σ → BinR → Prop) : Prop :=
  ∀ s c t n, R s ⟨c :: t, n⟩ → t ≠ [] → ∃ s', rd s = (some c, s') ∧ R s' ⟨t, n + 1⟩

/-- What the list gives, the source gives, unless the list is used up. -/
def SimRes {α : Type} (R : σ → BinR → Prop) (a : Res (α × σ)) (b : Res (α × BinR)) : Prop :=
  ∀ x p, b = .ok (x, p) → p.rest ≠ [] → ∃ s, a = .ok (x, s) ∧ R s p

theorem Sims.read (h : Sims rd R) {s : σ} {p p' : BinR} {o : Option UInt8} (hr : R s p) (e : p.read = (o, p')) (hne : p'.rest ≠ []) :
    ∃ s', rd s = (o, s') ∧ R s' p' := by
  obtain ⟨rest, n⟩ := p
  cases rest with
  | nil => simp [BinR.read] at e; rw [← e.2] at hne; simp at hne
  | cons c t =>
    simp [BinR.read] at e
    obtain ⟨e1, e2⟩ := e
    subst e1 e2
    exact h s c t n hr hne

theorem srcHeader_sim (h : Sims rd R) {s : σ} {p p' : BinR} (hr : R s p) (e : p.header = (true, p')) (hne : p'.rest ≠ []) :
    ∃ s', srcHeader rd s = (true, s') ∧ R s' p' := by
  simp only [BinR.header] at e
  split at e
  · rename_i p1 e1
    split at e
    · rename_i p2 e2
      split at e
      · rename_i p3 e3
        cases e
        have n2 : p2.rest ≠ [] := by rw [BinR.read_some e3]; simp
        have n1 : p1.rest ≠ [] := by rw [BinR.read_some e2]; simp
        obtain ⟨s1, g1, r1⟩ := h.read hr e1 n1
        obtain ⟨s2, g2, r2⟩ := h.read r1 e2 n2
        obtain ⟨s3, g3, r3⟩ := h.read r2 e3 hne
        exact ⟨s3, by simp [srcHeader, g1, g2, g3], r3⟩
      · simp at e
    · simp at e
  · simp at e

theorem srcVarInt_sim (h : Sims rd R) {s : σ} {p p' : BinR} {o : Int} (hr : R s p) (e : p.varInt = (o, p')) (hne : p'.rest ≠ []) :
    ∃ s', srcVarInt rd s = (o, s') ∧ R s' p' := by
  simp only [BinR.varInt] at e
  have nil : ∀ {q q' : BinR}, q.read = (none, q') → q'.rest = [] := fun h => (BinR.read_none h).1
  have pos : ∀ {q q' : BinR} {c : UInt8}, q.read = (some c, q') → q.rest ≠ [] := fun h => by rw [BinR.read_some h]; simp
  split at e
  · rename_i p1 e1; cases e; exact absurd (nil e1) hne
  · rename_i b0 p1 e1
    split at e
    · rename_i c0
      cases e
      obtain ⟨s1, g1, r1⟩ := h.read hr e1 hne
      exact ⟨s1, by simp [srcVarInt, g1, c0], r1⟩
    · rename_i c0
      split at e
      · rename_i c1
        split at e
        · rename_i p2 e2; cases e; exact absurd (nil e2) hne
        · rename_i b1 p2 e2
          cases e
          obtain ⟨s1, g1, r1⟩ := h.read hr e1 (pos e2)
          obtain ⟨s2, g2, r2⟩ := h.read r1 e2 hne
          exact ⟨s2, by simp only [srcVarInt, g1, c0, c1, g2, ↓reduceIte], r2⟩
      · rename_i c1
        split at e
        · rename_i c2
          split at e
          · rename_i p2 e2; cases e; exact absurd (nil e2) hne
          · rename_i b1 p2 e2
            split at e
            · rename_i p3 e3; cases e; exact absurd (nil e3) hne
            · rename_i b2 p3 e3
              cases e
              obtain ⟨s1, g1, r1⟩ := h.read hr e1 (pos e2)
              obtain ⟨s2, g2, r2⟩ := h.read r1 e2 (pos e3)
              obtain ⟨s3, g3, r3⟩ := h.read r2 e3 hne
              exact ⟨s3, by simp only [srcVarInt, g1, c0, c1, c2, g2, g3, ↓reduceIte], r3⟩
        · rename_i c2
          split at e
          · rename_i c3
            split at e
            · rename_i p2 e2; cases e; exact absurd (nil e2) hne
            · rename_i b1 p2 e2
              split at e
              · rename_i p3 e3; cases e; exact absurd (nil e3) hne
              · rename_i b2 p3 e3
                split at e
                · rename_i p4 e4; cases e; exact absurd (nil e4) hne
                · rename_i b3 p4 e4
                  cases e
                  obtain ⟨s1, g1, r1⟩ := h.read hr e1 (pos e2)
                  obtain ⟨s2, g2, r2⟩ := h.read r1 e2 (pos e3)
                  obtain ⟨s3, g3, r3⟩ := h.read r2 e3 (pos e4)
                  obtain ⟨s4, g4, r4⟩ := h.read r3 e4 hne
                  exact ⟨s4, by simp only [srcVarInt, g1, c0, c1, c2, c3, g2, g3, g4, ↓reduceIte], r4⟩
          · rename_i c3
            cases e
            obtain ⟨s1, g1, r1⟩ := h.read hr e1 hne
            exact ⟨s1, by simp only [srcVarInt, g1, c0, c1, c2, c3, ↓reduceIte], r1⟩

theorem suffix_ne {a b : Bytes} (h : a <:+ b) (ha : a ≠ []) : b ≠ [] := by
  rintro rfl
  exact ha (List.suffix_nil.1 h)

theorem srcChunk_sim (h : Sims rd R) : ∀ (n : Nat) (buf : Bytes) {s : σ} {p p' : BinR} {o : Bool} {b : Bytes}, R s p →
    p.chunk n buf = (o, b, p') → p'.rest ≠ [] → ∃ s', srcChunk rd s n buf = (o, b, s') ∧ R s' p'
  | 0, buf, s, p, p', o, b, hr, e, hne => by
    cases e
    exact ⟨s, rfl, hr⟩
  | n + 1, buf, s, p, p', o, b, hr, e, hne => by
    simp only [BinR.chunk] at e
    split at e
    · rename_i p1 e1; cases e; exact absurd (BinR.read_none e1).1 hne
    · rename_i c p1 e1
      have hs := BinR.chunk_spec n p1 (buf ++ [c])
      rw [e] at hs
      obtain ⟨s1, g1, r1⟩ := h.read hr e1 (suffix_ne hs hne)
      simp only [srcChunk, g1]
      exact srcChunk_sim h n _ r1 e hne

theorem binNode_suffix : ∀ (f : Nat) (p p' : BinR) (buf b : Bytes), p.binNode f buf = .ok (b, p') → p'.rest <:+ p.rest
  | 0, _, _, _, _, e => by simp [BinR.binNode] at e
  | f + 1, p, p', buf, b, e => by
    simp only [BinR.binNode] at e
    have h1 := p.varInt_spec.1
    split at e
    · cases e; exact h1
    · have h2 := BinR.chunk_spec p.varInt.1.toNat p.varInt.2 buf
      split at e
      · rename_i b2 p2 e2
        rw [e2] at h2
        exact (binNode_suffix f p2 p' b2 b e).trans (h2.trans h1)
      · rename_i b2 p2 e2
        rw [e2] at h2
        cases e
        exact h2.trans h1

theorem textNode_suffix : ∀ (f : Nat) (p p' : BinR) (buf b : Bytes), p.textNode f buf = .ok (b, p') → p'.rest <:+ p.rest
  | 0, _, _, _, _, e => by simp [BinR.textNode] at e
  | f + 1, p, p', buf, b, e => by
    simp only [BinR.textNode] at e
    have h1 := p.read_after
    split at e
    · rename_i p1 e1; rw [e1] at h1; cases e; exact h1
    · rename_i c p1 _ e1; rw [e1] at h1; exact (textNode_suffix f p1 p' _ b e).trans h1
    · rename_i p1 e1; rw [e1] at h1; exact (textNode_suffix f p1 p' _ b e).trans h1

theorem line_suffix (f : Nat) (p p' : BinR) (l : Nat) (bn : Bool) (b : Bytes) (e : p.line f = .ok (l, bn, b, p')) : p'.rest <:+ p.rest := by
  simp only [BinR.line] at e
  have h1 := p.varInt_spec.1
  split at e
  · cases e; exact h1
  · have h2 := p.varInt.2.read_after
    split at e
    · rename_i p2 e2
      rw [e2] at h2
      cases hb : p2.binNode f [] with
      | ok x =>
        obtain ⟨x, p3⟩ := x
        rw [hb] at e
        cases e
        exact (binNode_suffix f p2 _ [] _ hb).trans (List.IsSuffix.trans h2 h1)
      | _ => rw [hb] at e; cases e
    · rename_i c p2 _ e2
      rw [e2] at h2
      cases hb : p2.textNode f [c] with
      | ok x =>
        obtain ⟨x, p3⟩ := x
        rw [hb] at e
        cases e
        exact (textNode_suffix f p2 _ _ _ hb).trans (List.IsSuffix.trans h2 h1)
      | _ => rw [hb] at e; cases e
    · rename_i p2 e2
      rw [e2] at h2
      cases hb : p2.textNode f [255] with
      | ok x =>
        obtain ⟨x, p3⟩ := x
        rw [hb] at e
        cases e
        exact (textNode_suffix f p2 _ _ _ hb).trans (List.IsSuffix.trans h2 h1)
      | _ => rw [hb] at e; cases e

theorem lines_suffix (fuel : Nat) : ∀ (f : Nat) (p p' : BinR) (ev ev' : Ev), p.lines fuel f ev = .ok (ev', p') → p'.rest <:+ p.rest
  | 0, _, _, _, _, e => by simp [BinR.lines] at e
  | f + 1, p, p', ev, ev', e => by
    simp only [BinR.lines] at e
    cases hl : p.line fuel with
    | ok x =>
      obtain ⟨l, bn, b, p1⟩ := x
      have h1 := line_suffix fuel p p1 l bn b hl
      rw [hl] at e
      simp only [Res.ok_bind] at e
      split at e
      · cases e; exact h1
      · split at e
        · exact (lines_suffix fuel f p1 p' _ ev' e).trans h1
        · exact (lines_suffix fuel f p1 p' _ ev' e).trans h1
    | _ => rw [hl] at e; cases e

theorem srcBinNode_sim (h : Sims rd R) : ∀ (f : Nat) (buf : Bytes) {s : σ} {p : BinR}, R s p →
    SimRes R (srcBinNode rd s f buf) (p.binNode f buf)
  | 0, _, _, _, _, _, _, e, _ => by cases e
  | f + 1, buf, s, p, hr, x, p', e, hne => by
    simp only [BinR.binNode] at e
    split at e
    · rename_i hn
      cases e
      obtain ⟨s1, g1, r1⟩ := srcVarInt_sim h hr (o := p.varInt.1) (p' := p.varInt.2) rfl hne
      exact ⟨s1, by simp only [srcBinNode, g1, hn, ↓reduceIte], r1⟩
    · rename_i hn
      split at e
      · rename_i b2 p2 e2
        have hs := binNode_suffix f p2 p' b2 x e
        have hs2 := BinR.chunk_spec p.varInt.1.toNat p.varInt.2 buf
        rw [e2] at hs2
        obtain ⟨s1, g1, r1⟩ := srcVarInt_sim h hr (o := p.varInt.1) (p' := p.varInt.2) rfl (suffix_ne hs2 (suffix_ne hs hne))
        obtain ⟨s2, g2, r2⟩ := srcChunk_sim h _ _ r1 e2 (suffix_ne hs hne)
        obtain ⟨s3, g3, r3⟩ := srcBinNode_sim h f b2 r2 x p' e hne
        exact ⟨s3, by simp only [srcBinNode, g1, hn, ↓reduceIte, g2, g3], r3⟩
      · rename_i b2 p2 e2
        cases e
        have hs2 := BinR.chunk_spec p.varInt.1.toNat p.varInt.2 buf
        rw [e2] at hs2
        obtain ⟨s1, g1, r1⟩ := srcVarInt_sim h hr (o := p.varInt.1) (p' := p.varInt.2) rfl (suffix_ne hs2 hne)
        obtain ⟨s2, g2, r2⟩ := srcChunk_sim h _ _ r1 e2 hne
        exact ⟨s2, by simp only [srcBinNode, g1, hn, ↓reduceIte, g2], r2⟩

theorem srcTextNode_sim (h : Sims rd R) : ∀ (f : Nat) (buf : Bytes) {s : σ} {p : BinR}, R s p →
    SimRes R (srcTextNode rd s f buf) (p.textNode f buf)
  | 0, _, _, _, _, _, _, e, _ => by cases e
  | f + 1, buf, s, p, hr, x, p', e, hne => by
    simp only [BinR.textNode] at e
    split at e
    · rename_i p1 e1
      cases e
      obtain ⟨s1, g1, r1⟩ := h.read hr e1 hne
      exact ⟨s1, by simp only [srcTextNode, g1], r1⟩
    · rename_i c p1 hc e1
      obtain ⟨s1, g1, r1⟩ := h.read hr e1 (suffix_ne (textNode_suffix f _ _ _ _ e) hne)
      obtain ⟨s2, g2, r2⟩ := srcTextNode_sim h f _ r1 x p' e hne
      refine ⟨s2, ?_, r2⟩
      simp only [srcTextNode, g1, g2]
    · rename_i p1 e1
      have := suffix_ne (textNode_suffix f _ _ _ _ e) hne
      exact absurd (BinR.read_none e1).1 this

theorem srcLine_sim (h : Sims rd R) (fuel : Nat) {s : σ} {p p' : BinR} {l : Nat} {bn : Bool} {b : Bytes} (hr : R s p)
    (e : p.line fuel = .ok (l, bn, b, p')) (hne : p'.rest ≠ []) : ∃ s', srcLine rd s fuel = .ok (l, bn, b, s') ∧ R s' p' := by
  simp only [BinR.line] at e
  split at e
  · rename_i hl
    cases e
    obtain ⟨s1, g1, r1⟩ := srcVarInt_sim h hr (o := p.varInt.1) (p' := p.varInt.2) rfl hne
    exact ⟨s1, by simp only [srcLine, g1, hl, ↓reduceIte], r1⟩
  · rename_i hl
    split at e
    · rename_i p2 e2
      cases hb : p2.binNode fuel [] with
      | ok x =>
        obtain ⟨x, p3⟩ := x
        rw [hb] at e
        cases e
        have n2 := suffix_ne (binNode_suffix fuel p2 _ [] _ hb) hne
        obtain ⟨s1, g1, r1⟩ := srcVarInt_sim h hr (o := p.varInt.1) (p' := p.varInt.2) rfl (by rw [BinR.read_some e2]; simp)
        obtain ⟨s2, g2, r2⟩ := h.read r1 e2 n2
        obtain ⟨s3, g3, r3⟩ := srcBinNode_sim h fuel _ r2 _ _ hb hne
        exact ⟨s3, by simp only [srcLine, g1, hl, ↓reduceIte, g2, g3, Res.ok_bind], r3⟩
      | _ => rw [hb] at e; cases e
    · rename_i c p2 hc e2
      cases hb : p2.textNode fuel [c] with
      | ok x =>
        obtain ⟨x, p3⟩ := x
        rw [hb] at e
        cases e
        have n2 := suffix_ne (textNode_suffix fuel p2 _ _ _ hb) hne
        obtain ⟨s1, g1, r1⟩ := srcVarInt_sim h hr (o := p.varInt.1) (p' := p.varInt.2) rfl (by rw [BinR.read_some e2]; simp)
        obtain ⟨s2, g2, r2⟩ := h.read r1 e2 n2
        obtain ⟨s3, g3, r3⟩ := srcTextNode_sim h fuel _ r2 _ _ hb hne
        exact ⟨s3, by simp only [srcLine, g1, hl, ↓reduceIte, g2, g3, Res.ok_bind], r3⟩
      | _ => rw [hb] at e; cases e
    · rename_i p2 e2
      cases hb : p2.textNode fuel [255] with
      | ok x =>
        obtain ⟨x, p3⟩ := x
        rw [hb] at e
        cases e
        have n2 := suffix_ne (textNode_suffix fuel p2 _ _ _ hb) hne
        exact absurd (BinR.read_none e2).1 n2
      | _ => rw [hb] at e; cases e

theorem srcLines_sim (h : Sims rd R) (fuel : Nat) : ∀ (f : Nat) (ev : Ev) {s : σ} {p : BinR}, R s p →
    SimRes R (srcLines rd s fuel f ev) (p.lines fuel f ev)
  | 0, _, _, _, _, _, _, e, _ => by cases e
  | f + 1, ev, s, p, hr, x, p', e, hne => by
    simp only [BinR.lines] at e
    cases hl : p.line fuel with
    | ok y =>
      obtain ⟨l, bn, b, p1⟩ := y
      rw [hl] at e
      simp only [Res.ok_bind] at e
      split at e
      · rename_i h0
        cases e
        obtain ⟨s1, g1, r1⟩ := srcLine_sim h fuel hr hl hne
        exact ⟨s1, by simp only [srcLines, g1, Res.ok_bind, h0, ↓reduceIte], r1⟩
      · rename_i h0
        split at e
        · rename_i hb
          obtain ⟨s1, g1, r1⟩ := srcLine_sim h fuel hr hl (suffix_ne (lines_suffix fuel f p1 p' _ _ e) hne)
          obtain ⟨s2, g2, r2⟩ := srcLines_sim h fuel f _ r1 x p' e hne
          exact ⟨s2, by simp only [srcLines, g1, Res.ok_bind, h0, hb, ↓reduceIte, g2], r2⟩
        · rename_i hb
          obtain ⟨s1, g1, r1⟩ := srcLine_sim h fuel hr hl (suffix_ne (lines_suffix fuel f p1 p' _ _ e) hne)
          obtain ⟨s2, g2, r2⟩ := srcLines_sim h fuel f _ r1 x p' e hne
          exact ⟨s2, by simp only [srcLines, g1, Res.ok_bind, h0, hb, ↓reduceIte, g2, Bool.false_eq_true], r2⟩
    | _ => rw [hl] at e; cases e

/-- Reading a graph from a source is reading it from the bytes of the source. -/
theorem srcParse_sim (h : Sims rd R) (fuel : Nat) {s : σ} {p p' : BinR} {g : Graph} (hr : R s p) (hh : p.header.1 = true)
    (e : p.parse fuel = .ok (g, p')) (hne : p'.rest ≠ []) : ∃ s', srcParse rd s fuel = .ok (g, s') ∧ R s' p' := by
  simp only [BinR.parse] at e
  split at e
  · rename_i p1 e1
    rw [e1] at hh
    simp at hh
  · rename_i p1 e1
    cases hl : p1.lines fuel fuel {} with
    | ok x =>
      obtain ⟨ev, p2⟩ := x
      rw [hl] at e
      simp only [Res.ok_bind] at e
      cases ht : ev.tree with
      | ok t =>
        rw [ht] at e
        cases e
        have n1 := suffix_ne (lines_suffix fuel fuel p1 _ _ _ hl) hne
        obtain ⟨s1, g1, r1⟩ := srcHeader_sim h hr e1 n1
        obtain ⟨s2, g2, r2⟩ := srcLines_sim h fuel fuel {} r1 _ _ hl hne
        exact ⟨s2, by simp only [srcParse, g1, g2, Res.ok_bind, ht], r2⟩
      | _ => rw [ht] at e; cases e
    | _ => rw [hl] at e; cases e

end
end Ogdl

namespace Ogdl
open Spec

/-! ## Connections -/

/-- A buffered connection with these bytes in its buffer and to come (and one more, that
is never read); if not less than `later` is left, the connection still has all of
`later`. -/
def Coming (later out : List Bytes) (fs : List (Option Nat)) (s : BufConn) (p : BinR) : Prop :=
  s.conn.out = out ∧ s.conn.fails = fs ∧ (∀ x ∈ s.conn.inp, x ≠ []) ∧ p.rest = s.buf ++ s.conn.inp.flatten ++ [0] ∧
    (later.flatten.length + 1 ≤ p.rest.length → ∃ pre, s.conn.inp = pre ++ later)

theorem dropWhile_none (l : List Bytes) (h : ∀ x ∈ l, x ≠ []) : l.dropWhile List.isEmpty = l := by
  cases l with
  | nil => rfl
  | cons a l =>
    have := h a (by simp)
    cases a with
    | nil => exact absurd rfl this
    | cons => rfl

theorem coming_sims (e : ConnEnd) (later out : List Bytes) (fs : List (Option Nat)) :
    Sims (BufConn.read e) (Coming later out fs) := by
  rintro ⟨buf, ⟨inp, o, f⟩⟩ c t n ⟨h1, h2, h3, h4, h5⟩ ht
  simp only at h1 h2 h3 h4 h5
  subst h1 h2
  cases buf with
  | cons d buf =>
    simp only [List.cons_append, List.cons.injEq] at h4
    obtain ⟨rfl, h4⟩ := h4
    refine ⟨⟨buf, ⟨inp, o, f⟩⟩, rfl, rfl, rfl, h3, h4, fun hl => h5 ?_⟩
    have hl : later.flatten.length + 1 ≤ t.length := hl
    simp only [List.length_cons]
    omega
  | nil =>
    simp only [List.nil_append] at h4
    cases inp with
    | nil =>
      simp only [List.flatten_nil, List.nil_append, List.cons.injEq] at h4
      exact absurd h4.2 ht
    | cons seg rest =>
      have hseg := h3 seg (by simp)
      cases seg with
      | nil => exact absurd rfl hseg
      | cons d seg =>
        simp only [List.flatten_cons, List.cons_append, List.cons.injEq] at h4
        obtain ⟨rfl, h4⟩ := h4
        have hpre : later.flatten.length + 1 ≤ t.length → ∃ pre, rest = pre ++ later := by
          intro hl
          obtain ⟨pre, hp⟩ := h5 (by simp only [List.length_cons]; omega)
          cases pre with
          | nil =>
            exfalso
            simp only [List.nil_append] at hp
            rw [← hp, h4] at hl
            simp only [List.flatten_cons, List.length_append, List.length_cons, List.length_nil] at hl
            omega
          | cons q pre =>
            simp only [List.cons_append, List.cons.injEq] at hp
            exact ⟨pre, hp.2⟩
        simp only [BufConn.read, dropWhile_none _ h3, Conn.read]
        split
        · rename_i k hk
          split at hk
          · cases hk
            exact ⟨_, rfl, rfl, rfl, fun x hx => h3 x (by simp [hx]), by simpa using h4, hpre⟩
          · rename_i hlen
            have hd : ((c :: seg).take 4096) = c :: seg.take 4095 := rfl
            rw [hd] at hk
            cases hk
            refine ⟨_, rfl, rfl, rfl, ?_, ?_, ?_⟩
            · intro x hx
              rcases List.mem_cons.1 hx with rfl | hx
              · intro hd
                have := congrArg List.length hd
                simp at this hlen
                omega
              · exact h3 x (by simp [hx])
            · simp only [List.flatten_cons, h4]
              have : (c :: seg).drop 4096 = seg.drop 4095 := rfl
              rw [this, ← List.append_assoc (seg.take 4095), List.take_append_drop]
            · intro hl
              obtain ⟨pre, hp⟩ := hpre hl
              exact ⟨(c :: seg).drop 4096 :: pre, by rw [hp]; rfl⟩
        · rename_i k hk
          split at hk <;> simp at hk
        · rename_i k hk
          split at hk <;> simp at hk

/-- A graph in binary form is read from a connection, whatever the segments, and nothing
else. -/
theorem fromConn_message (E : Ext) (e : ConnEnd) {g : Graph} {b : Bytes} (hg : Encodable E g) (hb : g.binary E = .ok (some b)) {ss later : List Bytes}
    (hs : Segments b ss) (hl : ∀ x ∈ later, x ≠ []) (out : List Bytes) (fs : List (Option Nat)) :
    fromConn e ⟨ss ++ later, out, fs⟩ = .ok (.node (.str b!"_") (visibleL E g.out), ⟨later, out, fs⟩) := by
  obtain ⟨bs, h1, h2, h3⟩ := parse_binary E hg
  rw [hb] at h1
  cases h1
  obtain ⟨hs1, hs2⟩ := hs
  have hfuel := fuel_ge ⟨ss ++ later, out, fs⟩
  have hp := h3 (later.flatten ++ [0]) 0 (Conn.fuel ⟨ss ++ later, out, fs⟩ + 8) (by
    simp only [List.flatten_append, List.length_append, hs1] at hfuel
    omega)
  have hh : (BinR.mk (b ++ (later.flatten ++ [0])) 0).header.1 = true := by
    cases hb1 : (BinR.mk (b ++ (later.flatten ++ [0])) 0).header with
    | mk o p1 =>
      cases o with
      | true => rfl
      | false => simp [BinR.parse, hb1] at hp
  obtain ⟨s', e1, hr⟩ := srcParse_sim (coming_sims e later out fs) _ (s := ⟨[], ⟨ss ++ later, out, fs⟩⟩)
    (p := BinR.mk (b ++ (later.flatten ++ [0])) 0)
    ⟨rfl, rfl, fun x hx => (List.mem_append.1 hx).elim (hs2 x) (hl x),
      by simp [hs1], fun _ => ⟨ss, rfl⟩⟩ hh hp (by simp)
  obtain ⟨r1, r2, r3, r4, r5⟩ := hr
  obtain ⟨buf, ⟨inp, o, f⟩⟩ := s'
  simp only at r1 r2 r3 r4 r5
  subst r1 r2
  obtain ⟨pre, hpre⟩ := r5 (by simp)
  subst hpre
  have hpn : pre = [] := by
    cases pre with
    | nil => rfl
    | cons q pre =>
      have := r3 q (by simp)
      have hl := congrArg List.length r4
      have hq : 0 < q.length := List.length_pos_iff.2 this
      simp only [List.flatten_append, List.flatten_cons, List.length_append] at hl
      omega
  subst hpn
  simp only [fromConn, fromConnFuel, e1, Res.ok_bind, List.nil_append]

/-- At the end of the connection there is no graph. -/
theorem fromConn_end (e : ConnEnd) (out : List Bytes) (fs : List (Option Nat)) :
    fromConn e ⟨[], out, fs⟩ = .ok (.nil, ⟨[], out, fs⟩) := by
  cases e <;> rfl

theorem segments_ne_nil {E : Ext} {g : Graph} {b : Bytes} {ss : List Bytes} (hb : g.binary E = .ok (some b)) (hs : Segments b ss) : ss ≠ [] := by
  rintro rfl
  have : b = [] := hs.1.symm
  subst this
  cases g with
  | nil => simp [Graph.binary] at hb
  | node t o =>
    simp only [Graph.binary] at hb
    cases h : Graph.binList E 1 o with
    | ok r => rw [h] at hb; simp at hb
    | _ => rw [h] at hb; cases hb

theorem exchange_ne {E : Ext} {handler : Graph → Res Graph} {ss as : List Bytes} (h : Exchange E handler ss as) : ∀ x ∈ ss, x ≠ [] := by
  induction h with
  | nil => simp
  | cons _ _ hs _ _ _ ih =>
    simp only [List.mem_append]
    rintro x (hx | hx)
    · exact hs.2 x hx
    · exact ih x hx

theorem process1N_exchange {E : Ext} (e : ConnEnd) {handler : Graph → Res Graph} {ss as : List Bytes} (h : Exchange E handler ss as) :
    ∀ (out : List Bytes) (f : Nat), ss.length < f → process1N E e handler f ⟨ss, out, []⟩ = .ok ⟨[], out ++ as, []⟩ := by
  induction h with
  | nil =>
    intro out f hf
    obtain ⟨f, rfl⟩ := Nat.exists_eq_succ_of_ne_zero (by omega : f ≠ 0)
    simp [process1N, fromConn_end, Graph.isNil]
  | @cons g r b a ss rest as hg hb hs hh ha hrest ih =>
    intro out f hf
    obtain ⟨f, rfl⟩ := Nat.exists_eq_succ_of_ne_zero (by omega : f ≠ 0)
    have hne := List.length_pos_iff.2 (segments_ne_nil hb hs)
    simp only [List.length_append] at hf
    rw [process1N, fromConn_message E e hg hb hs (exchange_ne hrest)]
    simp only [Res.ok_bind, Graph.isNil, Bool.false_eq_true, ↓reduceIte, hh, ha, Conn.write]
    rw [ih _ f (by omega)]
    simp

theorem fuel_gt (c : Conn) : c.inp.length < c.fuel := by
  have : ∀ l : List Bytes, l.length ≤ (l.map (fun s => s.length + 1)).sum := by
    intro l
    induction l with
    | nil => simp
    | cons a l ih => simp only [List.length_cons, List.map_cons, List.sum_cons]; omega
  have := this c.inp
  simp only [Conn.fuel]
  omega

/-- Whatever is read ahead of a message is lost. -/
theorem fromConn_ahead (E : Ext) (e : ConnEnd) {g : Graph} {b : Bytes} (hg : Encodable E g) (hb : g.binary E = .ok (some b)) (more : Bytes)
    (hlen : (b ++ more).length ≤ 4096) (out : List Bytes) (fs : List (Option Nat)) :
    fromConn e ⟨[b ++ more], out, fs⟩ = .ok (.node (.str b!"_") (visibleL E g.out), ⟨[], out, fs⟩) := by
  obtain ⟨bs, h1, h2, h3⟩ := parse_binary E hg
  rw [hb] at h1
  cases h1
  let R : BufConn → BinR → Prop := fun s p =>
    (s = ⟨[], ⟨[b ++ more], out, fs⟩⟩ ∧ p.rest = b ++ more ++ [0]) ∨ (s.conn = ⟨[], out, fs⟩ ∧ p.rest = s.buf ++ [0])
  have hne : b ++ more ≠ [] := by
    intro h
    simp only [List.append_eq_nil_iff] at h
    rw [h.1] at h2
    simp at h2
  have hsim : Sims (BufConn.read e) R := by
    rintro ⟨buf, k⟩ c t n (⟨hs, hp⟩ | ⟨hs, hp⟩) ht
    · cases hs
      simp only [BufConn.read, dropWhile_none [b ++ more] (by simpa using hne), Conn.read, hlen, ↓reduceIte]
      cases hbm : b ++ more with
      | nil => exact absurd hbm hne
      | cons d w =>
        rw [hbm] at hp
        simp only [List.cons_append, List.cons.injEq] at hp
        obtain ⟨rfl, hp⟩ := hp
        exact ⟨_, rfl, .inr ⟨rfl, hp⟩⟩
    · simp only at hs hp
      subst hs
      cases buf with
      | nil =>
        simp only [List.nil_append, List.cons.injEq] at hp
        exact absurd hp.2 ht
      | cons d buf =>
        simp only [List.cons_append, List.cons.injEq] at hp
        obtain ⟨rfl, hp⟩ := hp
        exact ⟨_, rfl, .inr ⟨rfl, hp⟩⟩
  have hfuel := fuel_ge ⟨[b ++ more], out, fs⟩
  have hp := h3 (more ++ [0]) 0 (Conn.fuel ⟨[b ++ more], out, fs⟩ + 8) (by
    simp only [List.flatten_cons, List.flatten_nil, List.append_nil, List.length_append] at hfuel
    omega)
  have hh : (BinR.mk (b ++ (more ++ [0])) 0).header.1 = true := by
    cases hb1 : (BinR.mk (b ++ (more ++ [0])) 0).header with
    | mk o p1 =>
      cases o with
      | true => rfl
      | false => simp [BinR.parse, hb1] at hp
  obtain ⟨s', e1, hr⟩ := srcParse_sim hsim _ (s := ⟨[], ⟨[b ++ more], out, fs⟩⟩)
    (p := BinR.mk (b ++ (more ++ [0])) 0) (.inl ⟨rfl, by simp⟩) hh hp (by simp)
  rcases hr with ⟨hs, hr⟩ | ⟨hs, hr⟩
  · exfalso
    have := congrArg List.length hr
    simp only [List.length_append] at this
    omega
  · simp only [fromConn, fromConnFuel, e1, Res.ok_bind, hs]

theorem callLoop1_outcome (E : Ext) (en : ConnEnd) (g : Graph) : ∀ (n : Nat) (c : Client),
    (∀ k, some k ∈ (tries c) → ∃ x, callV1 E en g k = .ok x) →
    ∃ res c', callLoop1 E en g n c = .ok (res, c') ∧ CallOutcome1 E en g (n + 1) (tries c) res c'.dials := by
  have dialed : ∀ (n : Nat) (k : Conn) (ds : List (Option Conn)) (dr cl : List Conn),
      (∀ (c : Client), (∀ k, some k ∈ (tries c) → ∃ x, callV1 E en g k = .ok x) →
        ∀ m, n = m + 1 → ∃ res c', callLoop1 E en g m c = .ok (res, c') ∧ CallOutcome1 E en g (m + 1) (tries c) res c'.dials) →
      (∀ k', some k' ∈ some k :: ds → ∃ x, callV1 E en g k' = .ok x) →
      ∃ res c', (do
        match ← callV1 E en g k with
        | ((r, none), k) => .ok ((r, none), ({ conn := k, dials := ds, dropped := dr, closed := cl } : Client))
        | ((r, some e), k) =>
          match n with
          | 0 => .ok ((r, some e), ({ conn := k, dials := ds, dropped := dr, closed := cl } : Client))
          | n + 1 => callLoop1 E en g n { conn := none, dials := ds, dropped := dr ++ k.toList, closed := cl }) = .ok (res, c') ∧
        CallOutcome1 E en g (n + 1) (some k :: ds) res c'.dials := by
    intro n k ds dr cl ih hk
    obtain ⟨⟨⟨r, e⟩, k'⟩, hx⟩ := hk k (by simp)
    cases e with
    | none =>
      exact ⟨(r, none), _, by rw [hx]; rfl, 0, by omega, by simp, rfl, .inr (.inl ⟨k, k', rfl, hx, rfl⟩)⟩
    | some e =>
      cases n with
      | zero => exact ⟨(r, some e), _, by rw [hx]; rfl, 0, by omega, by simp, rfl, .inr (.inr ⟨rfl, k, k', rfl, hx, by simp⟩)⟩
      | succ n =>
        obtain ⟨res, c', h1, i, hi, h2, h3, h4⟩ := ih { conn := none, dials := ds, dropped := dr ++ k'.toList, closed := cl }
          (fun k'' hm => hk k'' (List.mem_cons_of_mem _ hm)) n rfl
        refine ⟨res, c', by rw [hx]; exact h1, i + 1, by omega, ?_, by rw [h3]; rfl, ?_⟩
        · intro j hj
          cases j with
          | zero => exact ⟨k, r, e, k', rfl, hx⟩
          | succ j => simpa [tries] using h2 j (by omega)
        · rcases h4 with h4 | h4 | ⟨h4, h5⟩
          · exact .inl (by simpa [tries] using h4)
          · exact .inr (.inl (by simpa [tries] using h4))
          · exact .inr (.inr ⟨by omega, by simpa [tries] using h5⟩)
  have step : ∀ (n : Nat), (∀ (c : Client), (∀ k, some k ∈ (tries c) → ∃ x, callV1 E en g k = .ok x) →
        ∀ m, n = m + 1 → ∃ res c', callLoop1 E en g m c = .ok (res, c') ∧ CallOutcome1 E en g (m + 1) (tries c) res c'.dials) →
      ∀ c : Client, (∀ k, some k ∈ (tries c) → ∃ x, callV1 E en g k = .ok x) →
      ∃ res c', callLoop1 E en g n c = .ok (res, c') ∧ CallOutcome1 E en g (n + 1) (tries c) res c'.dials := by
    intro n ih c hc
    obtain ⟨conn, dials, dr, cl⟩ := c
    cases conn with
    | some k =>
      obtain ⟨res, c', h1, h2⟩ := dialed n k dials dr cl ih hc
      refine ⟨res, c', ?_, h2⟩
      rw [callLoop1]
      exact h1
    | none =>
      match dials with
      | [] =>
        exact ⟨_, _, by rw [callLoop1]; rfl, 0, by omega, by simp, rfl, .inl ⟨.inl rfl, rfl⟩⟩
      | none :: ds =>
        exact ⟨_, _, by rw [callLoop1]; rfl, 0, by omega, by simp, rfl, .inl ⟨.inr rfl, rfl⟩⟩
      | some k :: ds =>
        obtain ⟨res, c', h1, h2⟩ := dialed n k ds dr cl ih hc
        refine ⟨res, c', ?_, h2⟩
        rw [callLoop1]
        exact h1
  intro n
  induction n with
  | zero => exact step 0 (by intro _ _ m h; omega)
  | succ n ih => exact step (n + 1) (by intro c hc m h; cases h; exact ih c hc)

end Ogdl
