import Verif.Lemmas.BinaryTotal

/-!
# C01-C05: the binary format
-/

namespace Ogdl
open Spec

section
variable (E : Ext)

/-! ## C02, C01: round trip -/

/-- **C02.** Writing any encodable graph and reading it back gives, under `_`, the
tree in which empty nodes are replaced by their subnodes and contents by their
printed text. -/
theorem C02_binary_roundtrip (g : Graph) (h : Encodable E g) :
    ∃ bs, g.binary E = .ok (some bs) ∧
      (∀ fuel ≥ bs.length, fromBinaryFuel fuel bs = .ok (.node (.str b!"_") (visibleL E g.out))) := by
  obtain ⟨bs, e, _, hr⟩ := parse_binary E h
  refine ⟨bs, e, fun fuel hf => ?_⟩
  have := hr [] 0 fuel hf
  rw [List.append_nil] at this
  simp [fromBinaryFuel, this]

mutual
theorem visible_id : ∀ g : Graph, NoNil g → AllThis IsText g → visible E g = [g]
  | .nil, h, _ => by simp [NoNil] at h
  | .node t o, h, h' => by
    simp only [NoNil] at h
    simp only [AllThis] at h'
    obtain ⟨⟨s, rfl, hs⟩, h2⟩ := h'
    simp [visible, vbytes, hs, visibleL_id o h h2]
theorem visibleL_id : ∀ gs : List Graph, NoNilL gs → AllThisL IsText gs → visibleL E gs = gs
  | [], _, _ => rfl
  | g :: gs, h, h' => by
    simp only [NoNilL] at h
    simp only [AllThisL] at h'
    simp [visibleL, visible_id g h.1 h'.1, visibleL_id gs h.2 h'.2]
end

/-- Non-empty text without NUL and not starting with 0x01. -/
def BinText (v : Val) : Prop := ∃ s, v = .str s ∧ s ≠ [] ∧ 0 ∉ s ∧ s.head? ≠ some 1

mutual
theorem allThis_mono {P Q : Val → Prop} (h : ∀ v, P v → Q v) : ∀ g, AllThis P g → AllThis Q g
  | .nil, _ => trivial
  | .node t o, hp => by
    simp only [AllThis] at hp ⊢
    exact ⟨h t hp.1, allThisL_mono h o hp.2⟩
theorem allThisL_mono {P Q : Val → Prop} (h : ∀ v, P v → Q v) : ∀ gs, AllThisL P gs → AllThisL Q gs
  | [], _ => trivial
  | g :: gs, hp => by
    simp only [AllThisL] at hp ⊢
    exact ⟨allThis_mono h g hp.1, allThisL_mono h gs hp.2⟩
end

/-- **C01.** For every tree of non-empty texts (no NUL, not starting with 0x01) of
less than 2^21 levels below the root, `FromBinary(g.Binary())` is the same tree
below a root `_`. -/
theorem C01_binary_roundtrip_text (root : Val) (o : List Graph) (hn : NoNilL o)
    (ht : AllThisL BinText o) (hd : depthL o < 2 ^ 21) :
    ∃ bs, (Graph.node root o).binary E = .ok (some bs) ∧
      (∀ fuel ≥ bs.length, fromBinaryFuel fuel bs = .ok (.node (.str b!"_") o)) := by
  have hv : visibleL E o = o := visibleL_id E o hn
    (allThisL_mono (fun v ⟨s, h1, h2, _⟩ => ⟨s, h1, h2⟩) o ht)
  have henc : Encodable E (.node root o) := by
    refine ⟨hn, ?_, ?_⟩
    · exact allThisL_mono (fun v ⟨s, h1, _, h3, h4⟩ => by subst h1; exact ⟨h3, h4⟩) o ht
    · simpa [hv] using hd
  have := C02_binary_roundtrip E (.node root o) henc
  simpa [hv] using this

/-- The hypotheses of C01 are met by a tree with a branch and a leaf. -/
example : ∃ o : List Graph, NoNilL o ∧ AllThisL BinText o ∧ depthL o < 2 ^ 21 ∧ o.length = 2 :=
  ⟨[.node (.str b!"a") [.node (.str b!"b c") []], .node (.str b!"d") []],
    by simp [NoNilL, NoNil], by simp [AllThisL, AllThis, BinText], by simp [depthL, depth], rfl⟩

/-- The hypotheses of C02 are met by a tree with an empty node and an integer. -/
example : Encodable E (.node .nil [.node (.str []) [.node (.int .int64 7) []]]) := by
  refine ⟨by simp [NoNil, NoNilL], ?_, ?_⟩
  · simp [AllThisL, AllThis, Storable, vbytes, itoa, utoa, utoaAux]
  · simp only [Graph.out_node, visibleL, visible, vbytes, ↓reduceIte, List.append_nil]
    by_cases h : itoa 7 = [] <;> simp only [h, ↓reduceIte, depthL, depth] <;> omega

/-- The condition on the first byte is needed: a text starting with 0x01 does not
come back. -/
theorem C01_needs_first_byte :
    fromBinaryFuel 100 [1, 71, 0, 1, 1, 97, 0, 0] ≠
      .ok (.node (.str b!"_") [.node (.str [1, 97]) []]) := by
  rintro h
  have e : fromBinaryFuel 100 [1, 71, 0, 1, 1, 97, 0, 0] =
    .ok (.node (.str b!"_") [.node (.bytes [0, 0]) []]) := by rfl
  rw [e] at h
  simp at h

/-! ## C03: levels -/

/-- **C03 (part).** Levels below 2^21 are read back, with the documented number of
bytes; negative levels and levels from 2^28 on are refused (nothing is written).
Missing: the four-byte class, which the code gets wrong (`C03_refuted`). -/
theorem C03_levels_partial (i : Int) :
    (0 ≤ i → i < 2 ^ 21 → ∀ rest n,
      (BinR.mk (newVarInt i ++ rest) n).varInt = (i, ⟨rest, n + (newVarInt i).length⟩)) ∧
    ((newVarInt i).length =
      if 0 ≤ i ∧ i < 2 ^ 7 then 1 else if 0 ≤ i ∧ i < 2 ^ 14 then 2
      else if 0 ≤ i ∧ i < 2 ^ 21 then 3 else if 0 ≤ i ∧ i < 2 ^ 28 then 4 else 0) := by
  constructor
  · intro h0 h1 rest n
    have := varInt_newVarInt i.toNat (by omega) rest n
    rwa [Int.toNat_of_nonneg h0] at this
  · simp only [newVarInt]
    by_cases h : i < 0
    · have : ¬ (0 ≤ i) := by omega
      simp [h, this]
    · simp only [h, ↓reduceIte]
      have h0 : 0 ≤ i := by omega
      simp only [h0, true_and]
      by_cases h1 : i < 2 ^ 7
      · have : i.toNat < 0x80 := by omega
        simp only [h1, this, ↓reduceIte, List.length_cons, List.length_nil, Nat.zero_add]
      have e1 : ¬ (i.toNat < 0x80) := by omega
      simp only [h1, e1, ↓reduceIte]
      by_cases h2 : i < 2 ^ 14
      · have : i.toNat < 0x4000 := by omega
        simp only [h2, this, ↓reduceIte, List.length_cons, List.length_nil, Nat.zero_add, Nat.reduceAdd]
      have e2 : ¬ (i.toNat < 0x4000) := by omega
      simp only [h2, e2, ↓reduceIte]
      by_cases h3 : i < 2 ^ 21
      · have : i.toNat < 0x200000 := by omega
        simp only [h3, this, ↓reduceIte, List.length_cons, List.length_nil, Nat.zero_add, Nat.reduceAdd]
      have e3 : ¬ (i.toNat < 0x200000) := by omega
      simp only [h3, e3, ↓reduceIte]
      by_cases h4 : i < 2 ^ 28
      · have : i.toNat < 0x10000000 := by omega
        simp only [h4, this, ↓reduceIte, List.length_cons, List.length_nil, Nat.zero_add, Nat.reduceAdd]
      have e4 : ¬ (i.toNat < 0x10000000) := by omega
      simp only [h4, e4, ↓reduceIte, List.length_nil]

theorem orE0 : ∀ x < 16, x ||| 0xe0 = x + 0xe0 := by decide
theorem orFF_byte : ∀ y < 256, y ||| 0xff = 0xff := by
  intro y hy
  have h := Nat.or_lt_two_pow (n := 8) (x := y) (y := 0xff) hy (by omega)
  have h2 : 0xff ≤ y ||| 0xff := Nat.right_le_or
  omega
theorem orFF_mod (x : Nat) : (x ||| 0xff) % 256 = 255 := by
  have : x ||| 0xff = (x / 256) * 2 ^ 8 + 255 := by
    rw [← shl_or _ _ 8 (by omega), Nat.shiftLeft_eq]
    have hx : x = (x / 256) <<< 8 ||| x % 256 := by
      rw [shl_or _ _ 8 (by omega)]; omega
    conv => lhs; rw [hx]
    rw [Nat.or_assoc, Nat.shiftLeft_eq]
    congr 1
    exact orFF_byte _ (by omega)
  omega

/-- What the four-byte class does: bits 16-23 always come back as ones. -/
theorem C03_four_byte_class (i : Nat) (h1 : 2 ^ 21 ≤ i) (h2 : i < 2 ^ 28) (rest : Bytes) (n : Nat) :
    (BinR.mk (newVarInt i ++ rest) n).varInt =
      ((((i / 2 ^ 24) * 2 ^ 24 + 255 * 2 ^ 16 + i % 2 ^ 16 : Nat) : Int), ⟨rest, n + 4⟩) := by
  have hneg : ¬ ((i : Int) < 0) := by omega
  have e1 : ¬ i < 0x80 := by omega
  have e2 : ¬ i < 0x4000 := by omega
  have e3 : ¬ i < 0x200000 := by omega
  have e4 : i < 0x10000000 := by omega
  simp only [newVarInt, hneg, ↓reduceIte, Int.toNat_natCast, e1, e2, e3, e4, List.cons_append,
    List.nil_append, BinR.varInt, BinR.read]
  have hs : i >>> 24 = i / 2 ^ 24 := by rw [Nat.shiftRight_eq_div_pow]
  have hs8 : i >>> 8 = i / 256 := by rw [Nat.shiftRight_eq_div_pow]
  have hb : (byteOf (i >>> 16 ||| 255)).toNat = 255 := by
    simp only [byteOf, UInt8.toNat_ofNat']
    exact orFF_mod _
  rw [orE0 _ (by omega), and_ff, and_ff, byteOf_toNat (by omega), hb, byteOf_toNat (by omega),
    byteOf_toNat (by omega)]
  have a1 : ¬ (i >>> 24 + 224 < 128) := by omega
  have a2 : ¬ (i >>> 24 + 224 < 192) := by omega
  have a3 : ¬ (i >>> 24 + 224 < 224) := by omega
  have a4 : i >>> 24 + 224 < 240 := by omega
  simp only [a1, a2, a3, a4, ↓reduceIte]
  rw [and_0f, Nat.or_assoc, Nat.or_assoc, shl_or _ _ 8 (by omega), shl_or _ _ 16 (by omega),
    shl_or _ _ 24 (by omega)]
  have : (i >>> 24 + 224) % 16 * 2 ^ 24 + (255 * 2 ^ 16 + (i >>> 8 % 256 * 2 ^ 8 + i % 256)) =
    (i / 2 ^ 24) * 2 ^ 24 + 255 * 2 ^ 16 + i % 2 ^ 16 := by omega
  rw [this]

/-- **C03 refuted.** Level 2^21 is written in four bytes and read back as 0xff0000. -/
theorem C03_refuted : ¬ ∀ i : Nat, i < 2 ^ 28 → ∀ rest n,
    (BinR.mk (newVarInt i ++ rest) n).varInt = ((i : Int), ⟨rest, n + (newVarInt i).length⟩) := by
  intro h
  have := h (2 ^ 21) (by omega) [] 0
  rw [C03_four_byte_class (2 ^ 21) (by omega) (by omega)] at this
  simp at this

/-! ## C04: termination -/

/-- **C04 refuted.** A stream cut inside a text node makes `FromBinary` loop: no
number of iterations is enough for `01 'G' 00 01 'a'`. -/
theorem C04_refuted : ∃ b : Bytes, ∀ fuel, fromBinaryFuel fuel b = .oof := by
  refine ⟨[1, 71, 0, 1, 97], fun fuel => ?_⟩
  cases fuel with
  | zero => rfl
  | succ f =>
    have hl : (BinR.mk [1, 97] 3).line (f + 1) = .oof := by
      have := BinR.textNode_eof 5 (f + 1) [97]
      simp [BinR.line, BinR.varInt, BinR.read, this]
    simp [fromBinaryFuel, BinR.parse, BinR.header, BinR.read, BinR.lines, hl]

/-- **C04 (part).** `FromBinary` never panics; on every byte string it either
returns one definite graph after at most `length + 1` iterations of its loops or
never returns; and it returns on every byte string that is followed by five zero
bytes.  Missing: streams that end inside a text node (`C04_refuted`). -/
theorem C04_returns_partial (b : Bytes) :
    ((∃ g, ∀ fuel ≥ b.length + 1, fromBinaryFuel fuel b = .ok g) ∨
      ∀ fuel, fromBinaryFuel fuel b = .oof) ∧
    (∀ fuel, fromBinaryFuel fuel b ≠ .panic) ∧
    (∃ g, ∀ fuel ≥ b.length + 6, fromBinaryFuel fuel (b ++ [0, 0, 0, 0, 0]) = .ok g) := by
  refine ⟨?_, ?_, ?_⟩
  · rcases (BinR.mk b 0).parse_settles.1 with ⟨r, _, _, h⟩ | h
    · exact .inl ⟨r.1, fun fuel hf => by simp [fromBinaryFuel, h fuel hf]⟩
    · exact .inr fun fuel => by simp [fromBinaryFuel, h fuel]
  · intro fuel
    rcases (BinR.mk b 0).parse_settles.1 with ⟨r, _, h, _⟩ | h
    · rcases h fuel with h | h <;> simp [fromBinaryFuel, h]
    · simp [fromBinaryFuel, h]
  · have hs := (BinR.mk (b ++ [0, 0, 0, 0, 0]) 0).parse_settles
    rcases hs.1 with ⟨r, _, _, h⟩ | h
    · exact ⟨r.1, fun fuel hf => by
        simp [fromBinaryFuel, h fuel (by simp; omega)]⟩
    · exact absurd h (hs.2 b (List.suffix_refl _))

/-- Garbage followed by zeros is one of the inputs C04 speaks about; here a
level-5 node without ancestors, which is dropped. -/
example : fromBinaryFuel 20 ([1, 71, 0, 5, 97] ++ [0, 0, 0, 0, 0]) = .ok (.node (.str b!"_") []) := rfl

/-! ## C05: records are self-delimiting -/

/-- **C05.** Reading a record consumes exactly its bytes, whatever follows, and
reports their number; the records of two graphs that the format distinguishes
are different and none is a prefix of the other. -/
theorem C05_self_delimiting (g : Graph) (h : Encodable E g) :
    ∃ bs, g.binary E = .ok (some bs) ∧
      (∀ (rest : Bytes) (n fuel : Nat), bs.length ≤ fuel →
        (BinR.mk (bs ++ rest) n).parse fuel =
          .ok (.node (.str b!"_") (visibleL E g.out), ⟨rest, n + bs.length⟩)) ∧
      (∀ g' bs', Encodable E g' → g'.binary E = .ok (some bs') → bs <+: bs' →
        bs = bs' ∧ visibleL E g.out = visibleL E g'.out) := by
  obtain ⟨bs, e, _, hr⟩ := parse_binary E h
  refine ⟨bs, e, hr, ?_⟩
  rintro g' bs' h' e' ⟨t, ht⟩
  obtain ⟨bs'', e'', _, hr'⟩ := parse_binary E h'
  rw [e'] at e''
  simp only [Res.ok.injEq, Option.some.injEq] at e''
  subst e''
  have h1 := hr t 0 bs'.length (by rw [← ht]; simp)
  have h2 := hr' [] 0 bs'.length (Nat.le_refl _)
  rw [List.append_nil] at h2
  rw [ht, h2] at h1
  simp only [Res.ok.injEq, Prod.mk.injEq, Graph.node.injEq, true_and, BinR.mk.injEq] at h1
  obtain ⟨hv, ht', _⟩ := h1
  subst ht'
  simp only [List.append_nil] at ht
  exact ⟨ht, hv.symm⟩

end
end Ogdl
