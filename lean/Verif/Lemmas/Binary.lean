import Verif.Model.Binary
import Verif.Spec.Binary
import Verif.Lemmas.Event

namespace Ogdl
open Spec

/-! ## varInt -/

theorem byteOf_toNat {i : Nat} (h : i < 256) : (byteOf i).toNat = i := by
  simp only [byteOf, UInt8.toNat_ofNat']
  omega

theorem or80 : ∀ x < 64, x ||| 0x80 = x + 0x80 := by decide
theorem orC0 : ∀ x < 32, x ||| 0xc0 = x + 0xc0 := by decide

theorem and_ff (i : Nat) : i &&& 0xff = i % 256 := Nat.and_two_pow_sub_one_eq_mod i 8
theorem and_3f (i : Nat) : i &&& 0x3f = i % 64 := Nat.and_two_pow_sub_one_eq_mod i 6
theorem and_1f (i : Nat) : i &&& 0x1f = i % 32 := Nat.and_two_pow_sub_one_eq_mod i 5
theorem and_0f (i : Nat) : i &&& 0x0f = i % 16 := Nat.and_two_pow_sub_one_eq_mod i 4

theorem shl_or (a b k : Nat) (h : b < 2 ^ k) : a <<< k ||| b = a * 2 ^ k + b := by
  rw [← Nat.shiftLeft_add_eq_or_of_lt h, Nat.shiftLeft_eq]

theorem varInt_newVarInt (i : Nat) (h : i < 2 ^ 21) (rest : Bytes) (n : Nat) :
    (BinR.mk (newVarInt i ++ rest) n).varInt = ((i : Int), ⟨rest, n + (newVarInt i).length⟩) := by
  have hneg : ¬ ((i : Int) < 0) := by omega
  simp only [newVarInt, hneg, ↓reduceIte, Int.toNat_natCast]
  by_cases h1 : i < 0x80
  · simp only [h1, ↓reduceIte, List.cons_append, List.nil_append, BinR.varInt, BinR.read]
    rw [byteOf_toNat (by omega)]
    simp [h1]
  simp only [h1, ↓reduceIte]
  by_cases h2 : i < 0x4000
  · have hs : i >>> 8 < 64 := by rw [Nat.shiftRight_eq_div_pow]; omega
    have hs' : i >>> 8 = i / 256 := by rw [Nat.shiftRight_eq_div_pow]
    simp only [h2, ↓reduceIte, List.cons_append, List.nil_append, BinR.varInt, BinR.read]
    rw [or80 _ hs, and_ff, byteOf_toNat (by omega), byteOf_toNat (by omega)]
    have a1 : ¬ (i >>> 8 + 128 < 128) := by omega
    have a2 : i >>> 8 + 128 < 192 := by omega
    simp only [a1, a2, ↓reduceIte, List.length_cons, List.length_nil]
    rw [and_3f, shl_or _ _ 8 (by omega)]
    have : (i >>> 8 + 128) % 64 * 2 ^ 8 + i % 256 = i := by omega
    rw [this]
  simp only [h2, ↓reduceIte]
  have h3 : i < 0x200000 := by omega
  have hs : i >>> 16 < 32 := by rw [Nat.shiftRight_eq_div_pow]; omega
  have hs' : i >>> 16 = i / 65536 := by rw [Nat.shiftRight_eq_div_pow]
  have hs8 : i >>> 8 = i / 256 := by rw [Nat.shiftRight_eq_div_pow]
  simp only [h3, ↓reduceIte, List.cons_append, List.nil_append, BinR.varInt, BinR.read]
  rw [orC0 _ hs, and_ff, and_ff, byteOf_toNat (by omega), byteOf_toNat (by omega),
    byteOf_toNat (by omega)]
  have a1 : ¬ (i >>> 16 + 192 < 128) := by omega
  have a2 : ¬ (i >>> 16 + 192 < 192) := by omega
  have a3 : i >>> 16 + 192 < 224 := by omega
  simp only [a1, a2, a3, ↓reduceIte, List.length_cons, List.length_nil]
  rw [and_1f]
  have hin : ((i >>> 16 + 192) % 32) <<< 16 ||| ((i >>> 8) % 256) <<< 8 ||| i % 256 = i := by
    rw [Nat.or_assoc, shl_or _ _ 8 (by omega), shl_or _ _ 16 (by omega)]
    omega
  rw [hin]

/-! ## Text nodes -/

theorem textNode_of {cs : Bytes} (h : 0 ∉ cs) (rest : Bytes) :
    ∀ (n f : Nat) (buf : Bytes), cs.length < f →
      (BinR.mk (cs ++ 0 :: rest) n).textNode f buf =
        .ok (buf ++ cs, ⟨rest, n + cs.length + 1⟩) := by
  induction cs with
  | nil =>
    intro n f buf hf
    cases f with
    | zero => simp at hf
    | succ f => simp [BinR.textNode, BinR.read]
  | cons c cs ih =>
    intro n f buf hf
    simp only [List.mem_cons, not_or] at h
    cases f with
    | zero => simp at hf
    | succ f =>
      have hc : c ≠ 0 := fun e => h.1 e.symm
      have hf' : cs.length < f := by simp at hf; omega
      simp only [BinR.textNode, BinR.read, List.cons_append]
      rw [ih h.2 (n + 1) f _ hf']
      simp
      omega

theorem line_of {lv : Nat} (h1 : 1 ≤ lv) (h2 : lv < 2 ^ 21) {b : Bytes} (hb : b ≠ [])
    (hs : Storable b) (rest : Bytes) (n f : Nat) (hf : b.length ≤ f) :
    (BinR.mk (newVarInt lv ++ b ++ 0 :: rest) n).line f =
      .ok (lv, false, b, ⟨rest, n + (newVarInt lv ++ b ++ [0]).length⟩) := by
  cases b with
  | nil => simp at hb
  | cons c cs =>
    obtain ⟨hz, ho⟩ := hs
    simp only [List.mem_cons, not_or] at hz
    have hc : c ≠ 1 := by simpa using ho
    have hlv : ¬ ((lv : Int) < 1) := by omega
    have hcs : cs.length < f := by simp at hf; omega
    rw [List.append_assoc]
    simp only [BinR.line, varInt_newVarInt lv h2, hlv, ↓reduceIte, BinR.read, List.cons_append]
    rw [textNode_of hz.2 rest _ _ _ hcs]
    simp
    omega

/-- The handler after a list of `AddAt` calls. -/
def Ev.addAll (e : Ev) (its : List (Nat × Val)) : Ev := its.foldl (fun e it => e.addAt it.2 it.1) e

@[simp] theorem Ev.addAll_nil (e : Ev) : e.addAll [] = e := rfl
theorem Ev.addAll_append (e : Ev) (a b : List (Nat × Val)) :
    e.addAll (a ++ b) = (e.addAll a).addAll b := by simp [Ev.addAll]
theorem Ev.addAll_cons (e : Ev) (l : Nat) (v : Val) (b : List (Nat × Val)) :
    e.addAll ((l, v) :: b) = (e.addAt v l).addAll b := by simp [Ev.addAll]

theorem Ev.addAll_items (its : List (Nat × Val)) :
    ∀ e : Ev, (e.addAll its).items = e.items ++ its := by
  induction its with
  | nil => intro e; simp
  | cons it its ih =>
    intro e; obtain ⟨l, v⟩ := it
    rw [Ev.addAll_cons, ih]; simp [Ev.addAt]

theorem Ev.addAll_max (its : List (Nat × Val)) :
    ∀ e : Ev, (∀ it ∈ e.items, it.1 ≤ e.max) →
      ∀ it ∈ (e.addAll its).items, it.1 ≤ (e.addAll its).max := by
  induction its with
  | nil => intro e h; simpa using h
  | cons it its ih =>
    intro e h; obtain ⟨l, v⟩ := it
    rw [Ev.addAll_cons]
    refine ih _ ?_
    intro it hit
    simp only [Ev.addAt, List.mem_append, List.mem_singleton] at hit ⊢
    rcases hit with hit | rfl
    · have := h it hit; split <;> omega
    · simp only; split <;> omega

section
variable (E : Ext)

theorem visible_append : ∀ (a b : List Graph), visibleL E (a ++ b) = visibleL E a ++ visibleL E b
  | [], b => rfl
  | g :: a, b => by simp [visibleL, visible_append a b]

theorem depthL_append : ∀ (a b : List Graph), depthL (a ++ b) = max (depthL a) (depthL b)
  | [], b => by simp [depthL]
  | g :: a, b => by simp [depthL, depthL_append a b, Nat.max_assoc]

theorem preorderL_append (d : Nat) : ∀ (a b : List Graph),
    preorderL d (a ++ b) = preorderL d a ++ preorderL d b
  | [], b => by simp [preorderL]
  | g :: a, b => by simp [preorderL, preorderL_append d a b]

theorem noNilL_append : ∀ (a b : List Graph), NoNilL a → NoNilL b → NoNilL (a ++ b)
  | [], b, _, h => h
  | g :: a, b, h, h' => by
    simp only [NoNilL] at h
    simp only [List.cons_append, NoNilL]
    exact ⟨h.1, noNilL_append a b h.2 h'⟩

mutual
theorem noNil_visible : ∀ g : Graph, NoNilL (visible E g)
  | .nil => by simp [visible, NoNilL]
  | .node t o => by
    have := noNil_visibleL o
    simp only [visible]
    split
    · exact this
    · simp only [NoNilL, NoNil]; exact ⟨this, trivial⟩
theorem noNil_visibleL : ∀ gs : List Graph, NoNilL (visibleL E gs)
  | [] => by simp [visibleL, NoNilL]
  | g :: gs => by
    simp only [visibleL]
    exact noNilL_append _ _ (noNil_visible g) (noNil_visibleL gs)
end

mutual
/-- The writer produces some bytes, and reading them emits the visible preorder. -/
theorem lines_bin : ∀ (g : Graph) (lv : Nat), NoNil g → 1 ≤ lv →
    AllThis (fun v => Storable (vbytes E v)) g → depthL (visible E g) + lv ≤ 2 ^ 21 →
    ∃ bs, g.bin E lv = .ok bs ∧ (preorderL (lv - 1) (visible E g)).length ≤ bs.length ∧
      ∀ (rest : Bytes) (n fuel f : Nat) (ev : Ev), bs.length ≤ fuel →
      (BinR.mk (bs ++ rest) n).lines fuel (f + (preorderL (lv - 1) (visible E g)).length) ev =
        (BinR.mk rest (n + bs.length)).lines fuel f (ev.addAll (preorderL (lv - 1) (visible E g)))
  | .nil, _, hn, _, _, _ => by simp [NoNil] at hn
  | .node t o, lv, hn, hlv, ha, hd => by
    simp only [NoNil] at hn
    simp only [AllThis] at ha
    by_cases hb : vbytes E t = []
    · simp only [visible, hb, ↓reduceIte] at hd ⊢
      obtain ⟨bs, e, hl, hr⟩ := lines_binL o lv hn hlv ha.2 hd
      refine ⟨bs, ?_, hl, hr⟩
      simp [Graph.bin, hb, e]
    · simp only [visible, hb, ↓reduceIte, depthL, depth] at hd ⊢
      obtain ⟨bs, e, hl, hr⟩ := lines_binL o (lv + 1) hn (by omega) ha.2 (by omega)
      refine ⟨newVarInt lv ++ vbytes E t ++ [0] ++ bs, ?_, ?_, ?_⟩
      · simp [Graph.bin, hb, e]
      · have : (lv + 1 - 1) = lv - 1 + 1 := by omega
        rw [this] at hl
        simp [preorderL, preorder]; omega
      · intro rest n fuel f ev hf
        have hlv1 : (lv + 1 - 1) = lv - 1 + 1 := by omega
        rw [hlv1] at hr
        simp only [preorderL, preorder, List.append_nil, List.length_cons]
        rw [show f + ((preorderL (lv - 1 + 1) (visibleL E o)).length + 1) =
          f + (preorderL (lv - 1 + 1) (visibleL E o)).length + 1 by omega]
        simp only [BinR.lines]
        have : newVarInt ↑lv ++ vbytes E t ++ [0] ++ bs ++ rest =
            newVarInt ↑lv ++ vbytes E t ++ 0 :: (bs ++ rest) := by simp
        rw [this]
        simp only [List.length_append] at hf
        have hlv2 : lv < 2 ^ 21 := by omega
        rw [line_of hlv hlv2 hb ha.1 _ _ _ (by omega)]
        have hlv0 : lv ≠ 0 := by omega
        simp only [Res.ok_bind, hlv0, ↓reduceIte, Bool.false_eq_true]
        rw [hr rest _ fuel f _ (by omega), ← Ev.addAll_cons]
        congr 2
        simp
        omega
theorem lines_binL : ∀ (gs : List Graph) (lv : Nat), NoNilL gs → 1 ≤ lv →
    AllThisL (fun v => Storable (vbytes E v)) gs → depthL (visibleL E gs) + lv ≤ 2 ^ 21 →
    ∃ bs, Graph.binList E lv gs = .ok bs ∧
      (preorderL (lv - 1) (visibleL E gs)).length ≤ bs.length ∧
      ∀ (rest : Bytes) (n fuel f : Nat) (ev : Ev), bs.length ≤ fuel →
      (BinR.mk (bs ++ rest) n).lines fuel (f + (preorderL (lv - 1) (visibleL E gs)).length) ev =
        (BinR.mk rest (n + bs.length)).lines fuel f (ev.addAll (preorderL (lv - 1) (visibleL E gs)))
  | [], _, _, _, _, _ => by
    refine ⟨[], by simp [Graph.binList], ?_, ?_⟩ <;> simp [visibleL, preorderL]
  | g :: gs, lv, hn, hlv, ha, hd => by
    simp only [NoNilL] at hn
    simp only [AllThisL] at ha
    simp only [visibleL, depthL_append] at hd
    obtain ⟨b1, e1, l1, r1⟩ := lines_bin g lv hn.1 hlv ha.1 (by omega)
    obtain ⟨b2, e2, l2, r2⟩ := lines_binL gs lv hn.2 hlv ha.2 (by omega)
    refine ⟨b1 ++ b2, by simp [Graph.binList, e1, e2], ?_, ?_⟩
    · simp [visibleL, preorderL_append]; omega
    · intro rest n fuel f ev hf
      simp only [List.length_append] at hf
      simp only [visibleL, preorderL_append, List.length_append, List.append_assoc]
      rw [show f + ((preorderL (lv - 1) (visible E g)).length +
          (preorderL (lv - 1) (visibleL E gs)).length) =
          (f + (preorderL (lv - 1) (visibleL E gs)).length) +
          (preorderL (lv - 1) (visible E g)).length by omega]
      rw [r1 _ _ _ _ _ (by omega), r2 _ _ _ _ _ (by omega), Ev.addAll_append]
      congr 2
      omega
end

theorem header_ok (rest : Bytes) (n : Nat) :
    (BinR.mk (1 :: 71 :: 0 :: rest) n).header = (true, ⟨rest, n + 3⟩) := by
  simp [BinR.header, BinR.read]

/-- Reading a record yields the visible tree and stops right behind the record. -/
theorem parse_binary {g : Graph} (h : Encodable E g) :
    ∃ bs, g.binary E = .ok (some bs) ∧ 4 ≤ bs.length ∧ ∀ (rest : Bytes) (n fuel : Nat), bs.length ≤ fuel →
      (BinR.mk (bs ++ rest) n).parse fuel =
        .ok (.node (.str b!"_") (visibleL E g.out), ⟨rest, n + bs.length⟩) := by
  obtain ⟨hn, ha, hd⟩ := h
  cases g with
  | nil => simp [NoNil] at hn
  | node t o =>
    simp only [NoNil] at hn
    simp only [Graph.out_node] at ha hd ⊢
    obtain ⟨bs, e, hl, hr⟩ := lines_binL E o 1 hn (Nat.le_refl _) ha (by omega)
    refine ⟨[1, 71, 0] ++ bs ++ [0], by simp [Graph.binary, e], by simp, ?_⟩
    intro rest n fuel hf
    simp only [List.length_append, List.length_cons, List.length_nil] at hf
    have e1 : ([1, 71, 0] ++ bs ++ [0]) ++ rest = 1 :: 71 :: 0 :: (bs ++ (0 :: rest)) := by simp
    rw [e1]
    simp only [BinR.parse, header_ok]
    simp only [Nat.sub_self] at hl hr
    have hfe : ∃ f, fuel = (f + 1) + (preorderL 0 (visibleL E o)).length :=
      ⟨fuel - (preorderL 0 (visibleL E o)).length - 1, by omega⟩
    obtain ⟨f, hfe⟩ := hfe
    have hr' := hr (0 :: rest) (n + 3) fuel (f + 1) {} (by omega)
    rw [← hfe] at hr'
    rw [hr']
    have hline : (BinR.mk (0 :: rest) (n + 3 + bs.length)).line fuel =
        .ok (0, false, [], ⟨rest, n + 3 + bs.length + 1⟩) := by
      simp [BinR.line, BinR.varInt, BinR.read]
    simp only [BinR.lines, hline, Res.ok_bind, ↓reduceIte]
    rw [tree_of_preorder _ (visibleL E o) (noNil_visibleL E o)]
    · simp
      omega
    · rw [Ev.addAll_items]; simp
    · exact Ev.addAll_max _ _ (by simp)

end
end Ogdl
