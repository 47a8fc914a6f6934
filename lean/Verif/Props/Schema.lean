import Verif.Model.Schema
import Verif.Spec.Schema
import Verif.Lemmas.Typed

/-! # C45: schemas

`Spec.ConformsL E ss xs`: for each schema node there is a node at the same position
with the same text or a value of the declared type, recursively. -/

namespace Ogdl
open Spec

theorem nodeConforms_iff (E : Ext) {c v : Val} (o p : List Graph) (hv : IsScalar v) (hc : vstr E c ≠ []) (hb : vstr E c ≠ b!"!binary") :
    ∃ b, checkNode E (.node c o) (.node v p) = .ok b ∧ (b = true ↔ NodeConforms E (vstr E c) v) := by
  have hty : thisType E v = .ok (typeName E v) := by cases v <;> first | rfl | exact hv.elim
  have hint : ∀ s : Bytes, (parseInt s).isSome = true ↔ ∃ i, IntText s i := by
    intro s
    constructor
    · intro h
      obtain ⟨i, hi⟩ := Option.isSome_iff_exists.1 h
      exact ⟨i, parseInt_some.1 hi⟩
    · rintro ⟨i, hi⟩
      rw [parseInt_some.2 hi]
      rfl
  generalize hs : vstr E c = sc at hc hb
  match sc, hc, hb with
  | c0 :: cs, _, hb =>
    simp only [checkNode, hty, Res.ok_bind, hs]
    by_cases h33 : c0 = 33
    · subst h33
      simp only [ne_eq, not_true_eq_false, ↓reduceIte, NodeConforms, List.head?_cons, true_and, false_and, or_false]
      by_cases h1 : (33 :: cs : Bytes) = b!"!float"
      · rw [if_pos h1]
        refine ⟨_, rfl, ?_⟩
        rw [h1]
        cases v <;> simp [OfType, vfloatf, vfloat, vint, Option.isSome_iff_exists]
      rw [if_neg h1]
      by_cases h2 : (33 :: cs : Bytes) = b!"!int"
      · rw [if_pos h2, h2]
        cases v <;> simp [IsScalar] at hv <;> simp [OfType, vintf, vintf.go, vint, hint]
      rw [if_neg h2]
      by_cases h3 : (33 :: cs : Bytes) = b!"!bool"
      · rw [if_pos h3, h3]
        refine ⟨_, rfl, ?_⟩
        cases v <;> simp [IsScalar] at hv <;> simp [OfType, vboolf, vboolf.go]
        · split
          · simp_all
          · split <;> simp_all
        · split
          · simp_all
          · split <;> simp_all
        · rename_i k i
          cases k <;> simp
      rw [if_neg h3]
      by_cases h4 : (33 :: cs : Bytes) = b!"!string"
      · rw [if_pos h4, h4]
        refine ⟨_, rfl, ?_⟩
        cases v <;> simp [IsScalar] at hv <;> simp [OfType, typeName]
        rename_i k i
        cases k <;> simp
      rw [if_neg h4, if_neg hb]
      exact ⟨false, rfl, by simp [OfType, h1, h2, h3, h4, hb]⟩
    · rw [if_pos h33]
      exact ⟨_, rfl, by simp [NodeConforms, h33]⟩

theorem getAt_node (v : Val) (xs : List Graph) (i : Nat) : (Graph.node v xs).getAt i = .ok (xs.getD i .nil) := by
  unfold Graph.getAt
  split
  · contradiction
  · rename_i h
    cases h
    split
    · rename_i h
      have : xs.length ≤ i := by omega
      simp [List.getD, List.getElem?_eq_none this]
    · simp

/-- The complaint `m` is about schema node `s` and the node `n`. -/
def Complains (E : Ext) (s n : Graph) (m : Bytes) : Prop :=
  m = b!"want " ++ s.thisString E ++ b!", got " ++ n.thisString E ∧
    (n = .nil ∨ ∃ v o, n = .node v o ∧ ¬ NodeConforms E (s.thisString E) v)

theorem scalarsL_get : ∀ {xs : List Graph} (i : Nat), ScalarsL xs → Scalars (xs.getD i .nil)
  | [], _, _ => by simp [Scalars]
  | x :: xs, 0, h => h.1
  | x :: xs, i + 1, h => by simpa using scalarsL_get i h.2

theorem nodeAt_cons (gs : List Graph) (i : Nat) (p : List Nat) (hp : p ≠ []) : nodeAt gs (i :: p) = nodeAt (gs.getD i .nil).out p := by
  cases p with
  | nil => exact absurd rfl hp
  | cons j p => rw [nodeAt]; simp

theorem nodeAt_one (gs : List Graph) (i : Nat) : nodeAt gs [i] = gs.getD i .nil := by rw [nodeAt]

mutual
theorem check_spec (E : Ext) : ∀ (s x : Graph), GoodSchema E s → Scalars x → x.isNil = false → ∃ b m, s.check E x = .ok (b, m) ∧
    (b = true ↔ ConformsL E s.out x.out) ∧ (b = true → m = []) ∧
    (b = false → ∃ p, p ≠ [] ∧ Complains E (nodeAt s.out p) (nodeAt x.out p) m)
  | .nil, _, h, _, _ => h.elim
  | _, .nil, _, _, hn => by simp at hn
  | .node c ss, .node v xs, h, hx, _ => by
    obtain ⟨b, m, h1, h2, h3, h4⟩ := checkFrom_spec E ss v xs 0 h.2.2 hx.2
    refine ⟨b, m, by simp [Graph.check, h1], by simpa using h2, h3, fun hb => ?_⟩
    obtain ⟨k, p, hc⟩ := h4 hb
    exact ⟨k :: p, by simp, by simpa using hc⟩
theorem checkFrom_spec (E : Ext) : ∀ (ss : List Graph) (v : Val) (xs : List Graph) (i : Nat), GoodSchemaL E ss → ScalarsL xs →
    ∃ b m, checkFrom E ss (.node v xs) i = .ok (b, m) ∧
    (b = true ↔ ConformsL E ss (xs.drop i)) ∧ (b = true → m = []) ∧
    (b = false → ∃ k p, Complains E (nodeAt ss (k :: p)) (nodeAt xs ((i + k) :: p)) m)
  | [], v, xs, i, _, _ => ⟨true, [], by simp [checkFrom], by simp [ConformsL], by simp, by simp⟩
  | .nil :: _, _, _, _, h, _ => h.1.elim
  | .node c o :: ss, v, xs, i, h, hx => by
    have hxs := scalarsL_get i hx
    generalize hg : xs.getD i .nil = nx at hxs
    have hget := getAt_node v xs i
    rw [hg] at hget
    match nx, hxs with
    | .nil, _ =>
      refine ⟨false, b!"want " ++ vstr E c ++ b!", got ", ?_, ?_, by simp, fun _ => ⟨0, [], ?_⟩⟩
      · simp [checkFrom, hget, checkNode, Graph.thisString]
      · simp only [Bool.false_eq_true, false_iff]
        cases hd : xs.drop i with
        | nil => simp [ConformsL]
        | cons y ys =>
          have : xs.getD i .nil = y := by
            have h0 := congrArg (fun l => l.getD 0 Graph.nil) hd
            simpa [List.getD] using h0
          rw [hg] at this
          subst this
          simp [ConformsL, Conforms]
      · rw [nodeAt_one, nodeAt_one, Nat.add_zero, hg]
        exact ⟨by simp [Graph.thisString], .inl rfl⟩
    | .node w ys, hxs =>
      have hd : xs.drop i = .node w ys :: xs.drop (i + 1) := by
        cases hd : xs.drop i with
        | nil =>
          have h0 := congrArg (fun l => l.getD 0 Graph.nil) hd
          have : xs.getD i .nil = .nil := by simpa [List.getD] using h0
          rw [hg] at this
          cases this
        | cons y zs =>
          have h0 := congrArg (fun l => l.getD 0 Graph.nil) hd
          have : xs.getD i .nil = y := by simpa [List.getD] using h0
          rw [hg] at this
          subst this
          have h1 := congrArg List.tail hd
          simp only [List.tail_drop, List.tail_cons] at h1
          rw [h1]
      obtain ⟨b, hb1, hb2⟩ := nodeConforms_iff E o ys hxs.1 h.1.1 h.1.2.1
      cases b with
      | false =>
        have hnot : ¬ NodeConforms E (vstr E c) w := fun hh => by simpa using hb2.2 hh
        refine ⟨false, b!"want " ++ vstr E c ++ b!", got " ++ vstr E w, ?_, ?_, by simp, fun _ => ⟨0, [], ?_⟩⟩
        · simp [checkFrom, hget, hb1, Graph.thisString]
        · simp [hd, ConformsL, Conforms, hnot]
        · rw [nodeAt_one, nodeAt_one, Nat.add_zero, hg]
          exact ⟨by simp [Graph.thisString], .inr ⟨w, ys, rfl, hnot⟩⟩
      | true =>
        have hyes := hb2.1 rfl
        obtain ⟨b1, m1, g1, g2, g3, g4⟩ := check_spec E (.node c o) (.node w ys) h.1 hxs rfl
        cases b1 with
        | false =>
          refine ⟨false, m1, ?_, ?_, by simp, fun _ => ?_⟩
          · simp [checkFrom, hget, hb1, g1]
          · have : ¬ ConformsL E o ys := fun hh => by simpa using g2.2 hh
            simp [hd, ConformsL, Conforms, this]
          · obtain ⟨p, hp, hc⟩ := g4 rfl
            refine ⟨0, p, ?_⟩
            rw [nodeAt_cons _ _ _ hp, nodeAt_cons _ _ _ hp, Nat.add_zero, hg]
            exact hc
        | true =>
          obtain ⟨b2, m2, k1, k2, k3, k4⟩ := checkFrom_spec E ss v xs (i + 1) h.2 hx
          refine ⟨b2, m2, ?_, ?_, k3, fun hb => ?_⟩
          · simp [checkFrom, hget, hb1, g1, k1]
          · rw [k2, hd]
            have := g2.1 rfl
            simp only [Graph.out_node] at this
            simp [ConformsL, Conforms, hyes, this]
          · obtain ⟨k, p, hc⟩ := k4 hb
            refine ⟨k + 1, p, ?_⟩
            have e : i + 1 + k = i + (k + 1) := by omega
            rw [e] at hc
            cases p with
            | nil => simpa [nodeAt] using hc
            | cons j p => simpa [nodeAt] using hc
end

/-- **C45** `Check` is true exactly if for each schema node there is a node at the same
position with the same text or a value of the declared type, recursively; if it is
false, the message names a schema node and the node at the same position, which is
absent or does not conform.  Partial: no schema node has an empty text or is
`!binary`, and the contents of the graph are scalars. -/
theorem C45_partial (E : Ext) (r v : Val) (ss xs : List Graph) (hs : GoodSchemaL E ss) (hx : ScalarsL xs) :
    ∃ b m, (Graph.node r ss).check E (.node v xs) = .ok (b, m) ∧ (b = true ↔ ConformsL E ss xs) ∧ (b = true → m = []) ∧
      (b = false → ∃ p, p ≠ [] ∧ Complains E (nodeAt ss p) (nodeAt xs p) m) := by
  obtain ⟨b, m, h1, h2, h3, h4⟩ := checkFrom_spec E ss v xs 0 hs hx
  refine ⟨b, m, by simp [Graph.check, h1], by simpa using h2, h3, fun hb => ?_⟩
  obtain ⟨k, p, hc⟩ := h4 hb
  exact ⟨k :: p, by simp, by simpa using hc⟩

/-- A schema with a name, types and nesting, a graph that conforms to it and one that
does not. -/
example (E : Ext) :
    let schema : List Graph := [.node (.str b!"a") [.node (.str b!"!int") []], .node (.str b!"!string") []]
    let x : List Graph := [.node (.str b!"a") [.node (.str b!"-12") [], .node (.bool true) []], .node (.str b!"s") []]
    let y : List Graph := [.node (.str b!"a") [.node (.str b!"-1x") []], .node (.str b!"s") []]
    GoodSchemaL E schema ∧ ScalarsL x ∧ ScalarsL y ∧ (Graph.node .nil schema).check E (.node .nil x) = .ok (true, []) ∧
      (Graph.node .nil schema).check E (.node .nil y) = .ok (false, b!"want !int, got -1x") := by
  have h1 : parseInt b!"-12" = some (-12) := by decide
  have h2 : parseInt b!"-1x" = none := by decide
  refine ⟨by simp [GoodSchemaL, GoodSchema, vstr], by simp [ScalarsL, Scalars, IsScalar], by simp [ScalarsL, Scalars, IsScalar], ?_, ?_⟩
  · simp [Graph.check, checkFrom, Graph.getAt, checkNode, thisType, typeName, vstr, vintf, vintf.go, h1]
  · simp [Graph.check, checkFrom, Graph.getAt, checkNode, thisType, typeName, vstr, vintf, vintf.go, h2, Graph.thisString]

/-- `!binary` accepts no binary value: the type is called `[]uint8`. -/
theorem C45_binary_refuted (E : Ext) (r v : Val) (b : Bytes) :
    OfType E b!"!binary" (.bytes b) ∧
    (Graph.node r [.node (.str b!"!binary") []]).check E (.node v [.node (.bytes b) []]) = .ok (false, b!"want !binary, got " ++ b) := by
  refine ⟨.inr (.inl ⟨rfl, b, rfl⟩), ?_⟩
  simp [Graph.check, checkFrom, Graph.getAt, checkNode, thisType, typeName, vstr, Graph.thisString]

/-- A schema node with an empty text, a node with a nil content and a nil graph make
`Check` panic. -/
theorem C45_panic_refuted (E : Ext) (r v : Val) (s : Graph) (ss : List Graph) (hn : s.isNil = false) :
    (Graph.node r [.node (.str []) []]).check E (.node v [.node (.str b!"a") []]) = .panic ∧
    (Graph.node r (s :: ss)).check E (.node v [.node .nil []]) = .panic ∧
    (Graph.node r (s :: ss)).check E .nil = .panic := by
  cases s with
  | nil => simp at hn
  | node c o =>
    refine ⟨?_, ?_, ?_⟩
    · simp [Graph.check, checkFrom, Graph.getAt, checkNode, thisType, typeName, vstr]
    · simp [Graph.check, checkFrom, Graph.getAt, checkNode, thisType]
    · simp [Graph.check, checkFrom, Graph.getAt]

end Ogdl
