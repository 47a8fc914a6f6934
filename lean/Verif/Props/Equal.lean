import Verif.Spec.Equal
import Verif.Model.Graph

/-!
# C22: Equals on graphs with any contents

`C22_refuted` has contents that cannot be compared.  Here is when `Equals` returns true, whatever the contents.
-/

namespace Ogdl
open Spec Spec.Equal

namespace EqualL

theorem itfEq_same (E : Ext) (a b : Val) : itfEq E a b = .ok true ↔ Same E a b := by
  cases a <;> cases b <;> simp [itfEq, Same]
  case other x y => cases h : E.otherEq x y <;> simp

theorem alike_length {R : Val → Val → Prop} : ∀ {a b : List Graph}, AlikeL R a b → a.length = b.length
  | [], [], _ => rfl
  | [], _ :: _, h => by simp [AlikeL] at h
  | _ :: _, [], h => by simp [AlikeL] at h
  | _ :: _, _ :: _, h => by
    simp only [AlikeL] at h
    simp [alike_length h.2]

mutual
theorem equals_alike (E : Ext) : ∀ a b : Graph, a.equals E b = .ok true ↔ Alike (fun x y => Same E y x) a b
  | .nil, b => by simp [Graph.equals, Alike]
  | .node _ _, .nil => by simp [Graph.equals, Alike]
  | .node t o, .node t' o' => by
    rw [Graph.equals, Alike, ← itfEq_same]
    cases h : itfEq E t' t with
    | panic => simp
    | oof => simp
    | ok r =>
      cases r with
      | false => simp
      | true =>
        by_cases hl : o.length = o'.length
        · simp [hl, equalsList_alike E o o' hl]
        · simp only [Res.ok_bind, Bool.not_true, Bool.false_eq_true, if_false]
          simp only [bne_iff_ne, ne_eq, hl, not_false_eq_true, if_true, true_and]
          constructor
          · simp
          · intro h; exact absurd (alike_length h) hl
theorem equalsList_alike (E : Ext) : ∀ a b : List Graph, a.length = b.length →
    (Graph.equalsList E a b = .ok true ↔ AlikeL (fun x y => Same E y x) a b)
  | [], [], _ => by simp [Graph.equalsList, AlikeL]
  | [], _ :: _, h => by simp at h
  | _ :: _, [], h => by simp at h
  | g :: a, c :: b, h => by
    have h1 := equals_alike E g c
    have h2 := equalsList_alike E a b (by simpa using h)
    rw [Graph.equalsList, AlikeL, ← h1, ← h2]
    cases hg : g.equals E c with
    | panic => simp
    | oof => simp
    | ok r => cases r <;> simp
end

mutual
theorem alike_symm {R S : Val → Val → Prop} (hR : ∀ x y, R x y → S y x) : ∀ {a b : Graph}, Alike R a b → Alike S b a
  | .nil, _, h => by simp [Alike] at h
  | .node _ _, .nil, h => by simp [Alike] at h
  | .node _ _, .node _ _, h => ⟨hR _ _ h.1, alikeL_symm hR h.2⟩
theorem alikeL_symm {R S : Val → Val → Prop} (hR : ∀ x y, R x y → S y x) : ∀ {a b : List Graph}, AlikeL R a b → AlikeL S b a
  | [], [], _ => trivial
  | [], _ :: _, h => by simp [AlikeL] at h
  | _ :: _, [], h => by simp [AlikeL] at h
  | _ :: _, _ :: _, h => ⟨alike_symm hR h.1, alikeL_symm hR h.2⟩
end

mutual
theorem alike_trans {R : Val → Val → Prop} (hR : ∀ x y z, R x y → R y z → R x z) : ∀ {a b c : Graph}, Alike R a b → Alike R b c → Alike R a c
  | .nil, _, _, h, _ => by simp [Alike] at h
  | .node _ _, .nil, _, h, _ => by simp [Alike] at h
  | .node _ _, .node _ _, .nil, _, h => by simp [Alike] at h
  | .node _ _, .node _ _, .node _ _, h, k => ⟨hR _ _ _ h.1 k.1, alikeL_trans hR h.2 k.2⟩
theorem alikeL_trans {R : Val → Val → Prop} (hR : ∀ x y z, R x y → R y z → R x z) : ∀ {a b c : List Graph}, AlikeL R a b → AlikeL R b c → AlikeL R a c
  | [], [], [], _, _ => trivial
  | [], _ :: _, _, h, _ => by simp [AlikeL] at h
  | _ :: _, [], _, h, _ => by simp [AlikeL] at h
  | [], [], _ :: _, _, h => by simp [AlikeL] at h
  | _ :: _, _ :: _, [], _, h => by simp [AlikeL] at h
  | _ :: _, _ :: _, _ :: _, h, k => ⟨alike_trans hR h.1 k.1, alikeL_trans hR h.2 k.2⟩
end

mutual
theorem alike_refl {R : Val → Val → Prop} : ∀ {a : Graph}, NoNil a → AllThis (fun v => R v v) a → Alike R a a
  | .nil, h, _ => by simp [NoNil] at h
  | .node _ _, h, k => ⟨k.1, alikeL_refl h k.2⟩
theorem alikeL_refl {R : Val → Val → Prop} : ∀ {a : List Graph}, NoNilL a → AllThisL (fun v => R v v) a → AlikeL R a a
  | [], _, _ => trivial
  | _ :: _, h, k => ⟨alike_refl h.1 k.1, alikeL_refl h.2 k.2⟩
end

theorem same_symm {E : Ext} (hE : Laws E) (x y : Val) (h : Same E x y) : Same E y x := by
  cases x <;> cases y <;> simp only [Same] at h ⊢
  · exact h.symm
  · exact h.symm
  · exact ⟨h.1.symm, h.2.symm⟩
  · exact hE.fsymm _ _ h
  · exact hE.fsymm _ _ h
  · exact hE.psymm _ _ h
  · exact hE.osymm _ _ h

theorem same_trans {E : Ext} (hE : Laws E) (x y z : Val) (h : Same E x y) (k : Same E y z) : Same E x z := by
  cases x <;> cases y <;> simp only [Same] at h <;> cases z <;> simp only [Same] at k ⊢
  · exact h.trans k
  · exact h.trans k
  · exact ⟨h.1.trans k.1, h.2.trans k.2⟩
  · exact hE.ftrans _ _ _ h k
  · exact hE.ftrans _ _ _ h k
  · exact hE.ptrans _ _ _ h k
  · exact hE.otrans _ _ _ h k

theorem itfEq_comparable {E : Ext} {v : Val} (h : Comparable E v) (w : Val) : ∃ r, itfEq E w v = .ok r := by
  cases w <;> cases v <;> simp [itfEq, Comparable] at h ⊢
  case other x y =>
    cases k : E.otherEq x y with
    | none => exact absurd k (h x)
    | some r => cases r <;> simp

mutual
theorem equals_returns (E : Ext) : ∀ a b : Graph, NoNil a → NoNil b → AllThis (Comparable E) a → ∃ r, a.equals E b = .ok r
  | .nil, _, h, _, _ => by simp [NoNil] at h
  | .node _ _, .nil, _, h, _ => by simp [NoNil] at h
  | .node t o, .node t' o', ha, hb, hp => by
    obtain ⟨r, hr⟩ := itfEq_comparable hp.1 t'
    obtain ⟨q, hq⟩ := equalsList_returns E o o' ha hb hp.2
    simp only [Graph.equals, hr, Res.ok_bind, hq]
    cases r
    · exact ⟨false, by simp⟩
    · by_cases hl : o.length = o'.length
      · exact ⟨q, by simp [hl]⟩
      · exact ⟨false, by simp [hl]⟩
theorem equalsList_returns (E : Ext) : ∀ a b : List Graph, NoNilL a → NoNilL b → AllThisL (Comparable E) a → ∃ r, Graph.equalsList E a b = .ok r
  | [], _, _, _, _ => ⟨true, by simp [Graph.equalsList]⟩
  | _ :: _, [], _, _, _ => ⟨true, by simp [Graph.equalsList]⟩
  | g :: a, c :: b, ha, hb, hp => by
    obtain ⟨r, hr⟩ := equals_returns E g c ha.1 hb.1 hp.1
    obtain ⟨q, hq⟩ := equalsList_returns E a b ha.2 hb.2 hp.2
    simp only [Graph.equalsList, hr, Res.ok_bind, hq]
    cases r
    · exact ⟨false, by simp⟩
    · exact ⟨q, by simp⟩
end

end EqualL

open EqualL

/-- **C22**: for all graphs, `Equals` returns true exactly if the trees have the same shape and, at every place,
contents that are equal in Go. -/
theorem C22_exact (E : Ext) (a b : Graph) : a.equals E b = .ok true ↔ Alike (fun x y => Same E y x) a b :=
  equals_alike E a b

/-- **C22**: `Equals` is symmetric and transitive on all graphs, and true of a graph and itself if its contents
are equal to themselves, which `[]byte` and NaN are not. -/
theorem C22_equivalence (E : Ext) (hE : Laws E) :
    (∀ a, NoNil a → AllThis (fun v => Same E v v) a → a.equals E a = .ok true) ∧
    (∀ a b : Graph, a.equals E b = .ok true → b.equals E a = .ok true) ∧
    (∀ a b c : Graph, a.equals E b = .ok true → b.equals E c = .ok true → a.equals E c = .ok true) := by
  simp only [equals_alike]
  refine ⟨fun a h k => alike_refl h k, fun a b h => alike_symm (fun x y h => same_symm hE _ _ h) h,
    fun a b c h k => alike_trans (R := fun x y => Same E y x) (fun x y z h k => same_trans hE z y x k h) h k⟩

/-- **C22**: `Equals` returns if no content of the receiver is a `[]byte` or another value that cannot be compared,
whatever is in the other graph. -/
theorem C22_returns (E : Ext) (a b : Graph) (ha : NoNil a) (hb : NoNil b) (hc : AllThis (Comparable E) a) : ∃ r, a.equals E b = .ok r :=
  equals_returns E a b ha hb hc

/-- A graph with a float in it, under the laws: it equals itself if the float does. -/
example (E : Ext) (_ : Laws E) (f : UInt64) (hf : E.feq f f = true) :
    (Graph.node (.str b!"a") [.node (.f64 f) [], .node .nil [.node (.bool true) []]]).equals E
      (.node (.str b!"a") [.node (.f64 f) [], .node .nil [.node (.bool true) []]]) = .ok true := by
  refine (C22_exact E _ _).2 ?_
  simp [Alike, AlikeL, Same, hf]

/-- The laws can be met, also by floats of which some are not equal to themselves. -/
example (E : Ext) : ∃ E' : Ext, Laws E' ∧ E'.feq 1 1 = false ∧ E'.feq 2 2 = true := by
  refine ⟨{ E with feq := fun a b => a == b && a != 1, ptrEq := fun _ _ => false, otherEq := fun a b => some (a == b) }, ?_, rfl, rfl⟩
  constructor
  · intro a b h; simp at h ⊢; obtain ⟨rfl, h⟩ := h; exact ⟨rfl, h⟩
  · intro a b c h k; simp at h k ⊢; obtain ⟨rfl, h⟩ := h; exact k
  · intro a b h; simp at h
  · intro a b c h; simp at h
  · intro a b h; simp at h ⊢; exact h.symm
  · intro a b c h k; simp at h k ⊢; exact h.trans k

end Ogdl
