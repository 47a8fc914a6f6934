import Verif.Model.Graph
import Verif.Spec.Tree

/-!
# C22, C23, C25-C29, C31, C47: operations of graph.go and gettypes.go on trees
-/

namespace Ogdl
open Spec

namespace Spec

/-- Contents that Go compares by value with `==` without further conditions: nil,
strings, booleans and integers. -/
def Plain : Val → Prop
  | .nil | .str _ | .bool _ | .int _ _ => True
  | _ => False

/-- The text of a node, as `_string` prints it, is `s`. -/
def HasText (E : Ext) (s : Bytes) : Graph → Prop
  | .nil => False
  | .node t _ => vstr E t = s

end Spec

section
variable (E : Ext)

/-! ## C22: Equals -/

theorem itfEq_plain {a b : Val} (h : Plain b) : ∃ r, itfEq E a b = .ok r ∧ (r = true ↔ a = b) := by
  cases b <;> simp [Plain] at h <;> cases a <;> simp [itfEq]

theorem itfEq_plain' {a b : Val} (h : Plain a) : ∃ r, itfEq E a b = .ok r ∧ (r = true ↔ a = b) := by
  cases a <;> simp [Plain] at h <;> cases b <;> simp [itfEq]

mutual
theorem equals_iff : ∀ a b : Graph, NoNil a → NoNil b → AllThis Plain a →
    ∃ r, a.equals E b = .ok r ∧ (r = true ↔ a = b)
  | .nil, _, h, _, _ => by simp [NoNil] at h
  | .node _ _, .nil, _, h, _ => by simp [NoNil] at h
  | .node t o, .node t' o', ha, hb, hp => by
    simp only [NoNil] at ha hb
    simp only [AllThis] at hp
    obtain ⟨r, e, hr⟩ := itfEq_plain E (a := t') hp.1
    simp only [Graph.equals, e, Res.ok_bind]
    cases r with
    | false =>
      refine ⟨false, rfl, ?_⟩
      simp at hr ⊢
      intro h; exact absurd h.symm hr
    | true =>
      simp at hr
      subst hr
      by_cases hl : o.length = o'.length
      · obtain ⟨r2, e2, h2⟩ := equalsList_iff o o' ha hb hp.2 hl
        refine ⟨r2, by simp [hl, e2], by simp [h2]⟩
      · refine ⟨false, by simp [hl], ?_⟩
        simp
        rintro rfl; exact hl rfl
theorem equalsList_iff : ∀ a b : List Graph, NoNilL a → NoNilL b → AllThisL Plain a →
    a.length = b.length → ∃ r, Graph.equalsList E a b = .ok r ∧ (r = true ↔ a = b)
  | [], [], _, _, _, _ => ⟨true, by simp [Graph.equalsList], by simp⟩
  | [], _ :: _, _, _, _, h => by simp at h
  | _ :: _, [], _, _, _, h => by simp at h
  | g :: a, c :: b, ha, hb, hp, hl => by
    simp only [NoNilL] at ha hb
    simp only [AllThisL] at hp
    obtain ⟨r, e, hr⟩ := equals_iff g c ha.1 hb.1 hp.1
    simp only [Graph.equalsList, e, Res.ok_bind]
    cases r with
    | false =>
      refine ⟨false, rfl, ?_⟩
      simp at hr ⊢
      intro h; exact absurd h hr
    | true =>
      simp at hr
      subst hr
      obtain ⟨r2, e2, h2⟩ := equalsList_iff a b ha.2 hb.2 hp.2 (by simpa using hl)
      exact ⟨r2, by simp [e2], by simp [h2]⟩
end

/-- **C22 (part).** On graphs of plain contents (nil, string, bool, integers) without
nil pointers `Equals` returns, and is true exactly when the two ordered trees are
identical.  Missing: `[]byte` contents, for which it panics (`C22_refuted`), and
floats and pointers, whose `==` is the platform's. -/
theorem C22_equals_same_tree_partial (a b : Graph) (ha : NoNil a) (hb : NoNil b)
    (hp : AllThis Plain a) : ∃ r, a.equals E b = .ok r ∧ (r = true ↔ a = b) :=
  equals_iff E a b ha hb hp

/-- **C22 (part).** So it is reflexive, symmetric and transitive there. -/
theorem C22_equivalence_partial :
    (∀ a, NoNil a → AllThis Plain a → a.equals E a = .ok true) ∧
    (∀ a b, NoNil a → NoNil b → AllThis Plain a → AllThis Plain b →
      a.equals E b = .ok true → b.equals E a = .ok true) ∧
    (∀ a b c, NoNil a → NoNil b → NoNil c → AllThis Plain a → AllThis Plain b →
      a.equals E b = .ok true → b.equals E c = .ok true → a.equals E c = .ok true) := by
  have key : ∀ a b, NoNil a → NoNil b → AllThis Plain a → (a.equals E b = .ok true ↔ a = b) := by
    intro a b ha hb hp
    obtain ⟨r, e, h⟩ := equals_iff E a b ha hb hp
    rw [e, ← h]; simp
  refine ⟨fun a ha hp => (key a a ha ha hp).2 rfl, ?_, ?_⟩
  · intro a b ha hb hpa hpb h
    exact (key b a hb ha hpb).2 ((key a b ha hb hpa).1 h).symm
  · intro a b c ha hb hc hpa hpb h1 h2
    exact (key a c ha hc hpa).2 (((key a b ha hb hpa).1 h1).trans ((key b c hb hc hpb).1 h2))

/-- **C22 refuted** for binary contents: a graph holding a `[]byte` does not equal
itself, `Equals` panics; and `Equals(nil)` panics. -/
theorem C22_refuted :
    (Graph.node (.bytes [1]) []).equals E (.node (.bytes [1]) []) = .panic ∧
    (Graph.node (.str b!"a") []).equals E .nil = .panic := by
  constructor <;> simp [Graph.equals, itfEq]

/-- Trees with several nodes meet the hypotheses of C22. -/
example : NoNil (.node (.str b!"_") [.node (.int .int 3) [.node (.bool true) []], .node .nil []]) ∧
    AllThis Plain (.node (.str b!"_") [.node (.int .int 3) [.node (.bool true) []], .node .nil []]) := by
  simp [NoNil, NoNilL, AllThis, AllThisL, Plain]

/-! ## C23: Clone and Copy -/

mutual
theorem clone_eq : ∀ g : Graph, g.clone = g
  | .nil => by simp [Graph.clone]
  | .node t o => by simp [Graph.clone, cloneList_eq o]
theorem cloneList_eq : ∀ gs : List Graph, Graph.cloneList gs = gs
  | [] => by simp [Graph.cloneList]
  | g :: gs => by simp [Graph.cloneList, clone_eq g, cloneList_eq gs]
end

/-- Contents that `Copy` reproduces: not nil and not themselves graphs. -/
def Copyable : Val → Prop
  | .nil | .graph _ => False
  | _ => True

mutual
theorem copyList_eq : ∀ gs : List Graph, NoNilL gs → AllThisL Copyable gs →
    Graph.copyList gs = .ok gs
  | [], _, _ => by simp [Graph.copyList]
  | .nil :: _, h, _ => by simp [NoNilL, NoNil] at h
  | .node t o :: gs, h, hp => by
    simp only [NoNilL, NoNil] at h
    simp only [AllThisL, AllThis] at hp
    have ht := hp.1.1
    cases t <;> simp [Copyable] at ht <;>
      simp only [Graph.copyList, copyList_eq o h.1 hp.1.2, copyList_eq gs h.2 hp.2, Res.ok_bind, addedNode, List.nil_append]
end

/-- **C23.** `Clone` yields the same tree, for every graph. -/
theorem C23_clone_same (g : Graph) : g.clone = g := clone_eq g

/-- **C23.** so a clone of a graph with plain contents `Equals` it. -/
theorem C23_clone_equals (g : Graph) (h : NoNil g) (hp : AllThis Plain g) :
    g.clone.equals E g = .ok true := by
  obtain ⟨r, e, hr⟩ := equals_iff E g g h h hp
  rw [clone_eq, e, hr.2 rfl]

/-- **C23 (part).** Copying a graph appends all its subnodes, in order and with
everything below them, to the receiver.  Missing: nodes with nil content, which are
dropped together with their subtrees (`C23_copy_refuted`), and contents that are
graphs themselves. -/
theorem C23_copy_partial (t t' : Val) (o o' : List Graph) (h : NoNilL o') (hp : AllThisL Copyable o') :
    (Graph.node t o).copy (.node t' o') = .ok (.node t (o ++ o')) := by
  simp [Graph.copy, copyList_eq o' h hp]

/-- **C23 refuted** for `Copy`: a subnode with nil content and all below it is lost. -/
theorem C23_copy_refuted :
    (Graph.node .nil []).copy (.node .nil [.node .nil [.node (.str b!"a") []]]) =
      .ok (.node .nil []) := by
  simp [Graph.copy, Graph.copyList]

/-! ## C25: Delete -/

theorem deleteLoop_eq (n : Val) (hn : Plain n) : ∀ (f i : Nat) (o : List Graph), NoNilL o →
    o.length < i + f → i ≤ o.length →
    ∃ o', deleteLoop E n f i o = .ok (o.take i ++ o') ∧
      (∀ p : Graph → Bool, (∀ g, p g = true ↔ g.this ≠ n) → o' = (o.drop i).filter p)
  | 0, i, o, _, hf, hi => by omega
  | f + 1, i, o, hnn, hf, hi => by
    simp only [deleteLoop]
    cases hg : o[i]? with
    | none =>
      have : o.length ≤ i := by
        simpa using hg
      refine ⟨[], ?_, ?_⟩
      · simp [List.take_of_length_le this]
      · intro p _; rw [List.drop_of_length_le this]; rfl
    | some g =>
      have hlt : i < o.length := by
        rcases Nat.lt_or_ge i o.length with h | h
        · exact h
        · simp [List.getElem?_eq_none h] at hg
      have hgi : o[i] = g := by rw [List.getElem?_eq_getElem hlt] at hg; simpa using hg
      have hmem : ∀ (l : List Graph), NoNilL l → ∀ x ∈ l, NoNil x := by
        intro l
        induction l with
        | nil => intro _ x hx; simp at hx
        | cons a l ih =>
          intro h x hx
          simp only [NoNilL] at h
          rcases List.mem_cons.mp hx with rfl | hx
          · exact h.1
          · exact ih h.2 x hx
      have hof : ∀ (l : List Graph), (∀ x ∈ l, NoNil x) → NoNilL l := by
        intro l
        induction l with
        | nil => intro _; trivial
        | cons a l ih =>
          intro h
          exact ⟨h a (by simp), ih fun x hx => h x (by simp [hx])⟩
      cases g with
      | nil =>
        have := hmem o hnn o[i] (List.getElem_mem hlt)
        rw [hgi] at this; simp [NoNil] at this
      | node t oo =>
        obtain ⟨r, e, hr⟩ := itfEq_plain E (a := t) hn
        simp only [e, Res.ok_bind]
        have hdrop : o.drop i = .node t oo :: o.drop (i + 1) := by
          rw [← hgi, List.getElem_cons_drop]
        cases r with
        | true =>
          simp only [↓reduceIte]
          have ht : t = n := hr.1 rfl
          obtain ⟨o', e', h'⟩ := deleteLoop_eq n hn f i (o.eraseIdx i)
            (hof _ fun x hx => hmem o hnn x (List.mem_of_mem_eraseIdx hx))
            (by rw [List.length_eraseIdx_of_lt hlt]; omega)
            (by rw [List.length_eraseIdx_of_lt hlt]; omega)
          refine ⟨o', ?_, ?_⟩
          · rw [e', List.eraseIdx_eq_take_drop_succ, List.take_append]
            have : (o.take i).length = i := by simp; omega
            simp [this, List.take_take]
          · intro p hp
            rw [h' p hp, hdrop, List.filter_cons]
            have : ¬ (p (.node t oo) = true) := by rw [hp]; simp [ht]
            simp only [this]
            congr 1
            rw [List.eraseIdx_eq_take_drop_succ, List.drop_append]
            have : (o.take i).length = i := by simp; omega
            simp [this]
        | false =>
          simp only [Bool.false_eq_true, ↓reduceIte]
          have ht : t ≠ n := by intro h; simp [h] at hr
          obtain ⟨o', e', h'⟩ := deleteLoop_eq n hn f (i + 1) o hnn (by omega) (by omega)
          refine ⟨.node t oo :: o', ?_, ?_⟩
          · rw [e', List.take_add_one, hg]; simp
          · intro p hp
            rw [h' p hp, hdrop, List.filter_cons]
            have : p (.node t oo) = true := by rw [hp]; exact ht
            simp [this]

/-- **C25 (part).** `Delete(n)` with a plain `n` removes exactly the direct subnodes
whose content is `n`; all others stay, in order and unchanged.  Missing: `[]byte`
values on both sides, where the comparison panics (`C25_refuted`). -/
theorem C25_delete_partial (t n : Val) (o : List Graph) (hn : Plain n) (ho : NoNilL o)
    (p : Graph → Bool) (hp : ∀ g, p g = true ↔ g.this ≠ n) :
    (Graph.node t o).delete E n = .ok (.node t (o.filter p)) := by
  obtain ⟨o', e, h⟩ := deleteLoop_eq E n hn (o.length + 1) 0 o ho (by omega) (by omega)
  simp only [Graph.delete, e, Res.ok_bind, h p hp]
  simp

/-- **C25 refuted** for binary contents. -/
theorem C25_refuted : (Graph.node .nil [.node (.bytes [1]) []]).delete E (.bytes [1]) = .panic := by
  simp [Graph.delete, deleteLoop, itfEq]

/-- An instance of C25 that removes two of three subnodes. -/
example : (Graph.node .nil [.node (.str b!"a") [], .node (.str b!"b") [], .node (.str b!"a") []]).delete E
    (.str b!"a") = .ok (.node .nil [.node (.str b!"b") []]) := by
  simp [Graph.delete, deleteLoop, itfEq]

/-! ## C26: positional operations -/

/-- Calls that work on the list of subnodes. -/
inductive ListOp where
  | add (v : Val)
  | addNodes (g : Graph)
  | deleteAt (i : Int)
  | clear

/-- Run one call on a graph. -/
def ListOp.run (g : Graph) : ListOp → Graph
  | .add v => (g.add v).1
  | .addNodes h => g.addNodes h
  | .deleteAt i => g.deleteAt i
  | .clear => g.clear

namespace Spec
/-- What the call means on the plain list of subnodes. -/
def listStep (l : List Graph) : ListOp → List Graph
  | .add .nil => l
  | .add (.graph (.node t o)) => l ++ [.node t o]
  | .add v => l ++ [.node v []]
  | .addNodes .nil => l
  | .addNodes (.node _ o) => l ++ o
  | .deleteAt i => if 0 ≤ i then l.eraseIdx i.toNat else l
  | .clear => []
end Spec

theorem listOp_run (t : Val) (l : List Graph) (op : ListOp) :
    op.run (.node t l) = .node t (Spec.listStep l op) := by
  cases op with
  | add v =>
    cases v with
    | nil => simp [ListOp.run, Graph.add, Spec.listStep]
    | graph g => cases g <;> simp [ListOp.run, Graph.add, Spec.listStep, addedNode]
    | _ => simp [ListOp.run, Graph.add, Spec.listStep, addedNode]
  | addNodes g => cases g <;> simp [ListOp.run, Graph.addNodes, Spec.listStep]
  | deleteAt i =>
    simp only [ListOp.run, Graph.deleteAt, Spec.listStep]
    by_cases h : 0 ≤ i
    · by_cases h2 : i < l.length
      · have : ¬ (i < 0 ∨ i ≥ l.length) := by omega
        simp [h, this]
      · have : (i < 0 ∨ i ≥ l.length) := by omega
        simp only [this, ↓reduceIte, h]
        rw [List.eraseIdx_of_length_le (by omega)]
    · have : (i < 0 ∨ i ≥ l.length) := by omega
      simp [this, h]
  | clear => simp [ListOp.run, Graph.clear, Spec.listStep]

/-- **C26.** After any history of Add, AddNodes, DeleteAt and Clear calls on a
non-nil graph, its subnodes are the list obtained by the corresponding list
operations, `Len` is its length, and `GetAt(i)` is its `i`-th element or nil. -/
theorem C26_list_operations (t : Val) (l : List Graph) (ops : List ListOp) :
    let g := ops.foldl ListOp.run (.node t l)
    let l' := ops.foldl Spec.listStep l
    g = .node t l' ∧ g.len = l'.length ∧
      ∀ i : Int, g.getAt i = .ok (if 0 ≤ i then l'.getD i.toNat .nil else .nil) := by
  intro g l'
  have hg : g = .node t l' := by
    simp only [g, l']
    clear g l'
    induction ops generalizing l with
    | nil => rfl
    | cons op ops ih => simp only [List.foldl_cons, listOp_run]; exact ih _
  refine ⟨hg, by rw [hg]; rfl, fun i => ?_⟩
  rw [hg]
  simp only [Graph.getAt]
  by_cases h : 0 ≤ i
  · by_cases h2 : i < l'.length
    · have : ¬ (i ≥ l'.length ∨ i < 0) := by omega
      simp [h, this]
    · have : (i ≥ l'.length ∨ i < 0) := by omega
      simp only [this, ↓reduceIte, h]
      rw [List.getD_eq_getElem?_getD, List.getElem?_eq_none (by omega)]; rfl
  · have : (i ≥ l'.length ∨ i < 0) := by omega
    simp [this, h]

/-- On nil: Len is -1, Add, AddNodes, DeleteAt and Clear do nothing; GetAt panics. -/
theorem C26_nil_receiver (v : Val) (g : Graph) (i : Int) :
    Graph.nil.len = -1 ∧ (Graph.nil.add v).1 = .nil ∧ Graph.nil.addNodes g = .nil ∧
      Graph.nil.deleteAt i = .nil ∧ Graph.nil.clear = .nil ∧ Graph.nil.getAt i = .panic := by
  simp [Graph.len, Graph.add, Graph.addNodes, Graph.deleteAt, Graph.clear, Graph.getAt]

/-! ## C27: lookups by name -/

/-- `l` splits at its first element with text `s`. -/
def Spec.FirstNamed (s : Bytes) (l pre : List Graph) (x : Graph) (post : List Graph) : Prop :=
  l = pre ++ x :: post ∧ Spec.HasText E s x ∧ ∀ y ∈ pre, ¬ Spec.HasText E s y

theorem firstNamed_or_none (s : Bytes) : ∀ l : List Graph, NoNilL l →
    (∃ pre x post, Spec.FirstNamed E s l pre x post) ∨ ∀ y ∈ l, ¬ Spec.HasText E s y
  | [], _ => .inr (by simp)
  | .nil :: _, h => by simp [NoNilL, NoNil] at h
  | .node t o :: l, h => by
    simp only [NoNilL] at h
    by_cases ht : vstr E t = s
    · exact .inl ⟨[], .node t o, l, rfl, ht, by simp⟩
    · rcases firstNamed_or_none s l h.2 with ⟨pre, x, post, h1, h2, h3⟩ | hn
      · refine .inl ⟨.node t o :: pre, x, post, by simp [h1], h2, ?_⟩
        intro y hy
        rcases List.mem_cons.mp hy with rfl | hy
        · exact ht
        · exact h3 y hy
      · refine .inr ?_
        intro y hy
        rcases List.mem_cons.mp hy with rfl | hy
        · exact ht
        · exact hn y hy

theorem findName_pre {s : Bytes} {x : Graph} {post : List Graph} (hx : Spec.HasText E s x) :
    ∀ pre : List Graph, NoNilL pre → (∀ y ∈ pre, ¬ Spec.HasText E s y) →
      findName E s (pre ++ x :: post) = .ok (some pre.length)
  | [], _, _ => by
    cases x with
    | nil => simp [Spec.HasText] at hx
    | node t o => simp [Spec.HasText] at hx; simp [findName, hx]
  | .nil :: _, h, _ => by simp [NoNilL, NoNil] at h
  | .node t o :: pre, h, hp => by
    simp only [NoNilL] at h
    have ht : ¬ s = vstr E t := fun e => hp (.node t o) (by simp) e.symm
    simp only [List.cons_append, findName, ht, ↓reduceIte]
    rw [findName_pre hx pre h.2 fun y hy => hp y (by simp [hy])]
    simp

theorem findName_none {s : Bytes} : ∀ l : List Graph, NoNilL l →
    (∀ y ∈ l, ¬ Spec.HasText E s y) → findName E s l = .ok none
  | [], _, _ => rfl
  | .nil :: _, h, _ => by simp [NoNilL, NoNil] at h
  | .node t o :: l, h, hp => by
    simp only [NoNilL] at h
    have ht : ¬ s = vstr E t := fun e => hp (.node t o) (by simp) e.symm
    simp only [findName, ht, ↓reduceIte]
    rw [findName_none l h.2 fun y hy => hp y (by simp [hy])]
    rfl

theorem nodeLoop_pre {s : Bytes} {x : Graph} {post : List Graph} (hx : Spec.HasText E s x) :
    ∀ pre : List Graph, NoNilL pre → (∀ y ∈ pre, ¬ Spec.HasText E s y) →
      nodeLoop E s (pre ++ x :: post) = .ok x
  | [], _, _ => by
    cases x with
    | nil => simp [Spec.HasText] at hx
    | node t o => simp [Spec.HasText] at hx; simp [nodeLoop, hx]
  | .nil :: _, h, _ => by simp [NoNilL, NoNil] at h
  | .node t o :: pre, h, hp => by
    simp only [NoNilL] at h
    have ht : ¬ s = vstr E t := fun e => hp (.node t o) (by simp) e.symm
    simp only [List.cons_append, nodeLoop, ht, ↓reduceIte]
    exact nodeLoop_pre hx pre h.2 fun y hy => hp y (by simp [hy])

theorem nodeLoop_none {s : Bytes} : ∀ l : List Graph, NoNilL l →
    (∀ y ∈ l, ¬ Spec.HasText E s y) → nodeLoop E s l = .ok .nil
  | [], _, _ => rfl
  | .nil :: _, h, _ => by simp [NoNilL, NoNil] at h
  | .node t o :: l, h, hp => by
    simp only [NoNilL] at h
    have ht : ¬ s = vstr E t := fun e => hp (.node t o) (by simp) e.symm
    simp only [nodeLoop, ht, ↓reduceIte]
    exact nodeLoop_none l h.2 fun y hy => hp y (by simp [hy])

theorem noNilL_prefix : ∀ {a b : List Graph}, NoNilL (a ++ b) → NoNilL a
  | [], _, _ => trivial
  | _ :: a, b, h => by
    simp only [List.cons_append, NoNilL] at h ⊢
    exact ⟨h.1, noNilL_prefix (a := a) (b := b) h.2⟩

/-- What a value leaves below the node it is set in: nothing if it is nil, the graph if it is one,
and a node with the value otherwise. -/
def Spec.placed : Val → List Graph
  | .nil => []
  | .graph (.node t o) => [.node t o]
  | v => [.node v []]

/-- **C27.** If some direct subnode reads `s`, then with `x` the first such one:
`Node(s)` returns it, `NodeOrNew(s)` returns it and changes nothing, `Create(s)`
empties it and changes nothing else, `NodeSet(s, v)` leaves it with
`v` as its only subnode and changes nothing else. -/
theorem C27_found (t : Val) (l pre post : List Graph) (tx : Val) (ox : List Graph) (s : Bytes)
    (v : Val) (hn : NoNilL l) (hx : Spec.FirstNamed E s l pre (.node tx ox) post) :
    (Graph.node t l).nodeNamed E s = .ok (.node tx ox) ∧
    (Graph.node t l).nodeOrNew E s = .ok (.node t l, .node tx ox) ∧
    (Graph.node t l).create E s = .ok (.node t (pre ++ .node tx [] :: post), .node tx []) ∧
    (Graph.node t l).nodeSet E s v = .ok (.node t (pre ++ .node tx (Spec.placed v) :: post)) := by
  obtain ⟨rfl, h2, h3⟩ := hx
  have hp := noNilL_prefix hn
  have hnode := nodeLoop_pre E (post := post) h2 pre hp h3
  have hfind := findName_pre E (post := post) h2 pre hp h3
  have hmod : ∀ f : Graph → Graph, (pre ++ Graph.node tx ox :: post).modify pre.length f =
      pre ++ f (.node tx ox) :: post := by
    intro f
    rw [List.modify_eq_take_cons_drop (by simp)]
    simp
  refine ⟨by simp [Graph.nodeNamed, hnode], by simp [Graph.nodeOrNew, Graph.nodeNamed, hnode], ?_, ?_⟩
  · simp only [Graph.create, hfind, Res.ok_bind, hmod]
    simp [Graph.clear]
  · simp only [Graph.nodeSet, hfind, Res.ok_bind, hmod]
    cases v with
    | graph g => cases g <;> simp [Graph.clear, Graph.add, addedNode, Spec.placed]
    | _ => simp [Graph.clear, Graph.add, addedNode, Spec.placed]

/-- **C27.** If no direct subnode reads `s`: `Node(s)` is nil, `NodeOrNew(s)` and
`Create(s)` append one empty node `s`, `NodeSet(s, v)` appends `s` over `v`. -/
theorem C27_not_found (t : Val) (l : List Graph) (s : Bytes) (v : Val) (hn : NoNilL l)
    (hx : ∀ y ∈ l, ¬ Spec.HasText E s y) :
    (Graph.node t l).nodeNamed E s = .ok .nil ∧
    (Graph.node t l).nodeOrNew E s = .ok (.node t (l ++ [.node (.str s) []]), .node (.str s) []) ∧
    (Graph.node t l).create E s = .ok (.node t (l ++ [.node (.str s) []]), .node (.str s) []) ∧
    (Graph.node t l).nodeSet E s v = .ok (.node t (l ++ [.node (.str s) (Spec.placed v)])) := by
  have hnode := nodeLoop_none E l hn hx
  have hfind := findName_none E l hn hx
  refine ⟨by simp [Graph.nodeNamed, hnode],
    by simp [Graph.nodeOrNew, Graph.nodeNamed, hnode, Graph.add, addedNode],
    by simp [Graph.create, hfind, Graph.add, addedNode], ?_⟩
  simp only [Graph.nodeSet, hfind, Res.ok_bind]
  cases v with
  | graph g => cases g <;> simp [Graph.add, Graph.new, addedNode, Spec.placed]
  | _ => simp [Graph.add, Graph.new, addedNode, Spec.placed]

/-- Every graph falls under one of the two cases. -/
theorem C27_cases (l : List Graph) (s : Bytes) (hn : NoNilL l) :
    (∃ pre x post, Spec.FirstNamed E s l pre x post) ∨ ∀ y ∈ l, ¬ Spec.HasText E s y :=
  firstNamed_or_none E s l hn

example : Spec.FirstNamed E b!"a" [.node (.str b!"b") [], .node (.str b!"a") []]
    [.node (.str b!"b") []] (.node (.str b!"a") []) [] := by
  simp [Spec.FirstNamed, Spec.HasText, vstr]

/-! ## C28: Substitute -/

theorem substituteList_spec (s : Bytes) (v : Val) : ∀ (l : List Graph), NoNilL l →
    ∃ l', Graph.substituteList E s v l = .ok l' ∧ NoNilL l' ∧ l'.length = l.length ∧
      (∀ d, preorderL d l' = (preorderL d l).map fun it => (it.1, if vstr E it.2 = s then v else it.2))
  | [], _ => ⟨[], by simp [Graph.substituteList], trivial, rfl, by simp [preorderL]⟩
  | .nil :: _, h => by simp [NoNilL, NoNil] at h
  | .node t o :: l, h => by
    simp only [NoNilL, NoNil] at h
    obtain ⟨o', e1, n1, _, p1⟩ := substituteList_spec s v o h.1
    obtain ⟨l', e2, n2, len2, p2⟩ := substituteList_spec s v l h.2
    refine ⟨.node (if vstr E t = s then v else t) o' :: l', ?_, ?_, ?_, ?_⟩
    · simp [Graph.substituteList, e1, e2]
    · simp only [NoNilL, NoNil]; exact ⟨n1, n2⟩
    · simp [len2]
    · intro d
      simp [preorderL, preorder, p1, p2]

theorem substituteList_idem (s : Bytes) (v : Val) : ∀ (l : List Graph), NoNilL l →
    ∀ l', Graph.substituteList E s v l = .ok l' → Graph.substituteList E s v l' = .ok l'
  | [], _, l', h => by simp [Graph.substituteList] at h; subst h; simp [Graph.substituteList]
  | .nil :: _, h, _, _ => by simp [NoNilL, NoNil] at h
  | .node t o :: l, h, l', hl => by
    simp only [NoNilL, NoNil] at h
    obtain ⟨o', e1, _⟩ := substituteList_spec E s v o h.1
    obtain ⟨l2, e2, _⟩ := substituteList_spec E s v l h.2
    simp [Graph.substituteList, e1, e2] at hl
    subst hl
    simp only [Graph.substituteList, substituteList_idem s v o h.1 o' e1,
      substituteList_idem s v l h.2 l2 e2, Res.ok_bind]
    congr 3
    by_cases ht : vstr E t = s
    · simp only [ht, ↓reduceIte]; split <;> rfl
    · simp [ht]

/-- **C28.** `Substitute(s, v)` keeps the root and the shape: the document-order
listing of contents below the root (with depths) changes exactly by replacing each
content that reads `s` with `v`.  Doing it again changes nothing. -/
theorem C28_substitute (t : Val) (l : List Graph) (s : Bytes) (v : Val) (hn : NoNilL l) :
    ∃ l', (Graph.node t l).substitute E s v = .ok (.node t l') ∧ NoNilL l' ∧
      preorderL 0 l' = (preorderL 0 l).map (fun it => (it.1, if vstr E it.2 = s then v else it.2)) ∧
      (Graph.node t l').substitute E s v = .ok (.node t l') := by
  obtain ⟨l', e, n, _, p⟩ := substituteList_spec E s v l hn
  refine ⟨l', by simp [Graph.substitute, e], n, p 0, ?_⟩
  simp [Graph.substitute, substituteList_idem E s v l hn l' e]

example : (Graph.node .nil [.node (.str b!"x") [.node (.str b!"x") []], .node (.str b!"y") []]).substitute E
    b!"x" (.int .int 1) =
    .ok (.node .nil [.node (.int .int 1) [.node (.int .int 1) []], .node (.str b!"y") []]) := by
  simp [Graph.substitute, Graph.substituteList, vstr]

/-! ## C29: Merge -/

/-- **C29 refuted.** Merging `a -> 2` into `a -> 1` keeps both: the key looked up is
the text of the *value*, not the name.  And where that text happens to name a node
of the receiver, that node loses its subnodes: merging `k -> a` into `a -> 1` yields
just `a` over `a`. -/
theorem C29_refuted :
    (Graph.node .nil [.node (.str b!"a") [.node (.str b!"1") []]]).merge E
        (.node .nil [.node (.str b!"a") [.node (.str b!"2") []]]) =
      .ok (.node .nil [.node (.str b!"a") [.node (.str b!"1") []],
        .node (.str b!"a") [.node (.str b!"2") []]]) ∧
    (Graph.node .nil [.node (.str b!"a") [.node (.str b!"1") []]]).merge E
        (.node .nil [.node (.str b!"k") [.node (.str b!"a") []]]) =
      .ok (.node .nil [.node (.str b!"a") [.node (.str b!"a") []]]) := by
  constructor <;>
    simp [Graph.merge, Graph.mergeList, Graph.string, Graph.interface, findName, vstr, addedNode]

theorem mergeList_append (t : Val) : ∀ (src o : List Graph), NoNilL src → NoNilL o →
    (∀ n ∈ src, ∀ key, n.string E = .ok key → ∀ y ∈ o ++ src, ¬ Spec.HasText E key y) →
    (∀ n ∈ src, ∃ key, n.string E = .ok key) →
    Graph.mergeList E (.node t o) src = .ok (.node t (o ++ src))
  | [], o, _, _, _, _ => by simp [Graph.mergeList]
  | nd :: src, o, hs, ho, hk, hkey => by
    simp only [NoNilL] at hs
    obtain ⟨key, hkey1⟩ := hkey nd (by simp)
    have hnf := findName_none E o ho fun y hy => hk nd (by simp) key hkey1 y (by simp [hy])
    simp only [Graph.mergeList, hkey1, Res.ok_bind, hnf]
    have hadd : addedNode (.graph nd) = nd := by
      cases nd with
      | nil => simp [NoNil] at hs
      | node t o => rfl
    rw [hadd, mergeList_append t src (o ++ [nd]) hs.2 (by
        clear hk hkey hnf
        induction o with
        | nil => exact ⟨hs.1, trivial⟩
        | cons a o ih => simp only [NoNilL] at ho; exact ⟨ho.1, ih ho.2⟩)
      (fun n hn key hkey2 y hy => hk n (by simp [hn]) key hkey2 y (by simpa using hy))
      (fun n hn => hkey n (by simp [hn]))]
    simp

/-- **C29 (part).** If no node of either graph is named like the *value* (first
subnode's text) of a merged node, `Merge` appends all subnodes of the source in
order and changes nothing else.  Missing: the actual claim, replacement by key, which
the code does not do (`C29_refuted`). -/
theorem C29_merge_disjoint_partial (t t' : Val) (o src : List Graph) (hs : NoNilL src) (ho : NoNilL o)
    (hk : ∀ n ∈ src, ∀ key, n.string E = .ok key → ∀ y ∈ o ++ src, ¬ Spec.HasText E key y) :
    (Graph.node t o).merge E (.node t' src) = .ok (.node t (o ++ src)) := by
  simp only [Graph.merge]
  refine mergeList_append E t src o hs ho hk ?_
  intro n hn
  have hmem : ∀ (l : List Graph), NoNilL l → ∀ x ∈ l, NoNil x := by
    intro l
    induction l with
    | nil => intro _ x hx; simp at hx
    | cons a l ih =>
      intro h x hx
      simp only [NoNilL] at h
      rcases List.mem_cons.mp hx with rfl | hx
      · exact h.1
      · exact ih h.2 x hx
  have hnn := hmem src hs n hn
  cases n with
  | nil => simp [NoNil] at hnn
  | node t o =>
    cases o with
    | nil => exact ⟨_, rfl⟩
    | cons a o =>
      cases a with
      | nil => simp [NoNil, NoNilL] at hnn
      | node t' o' => exact ⟨_, rfl⟩

example : ∀ n ∈ [Graph.node (.str b!"b") [.node (.str b!"2") []]], ∀ key, n.string E = .ok key →
    ∀ y ∈ [Graph.node (.str b!"a") []] ++ [Graph.node (.str b!"b") [.node (.str b!"2") []]],
      ¬ Spec.HasText E key y := by
  simp [Graph.string, Graph.interface, vstr, Spec.HasText]

/-! ## C31: Find -/

/-- **C31.** `Find(re)` fails if the expression does not compile; otherwise it
returns, under `_`, exactly the direct subnodes whose text matches, in order. -/
theorem C31_find (t : Val) (o : List Graph) (re : Bytes) (hn : NoNilL o) :
    (E.regexp re = none → (Graph.node t o).find E re = .ok none) ∧
    (∀ m, E.regexp re = some m → (Graph.node t o).find E re =
      .ok (some (.node (.str b!"_") (o.filter fun c => m (vstr E c.this))))) := by
  refine ⟨fun h => by simp [Graph.find, h], fun m h => ?_⟩
  simp only [Graph.find, h]
  congr 3
  induction o with
  | nil => rfl
  | cons c o ih =>
    simp only [NoNilL] at hn
    cases c with
    | nil => simp [NoNil] at hn
    | node t' o' =>
      by_cases hm : m (vstr E t') = true <;>
        simp [Graph.find.loop, ih hn.2, Graph.thisString, addedNode, hm]

/-! ## C47: list views -/

theorem strings_eq (t : Val) : ∀ (o : List Graph), NoNilL o →
    (Graph.node t o).strings E = .ok (o.map fun c => vstr E c.this)
  | [], _ => by simp [Graph.strings]
  | .nil :: _, h => by simp [NoNilL, NoNil] at h
  | .node t' o' :: o, h => by
    simp only [NoNilL] at h
    have ih := strings_eq t o h.2
    simp only [Graph.strings] at ih ⊢
    rw [List.mapM_cons, ih]
    simp

theorem join_sep (sep : Bytes) : ∀ (l : List Bytes), l ≠ [] →
    (l.flatMap fun x => sep ++ x).drop sep.length = sep.intercalate l
  | [], h => by simp at h
  | [x], _ => by simp [List.intercalate]
  | x :: y :: l, _ => by
    have ih := join_sep sep (y :: l) (by simp)
    simp only [List.flatMap_cons, List.append_assoc, List.drop_left] at ih ⊢
    simp only [List.intercalate, List.intersperse, List.flatten_cons] at ih ⊢
    rw [← ih]

/-- **C47 (part).** `Strings` is the list of texts of the direct subnodes; with at
least one subnode `StringTxt` is those texts joined by a space and `StringCSV` joined
by comma and space; without subnodes `StringTxt` is empty.  Missing: `StringCSV`
without subnodes, which panics (`C47_refuted`). -/
theorem C47_list_views_partial (t : Val) (o : List Graph) (hn : NoNilL o) (d : Option Bytes) :
    (Graph.node t o).strings E = .ok (o.map fun c => vstr E c.this) ∧
    (Graph.node t o).stringTxt E d = .ok (List.intercalate [32] (o.map fun c => vstr E c.this)) ∧
    (o ≠ [] → (Graph.node t o).stringCSV E d =
      .ok (List.intercalate [44, 32] (o.map fun c => vstr E c.this))) := by
  have hs := strings_eq E t o hn
  refine ⟨hs, ?_, ?_⟩
  · cases o with
    | nil => simp [Graph.stringTxt, List.intercalate]
    | cons a o =>
      simp only [Graph.stringTxt, hs, Res.ok_bind]
      rw [← join_sep [32] _ (by simp)]
      rfl
  · intro ho
    simp only [Graph.stringCSV, hs, Res.ok_bind]
    have hj := join_sep [44, 32] (o.map fun c => vstr E c.this) (by simpa using ho)
    simp only [List.cons_append, List.nil_append, List.length_cons, List.length_nil] at hj
    rw [← hj]
    cases o with
    | nil => simp at ho
    | cons a o => simp

/-- **C47 refuted** for `StringCSV` on a node without subnodes. -/
theorem C47_refuted (d : Option Bytes) : (Graph.node (.str b!"a") []).stringCSV E d = .panic := by
  simp [Graph.stringCSV, Graph.strings]

end
end Ogdl
