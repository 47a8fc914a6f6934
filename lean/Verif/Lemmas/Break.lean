import Verif.Lemmas.TemplateRun
import Verif.Spec.Break

/-!
# A break inside an if ends the body of the if
-/

namespace Ogdl
open Spec

variable {E : Ext}

/-- The result without the mark of a break. -/
def Proc.quiet (r : Proc) : Proc := { r with brk := false }

/-- What a node does, but for the mark of a break. -/
def quietNode (E : Ext) (n : Graph) (y : Bool) : EvalM (Proc × Bool) := do
  let p ← procNode E (procAll E) n y
  pure (p.1.quiet, p.2)

/-- What nodes do, but for the mark of a break. -/
def quietList (E : Ext) (ns : List Graph) (y : Bool) : EvalM Proc := do
  let r ← procList E ns y
  pure r.quiet

/-- Two nodes that do the same. -/
def Alike (E : Ext) (n n' : Graph) : Prop := n.thisString E = n'.thisString E ∧ ∀ y, quietNode E n y = quietNode E n' y

/-- Nodes that do the same, one by one. -/
inductive AllAlike (E : Ext) : List Graph → List Graph → Prop where
  | nil : AllAlike E [] []
  | cons {n n' : Graph} {ns ns' : List Graph} : Alike E n n' → AllAlike E ns ns' → AllAlike E (n :: ns) (n' :: ns')

theorem alike_refl (n : Graph) : Alike E n n := ⟨rfl, fun _ => rfl⟩

theorem procList_quiet {n : Graph} (h : n.thisString E ≠ b!"!break") (ns : List Graph) (y : Bool) :
    procList E (n :: ns) y = (do
      let p ← quietNode E n y
      let r' ← procList E ns p.2
      pure (p.1.andThen r')) := by
  unfold procList quietNode
  rw [procNodes_cons _ h]
  simp only [bind_assoc, pure_bind]
  rfl

theorem list_alike {ns ns' ms ms' : List Graph} (h : AllAlike E ns ns')
    (hm : ∀ y, procList E ms y = procList E ms' y) : ∀ y, procList E (ns ++ ms) y = procList E (ns' ++ ms') y := by
  induction h with
  | nil => exact hm
  | @cons n n' ns ns' h1 h2 ih =>
    intro y
    simp only [List.cons_append]
    by_cases hb : n.thisString E = b!"!break"
    · unfold procList
      rw [procNodes_break _ hb, procNodes_break _ (h1.1 ▸ hb)]
    · rw [procList_quiet hb, procList_quiet (h1.1 ▸ hb), h1.2 y]
      simp only [ih]

theorem list_quiet {ns ns' ms ms' : List Graph} (h : AllAlike E ns ns')
    (hm : ∀ y, quietList E ms y = quietList E ms' y) : ∀ y, quietList E (ns ++ ms) y = quietList E (ns' ++ ms') y := by
  induction h with
  | nil => exact hm
  | @cons n n' ns ns' h1 h2 ih =>
    intro y
    simp only [List.cons_append]
    by_cases hb : n.thisString E = b!"!break"
    · unfold quietList procList
      rw [procNodes_break _ hb, procNodes_break _ (h1.1 ▸ hb)]
    · have key : ∀ (n : Graph) (ns : List Graph), n.thisString E ≠ b!"!break" → quietList E (n :: ns) y = (do
          let p ← quietNode E n y
          let r' ← quietList E ns p.2
          pure (p.1.andThen r')) := by
        intro n ns hb
        unfold quietList
        rw [procList_quiet hb]
        simp only [bind_assoc, pure_bind]
        rfl
      rw [key _ _ hb, key _ _ (h1.1 ▸ hb), h1.2 y]
      simp only [ih]

/-- A body in the place of another. -/
theorem body_alike {b b' : List Graph} (h : quietList E b false = quietList E b' false) (z : Bool) :
    (do let r ← procAll E (.node (.str b!"!t") b); (pure (r.quiet, z) : EvalM (Proc × Bool))) =
      (do let r ← procAll E (.node (.str b!"!t") b'); pure (r.quiet, z)) := by
  have e : ∀ b : List Graph, (do let r ← procAll E (.node (.str b!"!t") b); (pure (r.quiet, z) : EvalM (Proc × Bool))) =
      (do let r ← quietList E b false; pure (r, z)) := by
    intro b
    unfold quietList
    rw [procAll_node]
    simp only [bind_assoc, pure_bind]
  rw [e, e, h]

theorem procCond_eq (t t' : Val) (a : Graph) (o o' : List Graph) : procCond E (.node t (a :: o)) = procCond E (.node t' (a :: o')) := by
  unfold procCond
  simp only [getAt_zero]

theorem bind_ite {α β : Type} (b : Bool) (x y : EvalM α) (f : α → EvalM β) : ((if b then x else y) >>= f) = if b then x >>= f else y >>= f := by
  cases b <;> rfl

theorem if_alike (a : Graph) {b b' : List Graph} (h : quietList E b false = quietList E b' false) :
    Alike E (.node (.str b!"!if") [a, .node (.str b!"!t") b]) (.node (.str b!"!if") [a, .node (.str b!"!t") b']) := by
  refine ⟨rfl, fun y => ?_⟩
  unfold quietNode
  rw [procNode_if (by simp [Graph.thisString, vstr]), procNode_if (by simp [Graph.thisString, vstr]), procCond_eq _ (.str b!"!if") a _ [.node (.str b!"!t") b']]
  simp only [getAt_one, bind_assoc, bind_ite, lift_ok, pure_bind, body_alike h]

theorem elseif_alike (a : Graph) {b b' : List Graph} (h : quietList E b false = quietList E b' false) :
    Alike E (.node (.str b!"!elseif") [a, .node (.str b!"!t") b]) (.node (.str b!"!elseif") [a, .node (.str b!"!t") b']) := by
  refine ⟨rfl, fun y => ?_⟩
  unfold quietNode
  rw [procNode_elseif (by simp [Graph.thisString, vstr]), procNode_elseif (by simp [Graph.thisString, vstr]), procCond_eq _ (.str b!"!elseif") a _ [.node (.str b!"!t") b']]
  cases y
  · simp only [Bool.false_eq_true, ↓reduceIte, getAt_one, bind_assoc, bind_ite, lift_ok, pure_bind, body_alike h]
  · simp only [↓reduceIte]

theorem else_alike {b b' : List Graph} (h : quietList E b false = quietList E b' false) :
    Alike E (.node (.str b!"!else") [.node (.str b!"!t") b]) (.node (.str b!"!else") [.node (.str b!"!t") b']) := by
  refine ⟨rfl, fun y => ?_⟩
  unfold quietNode
  rw [procNode_else (by simp [Graph.thisString, vstr]), procNode_else (by simp [Graph.thisString, vstr])]
  cases y
  · simp only [Bool.false_eq_true, ↓reduceIte, getAt_zero, bind_assoc, lift_ok, pure_bind, body_alike h]
  · simp only [↓reduceIte]

theorem for_alike (a : Graph) {b b' : List Graph} (h : procList E b false = procList E b' false) :
    Alike E (.node (.str b!"!for") [a, .node (.str b!"!t") b]) (.node (.str b!"!for") [a, .node (.str b!"!t") b']) := by
  refine ⟨rfl, fun y => ?_⟩
  unfold quietNode
  rw [procNode_for (by simp [Graph.thisString, vstr]), procNode_for (by simp [Graph.thisString, vstr])]
  unfold forNode
  simp only [getAt_one, getAt_zero, lift_ok, procAll_node, h]

mutual
theorem item_mended (E : Ext) : ∀ i : Item, AllAlike E i.trees i.mended.trees
  | .cond c body more => by
    simp only [Item.trees, Item.mended]
    exact .cons (if_alike _ (items_ended E body false)) (branches_mended E more)
  | .loop v id ids body => by
    simp only [Item.trees, Item.mended]
    exact .cons (for_alike _ (items_mended E body false)) .nil
  | .plain s => .cons (alike_refl _) .nil
  | .dollar => .cons (alike_refl _) .nil
  | .var _ _ _ => .cons (alike_refl _) .nil
  | .expr _ => .cons (alike_refl _) .nil
  | .brk => .cons (alike_refl _) .nil
theorem items_mended (E : Ext) : ∀ (is : Items) (y : Bool), procList E is.trees y = procList E is.mended.trees y
  | .nil, _ => rfl
  | .cons i is, y => by
    simp only [Items.trees, Items.mended]
    exact list_alike (item_mended E i) (items_mended E is) y
theorem items_ended (E : Ext) : ∀ (is : Items) (y : Bool), quietList E is.trees y = quietList E is.ended.trees y
  | .nil, _ => rfl
  | .cons i is, y => by
    simp only [Items.trees, Items.ended]
    by_cases hi : i.isBreak = true
    · rw [if_pos hi]
      cases i <;> cases hi
      simp only [Items.trees, Item.trees, List.cons_append, List.nil_append]
      unfold quietList procList
      rw [procNodes_break _ (by simp [Graph.thisString, vstr])]
      simp only [procNodes, pure_bind]
      rfl
    · rw [if_neg hi]
      simp only [Items.trees]
      exact list_quiet (item_mended E i) (items_ended E is) y
theorem branches_mended (E : Ext) : ∀ more : Branches, AllAlike E more.trees more.mended.trees
  | .done => .nil
  | .els body => by
    simp only [Branches.trees, Branches.mended]
    exact .cons (else_alike (items_ended E body false)) .nil
  | .elif c body more => by
    simp only [Branches.trees, Branches.mended]
    exact .cons (elseif_alike _ (items_ended E body false)) (branches_mended E more)
end

/-! ## The shortened text is well formed -/

theorem head_append {a r r' : Bytes} (h : r.head? = r'.head?) : (a ++ r).head? = (a ++ r').head? := by
  cases a <;> simp [h]

theorem ends_head {r r' : Bytes} (h : r.head? = r'.head?) (he : Ends r) : Ends r' := by
  unfold Ends at *
  rw [← h]; exact he

mutual
theorem item_head {r : Bytes} : ∀ i : Item, (i.text ++ r).head? = (i.mended.text ++ r).head?
  | .cond c body more => by simp [Item.mended, Item.text]
  | .loop v id ids body => by simp [Item.mended, Item.text]
  | .plain s => rfl
  | .dollar => rfl
  | .var _ _ _ => rfl
  | .expr _ => rfl
  | .brk => rfl
end

theorem item_prefix {r r' : Bytes} (h : r.head? = r'.head?) (i : Item) : (i.text ++ r).head? = (i.mended.text ++ r').head? := by
  rw [item_head i, head_append h]

theorem branches_dollar (r : Bytes) : ∀ m : Branches, (m.text ++ r).head? = some 36
  | .done => by simp [Branches.text]
  | .els _ => by simp [Branches.text]
  | .elif _ _ _ => by simp [Branches.text]

theorem mended_head {r r' : Bytes} (h : r.head? = r'.head?) : ∀ is : Items, (is.text ++ r).head? = (is.mended.text ++ r').head?
  | .nil => by simpa [Items.mended, Items.text] using h
  | .cons i is => by
    simp only [Items.text, Items.mended, List.append_assoc]
    exact item_prefix (mended_head h is) i

theorem ended_head {r r' : Bytes} (h : r.head? = some 36) (h' : r'.head? = some 36) : ∀ is : Items, (is.text ++ r).head? = (is.ended.text ++ r').head?
  | .nil => by simpa [Items.ended, Items.text, h'] using h
  | .cons i is => by
    simp only [Items.text, Items.ended, List.append_assoc]
    by_cases hi : i.isBreak = true
    · rw [if_pos hi]
      cases i <;> cases hi
      simp [Items.text, Item.text, h']
    · rw [if_neg hi]
      simp only [Items.text, List.append_assoc]
      exact item_prefix (ended_head h h' is) i

theorem plain_rest {r r' : Bytes} (h : r.head? = r'.head?) (hr : r = [] ∨ r.head? = some 36) : r' = [] ∨ r'.head? = some 36 := by
  rcases hr with rfl | hr
  · left; cases r' with
    | nil => rfl
    | cons => cases h
  · right; rw [← h]; exact hr

mutual
theorem item_mended_ok : ∀ {i : Item} {r r' : Bytes}, r.head? = r'.head? → i.Ok E r → i.mended.Ok E r'
  | .cond c body more, r, r', h, hok => by
    simp only [Item.mended, Item.Ok, List.append_assoc] at hok ⊢
    have d := branches_dollar r more
    have d' := branches_dollar r' more.mended
    exact ⟨hok.1, ends_head (ended_head d d' body) hok.2.1, items_ended_ok d d' hok.2.2.1, branches_mended_ok h hok.2.2.2⟩
  | .loop v id ids body, r, r', h, hok => by
    simp only [Item.mended, Item.Ok, List.append_assoc] at hok ⊢
    have he : (b!"$end" ++ r).head? = (b!"$end" ++ r').head? := by simp
    exact ⟨hok.1, hok.2.1, hok.2.2.1, hok.2.2.2.1, ends_head (mended_head he body) hok.2.2.2.2.1, items_mended_ok he hok.2.2.2.2.2.1, ends_head h hok.2.2.2.2.2.2⟩
  | .plain s, r, r', h, hok => by
    simp only [Item.mended, Item.Ok] at hok ⊢
    exact ⟨hok.1, hok.2.1, hok.2.2.1, plain_rest h hok.2.2.2⟩
  | .dollar, _, _, _, _ => by simp only [Item.mended, Item.Ok]
  | .var _ _ _, r, r', h, hok => by
    simp only [Item.mended, Item.Ok] at hok ⊢
    exact ⟨hok.1, hok.2.1, fun hb => ends_head h (hok.2.2 hb)⟩
  | .expr _, _, _, _, hok => by simpa only [Item.mended, Item.Ok] using hok
  | .brk, r, r', h, hok => by
    simp only [Item.mended, Item.Ok] at hok ⊢
    exact ends_head h hok
theorem items_mended_ok : ∀ {is : Items} {r r' : Bytes}, r.head? = r'.head? → is.Ok E r → is.mended.Ok E r'
  | .nil, _, _, _, _ => by simp only [Items.mended, Items.Ok]
  | .cons i is, r, r', h, hok => by
    simp only [Items.mended, Items.Ok] at hok ⊢
    exact ⟨item_mended_ok (mended_head h is) hok.1, items_mended_ok h hok.2⟩
theorem items_ended_ok : ∀ {is : Items} {r r' : Bytes}, r.head? = some 36 → r'.head? = some 36 → is.Ok E r → is.ended.Ok E r'
  | .nil, _, _, _, _, _ => by simp only [Items.ended, Items.Ok]
  | .cons i is, r, r', h, h', hok => by
    simp only [Items.ended, Items.Ok] at hok ⊢
    by_cases hi : i.isBreak = true
    · rw [if_pos hi]; simp only [Items.Ok]
    · rw [if_neg hi]; simp only [Items.Ok]
      exact ⟨item_mended_ok (ended_head h h' is) hok.1, items_ended_ok h h' hok.2⟩
theorem branches_mended_ok : ∀ {m : Branches} {r r' : Bytes}, r.head? = r'.head? → m.Ok E r → m.mended.Ok E r'
  | .done, r, r', h, hok => by
    simp only [Branches.mended, Branches.Ok] at hok ⊢
    exact ends_head h hok
  | .els body, r, r', h, hok => by
    simp only [Branches.mended, Branches.Ok, List.append_assoc] at hok ⊢
    have d : (b!"$end" ++ r).head? = some 36 := by simp
    have d' : (b!"$end" ++ r').head? = some 36 := by simp
    exact ⟨ends_head (ended_head d d' body) hok.1, items_ended_ok d d' hok.2.1, ends_head h hok.2.2⟩
  | .elif c body more, r, r', h, hok => by
    simp only [Branches.mended, Branches.Ok, List.append_assoc] at hok ⊢
    have d := branches_dollar r more
    have d' := branches_dollar r' more.mended
    exact ⟨hok.1, ends_head (ended_head d d' body) hok.2.1, items_ended_ok d d' hok.2.2.1, branches_mended_ok h hok.2.2.2⟩
end

end Ogdl
