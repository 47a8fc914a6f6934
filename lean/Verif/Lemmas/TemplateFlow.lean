import Verif.Lemmas.TemplateParse

/-! From the nodes that are read to the tree of a template. -/

namespace Ogdl
open Spec Lex

namespace Spec

mutual
/-- The nodes after grouping the operators and marking the directives. -/
def Item.mid : Item → List Graph
  | .plain s => [leaf s]
  | .dollar => [leaf b!"$"]
  | .var id ids _ => [pathOf (id :: ids)]
  | .expr x => [exprOf x.full]
  | .cond c body more => .node (.str b!"!if") [.node (.str b!"!a") [exprOf c.full]] :: (body.mid ++ more.mid)
  | .loop v id ids body =>
    .node (.str b!"!for") [.node (.str b!"!a") [exprOf (pathOf [v]), exprOf (pathOf (id :: ids))]] :: (body.mid ++ [leaf b!"!end"])
  | .brk => [leaf b!"!break"]
def Items.mid : Items → List Graph
  | .nil => []
  | .cons i is => i.mid ++ is.mid
def Branches.mid : Branches → List Graph
  | .done => [leaf b!"!end"]
  | .els body => leaf b!"!else" :: (body.mid ++ [leaf b!"!end"])
  | .elif c body more => .node (.str b!"!elseif") [.node (.str b!"!a") [exprOf c.full]] :: (body.mid ++ more.mid)
end

end Spec

section
variable {E : Ext}

theorem astBody_grouping {t : Grouping} (ht : t.Ok E) :
    Graph.astBody E (.str b!"!e") t.tokens = .ok (exprOf t.full) := by
  obtain ⟨-, htx⟩ := Grouping.expr_spec t
  rw [← htx]
  exact astBody_tokens (Grouping.expr_ok ht) ht htx.symm (Grouping.expr_fulls t).symm

theorem astList_expr {t : Grouping} (ht : t.Ok E) (ns : List Graph) :
    Graph.astList E (.node (.str b!"!e") t.tokens :: ns) = (do let ns' ← Graph.astList E ns; .ok (exprOf t.full :: ns')) := by
  rw [Graph.astList, if_pos (by simp only [vstr]; rfl), astBody_grouping ht]
  rfl

theorem astList_names : ∀ ids : List Bytes, Graph.astList E (ids.map leaf) = .ok (ids.map leaf)
  | [] => by simp [Graph.astList]
  | s :: ss => by rw [List.map_cons, leaf, astList_leaf, astList_names ss]; rfl

theorem astList_path (ids : List Bytes) (ns : List Graph) :
    Graph.astList E (pathOf ids :: ns) = (do let ns' ← Graph.astList E ns; .ok (pathOf ids :: ns')) :=
  astList_node (not_tyExpression (by decide)) (astList_names ids) ns

theorem astList_exprPath (ids : List Bytes) (ns : List Graph) :
    Graph.astList E (exprOf (pathOf ids) :: ns) = (do let ns' ← Graph.astList E ns; .ok (exprOf (pathOf ids) :: ns')) := by
  rw [exprOf, Graph.astList, if_pos (by simp only [vstr]; rfl), Graph.astBody, if_pos (by simp)]
  rfl

theorem astList_append : ∀ {a b a' b' : List Graph}, Graph.astList E a = .ok a' → Graph.astList E b = .ok b' →
    Graph.astList E (a ++ b) = .ok (a' ++ b')
  | [], b, a', b', h, hb => by
    simp only [Graph.astList] at h; cases h; exact hb
  | .nil :: a, b, a', b', h, hb => by
    rw [List.cons_append]
    rw [Graph.astList] at h ⊢
    cases ha : Graph.astList E a with
    | ok x =>
      rw [ha] at h; cases h
      rw [astList_append ha hb]; rfl
    | panic => rw [ha] at h; cases h
    | oof => rw [ha] at h; cases h
  | .node t o :: a, b, a', b', h, hb => by
    rw [List.cons_append]
    rw [Graph.astList] at h ⊢
    have key : ∀ (n : Res Graph), (do let n' ← n; let ns' ← Graph.astList E a; Res.ok (n' :: ns')) = .ok a' →
        (do let n' ← n; let ns' ← Graph.astList E (a ++ b); Res.ok (n' :: ns')) = .ok (a' ++ b') := by
      intro n h
      cases n with
      | panic => cases h
      | oof => cases h
      | ok n =>
        simp only [Res.ok_bind] at h ⊢
        cases ha : Graph.astList E a with
        | ok x =>
          rw [ha] at h; cases h
          rw [astList_append ha hb]; rfl
        | panic => rw [ha] at h; cases h
        | oof => rw [ha] at h; cases h
    by_cases ht : vstr E t = tyExpression
    · rw [if_pos ht] at h ⊢; exact key _ h
    · rw [if_neg ht] at h ⊢
      have := key (do let o' ← Graph.astList E o; .ok (.node t o'))
      cases ho : Graph.astList E o with
      | ok o' => rw [ho] at h this; exact this h
      | panic => rw [ho] at h; cases h
      | oof => rw [ho] at h; cases h

/-- The nodes are read as `ps` and become `qs` by grouping and marking. -/
def Marks (E : Ext) (ps qs : List Graph) : Prop := ∃ ns, Graph.astList E ps = .ok ns ∧ ns.map (simplifyNode E) = qs

theorem Marks.append {ps qs ps' qs' : List Graph} (h : Marks E ps qs) (h' : Marks E ps' qs') : Marks E (ps ++ ps') (qs ++ qs') := by
  obtain ⟨a, h1, h2⟩ := h
  obtain ⟨b, h3, h4⟩ := h'
  exact ⟨a ++ b, astList_append h1 h3, by rw [List.map_append, h2, h4]⟩

theorem Marks.one {p n q : Graph} (h1 : Graph.astList E [p] = .ok [n]) (h2 : simplifyNode E n = q) : Marks E [p] [q] :=
  ⟨[n], h1, by simp [h2]⟩

theorem Marks.cons {p q : Graph} {ps qs : List Graph} (h : Marks E [p] [q]) (h' : Marks E ps qs) : Marks E (p :: ps) (q :: qs) :=
  Marks.append h h'

theorem simplify_other {t : Val} {o : List Graph} (h : vstr E t ≠ b!"!p") : simplifyNode E (.node t o) = .node t o := by
  unfold simplifyNode
  rw [if_neg (show ¬ (Graph.node t o).thisString E = tyPath from h)]

theorem marks_leaf {s : Bytes} (h : s ≠ b!"!p") : Marks E [leaf s] [leaf s] := by
  refine .one (n := leaf s) ?_ (simplify_other (by simpa [vstr] using h))
  rw [leaf, astList_leaf]; simp [Graph.astList]

theorem simplify_path {id : Bytes} {o : List Graph} (h : id ∉ keywords) :
    simplifyNode E (.node (.str b!"!p") (leaf id :: o)) = .node (.str b!"!p") (leaf id :: o) := by
  simp only [keywords, List.mem_cons, List.not_mem_nil, or_false, not_or] at h
  obtain ⟨h1, h2, h3, h4, h5, h6⟩ := h
  unfold simplifyNode
  rw [if_pos (by simp only [Graph.thisString, vstr]; rfl)]
  have e : ((Graph.node (.str b!"!p") (leaf id :: o)).out.headD .nil).thisString E = id := by simp [leaf, Graph.thisString, vstr]
  dsimp only
  rw [if_neg (by rw [e]; exact h1), if_neg (by rw [e]; exact h2), if_neg (by rw [e]; exact h3), if_neg (by rw [e]; exact h4),
    if_neg (by rw [e]; exact h5), if_neg (by rw [e]; exact h6)]

theorem marks_path {id : Bytes} {ids : List Bytes} (h : id ∉ keywords) : Marks E [pathOf (id :: ids)] [pathOf (id :: ids)] := by
  refine .one (n := pathOf (id :: ids)) ?_ ?_
  · rw [astList_path]; simp [Graph.astList]
  · simpa [pathOf] using simplify_path h

theorem marks_expr {x : Grouping} (h : WritableExpr E x) : Marks E [.node (.str b!"!e") x.tokens] [exprOf x.full] := by
  refine .one (n := exprOf x.full) ?_ (simplify_other (by simp [vstr]))
  rw [astList_expr h]; simp [Graph.astList]

/-- The mark of a directive. -/
theorem simplify_word {s m : Bytes} {o : List Graph} (h : (s, m) ∈ [(b!"if", b!"!if"), (b!"end", b!"!end"), (b!"else", b!"!else"), (b!"elseif", b!"!elseif"),
    (b!"for", b!"!for"), (b!"break", b!"!break")]) :
    simplifyNode E (.node (.str b!"!p") (leaf s :: o)) = .node (.str m) o := by
  simp only [List.mem_cons, List.not_mem_nil, or_false, Prod.mk.injEq] at h
  unfold simplifyNode
  rw [if_pos (by simp only [Graph.thisString, vstr]; rfl)]
  simp only [Graph.out_node, List.headD_cons, leaf, Graph.thisString, vstr]
  rcases h with ⟨rfl, rfl⟩ | ⟨rfl, rfl⟩ | ⟨rfl, rfl⟩ | ⟨rfl, rfl⟩ | ⟨rfl, rfl⟩ | ⟨rfl, rfl⟩ <;> simp <;> rfl

theorem marks_word {s m : Bytes} (h : (s, m) ∈ [(b!"if", b!"!if"), (b!"end", b!"!end"), (b!"else", b!"!else"), (b!"elseif", b!"!elseif"),
    (b!"for", b!"!for"), (b!"break", b!"!break")]) : Marks E [wordNode s] [leaf m] := by
  refine .one (n := wordNode s) ?_ ?_
  · rw [wordNode, astList_node (not_tyExpression (by decide)) (by rw [leaf, astList_leaf, Graph.astList]; rfl)]; simp [Graph.astList, leaf]
  · exact simplify_word h

theorem marks_cond {s m : Bytes} (h : (s, m) ∈ [(b!"if", b!"!if"), (b!"end", b!"!end"), (b!"else", b!"!else"), (b!"elseif", b!"!elseif"),
    (b!"for", b!"!for"), (b!"break", b!"!break")]) {x : Grouping} (hx : WritableExpr E x) :
    Marks E [callNode s [x.tokens]] [.node (.str m) [.node (.str b!"!a") [exprOf x.full]]] := by
  refine .one (n := .node (.str b!"!p") [leaf s, .node (.str b!"!a") [exprOf x.full]]) ?_ (simplify_word h)
  have h1 : Graph.astList E [.node (.str b!"!e") x.tokens] = .ok [exprOf x.full] := by
    rw [astList_expr hx]; simp [Graph.astList]
  rw [callNode, astList_node (not_tyExpression (by decide)) (o' := [leaf s, .node (.str b!"!a") [exprOf x.full]])]
  · simp [Graph.astList]
  · rw [leaf, astList_leaf]
    simp only [List.map_cons, List.map_nil]
    rw [astList_node (not_tyExpression (by decide)) h1]
    simp [Graph.astList]

theorem marks_for {v id : Bytes} {ids : List Bytes} :
    Marks E [callNode b!"for" [[pathOf [v]], [pathOf (id :: ids)]]]
      [.node (.str b!"!for") [.node (.str b!"!a") [exprOf (pathOf [v]), exprOf (pathOf (id :: ids))]]] := by
  refine .one (n := callNode b!"for" [[pathOf [v]], [pathOf (id :: ids)]]) ?_ (simplify_word (by simp))
  have h1 : Graph.astList E [exprOf (pathOf [v]), exprOf (pathOf (id :: ids))] = .ok [exprOf (pathOf [v]), exprOf (pathOf (id :: ids))] := by
    rw [astList_exprPath, astList_exprPath]; simp [Graph.astList]
  rw [callNode, astList_node (not_tyExpression (by decide)) (o' := [leaf b!"for", .node (.str b!"!a") [exprOf (pathOf [v]), exprOf (pathOf (id :: ids))]])]
  · simp [Graph.astList, exprOf]
  · rw [leaf, astList_leaf]
    simp only [List.map_cons, List.map_nil]
    simp only [exprOf] at h1 ⊢
    rw [astList_node (not_tyExpression (by decide)) h1]
    simp [Graph.astList]

mutual
theorem item_marks : ∀ (i : Item) (rest : Bytes), i.Ok E rest → Marks E (i.pieces.map Prod.snd) i.mid
  | .plain s, rest, h => by
    simp only [Item.Ok] at h
    exact marks_leaf (fun hs => h.2.2.1 (by simp [hs, markers]))
  | .dollar, rest, h => marks_leaf (by simp)
  | .var id ids false, rest, h => by
    simp only [Item.Ok] at h
    exact marks_path h.2.1
  | .var id ids true, rest, h => by
    simp only [Item.Ok] at h
    exact marks_path h.2.1
  | .expr x, rest, h => by
    simp only [Item.Ok] at h
    exact marks_expr h
  | .cond c body more, rest, h => by
    simp only [Item.Ok] at h
    simp only [Item.pieces, List.map_cons, List.map_append, Item.mid, List.cons_append]
    exact .cons (marks_cond (by simp) h.1) (.append (items_marks body _ h.2.2.1) (branches_marks more _ h.2.2.2))
  | .loop v id ids body, rest, h => by
    simp only [Item.Ok] at h
    simp only [Item.pieces, List.map_cons, List.map_append, Item.mid, List.cons_append, List.map_nil]
    exact .cons marks_for (.append (items_marks body _ h.2.2.2.2.2.1) (marks_word (by simp)))
  | .brk, rest, h => marks_word (by simp)
theorem items_marks : ∀ (i : Items) (rest : Bytes), i.Ok E rest → Marks E (i.pieces.map Prod.snd) i.mid
  | .nil, rest, h => ⟨[], by simp [Items.pieces, Graph.astList], by simp [Items.mid]⟩
  | .cons i is, rest, h => by
    simp only [Items.Ok] at h
    simp only [Items.pieces, List.map_append, Items.mid]
    exact .append (item_marks i _ h.1) (items_marks is _ h.2)
theorem branches_marks : ∀ (i : Branches) (rest : Bytes), i.Ok E rest → Marks E (i.pieces.map Prod.snd) i.mid
  | .done, rest, h => marks_word (by simp)
  | .els body, rest, h => by
    simp only [Branches.Ok] at h
    simp only [Branches.pieces, List.map_cons, List.map_append, Branches.mid, List.cons_append, List.map_nil]
    exact .cons (marks_word (by simp)) (.append (items_marks body _ h.2.1) (marks_word (by simp)))
  | .elif c body more, rest, h => by
    simp only [Branches.Ok] at h
    simp only [Branches.pieces, List.map_cons, List.map_append, Branches.mid, List.cons_append]
    exact .cons (marks_cond (by simp) h.1) (.append (items_marks body _ h.2.2.1) (branches_marks more _ h.2.2.2))
end

/-! ## Nesting -/

/-- A node that is no directive is kept in place. -/
theorem flow_keep {n : Graph} (h : n.thisString E ∉ [b!"!if", b!"!for", b!"!else", b!"!elseif", b!"!end"]) (f : Nat) (rest : List Graph) :
    flow E (f + 1) (n :: rest) = (do let (h, prev, rest) ← flow E f rest; .ok (n :: h, prev, rest)) := by
  simp only [List.mem_cons, List.not_mem_nil, or_false, not_or] at h
  obtain ⟨h1, h2, h3, h4, h5⟩ := h
  rw [flow]
  dsimp only
  rw [if_neg (by rintro (h | h); exact h1 h; exact h2 h), if_neg (by rintro (h | h); exact h3 h; exact h4 h), if_neg (show ¬ n.thisString E = tyEnd from h5)]

theorem flow_open {s : Bytes} (h : s = b!"!if" ∨ s = b!"!for") (f : Nat) (o rest rest' body branches : List Graph)
    (hb : flow E f rest = .ok (body, branches, rest')) :
    flow E (f + 1) (.node (.str s) o :: rest) =
      (do let (h, prev, rest) ← flow E f rest'; .ok (.node (.str s) (o ++ [.node (.str b!"!t") body]) :: branches ++ h, prev, rest)) := by
  rw [flow]
  dsimp only
  rw [if_pos (by simp only [Graph.thisString, vstr]; exact h), hb]
  rfl

theorem flow_else {s : Bytes} (h : s = b!"!else" ∨ s = b!"!elseif") (f : Nat) (o rest rest' body branches : List Graph)
    (hb : flow E f rest = .ok (body, branches, rest')) :
    flow E (f + 1) (.node (.str s) o :: rest) = .ok ([], .node (.str s) (o ++ [.node (.str b!"!t") body]) :: branches, rest') := by
  rw [flow]
  dsimp only
  rw [if_neg (by simp only [Graph.thisString, vstr]; rcases h with rfl | rfl <;> decide),
    if_pos (by simp only [Graph.thisString, vstr]; exact h), hb]
  rfl

theorem flow_end (f : Nat) (rest : List Graph) : flow E (f + 1) (leaf b!"!end" :: rest) = .ok ([], [], rest) := by
  rw [flow]
  dsimp only
  rw [if_neg (by simp only [leaf, Graph.thisString, vstr]; decide), if_neg (by simp only [leaf, Graph.thisString, vstr]; decide),
    if_pos (by simp only [leaf, Graph.thisString, vstr]; decide)]

/-- `flow` of these nodes with more nodes after them. -/
def Nests (E : Ext) (ms trees : List Graph) : Prop :=
  ∀ (f : Nat) (rest : List Graph), (ms ++ rest).length < f → ∃ f', rest.length < f' ∧
    flow E f (ms ++ rest) = (do let (h, prev, rest) ← flow E f' rest; .ok (trees ++ h, prev, rest))

theorem res_id {α β γ : Type} (r : Res (α × β × γ)) : (do let (a, b, c) ← r; Res.ok (a, b, c)) = r := by
  cases r <;> rfl

theorem Nests.nil : Nests E [] [] := fun f rest hf => ⟨f, by simpa using hf, by
  simp only [List.nil_append]; exact (res_id _).symm⟩

theorem Nests.append {a b ta tb : List Graph} (ha : Nests E a ta) (hb : Nests E b tb) : Nests E (a ++ b) (ta ++ tb) := by
  intro f rest hf
  rw [List.append_assoc] at hf ⊢
  obtain ⟨f1, h1, h2⟩ := ha f (b ++ rest) hf
  obtain ⟨f2, h3, h4⟩ := hb f1 rest h1
  refine ⟨f2, h3, ?_⟩
  rw [h2, h4]
  cases flow E f2 rest with
  | panic => rfl
  | oof => rfl
  | ok r => obtain ⟨x, y, z⟩ := r; simp

theorem Nests.keep {n : Graph} (h : n.thisString E ∉ [b!"!if", b!"!for", b!"!else", b!"!elseif", b!"!end"]) : Nests E [n] [n] := by
  intro f rest hf
  cases f with
  | zero => simp at hf
  | succ f => exact ⟨f, by simpa using hf, flow_keep h f rest⟩

/-- These nodes end a body, and the branches go beside the opening node. -/
def Closes (E : Ext) (ms branches : List Graph) : Prop :=
  ∀ (f : Nat) (rest : List Graph), (ms ++ rest).length < f → flow E f (ms ++ rest) = .ok ([], branches, rest)

theorem Closes.done : Closes E [leaf b!"!end"] [] := by
  intro f rest hf
  cases f with
  | zero => simp at hf
  | succ f => exact flow_end f rest

/-- A body and its end. -/
theorem Nests.close {a b ta branches : List Graph} (ha : Nests E a ta) (hb : Closes E b branches) (f : Nat) (rest : List Graph)
    (hf : (a ++ b ++ rest).length < f) : flow E f (a ++ b ++ rest) = .ok (ta, branches, rest) := by
  rw [List.append_assoc] at hf ⊢
  obtain ⟨f1, h1, h2⟩ := ha f (b ++ rest) hf
  rw [h2, hb f1 rest h1]
  simp

theorem Nests.opening {s : Bytes} (h : s = b!"!if" ∨ s = b!"!for") {o a b ta branches : List Graph} (ha : Nests E a ta)
    (hb : Closes E b branches) : Nests E (.node (.str s) o :: (a ++ b)) (.node (.str s) (o ++ [.node (.str b!"!t") ta]) :: branches) := by
  intro f rest hf
  cases f with
  | zero => simp at hf
  | succ f =>
    simp only [List.cons_append, List.length_cons] at hf ⊢
    refine ⟨f, by simp at hf; omega, ?_⟩
    rw [flow_open h f o _ rest ta branches (Nests.close ha hb f rest (by omega))]
    rfl

theorem Closes.more {s : Bytes} (h : s = b!"!else" ∨ s = b!"!elseif") {o a b ta branches : List Graph} (ha : Nests E a ta)
    (hb : Closes E b branches) : Closes E (.node (.str s) o :: (a ++ b)) (.node (.str s) (o ++ [.node (.str b!"!t") ta]) :: branches) := by
  intro f rest hf
  cases f with
  | zero => simp at hf
  | succ f =>
    simp only [List.cons_append, List.length_cons] at hf ⊢
    exact flow_else h f o _ rest ta branches (Nests.close ha hb f rest (by omega))

mutual
theorem item_nests : ∀ (i : Item) (rest : Bytes), i.Ok E rest → Nests E i.mid i.trees
  | .plain s, rest, h => by
    simp only [Item.Ok] at h
    refine .keep ?_
    have := h.2.2.1
    simp only [markers, List.mem_cons, List.not_mem_nil, or_false, not_or] at this
    obtain ⟨m1, m2, m3, m4, m5, m6, m7, m8⟩ := this
    simp only [leaf, Graph.thisString, vstr, List.mem_cons, List.not_mem_nil, or_false, not_or]
    exact ⟨m3, m7, m5, m6, m4⟩
  | .dollar, rest, h => .keep (by simp only [leaf, Graph.thisString, vstr]; decide)
  | .var id ids _, rest, h => by
    simp only [Item.mid, Item.trees]
    exact .keep (by simp only [pathOf, Graph.thisString, vstr]; decide)
  | .expr x, rest, h => .keep (by simp only [exprOf, Graph.thisString, vstr]; decide)
  | .cond c body more, rest, h => by
    simp only [Item.Ok] at h
    exact .opening (.inl rfl) (items_nests body _ h.2.2.1) (branches_close more _ h.2.2.2)
  | .loop v id ids body, rest, h => by
    simp only [Item.Ok] at h
    exact .opening (.inr rfl) (items_nests body _ h.2.2.2.2.2.1) .done
  | .brk, rest, h => .keep (by simp only [leaf, Graph.thisString, vstr]; decide)
theorem items_nests : ∀ (i : Items) (rest : Bytes), i.Ok E rest → Nests E i.mid i.trees
  | .nil, rest, h => by simp only [Items.mid, Items.trees]; exact .nil
  | .cons i is, rest, h => by
    simp only [Items.Ok] at h
    exact .append (item_nests i _ h.1) (items_nests is _ h.2)
theorem branches_close : ∀ (i : Branches) (rest : Bytes), i.Ok E rest → Closes E i.mid i.trees
  | .done, rest, h => .done
  | .els body, rest, h => by
    simp only [Branches.Ok] at h
    exact .more (.inl rfl) (items_nests body _ h.2.1) .done
  | .elif c body more, rest, h => by
    simp only [Branches.Ok] at h
    exact .more (.inr rfl) (items_nests body _ h.2.2.1) (branches_close more _ h.2.2.2)
end

/-! ## The tree of a template -/

theorem piecesText_length (ps : List (Bytes × Graph)) (h : ∀ p ∈ ps, p.1 ≠ []) : ps.length ≤ (piecesText ps).length := by
  induction ps with
  | nil => simp
  | cons p ps ih =>
    have h1 : 0 < p.1.length := List.length_pos_iff.2 (h p (by simp))
    have h2 := ih fun q hq => h q (by simp [hq])
    have e : piecesText (p :: ps) = p.1 ++ piecesText ps := rfl
    rw [e]; simp; omega

theorem piecesOk_ne {L g : Nat} : ∀ {ps : List (Bytes × Graph)} {rest : Bytes}, PiecesOk E L g ps rest → ∀ p ∈ ps, p.1 ≠ []
  | (t, n) :: ps, rest, h, p, hp => by
    rcases List.mem_cons.1 hp with rfl | hp
    · rcases h.1 with h | h
      · exact h.1
      · intro h0; simp only at h0; rw [h0] at h; simp at h
    · exact piecesOk_ne h.2 p hp

theorem tokens_noNil : ∀ t : Grouping, NoNilL t.tokens := by
  intro t
  rw [← (Grouping.expr_spec t).2]; exact expr_noNil _

theorem pathOf_noNil (ids : List Bytes) : NoNil (pathOf ids) := by
  simp only [pathOf, NoNil]
  induction ids with
  | nil => simp [NoNilL]
  | cons s ss ih => simpa [NoNilL, leaf, NoNil] using ih

mutual
theorem item_piecesNoNil : ∀ i : Item, NoNilL (i.pieces.map Prod.snd)
  | .plain s => by simp [Item.pieces, NoNilL, leaf, NoNil]
  | .dollar => by simp [Item.pieces, NoNilL, leaf, NoNil]
  | .var id ids false => by simp [Item.pieces, NoNilL, pathOf_noNil]
  | .var id ids true => by simp [Item.pieces, NoNilL, pathOf_noNil]
  | .expr x => by simp [Item.pieces, NoNilL, NoNil, tokens_noNil]
  | .cond c body more => by
    simp only [Item.pieces, List.map_cons, List.map_append, List.cons_append]
    exact ⟨by simp [callNode, NoNil, NoNilL, leaf, tokens_noNil], noNilL_append' (items_piecesNoNil body) (branches_piecesNoNil more)⟩
  | .loop v id ids body => by
    simp only [Item.pieces, List.map_cons, List.map_append, List.cons_append, List.map_nil]
    exact ⟨by simp [callNode, NoNil, NoNilL, leaf, pathOf_noNil], noNilL_append' (items_piecesNoNil body) (by simp [wordNode, NoNil, NoNilL, leaf])⟩
  | .brk => by simp [Item.pieces, NoNilL, wordNode, leaf, NoNil]
theorem items_piecesNoNil : ∀ i : Items, NoNilL (i.pieces.map Prod.snd)
  | .nil => by simp [Items.pieces, NoNilL]
  | .cons i is => by
    simp only [Items.pieces, List.map_append]
    exact noNilL_append' (item_piecesNoNil i) (items_piecesNoNil is)
theorem branches_piecesNoNil : ∀ i : Branches, NoNilL (i.pieces.map Prod.snd)
  | .done => by simp [Branches.pieces, NoNilL, wordNode, leaf, NoNil]
  | .els body => by
    simp only [Branches.pieces, List.map_cons, List.map_append, List.cons_append, List.map_nil]
    exact ⟨by simp [wordNode, NoNil, NoNilL, leaf], noNilL_append' (items_piecesNoNil body) (by simp [wordNode, NoNil, NoNilL, leaf])⟩
  | .elif c body more => by
    simp only [Branches.pieces, List.map_cons, List.map_append, List.cons_append]
    exact ⟨by simp [callNode, NoNil, NoNilL, leaf, tokens_noNil], noNilL_append' (items_piecesNoNil body) (branches_piecesNoNil more)⟩
end

/-- What `NewTemplate` builds. -/
theorem newTemplate_run {is : Items} (h : is.Ok E [])
    (hr : runParser (template E (loopFuel is.text) (flowFuel is.text) (flowFuel is.text)) is.text = .ok (.node (.str b!"_") (is.pieces.map Prod.snd))) :
    newTemplate E is.text = .ok (.node (.str []) is.trees) := by
  unfold newTemplate
  rw [hr]
  obtain ⟨ns, h1, h2⟩ := items_marks (E := E) is [] h
  simp only [Res.ok_bind, Graph.ast, h1, Graph.out_node, h2]
  obtain ⟨f', h3, h4⟩ := items_nests (E := E) is [] h (is.mid.length + 1) [] (by simp)
  rw [List.append_nil] at h4
  rw [h4]
  cases f' with
  | zero => simp at h3
  | succ f' => simp [flow]

theorem template_consumes {is : Items} (h : is.Ok E []) :
    Consumes (template E (loopFuel is.text) (flowFuel is.text) (flowFuel is.text)) () is.text [] (is.pieces.map Prod.snd) := by
  have hp := items_pieces (E := E) (L := loopFuel is.text) (g := flowFuel is.text) is [] h (by simp only [flowFuel]; omega) (by simp [loopFuel])
  have hlen := piecesText_length is.pieces (piecesOk_ne hp)
  rw [is.pieces_text] at hlen
  have hr := template_reads is.pieces hp (flowFuel is.text) (by simp only [flowFuel]; omega) (by rw [is.pieces_text]; simp [loopFuel])
  rw [is.pieces_text] at hr
  exact hr

theorem newTemplate_exact {is : Items} (h : is.Ok E []) (hl : Fits is.text) :
    newTemplate E is.text = .ok (.node (.str []) is.trees) :=
  newTemplate_run h (runParser_consumes (fun _ hi => long_template hi E _ _ _) (template_consumes h) (items_piecesNoNil is) hl)

end
end Ogdl
