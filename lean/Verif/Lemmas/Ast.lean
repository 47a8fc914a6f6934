import Verif.Spec.Group
import Verif.Lemmas.PathParse

/-! Grouping by precedence: what `NewExpression` builds. -/

namespace Ogdl
open Spec

section
variable {E : Ext}

theorem precedence_op {s : Bytes} (h : Op s) : precedence s = some (level s) := by
  simp only [Op, List.mem_cons, List.not_mem_nil, or_false] at h
  rcases h with rfl | rfl | rfl | rfl | rfl | rfl | rfl | rfl | rfl | rfl | rfl | rfl | rfl | rfl | rfl | rfl | rfl | rfl | rfl <;> decide

theorem level_le (s : Bytes) : level s ≤ 5 := by
  unfold level
  repeat' split
  all_goals omega

theorem num_no_prec {s : Bytes} (h : Num s) : precedence s = none := by
  obtain ⟨sign, ds, fs, h1, h2, h3, h4, rfl⟩ := h
  cases ds with
  | nil => exact absurd rfl h2
  | cons d ds =>
    have hd := h3 d (by simp)
    have ne : ∀ c : UInt8, ¬ Digit c → d ≠ c := fun c hc h => hc (h ▸ hd)
    rcases h1 with rfl | rfl
    · unfold precedence
      simp only [List.nil_append, List.cons_append, List.cons.injEq]
      simp [ne 43 (by unfold Digit; decide), ne 45 (by unfold Digit; decide), ne 42 (by unfold Digit; decide), ne 47 (by unfold Digit; decide),
        ne 37 (by unfold Digit; decide), ne 61 (by unfold Digit; decide), ne 33 (by unfold Digit; decide), ne 62 (by unfold Digit; decide),
        ne 60 (by unfold Digit; decide), ne 124 (by unfold Digit; decide), ne 38 (by unfold Digit; decide)]
    · unfold precedence
      simp [ne 61 (by unfold Digit; decide)]

/-- An operand is not taken for an operator. -/
theorem opnd_no_prec {o : Opnd} (h : o.Ok E) : precedence (o.tree.thisString E) = none := by
  cases o with
  | path s es => simp only [Opnd.tree, Graph.thisString, vstr]; decide
  | num s => simp only [Opnd.tree, leaf, Graph.thisString, vstr]; exact num_no_prec h
  | str s => simp only [Opnd.tree, Graph.thisString, vstr]; decide
  | paren x => simp only [Opnd.tree, Graph.thisString, vstr]; decide

theorem astPass_skip {j : Nat} {n : Graph} (h : precedence (n.thisString E) ≠ some j) (pre rest : List Graph) :
    astPass E j pre (n :: rest) = astPass E j (n :: pre) rest := by
  rw [astPass.eq_def]; simp only [if_neg h]

theorem astPass_take {j : Nat} {n : Graph} (h : precedence (n.thisString E) = some j) (e1 e2 : Graph) (pre rest : List Graph) :
    astPass E j (e1 :: pre) (n :: e2 :: rest) = astPass E j (((n.add (.graph e1)).1.add (.graph e2)).1 :: pre) rest := by
  rw [astPass.eq_def]; simp only [if_pos h]

namespace Spec.Grouping

/-- The nodes when the operators from level `j` on have been put in place. -/
def flat (j : Nat) : Grouping → List Graph
  | .atom o => [o.tree]
  | .bin op l r => if level op < j then flat j l ++ leaf op :: flat j r else [(Grouping.bin op l r).tree]

theorem flat_atLeast {j : Nat} : ∀ {t : Grouping}, t.AtLeast j → t.flat j = [t.tree]
  | .atom o, _ => rfl
  | .bin op l r, h => by
    simp only [AtLeast] at h
    simp only [flat]
    rw [if_neg (by omega)]

theorem flat_all {j : Nat} (hj : 5 < j) : ∀ t : Grouping, t.flat j = t.tokens
  | .atom o => rfl
  | .bin op l r => by
    simp only [flat, tokens]
    rw [if_pos (by have := level_le op; omega), flat_all hj l, flat_all hj r]

theorem add_tree (s : Bytes) (l r : Grouping) :
    (((leaf s).add (.graph l.tree)).1.add (.graph r.tree)).1 = (Grouping.bin s l r).tree := by
  have hl : ∃ t o, l.tree = .node t o := by
    cases l with
    | atom o => cases o <;> exact ⟨_, _, rfl⟩
    | bin op l r => exact ⟨_, _, rfl⟩
  have hr : ∃ t o, r.tree = .node t o := by
    cases r with
    | atom o => cases o <;> exact ⟨_, _, rfl⟩
    | bin op l r => exact ⟨_, _, rfl⟩
  obtain ⟨t, o, hl⟩ := hl
  obtain ⟨t', o', hr⟩ := hr
  simp only [tree, hl, hr]
  rfl

/-- One pass puts the operators of level `j` in place. -/
theorem astPass_flat (j : Nat) : ∀ (t : Grouping), t.Ok E → ∀ (pre rest : List Graph),
    astPass E j pre (t.flat (j + 1) ++ rest) = astPass E j ((t.flat j).reverse ++ pre) rest
  | .atom o, h, pre, rest => by
    simp only [flat, List.cons_append, List.nil_append, List.reverse_cons, List.reverse_nil]
    exact astPass_skip (by rw [opnd_no_prec (E := E) h]; simp) pre rest
  | .bin op l r, h, pre, rest => by
    obtain ⟨hop, hl, hr, hlo, hro⟩ := h
    have hp : precedence ((leaf op).thisString E) = some (level op) := by
      simp only [leaf, Graph.thisString, vstr]; exact precedence_op hop
    have hp' : precedence ((Grouping.bin op l r).tree.thisString E) = some (level op) := by
      simp only [tree, Graph.thisString, vstr]; exact precedence_op hop
    rcases Nat.lt_trichotomy (level op) j with hj | hj | hj
    · have e1 : (Grouping.bin op l r).flat (j + 1) = l.flat (j + 1) ++ leaf op :: r.flat (j + 1) := by
        simp only [flat]; rw [if_pos (by omega)]
      have e2 : (Grouping.bin op l r).flat j = l.flat j ++ leaf op :: r.flat j := by
        simp only [flat]; rw [if_pos (by omega)]
      rw [e1, e2, List.append_assoc, astPass_flat j l hlo, List.cons_append,
        astPass_skip (by rw [hp]; simp; omega), astPass_flat j r hro]
      simp
    · have e1 : (Grouping.bin op l r).flat (j + 1) = l.flat (j + 1) ++ leaf op :: r.flat (j + 1) := by
        simp only [flat]; rw [if_pos (by omega)]
      have e2 : (Grouping.bin op l r).flat j = [(Grouping.bin op l r).tree] := by
        simp only [flat]; rw [if_neg (by omega)]
      rw [e1, e2, List.append_assoc, astPass_flat j l hlo, List.cons_append, flat_atLeast (hj ▸ hl),
        flat_atLeast (hj ▸ hr)]
      simp only [List.reverse_cons, List.reverse_nil, List.nil_append, List.cons_append]
      rw [astPass_take (by rw [hp, hj]), add_tree]
    · have e1 : (Grouping.bin op l r).flat (j + 1) = [(Grouping.bin op l r).tree] := by
        simp only [flat]; rw [if_neg (by omega)]
      have e2 : (Grouping.bin op l r).flat j = [(Grouping.bin op l r).tree] := by
        simp only [flat]; rw [if_neg (by omega)]
      rw [e1, e2, List.cons_append, astPass_skip (by rw [hp']; simp; omega)]
      simp

theorem astPasses_flat {t : Grouping} (h : t.Ok E) : ∀ j, astPasses E j (t.flat j) = .ok [t.tree]
  | 0 => by
    have : t.flat 0 = [t.tree] := flat_atLeast (by cases t <;> simp [AtLeast])
    rw [this]; rfl
  | j + 1 => by
    have := astPass_flat j t h [] []
    rw [List.append_nil, List.append_nil] at this
    simp only [astPasses, this, astPass, List.reverse_reverse, Res.ok_bind]
    exact astPasses_flat h j

theorem astPasses_tokens {t : Grouping} (h : t.Ok E) : astPasses E 7 t.tokens = .ok [t.tree] := by
  rw [← flat_all (j := 7) (by omega) t]; exact astPasses_flat h 7

/-- Adding an operator and an operand at the end. -/
def snoc (s : Bytes) (a : Opnd) : Grouping → Grouping
  | .atom o => .bin s (.atom o) (.atom a)
  | .bin op l r => if level op < level s then .bin op l (snoc s a r) else .bin s (.bin op l r) (.atom a)

theorem snoc_tokens (s : Bytes) (a : Opnd) : ∀ t : Grouping, (t.snoc s a).tokens = t.tokens ++ [leaf s, a.tree]
  | .atom o => rfl
  | .bin op l r => by
    simp only [snoc]
    split
    · simp [tokens, snoc_tokens s a r]
    · simp [tokens]

theorem snoc_text (s : Bytes) (a : Opnd) : ∀ t : Grouping, (t.snoc s a).text = t.text ++ 32 :: s ++ 32 :: a.text
  | .atom o => rfl
  | .bin op l r => by
    simp only [snoc]
    split
    · simp [text, snoc_text s a r]
    · simp [text]

theorem snoc_atLeast {s : Bytes} {a : Opnd} {k : Nat} (hk : k ≤ level s) : ∀ {t : Grouping}, t.AtLeast k → (t.snoc s a).AtLeast k
  | .atom o, _ => hk
  | .bin op l r, h => by
    simp only [snoc]
    split
    · exact h
    · exact hk

theorem snoc_ok {s : Bytes} {a : Opnd} (hs : Op s) (ha : a.Ok E) : ∀ {t : Grouping}, t.Ok E → (t.snoc s a).Ok E
  | .atom o, h => ⟨hs, trivial, trivial, h, ha⟩
  | .bin op l r, h => by
    obtain ⟨h1, h2, h3, h4, h5⟩ := h
    simp only [snoc]
    split
    next hlt => exact ⟨h1, h2, snoc_atLeast (by omega) h3, h4, snoc_ok hs ha h5⟩
    next hlt => exact ⟨hs, by simp only [AtLeast]; omega, trivial, ⟨h1, h2, h3, h4, h5⟩, ha⟩

/-- Adding a whole sequence at the end. -/
def extend (t : Grouping) (s : Bytes) : Expr → Grouping
  | .one o => t.snoc s o
  | .op o s' x => (t.snoc s o).extend s' x

theorem extend_spec : ∀ (x : Expr) (t : Grouping) (s : Bytes), Op s → x.Ok E → t.Ok E →
    (t.extend s x).Ok E ∧ (t.extend s x).tokens = t.tokens ++ leaf s :: x.trees ∧
    (t.extend s x).text = t.text ++ 32 :: s ++ 32 :: x.text
  | .one o, t, s, hs, hx, ht => ⟨snoc_ok hs hx ht, by simp [extend, snoc_tokens, Expr.trees], by simp [extend, snoc_text, Expr.text]⟩
  | .op o s' x, t, s, hs, hx, ht => by
    obtain ⟨h1, h2, h3⟩ := hx
    obtain ⟨i1, i2, i3⟩ := extend_spec x (t.snoc s o) s' h2 h3 (snoc_ok hs h1 ht)
    exact ⟨i1, by simp [extend, i2, snoc_tokens, Expr.trees], by simp [extend, i3, snoc_text, Expr.text]⟩

/-- The grouping of a sequence. -/
def ofExpr : Expr → Grouping
  | .one o => .atom o
  | .op o s x => (Grouping.atom o).extend s x

theorem ofExpr_spec (x : Expr) (hx : x.Ok E) : (ofExpr x).Ok E ∧ (ofExpr x).tokens = x.trees ∧ (ofExpr x).text = x.text := by
  cases x with
  | one o => exact ⟨hx, rfl, rfl⟩
  | op o s x =>
    obtain ⟨h1, h2, h3⟩ := hx
    obtain ⟨i1, i2, i3⟩ := extend_spec (E := E) x (.atom o) s h2 h3 h1
    exact ⟨i1, i2, i3⟩

end Spec.Grouping

/-! ## Nothing to do inside operands without argument lists -/

theorem astList_leaf (v : Val) (ns : List Graph) :
    Graph.astList E (.node v [] :: ns) = (do let ns' ← Graph.astList E ns; .ok (.node v [] :: ns')) := by
  rw [Graph.astList]
  split
  · simp [Graph.astBody]
  · simp [Graph.astList]

theorem astList_node {v : Val} {o o' : List Graph} (hv : vstr E v ≠ tyExpression) (ho : Graph.astList E o = .ok o') (ns : List Graph) :
    Graph.astList E (.node v o :: ns) = (do let ns' ← Graph.astList E ns; .ok (.node v o' :: ns')) := by
  rw [Graph.astList, if_neg hv, ho]
  rfl

theorem not_tyExpression {s : Bytes} (h : s ≠ b!"!e") : vstr E (.str s) ≠ tyExpression := by
  simp only [vstr]; exact h

namespace Spec.Grouped

/-- Grouped by precedence, and no operand looks like an operator. -/
def AtLeast (k : Nat) : Grouped → Prop
  | .atom _ => True
  | .bin op _ _ => k ≤ level op

def Ok (E : Ext) : Grouped → Prop
  | .atom n => precedence (n.thisString E) = none ∧ ∃ t o, n = .node t o
  | .bin op l r => Op op ∧ l.AtLeast (level op) ∧ r.AtLeast (level op + 1) ∧ l.Ok E ∧ r.Ok E

def tokens : Grouped → List Graph
  | .atom n => [n]
  | .bin op l r => l.tokens ++ leaf op :: r.tokens

/-- The nodes when the operators from level `j` on have been put in place. -/
def flat (j : Nat) : Grouped → List Graph
  | .atom n => [n]
  | .bin op l r => if level op < j then flat j l ++ leaf op :: flat j r else [(Grouped.bin op l r).tree]

theorem flat_atLeast {j : Nat} : ∀ {t : Grouped}, t.AtLeast j → t.flat j = [t.tree]
  | .atom o, _ => rfl
  | .bin op l r, h => by
    simp only [AtLeast] at h
    simp only [flat]
    rw [if_neg (by omega)]

theorem flat_all {j : Nat} (hj : 5 < j) : ∀ t : Grouped, t.flat j = t.tokens
  | .atom o => rfl
  | .bin op l r => by
    simp only [flat, tokens]
    rw [if_pos (by have := level_le op; omega), flat_all hj l, flat_all hj r]

theorem tree_node : ∀ {t : Grouped}, t.Ok E → ∃ v o, t.tree = .node v o
  | .atom n, h => h.2
  | .bin op l r, _ => ⟨_, _, rfl⟩

theorem add_tree {s : Bytes} {l r : Grouped} (hl : l.Ok E) (hr : r.Ok E) :
    (((leaf s).add (.graph l.tree)).1.add (.graph r.tree)).1 = (Grouped.bin s l r).tree := by
  obtain ⟨t, o, hl⟩ := tree_node hl
  obtain ⟨t', o', hr⟩ := tree_node hr
  simp only [tree, hl, hr]
  rfl

/-- One pass puts the operators of level `j` in place. -/
theorem astPass_flat (j : Nat) : ∀ (t : Grouped), t.Ok E → ∀ (pre rest : List Graph),
    astPass E j pre (t.flat (j + 1) ++ rest) = astPass E j ((t.flat j).reverse ++ pre) rest
  | .atom o, h, pre, rest => by
    simp only [flat, List.cons_append, List.nil_append, List.reverse_cons, List.reverse_nil]
    exact astPass_skip (by rw [h.1]; simp) pre rest
  | .bin op l r, h, pre, rest => by
    obtain ⟨hop, hl, hr, hlo, hro⟩ := h
    have hp : precedence ((leaf op).thisString E) = some (level op) := by
      simp only [leaf, Graph.thisString, vstr]; exact precedence_op hop
    have hp' : precedence ((Grouped.bin op l r).tree.thisString E) = some (level op) := by
      simp only [tree, Graph.thisString, vstr]; exact precedence_op hop
    rcases Nat.lt_trichotomy (level op) j with hj | hj | hj
    · have e1 : (Grouped.bin op l r).flat (j + 1) = l.flat (j + 1) ++ leaf op :: r.flat (j + 1) := by
        simp only [flat]; rw [if_pos (by omega)]
      have e2 : (Grouped.bin op l r).flat j = l.flat j ++ leaf op :: r.flat j := by
        simp only [flat]; rw [if_pos (by omega)]
      rw [e1, e2, List.append_assoc, astPass_flat j l hlo, List.cons_append,
        astPass_skip (by rw [hp]; simp; omega), astPass_flat j r hro]
      simp
    · have e1 : (Grouped.bin op l r).flat (j + 1) = l.flat (j + 1) ++ leaf op :: r.flat (j + 1) := by
        simp only [flat]; rw [if_pos (by omega)]
      have e2 : (Grouped.bin op l r).flat j = [(Grouped.bin op l r).tree] := by
        simp only [flat]; rw [if_neg (by omega)]
      rw [e1, e2, List.append_assoc, astPass_flat j l hlo, List.cons_append, flat_atLeast (hj ▸ hl),
        flat_atLeast (hj ▸ hr)]
      simp only [List.reverse_cons, List.reverse_nil, List.nil_append, List.cons_append]
      rw [astPass_take (by rw [hp, hj]), add_tree hlo hro]
    · have e1 : (Grouped.bin op l r).flat (j + 1) = [(Grouped.bin op l r).tree] := by
        simp only [flat]; rw [if_neg (by omega)]
      have e2 : (Grouped.bin op l r).flat j = [(Grouped.bin op l r).tree] := by
        simp only [flat]; rw [if_neg (by omega)]
      rw [e1, e2, List.cons_append, astPass_skip (by rw [hp']; simp; omega)]
      simp

theorem astPasses_flat {t : Grouped} (h : t.Ok E) : ∀ j, astPasses E j (t.flat j) = .ok [t.tree]
  | 0 => by
    have : t.flat 0 = [t.tree] := flat_atLeast (by cases t <;> simp [AtLeast])
    rw [this]; rfl
  | j + 1 => by
    have := astPass_flat j t h [] []
    rw [List.append_nil, List.append_nil] at this
    simp only [astPasses, this, astPass, List.reverse_reverse, Res.ok_bind]
    exact astPasses_flat h j

theorem astPasses_tokens {t : Grouped} (h : t.Ok E) : astPasses E 7 t.tokens = .ok [t.tree] := by
  rw [← flat_all (j := 7) (by omega) t]; exact astPasses_flat h 7

theorem snoc_tokens (s : Bytes) (a : Graph) : ∀ t : Grouped, (t.snoc s a).tokens = t.tokens ++ [leaf s, a]
  | .atom o => rfl
  | .bin op l r => by
    simp only [snoc]
    split
    · simp [tokens, snoc_tokens s a r]
    · simp [tokens]

theorem snoc_atLeast {s : Bytes} {a : Graph} {k : Nat} (hk : k ≤ level s) : ∀ {t : Grouped}, t.AtLeast k → (t.snoc s a).AtLeast k
  | .atom o, _ => hk
  | .bin op l r, h => by
    simp only [snoc]
    split
    · exact h
    · exact hk

theorem snoc_ok {s : Bytes} {a : Graph} (hs : Op s) (ha : (Grouped.atom a).Ok E) : ∀ {t : Grouped}, t.Ok E → (t.snoc s a).Ok E
  | .atom o, h => ⟨hs, trivial, trivial, h, ha⟩
  | .bin op l r, h => by
    obtain ⟨h1, h2, h3, h4, h5⟩ := h
    simp only [snoc]
    split
    next hlt => exact ⟨h1, h2, snoc_atLeast (by omega) h3, h4, snoc_ok hs ha h5⟩
    next hlt => exact ⟨hs, by simp only [AtLeast]; omega, trivial, ⟨h1, h2, h3, h4, h5⟩, ha⟩

end Spec.Grouped

theorem opnd_full_ok {o : Opnd} (h : o.Ok E) : (Grouped.atom o.full).Ok E := by
  cases o with
  | path s es => exact ⟨by simp only [Opnd.full, Graph.thisString, vstr]; decide, _, _, rfl⟩
  | num s => exact ⟨by simp only [Opnd.full, leaf, Graph.thisString, vstr]; exact num_no_prec h, _, _, rfl⟩
  | str s => exact ⟨by simp only [Opnd.full, Graph.thisString, vstr]; decide, _, _, rfl⟩
  | paren x => exact ⟨by simp only [Opnd.full, Graph.thisString, vstr]; decide, _, _, rfl⟩

theorem extend_fulls : ∀ (x : Expr) (t : Grouped) (s : Bytes), Op s → x.Ok E → t.Ok E →
    (t.extend (leaf s :: x.fulls)).Ok E ∧ (t.extend (leaf s :: x.fulls)).tokens = t.tokens ++ leaf s :: x.fulls
  | .one o, t, s, hs, hx, ht => by
    simp only [Expr.fulls, leaf, Grouped.extend]
    exact ⟨Grouped.snoc_ok hs (opnd_full_ok hx) ht, Grouped.snoc_tokens _ _ _⟩
  | .op o s' x, t, s, hs, hx, ht => by
    obtain ⟨h1, h2, h3⟩ := hx
    obtain ⟨i1, i2⟩ := extend_fulls x (t.snoc s o.full) s' h2 h3 (Grouped.snoc_ok hs (opnd_full_ok h1) ht)
    have e : t.extend (leaf s :: (Expr.op o s' x).fulls) = (t.snoc s o.full).extend (leaf s' :: x.fulls) := rfl
    rw [e]
    exact ⟨i1, by rw [i2, Grouped.snoc_tokens]; simp [Expr.fulls]⟩

theorem astEach_of_list : ∀ (o : List Graph), (∀ n ∈ o, vstr E n.this ≠ tyExpression ∨ n.out = []) → Graph.astEach E o = Graph.astList E o
  | [], _ => by simp only [Graph.astEach, Graph.astList]
  | .nil :: ns, h => by
    simp only [Graph.astEach, Graph.astList, astEach_of_list ns fun n hn => h n (by simp [hn])]
  | .node t k :: ns, h => by
    have ih := astEach_of_list ns fun n hn => h n (by simp [hn])
    rcases h (.node t k) (by simp) with h | h
    · simp only [Graph.this_node] at h
      rw [Graph.astEach, Graph.astList, if_neg h, ih]
      cases Graph.astList E k <;> rfl
    · simp only [Graph.out_node] at h
      subst h
      rw [astList_leaf, Graph.astEach, ih]
      simp [Graph.astList]

theorem expr_nodes : ∀ (x : Expr), ∀ n ∈ x.trees, vstr E n.this ≠ tyExpression ∨ n.out = []
  | .one o, n, h => by
    simp only [Expr.trees, List.mem_singleton] at h
    subst h
    cases o with
    | path s es => exact .inl (not_tyExpression (by decide))
    | num s => exact .inr rfl
    | str s => exact .inl (not_tyExpression (by decide))
    | paren x => exact .inl (not_tyExpression (by decide))
  | .op o s x, n, h => by
    simp only [Expr.trees, List.mem_cons] at h
    rcases h with rfl | rfl | h
    · cases o with
      | path s es => exact .inl (not_tyExpression (by decide))
      | num s => exact .inr rfl
      | str s => exact .inl (not_tyExpression (by decide))
      | paren x => exact .inl (not_tyExpression (by decide))
    · exact .inr rfl
    · exact expr_nodes x n h

theorem expr_length (x : Expr) : x.trees.length = 1 ∨ 3 ≤ x.trees.length := by
  cases x with
  | one o => exact .inl rfl
  | op o s x =>
    right
    cases x <;> simp [Expr.trees]

mutual
theorem elem_ast : ∀ e : Elem, e.Ok E → ∀ ns, Graph.astList E (e.tree :: ns) = (do let ns' ← Graph.astList E ns; .ok (e.full :: ns'))
  | .name s, _, ns => astList_leaf _ _
  | .quoted s, _, ns => astList_leaf _ _
  | .index x, h, ns => astList_node (not_tyExpression (by decide)) (expr_ast x h) ns
  | .all, _, ns => astList_leaf _ _
  | .select x, h, ns => astList_node (not_tyExpression (by decide)) (expr_ast x h) ns
  | .call as, h, ns => astList_node (not_tyExpression (by decide)) (args_ast as h) ns
  | .group as, h, ns => astList_node (not_tyExpression (by decide)) (args_ast as h) ns
theorem elems_ast : ∀ es : Elems, es.Ok E → Graph.astList E es.trees = .ok es.fulls
  | .nil, _ => by simp only [Elems.trees, Elems.fulls, Graph.astList]
  | .cons e es, h => by
    simp only [Elems.Ok] at h
    simp only [Elems.trees, elem_ast e h.1, elems_ast es h.2]; rfl
theorem opnd_ast : ∀ o : Opnd, o.Ok E → ∀ ns, Graph.astList E (o.tree :: ns) = (do let ns' ← Graph.astList E ns; .ok (o.full :: ns'))
  | .path s es, h, ns => by
    simp only [Opnd.Ok] at h
    exact astList_node (not_tyExpression (by decide)) (by rw [leaf, astList_leaf, elems_ast es h.2.2]; rfl) ns
  | .num s, _, ns => astList_leaf _ _
  | .str s, _, ns => astList_node (not_tyExpression (by decide)) (by simp only [leaf, astList_leaf, Graph.astList]; rfl) ns
  | .paren x, h, ns => astList_node (not_tyExpression (by decide)) (expr_ast x h) ns
theorem expr_ast : ∀ x : Expr, x.Ok E → Graph.astList E x.trees = .ok x.fulls
  | .one o, h => by simp only [Expr.trees, opnd_ast o h, Graph.astList]; rfl
  | .op o s x, h => by
    simp only [Expr.Ok] at h
    rw [Expr.trees, opnd_ast o h.1, leaf, astList_leaf, expr_ast x h.2.2]; rfl
theorem args_ast : ∀ as : Args, as.Ok E → Graph.astList E as.trees = .ok as.fulls
  | .nil, _ => by simp only [Args.trees, Args.fulls, Graph.astList]
  | .cons x as, h => by
    simp only [Args.Ok] at h
    rw [Args.trees, Graph.astList, if_pos (by simp only [vstr]; rfl), astBody_expr x h.1, args_ast as h.2]; rfl
theorem astBody_expr : ∀ x : Expr, x.Ok E → Graph.astBody E (.str b!"!e") x.trees = .ok (.node (.str b!"!e") [x.argument])
  | .one o, h => by
    rw [Graph.astBody, if_pos (by simp [Expr.trees])]; rfl
  | .op o s x, h => by
    have h' := h
    simp only [Expr.Ok] at h'
    have hl : 3 ≤ (Expr.op o s x).trees.length := by cases x <;> simp [Expr.trees]
    have hf : Graph.astList E (Expr.op o s x).trees = .ok (Expr.op o s x).fulls := by
      rw [Expr.trees, opnd_ast o h'.1, leaf, astList_leaf, expr_ast x h'.2.2]; rfl
    have hl' : 3 ≤ (Expr.op o s x).fulls.length := by cases x <;> simp [Expr.fulls]
    obtain ⟨g1, g2⟩ := extend_fulls (E := E) x (.atom o.full) s h'.2.1 h'.2.2 (opnd_full_ok h'.1)
    rw [Graph.astBody, if_neg (by omega), astEach_of_list _ (expr_nodes _), hf]
    simp only [Res.ok_bind]
    have := Grouped.astPasses_tokens g1
    rw [g2] at this
    have e : (Grouped.atom o.full).tokens ++ leaf s :: x.fulls = (Expr.op o s x).fulls := rfl
    rw [e] at this
    match hxt : (Expr.op o s x).fulls, hl', this with
    | [_, _], h, _ => simp at h
    | [], h, _ => simp at h
    | [_], h, _ => simp at h
    | a :: b :: c :: l, _, this => simp only [this, Res.ok_bind]; rfl
end

theorem fulls_length : ∀ x : Expr, x.fulls.length = x.trees.length
  | .one o => rfl
  | .op o s x => by simp [Expr.fulls, Expr.trees, fulls_length x]

theorem nodes_ok : ∀ {t : Grouping}, t.Ok E → t.nodes.Ok E ∧ ∀ k, t.AtLeast k → t.nodes.AtLeast k
  | .atom o, h => ⟨opnd_full_ok h, fun _ _ => trivial⟩
  | .bin op l r, h => ⟨⟨h.1, (nodes_ok h.2.2.2.1).2 _ h.2.1, (nodes_ok h.2.2.2.2).2 _ h.2.2.1, (nodes_ok h.2.2.2.1).1, (nodes_ok h.2.2.2.2).1⟩, fun _ hk => hk⟩

/-- `_ast` of a sequence gives the tree of its grouping. -/
theorem astBody_tokens {x : Expr} (hx : x.Ok E) {t : Grouping} (ht : t.Ok E) (htx : t.tokens = x.trees) (htf : t.nodes.tokens = x.fulls) :
    Graph.astBody E (.str b!"!e") x.trees = .ok (.node (.str b!"!e") [t.full]) := by
  rw [Graph.astBody]
  rcases expr_length x with h | h
  · rw [if_pos (by omega)]
    cases t with
    | atom o => simp only [Grouping.tokens] at htx; rw [← htx]; rfl
    | bin op l r =>
      rw [← htx] at h
      simp only [Grouping.tokens, List.length_append, List.length_cons] at h
      exfalso
      have : 0 < l.tokens.length := by cases l <;> simp [Grouping.tokens] <;> omega
      omega
  · rw [if_neg (by omega), astEach_of_list _ (expr_nodes x), expr_ast x hx]
    simp only [Res.ok_bind]
    have := Grouped.astPasses_tokens (E := E) (nodes_ok ht).1
    rw [htf] at this
    have hl : x.fulls.length = x.trees.length := fulls_length x
    have hfull : t.full = t.nodes.tree := by
      cases t with
      | atom o => rw [← htx] at h; simp [Grouping.tokens] at h
      | bin op l r => rfl
    rw [← hl] at h
    rw [hfull]
    match hxt : x.fulls, h, this with
    | [_, _], h, _ => simp at h
    | [], h, _ => simp at h
    | [_], h, _ => simp at h
    | a :: b :: c :: l, _, this => simp only [this, Res.ok_bind]

theorem Spec.Grouping.snoc_nodes (s : Bytes) (a : Opnd) : ∀ t : Grouping, (t.snoc s a).nodes.tokens = t.nodes.tokens ++ [leaf s, a.full]
  | .atom o => rfl
  | .bin op l r => by
    simp only [Grouping.snoc]
    split
    · simp [Grouping.nodes, Grouped.tokens, Grouping.snoc_nodes s a r]
    · simp [Grouping.nodes, Grouped.tokens]

theorem Spec.Grouping.extend_nodes : ∀ (x : Expr) (t : Grouping) (s : Bytes), (t.extend s x).nodes.tokens = t.nodes.tokens ++ leaf s :: x.fulls
  | .one o, t, s => by simp [Grouping.extend, Grouping.snoc_nodes, Expr.fulls]
  | .op o s' x, t, s => by simp [Grouping.extend, Grouping.extend_nodes x, Grouping.snoc_nodes, Expr.fulls]

theorem Spec.Grouping.ofExpr_nodes (x : Expr) : (Grouping.ofExpr x).nodes.tokens = x.fulls := by
  cases x with
  | one o => rfl
  | op o s x => rw [Grouping.ofExpr, Grouping.extend_nodes]; rfl

/-- What `NewExpression` builds. -/
theorem newExpression_exact {x : Expr} (hx : x.Ok E) (hl : Fits x.text) {t : Grouping}
    (ht : t.Ok E) (htx : t.tokens = x.trees) (htf : t.nodes.tokens = x.fulls) :
    newExpression E x.text = .ok (.node (.str b!"!e") [t.full]) := by
  unfold newExpression
  rw [rawExpr_exact E x hx hl]
  simp only [Res.ok_bind]
  exact astBody_tokens hx ht htx htf

/-! ### Without argument lists nothing changes -/

mutual
theorem Spec.Elem.full_noArgs : ∀ e : Elem, e.NoArgs → e.full = e.tree
  | .name s, _ => rfl
  | .quoted s, _ => rfl
  | .index x, h => by simp only [Elem.full, Elem.tree, Expr.fulls_noArgs x h]
  | .all, _ => rfl
  | .select x, h => by simp only [Elem.full, Elem.tree, Expr.fulls_noArgs x h]
theorem Spec.Elems.fulls_noArgs : ∀ es : Elems, es.NoArgs → es.fulls = es.trees
  | .nil, _ => rfl
  | .cons e es, h => by
    simp only [Elems.NoArgs] at h
    simp only [Elems.fulls, Elems.trees, Elem.full_noArgs e h.1, Elems.fulls_noArgs es h.2]
theorem Spec.Opnd.full_noArgs : ∀ o : Opnd, o.NoArgs → o.full = o.tree
  | .path s es, h => by simp only [Opnd.full, Opnd.tree, Elems.fulls_noArgs es h]
  | .num s, _ => rfl
  | .str s, _ => rfl
  | .paren x, h => by simp only [Opnd.full, Opnd.tree, Expr.fulls_noArgs x h]
theorem Spec.Expr.fulls_noArgs : ∀ x : Expr, x.NoArgs → x.fulls = x.trees
  | .one o, h => by simp only [Expr.fulls, Expr.trees, Opnd.full_noArgs o h]
  | .op o s x, h => by
    simp only [Expr.NoArgs] at h
    simp only [Expr.fulls, Expr.trees, Opnd.full_noArgs o h.1, Expr.fulls_noArgs x h.2]
end

theorem Spec.Grouping.nodes_noArgs : ∀ t : Grouping, t.NoArgs → t.nodes.tree = t.tree
  | .atom o, h => Opnd.full_noArgs o h
  | .bin op l r, h => by
    simp only [Grouping.nodes, Grouped.tree, Grouping.tree, Grouping.nodes_noArgs l h.1, Grouping.nodes_noArgs r h.2]

theorem Spec.Grouping.full_noArgs (t : Grouping) (h : t.NoArgs) : t.full = t.tree := by
  cases t with
  | atom o => rfl
  | bin op l r => exact Grouping.nodes_noArgs (.bin op l r) h

theorem Spec.Grouping.snoc_noArgs {s : Bytes} {a : Opnd} (ha : a.NoArgs) : ∀ {t : Grouping}, t.NoArgs → (t.snoc s a).NoArgs
  | .atom o, h => ⟨h, ha⟩
  | .bin op l r, h => by
    simp only [Grouping.snoc]
    split
    · exact ⟨h.1, Grouping.snoc_noArgs ha h.2⟩
    · exact ⟨h, ha⟩

theorem Spec.Grouping.extend_noArgs : ∀ (x : Expr) (t : Grouping) (s : Bytes), x.NoArgs → t.NoArgs → (t.extend s x).NoArgs
  | .one o, t, s, h, ht => Grouping.snoc_noArgs h ht
  | .op o s' x, t, s, h, ht => by
    simp only [Expr.NoArgs] at h
    exact Grouping.extend_noArgs x _ s' h.2 (Grouping.snoc_noArgs h.1 ht)

theorem Spec.Grouping.ofExpr_noArgs (x : Expr) (h : x.NoArgs) : (Grouping.ofExpr x).NoArgs := by
  cases x with
  | one o => exact h
  | op o s x =>
    simp only [Expr.NoArgs] at h
    exact Grouping.extend_noArgs x _ s h.2 h.1

end
end Ogdl
