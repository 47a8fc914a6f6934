import Verif.Lemmas.TemplateFlow
import Verif.Lemmas.EvalMono

/-! Processing a template, node by node. -/

namespace Ogdl
open Spec Lex

instance : LawfulMonad EvalM := LawfulMonad.mk'
  (id_map := by
    intro α x; funext g
    show (match x g with | .ok (a, g') => _ | .panic => _ | .oof => _) = x g
    cases x g <;> rfl)
  (pure_bind := by intros; rfl)
  (bind_assoc := by
    intro α β γ x f h; funext g
    show (match (match x g with | .ok (a, g') => f a g' | .panic => .panic | .oof => .oof) with | .ok (a, g') => h a g' | .panic => .panic | .oof => .oof) = _
    show _ = (match x g with | .ok (a, g') => (f a >>= h) g' | .panic => .panic | .oof => .oof)
    cases x g <;> rfl)

theorem EvalM.bind_ok {α β : Type} {x : EvalM α} {f : α → EvalM β} {g g' : Graph} {a : α} (h : x g = .ok (a, g')) : (x >>= f) g = f a g' := by
  show (match x g with | .ok (a, g') => f a g' | .panic => .panic | .oof => .oof) = _
  rw [h]

theorem EvalM.ok_of_bind {α β : Type} {x : EvalM α} {f : α → EvalM β} {g g'' : Graph} {b : β} (h : (x >>= f) g = .ok (b, g'')) :
    ∃ a g', x g = .ok (a, g') ∧ f a g' = .ok (b, g'') := by
  have h : (match x g with | .ok (a, g') => f a g' | .panic => .panic | .oof => .oof) = .ok (b, g'') := h
  cases hx : x g with
  | ok r => obtain ⟨a, g'⟩ := r; rw [hx] at h; exact ⟨a, g', rfl, h⟩
  | panic => rw [hx] at h; cases h
  | oof => rw [hx] at h; cases h

theorem EvalM.bind_left {α β : Type} {x y : EvalM α} {f : α → EvalM β} {g g' : Graph} (h : x g = y g') : (x >>= f) g = (y >>= f) g' := by
  show (match x g with | .ok (a, g') => f a g' | .panic => .panic | .oof => .oof) =
    (match y g' with | .ok (a, g') => f a g' | .panic => .panic | .oof => .oof)
  rw [h]

section
variable {E : Ext}

def Proc.andThen (r r' : Proc) : Proc := ⟨r'.brk, r.out ++ r'.out, r.loops ++ r'.loops⟩

/-- The condition of an `if` or `elseif` node. -/
def procCond (E : Ext) (n : Graph) : EvalM Bool := do
  let a ← .lift (n.getAt 0)
  let x ← .lift (a.getAt 0)
  evalBool E (evalFuel x + 1) x

/-- What `process` does at one node that is no `break`. -/
def procNode (E : Ext) (sub : Graph → EvalM Proc) (n : Graph) (yes : Bool) : EvalM (Proc × Bool) :=
  let s := n.thisString E
  if s = tyPath then do
    let (v, _) ← eval E (evalFuel n) n
    let t ← .lift (vtext E v)
    pure (⟨false, t, []⟩, yes)
  else if s = tyExpression then do
    let _ ← eval E (evalFuel n) n
    pure (⟨false, [], []⟩, yes)
  else if s = tyIf then do
    let b ← procCond E n
    if b then do
      let t ← .lift (n.getAt 1)
      let r ← sub t
      pure (r, true)
    else pure (⟨false, [], []⟩, false)
  else if s = tyElseIf then
    if yes then pure (⟨false, [], []⟩, true)
    else do
      let b ← procCond E n
      if b then do
        let t ← .lift (n.getAt 1)
        let r ← sub t
        pure (r, true)
      else pure (⟨false, [], []⟩, false)
  else if s = tyElse then
    if yes then pure (⟨false, [], []⟩, true)
    else do
      let t ← .lift (n.getAt 0)
      let r ← sub t
      pure (r, false)
  else if s = tyFor then do
    let r ← forNode E sub n
    pure (r, yes)
  else pure (⟨false, s, []⟩, yes)

theorem procNodes_cons (sub : Graph → EvalM Proc) {n : Graph} (h : n.thisString E ≠ b!"!break") (rest : List Graph) (yes : Bool) :
    procNodes E sub (n :: rest) yes = (do
      let (r, y) ← procNode E sub n yes
      let r' ← procNodes E sub rest y
      pure (r.andThen r')) := by
  rw [procNodes]
  dsimp only
  unfold procNode
  dsimp only
  have hb : ¬ n.thisString E = tyBreak := h
  by_cases h1 : n.thisString E = tyPath
  · rw [if_pos h1, if_pos h1]; simp only [bind_assoc, pure_bind]; rfl
  rw [if_neg h1, if_neg h1]
  by_cases h2 : n.thisString E = tyExpression
  · rw [if_pos h2, if_pos h2]; simp only [bind_assoc, pure_bind]; rfl
  rw [if_neg h2, if_neg h2]
  by_cases h3 : n.thisString E = tyIf
  · rw [if_pos h3, if_pos h3]; simp only [procCond, bind_assoc]
    congr 1; funext a; congr 1; funext x; congr 1; funext b
    cases b
    · simp only [Bool.false_eq_true, ↓reduceIte, pure_bind]; rfl
    · simp only [↓reduceIte, bind_assoc, pure_bind]; rfl
  rw [if_neg h3, if_neg h3]
  by_cases h4 : n.thisString E = tyElseIf
  · rw [if_pos h4, if_pos h4]
    cases yes
    · simp only [procCond, bind_assoc, Bool.false_eq_true, ↓reduceIte]
      congr 1; funext a; congr 1; funext x; congr 1; funext b
      cases b
      · simp only [Bool.false_eq_true, ↓reduceIte, pure_bind]; rfl
      · simp only [↓reduceIte, bind_assoc, pure_bind]; rfl
    · simp only [↓reduceIte, pure_bind]; rfl
  rw [if_neg h4, if_neg h4]
  by_cases h5 : n.thisString E = tyElse
  · rw [if_pos h5, if_pos h5]
    cases yes
    · simp only [Bool.false_eq_true, ↓reduceIte, bind_assoc, pure_bind]; rfl
    · simp only [↓reduceIte, pure_bind]; rfl
  rw [if_neg h5, if_neg h5]
  by_cases h6 : n.thisString E = tyFor
  · rw [if_pos h6, if_pos h6]; simp only [bind_assoc, pure_bind]; rfl
  rw [if_neg h6, if_neg h6, if_neg hb]
  simp only [pure_bind]; rfl

theorem procNodes_break (sub : Graph → EvalM Proc) {n : Graph} (h : n.thisString E = b!"!break") (rest : List Graph) (yes : Bool) :
    procNodes E sub (n :: rest) yes = pure ⟨true, [], []⟩ := by
  rw [procNodes]
  dsimp only
  rw [if_neg (by rw [h]; decide), if_neg (by rw [h]; decide), if_neg (by rw [h]; decide), if_neg (by rw [h]; decide), if_neg (by rw [h]; decide),
    if_neg (by rw [h]; decide), if_pos (by rw [h]; decide)]

/-- Nodes and more nodes after them. -/
theorem procNodes_append (sub : Graph → EvalM Proc) {c c' : Graph} {r : Proc} : ∀ {as : List Graph} {yes : Bool},
    procNodes E sub as yes c = .ok (r, c') → r.brk = false →
    ∃ y, ∀ bs, procNodes E sub (as ++ bs) yes c = (do let r' ← procNodes E sub bs y; pure (r.andThen r')) c'
  | [], yes, h, _ => by
    rw [procNodes] at h
    cases h
    refine ⟨yes, fun bs => ?_⟩
    simp only [List.nil_append]
    exact congrFun (bind_pure (procNodes E sub bs yes)).symm c
  | n :: as, yes, h, hb => by
    by_cases hn : n.thisString E = b!"!break"
    · rw [procNodes_break sub hn] at h; cases h; cases hb
    · rw [procNodes_cons sub hn] at h
      obtain ⟨⟨r1, y1⟩, c1, h1, h⟩ := EvalM.ok_of_bind h
      obtain ⟨r2, c2, h2, h⟩ := EvalM.ok_of_bind h
      cases h
      obtain ⟨y, hy⟩ := procNodes_append sub (r := r2) h2 hb
      refine ⟨y, fun bs => ?_⟩
      rw [List.cons_append, procNodes_cons sub hn, EvalM.bind_ok h1]
      dsimp only
      have := hy bs
      show (procNodes E sub (as ++ bs) y1 >>= fun r' => pure (r1.andThen r')) c1 = _
      have e : (procNodes E sub (as ++ bs) y1 >>= fun r' => (pure (r1.andThen r') : EvalM Proc)) c1 =
          ((procNodes E sub bs y >>= fun r' => (pure (r2.andThen r') : EvalM Proc)) >>= fun r' => (pure (r1.andThen r') : EvalM Proc)) c' := by
        exact EvalM.bind_left this
      rw [e]
      simp only [bind_assoc, pure_bind]
      have : ∀ r', r1.andThen (r2.andThen r') = (r1.andThen r2).andThen r' := fun r' => by simp [Proc.andThen]
      simp only [this]

/-! ## Fuel -/

theorem getAt_height {n x : Graph} {i : Int} (h : n.getAt i = .ok x) : x = .nil ∨ x.height < n.height := by
  cases n with
  | nil => cases h
  | node t o =>
    simp only [Graph.getAt] at h
    split at h
    · cases h; exact .inl rfl
    · cases h
      by_cases hi : i.toNat < o.length
      · right
        have := height_mem (x := o[i.toNat]) (o := o) (by simp)
        simp [hi, Graph.height]; omega
      · left
        simp at hi
        simp [hi]

theorem lift_bind_congr {α β : Type} {r : Res α} {f f' : α → EvalM β} (h : ∀ a, r = .ok a → f a = f' a) :
    (EvalM.lift r >>= f) = (EvalM.lift r >>= f') := by
  cases r with
  | ok a => funext g; exact congrFun (h a rfl) g
  | panic => rfl
  | oof => rfl

theorem forLoop_congr {v : Bytes} {b b' : EvalM Proc} (h : b = b') (es : List Graph) (away : Bool) : forLoop v b es away = forLoop v b' es away := by
  rw [h]

theorem forNode_congr {sub sub' : Graph → EvalM Proc} {n : Graph} (h : ∀ i x, n.getAt i = .ok x → sub x = sub' x) :
    forNode E sub n = forNode E sub' n := by
  unfold forNode
  refine lift_bind_congr fun args _ => lift_bind_congr fun src _ => ?_
  congr 1; funext ⟨v, e⟩
  cases v with
  | graph gi =>
    dsimp only
    split
    · rfl
    · refine lift_bind_congr fun args _ => lift_bind_congr fun a _ => lift_bind_congr fun a _ => lift_bind_congr fun name _ => ?_
      congr 1; funext _
      refine lift_bind_congr fun body hb => ?_
      rw [h 1 body hb]
  | _ => rfl

theorem procNode_congr {sub sub' : Graph → EvalM Proc} {n : Graph} (h : ∀ i x, n.getAt i = .ok x → sub x = sub' x) (yes : Bool) :
    procNode E sub n yes = procNode E sub' n yes := by
  have h1 : ∀ (i : Int) (y : Bool), (do let t ← EvalM.lift (n.getAt i); let r ← sub t; (pure (r, y) : EvalM (Proc × Bool))) =
      (do let t ← EvalM.lift (n.getAt i); let r ← sub' t; (pure (r, y) : EvalM (Proc × Bool))) := fun i y =>
    lift_bind_congr fun t ht => by rw [h i t ht]
  unfold procNode
  simp only [h1, forNode_congr h]

theorem procNodes_congr {sub sub' : Graph → EvalM Proc} : ∀ {as : List Graph} {yes : Bool},
    (∀ n ∈ as, ∀ i x, n.getAt i = .ok x → sub x = sub' x) → procNodes E sub as yes = procNodes E sub' as yes
  | [], yes, _ => by simp only [procNodes]
  | n :: as, yes, h => by
    by_cases hn : n.thisString E = b!"!break"
    · rw [procNodes_break sub hn, procNodes_break sub' hn]
    · rw [procNodes_cons sub hn, procNodes_cons sub' hn, procNode_congr (h n (by simp))]
      congr 1; funext ⟨r, y⟩
      dsimp only
      rw [procNodes_congr fun m hm => h m (by simp [hm])]

/-- More fuel than needed makes no difference. -/
theorem process_fuel : ∀ (f k : Nat) (t : Graph), t.height < f → t.height < k → process E f t = process E k t
  | f + 1, k + 1, .nil, _, _ => rfl
  | f + 1, k + 1, .node t o, hf, hk => by
    simp only [process]
    refine procNodes_congr fun n hn i x hx => ?_
    have h1 := height_mem hn
    simp only [Graph.height] at hf hk
    rcases getAt_height hx with rfl | h2
    · cases f with
      | zero => omega
      | succ f => cases k with
        | zero => omega
        | succ k => rfl
    · exact process_fuel f k x (by omega) (by omega)
  | 0, _, _, hf, _ => by omega
  | _, 0, _, _, hk => by omega

/-- `process` of a template. -/
def procAll (E : Ext) (t : Graph) : EvalM Proc := process E (t.height + 1) t

theorem process_procAll {f : Nat} {t : Graph} (h : t.height < f) : process E f t = procAll E t := process_fuel _ _ _ h (by omega)

/-- The nodes of a template, with enough fuel. -/
def procList (E : Ext) (o : List Graph) (yes : Bool) : EvalM Proc := procNodes E (procAll E) o yes

theorem procAll_node (t : Val) (o : List Graph) : procAll E (.node t o) = procList E o false := by
  unfold procAll procList
  simp only [process, Graph.height]
  refine procNodes_congr fun n hn i x hx => ?_
  have h1 := height_mem hn
  rcases getAt_height hx with rfl | h2
  · simp only [procAll, process]
  · exact process_procAll (by omega)

theorem graph_process_node (t : Val) (o : List Graph) (c : Graph) :
    (Graph.node t o).process E c = (do let (r, c) ← procList E o false c; .ok (r.out, c)) := by
  unfold Graph.process
  rw [← procAll_node t o]; rfl

/-! ## What the parts of a template do -/

theorem procNode_yes {sub : Graph → EvalM Proc} {n : Graph} (h1 : n.thisString E ≠ b!"!elseif") (h2 : n.thisString E ≠ b!"!else")
    (h3 : n.thisString E ≠ b!"!if") : ∃ X : EvalM Proc, ∀ y, procNode E sub n y = (X >>= fun r => pure (r, y)) := by
  unfold procNode
  dsimp only
  by_cases a1 : n.thisString E = tyPath
  · exact ⟨do
      let (v, _) ← eval E (evalFuel n) n
      let t ← .lift (vtext E v)
      pure ⟨false, t, []⟩, fun y => by simp only [bind_assoc, pure_bind, if_pos a1]⟩
  by_cases a2 : n.thisString E = tyExpression
  · exact ⟨do
      let _ ← eval E (evalFuel n) n
      pure ⟨false, [], []⟩, fun y => by simp only [bind_assoc, pure_bind, if_neg a1, if_pos a2]⟩
  by_cases a3 : n.thisString E = tyFor
  · exact ⟨forNode E sub n, fun y => by
      rw [if_neg a1, if_neg a2, if_neg (show ¬ n.thisString E = tyIf from h3), if_neg (show ¬ n.thisString E = tyElseIf from h1),
        if_neg (show ¬ n.thisString E = tyElse from h2), if_pos a3]⟩
  · exact ⟨pure ⟨false, n.thisString E, []⟩, fun y => by
      rw [if_neg a1, if_neg a2, if_neg (show ¬ n.thisString E = tyIf from h3), if_neg (show ¬ n.thisString E = tyElseIf from h1),
        if_neg (show ¬ n.thisString E = tyElse from h2), if_neg a3, pure_bind]⟩

theorem procNode_if {sub : Graph → EvalM Proc} {n : Graph} (h : n.thisString E = b!"!if") (y : Bool) :
    procNode E sub n y = (do
      let b ← procCond E n
      if b then do
        let t ← .lift (n.getAt 1)
        let r ← sub t
        pure (r, true)
      else pure (⟨false, [], []⟩, false)) := by
  unfold procNode
  dsimp only
  rw [if_neg (by rw [h]; decide), if_neg (by rw [h]; decide), if_pos (by rw [h]; decide)]

theorem procNodes_yes {sub : Graph → EvalM Proc} {n : Graph} {rest : List Graph} (h1 : n.thisString E ≠ b!"!elseif") (h2 : n.thisString E ≠ b!"!else")
    (hr : n.thisString E ≠ b!"!if" → ∀ y y', procNodes E sub rest y = procNodes E sub rest y') (y y' : Bool) :
    procNodes E sub (n :: rest) y = procNodes E sub (n :: rest) y' := by
  by_cases hn : n.thisString E = b!"!break"
  · rw [procNodes_break sub hn, procNodes_break sub hn]
  rw [procNodes_cons sub hn, procNodes_cons sub hn]
  by_cases hif : n.thisString E = b!"!if"
  · rw [procNode_if hif, procNode_if hif]
  · obtain ⟨X, hX⟩ := procNode_yes (sub := sub) h1 h2 hif
    rw [hX, hX, bind_assoc, bind_assoc]
    simp only [pure_bind, hr hif y y']

/-- A template does not look at the branches before it. -/
theorem items_yes : ∀ (is : Items) (rest : Bytes), is.Ok E rest → ∀ (y y' : Bool), procList E is.trees y = procList E is.trees y'
  | .nil, _, _, y, y' => by simp only [Items.trees, procList, procNodes]
  | .cons i is, rest, h, y, y' => by
    simp only [Items.Ok] at h
    have ih := items_yes is rest h.2
    cases i with
    | plain s =>
      have hm := h.1
      simp only [Item.Ok] at hm
      have hm := hm.2.2.1
      simp only [markers, List.mem_cons, List.not_mem_nil, or_false, not_or] at hm
      refine procNodes_yes (by simpa [leaf, Graph.thisString, vstr] using hm.2.2.2.2.2.1) (by simpa [leaf, Graph.thisString, vstr] using hm.2.2.2.2.1) (fun _ => ih) y y'
    | dollar => exact procNodes_yes (by simp [leaf, Graph.thisString, vstr]) (by simp [leaf, Graph.thisString, vstr]) (fun _ => ih) y y'
    | var id ids b => exact procNodes_yes (by simp [pathOf, Graph.thisString, vstr]) (by simp [pathOf, Graph.thisString, vstr]) (fun _ => ih) y y'
    | expr x => exact procNodes_yes (by simp [exprOf, Graph.thisString, vstr]) (by simp [exprOf, Graph.thisString, vstr]) (fun _ => ih) y y'
    | cond c body more => exact procNodes_yes (by simp [Graph.thisString, vstr]) (by simp [Graph.thisString, vstr]) (fun h => absurd (by simp [Graph.thisString, vstr]) h) y y'
    | loop v id ids body => exact procNodes_yes (by simp [Graph.thisString, vstr]) (by simp [Graph.thisString, vstr]) (fun _ => ih) y y'
    | brk => exact procNodes_yes (by simp [Graph.thisString, vstr]) (by simp [Graph.thisString, vstr]) (fun _ => ih) y y'


/-! ## A shorter text after a piece -/

theorem ends_prefix {a b : Bytes} (h : Ends (a ++ b)) : Ends a := by
  cases a with
  | nil => intro c hc; simp at hc
  | cons c a => intro d hd; exact h d (by simpa using hd)

theorem plainEnd_prefix {a b : Bytes} (h : a ++ b = [] ∨ (a ++ b).head? = some 36) : a = [] ∨ a.head? = some 36 := by
  cases a with
  | nil => exact .inl rfl
  | cons c a => exact .inr (by simpa using h)

mutual
theorem item_ok_prefix : ∀ (i : Item) (a b : Bytes), i.Ok E (a ++ b) → i.Ok E a
  | .plain s, a, b, h => by
    simp only [Item.Ok] at h ⊢
    exact ⟨h.1, h.2.1, h.2.2.1, plainEnd_prefix h.2.2.2⟩
  | .dollar, a, b, h => trivial
  | .var id ids br, a, b, h => by
    simp only [Item.Ok] at h ⊢
    exact ⟨h.1, h.2.1, fun hb => ends_prefix (h.2.2 hb)⟩
  | .expr x, a, b, h => by simpa only [Item.Ok] using h
  | .cond c body more, a, b, h => by
    simp only [Item.Ok] at h ⊢
    obtain ⟨h1, h2, h3, h4⟩ := h
    exact ⟨h1, ends_prefix (b := b) (by simpa using h2), items_ok_prefix body _ b (by simpa using h3), branches_ok_prefix more a b h4⟩
  | .loop v id ids body, a, b, h => by
    simp only [Item.Ok] at h ⊢
    obtain ⟨h1, h2, h3, h4, h5, h6, h7⟩ := h
    exact ⟨h1, h2, h3, h4, ends_prefix (b := b) (by simpa using h5), items_ok_prefix body _ b (by simpa using h6), ends_prefix h7⟩
  | .brk, a, b, h => by
    simp only [Item.Ok] at h ⊢
    exact ends_prefix h
theorem items_ok_prefix : ∀ (i : Items) (a b : Bytes), i.Ok E (a ++ b) → i.Ok E a
  | .nil, a, b, h => by simp only [Items.Ok]
  | .cons i is, a, b, h => by
    simp only [Items.Ok] at h ⊢
    exact ⟨item_ok_prefix i _ b (by simpa using h.1), items_ok_prefix is a b h.2⟩
theorem branches_ok_prefix : ∀ (i : Branches) (a b : Bytes), i.Ok E (a ++ b) → i.Ok E a
  | .done, a, b, h => by
    simp only [Branches.Ok] at h ⊢
    exact ends_prefix h
  | .els body, a, b, h => by
    simp only [Branches.Ok] at h ⊢
    exact ⟨ends_prefix (b := b) (by simpa using h.1), items_ok_prefix body _ b (by simpa using h.2.1), ends_prefix h.2.2⟩
  | .elif c body more, a, b, h => by
    simp only [Branches.Ok] at h ⊢
    obtain ⟨h1, h2, h3, h4⟩ := h
    exact ⟨h1, ends_prefix (b := b) (by simpa using h2), items_ok_prefix body _ b (by simpa using h3), branches_ok_prefix more a b h4⟩
end

theorem items_ok_nil {is : Items} {rest : Bytes} (h : is.Ok E rest) : is.Ok E [] := items_ok_prefix is [] rest h

/-- Processing a text that is a template. -/
theorem renders_iff {is : Items} {rest : Bytes} (h : is.Ok E rest) (hl : Fits is.text) {g g' : Graph} {o : Bytes} :
    Renders E is.text g o g' ↔ ∃ b ls, procList E is.trees false g = .ok (⟨b, o, ls⟩, g') := by
  constructor
  · rintro ⟨t, h1, h2⟩
    rw [newTemplate_exact (items_ok_nil h) hl] at h1
    cases h1
    rw [graph_process_node] at h2
    cases hp : procList E is.trees false g with
    | ok r =>
      obtain ⟨⟨b, o', ls⟩, c⟩ := r
      rw [hp] at h2
      cases h2
      exact ⟨b, ls, rfl⟩
    | panic => rw [hp] at h2; cases h2
    | oof => rw [hp] at h2; cases h2
  · rintro ⟨b, ls, h1⟩
    refine ⟨_, newTemplate_exact (items_ok_nil h) hl, ?_⟩
    rw [graph_process_node, h1]; rfl

/-! ## Breaks and loop variables -/

theorem procNodes_split (sub : Graph → EvalM Proc) {c c' : Graph} {bs : List Graph} : ∀ {as : List Graph} {yes : Bool} {r : Proc},
    (∀ n ∈ as, n.thisString E ≠ b!"!break") → procNodes E sub (as ++ bs) yes c = .ok (r, c') →
    ∃ r1 y c1 r2, procNodes E sub as yes c = .ok (r1, c1) ∧ r1.brk = false ∧ procNodes E sub bs y c1 = .ok (r2, c') ∧ r = r1.andThen r2
  | [], yes, r, _, h => ⟨⟨false, [], []⟩, yes, c, r, by simp only [procNodes]; rfl, rfl, h, by simp [Proc.andThen]⟩
  | n :: as, yes, r, hn, h => by
    have h0 := hn n (by simp)
    rw [List.cons_append, procNodes_cons sub h0] at h
    obtain ⟨⟨r1, y1⟩, c1, h1, h⟩ := EvalM.ok_of_bind h
    obtain ⟨r2, c2, h2, h⟩ := EvalM.ok_of_bind h
    cases h
    obtain ⟨r3, y, c3, r4, h3, h4, h5, rfl⟩ := procNodes_split sub (c := c1) (fun m hm => hn m (by simp [hm])) h2
    refine ⟨r1.andThen r3, y, c3, r4, ?_, h4, h5, by simp [Proc.andThen]⟩
    rw [procNodes_cons sub h0, EvalM.bind_ok h1]
    dsimp only
    rw [EvalM.bind_ok h3]
    rfl

theorem branches_noBreak : ∀ (more : Branches), ∀ n ∈ more.trees, n.thisString E ≠ b!"!break"
  | .done, n, h => by simp [Branches.trees] at h
  | .els body, n, h => by
    simp only [Branches.trees, List.mem_singleton] at h
    subst h; simp [Graph.thisString, vstr]
  | .elif c body more, n, h => by
    simp only [Branches.trees, List.mem_cons] at h
    rcases h with rfl | h
    · simp [Graph.thisString, vstr]
    · exact branches_noBreak more n h

theorem item_noBreak {i : Item} {rest : Bytes} (h : i.Ok E rest) (hi : i ≠ .brk) : ∀ n ∈ i.trees, n.thisString E ≠ b!"!break" := by
  intro n hn
  cases i with
  | plain s =>
    simp only [Item.Ok] at h
    have hm := h.2.2.1
    simp only [markers, List.mem_cons, List.not_mem_nil, or_false, not_or] at hm
    simp only [Item.trees, List.mem_singleton] at hn
    subst hn
    simpa [leaf, Graph.thisString, vstr] using hm.2.2.2.2.2.2.2
  | dollar => simp only [Item.trees, List.mem_singleton] at hn; subst hn; simp [leaf, Graph.thisString, vstr]
  | var id ids b => simp only [Item.trees, List.mem_singleton] at hn; subst hn; simp [pathOf, Graph.thisString, vstr]
  | expr x => simp only [Item.trees, List.mem_singleton] at hn; subst hn; simp [exprOf, Graph.thisString, vstr]
  | cond c body more =>
    simp only [Item.trees, List.mem_cons] at hn
    rcases hn with rfl | hn
    · simp [Graph.thisString, vstr]
    · exact branches_noBreak more n hn
  | loop v id ids body => simp only [Item.trees, List.mem_singleton] at hn; subst hn; simp [Graph.thisString, vstr]
  | brk => exact absurd rfl hi

theorem breaks_cons {i : Item} {is : Items} (h : i ≠ .brk) : (Items.cons i is).breaks = is.breaks := by
  cases i <;> first | exact absurd rfl h | rfl

theorem items_brk : ∀ (is : Items) {rest : Bytes}, is.Ok E rest → ∀ {y : Bool} {c c' : Graph} {r : Proc},
    procList E is.trees y c = .ok (r, c') → r.brk = is.breaks
  | .nil, _, _, y, c, c', r, h => by
    simp only [procList, Items.trees, procNodes] at h
    cases h; rfl
  | .cons i is, rest, hok, y, c, c', r, h => by
    simp only [Items.Ok] at hok
    by_cases hi : i = .brk
    · subst hi
      simp only [procList, Items.trees, Item.trees, List.cons_append] at h
      rw [procNodes_break _ (by simp [Graph.thisString, vstr])] at h
      cases h; rfl
    · simp only [Items.trees] at h
      obtain ⟨r1, y1, c1, r2, h1, h2, h3, rfl⟩ := procNodes_split _ (item_noBreak hok.1 hi) h
      rw [breaks_cons hi]
      exact items_brk is hok.2 (r := r2) h3


/-! ## Loops -/

/-- The node of a loop. -/
def loopNode (v id : Bytes) (ids : List Bytes) (body : Items) : Graph :=
  .node (.str b!"!for") [.node (.str b!"!a") [exprOf (pathOf [v]), exprOf (pathOf (id :: ids))], .node (.str b!"!t") body.trees]

theorem lift_ok {α β : Type} (a : α) (f : α → EvalM β) : (EvalM.lift (.ok a) >>= f) = f a := rfl

theorem getAt_zero (t : Val) (x : Graph) (o : List Graph) : (Graph.node t (x :: o)).getAt 0 = .ok x := by
  simp only [Graph.getAt]
  rw [if_neg (by simp)]
  simp

theorem getAt_one (t : Val) (x y : Graph) (o : List Graph) : (Graph.node t (x :: y :: o)).getAt 1 = .ok y := by
  simp only [Graph.getAt]
  rw [if_neg (by simp; omega)]
  simp

/-- The elements of what a loop walks through. -/
def loopList (E : Ext) (gi : Graph) : Graph := if gi.thisString E = b!"[" then gi.out.headD .nil else gi

theorem forNode_loop (sub : Graph → EvalM Proc) (v id : Bytes) (ids : List Bytes) (body : Items) :
    forNode E sub (loopNode v id ids body) = (do
      let (x, _) ← eval E (evalFuel (exprOf (pathOf (id :: ids)))) (exprOf (pathOf (id :: ids)))
      match x with
      | .graph gi =>
        if gi.isNil || gi.len == 0 then pure ⟨false, [], []⟩
        else do
          EvalM.modify fun c => do
            let c ← c.delete E (.str v)
            .ok ((c.add (.str v)).1, ())
          if (loopList E gi).isNil then EvalM.panic
          else do
            let r ← forLoop v (sub (.node (.str b!"!t") body.trees)) (loopList E gi).out false
            pure { r with loops := v :: r.loops }
      | _ => pure ⟨false, [], []⟩) := by
  unfold forNode loopNode
  rw [getAt_zero, lift_ok, getAt_one, lift_ok]
  congr 1

theorem forLoop_loops {v : Bytes} {b : EvalM Proc} {S : List Bytes} (hb : ∀ c c' r, b c = .ok (r, c') → ∀ n ∈ r.loops, n ∈ S) :
    ∀ (es : List Graph) (away : Bool) (c c' : Graph) (r : Proc), forLoop v b es away c = .ok (r, c') → ∀ n ∈ r.loops, n ∈ S
  | [], away, c, c', r, h => by
    simp only [forLoop] at h; cases h; simp
  | e :: es, away, c, c', r, h => by
    rw [forLoop] at h
    have key : ∀ c, (do
        let r ← b
        if r.brk then pure ⟨false, r.out, r.loops⟩
        else do
          let r' ← forLoop v b es (away || r.loops.contains v)
          pure ⟨false, r.out ++ r'.out, r.loops ++ r'.loops⟩ : EvalM Proc) c = .ok (r, c') → ∀ n ∈ r.loops, n ∈ S := by
      intro c h
      obtain ⟨r1, c1, h1, h⟩ := EvalM.ok_of_bind h
      split at h
      · cases h; exact fun n hn => hb _ _ _ h1 n hn
      · obtain ⟨r2, c2, h2, h⟩ := EvalM.ok_of_bind h
        cases h
        intro n hn
        rcases List.mem_append.1 hn with hn | hn
        · exact hb _ _ _ h1 n hn
        · exact forLoop_loops hb es _ _ _ _ h2 n hn
    cases away with
    | true => simp only [Bool.not_true, Bool.false_eq_true, ↓reduceIte] at h; exact key c h
    | false =>
      simp only [Bool.not_false, ↓reduceIte] at h
      obtain ⟨_, c1, _, h⟩ := EvalM.ok_of_bind h
      exact key c1 h

theorem loop_loops {v id : Bytes} {ids : List Bytes} {body : Items} {S : List Bytes} (hb : ∀ y c c' r, procList E body.trees y c = .ok (r, c') → ∀ n ∈ r.loops, n ∈ S)
    {c c' : Graph} {r : Proc} (h : forNode E (procAll E) (loopNode v id ids body) c = .ok (r, c')) : ∀ n ∈ r.loops, n ∈ v :: S := by
  rw [forNode_loop] at h
  obtain ⟨⟨x, e⟩, c1, _, h⟩ := EvalM.ok_of_bind h
  cases x with
  | graph gi =>
    dsimp only at h
    split at h
    · cases h; simp
    · obtain ⟨_, c2, _, h⟩ := EvalM.ok_of_bind h
      split at h
      · cases h
      · obtain ⟨r1, c3, h3, h⟩ := EvalM.ok_of_bind h
        cases h
        intro n hn
        rcases List.mem_cons.1 hn with rfl | hn
        · simp
        · rw [procAll_node] at h3
          exact List.mem_cons_of_mem _ (forLoop_loops (S := S) (fun c c' r h => hb false c c' r h) _ _ _ _ _ h3 n hn)
  | _ => cases h; simp

/-- The nodes of the further branches, or of an if. -/
theorem condNode_loops {n : Graph} {S : List Bytes} {y : Bool} {c c' : Graph} {r : Proc × Bool}
    (hn : n.thisString E = b!"!if" ∨ n.thisString E = b!"!elseif" ∨ n.thisString E = b!"!else")
    (hb : ∀ (i : Int) t, n.getAt i = .ok t → i = 1 ∨ n.thisString E = b!"!else" → ∀ c c' r, procAll E t c = .ok (r, c') → ∀ n ∈ r.loops, n ∈ S)
    (h : procNode E (procAll E) n y c = .ok (r, c')) : ∀ n ∈ r.1.loops, n ∈ S := by
  have hbody : ∀ (i : Int) (z : Bool) (c : Graph), (i = 1 ∨ n.thisString E = b!"!else") →
      (do let t ← EvalM.lift (n.getAt i); let r ← procAll E t; (pure (r, z) : EvalM (Proc × Bool))) c = .ok (r, c') →
      ∀ n ∈ r.1.loops, n ∈ S := by
    intro i z c hi h
    obtain ⟨t, c1, h1, h⟩ := EvalM.ok_of_bind h
    obtain ⟨r1, c2, h2, h⟩ := EvalM.ok_of_bind h
    cases h
    cases ht : n.getAt i with
    | ok t' => rw [ht] at h1; cases h1; exact hb i t ht hi _ _ _ h2
    | panic => rw [ht] at h1; cases h1
    | oof => rw [ht] at h1; cases h1
  unfold procNode at h
  dsimp only at h
  rcases hn with hn | hn | hn
  · rw [if_neg (by rw [hn]; decide), if_neg (by rw [hn]; decide), if_pos (by rw [hn]; decide)] at h
    obtain ⟨b, c1, _, h⟩ := EvalM.ok_of_bind h
    split at h
    · exact hbody 1 true c1 (.inl rfl) h
    · cases h; simp
  · rw [if_neg (by rw [hn]; decide), if_neg (by rw [hn]; decide), if_neg (by rw [hn]; decide), if_pos (by rw [hn]; decide)] at h
    split at h
    · cases h; simp
    · obtain ⟨b, c1, _, h⟩ := EvalM.ok_of_bind h
      split at h
      · exact hbody 1 true c1 (.inl rfl) h
      · cases h; simp
  · rw [if_neg (by rw [hn]; decide), if_neg (by rw [hn]; decide), if_neg (by rw [hn]; decide), if_neg (by rw [hn]; decide), if_pos (by rw [hn]; decide)] at h
    split at h
    · cases h; simp
    · exact hbody 0 false c (.inr hn) h

/-- A node that is neither a directive nor a loop has no loops. -/
theorem plainNode_loops {n : Graph} {y : Bool} {c c' : Graph} {r : Proc × Bool}
    (hn : n.thisString E ∉ [b!"!if", b!"!elseif", b!"!else", b!"!for"])
    (h : procNode E (procAll E) n y c = .ok (r, c')) : r.1.loops = [] := by
  simp only [List.mem_cons, List.not_mem_nil, or_false, not_or] at hn
  obtain ⟨n1, n2, n3, n4⟩ := hn
  unfold procNode at h
  dsimp only at h
  split at h
  · obtain ⟨b, c1, _, h⟩ := EvalM.ok_of_bind h
    obtain ⟨b, c2, _, h⟩ := EvalM.ok_of_bind h
    cases h; rfl
  split at h
  · obtain ⟨b, c1, _, h⟩ := EvalM.ok_of_bind h
    cases h; rfl
  rw [if_neg (show ¬ n.thisString E = tyIf from n1), if_neg (show ¬ n.thisString E = tyElseIf from n2), if_neg (show ¬ n.thisString E = tyElse from n3),
    if_neg (show ¬ n.thisString E = tyFor from n4)] at h
  cases h; rfl

theorem procList_cons {n : Graph} {ns : List Graph} {y : Bool} {c c' : Graph} {r : Proc} (hn : n.thisString E ≠ b!"!break")
    (h : procList E (n :: ns) y c = .ok (r, c')) :
    ∃ r1 y1 c1 r2, procNode E (procAll E) n y c = .ok ((r1, y1), c1) ∧ procList E ns y1 c1 = .ok (r2, c') ∧ r = r1.andThen r2 := by
  unfold procList at h
  rw [procNodes_cons _ hn] at h
  obtain ⟨⟨r1, y1⟩, c1, h1, h⟩ := EvalM.ok_of_bind h
  obtain ⟨r2, c2, h2, h⟩ := EvalM.ok_of_bind h
  cases h
  exact ⟨r1, y1, c1, r2, h1, h2, rfl⟩

theorem procNode_for {sub : Graph → EvalM Proc} {n : Graph} (h : n.thisString E = b!"!for") (y : Bool) :
    procNode E sub n y = (do let r ← forNode E sub n; pure (r, y)) := by
  unfold procNode
  dsimp only
  rw [if_neg (by rw [h]; decide), if_neg (by rw [h]; decide), if_neg (by rw [h]; decide), if_neg (by rw [h]; decide), if_neg (by rw [h]; decide),
    if_pos (by rw [h]; decide)]

theorem single_loops {n : Graph} {y : Bool} {c c' : Graph} {r : Proc} {S : List Bytes} (hb : n.thisString E ≠ b!"!break")
    (hn : n.thisString E ∉ [b!"!if", b!"!elseif", b!"!else", b!"!for"]) (h : procList E [n] y c = .ok (r, c')) : ∀ m ∈ r.loops, m ∈ S := by
  obtain ⟨r1, y1, c1, r2, h1, h2, rfl⟩ := procList_cons hb h
  rw [show procList E [] y1 = pure ⟨false, [], []⟩ from by simp only [procList, procNodes]] at h2
  cases h2
  have := plainNode_loops hn h1
  simp only at this
  simp [Proc.andThen, this]

mutual
theorem item_loops : ∀ (i : Item) {rest : Bytes}, i.Ok E rest → ∀ (y : Bool) (c c' : Graph) (r : Proc),
    procList E i.trees y c = .ok (r, c') → ∀ n ∈ r.loops, n ∈ i.loopVars
  | .plain s, rest, hok, y, c, c', r, h => by
    simp only [Item.Ok] at hok
    have hm := hok.2.2.1
    simp only [markers, List.mem_cons, List.not_mem_nil, or_false, not_or] at hm
    exact single_loops (by simpa [leaf, Graph.thisString, vstr] using hm.2.2.2.2.2.2.2)
      (by
        simp only [List.mem_cons, List.not_mem_nil, or_false, not_or]
        simpa [leaf, Graph.thisString, vstr] using ⟨hm.2.2.1, hm.2.2.2.2.2.1, hm.2.2.2.2.1, hm.2.2.2.2.2.2.1⟩) h
  | .dollar, rest, hok, y, c, c', r, h =>
    single_loops (n := leaf b!"$") (by simp [leaf, Graph.thisString, vstr]) (by simp [leaf, Graph.thisString, vstr]) h
  | .var id ids b, rest, hok, y, c, c', r, h =>
    single_loops (n := pathOf (id :: ids)) (by simp [pathOf, Graph.thisString, vstr]) (by simp [pathOf, Graph.thisString, vstr]) h
  | .expr x, rest, hok, y, c, c', r, h =>
    single_loops (n := exprOf x.full) (by simp [exprOf, Graph.thisString, vstr]) (by simp [exprOf, Graph.thisString, vstr]) h
  | .cond x body more, rest, hok, y, c, c', r, h => by
    simp only [Item.Ok] at hok
    obtain ⟨r1, y1, c1, r2, h1, h2, rfl⟩ := procList_cons (by simp [Graph.thisString, vstr]) h
    simp only [Item.loopVars, Proc.andThen, List.mem_append]
    rintro n (hn | hn)
    · refine .inl (condNode_loops (.inl rfl) ?_ h1 n hn)
      rintro i t ht (rfl | he) c c' r h
      · rw [getAt_one] at ht; cases ht
        rw [procAll_node] at h
        exact items_loops body hok.2.2.1 _ _ _ _ h
      · cases he
    · exact .inr (branches_loops more hok.2.2.2 _ _ _ _ h2 n hn)
  | .loop v id ids body, rest, hok, y, c, c', r, h => by
    simp only [Item.Ok] at hok
    obtain ⟨r1, y1, c1, r2, h1, h2, rfl⟩ := procList_cons (by simp [Graph.thisString, vstr]) h
    rw [show procList E [] y1 = pure ⟨false, [], []⟩ from by simp only [procList, procNodes]] at h2
    cases h2
    rw [procNode_for rfl] at h1
    obtain ⟨r3, c3, h3, h1⟩ := EvalM.ok_of_bind h1
    cases h1
    intro n hn
    exact loop_loops (fun y c c' r h => items_loops body hok.2.2.2.2.2.1 y c c' r h) h3 n (by simpa [Proc.andThen] using hn)
  | .brk, rest, hok, y, c, c', r, h => by
    simp only [procList, Item.trees] at h
    rw [procNodes_break _ (by simp [Graph.thisString, vstr])] at h
    cases h; simp
theorem branches_loops : ∀ (is : Branches) {rest : Bytes}, is.Ok E rest → ∀ (y : Bool) (c c' : Graph) (r : Proc),
    procList E is.trees y c = .ok (r, c') → ∀ n ∈ r.loops, n ∈ is.loopVars
  | .done, _, _, y, c, c', r, h => by
    simp only [procList, Branches.trees, procNodes] at h
    cases h; simp
  | .els body, rest, hok, y, c, c', r, h => by
    simp only [Branches.Ok] at hok
    obtain ⟨r1, y1, c1, r2, h1, h2, rfl⟩ := procList_cons (by simp [Graph.thisString, vstr]) h
    rw [show procList E [] y1 = pure ⟨false, [], []⟩ from by simp only [procList, procNodes]] at h2
    cases h2
    intro n hn
    refine condNode_loops (.inr (.inr rfl)) ?_ h1 n (by simpa [Proc.andThen] using hn)
    rintro i t ht _ c c' r h
    have : t = .nil ∨ t = .node (.str b!"!t") body.trees := by
      simp only [Graph.getAt] at ht
      split at ht
      · cases ht; exact .inl rfl
      · cases ht
        cases hi : i.toNat with
        | zero => simp
        | succ n => simp
    rcases this with rfl | rfl
    · simp only [procAll, process] at h; cases h; simp
    · rw [procAll_node] at h
      exact items_loops body hok.2.1 _ _ _ _ h
  | .elif x body more, rest, hok, y, c, c', r, h => by
    simp only [Branches.Ok] at hok
    obtain ⟨r1, y1, c1, r2, h1, h2, rfl⟩ := procList_cons (by simp [Graph.thisString, vstr]) h
    simp only [Branches.loopVars, Proc.andThen, List.mem_append]
    rintro n (hn | hn)
    · refine .inl (condNode_loops (.inr (.inl rfl)) ?_ h1 n hn)
      rintro i t ht (rfl | he) c c' r h
      · rw [getAt_one] at ht; cases ht
        rw [procAll_node] at h
        exact items_loops body hok.2.2.1 _ _ _ _ h
      · cases he
    · exact .inr (branches_loops more hok.2.2.2 _ _ _ _ h2 n hn)
theorem items_loops : ∀ (is : Items) {rest : Bytes}, is.Ok E rest → ∀ (y : Bool) (c c' : Graph) (r : Proc),
    procList E is.trees y c = .ok (r, c') → ∀ n ∈ r.loops, n ∈ is.loopVars
  | .nil, _, _, y, c, c', r, h => by
    simp only [procList, Items.trees, procNodes] at h
    cases h; simp
  | .cons i is, rest, hok, y, c, c', r, h => by
    simp only [Items.Ok] at hok
    by_cases hi : i = .brk
    · subst hi
      simp only [procList, Items.trees, Item.trees, List.cons_append] at h
      rw [procNodes_break _ (by simp [Graph.thisString, vstr])] at h
      cases h; simp
    · simp only [Items.trees] at h
      obtain ⟨r1, y1, c1, r2, h1, h2, h3, rfl⟩ := procNodes_split _ (item_noBreak hok.1 hi) h
      simp only [Items.loopVars, Proc.andThen, List.mem_append]
      rintro n (hn | hn)
      · exact .inl (item_loops i hok.1 y _ _ r1 h1 n hn)
      · exact .inr (items_loops is hok.2 y1 _ _ r2 h3 n hn)
end

end
end Ogdl
