import Verif.Model.Template
import Verif.Model.Binary
import Verif.Spec.Tree

/-! What the parsers put into the graphs they build. -/

namespace Ogdl
open Lex Spec

/-! ## The events of a program -/

/-- As long as the bytes read satisfy `B`, all items added by the program satisfy `P`, and
what it returns satisfies `Q`. -/
def PutsB {α : Type} (B : UInt8 → Prop) (P : Val → Prop) (Q : α → Prop) : Prog α → Prop
  | .ret a => Q a
  | .byte k => ∀ c : Option UInt8, (∀ b, c = some b → B b) → PutsB B P Q (k c)
  | .unread k => PutsB B P Q k
  | .rune k => ∀ r, PutsB B P Q (k r)
  | .unreadRune k => PutsB B P Q k
  | .getEv k => ∀ e : Ev, (∀ it ∈ e.items, P it.2) → PutsB B P Q (k e)
  | .setEv e k => (∀ it ∈ e.items, P it.2) ∧ PutsB B P Q k
  | .oof => True

/-- All items added by the program satisfy `P`, and what it returns satisfies `Q`. -/
def PutsQ {α : Type} (P : Val → Prop) (Q : α → Prop) (x : Prog α) : Prop := PutsB (fun _ => True) P Q x

/-- All items added by the program satisfy `P`. -/
def Puts {α : Type} (P : Val → Prop) (x : Prog α) : Prop := PutsQ P (fun _ => True) x

theorem PutsB.bind {α β : Type} {B : UInt8 → Prop} {P : Val → Prop} {Q : α → Prop} {R : β → Prop} {x : Prog α} {f : α → Prog β} (h : PutsB B P Q x)
    (hf : ∀ a, Q a → PutsB B P R (f a)) : PutsB B P R (x >>= f) := by
  show PutsB B P R (Prog.bind x f)
  induction x with
  | ret a => exact hf a h
  | byte k ih => exact fun c hc => ih c (h c hc)
  | unread k ih => exact ih h
  | rune k ih => exact fun r => ih r (h r)
  | unreadRune k ih => exact ih h
  | getEv k ih => exact fun e he => ih e (h e he)
  | setEv e k ih => exact ⟨h.1, ih h.2⟩
  | oof => trivial

theorem PutsQ.bind {α β : Type} {P : Val → Prop} {Q : α → Prop} {R : β → Prop} {x : Prog α} {f : α → Prog β} (h : PutsQ P Q x)
    (hf : ∀ a, Q a → PutsQ P R (f a)) : PutsQ P R (x >>= f) := PutsB.bind h hf

theorem Puts.bind {α β : Type} {P : Val → Prop} {x : Prog α} {f : α → Prog β} (h : Puts P x) (hf : ∀ a, Puts P (f a)) :
    Puts P (x >>= f) := PutsQ.bind h fun a _ => hf a

theorem PutsB.run {σ α : Type} {B : UInt8 → Prop} {P : Val → Prop} {Q : α → Prop} (M : Machine σ) (I : σ → Prop)
    (hB : ∀ s c s', I s → M.byte s = .ok (c, s') → I s' ∧ ∀ b, c = some b → B b)
    (hR : ∀ s r s', I s → M.rune s = .ok (r, s') → I s') (hU : ∀ s, I s → I (M.unread s)) (hV : ∀ s, I s → I (M.unreadRune s)) :
    ∀ (x : Prog α) (s : σ) (e : Ev) (a : α) (s' : σ) (e' : Ev),
    PutsB B P Q x → I s → (∀ it ∈ e.items, P it.2) → x.run M s e = .ok (a, s', e') → ∀ it ∈ e'.items, P it.2 := by
  intro x
  induction x with
  | ret a => intro s e a' s' e' _ _ he h; cases h; exact he
  | byte k ih =>
    intro s e a s' e' hx hs he h
    rw [Prog.run] at h
    split at h
    · rename_i hb
      exact ih _ _ _ _ _ _ (hx _ (hB _ _ _ hs hb).2) (hB _ _ _ hs hb).1 he h
    · cases h
    · cases h
  | unread k ih => intro s e a s' e' hx hs he h; exact ih _ _ _ _ _ hx (hU _ hs) he h
  | rune k ih =>
    intro s e a s' e' hx hs he h
    rw [Prog.run] at h
    split at h
    · rename_i hb
      exact ih _ _ _ _ _ _ (hx _) (hR _ _ _ hs hb) he h
    · cases h
    · cases h
  | unreadRune k ih => intro s e a s' e' hx hs he h; exact ih _ _ _ _ _ hx (hV _ hs) he h
  | getEv k ih => intro s e a s' e' hx hs he h; exact ih _ _ _ _ _ _ (hx _ he) hs he h
  | setEv e1 k ih => intro s e a s' e' hx hs he h; exact ih _ _ _ _ _ hx.2 hs hx.1 h
  | oof => intro s e a s' e' _ _ _ h; cases h

theorem PutsQ.run {σ α : Type} {P : Val → Prop} {Q : α → Prop} (M : Machine σ) (x : Prog α) (s : σ) (e : Ev) (a : α) (s' : σ) (e' : Ev)
    (hx : PutsQ P Q x) (he : ∀ it ∈ e.items, P it.2) (h : x.run M s e = .ok (a, s', e')) : ∀ it ∈ e'.items, P it.2 :=
  PutsB.run M (fun _ => True) (fun _ _ _ _ _ => ⟨trivial, fun _ _ => trivial⟩) (fun _ _ _ _ _ => trivial) (fun _ _ => trivial) (fun _ _ => trivial)
    x s e a s' e' hx trivial he h

section
variable {P : Val → Prop}

theorem puts_pure {α : Type} (a : α) : Puts P (pure a : Prog α) := trivial
theorem puts_byte0 : Puts P byte0 := fun _ _ => trivial
theorem puts_byteErr : Puts P byteErr := fun _ _ => trivial
theorem puts_unread : Puts P Lex.unread := trivial
theorem puts_rune : Puts P Lex.rune := fun _ => trivial
theorem puts_unreadRune : Puts P Lex.unreadRune := trivial
theorem puts_evAdd {v : Val} (hv : P v) : Puts P (evAdd v) := fun e he => ⟨by
  intro it hit
  rcases List.mem_append.1 hit with h | h
  · exact he it h
  · rw [List.mem_singleton.1 h]; exact hv, trivial⟩
theorem puts_evInc : Puts P evInc := fun _ he => ⟨he, trivial⟩
theorem puts_evDec : Puts P evDec := fun _ he => ⟨he, trivial⟩
theorem puts_evLevel : Puts P evLevel := fun _ _ => trivial
theorem puts_evSetLevel (l : Nat) : Puts P (evSetLevel l) := fun _ he => ⟨he, trivial⟩
theorem puts_evDelete : Puts P evDelete := fun _ he => ⟨fun it hit => he it ((List.dropLast_sublist _).subset hit), trivial⟩

/-- Decompose a program into its steps. -/
macro "put_all" : tactic => `(tactic|
  repeat' first
    | exact puts_byte0 | exact puts_byteErr | exact puts_unread | exact puts_rune | exact puts_unreadRune
    | exact puts_evInc | exact puts_evDec | exact puts_evLevel | exact puts_evSetLevel _
    | exact puts_evDelete | exact puts_pure _ | assumption
    | (refine puts_evAdd ?_; first | assumption | apply_assumption)
    | refine Puts.bind ?_ (fun _ => ?_) | split)

theorem puts_peekByte : Puts P peekByte := by unfold peekByte; put_all

theorem puts_readWhile (p : UInt8 → Bool) : ∀ L, Puts P (readWhile p L)
  | 0 => trivial
  | L + 1 => by
    have := puts_readWhile p L
    rw [readWhile]
    put_all

theorem puts_space (L : Nat) : Puts P (space L) := (puts_readWhile _ L).bind fun _ => trivial
theorem puts_whiteSpace (L : Nat) : Puts P (whiteSpace L) := (puts_readWhile _ L).bind fun _ => trivial
theorem puts_brk : Puts P brk := by
  unfold brk
  refine puts_byte0.bind fun c => ?_
  dsimp only
  split
  all_goals (refine Puts.bind ?_ fun c => ?_)
  all_goals put_all
theorem puts_endp : Puts P endp := by unfold endp; put_all

theorem puts_unreadN : ∀ n, Puts P (unreadN n)
  | 0 => trivial
  | n + 1 => puts_unreadN n

theorem puts_spaceMaxLoop (m : Nat) : ∀ L a b, Puts P (spaceMaxLoop m L a b)
  | 0, _, _ => trivial
  | L + 1, a, b => by
    have := puts_spaceMaxLoop m L
    rw [spaceMaxLoop]
    refine puts_byte0.bind fun c => ?_
    split
    · put_all
    · dsimp only
      repeat' split
      all_goals first | trivial | exact this _ _

theorem puts_quotedLoop (L ind : Nat) (c1 : UInt8) : ∀ f buf c2, Puts P (quotedLoop L ind c1 f buf c2)
  | 0, _, _ => trivial
  | f + 1, buf, c2 => by
    have ih := puts_quotedLoop L ind c1 f
    rw [quotedLoop]
    refine puts_byte0.bind fun c => ?_
    split
    · trivial
    · split
      · trivial
      · split
        · trivial
        · split
          · exact ih _ _
          · dsimp only
            split
            · refine (puts_spaceMaxLoop _ _ _ _).bind fun r => ?_
              split
              · trivial
              · split
                · trivial
                · exact ih _ _
            · exact ih _ _

theorem puts_quoted (L ind : Nat) : Puts P (quoted L ind) := by
  have := puts_quotedLoop (P := P) L ind
  rw [quoted]
  refine puts_byte0.bind fun c => ?_
  split
  · put_all
  · exact this _ _ _ _

theorem puts_tokenLoop (E : Ext) : ∀ L, Puts P (tokenLoop E L)
  | 0 => trivial
  | L + 1 => by
    have := puts_tokenLoop E L
    rw [tokenLoop]
    put_all

theorem puts_token8 (E : Ext) (L : Nat) : Puts P (token8 E L) := (puts_tokenLoop E L).bind fun _ => trivial

theorem puts_numberLoop : ∀ L p, Puts P (numberLoop L p)
  | 0, _ => trivial
  | L + 1, p => by
    have := puts_numberLoop L
    rw [numberLoop]
    refine puts_byte0.bind fun c => ?_
    split
    · exact (this _).bind fun _ => trivial
    · split
      · exact (this _).bind fun _ => trivial
      · put_all

theorem puts_number (L : Nat) : Puts P (number L) := by
  have h := puts_numberLoop (P := P) L false
  have hp := puts_peekByte (P := P)
  rw [number]
  refine hp.bind fun c => ?_
  dsimp only
  put_all

theorem puts_operator (L : Nat) : Puts P (operator L) := puts_readWhile _ L
theorem puts_templateText (L : Nat) : Puts P (templateText L) := puts_readWhile _ L

theorem puts_commentLoop : ∀ L, Puts P (commentLoop L)
  | 0 => trivial
  | L + 1 => by
    have := puts_commentLoop L
    rw [commentLoop]
    put_all

theorem puts_comment (L : Nat) : Puts P (comment L) := by
  have := puts_commentLoop (P := P) L
  unfold comment
  put_all

theorem puts_blockLine : ∀ L, Puts P (blockLine L)
  | 0 => trivial
  | L + 1 => by
    have := puts_blockLine L
    rw [blockLine]
    put_all

theorem puts_blockLoop (L n : Nat) : ∀ f, Puts P (blockLoop L n f)
  | 0 => trivial
  | f + 1 => by
    have h1 := puts_blockLoop L n f
    have h2 := puts_blockLine (P := P) L
    have h3 := puts_space (P := P) L
    rw [blockLoop]
    put_all

theorem puts_block (L n : Nat) : Puts P (block L n) := by
  have := puts_blockLoop (P := P) L n L
  unfold block
  put_all

theorem puts_scalar (L n : Nat) : Puts P (scalar L n) := by
  have h1 := puts_quoted (P := P) L n
  have h2 : Puts P (str L) := puts_readWhile _ L
  unfold scalar
  put_all

/-! ## Paths, expressions and templates -/

theorem puts_flow (E : Ext) (L : Nat) (hP : ∀ b, P (.str b)) : ∀ f,
    (∀ a b c, Puts P (bracket E L a b c f)) ∧ (∀ l s, Puts P (argLoop E L l s f)) ∧
    (∀ d, Puts P (args E L d f)) ∧ Puts P (expression E L f) ∧ Puts P (exprLoop E L f) ∧
    Puts P (unary E L f) ∧ Puts P (path E L f) ∧ (∀ a, Puts P (pathLoop E L a f)) ∧
    (∀ d a, Puts P (pathElem E L d a f))
  | 0 => by
    unfold bracket argLoop args expression exprLoop unary path pathLoop pathElem
    simp [Puts, PutsQ, PutsB]
  | f + 1 => by
    obtain ⟨h1, h2, h3, h4, h5, h6, h7, h8, h9⟩ := puts_flow E L hP f
    have hp := puts_peekByte (P := P)
    have hs := puts_space (P := P) L
    have hw := puts_whiteSpace (P := P) L
    have hq := puts_quoted (P := P) L 0
    have ht := puts_token8 (P := P) E L
    have hn := puts_number (P := P) L
    have ho := puts_operator (P := P) L
    have ha := fun b => puts_evAdd (hP b)
    refine ⟨?_, ?_, ?_, ?_, ?_, ?_, ?_, ?_, ?_⟩
    · intro a b c; rw [bracket]; put_all <;> exact ha _
    · intro l s; rw [argLoop]
      have := h2 l true
      put_all <;> exact ha _
    · intro d; rw [args]
      have := fun l => h2 l false
      repeat' first
        | exact this _ | exact ha _
        | exact puts_byte0
        | exact puts_evInc | exact puts_evLevel | exact puts_evSetLevel _
        | exact puts_pure _ | assumption
        | refine Puts.bind ?_ (fun _ => ?_) | split
    · rw [expression]; put_all
    · rw [exprLoop]; put_all <;> exact ha _
    · rw [unary]; put_all <;> exact ha _
    · rw [path]; exact h9 _ _
    · intro a; rw [pathLoop]
      have := fun d => h9 d a
      repeat' first
        | exact this _
        | exact puts_byte0 | exact puts_unread | exact puts_pure _
        | refine Puts.bind ?_ (fun _ => ?_) | split
    · intro d a; rw [pathElem]
      have b1 := h1 91 93 tyIndex
      have b2 := h1 123 125 tySelector
      have b3 := h3 d
      have b4 := h8 true
      put_all <;> exact ha _

theorem puts_path (E : Ext) (L f : Nat) (hP : ∀ b, P (.str b)) : Puts P (path E L f) := (puts_flow E L hP f).2.2.2.2.2.2.1
theorem puts_expression (E : Ext) (L f : Nat) (hP : ∀ b, P (.str b)) : Puts P (expression E L f) := (puts_flow E L hP f).2.2.2.1

theorem puts_variable (E : Ext) (L f : Nat) (hP : ∀ b, P (.str b)) : Puts P (variable' E L f) := by
  have h1 := puts_path E L f hP
  have h2 := puts_expression E L f hP
  have hs := puts_space (P := P) L
  have ha := fun b => puts_evAdd (hP b)
  unfold variable'
  put_all <;> exact ha _

theorem puts_template (E : Ext) (L g : Nat) (hP : ∀ b, P (.str b)) : ∀ f, Puts P (template E L g f)
  | 0 => trivial
  | f + 1 => by
    have ih := puts_template E L g hP f
    have h1 := puts_variable E L g hP
    have h2 := puts_templateText (P := P) L
    have ha := fun b => puts_evAdd (hP b)
    rw [template]
    put_all <;> exact ha _

/-! ## Texts -/

theorem puts_lineScalar (E : Ext) (L : Nat) (types : Bool) (n : Nat) (hP : ∀ b, P (.str b)) (hT : types = true → ∀ b, P (typed E b)) :
    Puts P (lineScalar E L types n) := by
  unfold lineScalar
  split
  · rename_i ht
    refine PutsQ.bind (Q := fun r => ∀ v, r = some v → P v) ?_ ?_
    · unfold scalarType
      refine PutsQ.bind (Q := fun _ => True) (puts_quoted L n) fun a _ => ?_
      split
      · intro v hv; cases hv; exact hP _
      · refine PutsQ.bind (Q := fun _ => True) (puts_readWhile _ L) fun s _ => ?_
        intro v hv
        split at hv
        · cases hv
        · cases hv; exact hT ht _
    · intro a ha
      split
      · exact puts_evAdd (ha _ rfl)
      · trivial
  · refine (puts_scalar L n).bind fun a => ?_
    split
    · exact puts_evAdd (hP _)
    · trivial

theorem puts_lineBody (E : Ext) (L : Nat) (types : Bool) (n : Nat) (hP : ∀ b, P (.str b)) (hT : types = true → ∀ b, P (typed E b)) :
    ∀ f, Puts P (lineBody E L types n f)
  | 0 => trivial
  | f + 1 => by
    have ih := puts_lineBody E L types n hP hT f
    have h1 := puts_endp (P := P)
    have h2 := puts_brk (P := P)
    have h3 := puts_comment (P := P) L
    have h4 := puts_block (P := P) L n
    have h5 := puts_lineScalar E L types n hP hT
    have h6 := puts_space (P := P) L
    have ha := fun b => puts_evAdd (hP b)
    rw [lineBody]
    put_all <;> exact ha _

theorem puts_lineHere (E : Ext) (L : Nat) (types : Bool) (n : Nat) (hP : ∀ b, P (.str b)) (hT : types = true → ∀ b, P (typed E b)) :
    Puts P (lineHere E L types n) := by
  have h0 := puts_lineBody E L types n hP hT L
  have h1 := puts_endp (P := P)
  have h2 := puts_peekByte (P := P)
  have h6 := puts_space (P := P) L
  unfold lineHere
  put_all

theorem puts_tree (E : Ext) (L : Nat) (types : Bool) (hP : ∀ b, P (.str b)) (hT : types = true → ∀ b, P (typed E b)) :
    ∀ f ns, Puts P (tree E L types f ns) ∧ Puts P (line E L types f ns)
  | 0, _ => by unfold tree line; exact ⟨trivial, trivial⟩
  | f + 1, ns => by
    have h0 := fun n => puts_lineHere E L types n hP hT
    have h1 := puts_endp (P := P)
    have h2 := fun n => (puts_tree E L types hP hT f n).1
    have h3 := fun n => (puts_tree E L types hP hT f n).2
    have h6 := puts_space (P := P) L
    have h7 := puts_unreadN (P := P)
    rw [tree, line]
    constructor
    · repeat' first
        | exact h3 _ | exact h2 _ | exact puts_pure _ | assumption | refine Puts.bind ?_ (fun _ => ?_) | split
    · refine h6.bind fun r => ?_
      repeat' first
        | exact h0 _ | exact h2 _ | exact h7 _ | exact puts_pure _ | exact puts_evInc | exact puts_evDec | refine Puts.bind ?_ (fun _ => ?_) | split

theorem puts_ogdl (E : Ext) (L : Nat) (types : Bool) (f : Nat) (hP : ∀ b, P (.str b)) (hT : types = true → ∀ b, P (typed E b)) :
    Puts P (ogdl E L types f) := by
  unfold ogdl
  refine (puts_space L).bind fun r => ?_
  split
  split
  · trivial
  · exact (puts_unreadN _).bind fun _ => (puts_tree E L types hP hT f _).1

end

/-! ## The graph built from the events -/

mutual
/-- A node, without nil nodes below it, with contents that satisfy `P`. -/
def PlainG (P : Val → Prop) : Graph → Prop
  | .nil => False
  | .node t o => P t ∧ PlainL P o
/-- The same for a list of nodes. -/
def PlainL (P : Val → Prop) : List Graph → Prop
  | [] => True
  | g :: gs => PlainG P g ∧ PlainL P gs
end

section
variable {P : Val → Prop}

theorem plainL_iff : ∀ {gs : List Graph}, PlainL P gs ↔ ∀ g ∈ gs, PlainG P g
  | [] => by simp [PlainL]
  | g :: gs => by simp [PlainL, plainL_iff (gs := gs)]

mutual
theorem plainG_noNil : ∀ {g : Graph}, PlainG P g → NoNil g ∧ AllThis P g
  | .nil, h => h.elim
  | .node _ _, h => ⟨(plainL_noNil h.2).1, h.1, (plainL_noNil h.2).2⟩
theorem plainL_noNil : ∀ {gs : List Graph}, PlainL P gs → NoNilL gs ∧ AllThisL P gs
  | [], _ => ⟨trivial, trivial⟩
  | _ :: _, h => ⟨⟨(plainG_noNil h.1).1, (plainL_noNil h.2).1⟩, (plainG_noNil h.1).2, (plainL_noNil h.2).2⟩
end

/-- Subnodes come after the node that holds them. -/
structure TreeOk (P : Val → Prop) (s : TreeSt) : Prop where
  cells : ∀ (i : Nat) c, s.heap[i]? = some c → P c.this ∧ ∀ j ∈ c.out, i < j ∧ j < s.heap.length
  slots : ∀ (k p : Nat), s.slots[k]? = some (some p) → p < s.heap.length

theorem treeStep_ok {s s' : TreeSt} {it : Nat × Val} (h : TreeOk P s) (hi : P it.2) (e : treeStep s it = .ok s') :
    TreeOk P s' ∧ s.heap.length ≤ s'.heap.length := by
  have hc : ∀ (i : Nat) c, (s.heap ++ [⟨it.2, []⟩])[i]? = some c → P c.this ∧ ∀ j ∈ c.out, i < j ∧ j < s.heap.length + 1 := by
    intro i c hc
    rw [List.getElem?_append] at hc
    split at hc
    · exact ⟨(h.cells i c hc).1, fun j hj => ⟨((h.cells i c hc).2 j hj).1, by have := ((h.cells i c hc).2 j hj).2; omega⟩⟩
    · have : c = ⟨it.2, []⟩ := by
        cases hk : i - s.heap.length with
        | zero => rw [hk] at hc; simpa using hc.symm
        | succ n => rw [hk] at hc; simp at hc
      subst this
      exact ⟨hi, nofun⟩
  have hsl : ∀ (k p : Nat), (s.slots.set (it.1 + 1) (some s.heap.length))[k]? = some (some p) → p < s.heap.length + 1 := by
    intro k p hk
    rw [List.getElem?_set] at hk
    split at hk
    · split at hk
      · simp only [Option.some.injEq] at hk; omega
      · cases hk
    · have := h.slots k p hk; omega
  unfold treeStep at e
  dsimp only at e
  split at e
  · split at e
    · rename_i p hp
      cases e
      have hlt : p < s.heap.length := by
        rw [List.getElem?_set_ne (by omega)] at hp
        exact h.slots _ _ hp
      refine ⟨⟨?_, ?_⟩, by simp⟩
      · intro i c hi'
        dsimp only at hi' ⊢
        rw [List.length_modify, List.length_append, List.length_singleton]
        rw [List.getElem?_modify] at hi'
        cases hx : (s.heap ++ [⟨it.2, []⟩])[i]? with
        | none => rw [hx] at hi'; cases hi'
        | some c0 =>
          rw [hx] at hi'
          obtain ⟨k1, k2⟩ := hc i c0 hx
          simp only [Option.map_eq_map, Option.map_some, Option.some.injEq] at hi'
          subst hi'
          split
          · rename_i hpi
            subst hpi
            refine ⟨k1, fun j hj => ?_⟩
            rcases List.mem_append.1 hj with hj | hj
            · exact k2 j hj
            · rw [List.mem_singleton.1 hj]; omega
          · exact ⟨k1, k2⟩
      · intro k p hk
        dsimp only at hk ⊢
        rw [List.length_modify, List.length_append, List.length_singleton]
        exact hsl k p hk
    · cases e
      refine ⟨⟨?_, ?_⟩, by simp⟩
      · simpa using hc
      · simpa using hsl
  · cases e

theorem treeLoop_plain : ∀ {its : List (Nat × Val)} {s s' : TreeSt}, TreeOk P s → (∀ it ∈ its, P it.2) → treeLoop s its = .ok s' →
    TreeOk P s' ∧ s.heap.length ≤ s'.heap.length
  | [], s, s', h, _, e => by cases e; exact ⟨h, Nat.le_refl _⟩
  | it :: its, s, s', h, hi, e => by
    rw [treeLoop] at e
    cases hs : treeStep s it with
    | ok s1 =>
      rw [hs] at e
      obtain ⟨h1, l1⟩ := treeStep_ok h (hi it (by simp)) hs
      obtain ⟨h2, l2⟩ := treeLoop_plain h1 (fun it' h' => hi it' (by simp [h'])) e
      exact ⟨h2, by omega⟩
    | panic => rw [hs] at e; cases e
    | oof => rw [hs] at e; cases e

theorem readNode_plain {s : TreeSt} (h : TreeOk P s) : ∀ f id, id < s.heap.length → s.heap.length - id ≤ f → PlainG P (readNode s.heap f id)
  | 0, id, h1, h2 => by omega
  | f + 1, id, h1, h2 => by
    rw [readNode]
    rw [List.getElem?_eq_getElem h1]
    obtain ⟨k1, k2⟩ := h.cells id _ (List.getElem?_eq_getElem h1)
    refine ⟨k1, plainL_iff.2 ?_⟩
    intro g hg
    obtain ⟨j, hj, rfl⟩ := List.mem_map.1 hg
    exact readNode_plain h f j (k2 j hj).2 (by have := (k2 j hj).1; omega)

theorem tree_plain {e : Ev} {g : Graph} (h0 : P (.str b!"_")) (hi : ∀ it ∈ e.items, P it.2) (h : e.tree = .ok g) : PlainG P g := by
  unfold Ev.tree at h
  cases hs : treeLoop ⟨[⟨.str b!"_", []⟩], some 0 :: List.replicate (e.max + 1) none⟩ e.items with
  | ok s =>
    rw [hs] at h
    cases h
    obtain ⟨h1, h2⟩ := treeLoop_plain (P := P) (s := ⟨[⟨.str b!"_", []⟩], some 0 :: List.replicate (e.max + 1) none⟩) ⟨by
      intro i c hc
      cases i with
      | zero => cases hc; exact ⟨h0, nofun⟩
      | succ n => simp at hc, by
      intro k p hk
      cases k with
      | zero => cases hk; simp
      | succ n =>
        rw [List.getElem?_cons_succ, List.getElem?_replicate] at hk
        split at hk
        · cases hk
        · cases hk⟩ hi hs
    exact readNode_plain h1 _ _ (by simp at h2; omega) (by omega)
  | panic => rw [hs] at h; cases h
  | oof => rw [hs] at h; cases h

theorem run_plain {σ α : Type} {M : Machine σ} {x : Prog α} {s : σ} {g : Graph} (hx : Puts P x) (h0 : P (.str b!"_"))
    (h : (do let r ← x.run M s {}; r.2.2.tree) = .ok g) : PlainG P g := by
  cases hr : x.run M s {} with
  | ok r =>
    rw [hr] at h
    obtain ⟨a, s', e⟩ := r
    exact tree_plain h0 (PutsQ.run M x s {} a s' e hx nofun hr) h
  | panic => rw [hr] at h; cases h
  | oof => rw [hr] at h; cases h

/-! ## Expressions -/

theorem plainG_add {a b : Graph} (ha : PlainG P a) (hb : PlainG P b) : PlainG P (a.add (.graph b)).1 := by
  cases a with
  | nil => exact ha
  | node t o =>
    cases b with
    | nil => exact hb.elim
    | node t' o' =>
      refine ⟨ha.1, plainL_iff.2 fun g hg => ?_⟩
      rcases List.mem_append.1 hg with hg | hg
      · exact plainL_iff.1 ha.2 g hg
      · rw [List.mem_singleton.1 hg]; exact hb

variable {E : Ext}

theorem astPass_plain (j : Nat) : ∀ (n : Nat) (os pre o' : List Graph), os.length ≤ n → PlainL P pre → PlainL P os → astPass E j pre os = .ok o' → PlainL P o'
  | n, [], pre, o', _, h1, _, h => by
    rw [astPass] at h
    cases h
    exact plainL_iff.2 fun g hg => plainL_iff.1 h1 g (List.mem_reverse.1 hg)
  | 0, n :: rest, pre, o', hn, h1, h2, h => by simp at hn
  | k + 1, n :: rest, pre, o', hn, h1, h2, h => by
    simp only [List.length_cons] at hn
    have step : astPass E j (n :: pre) rest = .ok o' → PlainL P o' := fun h =>
      astPass_plain j k rest (n :: pre) o' (by omega) ⟨h2.1, h1⟩ h2.2 h
    unfold astPass at h
    split at h
    · split at h
      · rename_i e1 pre' e2 rest'
        refine astPass_plain j k rest' _ o' (by simp at hn; omega) ?_ h2.2.2 h
        exact ⟨plainG_add (plainG_add h2.1 h1.1) h2.2.1, h1.2⟩
      · cases h
    · exact step h

theorem astPasses_plain : ∀ (j : Nat) (o o' : List Graph), PlainL P o → astPasses E j o = .ok o' → PlainL P o'
  | 0, o, o', h1, h => by cases h; exact h1
  | j + 1, o, o', h1, h => by
    rw [astPasses] at h
    cases hs : astPass E j [] o with
    | ok o1 => rw [hs] at h; exact astPasses_plain j o1 o' (astPass_plain j _ o [] o1 (Nat.le_refl _) trivial h1 hs) h
    | panic => rw [hs] at h; cases h
    | oof => rw [hs] at h; cases h

theorem res_bind_ok {α β : Type} {x : Res α} {f : α → Res β} {b : β} (h : (x >>= f) = .ok b) : ∃ a, x = .ok a ∧ f a = .ok b := by
  cases x with
  | ok a => exact ⟨a, rfl, h⟩
  | panic => cases h
  | oof => cases h

mutual
theorem ast_plain : ∀ {g g' : Graph}, PlainG P g → g.ast E = .ok g' → PlainG P g'
  | .nil, _, h, _ => h.elim
  | .node t o, g', h, e => by
    rw [Graph.ast] at e
    obtain ⟨o', h1, h2⟩ := res_bind_ok e
    cases h2
    exact ⟨h.1, astList_plain h.2 h1⟩
theorem astList_plain : ∀ {o o' : List Graph}, PlainL P o → Graph.astList E o = .ok o' → PlainL P o'
  | [], _, _, e => by rw [Graph.astList] at e; cases e; trivial
  | .nil :: ns, _, h, _ => h.1.elim
  | .node t o :: ns, o', h, e => by
    rw [Graph.astList] at e
    dsimp only at e
    split at e
    · obtain ⟨n', h1, h2⟩ := res_bind_ok e
      obtain ⟨ns', h3, h4⟩ := res_bind_ok h2
      cases h4
      exact ⟨astBody_plain h.1 h1, astList_plain h.2 h3⟩
    · obtain ⟨o1, h1, h2⟩ := res_bind_ok e
      obtain ⟨ns', h3, h4⟩ := res_bind_ok (x := Graph.astList E ns) h2
      cases h4
      exact ⟨⟨h.1.1, astList_plain h.1.2 h1⟩, astList_plain h.2 h3⟩
theorem astBody_plain : ∀ {t : Val} {o : List Graph} {g : Graph}, PlainG P (.node t o) → Graph.astBody E t o = .ok g → PlainG P g
  | t, o, g, h, e => by
    rw [Graph.astBody] at e
    split at e
    · cases e; exact h
    · obtain ⟨o1, h1, h2⟩ := res_bind_ok e
      have h3 := astEach_plain h.2 h1
      split at h2
      · cases h2
        refine ⟨h.1, ?_, trivial⟩
        split
        · exact plainG_add h3.1 h3.2.1
        · exact h3.1
      · obtain ⟨o2, h4, h5⟩ := res_bind_ok h2
        cases h5
        exact ⟨h.1, astPasses_plain 7 _ _ h3 h4⟩
theorem astEach_plain : ∀ {o o' : List Graph}, PlainL P o → Graph.astEach E o = .ok o' → PlainL P o'
  | [], _, _, e => by rw [Graph.astEach] at e; cases e; trivial
  | .nil :: ns, _, h, _ => h.1.elim
  | .node t o :: ns, o', h, e => by
    rw [Graph.astEach] at e
    obtain ⟨o1, h1, h2⟩ := res_bind_ok e
    obtain ⟨ns', h3, h4⟩ := res_bind_ok h2
    cases h4
    exact ⟨⟨h.1.1, astList_plain h.1.2 h1⟩, astEach_plain h.2 h3⟩
end

/-! ## Templates -/

theorem plainG_setThis {g : Graph} {v : Val} (h : PlainG P g) (hv : P v) : PlainG P (g.setThis v) := by
  cases g with
  | nil => exact h
  | node t o => exact ⟨hv, h.2⟩

theorem plainG_deleteAt {g : Graph} {i : Int} (h : PlainG P g) : PlainG P (g.deleteAt i) := by
  cases g with
  | nil => exact h
  | node t o =>
    rw [Graph.deleteAt]
    split
    · exact h
    · exact ⟨h.1, plainL_iff.2 fun g hg => plainL_iff.1 h.2 g (List.mem_of_mem_eraseIdx hg)⟩

theorem simplifyNode_plain (hP : ∀ b, P (.str b)) {g : Graph} (h : PlainG P g) : PlainG P (simplifyNode E g) := by
  unfold simplifyNode
  dsimp only
  repeat' split
  all_goals first | exact h | exact plainG_deleteAt (plainG_setThis h (hP _))

theorem plainL_append {a b : List Graph} (ha : PlainL P a) (hb : PlainL P b) : PlainL P (a ++ b) :=
  plainL_iff.2 fun g hg => (List.mem_append.1 hg).elim (plainL_iff.1 ha g) (plainL_iff.1 hb g)

theorem flow_plain (hP : ∀ b, P (.str b)) : ∀ (f : Nat) {ns h prev rest : List Graph}, PlainL P ns → flow E f ns = .ok (h, prev, rest) →
    PlainL P h ∧ PlainL P prev ∧ PlainL P rest
  | 0, _, _, _, _, _, e => by cases e
  | f + 1, [], _, _, _, _, e => by cases e; exact ⟨trivial, trivial, trivial⟩
  | f + 1, n :: ns, h, prev, rest, hn, e => by
    rw [flow] at e
    dsimp only at e
    have hb : ∀ body, PlainL P body → PlainG P (n.add (.graph (.node (.str tyTemplate) body))).1 := fun body hbody =>
      plainG_add hn.1 ⟨hP _, hbody⟩
    split at e
    · obtain ⟨⟨body, branches, rest1⟩, h1, h2⟩ := res_bind_ok e
      obtain ⟨⟨h', prev', rest2⟩, h3, h4⟩ := res_bind_ok h2
      cases h4
      obtain ⟨a1, a2, a3⟩ := flow_plain hP f hn.2 h1
      obtain ⟨b1, b2, b3⟩ := flow_plain hP f a3 h3
      exact ⟨⟨hb _ a1, plainL_append a2 b1⟩, b2, b3⟩
    · split at e
      · obtain ⟨⟨body, branches, rest1⟩, h1, h2⟩ := res_bind_ok e
        cases h2
        obtain ⟨a1, a2, a3⟩ := flow_plain hP f hn.2 h1
        exact ⟨trivial, ⟨hb _ a1, a2⟩, a3⟩
      · split at e
        · cases e; exact ⟨trivial, trivial, hn.2⟩
        · obtain ⟨⟨h', prev', rest2⟩, h3, h4⟩ := res_bind_ok e
          cases h4
          obtain ⟨b1, b2, b3⟩ := flow_plain hP f hn.2 h3
          exact ⟨⟨hn.1, b1⟩, b2, b3⟩

/-! ## The API -/

theorem newPath_plain (hP : ∀ b, P (.str b)) {s : Bytes} {g : Graph} (h : newPath E s = .ok g) : PlainG P g := by
  unfold newPath newPathFuel at h
  obtain ⟨g1, h1, h2⟩ := res_bind_ok h
  cases h2
  exact plainG_setThis (run_plain (puts_path E _ _ hP) (hP _) h1) (hP _)

theorem newExpression_plain (hP : ∀ b, P (.str b)) {s : Bytes} {g : Graph} (h : newExpression E s = .ok g) : PlainG P g := by
  unfold newExpression at h
  obtain ⟨g1, h1, h2⟩ := res_bind_ok h
  have h3 := run_plain (puts_expression E _ _ hP) (hP _) h1
  split at h2
  · cases h2
  · exact astBody_plain ⟨hP _, h3.2⟩ h2

theorem newTemplate_plainG (hP : ∀ b, P (.str b)) {s : Bytes} {g : Graph} (h : newTemplate E s = .ok g) : PlainG P g := by
  unfold newTemplate at h
  obtain ⟨g1, h1, h2⟩ := res_bind_ok h
  have h3 := run_plain (puts_template E _ _ hP _) (hP _) h1
  obtain ⟨g2, h4, h5⟩ := res_bind_ok h2
  have h6 := ast_plain h3 h4
  dsimp only at h5
  obtain ⟨⟨a, b, c⟩, h7, h8⟩ := res_bind_ok h5
  cases h8
  have hl : PlainL P (g2.out.map (simplifyNode E)) := plainL_iff.2 fun g hg => by
    obtain ⟨g', hg', rfl⟩ := List.mem_map.1 hg
    refine simplifyNode_plain hP (plainL_iff.1 ?_ g' hg')
    cases g2 with
    | nil => exact h6.elim
    | node t o => exact h6.2
  obtain ⟨a1, a2, _⟩ := flow_plain hP _ hl h7
  exact ⟨hP _, plainL_append a1 a2⟩

theorem fromReader_plain {types : Bool} (hP : ∀ b, P (.str b)) (hT : types = true → ∀ b, P (typed E b)) {rd : Reader} {g : Graph}
    (h : fromReader E types rd = .ok g) : PlainG P g :=
  run_plain (puts_ogdl E _ types _ hP hT) (hP _) h

theorem lines_plain (hP : ∀ b, P (.str b)) (hB : ∀ b, P (.bytes b)) (fuel : Nat) : ∀ (f : Nat) {p p' : BinR} {e e' : Ev},
    (∀ it ∈ e.items, P it.2) → p.lines fuel f e = .ok (e', p') → ∀ it ∈ e'.items, P it.2
  | 0, _, _, _, _, _, h => by cases h
  | f + 1, p, p', e, e', he, h => by
    rw [BinR.lines] at h
    obtain ⟨⟨lev, bin, b, p1⟩, _, h2⟩ := res_bind_ok h
    dsimp only at h2
    have key : ∀ v, P v → ∀ it ∈ (e.addAt v (lev - 1)).items, P it.2 := by
      intro v hv it hit
      rcases List.mem_append.1 hit with h | h
      · exact he it h
      · rw [List.mem_singleton.1 h]; exact hv
    split at h2
    · cases h2; exact he
    · split at h2
      · exact lines_plain hP hB fuel f (key _ (hB _)) h2
      · exact lines_plain hP hB fuel f (key _ (hP _)) h2

theorem fromBinary_plain (hP : ∀ b, P (.str b)) (hB : ∀ b, P (.bytes b)) {fuel : Nat} {b : Bytes} {g : Graph}
    (h : fromBinaryFuel fuel b = .ok g) : g = .nil ∨ PlainG P g := by
  unfold fromBinaryFuel at h
  obtain ⟨⟨g', p⟩, h1, h2⟩ := res_bind_ok h
  cases h2
  unfold BinR.parse at h1
  split at h1
  · cases h1; exact .inl rfl
  · obtain ⟨⟨ev, p1⟩, h3, h4⟩ := res_bind_ok h1
    obtain ⟨g1, h5, h6⟩ := res_bind_ok h4
    cases h6
    exact .inr (tree_plain (hP _) (lines_plain hP hB _ _ (by intro it h; cases h) h3) h5)

end
end Ogdl
