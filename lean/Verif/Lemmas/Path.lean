import Verif.Lemmas.Rune
import Verif.Lemmas.Short
import Verif.Lemmas.ParseExact

/-! The path and expression parser reads the text of a syntax tree as that tree. -/

namespace Ogdl
open Lex Spec

/-! ## Tokens -/

theorem Cur.forward_app : ∀ (w pre t : Bytes) (o : Nat) (ru : List Nat),
    Cur.forward w.length ⟨pre, w ++ t, o, ru⟩ = ⟨w.reverse ++ pre, t, o, ru⟩
  | [], pre, t, o, ru => by simp [Cur.forward]
  | c :: w, pre, t, o, ru => by
    simp only [List.length_cons, Cur.forward, List.cons_append]
    rw [Cur.forward_app w (c :: pre) t o ru]
    simp

theorem Cur.back_app : ∀ (n : Nat) (w pre t : Bytes) (ru : List Nat), w.length = n →
    Cur.back n ⟨w ++ pre, t, 0, ru⟩ = ⟨pre, w.reverse ++ t, 0, ru⟩
  | 0, w, pre, t, ru, h => by
    have : w = [] := by simpa using h
    simp [this, Cur.back]
  | n + 1, [], pre, t, ru, h => by simp at h
  | n + 1, c :: w, pre, t, ru, h => by
    simp only [Cur.back, Cur.unread, List.cons_append]
    rw [Cur.back_app n w pre (c :: t) ru (by simpa using h)]
    simp

theorem run_rune_app (r : Nat) (h : ValidRune r) (pre t : Bytes) (ru : List Nat) (e : Ev) :
    (rune).run curM ⟨pre, encodeRune r ++ t, 0, ru⟩ e =
      .ok (r, ⟨(encodeRune r).reverse ++ pre, t, 0, (encodeRune r).length :: ru⟩, e) := by
  obtain ⟨c, w, hw, hc⟩ := encodeRune_head r
  simp only [rune, Prog.run, curM]
  have hd := decode_encode r h t
  rw [hw] at hd ⊢
  by_cases h1 : r < 0x80
  · rw [if_pos h1] at hc
    obtain ⟨hc, rfl⟩ := hc
    have h80 : c < 0x80 := by
      rw [UInt8.lt_iff_toNat_lt, hc]; exact h1
    simp [Cur.rune, h80, hc]
  · rw [if_neg h1] at hc
    have := Cur.forward_app (c :: w) pre t 0 ru
    simp only [List.cons_append] at hd this
    simp only [Cur.rune, List.cons_append, hc, ↓reduceIte, hd, this]

/-- What may follow a name: nothing, or a byte that is not part of one. -/
def NameStop (rest : Bytes) : Prop :=
  ∀ c, rest.head? = some c → c < 0x80 ∧ latinLetter c.toNat = false ∧ latinDigit c.toNat = false ∧ c ≠ 95

theorem isTokenRune_name {E : Ext} {r : Nat} (h : NameRune E r) : isTokenRune E r = true := by
  obtain ⟨_, h⟩ := h
  simp only [isTokenRune]
  rcases h with rfl | h
  · simp
  · split at h <;> rename_i hr
    · rcases h with h | h
      · simp [hr, h]
      · simp [hr, latinDigit, h]
    · rcases h with h | h <;> simp [hr, h]

theorem run_tokenLoop_stop (E : Ext) (rest pre : Bytes) (ru : List Nat) (e : Ev) (L : Nat) (h : NameStop rest) (hL : 0 < L) :
    (tokenLoop E L).run curM ⟨pre, rest, 0, ru⟩ e = .ok ([], ⟨pre, rest, 0, ru⟩, e) := by
  cases L with
  | zero => omega
  | succ L =>
    cases rest with
    | nil =>
      have h0 : isTokenRune E 0 = false := by simp [isTokenRune, latinLetter, latinDigit]
      simp only [tokenLoop, Prog.run_bind, rune, Prog.run, curM, Cur.rune, h0]
      simp [unreadRune, Prog.run_bind, Prog.run, Cur.unreadRune, Cur.back, Cur.unread, Prog.run_pure]
    | cons c t =>
      obtain ⟨h1, h2, h3, h4⟩ := h c rfl
      have h5 : c.toNat < 256 := c.toNat_lt
      have h95 : (c.toNat == 95) = false := by
        rw [beq_eq_false_iff_ne]; intro hh; exact h4 (UInt8.toNat_inj.1 hh)
      have h0 : isTokenRune E c.toNat = false := by simp only [isTokenRune, h5, ↓reduceIte, h2, h3, h95]; rfl
      simp only [tokenLoop, Prog.run_bind, rune, Prog.run, curM, Cur.rune, h1, ↓reduceIte, h0]
      simp [unreadRune, Prog.run_bind, Prog.run, Cur.unreadRune, Cur.back, Cur.unread, Prog.run_pure]

theorem run_tokenLoop (E : Ext) (rest : Bytes) (h : NameStop rest) (e : Ev) : ∀ (rs : List Nat) (pre : Bytes)
    (ru : List Nat) (L : Nat), (∀ r ∈ rs, NameRune E r) → rs.length < L → ∃ ru',
    (tokenLoop E L).run curM ⟨pre, rs.flatMap encodeRune ++ rest, 0, ru⟩ e =
      .ok (rs, ⟨(rs.flatMap encodeRune).reverse ++ pre, rest, 0, ru'⟩, e)
  | [], pre, ru, L, _, hL => ⟨ru, run_tokenLoop_stop E rest pre ru e L h hL⟩
  | r :: rs, pre, ru, L + 1, hr, hL => by
    obtain ⟨ru', h'⟩ := run_tokenLoop E rest h e rs ((encodeRune r).reverse ++ pre) ((encodeRune r).length :: ru) L
      (fun r h => hr r (by simp [h])) (by simpa using hL)
    refine ⟨ru', ?_⟩
    simp only [tokenLoop, Prog.run_bind, List.flatMap_cons, List.append_assoc,
      run_rune_app r (hr r (by simp)).1, isTokenRune_name (hr r (by simp)), ↓reduceIte, h', Prog.run_pure]
    simp

theorem length_flatMap_encode : ∀ rs : List Nat, rs.length ≤ (rs.flatMap encodeRune).length
  | [] => by simp
  | r :: rs => by
    have := length_flatMap_encode rs
    have h := encodeRune_ne_nil r
    have : 0 < (encodeRune r).length := List.length_pos_iff.2 h
    rw [List.flatMap_cons, List.length_append, List.length_cons]; omega

/-! ## What a program reads and emits -/

/-- The handler receives the trees `gs` at its current level. -/
def Emits (e : Ev) (gs : List Graph) (e' : Ev) : Prop :=
  e'.current = e.current ∧ e'.items = e.items ++ preorderL e.current gs ∧ (e.Ok → e'.Ok)

theorem Emits.refl (e : Ev) : Emits e [] e := ⟨rfl, by simp [preorderL], id⟩

theorem preorderL_append' (d : Nat) : ∀ gs hs : List Graph, preorderL d (gs ++ hs) = preorderL d gs ++ preorderL d hs
  | [], hs => by simp [preorderL]
  | g :: gs, hs => by simp [preorderL, preorderL_append' d gs hs]

theorem Emits.trans {e e' e'' : Ev} {gs hs : List Graph} (h : Emits e gs e') (h' : Emits e' hs e'') :
    Emits e (gs ++ hs) e'' :=
  ⟨h'.1.trans h.1, by rw [h'.2.1, h.2.1, h.1, preorderL_append', List.append_assoc], h'.2.2 ∘ h.2.2⟩

theorem Emits.leaf (e : Ev) (v : Val) : Emits e [.node v []] (e.add v) :=
  ⟨rfl, by simp [Ev.add, preorderL, preorder], fun h => h.add v⟩

/-- A node: its content, one level down its subnodes, and back. -/
theorem Emits.node {e e1 : Ev} {v : Val} {gs : List Graph} (h : Emits (e.add v).inc gs e1) :
    Emits e [.node v gs] (e1.setLevel e.current) := by
  refine ⟨rfl, ?_, fun he => (h.2.2 (he.add v).inc).setLevel _⟩
  have := h.2.1
  simp only [Ev.setLevel, this, Ev.inc, Ev.add, preorderL, preorder]
  simp

theorem Emits.node_dec {e e1 : Ev} {v : Val} {gs : List Graph} (h : Emits (e.add v).inc gs e1) :
    Emits e [.node v gs] e1.dec := by
  refine ⟨?_, ?_, fun he => (h.2.2 (he.add v).inc).dec⟩
  · simp [Ev.dec, h.1, Ev.inc, Ev.add]
  · have := h.2.1
    simp only [Ev.dec, this, Ev.inc, Ev.add, preorderL, preorder]
    simp

/-- On the text `t` followed by `rest`, the program consumes `t`, returns `a` and emits
`gs`. -/
def Consumes {α : Type} (x : Prog α) (a : α) (t rest : Bytes) (gs : List Graph) : Prop :=
  ∀ (pre : Bytes) (ru : List Nat) (e : Ev), ∃ ru' e',
    x.run curM ⟨pre, t ++ rest, 0, ru⟩ e = .ok (a, ⟨t.reverse ++ pre, rest, 0, ru'⟩, e') ∧ Emits e gs e'

theorem Consumes.bind {α β : Type} {x : Prog α} {f : α → Prog β} {a : α} {b : β} {t t' rest : Bytes} {gs gs' : List Graph}
    (h : Consumes x a t (t' ++ rest) gs) (hf : Consumes (f a) b t' rest gs') : Consumes (x >>= f) b (t ++ t') rest (gs ++ gs') := by
  intro pre ru e
  obtain ⟨ru1, e1, h1, h2⟩ := h pre ru e
  obtain ⟨ru2, e2, h3, h4⟩ := hf (t.reverse ++ pre) ru1 e1
  refine ⟨ru2, e2, ?_, h2.trans h4⟩
  rw [List.append_assoc, Prog.run_bind_ok h1, h3]
  simp

theorem Consumes.bind0 {α β : Type} {x : Prog α} {f : α → Prog β} {a : α} {b : β} {t rest : Bytes} {gs : List Graph}
    (h : Consumes x a [] (t ++ rest) []) (hf : Consumes (f a) b t rest gs) : Consumes (x >>= f) b t rest gs :=
  Consumes.bind (t := []) (gs := []) h hf

theorem Consumes.pure {α : Type} (a : α) (rest : Bytes) : Consumes (Pure.pure a : Prog α) a [] rest [] :=
  fun _ ru e => ⟨ru, e, by simp [Prog.run_pure], Emits.refl e⟩

theorem reads_byte0 (c : UInt8) (rest : Bytes) : Consumes byte0 c [c] rest [] := fun pre ru e =>
  ⟨ru, e, by simp, Emits.refl e⟩

theorem reads_peek (c : UInt8) (rest : Bytes) : Consumes peekByte c [] (c :: rest) [] := fun pre ru e =>
  ⟨ru, e, by simp [run_peekByte_cons], Emits.refl e⟩

theorem reads_add (v : Val) (rest : Bytes) : Consumes (evAdd v) () [] rest [.node v []] := fun pre ru e =>
  ⟨ru, e.add v, by simp, Emits.leaf e v⟩

theorem reads_readWhile (p : UInt8 → Bool) (h0 : p 0 = false) {a rest : Bytes} {L : Nat}
    (ha : ∀ c ∈ a, p c = true) (hb : ∀ c, rest.head? = some c → p c = false) (hL : (a ++ rest).length < L) :
    Consumes (readWhile p L) a a rest [] := fun pre ru e =>
  ⟨ru, e, run_readWhile_app p h0 ha hb hL, Emits.refl e⟩

theorem reads_space {sp rest : Bytes} {L : Nat} (h : ∀ c ∈ sp, c = 32)
    (hb : ∀ c, rest.head? = some c → isSpaceChar c = false) (hL : (sp ++ rest).length < L) :
    Consumes (space L) (sp.length, spaceKind sp) sp rest [] := fun pre ru e => by
  refine ⟨ru, e, ?_, Emits.refl e⟩
  simp only [space, Prog.run_bind]
  rw [run_readWhile_app isSpaceChar (by decide) (fun c hc => by rw [h c hc]; decide) hb hL]
  simp [Prog.run_pure]

theorem reads_whiteSpace {sp rest : Bytes} {L : Nat} (h : ∀ c ∈ sp, c = 32)
    (hb : ∀ c, rest.head? = some c → 32 < c) (hL : (sp ++ rest).length < L) :
    Consumes (whiteSpace L) (!sp.isEmpty) sp rest [] := fun pre ru e => by
  refine ⟨ru, e, ?_, Emits.refl e⟩
  simp only [whiteSpace, Prog.run_bind]
  rw [run_readWhile_app _ (by decide) (fun c hc => by rw [h c hc]; decide) (fun c hc => ?_) hL]
  · simp [Prog.run_pure]
  · have := hb c hc
    have h1 : c ≠ 32 := by rintro rfl; revert this; decide
    have h2 : c ≠ 9 := by rintro rfl; revert this; decide
    have h3 : c ≠ 10 := by rintro rfl; revert this; decide
    have h4 : c ≠ 13 := by rintro rfl; revert this; decide
    simp [h1, h2, h3, h4]

theorem reads_token {E : Ext} {s rest : Bytes} {L : Nat} (hs : Name E s) (h : NameStop rest)
    (hL : (s ++ rest).length < L) : Consumes (token8 E L) s s rest [] := fun pre ru e => by
  obtain ⟨rs, hne, hr, rfl⟩ := hs
  have hl := length_flatMap_encode rs
  obtain ⟨ru', h'⟩ := run_tokenLoop E rest h e rs pre ru L hr (by rw [List.length_append] at hL; omega)
  refine ⟨ru', e, ?_, Emits.refl e⟩
  simp only [token8, Prog.run_bind, h', Prog.run_pure]
  rfl

theorem reads_token_none {E : Ext} {rest : Bytes} {L : Nat} (h : NameStop rest) (hL : 0 < L) :
    Consumes (token8 E L) [] [] rest [] := fun pre ru e => by
  refine ⟨ru, e, ?_, Emits.refl e⟩
  simp only [token8, Prog.run_bind, List.nil_append, run_tokenLoop_stop E rest pre ru e L h hL, Prog.run_pure]
  rfl

theorem reads_quoted {s rest : Bytes} {L : Nat} (hs : PlainStr s) (hL : (34 :: escape 0 34 s ++ [34] ++ rest).length < L) :
    Consumes (quoted L 0) (some s) (34 :: escape 0 34 s ++ [34]) rest [] := fun pre ru e =>
  ⟨ru, e, run_quoted 0 34 (.inl rfl) hs rest pre ru e L hL, Emits.refl e⟩

theorem reads_quoted_none {c : UInt8} {rest : Bytes} {L : Nat} (h1 : c ≠ 34) (h2 : c ≠ 39) (h3 : c ≠ 96) :
    Consumes (quoted L 0) none [] (c :: rest) [] := fun pre ru e =>
  ⟨ru, e, run_quoted_none _ _ _ _ _ L 0 h1 h2 h3, Emits.refl e⟩

/-! ## Numbers -/

theorem digitByte_iff {c : UInt8} : isDigitByte c = true ↔ Digit c := by
  simp only [isDigitByte, latinDigit, Bool.and_eq_true, decide_eq_true_eq, Digit, UInt8.le_iff_toNat_le]
  rfl

theorem reads_numberLoop_digits (p : Bool) {rest : Bytes} (h : ∀ c, rest.head? = some c → isDigitByte c = false ∧ (p = false → c ≠ 46)) :
    ∀ (ds : Bytes) (L : Nat), (∀ c ∈ ds, Digit c) → (ds ++ rest).length < L → Consumes (numberLoop L p) ds ds rest []
  | [], L + 1, _, hL => by
    cases rest with
    | nil =>
      intro pre ru e
      refine ⟨ru, e, ?_, Emits.refl e⟩
      have h0 : isDigitByte 0 = false := by decide
      simp [numberLoop, Prog.run_bind, h0, Prog.run_pure]
    | cons c t =>
      obtain ⟨h1, h2⟩ := h c rfl
      intro pre ru e
      refine ⟨ru, e, ?_, Emits.refl e⟩
      have h3 : (!p && c == 46) = false := by
        cases p
        · simpa using h2 rfl
        · rfl
      simp only [numberLoop, Prog.run_bind, List.nil_append, run_byte0_cons, h1, h3, Bool.false_eq_true, ↓reduceIte, run_unread_zero, Prog.run_pure]
      rfl
  | d :: ds, L + 1, hd, hL => by
    have ih := reads_numberLoop_digits p h ds L (fun c hc => hd c (by simp [hc])) (by simpa using hL)
    have h1 : isDigitByte d = true := digitByte_iff.2 (hd d (by simp))
    intro pre ru e
    obtain ⟨ru', e', h2, h3⟩ := ih (d :: pre) ru e
    refine ⟨ru', e', ?_, h3⟩
    simp only [numberLoop, Prog.run_bind, List.cons_append, run_byte0_cons, h1, ↓reduceIte, h2, Prog.run_pure]
    simp

theorem reads_numberLoop_point {gs rest : Bytes} (h : ∀ c, rest.head? = some c → isDigitByte c = false) (hg : ∀ c ∈ gs, Digit c) :
    ∀ (ds : Bytes) (L : Nat), (∀ c ∈ ds, Digit c) → (ds ++ 46 :: gs ++ rest).length < L →
    Consumes (numberLoop L false) (ds ++ 46 :: gs) (ds ++ 46 :: gs) rest []
  | [], L + 1, _, hL => by
    have ih := reads_numberLoop_digits true (rest := rest) (fun c hc => ⟨h c hc, by simp⟩) gs L hg (by simpa using hL)
    intro pre ru e
    obtain ⟨ru', e', h2, h3⟩ := ih (46 :: pre) ru e
    refine ⟨ru', e', ?_, h3⟩
    have h46 : isDigitByte 46 = false := by decide
    simp [numberLoop, Prog.run_bind, h46, h2, Prog.run_pure]
  | d :: ds, L + 1, hd, hL => by
    have ih := reads_numberLoop_point h hg ds L (fun c hc => hd c (by simp [hc])) (by simpa using hL)
    have h1 : isDigitByte d = true := digitByte_iff.2 (hd d (by simp))
    intro pre ru e
    obtain ⟨ru', e', h2, h3⟩ := ih (d :: pre) ru e
    refine ⟨ru', e', ?_, h3⟩
    simp only [numberLoop, Prog.run_bind, List.cons_append, run_byte0_cons, h1, ↓reduceIte, h2, Prog.run_pure]
    simp

theorem reads_number {s rest : Bytes} {L : Nat} (hs : Num s)
    (h : ∀ c, rest.head? = some c → isDigitByte c = false ∧ c ≠ 46) (hL : (s ++ rest).length < L) :
    Consumes (number L) (some s) s rest [] := by
  obtain ⟨sign, ds, fs, hsign, hne, hds, hfs, rfl⟩ := hs
  have hloop : Consumes (numberLoop L false) (ds ++ fs) (ds ++ fs) rest [] := by
    rcases hfs with rfl | ⟨gs, rfl, hg⟩
    · rw [List.append_nil]
      exact reads_numberLoop_digits false (fun c hc => ⟨(h c hc).1, fun _ => (h c hc).2⟩) ds L hds
        (by simp at hL ⊢; omega)
    · exact reads_numberLoop_point (fun c hc => (h c hc).1) hg ds L hds (by simp at hL ⊢; omega)
  intro pre ru e
  cases ds with
  | nil => exact (hne rfl).elim
  | cons d ds =>
    rcases hsign with rfl | rfl
    · obtain ⟨ru', e', h2, h3⟩ := hloop pre ru e
      refine ⟨ru', e', ?_, h3⟩
      have hd : Digit d := hds d (by simp)
      have h45 : (d == 45) = false := by
        rw [beq_eq_false_iff_ne]; rintro rfl; revert hd; unfold Digit; decide
      have h43 : (d == 43) = false := by
        rw [beq_eq_false_iff_ne]; rintro rfl; revert hd; unfold Digit; decide
      simp only [List.cons_append, List.nil_append, List.append_assoc] at h2 ⊢
      simp only [number, Prog.run_bind, run_peekByte_cons, h45, h43, Bool.or_self, Bool.false_eq_true, ↓reduceIte, Prog.run_pure, h2, List.isEmpty_cons]
    · obtain ⟨ru', e', h2, h3⟩ := hloop (45 :: pre) ru e
      refine ⟨ru', e', ?_, h3⟩
      simp only [List.cons_append, List.nil_append, List.append_assoc] at h2 ⊢
      simp [number, Prog.run_bind, run_peekByte_cons, Prog.run_pure, h2]

theorem reads_number_none {c : UInt8} {rest : Bytes} {L : Nat} (h1 : isDigitByte c = false) (h2 : c ≠ 46) (h3 : c ≠ 45)
    (h4 : c ≠ 43) (hL : 0 < L) : Consumes (number L) none [] (c :: rest) [] := fun pre ru e => by
  refine ⟨ru, e, ?_, Emits.refl e⟩
  cases L with
  | zero => omega
  | succ L => simp [number, numberLoop, Prog.run_bind, run_peekByte_cons, Prog.run_pure, h1, h2, h3, h4]

/-! ## What may follow -/

/-- What may follow a path. -/
def PathStop (rest : Bytes) : Prop :=
  NameStop rest ∧ ∀ c, rest.head? = some c → c ≠ 46 ∧ c ≠ 91 ∧ c ≠ 40 ∧ c ≠ 123

/-- What may follow an expression. -/
def ExprStop (rest : Bytes) : Prop :=
  PathStop rest ∧ ∀ c, rest.head? = some c → isSpaceChar c = false ∧ isOperatorChar c = false

theorem pathStop_nil : PathStop [] := ⟨by simp [NameStop], by simp⟩
theorem exprStop_nil : ExprStop [] := ⟨pathStop_nil, by simp⟩

theorem nameStop_cons {c : UInt8} {t : Bytes} (h : c < 0x80 ∧ latinLetter c.toNat = false ∧ latinDigit c.toNat = false ∧ c ≠ 95) :
    NameStop (c :: t) := by
  intro d hd
  simp only [List.head?_cons, Option.some.injEq] at hd
  exact hd ▸ h

theorem pathStop_cons {c : UInt8} {t : Bytes} (h : c < 0x80 ∧ latinLetter c.toNat = false ∧ latinDigit c.toNat = false ∧ c ≠ 95)
    (h' : c ≠ 46 ∧ c ≠ 91 ∧ c ≠ 40 ∧ c ≠ 123) : PathStop (c :: t) := by
  refine ⟨nameStop_cons h, ?_⟩
  intro d hd
  simp only [List.head?_cons, Option.some.injEq] at hd
  exact hd ▸ h'

theorem exprStop_cons {c : UInt8} {t : Bytes} (h : c = 93 ∨ c = 125 ∨ c = 41 ∨ c = 44) : ExprStop (c :: t) := by
  refine ⟨?_, ?_⟩
  · rcases h with rfl | rfl | rfl | rfl <;> exact pathStop_cons (by decide) (by decide)
  · intro d hd
    simp only [List.head?_cons, Option.some.injEq] at hd
    subst hd
    rcases h with rfl | rfl | rfl | rfl <;> decide

theorem PathStop.number {rest : Bytes} (h : PathStop rest) :
    ∀ c, rest.head? = some c → isDigitByte c = false ∧ c ≠ 46 :=
  fun c hc => ⟨(h.1 c hc).2.2.1, (h.2 c hc).1⟩

/-- The byte an operand starts with. -/
def OpndHead (c : UInt8) : Prop := AsciiLetter c ∨ Digit c ∨ c = 45 ∨ c = 34 ∨ c = 40

theorem opnd_head {E : Ext} {o : Opnd} (h : o.Ok E) : ∃ c t, o.text = c :: t ∧ OpndHead c := by
  cases o with
  | path s es =>
    obtain ⟨_, ⟨c, t, rfl, hc⟩, _⟩ := h
    exact ⟨c, t ++ es.text, by simp [Opnd.text], .inl hc⟩
  | num s =>
    obtain ⟨sign, ds, fs, hs, hne, hds, _, rfl⟩ := h
    cases ds with
    | nil => exact (hne rfl).elim
    | cons d ds =>
      rcases hs with rfl | rfl
      · exact ⟨d, ds ++ fs, by simp [Opnd.text], .inr (.inl (hds d (by simp)))⟩
      · exact ⟨45, d :: ds ++ fs, by simp [Opnd.text], .inr (.inr (.inl rfl))⟩
  | str s => exact ⟨34, _, by simp [Opnd.text]; rfl, by simp [OpndHead]⟩
  | paren x => exact ⟨40, _, by simp [Opnd.text]; rfl, by simp [OpndHead]⟩

theorem expr_head {E : Ext} {x : Expr} (h : x.Ok E) : ∃ c t, x.text = c :: t ∧ OpndHead c := by
  cases x with
  | one o => exact opnd_head h
  | op o s x =>
    obtain ⟨c, t, h1, h2⟩ := opnd_head h.1
    exact ⟨c, t ++ 32 :: s ++ 32 :: x.text, by simp [Expr.text, h1], h2⟩

theorem opndHead_lt {c : UInt8} (h : OpndHead c) : 32 < c := by
  have hle : ∀ k : UInt8, 32 < k → k ≤ c → 32 < c := fun k h1 h2 => by
    rw [UInt8.lt_iff_toNat_lt] at h1 ⊢; rw [UInt8.le_iff_toNat_le] at h2; omega
  rcases h with (h | h | h) | h | h | h | h
  · exact hle 65 (by decide) h.1
  · exact hle 97 (by decide) h.1
  · rw [h]; decide
  · exact hle 48 (by decide) h.1
  all_goals (rw [h]; decide)

theorem opndHead_space {c : UInt8} (h : OpndHead c) : isSpaceChar c = false := not_space_of_lt (opndHead_lt h)

theorem asciiLetter_letter {c : UInt8} (h : AsciiLetter c) : isLetterByte c = true ∧ c < 0x80 ∧ c ≠ 34 ∧ c ≠ 39 ∧ c ≠ 96 := by
  rcases h with h | h | rfl
  · refine ⟨?_, ?_, ?_, ?_, ?_⟩
    · have h1 := UInt8.le_iff_toNat_le.1 h.1
      have h2 := UInt8.le_iff_toNat_le.1 h.2
      have e1 : (65 : UInt8).toNat = 65 := rfl
      have e2 : (90 : UInt8).toNat = 90 := rfl
      rw [e1] at h1; rw [e2] at h2
      simp [isLetterByte, latinLetter, h1, h2]
    · have h2 := UInt8.le_iff_toNat_le.1 h.2
      rw [UInt8.lt_iff_toNat_lt]
      have e2 : (90 : UInt8).toNat = 90 := rfl
      have e1 : (0x80 : UInt8).toNat = 128 := rfl
      omega
    · rintro rfl; revert h; decide
    · rintro rfl; revert h; decide
    · rintro rfl; revert h; decide
  · refine ⟨?_, ?_, ?_, ?_, ?_⟩
    · have h1 := UInt8.le_iff_toNat_le.1 h.1
      have h2 := UInt8.le_iff_toNat_le.1 h.2
      have e1 : (97 : UInt8).toNat = 97 := rfl
      have e2 : (122 : UInt8).toNat = 122 := rfl
      rw [e1] at h1; rw [e2] at h2
      simp [isLetterByte, latinLetter, h1, h2]
    · have h2 := UInt8.le_iff_toNat_le.1 h.2
      rw [UInt8.lt_iff_toNat_lt]
      have e2 : (122 : UInt8).toNat = 122 := rfl
      have e1 : (0x80 : UInt8).toNat = 128 := rfl
      omega
    · rintro rfl; revert h; decide
    · rintro rfl; revert h; decide
    · rintro rfl; revert h; decide
  · decide

/-- The first byte of a name is not a quote. -/
theorem name_head {E : Ext} {s : Bytes} (h : Name E s) : ∃ c t, s = c :: t ∧ c ≠ 34 ∧ c ≠ 39 ∧ c ≠ 96 := by
  obtain ⟨rs, hne, hr, rfl⟩ := h
  cases rs with
  | nil => exact (hne rfl).elim
  | cons r rs =>
    obtain ⟨c, t, h1, h2⟩ := encodeRune_head r
    refine ⟨c, t ++ rs.flatMap encodeRune, by simp [h1], ?_⟩
    obtain ⟨hv, hn⟩ := hr r (by simp)
    by_cases h80 : r < 0x80
    · rw [if_pos h80] at h2
      have : c.toNat = 95 ∨ latinLetter c.toNat = true ∨ (48 ≤ c.toNat ∧ c.toNat ≤ 57) := by
        rw [h2.1]
        rcases hn with h | h
        · exact .inl h
        · rw [if_pos (by omega)] at h; exact .inr h
      refine ⟨?_, ?_, ?_⟩ <;> (rintro rfl; revert this; decide)
    · rw [if_neg h80] at h2
      refine ⟨?_, ?_, ?_⟩ <;> (rintro rfl; exact h2 (by decide))

/-! ## Nothing to read -/

section none
variable {E : Ext} {L : Nat}

theorem bracket_none {opn cls c : UInt8} {ty : Bytes} {rest : Bytes} (f : Nat) (h : c ≠ opn) :
    Consumes (bracket E L opn cls ty (f + 1)) false [] (c :: rest) [] := fun pre ru e => by
  refine ⟨ru, e, ?_, Emits.refl e⟩
  have : (c != opn) = true := by simpa using h
  simp [bracket, Prog.run_bind, run_peekByte_cons, Prog.run_pure, h]

theorem args_none {c : UInt8} {dot : Bool} {rest : Bytes} (f : Nat) (h : c ≠ 40) :
    Consumes (args E L dot (f + 1)) false [] (c :: rest) [] := fun pre ru e => by
  refine ⟨ru, e, ?_, Emits.refl e⟩
  simp [args, Prog.run_bind, run_peekByte_cons, Prog.run_pure, h]

/-- At a closing bracket there is no expression. -/
theorem expression_none {c : UInt8} {rest : Bytes} (f : Nat) (hc : c = 125 ∨ c = 41) (hL : (c :: rest).length < L) :
    Consumes (expression E L (f + 5)) false [] (c :: rest) [] := by
  have hne : c ≠ 34 ∧ c ≠ 39 ∧ c ≠ 96 ∧ c ≠ 46 ∧ c ≠ 45 ∧ c ≠ 43 ∧ c ≠ 91 ∧ c ≠ 123 ∧ c ≠ 40 ∧ isDigitByte c = false ∧
      isLetterByte c = false ∧ isOperatorChar c = false := by
    rcases hc with rfl | rfl <;> decide
  obtain ⟨a1, a2, a3, a4, a5, a6, a7, a8, a9, a10, a11, a12⟩ := hne
  have hns : NameStop (c :: rest) := by rcases hc with rfl | rfl <;> exact nameStop_cons (by decide)
  have hpath : Consumes (path E L (f + 3)) false [] (c :: rest) [] := by
    unfold path pathElem
    exact Consumes.bind0 (reads_quoted_none a1 a2 a3) <|
      Consumes.bind0 (t := []) (reads_token_none hns (by simp at hL; omega)) <|
      Consumes.bind0 (t := []) (bracket_none f a7) <|
      Consumes.bind0 (t := []) (bracket_none f a8) <|
      Consumes.bind0 (t := []) (args_none f a9) (Consumes.pure _ _)
  have hun : Consumes (unary E L (f + 4)) false [] (c :: rest) [] := by
    unfold unary
    refine Consumes.bind0 (reads_peek c rest) ?_
    rw [a11]
    refine Consumes.bind0 (reads_number_none a10 a4 a5 a6 (by simp at hL; omega)) ?_
    refine Consumes.bind0 (t := []) (reads_quoted_none a1 a2 a3) ?_
    refine Consumes.bind0 (t := []) (reads_readWhile isOperatorChar (by decide) (a := []) (by simp) (by simpa using a12) (by simpa using hL)) ?_
    refine Consumes.bind0 (t := []) (reads_peek c rest) ?_
    simp only [beq_iff_eq, a9, ↓reduceIte]
    exact hpath
  unfold expression
  refine Consumes.bind0 hun ?_
  exact Consumes.pure _ _

end none

theorem run_space0 {L : Nat} {post : Bytes} (h : ∀ c, post.head? = some c → isSpaceChar c = false) (hL : post.length < L)
    (pre : Bytes) (ru : List Nat) (e : Ev) :
    (space L).run curM ⟨pre, post, 0, ru⟩ e = .ok ((0, 32), ⟨pre, post, 0, ru⟩, e) := by
  simp only [space, Prog.run_bind]
  have := run_readWhile_app isSpaceChar (by decide) (a := []) (b := post) (pre := pre) (rs := ru) (e := e) (L := L) (by simp) h
    (by simpa using hL)
  rw [List.nil_append] at this
  rw [this]
  simp [Prog.run_pure, spaceKind]

section main
variable {E : Ext} {L : Nat}

/-- A bracketed expression. -/
theorem bracket_reads {opn cls : UInt8} {ty t rest : Bytes} {gs : List Graph} {f : Nat} {b : Bool}
    (hx : Consumes (expression E L f) b t (cls :: rest) gs) (ht : ∀ c, (t ++ cls :: rest).head? = some c → isSpaceChar c = false)
    (hc : isSpaceChar cls = false) (hL : (opn :: t ++ cls :: rest).length < L) :
    Consumes (bracket E L opn cls ty (f + 1)) true (opn :: t ++ [cls]) rest [.node (.str ty) gs] := by
  intro pre ru e
  obtain ⟨ru1, e1, h1, h2⟩ := hx (opn :: pre) ru (e.add (.str ty)).inc
  refine ⟨ru1, e1.setLevel e.current, ?_, Emits.node h2⟩
  have hL1 : (t ++ cls :: rest).length < L := by simp at hL ⊢; omega
  have hs1 := run_space0 (L := L) ht hL1 (opn :: pre) ru (e.add (.str ty)).inc
  have hs2 := run_space0 (L := L) (post := cls :: rest) (by simpa using hc) (by simp at hL ⊢; omega) (t.reverse ++ opn :: pre) ru1 e1
  simp only [bracket, Prog.run_bind, List.cons_append, List.append_assoc, List.nil_append, run_peekByte_cons, bne_self_eq_false,
    Bool.false_eq_true, ↓reduceIte, run_byte0_cons, run_evLevel, run_evAdd, run_evInc, hs1, h1, hs2, run_evSetLevel, Prog.run_pure]
  simp

theorem Emits.setLevel {e e1 : Ev} {gs : List Graph} (h : Emits e gs e1) : Emits e gs (e1.setLevel e.current) :=
  ⟨rfl, h.2.1, fun he => (h.2.2 he).setLevel _⟩

theorem run_whiteSpace (sp : Bytes) {post : Bytes} (h : ∀ c ∈ sp, c = 32) (hb : ∀ c, post.head? = some c → 32 < c)
    (hL : (sp ++ post).length < L) (pre : Bytes) (ru : List Nat) (e : Ev) :
    (whiteSpace L).run curM ⟨pre, sp ++ post, 0, ru⟩ e = .ok (!sp.isEmpty, ⟨sp.reverse ++ pre, post, 0, ru⟩, e) := by
  simp only [whiteSpace, Prog.run_bind]
  rw [run_readWhile_app _ (by decide) (fun c hc => by rw [h c hc]; decide) (fun c hc => ?_) hL]
  · simp [Prog.run_pure]
  · have := hb c hc
    have h1 : c ≠ 32 := by rintro rfl; revert this; decide
    have h2 : c ≠ 9 := by rintro rfl; revert this; decide
    have h3 : c ≠ 10 := by rintro rfl; revert this; decide
    have h4 : c ≠ 13 := by rintro rfl; revert this; decide
    simp [h1, h2, h3, h4]

/-- The argument list: what `argLoop` reads at its own level. -/
def ReadsArgs (E : Ext) (L f : Nat) (sm b : Bool) (t rest : Bytes) (gs : List Graph) : Prop :=
  ∀ (pre : Bytes) (ru : List Nat) (e : Ev), ∃ ru' e',
    (argLoop E L e.current sm f).run curM ⟨pre, t ++ 41 :: rest, 0, ru⟩ e =
      .ok (b, ⟨t.reverse ++ pre, 41 :: rest, 0, ru'⟩, e') ∧ Emits e gs e'

theorem args_reads {f : Nat} {b dot : Bool} {t rest : Bytes} {gs : List Graph} (h : ReadsArgs E L f false b t rest gs)
    (ht : ∀ c, (t ++ 41 :: rest).head? = some c → 32 < c) (hL : (40 :: t ++ 41 :: rest).length < L) :
    Consumes (args E L dot (f + 1)) true (40 :: t ++ [41]) rest
      [.node (.str (if dot then b!"!g" else b!"!a")) gs] := by
  intro pre ru e
  obtain ⟨ru1, e1, h1, h2⟩ := h (40 :: pre) ru (e.add (.str (if dot then tyGroup else tyArguments))).inc
  refine ⟨ru1, (e1.setLevel (e.add (.str (if dot then tyGroup else tyArguments))).inc.current).setLevel e.current, ?_, ?_⟩
  · have hL1 : (t ++ 41 :: rest).length < L := by simp at hL ⊢; omega
    have hs1 := run_whiteSpace (L := L) [] (by simp) ht (by simpa using hL1) (40 :: pre) ru (e.add (.str (if dot then tyGroup else tyArguments))).inc
    have hs2 := run_whiteSpace (L := L) [] (post := 41 :: rest) (by simp) (by simp) (by simp at hL ⊢; omega) (t.reverse ++ 40 :: pre) ru1
      (e1.setLevel (e.add (.str (if dot then tyGroup else tyArguments))).inc.current)
    simp only [List.nil_append, List.reverse_nil] at hs1 hs2
    simp only [args, Prog.run_bind, List.cons_append, List.append_assoc, List.nil_append, run_peekByte_cons, bne_self_eq_false,
      Bool.false_eq_true, ↓reduceIte, run_byte0_cons, run_evLevel, run_evAdd, run_evInc, hs1, h1, hs2, run_evSetLevel, Prog.run_pure]
    simp
  · exact Emits.node h2.setLevel

theorem pathLoop_dot {f : Nat} {t rest : Bytes} {gs : List Graph}
    (h : Consumes (pathElem E L true true f) true t rest gs) : Consumes (pathLoop E L true (f + 1)) true (46 :: t) rest gs := by
  unfold pathLoop
  exact Consumes.bind (t := [46]) (gs := []) (reads_byte0 46 _) h

theorem pathLoop_bracket {f : Nat} {c : UInt8} {t rest : Bytes} {gs : List Graph} (hc : c = 91 ∨ c = 40 ∨ c = 123)
    (h : Consumes (pathElem E L false true f) true (c :: t) rest gs) : Consumes (pathLoop E L true (f + 1)) true (c :: t) rest gs := by
  intro pre ru e
  obtain ⟨ru1, e1, h1, h2⟩ := h pre ru e
  refine ⟨ru1, e1, ?_, h2⟩
  have h46 : (c == 46) = false := by rcases hc with rfl | rfl | rfl <;> decide
  have hcc : (c != 91 && c != 40 && c != 123) = false := by rcases hc with rfl | rfl | rfl <;> decide
  simp only [List.cons_append] at h1 ⊢
  simp only [pathLoop, Prog.run_bind, run_byte0_cons, h46, hcc, Bool.false_eq_true, ↓reduceIte, run_unread_zero, h1]

theorem pathLoop_end {f : Nat} {rest : Bytes} (h : PathStop rest) : Consumes (pathLoop E L true (f + 1)) true [] rest [] := by
  intro pre ru e
  refine ⟨ru, e, ?_, Emits.refl e⟩
  cases rest with
  | nil => simp [pathLoop, Prog.run_bind, Prog.run_pure]
  | cons c t =>
    obtain ⟨h1, h2, h3, h4⟩ := h.2 c rfl
    simp [pathLoop, Prog.run_bind, Prog.run_pure, h1, h2, h3, h4]

theorem nameStop_elems {es : Elems} {rest : Bytes} (h : PathStop rest) : NameStop (es.text ++ rest) := by
  cases es with
  | nil => exact h.1
  | cons e es =>
    cases e <;> simp only [Elems.text, Elem.text, Bool.false_eq_true, ↓reduceIte, List.cons_append, List.nil_append] <;>
      exact nameStop_cons (by decide)

theorem opOk_chars {s : Bytes} (h : Op s) : s ≠ [] ∧ ∀ c ∈ s, isOperatorChar c = true := by
  unfold Op at h
  simp only [List.mem_cons, List.not_mem_nil, or_false] at h
  rcases h with rfl | rfl | rfl | rfl | rfl | rfl | rfl | rfl | rfl | rfl | rfl | rfl | rfl | rfl | rfl | rfl | rfl | rfl | rfl <;>
    decide

theorem elem_head (e : Elem) : ∃ c t, e.text false = c :: t ∧ (c = 46 ∨ c = 91 ∨ c = 40 ∨ c = 123) := by
  cases e <;> simp [Elem.text]

/-- The two ways an expression is read after its first operand. -/
theorem exprTail {f : Nat} {s t rest : Bytes} {gs : List Graph} (hs : Op s)
    (hu : ∃ h t' g gs', t = h ++ t' ∧ gs = g :: gs' ∧ (∃ c h', h = c :: h' ∧ OpndHead c) ∧
      Consumes (unary E L f) true h (t' ++ rest) [g] ∧
      Consumes (do let _ ← space L; exprLoop E L f : Prog Bool) true t' rest gs')
    (hL : (32 :: s ++ 32 :: t ++ rest).length < L) :
    Consumes (exprLoop E L (f + 1)) true (32 :: s ++ 32 :: t) rest (leaf s :: gs) ∧
    Consumes (do let _ ← space L; exprLoop E L (f + 1) : Prog Bool) true (32 :: s ++ 32 :: t) rest (leaf s :: gs) := by
  obtain ⟨h, t', g, gs', rfl, rfl, ⟨c, h', rfl, hc⟩, h1, h2⟩ := hu
  obtain ⟨hne, hop⟩ := opOk_chars hs
  have hsp : ∀ c, (s ++ 32 :: (c :: h' ++ t') ++ rest).head? = some c → isSpaceChar c = false := by
    intro d hd
    cases s with
    | nil => exact (hne rfl).elim
    | cons a s =>
      simp at hd
      have := hop a (by simp)
      subst hd
      revert this
      unfold isSpaceChar isOperatorChar
      intro h
      by_cases h1 : a = 32
      · subst h1; revert h; decide
      · by_cases h2 : a = 9
        · subst h2; revert h; decide
        · simp [h1, h2]
  have body : Consumes (do
      let b ← operator L
      if b.isEmpty then pure true
      else do
        evAdd (.str b)
        let _ ← space L
        if !(← unary E L f) then pure false
        else do
          let _ ← space L
          exprLoop E L f : Prog Bool) true (s ++ 32 :: (c :: h' ++ t')) rest (leaf s :: g :: gs') := by
    refine Consumes.bind (gs := []) (reads_readWhile isOperatorChar (by decide) hop (by simp; decide) (by simp at hL ⊢; omega)) ?_
    have : s.isEmpty = false := by simpa using hne
    rw [this]
    refine Consumes.bind (t := []) (gs := [leaf s]) (reads_add _ _) ?_
    refine Consumes.bind (t := [32]) (gs := []) (reads_space (by simp) (by simpa using opndHead_space hc) (by simp at hL ⊢; omega)) ?_
    refine Consumes.bind (t := c :: h') (gs := [g]) h1 ?_
    exact h2
  have hexp : Consumes (exprLoop E L (f + 1)) true (s ++ 32 :: (c :: h' ++ t')) rest (leaf s :: g :: gs') := by
    unfold exprLoop
    refine Consumes.bind0 (reads_space (by simp) (fun d hd => ?_) (by simp at hL ⊢; omega)) body
    cases s with
    | nil => exact (hne rfl).elim
    | cons a s => exact hsp d (by simpa using hd)
  have hsp' : Consumes (space L) (1, spaceKind [32]) [32] (s ++ 32 :: (c :: h' ++ t') ++ rest) [] := by
    refine reads_space (by simp) (fun d hd => ?_) (by simp at hL ⊢; omega)
    cases s with
    | nil => exact (hne rfl).elim
    | cons a s => exact hsp d (by simpa using hd)
  refine ⟨?_, ?_⟩
  · unfold exprLoop
    exact Consumes.bind (t := [32]) (gs := []) hsp' body
  · exact Consumes.bind (t := [32]) (gs := []) hsp' hexp

theorem exprLoop_end {f : Nat} {rest : Bytes} (h : ExprStop rest) (hL : rest.length < L) :
    Consumes (exprLoop E L (f + 1)) true [] rest [] ∧
    Consumes (do let _ ← space L; exprLoop E L (f + 1) : Prog Bool) true [] rest [] := by
  have hs : Consumes (space L) (0, spaceKind []) [] rest [] :=
    reads_space (sp := []) (by simp) (fun c hc => (h.2 c hc).1) (by simpa using hL)
  have h1 : Consumes (exprLoop E L (f + 1)) true [] rest [] := by
    unfold exprLoop
    refine Consumes.bind0 hs ?_
    refine Consumes.bind0 (reads_readWhile isOperatorChar (by decide) (a := []) (by simp) (fun c hc => (h.2 c hc).2) (by simpa using hL)) ?_
    exact Consumes.pure _ _
  exact ⟨h1, Consumes.bind0 hs h1⟩

/-- The first operand of an expression and what follows. -/
def Spec.Expr.first : Expr → Opnd
  | .one o => o
  | .op o _ _ => o
def Spec.Expr.tail : Expr → Bytes
  | .one _ => []
  | .op _ s x => 32 :: s ++ 32 :: x.text
def Spec.Expr.tailTrees : Expr → List Graph
  | .one _ => []
  | .op _ s x => leaf s :: x.trees

theorem Spec.Expr.text_eq (x : Expr) : x.text = x.first.text ++ x.tail := by
  cases x <;> simp [Expr.text, Expr.first, Expr.tail]

theorem Spec.Expr.trees_eq (x : Expr) : x.trees = x.first.tree :: x.tailTrees := by
  cases x <;> simp [Expr.trees, Expr.first, Expr.tailTrees]

theorem Spec.Expr.first_ok {x : Expr} (h : x.Ok E) : x.first.Ok E := by
  cases x with
  | one o => exact h
  | op o s x => exact h.1

theorem Spec.Expr.tail_stop {x : Expr} {rest : Bytes} (h : PathStop rest) : PathStop (x.tail ++ rest) := by
  cases x with
  | one o => exact h
  | op o s x => exact pathStop_cons (by decide) (by decide)

mutual
/-- An element, then whatever `pathLoop` reads. -/
theorem elem_reads : ∀ (e : Elem), e.Ok E → ∀ (f : Nat) (t rest : Bytes) (gs : List Graph) (dot any : Bool),
    (∀ as, e = .call as → dot = false) → (∀ as, e = .group as → dot = true) →
    (∀ f', 6 * t.length + 4 ≤ f' → Consumes (pathLoop E L true f') true t rest gs) → NameStop (t ++ rest) →
    6 * (e.text true ++ t).length + 3 ≤ f → (e.text true ++ t ++ rest).length < L →
    Consumes (pathElem E L dot any f) true (e.text true ++ t) rest (e.tree :: gs)
  | _, _, 0, _, _, _, _, _, _, _, _, _, hf, _ => by omega
  | .name s, h, f + 1, t, rest, gs, dot, any, _, _, hl, hns, hf, hL => by
    simp only [Elem.Ok] at h
    simp only [Elem.text, ↓reduceIte, Elem.tree] at hf hL ⊢
    obtain ⟨c, w, hw, h1, h2, h3⟩ := name_head h
    unfold pathElem
    have hq : Consumes (quoted L 0) none [] ((s ++ t) ++ rest) [] := by
      rw [hw]; exact reads_quoted_none h1 h2 h3
    refine Consumes.bind0 hq ?_
    refine Consumes.bind (gs := []) (reads_token h hns (by simpa using hL)) ?_
    have : s.isEmpty = false := by rw [hw]; rfl
    rw [this]
    refine Consumes.bind (t := []) (gs := [leaf s]) (reads_add _ _) (hl f ?_)
    rw [hw] at hf
    simp at hf ⊢; omega
  | .quoted s, h, f + 1, t, rest, gs, dot, any, _, _, hl, hns, hf, hL => by
    simp only [Elem.Ok] at h
    simp only [Elem.text, ↓reduceIte, Elem.tree, List.nil_append] at hf hL ⊢
    unfold pathElem
    refine Consumes.bind (gs := []) (reads_quoted h (by simpa using hL)) ?_
    refine Consumes.bind (t := []) (gs := [leaf s]) (reads_add _ _) (hl f ?_)
    simp at hf ⊢; omega
  | .index x, h, f + 1, t, rest, gs, dot, any, _, _, hl, hns, hf, hL => by
    simp only [Elem.Ok] at h
    simp only [Elem.text, Elem.tree] at hf hL ⊢
    simp only [List.length_append, List.length_cons, List.length_nil] at hf hL
    obtain ⟨c, w, hw, hc⟩ := expr_head h
    have hx := expr_reads x h (f - 1) (93 :: (t ++ rest)) (exprStop_cons (.inl rfl)) (by omega) (by simp; omega)
    have hb : Consumes (bracket E L 91 93 tyIndex f) true (91 :: x.text ++ [93]) (t ++ rest) [.node (.str b!"!i") x.trees] := by
      have : f = (f - 1) + 1 := by omega
      rw [this]
      exact bracket_reads hx (by rw [hw]; simpa using opndHead_space hc) (by decide) (by simp; omega)
    unfold pathElem
    refine Consumes.bind0 (reads_quoted_none (c := 91) (by decide) (by decide) (by decide)) ?_
    refine Consumes.bind0 (reads_token_none (nameStop_cons (by decide)) (by omega)) ?_
    exact Consumes.bind hb (hl f (by omega))
  | .all, h, f + 1, t, rest, gs, dot, any, _, _, hl, hns, hf, hL => by
    simp only [Elem.text, Elem.tree] at hf hL ⊢
    simp only [List.length_append, List.length_cons, List.length_nil] at hf hL
    have hx : Consumes (expression E L (f - 1)) false [] (125 :: (t ++ rest)) [] := by
      have : f - 1 = (f - 6) + 5 := by omega
      rw [this]
      exact expression_none _ (.inl rfl) (by simp; omega)
    have hb : Consumes (bracket E L 123 125 tySelector f) true [123, 125] (t ++ rest) [leaf b!"!s"] := by
      have : f = (f - 1) + 1 := by omega
      rw [this]
      exact bracket_reads (t := []) hx (by simp; decide) (by decide) (by simp; omega)
    unfold pathElem
    refine Consumes.bind0 (reads_quoted_none (c := 123) (by decide) (by decide) (by decide)) ?_
    refine Consumes.bind0 (reads_token_none (nameStop_cons (by decide)) (by omega)) ?_
    refine Consumes.bind0 (by
      have : f = (f - 1) + 1 := by omega
      rw [this]; exact bracket_none (c := 123) _ (by decide)) ?_
    exact Consumes.bind hb (hl f (by omega))
  | .select x, h, f + 1, t, rest, gs, dot, any, _, _, hl, hns, hf, hL => by
    simp only [Elem.Ok] at h
    simp only [Elem.text, Elem.tree] at hf hL ⊢
    simp only [List.length_append, List.length_cons, List.length_nil] at hf hL
    obtain ⟨c, w, hw, hc⟩ := expr_head h
    have hx := expr_reads x h (f - 1) (125 :: (t ++ rest)) (exprStop_cons (.inr (.inl rfl))) (by omega) (by simp; omega)
    have hb : Consumes (bracket E L 123 125 tySelector f) true (123 :: x.text ++ [125]) (t ++ rest) [.node (.str b!"!s") x.trees] := by
      have : f = (f - 1) + 1 := by omega
      rw [this]
      exact bracket_reads hx (by rw [hw]; simpa using opndHead_space hc) (by decide) (by simp; omega)
    unfold pathElem
    refine Consumes.bind0 (reads_quoted_none (c := 123) (by decide) (by decide) (by decide)) ?_
    refine Consumes.bind0 (reads_token_none (nameStop_cons (by decide)) (by omega)) ?_
    refine Consumes.bind0 (by
      have : f = (f - 1) + 1 := by omega
      rw [this]; exact bracket_none (c := 123) _ (by decide)) ?_
    exact Consumes.bind hb (hl f (by omega))
  | .call as, h, f + 1, t, rest, gs, dot, any, hd, _, hl, hns, hf, hL => by
    simp only [Elem.Ok] at h
    have hd : dot = false := hd as rfl
    subst hd
    simp only [Elem.text, Elem.tree] at hf hL ⊢
    simp only [List.length_append, List.length_cons, List.length_nil] at hf hL
    have hx := argList_reads as h (f - 1) [] (t ++ rest) false (by simp) (by simp; omega) (by simp; omega)
    have hb : Consumes (args E L false f) true (40 :: as.text ++ [41]) (t ++ rest) [.node (.str b!"!a") as.trees] := by
      have : f = (f - 1) + 1 := by omega
      rw [this]
      obtain ⟨b, hx⟩ := hx
      refine args_reads (dot := false) hx ?_ (by simp; omega)
      cases as with
      | nil => simp [Args.text]
      | cons x as =>
        obtain ⟨c, w, hw, hc⟩ := expr_head h.1
        simp only [Args.text, hw]
        simpa using opndHead_lt hc
    unfold pathElem
    refine Consumes.bind0 (reads_quoted_none (c := 40) (by decide) (by decide) (by decide)) ?_
    refine Consumes.bind0 (reads_token_none (nameStop_cons (by decide)) (by omega)) ?_
    refine Consumes.bind0 (by
      have : f = (f - 1) + 1 := by omega
      rw [this]; exact bracket_none (c := 40) _ (by decide)) ?_
    refine Consumes.bind0 (by
      have : f = (f - 1) + 1 := by omega
      rw [this]; exact bracket_none (c := 40) _ (by decide)) ?_
    exact Consumes.bind hb (hl f (by omega))
  | .group as, h, f + 1, t, rest, gs, dot, any, _, hd, hl, hns, hf, hL => by
    simp only [Elem.Ok] at h
    have hd : dot = true := hd as rfl
    subst hd
    simp only [Elem.text, Elem.tree, ↓reduceIte, List.nil_append] at hf hL ⊢
    simp only [List.length_append, List.length_cons, List.length_nil] at hf hL
    have hx := argList_reads as h (f - 1) [] (t ++ rest) false (by simp) (by simp; omega) (by simp; omega)
    have hb : Consumes (args E L true f) true (40 :: as.text ++ [41]) (t ++ rest) [.node (.str b!"!g") as.trees] := by
      have : f = (f - 1) + 1 := by omega
      rw [this]
      obtain ⟨b, hx⟩ := hx
      refine args_reads (dot := true) hx ?_ (by simp; omega)
      cases as with
      | nil => simp [Args.text]
      | cons x as =>
        obtain ⟨c, w, hw, hc⟩ := expr_head h.1
        simp only [Args.text, hw]
        simpa using opndHead_lt hc
    unfold pathElem
    refine Consumes.bind0 (reads_quoted_none (c := 40) (by decide) (by decide) (by decide)) ?_
    refine Consumes.bind0 (reads_token_none (nameStop_cons (by decide)) (by omega)) ?_
    refine Consumes.bind0 (by
      have : f = (f - 1) + 1 := by omega
      rw [this]; exact bracket_none (c := 40) _ (by decide)) ?_
    refine Consumes.bind0 (by
      have : f = (f - 1) + 1 := by omega
      rw [this]; exact bracket_none (c := 40) _ (by decide)) ?_
    exact Consumes.bind hb (hl f (by omega))
termination_by e => 2 * sizeOf e
decreasing_by all_goals (simp_wf; try omega)

/-- The further elements of a path. -/
theorem elems_reads : ∀ (es : Elems), es.Ok E → ∀ (f : Nat) (rest : Bytes), PathStop rest →
    6 * es.text.length + 4 ≤ f → (es.text ++ rest).length < L →
    Consumes (pathLoop E L true f) true es.text rest es.trees
  | .nil, _, f + 1, rest, hr, _, _ => pathLoop_end hr
  | .cons e es, h, f + 1, rest, hr, hf, hL => by
    simp only [Elems.Ok] at h
    simp only [Elems.text, Elems.trees] at hf hL ⊢
    obtain ⟨c0, w0, hw0, _⟩ := elem_head e
    have hlen : (e.text true).length ≤ (e.text false).length := by
      cases e <;> simp [Elem.text]
    have hpos : 1 ≤ (e.text false).length := by rw [hw0]; simp
    simp only [List.length_append] at hf hL
    have he := fun dot h1 h2 hf2 => elem_reads e h.1 f es.text rest es.trees dot true h1 h2
      (fun f' hf' => elems_reads es h.2 f' rest hr hf' (by simp; omega)) (nameStop_elems hr) hf2
      (by simp only [List.length_append]; omega)
    cases e with
    | name s =>
      have he := he true (by simp) (by simp) (by simp [Elem.text] at hf ⊢; omega)
      simpa [Elem.text] using pathLoop_dot he
    | quoted s =>
      have he := he true (by simp) (by simp) (by simp [Elem.text] at hf ⊢; omega)
      simpa [Elem.text] using pathLoop_dot he
    | group as =>
      have he := he true (by simp) (by simp) (by simp [Elem.text] at hf ⊢; omega)
      simpa [Elem.text] using pathLoop_dot he
    | index x =>
      have he := he false (by simp) (by simp) (by simp [Elem.text] at hf ⊢; omega)
      simp only [Elem.text, List.cons_append] at he ⊢
      exact pathLoop_bracket (.inl rfl) he
    | all =>
      have he := he false (by simp) (by simp) (by simp [Elem.text] at hf ⊢; omega)
      simp only [Elem.text, List.cons_append] at he ⊢
      exact pathLoop_bracket (.inr (.inr rfl)) he
    | select x =>
      have he := he false (by simp) (by simp) (by simp [Elem.text] at hf ⊢; omega)
      simp only [Elem.text, List.cons_append] at he ⊢
      exact pathLoop_bracket (.inr (.inr rfl)) he
    | call as =>
      have he := he false (by simp) (by simp) (by simp [Elem.text] at hf ⊢; omega)
      simp only [Elem.text, List.cons_append] at he ⊢
      exact pathLoop_bracket (.inr (.inl rfl)) he
termination_by es => 2 * sizeOf es
decreasing_by all_goals (simp_wf; try omega)

/-- An operand. -/
theorem opnd_reads : ∀ (o : Opnd), o.Ok E → ∀ (f : Nat) (rest : Bytes), PathStop rest →
    6 * o.text.length + 5 ≤ f → (o.text ++ rest).length < L → Consumes (unary E L f) true o.text rest [o.tree]
  | _, _, 0, _, _, hf, _ => by omega
  | .path s es, h, f + 1, rest, hr, hf, hL => by
    simp only [Opnd.Ok] at h
    obtain ⟨h1, ⟨c, w, hw, hc⟩, h3⟩ := h
    simp only [Opnd.text, Opnd.tree] at hf hL ⊢
    simp only [List.length_append] at hf hL
    have hspos : 1 ≤ s.length := by rw [hw]; simp
    obtain ⟨hlet, _, hq1, hq2, hq3⟩ := asciiLetter_letter hc
    have hpath : Consumes (path E L f) true (s ++ es.text) rest (leaf s :: es.trees) := by
      have : f = (f - 2) + 1 + 1 := by omega
      rw [this]
      unfold path pathElem
      refine Consumes.bind0 (a := none) (by rw [hw]; exact reads_quoted_none hq1 hq2 hq3) ?_
      refine Consumes.bind (gs := []) (reads_token h1 (nameStop_elems hr) (by simp; omega)) ?_
      have : s.isEmpty = false := by rw [hw]; rfl
      rw [this]
      refine Consumes.bind (t := []) (gs := [leaf s]) (reads_add _ _) ?_
      exact elems_reads es h3 (f - 2) rest hr (by omega) (by simp; omega)
    intro pre ru e
    obtain ⟨ru1, e1, g1, g2⟩ := hpath pre ru (e.add (.str tyPath)).inc
    refine ⟨ru1, e1.dec, ?_, Emits.node_dec g2⟩
    rw [hw] at g1 ⊢
    simp only [List.cons_append] at g1 ⊢
    simp only [unary, Prog.run_bind, run_peekByte_cons, hlet, ↓reduceIte, run_evAdd, run_evInc, g1, run_evDec, Prog.run_pure]
  | .num s, h, f + 1, rest, hr, hf, hL => by
    simp only [Opnd.Ok] at h
    simp only [Opnd.text, Opnd.tree] at hf hL ⊢
    have hh : ∃ c w, s = c :: w ∧ isLetterByte c = false := by
      obtain ⟨sign, ds, fs, hs, hne, hds, _, rfl⟩ := h
      cases ds with
      | nil => exact (hne rfl).elim
      | cons d ds =>
        rcases hs with rfl | rfl
        · refine ⟨d, ds ++ fs, by simp, ?_⟩
          have hd := hds d (by simp)
          have h1 := UInt8.le_iff_toNat_le.1 hd.1
          have h2 := UInt8.le_iff_toNat_le.1 hd.2
          have e1 : (48 : UInt8).toNat = 48 := rfl
          have e2 : (57 : UInt8).toNat = 57 := rfl
          rw [e1] at h1; rw [e2] at h2
          have hne : d ≠ 95 := by rintro rfl; revert hd; unfold Digit; decide
          have hnl : latinLetter d.toNat = false := by
            unfold latinLetter
            simp only [Bool.or_eq_false_iff, Bool.and_eq_false_iff, decide_eq_false_iff_not, beq_eq_false_iff_ne]
            omega
          unfold isLetterByte
          rw [hnl]
          simpa using hne
        · exact ⟨45, d :: ds ++ fs, by simp, by decide⟩
    obtain ⟨c, w, hw, hc⟩ := hh
    unfold unary
    refine Consumes.bind0 (a := c) (by rw [hw]; exact reads_peek c _) ?_
    rw [hc]
    refine Consumes.bind (t' := []) (gs := []) (by simpa using reads_number h hr.number hL) ?_ |> fun h => by simpa using h
    exact Consumes.bind (t := []) (t' := []) (gs := [leaf s]) (reads_add _ _) (Consumes.pure _ _)
  | .str s, h, f + 1, rest, hr, hf, hL => by
    simp only [Opnd.Ok] at h
    simp only [Opnd.text, Opnd.tree] at hf hL ⊢
    simp only [List.length_append, List.length_cons, List.length_nil] at hf hL
    have hin : Consumes (do evAdd (.str tyString); evInc; evAdd (.str s); evDec; pure true : Prog Bool) true [] rest
        [.node (.str b!"!string") [leaf s]] := by
      intro pre ru e
      refine ⟨ru, (((e.add (.str tyString)).inc).add (.str s)).dec, ?_, Emits.node_dec (Emits.leaf _ _)⟩
      simp [Prog.run_bind, Prog.run_pure]
    unfold unary
    refine Consumes.bind0 (reads_peek 34 _) ?_
    rw [show isLetterByte 34 = false by decide]
    refine Consumes.bind0 (reads_number_none (c := 34) (by decide) (by decide) (by decide) (by decide) (by omega)) ?_
    have := Consumes.bind (t' := []) (gs := []) (gs' := [.node (.str b!"!string") [leaf s]]) (b := true)
      (f := fun o => match o with
        | some b => do
          evAdd (.str tyString)
          evInc
          evAdd (.str b)
          evDec
          pure true
        | none => do
          let b ← operator L
          if !b.isEmpty then evAdd (.str b)
          let c ← peekByte
          if c == 40 then do
            let _ ← byte0
            evAdd (.str tyGroup)
            evInc
            let _ ← space L
            let _ ← expression E L f
            let _ ← space L
            evDec
            let c ← peekByte
            if c != 41 then pure false
            else do
              let _ ← byte0
              pure true
          else path E L f) (reads_quoted h (L := L) (rest := [] ++ rest) (by simp; omega)) hin
    rw [List.append_nil] at this
    exact this
  | .paren x, h, f + 1, rest, hr, hf, hL => by
    simp only [Opnd.Ok] at h
    simp only [Opnd.text, Opnd.tree] at hf hL ⊢
    simp only [List.length_append, List.length_cons, List.length_nil] at hf hL
    obtain ⟨c, w, hw, hc⟩ := expr_head h
    have hx := expr_reads x h f (41 :: rest) (exprStop_cons (.inr (.inr (.inl rfl)))) (by omega) (by simp; omega)
    unfold unary
    refine Consumes.bind0 (reads_peek 40 _) ?_
    rw [show isLetterByte 40 = false by decide]
    refine Consumes.bind0 (reads_number_none (c := 40) (by decide) (by decide) (by decide) (by decide) (by omega)) ?_
    refine Consumes.bind0 (reads_quoted_none (c := 40) (by decide) (by decide) (by decide)) ?_
    refine Consumes.bind0 (a := []) (reads_readWhile isOperatorChar (by decide) (a := []) (by simp) (by simp; decide) (by simp; omega)) ?_
    intro pre ru e
    obtain ⟨ru1, e1, h1, h2⟩ := hx (40 :: pre) ru (e.add (.str tyGroup)).inc
    refine ⟨ru1, e1.dec, ?_, Emits.node_dec h2⟩
    have hs1 := run_space0 (L := L) (post := x.text ++ 41 :: rest) (by rw [hw]; simpa using opndHead_space hc) (by simp; omega)
      (40 :: pre) ru (e.add (.str tyGroup)).inc
    have hs2 := run_space0 (L := L) (post := 41 :: rest) (by simp; decide) (by simp; omega) (x.text.reverse ++ 40 :: pre) ru1 e1
    simp only [List.isEmpty_nil, Bool.not_true, Bool.false_eq_true, ↓reduceIte, Prog.run_bind, Prog.run_pure, List.cons_append,
      List.append_assoc, List.nil_append, run_peekByte_cons, beq_self_eq_true, run_byte0_cons, run_evAdd, run_evInc, hs1, h1, hs2, run_evDec,
      bne_self_eq_false]
    simp
termination_by o => 2 * sizeOf o
decreasing_by all_goals (simp_wf; try omega)

/-- An expression after its first operand. -/
theorem exprTail_reads : ∀ (x : Expr), x.Ok E → ∀ (f : Nat) (rest : Bytes), ExprStop rest →
    6 * x.tail.length + 1 ≤ f → (x.tail ++ rest).length < L →
    Consumes (exprLoop E L f) true x.tail rest x.tailTrees ∧
    Consumes (do let _ ← space L; exprLoop E L f : Prog Bool) true x.tail rest x.tailTrees
  | _, _, 0, _, _, hf, _ => by omega
  | .one o, _, f + 1, rest, hr, hf, hL => exprLoop_end hr (by simpa [Expr.tail] using hL)
  | .op o s x, h, f + 1, rest, hr, hf, hL => by
    simp only [Expr.Ok] at h
    obtain ⟨_, hs, hx⟩ := h
    simp only [Expr.tail, Expr.tailTrees] at hf hL ⊢
    obtain ⟨hne, _⟩ := opOk_chars hs
    have hspos : 1 ≤ s.length := by cases s with
      | nil => exact (hne rfl).elim
      | cons a s => simp
    have hlen : x.text.length = x.first.text.length + x.tail.length := by rw [x.text_eq]; simp
    simp only [List.length_append, List.length_cons] at hf hL
    refine exprTail hs ⟨x.first.text, x.tail, x.first.tree, x.tailTrees, x.text_eq, x.trees_eq, ?_, ?_, ?_⟩ (by simp; omega)
    · exact opnd_head (Expr.first_ok hx)
    · have hsub : sizeOf x.first < sizeOf x := by cases x <;> simp [Expr.first] <;> omega
      exact opnd_reads x.first (Expr.first_ok hx) f (x.tail ++ rest) (Expr.tail_stop hr.1) (by omega) (by simp; omega)
    · exact (exprTail_reads x hx f rest hr (by omega) (by simp; omega)).2
termination_by x => 2 * sizeOf x
decreasing_by all_goals (simp_wf; try omega)

/-- An expression. -/
theorem expr_reads : ∀ (x : Expr), x.Ok E → ∀ (f : Nat) (rest : Bytes), ExprStop rest →
    6 * x.text.length + 6 ≤ f → (x.text ++ rest).length < L → Consumes (expression E L f) true x.text rest x.trees
  | _, _, 0, _, _, hf, _ => by omega
  | x, hx, f + 1, rest, hr, hf, hL => by
    have hlen : x.text.length = x.first.text.length + x.tail.length := by rw [x.text_eq]; simp
    simp only [List.length_append] at hL
    have h1 := opnd_reads x.first (Expr.first_ok hx) f (x.tail ++ rest) (Expr.tail_stop hr.1) (by omega) (by simp; omega)
    have h2 := (exprTail_reads x hx f rest hr (by omega) (by simp; omega)).1
    unfold expression
    rw [x.text_eq, x.trees_eq]
    exact Consumes.bind (gs := [x.first.tree]) h1 h2
termination_by x => 2 * sizeOf x + 1
decreasing_by
  all_goals
    have hsub : sizeOf x.first < sizeOf x := by (cases x <;> simp [Expr.first] <;> omega)
    simp_wf
    try omega

/-- The arguments of a call. -/
theorem argList_reads : ∀ (as : Args), as.Ok E → ∀ (f : Nat) (sp rest : Bytes) (sm : Bool), (∀ c ∈ sp, c = 32) →
    6 * (sp ++ as.text).length + 7 ≤ f → (sp ++ as.text ++ 41 :: rest).length < L →
    ∃ b, ReadsArgs E L f sm b (sp ++ as.text) rest as.trees
  | _, _, 0, _, _, _, _, hf, _ => by omega
  | .nil, _, f + 1, sp, rest, sm, hsp, hf, hL => by
    refine ⟨sm, fun pre ru e => ?_⟩
    simp only [Args.text, List.append_nil, Args.trees, List.length_append, List.length_cons] at hf hL ⊢
    have hx : Consumes (expression E L f) false [] (41 :: rest) [] := by
      have : f = (f - 5) + 5 := by omega
      rw [this]; exact expression_none _ (.inr rfl) (by simp; omega)
    obtain ⟨ru1, e1, h1, h2, h3, h4⟩ := hx (sp.reverse ++ pre) ru (e.add (.str tyExpression)).inc
    have hs1 := run_whiteSpace (L := L) sp (post := 41 :: rest) hsp (by simp) (by simp; omega) pre ru e
    rw [List.nil_append] at h1
    refine ⟨ru1, e1.dec.delete, ?_, ?_, ?_, ?_⟩
    · simp only [argLoop, Prog.run_bind, hs1, run_evAdd, run_evInc, h1, Bool.not_false, ↓reduceIte, run_evDec, run_evDelete, Prog.run_pure,
        List.reverse_nil, List.nil_append]
    · simp [Ev.delete, Ev.dec, h2, Ev.inc, Ev.add]
    · simp only [Ev.delete, Ev.dec, h3, Ev.inc, Ev.add, preorderL, List.append_nil]
      simp
    · exact fun he => (h4 (he.add _).inc).dec.delete
  | .cons x as, h, f + 1, sp, rest, sm, hsp, hf, hL => by
    simp only [Args.Ok] at h
    simp only [Args.text, List.length_append, List.length_cons] at hf hL
    obtain ⟨c, w, hw, hc⟩ := expr_head h.1
    have hs1 := fun pre ru e => run_whiteSpace (L := L) sp (post := x.text ++ (as.textTail ++ 41 :: rest)) hsp (by rw [hw]; simpa using opndHead_lt hc)
      (by simp; omega) pre ru e
    have hrec := fun h1 h2 => argList_reads as h.2 f [32] rest true (by simp) h1 h2
    cases as with
    | nil =>
      refine ⟨true, fun pre ru e => ?_⟩
      simp only [Args.textTail, List.nil_append, List.length_nil] at hs1 hf hL
      have hx := expr_reads x h.1 f (41 :: rest) (exprStop_cons (.inr (.inr (.inl rfl)))) (by omega) (by simp; omega)
      obtain ⟨ru1, e1, h1, h2⟩ := hx (sp.reverse ++ pre) ru (e.add (.str tyExpression)).inc
      have hs2 := run_whiteSpace (L := L) [] (post := 41 :: rest) (by simp) (by simp) (by simp; omega)
        (x.text.reverse ++ (sp.reverse ++ pre)) ru1 e1.dec
      simp only [List.nil_append, List.reverse_nil] at hs2
      refine ⟨ru1, e1.dec, ?_, Emits.node_dec h2⟩
      simp only [Args.text, Args.textTail, List.append_nil, List.append_assoc]
      simp only [argLoop, Prog.run_bind, hs1, run_evAdd, run_evInc, h1, Bool.not_true, Bool.false_eq_true, ↓reduceIte, run_evDec, hs2,
        run_peekByte_cons, Prog.run_pure, beq_self_eq_true, List.reverse_append, List.append_assoc]
    | cons x' as' =>
      have htt : (Args.cons x' as').textTail = 44 :: 32 :: (Args.cons x' as').text := by simp [Args.textTail, Args.text]
      rw [htt] at hs1 hf hL
      simp only [List.cons_append, List.length_cons] at hs1 hf hL
      have hx := expr_reads x h.1 f (44 :: 32 :: ((Args.cons x' as').text ++ 41 :: rest)) (exprStop_cons (.inr (.inr (.inr rfl)))) (by omega) (by simp; omega)
      obtain ⟨b, hrec⟩ := hrec (by simp; omega) (by simp; omega)
      refine ⟨b, fun pre ru e => ?_⟩
      obtain ⟨ru1, e1, h1, h2⟩ := hx (sp.reverse ++ pre) ru (e.add (.str tyExpression)).inc
      have hs2 := run_whiteSpace (L := L) [] (post := 44 :: 32 :: ((Args.cons x' as').text ++ 41 :: rest)) (by simp) (by simp) (by simp; omega)
        (x.text.reverse ++ (sp.reverse ++ pre)) ru1 e1.dec
      simp only [List.nil_append, List.reverse_nil] at hs2
      have hem := Emits.node_dec h2
      obtain ⟨ru2, e2, h3, h4⟩ := hrec (44 :: (x.text.reverse ++ (sp.reverse ++ pre))) ru1 (e1.dec.setLevel e.current)
      refine ⟨ru2, e2, ?_, (hem.setLevel).trans h4⟩
      rw [Args.text, htt]
      simp only [List.append_assoc, List.cons_append, List.nil_append] at h3 ⊢
      have hlev : (e1.dec.setLevel e.current).current = e.current := rfl
      rw [hlev] at h3
      simp only [argLoop, Prog.run_bind, hs1, run_evAdd, run_evInc, h1, Bool.not_true, Bool.false_eq_true, ↓reduceIte, run_evDec, hs2,
        run_peekByte_cons, beq_self_eq_true, run_byte0_cons, run_evSetLevel, h3,
        show ((44 : UInt8) == 41) = false by decide]
      simp
termination_by as => 2 * sizeOf as
decreasing_by all_goals (simp_wf; try omega)
end

end main

end Ogdl
