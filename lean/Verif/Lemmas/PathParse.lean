import Verif.Lemmas.FlowTotal
import Verif.Lemmas.Long

/-! `NewPath` and the parse of an expression on texts that fit in the buffer, and two
texts on which they never return. -/

namespace Ogdl
open Lex Spec

/-! ## No nil nodes -/

theorem noNilL_append' : ∀ {a b : List Graph}, NoNilL a → NoNilL b → NoNilL (a ++ b)
  | [], _, _, h => h
  | _ :: _, _, h, h' => ⟨h.1, noNilL_append' h.2 h'⟩

mutual
theorem elem_noNil : ∀ e : Elem, NoNil e.tree
  | .name s => by simp [Elem.tree, leaf, NoNil, NoNilL]
  | .quoted s => by simp [Elem.tree, leaf, NoNil, NoNilL]
  | .index x => by simpa [Elem.tree, NoNil] using expr_noNil x
  | .all => by simp [Elem.tree, leaf, NoNil, NoNilL]
  | .select x => by simpa [Elem.tree, NoNil] using expr_noNil x
  | .call as => by simpa [Elem.tree, NoNil] using args_noNil as
  | .group as => by simpa [Elem.tree, NoNil] using args_noNil as
theorem elems_noNil : ∀ es : Elems, NoNilL es.trees
  | .nil => by simp [Elems.trees, NoNilL]
  | .cons e es => by simpa [Elems.trees, NoNilL] using ⟨elem_noNil e, elems_noNil es⟩
theorem opnd_noNil : ∀ o : Opnd, NoNil o.tree
  | .path s es => by simpa [Opnd.tree, leaf, NoNil, NoNilL] using elems_noNil es
  | .num s => by simp [Opnd.tree, leaf, NoNil, NoNilL]
  | .str s => by simp [Opnd.tree, leaf, NoNil, NoNilL]
  | .paren x => by simpa [Opnd.tree, NoNil] using expr_noNil x
theorem expr_noNil : ∀ x : Expr, NoNilL x.trees
  | .one o => by simpa [Expr.trees, NoNilL] using opnd_noNil o
  | .op o s x => by simpa [Expr.trees, NoNilL, leaf, NoNil] using ⟨opnd_noNil o, expr_noNil x⟩
theorem args_noNil : ∀ as : Args, NoNilL as.trees
  | .nil => by simp [Args.trees, NoNilL]
  | .cons x as => by simpa [Args.trees, NoNilL, NoNil] using ⟨expr_noNil x, args_noNil as⟩
end

/-! ## Exact results -/

theorem runParser_consumes {α : Type} {x : Prog α} {a : α} {t : Bytes} {gs : List Graph} (hx : ∀ inp, Roomy inp → Long inp x)
    (hc : Consumes x a t [] gs) (hg : NoNilL gs) (ht : Fits t) :
    runParser x t = .ok (.node (.str b!"_") gs) := by
  rw [runParser_fits x t ht hx]
  obtain ⟨ru, e, h1, h2⟩ := hc [] [] {}
  rw [List.append_nil] at h1
  rw [show Cur.start t = ⟨[], t, 0, []⟩ from rfl, h1]
  exact tree_of_preorder e gs hg (by rw [h2.2.1]; simp) (h2.2.2 Ev.ok_empty).2

theorem newPath_exact (E : Ext) (e : Elem) (es : Elems) (he : e.Ok E) (hes : es.Ok E) (hc : ∀ as, e ≠ .call as)
    (hl : Fits (e.text true ++ es.text)) :
    newPath E (e.text true ++ es.text) = .ok (.node (.str b!"!p") (e.tree :: es.trees)) := by
  have h := elem_reads (E := E) (L := loopFuel (e.text true ++ es.text)) e he (flowFuel (e.text true ++ es.text) - 1) es.text [] es.trees true false
    (fun as h => absurd h (hc as)) (fun _ _ => rfl)
    (fun f' hf => elems_reads es hes f' [] pathStop_nil hf (by simp only [loopFuel, List.length_append, List.length_nil]; omega))
    (nameStop_elems pathStop_nil) (by simp only [flowFuel]; omega) (by simp [loopFuel])
  have hf : flowFuel (e.text true ++ es.text) = (flowFuel (e.text true ++ es.text) - 1) + 1 := by simp only [flowFuel]; omega
  have h' : Consumes (path E (loopFuel (e.text true ++ es.text)) (flowFuel (e.text true ++ es.text))) true
      (e.text true ++ es.text) [] (e.tree :: es.trees) := by
    rw [hf, path]; exact h
  unfold newPath newPathFuel
  rw [runParser_consumes (fun _ hi => long_path hi E _ _) h' (⟨elem_noNil e, elems_noNil es⟩) hl]
  rfl

theorem rawExpr_exact (E : Ext) (x : Expr) (hx : x.Ok E) (hl : Fits x.text) :
    runParser (expression E (loopFuel x.text) (flowFuel x.text)) x.text = .ok (.node (.str b!"_") x.trees) := by
  have h := expr_reads (E := E) (L := loopFuel x.text) x hx (flowFuel x.text) [] exprStop_nil (by simp only [flowFuel]; omega) (by simp [loopFuel])
  exact runParser_consumes (fun _ hi => long_expression hi E _ _) h (expr_noNil x) hl

/-! ## Totality on short texts -/

theorem runParser_total {α : Type} {x : Prog α} {t : Bytes} (hx : ∀ inp, Roomy inp → Long inp x) (ht : Fits t) {Q : α → Cur → Prop}
    (h : ParTot x (Cur.start t) Q) : ∃ g, runParser x t = .ok g := by
  rw [runParser_fits x t ht hx]
  obtain ⟨a, s', e', h1, h2, _⟩ := h {} Ev.ok_empty
  obtain ⟨g, hg⟩ := Ev.tree_ok e' h2.2
  exact ⟨g, by simp [h1, hg]⟩

theorem lettersOk_ascii (E : Ext) {s : Bytes} (h : ∀ c ∈ s, c < 0x80) : LettersOk E s := by
  intro c t hs hc
  have h80 := h c (hs.subset (by simp))
  rw [decodeRune_ascii c t h80]
  simp only [isTokenRune]
  have hlt : c.toNat < 256 := c.toNat_lt
  simp only [hlt, ↓reduceIte]
  simp only [isLetterByte] at hc
  rcases Bool.or_eq_true _ _ ▸ hc with h | h
  · simp [h]
  · have : c = 95 := by simpa using h
    subst this; decide

/-! ## Programs that never return -/

/-- Running out of fuel whatever the events are. -/
def Stuck {σ α : Type} (M : Machine σ) (x : Prog α) (s : σ) : Prop := ∀ e, x.run M s e = .oof

/-- Runs out of fuel or returns `a` in state `s'`. -/
def StuckOr {σ α : Type} (M : Machine σ) (x : Prog α) (s : σ) (a : α) (s' : σ) : Prop :=
  ∀ e, x.run M s e = .oof ∨ ∃ e', x.run M s e = .ok (a, s', e')

theorem StuckOr.bind {σ α β : Type} {M : Machine σ} {x : Prog α} {f : α → Prog β} {s s' s'' : σ} {a : α} {b : β}
    (h : StuckOr M x s a s') (hf : StuckOr M (f a) s' b s'') : StuckOr M (x >>= f) s b s'' := by
  intro e
  rw [Prog.run_bind]
  rcases h e with h | ⟨e', h⟩
  · rw [h]; exact .inl rfl
  · rw [h]; exact hf e'

theorem StuckOr.stuck {σ α β : Type} {M : Machine σ} {x : Prog α} {f : α → Prog β} {s s' : σ} {a : α}
    (h : StuckOr M x s a s') (hf : Stuck M (f a) s') : Stuck M (x >>= f) s := by
  intro e
  rw [Prog.run_bind]
  rcases h e with h | ⟨e', h⟩
  · rw [h]
  · rw [h]; exact hf e'

theorem StuckOr.of {σ α : Type} {M : Machine σ} {x : Prog α} {s s' : σ} {a : α}
    (h : ∀ e, ∃ e', x.run M s e = .ok (a, s', e')) : StuckOr M x s a s' := fun e => .inr (h e)

theorem Stuck.bind {σ α β : Type} {M : Machine σ} {x : Prog α} {f : α → Prog β} {s : σ}
    (h : Stuck M x s) : Stuck M (x >>= f) s := by
  intro e
  rw [Prog.run_bind, h e]

/-! ### `a(¢)` -/

theorem stuckOr_byte0 (c : UInt8) (pre t : Bytes) (r : List Nat) : StuckOr curM byte0 ⟨pre, c :: t, 0, r⟩ c ⟨c :: pre, t, 0, r⟩ :=
  .of fun e => ⟨e, rfl⟩
theorem stuckOr_peek (c : UInt8) (pre t : Bytes) (r : List Nat) : StuckOr curM peekByte ⟨pre, c :: t, 0, r⟩ c ⟨pre, c :: t, 0, r⟩ :=
  .of fun e => ⟨e, rfl⟩
theorem stuckOr_pure {α : Type} (a : α) (s : Cur) : StuckOr curM (pure a : Prog α) s a s := .of fun e => ⟨e, rfl⟩
theorem stuckOr_add (v : Val) (s : Cur) : StuckOr curM (evAdd v) s () s := .of fun _ => ⟨_, rfl⟩
theorem stuckOr_inc (s : Cur) : StuckOr curM evInc s () s := .of fun _ => ⟨_, rfl⟩
theorem stuckOr_dec (s : Cur) : StuckOr curM evDec s () s := .of fun _ => ⟨_, rfl⟩
theorem stuckOr_readWhile (p : UInt8 → Bool) (c : UInt8) (hc : p c = false) (L : Nat) (pre t : Bytes) (r : List Nat) :
    StuckOr curM (readWhile p L) ⟨pre, c :: t, 0, r⟩ [] ⟨pre, c :: t, 0, r⟩ := by
  cases L with
  | zero => exact fun _ => .inl rfl
  | succ L => exact fun e => .inr ⟨e, by simp [readWhile, Prog.run_bind, hc, Prog.run_pure]⟩
theorem stuckOr_quoted (c : UInt8) (hc : (c != 34 && c != 39 && c != 96) = true) (L : Nat) (pre t : Bytes) (r : List Nat) :
    StuckOr curM (quoted L 0) ⟨pre, c :: t, 0, r⟩ none ⟨pre, c :: t, 0, r⟩ := by
  refine fun e => .inr ⟨e, ?_⟩
  simp only [quoted, Prog.run_bind, run_byte0_cons, hc]
  simp [Prog.run_bind, Prog.run_pure]

/-- The text `¢)`, in which the first byte looks like a letter and the rune is none. -/
def cent : Bytes := [0xC2, 0xA2, 41]

theorem stuckOr_token (E : Ext) (L : Nat) (pre : Bytes) (r : List Nat) :
    StuckOr curM (token8 E L) ⟨pre, cent, 0, r⟩ [] ⟨pre, cent, 0, r⟩ := by
  cases L with
  | zero => exact fun _ => .inl rfl
  | succ L =>
    refine fun e => .inr ⟨e, ?_⟩
    have h : isTokenRune E 162 = false := rfl
    have hr : (Cur.mk pre cent 0 r).rune = (162, ⟨0xA2 :: 0xC2 :: pre, [41], 0, 2 :: r⟩) := rfl
    simp only [token8, tokenLoop, Prog.run_bind, rune, Prog.run, curM, hr, h]
    rfl

theorem stuckOr_bracket (E : Ext) (L f : Nat) (a b c : UInt8) (ty : Bytes) (hc : c ≠ a) (pre t : Bytes) (r : List Nat) :
    StuckOr curM (bracket E L a b ty f) ⟨pre, c :: t, 0, r⟩ false ⟨pre, c :: t, 0, r⟩ := by
  cases f with
  | zero => exact fun _ => .inl (by simp [bracket, Prog.run])
  | succ f =>
    refine fun e => .inr ⟨e, ?_⟩
    simp [bracket, Prog.run_bind, run_peekByte_cons, hc, Prog.run_pure]

theorem stuckOr_args (E : Ext) (L f : Nat) (dot : Bool) (c : UInt8) (hc : c ≠ 40) (pre t : Bytes) (r : List Nat) :
    StuckOr curM (args E L dot f) ⟨pre, c :: t, 0, r⟩ false ⟨pre, c :: t, 0, r⟩ := by
  cases f with
  | zero => exact fun _ => .inl (by simp [args, Prog.run])
  | succ f =>
    refine fun e => .inr ⟨e, ?_⟩
    simp [args, Prog.run_bind, run_peekByte_cons, hc, Prog.run_pure]

theorem stuckOr_path_cent (E : Ext) (L f : Nat) (pre : Bytes) (r : List Nat) :
    StuckOr curM (path E L f) ⟨pre, cent, 0, r⟩ false ⟨pre, cent, 0, r⟩ := by
  match f with
  | 0 => exact fun _ => .inl (by simp [path, Prog.run])
  | 1 => exact fun _ => .inl (by simp [path, pathElem, Prog.run])
  | f + 2 =>
    simp only [path, pathElem]
    refine StuckOr.bind (stuckOr_quoted 0xC2 (by decide) L pre _ r) ?_
    refine StuckOr.bind (stuckOr_token E L pre r) ?_
    simp only [List.isEmpty_nil, Bool.not_true, Bool.false_eq_true, ↓reduceIte]
    refine StuckOr.bind (stuckOr_bracket E L f 91 93 0xC2 _ (by decide) pre _ r) ?_
    simp only [Bool.false_eq_true, ↓reduceIte]
    refine StuckOr.bind (stuckOr_bracket E L f 123 125 0xC2 _ (by decide) pre _ r) ?_
    simp only [Bool.false_eq_true, ↓reduceIte]
    refine StuckOr.bind (stuckOr_args E L f true 0xC2 (by decide) pre _ r) ?_
    exact stuckOr_pure _ _

theorem stuckOr_unary_cent (E : Ext) (L f : Nat) (pre : Bytes) (r : List Nat) :
    StuckOr curM (unary E L f) ⟨pre, cent, 0, r⟩ true ⟨pre, cent, 0, r⟩ := by
  cases f with
  | zero => exact fun _ => .inl (by simp [unary, Prog.run])
  | succ f =>
    simp only [unary]
    refine StuckOr.bind (stuckOr_peek 0xC2 pre _ r) ?_
    rw [if_pos (by decide)]
    refine StuckOr.bind (stuckOr_add _ _) ?_
    refine StuckOr.bind (stuckOr_inc _) ?_
    refine StuckOr.bind (stuckOr_path_cent E L f pre r) ?_
    refine StuckOr.bind (stuckOr_dec _) ?_
    exact stuckOr_pure _ _

theorem stuckOr_expression_cent (E : Ext) (L f : Nat) (pre : Bytes) (r : List Nat) :
    StuckOr curM (expression E L f) ⟨pre, cent, 0, r⟩ true ⟨pre, cent, 0, r⟩ := by
  match f with
  | 0 => exact fun _ => .inl (by simp [expression, Prog.run])
  | f + 1 =>
    simp only [expression]
    refine StuckOr.bind (stuckOr_unary_cent E L f pre r) ?_
    simp only [Bool.not_true, Bool.false_eq_true, ↓reduceIte]
    cases f with
    | zero => exact fun _ => .inl (by simp [exprLoop, Prog.run])
    | succ f =>
      simp only [exprLoop]
      refine StuckOr.bind (StuckOr.bind (stuckOr_readWhile _ 0xC2 (by decide) L pre _ r) (stuckOr_pure _ _)) ?_
      refine StuckOr.bind (stuckOr_readWhile _ 0xC2 (by decide) L pre _ r) ?_
      exact stuckOr_pure _ _

theorem stuckOr_whiteSpace_cent (L : Nat) (pre : Bytes) (r : List Nat) :
    StuckOr curM (whiteSpace L) ⟨pre, cent, 0, r⟩ false ⟨pre, cent, 0, r⟩ :=
  StuckOr.bind (stuckOr_readWhile _ 0xC2 (by decide) L pre _ r) (stuckOr_pure _ _)

theorem stuck_argLoop_cent (E : Ext) (L : Nat) (pre : Bytes) (r : List Nat) : ∀ (f l : Nat) (b : Bool),
    Stuck curM (argLoop E L l b f) ⟨pre, cent, 0, r⟩
  | 0, _, _ => fun _ => by simp [argLoop, Prog.run]
  | f + 1, l, b => by
    simp only [argLoop]
    refine StuckOr.stuck (stuckOr_whiteSpace_cent L pre r) ?_
    refine StuckOr.stuck (stuckOr_add _ _) ?_
    refine StuckOr.stuck (stuckOr_inc _) ?_
    refine StuckOr.stuck (stuckOr_expression_cent E L f pre r) ?_
    simp only [Bool.not_true, Bool.false_eq_true, ↓reduceIte]
    refine StuckOr.stuck (stuckOr_dec _) ?_
    refine StuckOr.stuck (stuckOr_whiteSpace_cent L pre r) ?_
    refine StuckOr.stuck (stuckOr_peek 0xC2 pre _ r) ?_
    rw [if_neg (by decide), if_neg (by decide)]
    refine StuckOr.stuck (stuckOr_inc _) ?_
    exact stuck_argLoop_cent E L pre r f l true

theorem stuck_args_cent (E : Ext) (L f : Nat) (dot : Bool) (pre : Bytes) (r : List Nat) :
    Stuck curM (args E L dot f) ⟨pre, 40 :: cent, 0, r⟩ := by
  cases f with
  | zero => exact fun _ => by simp [args, Prog.run]
  | succ f =>
    simp only [args]
    refine StuckOr.stuck (stuckOr_peek 40 pre _ r) ?_
    rw [if_neg (by decide)]
    refine StuckOr.stuck (stuckOr_byte0 40 pre _ r) ?_
    intro e
    simp only [Prog.run_bind, run_evLevel, run_evAdd, run_evInc]
    rcases stuckOr_whiteSpace_cent L (40 :: pre) r ((e.add (.str (if dot then tyGroup else tyArguments))).inc) with h | ⟨e', h⟩
    · rw [h]
    · rw [h]
      simp only [stuck_argLoop_cent E L (40 :: pre) r f e'.current false e']

theorem stuck_path_cent (E : Ext) (L f : Nat) : Stuck curM (path E L f) (Cur.start (97 :: 40 :: cent)) := by
  match f with
  | 0 => exact fun _ => by simp [path, Prog.run]
  | 1 => exact fun _ => by simp [path, pathElem, Prog.run]
  | f + 2 =>
    simp only [path, pathElem, Cur.start]
    refine StuckOr.stuck (stuckOr_quoted 97 (by decide) L [] _ []) ?_
    have htok : StuckOr curM (token8 E L) ⟨[], 97 :: 40 :: cent, 0, []⟩ [97] ⟨[97], 40 :: cent, 0, [1]⟩ := by
      match L with
      | 0 => exact fun _ => .inl rfl
      | 1 =>
        refine fun e => .inl ?_
        simp only [token8, tokenLoop, Prog.run_bind, rune, Prog.run, curM]
        have : isTokenRune E 97 = true := rfl
        simp [Cur.rune, this, Prog.run_bind, Prog.run]
      | L + 2 =>
        refine fun e => .inr ⟨e, ?_⟩
        have h1 : isTokenRune E 97 = true := rfl
        have h2 : isTokenRune E 40 = false := rfl
        simp only [token8, tokenLoop, Prog.run_bind, rune, Prog.run, curM]
        simp [Cur.rune, h1, h2, Prog.run_bind, Prog.run, Prog.run_pure, unreadRune, Cur.unreadRune, Cur.back, Cur.unread,
          encodeRunes, encodeRune]
    refine StuckOr.stuck htok ?_
    simp only [List.isEmpty_cons, Bool.not_false, ↓reduceIte]
    refine StuckOr.stuck (stuckOr_add _ _) ?_
    match f with
    | 0 => exact fun _ => by simp [pathLoop, Prog.run]
    | 1 => exact fun e => by simp [pathLoop, pathElem, Prog.run_bind, Prog.run]
    | f + 2 =>
      intro e
      simp only [pathLoop, Prog.run_bind, run_byte0_cons]
      simp only [show ((40 : UInt8) == 46) = false by decide, Bool.false_eq_true, ↓reduceIte, Prog.run_bind, run_unread_zero,
        show ((40 : UInt8) != 91 && (40 : UInt8) != 40 && (40 : UInt8) != 123) = false by decide]
      have h40 : isTokenRune E 40 = false := rfl
      have htok' : StuckOr curM (token8 E L) ⟨[97], 40 :: cent, 0, [1]⟩ [] ⟨[97], 40 :: cent, 0, [1]⟩ := by
        cases L with
        | zero => exact fun _ => .inl rfl
        | succ L =>
          refine fun e => .inr ⟨e, ?_⟩
          simp only [token8, tokenLoop, Prog.run_bind, rune, Prog.run, curM]
          simp [Cur.rune, h40, Prog.run_bind, Prog.run, Prog.run_pure, unreadRune, Cur.unreadRune, Cur.back, Cur.unread,
            encodeRunes]
      simp only [pathElem]
      have := StuckOr.stuck (f := fun a => match a with
        | some b => do
          evAdd (.str b)
          pathLoop E L true f
        | none => do
          let b ← token8 E L
          if !b.isEmpty then do
            evAdd (.str b)
            pathLoop E L true f
          else if ← bracket E L 91 93 tyIndex f then pathLoop E L true f
          else if ← bracket E L 123 125 tySelector f then pathLoop E L true f
          else if ← args E L false f then pathLoop E L true f
          else pure true) (stuckOr_quoted 40 (by decide) L [97] cent [1]) (by
            refine StuckOr.stuck htok' ?_
            simp only [List.isEmpty_nil, Bool.not_true, Bool.false_eq_true, ↓reduceIte]
            refine StuckOr.stuck (stuckOr_bracket E L f 91 93 40 _ (by decide) _ _ _) ?_
            simp only [Bool.false_eq_true, ↓reduceIte]
            refine StuckOr.stuck (stuckOr_bracket E L f 123 125 40 _ (by decide) _ _ _) ?_
            simp only [Bool.false_eq_true, ↓reduceIte]
            exact Stuck.bind (stuck_args_cent E L f false _ _))
      exact this e

/-! ### 4096 letters -/

/-- A buffer full of `a` with nothing left to read. -/
def FullA (b : Buf) : Prop :=
  b.buf = List.replicate 4096 97 ∧ b.rd.data = [] ∧ b.r ≤ 4096

theorem FullA.fill {b : Buf} (h : FullA b) : FullA b.fill ∧ b.fill.r < 4096 := by
  obtain ⟨h1, h2, h3⟩ := h
  by_cases hr : b.r < bufSize
  · simp only [Buf.fill, hr, ↓reduceIte]
    exact ⟨⟨h1, h2, h3⟩, hr⟩
  · simp only [Buf.fill, hr, ↓reduceIte]
    have hd : b.buf.drop halfSize = List.replicate 2048 97 := by
      rw [h1, List.drop_replicate]; rfl
    have hrd : ∀ k, b.rd.read k = ([], false, { b.rd with data := [], sizes := b.rd.sizes.tail }) := fun k => by
      simp [Reader.read, h2]
    rw [hd, Buf.fillLoop]
    simp only [hrd, Bool.not_false, ↓reduceIte, Buf.write, List.append_nil, List.length_nil, Nat.add_zero,
      List.take_append_drop]
    refine ⟨⟨?_, rfl, by simp [halfSize]⟩, by simp [halfSize]⟩
    rw [List.replicate_append_replicate]

theorem FullA.rune {b : Buf} (h : FullA b) : ∃ b', b.rune = .ok (97, b') ∧ FullA b' := by
  obtain ⟨⟨h1, h2, h3⟩, hr⟩ := h.fill
  have hb : b.fill.buf[b.fill.r]? = some 97 := by
    rw [h1, List.getElem?_replicate]; simp [hr]
  refine ⟨{ b.fill with r := b.fill.r + 1, runes := 1 :: b.fill.runes }, ?_, h1, h2, hr⟩
  simp only [Buf.rune, hb]
  rfl

theorem stuck_tokenLoop (E : Ext) : ∀ (L : Nat) (b : Buf), FullA b → Stuck bufM (tokenLoop E L) b
  | 0, _, _ => fun _ => rfl
  | L + 1, b, h => fun e => by
    obtain ⟨b', h1, h2⟩ := h.rune
    have hk : isTokenRune E 97 = true := rfl
    simp only [tokenLoop, Prog.run_bind, rune, Prog.run, bufM, h1]
    simp only [hk, ↓reduceIte, Prog.run_bind]
    have := stuck_tokenLoop E L b' h2 e
    rw [show bufM = { byte := Buf.byte, unread := Buf.unread, rune := Buf.rune, unreadRune := Buf.unreadRune } from rfl] at this
    rw [this]

theorem start_full (A : Bytes) (h : A.length = 4096) :
    Buf.start { data := A } = { buf := A, r := 0, last := 4096, rd := { data := [] } } := by
  have hne : A ≠ [] := fun h0 => by rw [h0] at h; exact absurd h (by decide)
  have hrd : Reader.read { data := A } 4096 = (A, true, { data := [] }) := by
    have h1 : A.take 4096 = A := List.take_of_length_le (by omega)
    have h2 : A.drop 4096 = [] := List.drop_of_length_le (by omega)
    simp only [Reader.read, h1, h2, List.isEmpty_eq_false_iff.2 hne]
    rfl
  have : Buf.fillLoop 100 (List.replicate bufSize 0) 0 { data := A } = (A, 4096, { data := [] }) := by
    rw [Buf.fillLoop]
    simp only [bufSize, Nat.sub_zero, hrd]
    simp only [Buf.write, List.take_zero, List.nil_append, h, Nat.zero_add, List.drop_replicate, Nat.sub_self,
      List.replicate_zero, List.append_nil]
    rfl
  simp only [Buf.start]
  rw [this]

theorem stuck_path_full (E : Ext) (L f : Nat) : Stuck bufM (path E L f) (Buf.start { data := List.replicate 4096 97 }) := by
  match f with
  | 0 => exact fun _ => by generalize Buf.start _ = b; simp [path, Prog.run]
  | 1 => exact fun _ => by generalize Buf.start _ = b; simp [path, pathElem, Prog.run]
  | f + 2 =>
    rw [start_full _ List.length_replicate]
    generalize hA : (List.replicate 4096 97 : Bytes) = A
    have h0 : A[0]? = some 97 := by rw [← hA, List.getElem?_replicate]; rfl
    have hfull : ∀ r : Nat, r ≤ 4096 → FullA { buf := A, r := r, last := 4096, rd := { data := [] } } :=
      fun r hr => ⟨hA.symm, rfl, hr⟩
    have hbyte : Buf.byte { buf := A, r := 0, last := 4096, rd := { data := [] } } =
        .ok (some 97, { buf := A, r := 1, last := 4096, rd := { data := [] } }) := by
      simp only [Buf.byte, bufSize, h0]
      simp [Buf.fill, bufSize]
    have hq : ∀ e, (quoted L 0).run bufM { buf := A, r := 0, last := 4096, rd := { data := [] } } e =
        .ok (none, { buf := A, r := 0, last := 4096, rd := { data := [] } }, e) := by
      intro e
      simp only [quoted, Prog.run_bind, byte0, Prog.run, bufM, hbyte]
      rfl
    intro e
    simp only [path, pathElem, Prog.run_bind, hq]
    simp only [Prog.run_bind, token8, stuck_tokenLoop E L _ (hfull 0 (by omega)) e]

end Ogdl
