import Verif.Lemmas.PathParse
import Verif.Model.Template

/-! Texts of 4096 bytes that end in more than 2048 letters `a`: their last name is never
read to its end. -/

namespace Ogdl
open Lex Spec

/-- The buffer with the bytes `A` of a text of 4096 bytes, at position `r`. -/
def atFull (A : Bytes) (r : Nat) (ru : List Nat) : Buf := { buf := A, r := r, last := 4096, rd := { data := [] }, runes := ru }

theorem atFull_byte {A : Bytes} {r : Nat} {c : UInt8} (h : A[r]? = some c) (hr : r + 1 < 4096) (ru : List Nat) :
    (atFull A r ru).byte = .ok (some c, atFull A (r + 1) ru) := by
  simp only [Buf.byte, atFull, bufSize, h]
  simp [Buf.fill, bufSize, hr]

theorem atFull_rune {A : Bytes} {r : Nat} {c : UInt8} (h : A[r]? = some c) (hc : c < 0x80) (hr : r < 4096) (ru : List Nat) :
    (atFull A r ru).rune = .ok (c.toNat, atFull A (r + 1) (1 :: ru)) := by
  have hf : (atFull A r ru).fill = atFull A r ru := by simp [Buf.fill, atFull, bufSize, hr]
  simp only [Buf.rune, hf]
  simp only [atFull, h, hc, ↓reduceIte]

section
variable {A : Bytes} {r : Nat} {c : UInt8} {ru : List Nat}

theorem full_byte0 (h : A[r]? = some c) (hr : r + 1 < 4096) : StuckOr bufM byte0 (atFull A r ru) c (atFull A (r + 1) ru) :=
  .of fun e => ⟨e, by simp only [byte0, Prog.run, bufM, atFull_byte h hr]; rfl⟩

theorem full_unread : StuckOr bufM unread (atFull A (r + 1) ru) () (atFull A r ru) := .of fun e => ⟨e, rfl⟩

theorem full_peek (h : A[r]? = some c) (hr : r + 1 < 4096) : StuckOr bufM peekByte (atFull A r ru) c (atFull A r ru) :=
  .of fun e => ⟨e, by simp only [peekByte, byteErr, Prog.run_bind, Prog.run, bufM, atFull_byte h hr]; rfl⟩

theorem full_pure {α : Type} (a : α) (s : Buf) : StuckOr bufM (pure a : Prog α) s a s := .of fun e => ⟨e, rfl⟩
theorem full_add (v : Val) (s : Buf) : StuckOr bufM (evAdd v) s () s := .of fun _ => ⟨_, rfl⟩
theorem full_inc (s : Buf) : StuckOr bufM evInc s () s := .of fun _ => ⟨_, rfl⟩
theorem full_dec (s : Buf) : StuckOr bufM evDec s () s := .of fun _ => ⟨_, rfl⟩

/-- A loop that reads `w` and stops at `c`. -/
theorem full_readWhile (p : UInt8 → Bool) : ∀ (w : Bytes) (r : Nat) (L : Nat), (∀ x ∈ w, p x = true) → p c = false →
    (∀ i x, w[i]? = some x → A[r + i]? = some x) → A[r + w.length]? = some c → r + w.length + 1 < 4096 →
    StuckOr bufM (readWhile p L) (atFull A r ru) w (atFull A (r + w.length) ru)
  | w, r, 0, _, _, _, _, _ => fun _ => .inl rfl
  | [], r, L + 1, _, hc, _, hA, hr => by
    simp only [readWhile]
    refine StuckOr.bind (full_byte0 hA hr) ?_
    simp only [hc, Bool.false_eq_true, ↓reduceIte]
    exact StuckOr.bind full_unread (full_pure _ _)
  | x :: w, r, L + 1, hw, hc, hA, hA', hr => by
    simp only [readWhile]
    simp only [List.length_cons] at hr hA'
    refine StuckOr.bind (full_byte0 (hA 0 x rfl) (by omega)) ?_
    simp only [hw x (by simp), ↓reduceIte]
    refine StuckOr.bind (full_readWhile p w (r + 1) L (fun y hy => hw y (by simp [hy])) hc
      (fun i y hy => by have := hA (i + 1) y (by simpa using hy); rwa [show r + 1 + i = r + (i + 1) by omega])
      (by rwa [show r + 1 + w.length = r + (w.length + 1) by omega]) (by omega)) ?_
    rw [show r + 1 + w.length = r + (x :: w).length by simp; omega]
    exact full_pure _ _

theorem full_quoted (h : A[r]? = some c) (hc : (c != 34 && c != 39 && c != 96) = true) (hr : r + 1 < 4096) (L : Nat) :
    StuckOr bufM (quoted L 0) (atFull A r ru) none (atFull A r ru) := by
  simp only [quoted]
  refine StuckOr.bind (full_byte0 h hr) ?_
  simp only [hc, ↓reduceIte]
  exact StuckOr.bind full_unread (full_pure _ _)

/-- Only letters `a` from here on. -/
def TailA (b : Buf) : Prop :=
  b.buf.length = 4096 ∧ b.rd.data = [] ∧ b.r ≤ 4096 ∧ ∀ i, min b.r 2048 ≤ i → i < 4096 → b.buf[i]? = some 97

theorem TailA.fill {b : Buf} (h : TailA b) : TailA b.fill ∧ b.fill.r < 4096 := by
  obtain ⟨h1, h2, h3, h4⟩ := h
  by_cases hr : b.r < bufSize
  · simp only [Buf.fill, hr, ↓reduceIte]
    exact ⟨⟨h1, h2, h3, h4⟩, hr⟩
  · simp only [Buf.fill, hr, ↓reduceIte]
    have hr : ¬ b.r < 4096 := hr
    have hd : b.buf.drop halfSize = List.replicate 2048 97 := by
      apply List.ext_getElem?
      intro i
      rw [List.getElem?_drop, List.getElem?_replicate]
      simp only [halfSize]
      split
      · exact h4 _ (by omega) (by omega)
      · exact List.getElem?_eq_none (by omega)
    have hrd : ∀ k, b.rd.read k = ([], false, { b.rd with data := [], sizes := b.rd.sizes.tail }) := fun k => by
      simp [Reader.read, h2]
    rw [hd, Buf.fillLoop]
    simp only [hrd, Bool.not_false, ↓reduceIte, Buf.write, List.append_nil, List.length_nil, Nat.add_zero,
      List.take_append_drop]
    refine ⟨⟨?_, rfl, by simp [halfSize], ?_⟩, by simp [halfSize]⟩
    · rw [List.length_append, List.length_replicate]
    · intro i _ hi
      rw [List.replicate_append_replicate, List.getElem?_replicate]
      simp [hi]

theorem TailA.rune {b : Buf} (h : TailA b) : ∃ b', b.rune = .ok (97, b') ∧ TailA b' := by
  obtain ⟨⟨h1, h2, h3, h4⟩, hr⟩ := h.fill
  have hb : b.fill.buf[b.fill.r]? = some 97 := h4 _ (by omega) hr
  refine ⟨{ b.fill with r := b.fill.r + 1, runes := 1 :: b.fill.runes }, ?_, h1, h2, hr, fun i hi hi' => h4 i ?_ hi'⟩
  · simp only [Buf.rune, hb]
    rfl
  · simp only at hi; omega

theorem stuck_tokenLoop_tail (E : Ext) : ∀ (L : Nat) (b : Buf), TailA b → Stuck bufM (tokenLoop E L) b
  | 0, _, _ => fun _ => rfl
  | L + 1, b, h => fun e => by
    obtain ⟨b', h1, h2⟩ := h.rune
    have hk : isTokenRune E 97 = true := rfl
    simp only [tokenLoop, Prog.run_bind, rune, Prog.run, bufM, h1]
    simp only [hk, ↓reduceIte, Prog.run_bind]
    have := stuck_tokenLoop_tail E L b' h2 e
    rw [show bufM = { byte := Buf.byte, unread := Buf.unread, rune := Buf.rune, unreadRune := Buf.unreadRune } from rfl] at this
    rw [this]

theorem full_tail (hA : A.length = 4096) (hr : r ≤ 2048) (h : ∀ i, r ≤ i → i < 4096 → A[i]? = some 97) : TailA (atFull A r ru) :=
  ⟨hA, rfl, by simp only [atFull]; omega, fun i hi hi' => h i (by simp only [atFull] at hi; omega) hi'⟩

theorem stuck_path_tail (E : Ext) (L f : Nat) (hA : A.length = 4096) (hr : r ≤ 2048) (h : ∀ i, r ≤ i → i < 4096 → A[i]? = some 97) :
    Stuck bufM (path E L f) (atFull A r ru) := by
  match f with
  | 0 => exact fun _ => by simp [path, Prog.run]
  | 1 => exact fun _ => by simp [path, pathElem, Prog.run]
  | f + 2 =>
    simp only [path, pathElem]
    refine StuckOr.stuck (full_quoted (h r (by omega) (by omega)) (by decide) (by omega) L) ?_
    refine Stuck.bind ?_
    rw [token8]
    exact Stuck.bind (stuck_tokenLoop_tail E L _ (full_tail hA hr h))

theorem stuck_unary_tail (E : Ext) (L f : Nat) (hA : A.length = 4096) (hr : r ≤ 2048) (h : ∀ i, r ≤ i → i < 4096 → A[i]? = some 97) :
    Stuck bufM (unary E L f) (atFull A r ru) := by
  cases f with
  | zero => exact fun _ => by simp [unary, Prog.run]
  | succ f =>
    simp only [unary]
    refine StuckOr.stuck (full_peek (h r (by omega) (by omega)) (by omega)) ?_
    rw [if_pos (by decide)]
    refine StuckOr.stuck (full_add _ _) ?_
    refine StuckOr.stuck (full_inc _) ?_
    exact Stuck.bind (stuck_path_tail E L f hA hr h)

theorem stuck_expression_tail (E : Ext) (L f : Nat) (hA : A.length = 4096) (hr : r ≤ 2048) (h : ∀ i, r ≤ i → i < 4096 → A[i]? = some 97) :
    Stuck bufM (expression E L f) (atFull A r ru) := by
  cases f with
  | zero => exact fun _ => by simp [expression, Prog.run]
  | succ f =>
    simp only [expression]
    exact Stuck.bind (stuck_unary_tail E L f hA hr h)

end

/-- The text `w` followed by letters `a` up to a length of 4096. -/
def longText (w : Bytes) : Bytes := w ++ List.replicate (4096 - w.length) 97

theorem longText_length {w : Bytes} (h : w.length ≤ 4096) : (longText w).length = 4096 := by
  simp only [longText, List.length_append, List.length_replicate]; omega

theorem longText_tail {w : Bytes} : ∀ i, w.length ≤ i → i < 4096 → (longText w)[i]? = some 97 := by
  intro i h1 h2
  rw [longText, List.getElem?_append_right h1, List.getElem?_replicate]
  rw [if_pos (by omega)]

theorem longText_head {w : Bytes} : ∀ (i : Nat) (x : UInt8), w[i]? = some x → (longText w)[i]? = some x := by
  intro i x h
  obtain ⟨hl, _⟩ := List.getElem?_eq_some_iff.1 h
  rw [longText, List.getElem?_append_left hl, h]

theorem runParser_long {α : Type} {w : Bytes} (hw : w.length ≤ 4096) {x : Prog α} (h : Stuck bufM x (atFull (longText w) 0 [])) :
    runParser x (longText w) = .oof := by
  unfold runParser
  rw [start_full _ (longText_length hw)]
  have := h {}
  unfold atFull at this
  rw [this]
  rfl

theorem runParser_path_long (E : Ext) (L f : Nat) : runParser (path E L f) (longText []) = .oof :=
  runParser_long (by simp) (stuck_path_tail E L f (longText_length (by simp)) (by omega) fun i _ h => longText_tail i (by simp) h)

theorem runParser_expression_long (E : Ext) (L f : Nat) : runParser (expression E L f) (longText []) = .oof :=
  runParser_long (by simp) (stuck_expression_tail E L f (longText_length (by simp)) (by omega) fun i _ h => longText_tail i (by simp) h)


section
variable {A : Bytes} {r : Nat} {ru : List Nat}

theorem full_level (s : Buf) {α : Type} {f : Nat → Prog α} (h : ∀ i, Stuck bufM (f i) s) : Stuck bufM (evLevel >>= f) s := by
  intro e
  rw [Prog.run_bind]
  exact h _ e

/-- `$` and a name that does not end. -/
theorem stuck_variable_tail (E : Ext) (L f : Nat) (hA : A.length = 4096) (hr : r + 1 ≤ 2048) (h0 : A[r]? = some 36)
    (h : ∀ i, r + 1 ≤ i → i < 4096 → A[i]? = some 97) : Stuck bufM (variable' E L f) (atFull A r ru) := by
  simp only [variable']
  refine StuckOr.stuck (full_byte0 h0 (by omega)) ?_
  rw [if_neg (by decide)]
  refine StuckOr.stuck (full_byte0 (h _ (by omega) (by omega)) (by omega)) ?_
  rw [if_neg (by decide)]
  refine StuckOr.stuck full_unread ?_
  refine full_level _ fun i => ?_
  refine StuckOr.stuck (full_byte0 (h _ (by omega) (by omega)) (by omega)) ?_
  rw [if_neg (by decide)]
  refine StuckOr.stuck (full_add _ _) ?_
  refine StuckOr.stuck (full_inc _) ?_
  simp only [show ((97 : UInt8) != 123) = true by decide, ↓reduceIte]
  refine StuckOr.stuck full_unread ?_
  exact Stuck.bind (stuck_path_tail E L f hA hr h)

/-- A template whose first variable is never read to its end. -/
theorem stuck_template_variable (E : Ext) (L g f : Nat) (h0 : A[r]? = some 36) (hr : r + 1 < 4096)
    (h : Stuck bufM (variable' E L g) (atFull A r ru)) : Stuck bufM (template E L g f) (atFull A r ru) := by
  cases f with
  | zero => exact fun _ => by simp [template, Prog.run]
  | succ f =>
    simp only [template, templateText]
    refine StuckOr.stuck (full_readWhile isTemplateTextChar [] r L (by simp) (c := 36) (by decide) (by simp) h0 hr) ?_
    simp only [List.isEmpty_nil, Bool.not_true, Bool.false_eq_true, ↓reduceIte]
    exact Stuck.bind h

/-- The same after a text. -/
theorem stuck_template_text (E : Ext) (L g f : Nat) (w : Bytes) (hw : ∀ x ∈ w, isTemplateTextChar x = true)
    (hA : ∀ (i : Nat) (x : UInt8), w[i]? = some x → A[i]? = some x) (h0 : A[w.length]? = some 36) (hr : w.length + 1 < 4096)
    (h : Stuck bufM (variable' E L g) (atFull A w.length [])) : Stuck bufM (template E L g f) (atFull A 0 []) := by
  cases w with
  | nil => exact stuck_template_variable E L g f h0 hr h
  | cons y w =>
    cases f with
    | zero => exact fun _ => by simp [template, Prog.run]
    | succ f =>
      simp only [template, templateText]
      refine StuckOr.stuck (full_readWhile isTemplateTextChar (y :: w) 0 L hw (c := 36) (by decide) (fun i x hx => by rw [Nat.zero_add]; exact hA i x hx) (by rwa [Nat.zero_add]) (by omega)) ?_
      simp only [List.isEmpty_cons, Bool.not_false, ↓reduceIte]
      refine StuckOr.stuck (full_add _ _) ?_
      rw [Nat.zero_add]
      exact stuck_template_variable E L g f h0 hr h

theorem full_tokenLoop (E : Ext) {c : UInt8} (hc : c < 0x80) (hcn : isTokenRune E c.toNat = false) : ∀ (w : Bytes) (r L : Nat) (ru : List Nat),
    (∀ x ∈ w, x < 0x80 ∧ isTokenRune E x.toNat = true) →
    (∀ (i : Nat) (x : UInt8), w[i]? = some x → A[r + i]? = some x) → A[r + w.length]? = some c → r + w.length < 4096 →
    StuckOr bufM (tokenLoop E L) (atFull A r ru) (w.map (·.toNat)) (atFull A (r + w.length) (List.replicate w.length 1 ++ ru))
  | w, r, 0, ru, _, _, _, _ => fun _ => .inl rfl
  | [], r, L + 1, ru, hw, hA, hs, hr => by
    simp only [tokenLoop]
    refine fun e => .inr ⟨e, ?_⟩
    simp only [List.length_nil, Nat.add_zero] at hs hr
    simp only [Prog.run_bind, rune, Prog.run, bufM, atFull_rune hs hc hr, hcn, ↓reduceIte, Bool.false_eq_true]
    rfl
  | x :: w, r, L + 1, ru, hw, hA, hs, hr => by
    simp only [List.length_cons] at hs hr
    have hx := hw x (by simp)
    have ih := full_tokenLoop E hc hcn w (r + 1) L (1 :: ru) (fun y hy => hw y (by simp [hy]))
      (fun i y hy => by have := hA (i + 1) y (by simpa using hy); rwa [show r + 1 + i = r + (i + 1) by omega])
      (by rwa [show r + 1 + w.length = r + (w.length + 1) by omega]) (by omega)
    have h0 : A[r]? = some x := hA 0 x rfl
    simp only [tokenLoop]
    refine StuckOr.bind (s' := atFull A (r + 1) (1 :: ru)) (a := x.toNat)
      (.of fun e => ⟨e, by simp only [rune, Prog.run, bufM, atFull_rune h0 hx.1 (by omega)]⟩) ?_
    simp only [hx.2, ↓reduceIte]
    refine StuckOr.bind ih ?_
    have he : atFull A (r + 1 + w.length) (List.replicate w.length 1 ++ 1 :: ru) =
        atFull A (r + (x :: w).length) (List.replicate (x :: w).length 1 ++ ru) := by
      have h1 : r + 1 + w.length = r + (x :: w).length := by simp; omega
      have h2 : List.replicate w.length 1 ++ 1 :: ru = List.replicate (x :: w).length 1 ++ ru := by
        rw [List.length_cons, List.replicate_succ', List.append_assoc]; rfl
      rw [h1, h2]
    rw [he]
    exact full_pure _ _

/-- `b = ` and a name that does not end. -/
theorem stuck_assign_tail (E : Ext) (L f : Nat) (hA : A.length = 4096) (h0 : A[0]? = some 98) (h1 : A[1]? = some 32) (h2 : A[2]? = some 61)
    (h3 : A[3]? = some 32) (h : ∀ i, 4 ≤ i → i < 4096 → A[i]? = some 97) : Stuck bufM (expression E L f) (atFull A 0 []) := by
  have htok : StuckOr bufM (token8 E L) (atFull A 0 []) b!"b" (atFull A 1 [1]) := by
    rw [token8]
    refine StuckOr.bind (full_tokenLoop E (c := 32) (by decide) rfl [98] 0 L [] (by intro x hx; simp at hx; subst hx; exact ⟨by decide, rfl⟩)
      (by intro i x hx; cases i with
        | zero => simpa using hx ▸ h0
        | succ i => simp at hx) h1 (by decide)) (full_pure _ _)
  have hpath : ∀ f, StuckOr bufM (path E L f) (atFull A 0 []) true (atFull A 1 [1]) := by
    intro f
    match f with
    | 0 => exact fun _ => .inl (by simp [path, Prog.run])
    | 1 => exact fun _ => .inl (by simp [path, pathElem, Prog.run])
    | f + 2 =>
      simp only [path, pathElem]
      refine StuckOr.bind (full_quoted h0 (by decide) (by omega) L) ?_
      refine StuckOr.bind htok ?_
      rw [if_pos (by decide)]
      refine StuckOr.bind (full_add _ _) ?_
      cases f with
      | zero => exact fun _ => .inl (by simp [pathLoop, Prog.run])
      | succ f =>
        simp only [pathLoop]
        refine StuckOr.bind (full_byte0 h1 (by omega)) ?_
        rw [if_neg (by decide)]
        refine StuckOr.bind full_unread ?_
        rw [if_pos (by decide)]
        exact full_pure _ _
  cases f with
  | zero => exact fun _ => by simp [expression, Prog.run]
  | succ f =>
    simp only [expression]
    cases f with
    | zero => exact Stuck.bind fun _ => by simp [unary, Prog.run]
    | succ f =>
      have hun : StuckOr bufM (unary E L (f + 1)) (atFull A 0 []) true (atFull A 1 [1]) := by
        simp only [unary]
        refine StuckOr.bind (full_peek h0 (by omega)) ?_
        rw [if_pos (by decide)]
        refine StuckOr.bind (full_add _ _) ?_
        refine StuckOr.bind (full_inc _) ?_
        refine StuckOr.bind (hpath f) ?_
        exact StuckOr.bind (full_dec _) (full_pure _ _)
      refine StuckOr.stuck hun ?_
      simp only [Bool.not_true, Bool.false_eq_true, ↓reduceIte, exprLoop]
      have hsp : ∀ {r : Nat} {c : UInt8} {ru : List Nat}, isSpaceChar c = false → A[r]? = some 32 → A[r + 1]? = some c → r + 2 < 4096 →
          StuckOr bufM (space L) (atFull A r ru) (1, 32) (atFull A (r + 1) ru) := by
        intro r c ru hc ha hb hr
        rw [space]
        exact StuckOr.bind (full_readWhile _ [32] r L (by decide) hc (by
          intro i x hx; cases i with
          | zero => simpa using hx ▸ ha
          | succ i => simp at hx) hb hr) (full_pure _ _)
      refine StuckOr.stuck (hsp (c := 61) (by decide) h1 h2 (by omega)) ?_
      refine StuckOr.stuck (full_readWhile isOperatorChar [61] 2 L (by decide) (c := 32) (by decide) (by
          intro i x hx; cases i with
          | zero => simpa using hx ▸ h2
          | succ i => simp at hx) h3 (by decide)) ?_
      simp only [List.isEmpty_cons, Bool.false_eq_true, ↓reduceIte]
      refine StuckOr.stuck (full_add _ _) ?_
      refine StuckOr.stuck (hsp (c := 97) (by decide) h3 (h 4 (by omega) (by omega)) (by decide)) ?_
      exact Stuck.bind (stuck_unary_tail E L f hA (by decide) h)

end

theorem runParser_variable_long (E : Ext) (L g f : Nat) (w : Bytes) (hw : ∀ x ∈ w, isTemplateTextChar x = true) (hl : w.length + 1 ≤ 2048) :
    runParser (template E L g f) (longText (w ++ b!"$")) = .oof := by
  have hlen : (w ++ b!"$").length = w.length + 1 := by simp
  have h0 : (longText (w ++ b!"$"))[w.length]? = some 36 := longText_head _ _ (by simp)
  refine runParser_long (by omega) (stuck_template_text E L g f w hw (fun i x hx => longText_head i x ?_) h0 (by omega) ?_)
  · obtain ⟨hi, _⟩ := List.getElem?_eq_some_iff.1 hx
    rw [List.getElem?_append_left hi, hx]
  · exact stuck_variable_tail E L g (longText_length (by omega)) hl h0 fun i h1 h2 => longText_tail i (by omega) h2

theorem runParser_assign_long (E : Ext) (L f : Nat) : runParser (expression E L f) (longText b!"b = ") = .oof :=
  runParser_long (by decide) (stuck_assign_tail E L f (longText_length (by decide)) (longText_head _ _ rfl) (longText_head _ _ rfl)
    (longText_head _ _ rfl) (longText_head _ _ rfl) fun i h1 h2 => longText_tail i h1 h2)

/-- `b.` and a name that does not end. -/
theorem runParser_dotted_long (E : Ext) (L f : Nat) : runParser (path E L f) (longText b!"b.") = .oof := by
  have h0 : (longText b!"b.")[0]? = some 98 := longText_head _ _ rfl
  have h1 : (longText b!"b.")[1]? = some 46 := longText_head _ _ rfl
  have h : ∀ i, 2 ≤ i → i < 4096 → (longText b!"b.")[i]? = some 97 := fun i a b => longText_tail i a b
  have hA : (longText b!"b.").length = 4096 := longText_length (by decide)
  refine runParser_long (by decide) ?_
  generalize longText b!"b." = A at *
  have htok : StuckOr bufM (token8 E L) (atFull A 0 []) b!"b" (atFull A 1 [1]) := by
    rw [token8]
    refine StuckOr.bind (full_tokenLoop E (c := 46) (by decide) rfl [98] 0 L [] (by intro x hx; simp at hx; subst hx; exact ⟨by decide, rfl⟩)
      (by intro i x hx; cases i with
        | zero => simpa using hx ▸ h0
        | succ i => simp at hx) h1 (by decide)) (full_pure _ _)
  match f with
  | 0 => exact fun _ => by simp [path, Prog.run]
  | 1 => exact fun _ => by simp [path, pathElem, Prog.run]
  | f + 2 =>
    simp only [path, pathElem]
    refine StuckOr.stuck (full_quoted h0 (by decide) (by omega) L) ?_
    refine StuckOr.stuck htok ?_
    rw [if_pos (by decide)]
    refine StuckOr.stuck (full_add _ _) ?_
    match f with
    | 0 => exact fun _ => by simp [pathLoop, Prog.run]
    | 1 =>
      simp only [pathLoop]
      refine StuckOr.stuck (full_byte0 h1 (by omega)) ?_
      rw [if_pos (by decide)]
      exact fun _ => by simp [pathElem, Prog.run]
    | f + 2 =>
      simp only [pathLoop]
      refine StuckOr.stuck (full_byte0 h1 (by omega)) ?_
      rw [if_pos (by decide)]
      simp only [pathElem]
      refine StuckOr.stuck (full_quoted (h 2 (by omega) (by omega)) (by decide) (by omega) L) ?_
      refine Stuck.bind ?_
      rw [token8]
      exact Stuck.bind (stuck_tokenLoop_tail E L _ (full_tail hA (by omega) h))

end Ogdl
