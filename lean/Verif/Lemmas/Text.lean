import Verif.Spec.Layout
import Verif.Model.Text
import Verif.Lemmas.ParseExact
import Verif.Lemmas.BufferAgree

/-! Lemmas for C09, C11, C12, C56: the grammar and the layouts. -/

namespace Ogdl
open Spec Lex

theorem Spec.ShortRuns.spaces {t : Bytes} (h : ShortRuns t) : ShortSpaces t := by
  rintro s ⟨p, rfl⟩
  refine h p (s.takeWhile isSpaceChar) (s.dropWhile isSpaceChar) ?_ ?_
  · rw [List.append_assoc, List.takeWhile_append_dropWhile]
  · intro c hc
    have : isSpaceChar c = true := by
      have := List.all_takeWhile (p := isSpaceChar) (l := s)
      rw [List.all_eq_true] at this
      exact this c hc
    simpa [isSpaceChar] using this

theorem fromReader_of_textOf {E : Ext} {types : Bool} {gs : List Graph} {t : Bytes} (h : TextOf E types gs t)
    (hs : ShortRuns t) : fromReader E types { data := t } = .ok (.node (.str b!"_") gs) := by
  have hd : delivered { data := t } = t := delivered_full _ ⟨rfl, by simp⟩
  rw [fromReader_parseText _ _ _ (by rw [hd]; exact Spec.ShortRuns.spaces hs), hd]
  exact parseText_of_textOf h

/-! ## Runs of blanks -/

theorem blank_append {a b : Bytes} : Blank (a ++ b) ↔ Blank a ∧ Blank b := by
  simp only [Blank, List.mem_append]
  exact ⟨fun h => ⟨fun c hc => h c (.inl hc), fun c hc => h c (.inr hc)⟩, fun h c hc => hc.elim (h.1 c) (h.2 c)⟩

theorem shortRuns_iff {t : Bytes} : ShortRuns t ↔ ShortSpaces t := by
  refine ⟨Spec.ShortRuns.spaces, fun h p u s he hu => ?_⟩
  have h1 : u ++ s <:+ t := ⟨p, by rw [he]; simp⟩
  have h2 := h _ h1
  have : u.length ≤ indent (u ++ s) := by
    clear h1 h2 he
    induction u with
    | nil => simp
    | cons c u ih =>
      have hc : isSpaceChar c = true := by have := hu c (by simp); simpa [isSpaceChar] using this
      have := ih fun x hx => hu x (by simp [hx])
      simp only [indent, List.cons_append, List.takeWhile_cons, hc, ↓reduceIte, List.length_cons] at this ⊢
      omega
  omega

theorem shortSpaces_nil : ShortSpaces [] := by
  rintro t ⟨p, h⟩
  simp only [List.append_eq_nil_iff] at h
  simp [h.2, indent]

theorem shortSpaces_cons {c : UInt8} {t : Bytes} (hc : isSpaceChar c = false) (h : ShortSpaces t) :
    ShortSpaces (c :: t) := by
  intro s hs
  rw [List.suffix_cons_iff] at hs
  rcases hs with rfl | hs
  · simp [indent, hc]
  · exact h s hs

theorem shortSpaces_app {w t : Bytes} (hw : ∀ c ∈ w, isSpaceChar c = false) (h : ShortSpaces t) :
    ShortSpaces (w ++ t) := by
  induction w with
  | nil => exact h
  | cons c w ih => exact shortSpaces_cons (hw c (by simp)) (ih fun x hx => hw x (by simp [hx]))

theorem indent_append_le {s t : Bytes} (ht : ∀ c, t.head? = some c → isSpaceChar c = false) :
    indent (s ++ t) ≤ s.length := by
  induction s with
  | nil =>
    cases t with
    | nil => simp [indent]
    | cons c t => simp [indent, ht c rfl]
  | cons c s ih =>
    by_cases hc : isSpaceChar c = true
    · simp only [indent, List.cons_append, List.takeWhile_cons, hc, ↓reduceIte, List.length_cons] at ih ⊢
      omega
    · simp [indent, hc]

theorem shortSpaces_blank {s t : Bytes} (hs : s.length ≤ 2047) (ht : ∀ c, t.head? = some c → isSpaceChar c = false)
    (h : ShortSpaces t) : ShortSpaces (s ++ t) := by
  rintro u hu
  induction s with
  | nil => exact h u hu
  | cons c s ih =>
    rw [List.cons_append, List.suffix_cons_iff] at hu
    rcases hu with rfl | hu
    · have := indent_append_le (s := c :: s) ht
      simp only [List.cons_append, List.length_cons] at this hs
      omega
    · exact ih (by simp at hs; omega) hu

/-! ## Layouts -/

theorem word_scal {E : Ext} {w : Bytes} {n : Nat} (h : Word w) (h92 : w ≠ [92]) : Scal E false n true (.str w) w :=
  Scal.word h (fun _ => h92) (fun h => by simp at h) rfl

theorem word_scal_mid {E : Ext} {w : Bytes} {n : Nat} (h : Word w) (h35 : w ≠ [35]) : Scal E false n false (.str w) w :=
  Scal.word h (fun h => by simp at h) (fun _ => h35) rfl

theorem word_not_space {w : Bytes} (h : Word w) : ∀ c ∈ w, isSpaceChar c = false := fun c hc => by
  have h1 := h.text c hc
  simp only [isSpaceChar, Bool.or_eq_false_iff, beq_eq_false_iff_ne]
  exact ⟨fun h2 => absurd h1 (by rw [h2]; decide), fun h2 => absurd h1 (by rw [h2]; decide)⟩

theorem word_ne {w : Bytes} (h : Word w) : w ≠ [] := by
  obtain ⟨c, t, rfl, _⟩ := h.head
  simp

theorem eol_not_space {s : Bytes} (h : Eol s) : ∀ c ∈ s, isSpaceChar c = false := by
  rcases h with rfl | rfl <;> simp [isSpaceChar]

mutual
theorem shortSpaces_render (st : Style) (k : Nat) (hv : st.Valid k) : ∀ (g : Graph) (d : Nat), d + depth g ≤ k →
    AllThis HoldsPlain g → ∀ t, ShortSpaces t → ShortSpaces (render st d g ++ t)
  | .nil, _, _, _, t, ht => by simpa [render] using ht
  | .node v o, d, hd, hok, t, ht => by
    simp only [depth, AllThis] at hd hok
    obtain ⟨⟨w, rfl, hw⟩, hsub⟩ := hok
    have h1 := shortSpaces_renderL st k hv o (d + 1) (by omega) hsub t ht
    simp only [render, wordOf, List.append_assoc]
    refine shortSpaces_blank (hv.short d (by omega)) ?_
      (shortSpaces_app (word_not_space hw.word) (shortSpaces_app (eol_not_space hv.eol) h1))
    obtain ⟨c, t', hct, _⟩ := hw.word.head
    intro x hx
    rw [hct] at hx
    simp only [List.cons_append, List.head?_cons, Option.some.injEq] at hx
    subst hx
    exact word_not_space hw.word c (by rw [hct]; simp)
theorem shortSpaces_renderL (st : Style) (k : Nat) (hv : st.Valid k) : ∀ (gs : List Graph) (d : Nat), d + depthL gs ≤ k →
    AllThisL HoldsPlain gs → ∀ t, ShortSpaces t → ShortSpaces (renderL st d gs ++ t)
  | [], _, _, _, t, ht => by simpa [renderL] using ht
  | g :: gs, d, hd, hok, t, ht => by
    simp only [depthL, AllThisL] at hd hok
    simp only [renderL, List.append_assoc]
    exact shortSpaces_render st k hv g d (by omega) hok.1 _ (shortSpaces_renderL st k hv gs d (by omega) hok.2 t ht)
end

theorem depth_le_depthL {g : Graph} : ∀ {gs : List Graph}, g ∈ gs → depth g ≤ depthL gs
  | [], h => by simp at h
  | x :: xs, h => by
    simp only [depthL]
    rcases List.mem_cons.mp h with rfl | h
    · omega
    · have := depth_le_depthL h; omega

/-- A node with the given subtrees, one per line; the subtrees may be none. -/
theorem writes_node {E : Ext} {st : Style} {k d : Nat} (hv : st.Valid k) (hd : d < k) {w : Bytes} (hw : Word w) (h92 : w ≠ [92])
    {cs gs : List Graph} {t1 t2 : Bytes} (hc : d + 1 < k ∨ cs = [] ∧ t1 = [])
    (h1 : Writes E false (st.ind (d + 1)).length cs t1 false) (h2 : Writes E false (st.ind d).length gs t2 false) :
    Writes E false (st.ind d).length (.node (.str w) cs :: gs) (st.ind d ++ w ++ st.eol ++ t1 ++ t2) false := by
  rcases hc with hc | ⟨rfl, rfl⟩
  · exact Writes.node (vs := []) (hv.blank d) rfl (.last (word_scal hw h92)) hv.eol (hv.grows d hc) h1 h2 (by simp)
  · exact Writes.node (vs := []) (o1 := false) (hv.blank d) rfl (.last (word_scal hw h92)) hv.eol (Nat.lt_succ_self _) .nil h2 (by simp)

mutual
theorem writes_render (E : Ext) (st : Style) (k : Nat) (hv : st.Valid k) : ∀ (g : Graph) (d : Nat), d + depth g ≤ k → NoNil g →
    AllThis HoldsPlain g → ∀ gs t, Writes E false (st.ind d).length gs t false →
    Writes E false (st.ind d).length (g :: gs) (render st d g ++ t) false
  | .node v o, d, hd, hn, hok, gs, t, ht => by
    simp only [depth, AllThis, NoNil] at hd hok hn
    obtain ⟨⟨w, rfl, hw⟩, hsub⟩ := hok
    simp only [render, wordOf]
    refine writes_node hv (by omega) hw.word hw.notBlock ?_ (writes_renderL E st k hv o (d + 1) (by omega) hn hsub) ht
    cases o with
    | nil => exact .inr ⟨rfl, rfl⟩
    | cons x xs =>
      left
      simp only [NoNilL] at hn
      cases x with
      | nil => exact hn.1.elim
      | node a b => simp only [depthL, depth] at hd; omega
theorem writes_renderL (E : Ext) (st : Style) (k : Nat) (hv : st.Valid k) : ∀ (gs : List Graph) (d : Nat), d + depthL gs ≤ k → NoNilL gs →
    AllThisL HoldsPlain gs → Writes E false (st.ind d).length gs (renderL st d gs) false
  | [], _, _, _, _ => .nil
  | g :: gs, d, hd, hn, hok => by
    simp only [depthL, AllThisL, NoNilL] at hd hok hn
    exact writes_render E st k hv g d (by omega) hn.1 hok.1 gs _ (writes_renderL E st k hv gs d (by omega) hn.2 hok.2)
end

theorem style_first {st : Style} {k : Nat} (hv : st.Valid k) {t : Bytes} (ht : t = [] ∨ ∃ r, t = st.ind 0 ++ r) :
    (∀ c ∈ t.take (st.ind 0).length, c = 32) ∨ (∀ c ∈ t.take (st.ind 0).length, c = 9) := by
  rcases ht with rfl | ⟨r, rfl⟩
  · simp
  · simpa using hv.first

theorem textOf_render (E : Ext) (st : Style) (gs : List Graph) (hv : st.Valid (depthL gs)) (hn : NoNilL gs)
    (hok : AllThisL HoldsPlain gs) : TextOf E false gs (renderL st 0 gs) := by
  refine ⟨_, _, writes_renderL E st _ hv gs 0 (by omega) hn hok, style_first hv ?_⟩
  cases gs with
  | nil => exact .inl rfl
  | cons g gs =>
    cases g with
    | nil => exact hn.1.elim
    | node v o => exact .inr ⟨_, by simp only [renderL, render, List.append_assoc]; rfl⟩

mutual
theorem writes_typed (E : Ext) (st : Style) (k : Nat) (hv : st.Valid k) : ∀ (g x : Graph) (d : Nat), d + depth g ≤ k →
    AllThis HoldsPlain g → Converted E g x → ∀ gs t, Writes E true (st.ind d).length gs t false →
    Writes E true (st.ind d).length (x :: gs) (render st d g ++ t) false
  | .node v o, .nil, d, hd, hok, hc, gs, t, ht => by cases v <;> simp [Converted] at hc
  | .nil, _, d, hd, hok, hc, gs, t, ht => by simp [Converted] at hc
  | .node v o, .node v' o', d, hd, hok, hc, gs, t, ht => by
    simp only [depth, AllThis] at hd hok
    obtain ⟨⟨w, rfl, hw⟩, hsub⟩ := hok
    simp only [Converted] at hc
    simp only [render, wordOf]
    have hs : Scal E true (st.ind d).length true v' w := Scal.word hw.word (fun _ => hw.notBlock) (by simp) (by simpa [WordValue] using hc.1)
    have ih := writes_typedL E st k hv o o' (d + 1) (by omega) hsub hc.2
    cases o with
    | nil =>
      cases o' with
      | cons => simp [ConvertedL] at hc
      | nil =>
        simpa [renderL, chain] using Writes.node (vs := []) (o1 := false) (hv.blank d) rfl (.last hs) hv.eol (Nat.lt_succ_self _) .nil ht (by simp)
    | cons y ys =>
      have h1 : d + 1 < k := by
        cases y with
        | nil => cases o' <;> simp [ConvertedL, Converted] at hc
        | node a b => simp only [depthL, depth] at hd; omega
      simpa [chain] using Writes.node (vs := []) (hv.blank d) rfl (.last hs) hv.eol (hv.grows d h1) ih ht (by simp)
theorem writes_typedL (E : Ext) (st : Style) (k : Nat) (hv : st.Valid k) : ∀ (gs xs : List Graph) (d : Nat), d + depthL gs ≤ k →
    AllThisL HoldsPlain gs → ConvertedL E gs xs → Writes E true (st.ind d).length xs (renderL st d gs) false
  | [], [], _, _, _, _ => .nil
  | [], _ :: _, _, _, _, hc => by simp [ConvertedL] at hc
  | _ :: _, [], _, _, _, hc => by simp [ConvertedL] at hc
  | g :: gs, x :: xs, d, hd, hok, hc => by
    simp only [depthL, AllThisL, ConvertedL] at hd hok hc
    exact writes_typed E st k hv g x d (by omega) hok.1 hc.1 xs _ (writes_typedL E st k hv gs xs d (by omega) hok.2 hc.2)
end

theorem textOf_typed (E : Ext) (st : Style) (gs xs : List Graph) (hv : st.Valid (depthL gs))
    (hok : AllThisL HoldsPlain gs) (hc : ConvertedL E gs xs) : TextOf E true xs (renderL st 0 gs) := by
  refine ⟨_, _, writes_typedL E st _ hv gs xs 0 (by omega) hok hc, style_first hv ?_⟩
  cases gs with
  | nil => exact .inl rfl
  | cons g gs =>
    cases g with
    | nil => cases xs <;> simp [ConvertedL, Converted] at hc
    | node v o => exact .inr ⟨_, by simp only [renderL, render, List.append_assoc]; rfl⟩

/-! ## Blocks and comments at the end of a line -/

theorem blockOf_text : ∀ ls : List (Bytes × Bytes),
    (∀ l ∈ ls, l.1 ≠ [] ∧ ((∀ c ∈ l.1, c = 32) ∨ (∀ c ∈ l.1, c = 9)) ∧ BlockLine l.2) → BlockOf (ls.map (·.2)) (blockText ls)
  | [], _ => .nil
  | l :: ls, h => by
    obtain ⟨h1, h2, h3⟩ := h l (by simp)
    have := BlockOf.line h1 h2 h3 (.inl rfl) (blockOf_text ls fun x hx => h x (by simp [hx]))
    simpa [blockText] using this

theorem prefixOf_words (E : Ext) (n : Nat) : ∀ us : List (Bytes × Bytes), (∀ u ∈ us, PlainWord u.1 ∧ u.2 ≠ [] ∧ Blank u.2) →
    PrefixOf E false n (us.map fun u => Val.str u.1) (inline us [])
  | [], _ => .nil
  | (u, sp) :: us, h => by
    have := h (u, sp) (by simp)
    exact .cons (word_scal_mid this.1.word this.1.notComment) this.2.1 this.2.2
      (prefixOf_words E n us fun x hx => h x (by simp [hx]))

theorem render_head {st : Style} {gs : List Graph} (h0 : st.ind 0 = []) (hn : NoNilL gs) (hp : AllThisL HoldsPlain gs) :
    ∀ c, (renderL st 0 gs).head? = some c → c ≠ 10 ∧ c ≠ 13 := by
  intro c hc
  cases gs with
  | nil => simp [renderL] at hc
  | cons g gs =>
    cases g with
    | nil => exact hn.1.elim
    | node v o =>
      simp only [AllThisL, AllThis] at hp
      obtain ⟨⟨⟨w, rfl, hw⟩, _⟩, _⟩ := hp
      obtain ⟨x, t, rfl, _⟩ := hw.word.head
      simp only [renderL, render, h0, wordOf, List.nil_append, List.cons_append, List.append_assoc, List.head?_cons, Option.some.injEq] at hc
      subst hc
      have := hw.word.text x (by simp)
      exact ⟨fun h => absurd this (by rw [h]; decide), fun h => absurd this (by rw [h]; decide)⟩

/-! ## A single value -/

theorem textLoop_top : ∀ (s : Bytes) (cp : UInt8), 13 ∉ s → textLoop [] true cp s = s
  | [], _, _ => rfl
  | c :: t, cp, h => by
    simp only [List.mem_cons, not_or] at h
    have h13 : (c == 13) = false := by
      rw [beq_eq_false_iff_ne]; exact fun h2 => h.1 h2.symm
    simp only [textLoop, h13, Bool.false_eq_true, ↓reduceIte, Bool.not_true, Bool.and_false, List.nil_append, textLoop_top t c h.2]
    split
    · simp_all
    · rfl

theorem textContent_top (s : Bytes) (hne : s ≠ []) (h : 13 ∉ s) : textContent false 0 s = s ++ [10] := by
  unfold textContent
  split
  · simp [textIndent, textLoop_top s 0 h]
  · simp [textIndent, hne]

theorem unescape_escape : ∀ v : Bytes, unescapeQuotes (escape 0 34 v) = v
  | [] => rfl
  | c :: t => by
    have ih := unescape_escape t
    by_cases h10 : c = 10
    · subst h10
      cases ht : escape 0 34 t with
      | nil => rw [ht] at ih; simp [escape, ht, unescapeQuotes] at ih ⊢; exact ih
      | cons x y =>
        rw [ht] at ih
        simp [escape, ht, unescapeQuotes, ih]
    · by_cases h34 : c = 34
      · subst h34
        simp [escape, unescapeQuotes, ih]
      · cases ht : escape 0 34 t with
        | nil => rw [ht] at ih; simp [escape, h10, h34, ht, unescapeQuotes] at ih ⊢; exact ih
        | cons x y =>
          rw [ht] at ih
          have hx : x ≠ 34 := by
            rintro rfl
            cases t with
            | nil => simp [escape] at ht
            | cons d t =>
              simp only [escape] at ht
              split at ht
              · simp at ht
              · split at ht
                · simp at ht
                · simp_all
          simp [escape, h10, h34, ht, unescapeQuotes, hx, ih]

theorem writes_fill (E : Ext) (st : Style) (k : Nat) (hv : st.Valid k) (d : Nat) (gs : List Graph) (t : Bytes)
    (h : Writes E false (st.ind d).length gs t false) : ∀ fill : List Filler, (∀ f ∈ fill, f.Ok) →
    Writes E false (st.ind d).length gs (fill.flatMap (fun f => st.ind d ++ f.line) ++ t) false
  | [], _ => by simpa using h
  | .blank :: fs, hf => by
    have := Writes.blank (hv.blank d) rfl (.inl rfl) (writes_fill E st k hv d gs t h fs fun f hm => hf f (by simp [hm]))
    simpa [Filler.line] using this
  | .comment c :: fs, hf => by
    have := Writes.comment (hv.blank d) rfl (.inl rfl) (hf (.comment c) (by simp))
      (writes_fill E st k hv d gs t h fs fun f hm => hf f (by simp [hm]))
    simpa [Filler.line] using this

mutual
theorem writes_doc (E : Ext) (st : Style) (k : Nat) (hv : st.Valid k) : ∀ (g : Doc) (d : Nat), d + depth g.tree ≤ k →
    g.Ok → ∀ gs t, Writes E false (st.ind d).length gs t false →
    Writes E false (st.ind d).length (g.tree :: gs) (g.text st d ++ t) false
  | .node fill w subs, d, hd, hok, gs, t, ht => by
    simp only [Doc.tree, depth, Doc.Ok] at hd hok
    obtain ⟨hf, hw, hsub⟩ := hok
    simp only [Doc.text, Doc.tree]
    rw [List.append_assoc, List.append_assoc]
    refine writes_fill E st k hv d _ _ ?_ fill hf
    rw [← List.append_assoc]
    refine writes_node hv (by omega) hw.word hw.notBlock ?_ (writes_docL E st k hv subs (d + 1) (by omega) hsub) ht
    cases subs with
    | nil => exact .inr ⟨rfl, rfl⟩
    | cons x xs =>
      left
      cases x
      simp only [Doc.treeL, Doc.tree, depthL, depth] at hd; omega
theorem writes_docL (E : Ext) (st : Style) (k : Nat) (hv : st.Valid k) : ∀ (gs : List Doc) (d : Nat), d + depthL (Doc.treeL gs) ≤ k →
    Doc.OkL gs → Writes E false (st.ind d).length (Doc.treeL gs) (Doc.textL st d gs) false
  | [], _, _, _ => .nil
  | g :: gs, d, hd, hok => by
    simp only [Doc.treeL, depthL, Doc.OkL] at hd hok
    exact writes_doc E st k hv g d (by omega) hok.1 _ _ (writes_docL E st k hv gs d (by omega) hok.2)
end

theorem textOf_doc (E : Ext) (st : Style) (gs : List Doc) (hv : st.Valid (depthL (Doc.treeL gs))) (hok : Doc.OkL gs) :
    TextOf E false (Doc.treeL gs) (Doc.textL st 0 gs) := by
  refine ⟨_, _, writes_docL E st _ hv gs 0 (by omega) hok, style_first hv ?_⟩
  cases gs with
  | nil => exact .inl rfl
  | cons g gs =>
    right
    obtain ⟨fill, w, subs⟩ := g
    cases fill with
    | nil => exact ⟨_, by simp only [Doc.textL, Doc.text, List.append_assoc, List.flatMap_nil, List.nil_append]; rfl⟩
    | cons f fs => exact ⟨_, by simp only [Doc.textL, Doc.text, List.append_assoc, List.flatMap_cons]; rfl⟩

/-! ## Lines with notes -/

theorem piece_scal (E : Ext) {n : Nat} {w : Piece} (h : w.Ok n) (last : Bool) : Scal E false n last w.val (w.text n) := by
  cases w with
  | word w => exact .word h.word (fun _ => h.notBlock) (fun _ => h.notComment) (by simp [WordValue, Piece.val, Piece.text])
  | quoted q v => exact .quoted h.1 h.2

theorem prefixOf_pieces (E : Ext) (n : Nat) : ∀ us : List (Piece × Bytes), (∀ u ∈ us, u.1.Ok n ∧ u.2 ≠ [] ∧ Blank u.2) →
    PrefixOf E false n (us.map (·.1.val)) (piecesText n us)
  | [], _ => .nil
  | (u, sp) :: us, h => by
    have := h (u, sp) (by simp)
    exact .cons (piece_scal E this.1 _) this.2.1 this.2.2 (prefixOf_pieces E n us fun x hx => h x (by simp [hx]))

theorem lineOf_pieces (E : Ext) (n : Nat) : ∀ (us : List (Piece × Bytes)) (w : Piece), (∀ u ∈ us, u.1.Ok n ∧ u.2 ≠ [] ∧ Blank u.2) →
    w.Ok n → LineOf E false n (us.map (·.1.val) ++ [w.val]) (piecesText n us ++ w.text n)
  | [], w, _, hw => .last (piece_scal E hw _)
  | (u, sp) :: us, w, h, hw => by
    have := h (u, sp) (by simp)
    have := LineOf.more (piece_scal E this.1 _) this.2.1 this.2.2 (lineOf_pieces E n us w (fun x hx => h x (by simp [hx])) hw)
    simpa [piecesText] using this

mutual
theorem writes_lined (E : Ext) (ind : Nat → Bytes) (k : Nat) (hv : Style.Valid ⟨ind, [10]⟩ k) : ∀ (g : Lined) (d : Nat), d + g.depth ≤ k →
    g.Ok ind d → ∀ gs t, Writes E false (ind d).length gs t false →
    Writes E false (ind d).length (g.tree :: gs) (g.text ind d ++ t) false
  | .line us w note subs, d, hd, hok, gs, t, ht => by
    simp only [Lined.depth, Lined.Ok] at hd hok
    obtain ⟨hu, hw, hnote, hsub⟩ := hok
    have h1 := writes_linedL E ind k hv subs (d + 1) (by omega) hsub
    have hm : ∃ m, (ind d).length < m ∧ Writes E false m (Lined.treeL subs) (Lined.textL ind (d + 1) subs) false := by
      cases subs with
      | nil => exact ⟨_, Nat.lt_succ_self _, .nil⟩
      | cons x xs =>
        refine ⟨_, hv.grows d ?_, h1⟩
        cases x
        simp only [Lined.depthL, Lined.depth] at hd; omega
    obtain ⟨m, hm, h1⟩ := hm
    have hvs : ∃ v vs, us.map (·.1.val) ++ [w.val] = v :: vs := by cases us <;> simp
    obtain ⟨v, vs, hvs⟩ := hvs
    simp only [Lined.tree, hvs, Lined.text]
    cases note with
    | none =>
      have hl := lineOf_pieces E (ind d).length us w hu hw
      rw [hvs] at hl
      have := Writes.node (hv.blank d) rfl hl (.inl rfl) hm h1 ht (by simp)
      simpa using this
    | some x =>
      obtain ⟨sp, c⟩ := x
      obtain ⟨h2, h3, h4⟩ := hnote sp c rfl
      have hl := prefixOf_pieces E (ind d).length (us ++ [(w, sp)]) (by
        intro u hm
        simp only [List.mem_append, List.mem_singleton] at hm
        rcases hm with hm | rfl
        · exact hu u hm
        · exact ⟨hw, h2, h3⟩)
      rw [List.map_append, List.map_cons, List.map_nil, hvs] at hl
      have := Writes.noted (b := 32) (hv.blank d) rfl hl (.inl rfl) h4 hm h1 ht (by simp)
      simpa [piecesText] using this
theorem writes_linedL (E : Ext) (ind : Nat → Bytes) (k : Nat) (hv : Style.Valid ⟨ind, [10]⟩ k) : ∀ (gs : List Lined) (d : Nat), d + Lined.depthL gs ≤ k →
    Lined.OkL ind d gs → Writes E false (ind d).length (Lined.treeL gs) (Lined.textL ind d gs) false
  | [], _, _, _ => .nil
  | g :: gs, d, hd, hok => by
    simp only [Lined.depthL, Lined.OkL] at hd hok
    exact writes_lined E ind k hv g d (by omega) hok.1 _ _ (writes_linedL E ind k hv gs d (by omega) hok.2)
end

theorem textOf_lined (E : Ext) (ind : Nat → Bytes) (gs : List Lined) (hv : Style.Valid ⟨ind, [10]⟩ (Lined.depthL gs)) (hok : Lined.OkL ind 0 gs) :
    TextOf E false (Lined.treeL gs) (Lined.textL ind 0 gs) := by
  refine ⟨_, _, writes_linedL E ind _ hv gs 0 (by omega) hok, style_first hv ?_⟩
  cases gs with
  | nil => exact .inl rfl
  | cons g gs =>
    right
    obtain ⟨us, w, note, subs⟩ := g
    exact ⟨_, by simp only [Lined.textL, Lined.text, List.append_assoc]; rfl⟩

mutual
theorem bare_tree : ∀ g : Lined, g.bare.tree = g.tree
  | .line us w note subs => by simp only [Lined.bare, Lined.tree, bare_treeL subs]
theorem bare_treeL : ∀ gs : List Lined, Lined.treeL (Lined.bareL gs) = Lined.treeL gs
  | [] => rfl
  | g :: gs => by simp only [Lined.bareL, Lined.treeL, bare_tree g, bare_treeL gs]
end

mutual
theorem bare_depth : ∀ g : Lined, g.bare.depth = g.depth
  | .line us w note subs => by simp only [Lined.bare, Lined.depth, bare_depthL subs]
theorem bare_depthL : ∀ gs : List Lined, Lined.depthL (Lined.bareL gs) = Lined.depthL gs
  | [] => rfl
  | g :: gs => by simp only [Lined.bareL, Lined.depthL, bare_depth g, bare_depthL gs]
end

mutual
theorem bare_ok (ind : Nat → Bytes) : ∀ (g : Lined) (d : Nat), g.Ok ind d → g.bare.Ok ind d
  | .line us w note subs, d, h => by
    simp only [Lined.bare, Lined.Ok] at *
    exact ⟨h.1, h.2.1, by simp, bare_okL ind subs _ h.2.2.2⟩
theorem bare_okL (ind : Nat → Bytes) : ∀ (gs : List Lined) (d : Nat), Lined.OkL ind d gs → Lined.OkL ind d (Lined.bareL gs)
  | [], _, _ => trivial
  | g :: gs, d, h => ⟨bare_ok ind g d h.1, bare_okL ind gs d h.2⟩
end

/-! ## Lines of words -/

theorem lineOf_inline (E : Ext) (n : Nat) : ∀ (us : List (Bytes × Bytes)) (w : Bytes),
    (∀ u ∈ us, PlainWord u.1 ∧ u.2 ≠ [] ∧ Blank u.2) → PlainWord w →
    LineOf E false n ((us.map (·.1) ++ [w]).map Val.str) (inline us w)
  | [], w, _, hw => .last (word_scal hw.word hw.notBlock)
  | (u, sp) :: us, w, h, hw => by
    have := h (u, sp) (by simp)
    exact .more (word_scal_mid this.1.word this.1.notComment) this.2.1 this.2.2
      (lineOf_inline E n us w (fun x hx => h x (by simp [hx])) hw)

theorem writes_staircase (E : Ext) : ∀ (ws : List Bytes) (d : Nat), (∀ w ∈ ws, PlainWord w) →
    Writes E false d (chain (ws.map Val.str)) (staircase d ws) false
  | [], _, _ => .nil
  | w :: ws, d, h => by
    have hw := h w (by simp)
    have := Writes.node (n := d) (m := d + 1) (s := List.replicate d 32) (eol := [10]) (vs := []) (gs := []) (t2 := []) (o2 := false)
      (fun c hc => .inl (List.eq_of_mem_replicate hc)) (by simp) (.last (word_scal (E := E) hw.word hw.notBlock)) (.inl rfl)
      (by omega) (writes_staircase E ws (d + 1) fun x hx => h x (by simp [hx])) .nil (by simp)
    simpa [staircase, chain] using this

/-! ## `Text` -/

theorem hasSpecial_iff (s : Bytes) : hasSpecial s = true ↔ ∃ c ∈ s, c ∈ special := by
  simp only [hasSpecial, List.any_eq_true]
  refine exists_congr fun c => and_congr Iff.rfl ?_
  simp only [special, List.mem_cons, List.not_mem_nil, or_false, Bool.or_eq_true, beq_iff_eq, or_assoc]

theorem textLoop_plain (sp : Bytes) : ∀ (s : Bytes) (cp : UInt8), (∀ c ∈ s, 32 < c) → textLoop sp true cp s = s
  | [], _, _ => rfl
  | c :: t, cp, h => by
    have hc := h c (by simp)
    have h13 : (c == 13) = false := by
      rw [beq_eq_false_iff_ne]; exact fun h2 => absurd hc (by rw [h2]; decide)
    have h10 : (c == 10) = false := by
      rw [beq_eq_false_iff_ne]; exact fun h2 => absurd hc (by rw [h2]; decide)
    simp [textLoop, h13, h10, textLoop_plain sp t c fun x hx => h x (by simp [hx])]

theorem textLoop_quoted (n : Nat) : ∀ (s : Bytes) (cp : UInt8), 13 ∉ s → LoneSlashes s → (cp = 92 → s.head? ≠ some 34) →
    textLoop (List.replicate n 32) false cp s = escape n 34 s
  | [], _, _, _, _ => rfl
  | c :: t, cp, h13, hl, hcp => by
    simp only [List.mem_cons, not_or] at h13
    have hc : (c == 13) = false := by rw [beq_eq_false_iff_ne]; exact fun h => h13.1 h.symm
    have ih := textLoop_quoted n t c h13.2 (by
      cases t with
      | nil => trivial
      | cons d t => exact hl.2) (by
      intro hc
      cases t with
      | nil => simp
      | cons d t => simpa using (hl.1 hc).2.1)
    simp only [textLoop, hc, Bool.false_eq_true, ↓reduceIte, beq_iff_eq, Bool.not_false, Bool.and_true, escape, ih]
    by_cases h10 : c = 10
    · simp [h10]
    · simp only [h10, ↓reduceIte]
      by_cases h34 : c = 34
      · subst h34
        have : cp ≠ 92 := fun h => hcp h rfl
        simp [this]
      · simp [h34]

/-- The line written for a writable content. -/
theorem text_line {E : Ext} {d : Nat} {s : Bytes} (h : Writable d s) :
    s ≠ [] ∧ ∃ r, textContent false d s = textIndent d ++ r ++ [10] ∧ Scal E false (2 * d) true (.str s) r ∧
      (d = 0 → r = s) := by
  simp only [Writable] at h
  by_cases hd : d = 0
  · subst hd
    simp only [↓reduceIte] at h
    refine ⟨word_ne h.1, s, ?_, word_scal h.1 h.2, fun _ => rfl⟩
    simp only [textContent, textIndent, List.isEmpty_eq_false_iff.mpr (word_ne h.1)]
    split
    · simp [textLoop_plain _ s 0 h.1.text]
    · simp
  · simp only [hd, ↓reduceIte] at h
    rcases h with ⟨hw, h92, hsp⟩ | ⟨hsp, hq, h13⟩
    · refine ⟨word_ne hw, s, ?_, word_scal hw h92, fun h => (hd h).elim⟩
      have : hasSpecial s = false := by
        rw [Bool.eq_false_iff]; intro h
        obtain ⟨c, h1, h2⟩ := (hasSpecial_iff s).mp h
        exact hsp c h1 h2
      simp [textContent, this, List.isEmpty_eq_false_iff.mpr (word_ne hw)]
    · refine ⟨?_, 34 :: escape (2 * d) 34 s ++ [34], ?_, Scal.quoted (.inl rfl) hq, fun h => (hd h).elim⟩
      · rintro rfl; simp at hsp
      · have hd' : (d == 0) = false := by simpa using hd
        simp only [textContent, (hasSpecial_iff s).mpr hsp, ↓reduceIte, show d > 0 by omega, textIndent, hd',
          textLoop_quoted (2 * d) s 0 h13 hq.slashes (fun h => absurd h (by decide))]
        simp

mutual
theorem textAt_shown (E : Ext) : ∀ (g : Graph) (n : Nat), g.textAt E false n = Graph.textAtL E false n (shown E g)
  | .nil, n => by simp [Graph.textAt, shown, Graph.textAtL, vstr]
  | .node t o, n => by
    have ih := fun n => textAtL_shown E o n
    simp only [Graph.textAt, shown]
    by_cases ht : vstr E t = []
    · simp [ht, ih, textContent, hasSpecial]
    · have : (vstr E t).isEmpty = false := by simpa using ht
      simp [ht, Graph.textAtL, Graph.textAt, vstr, ih]
theorem textAtL_shown (E : Ext) : ∀ (gs : List Graph) (n : Nat),
    Graph.textAtL E false n gs = Graph.textAtL E false n (shownL E gs)
  | [], _ => rfl
  | g :: gs, n => by
    have happ : ∀ a b, Graph.textAtL E false n (a ++ b) = Graph.textAtL E false n a ++ Graph.textAtL E false n b := by
      intro a b
      induction a with
      | nil => simp [Graph.textAtL]
      | cons x a ih => simp [Graph.textAtL, ih]
    simp only [Graph.textAtL, shownL, happ, textAt_shown E g n, textAtL_shown E gs n]
end

theorem blank_textIndent (d : Nat) : Blank (textIndent d) := fun c hc => .inl (List.eq_of_mem_replicate hc)

theorem textIndent_length (d : Nat) : (textIndent d).length = 2 * d := by simp [textIndent]

mutual
theorem writes_textAt (E : Ext) : ∀ (g : Graph) (d : Nat), WritableAt d g →
    (∀ gs t o, Writes E false (2 * d) gs t o → Writes E false (2 * d) (g :: gs) (g.textAt E false d ++ t) o) ∧
    ∃ t0, g.textAt E false d = t0 ++ [10] ∧ Writes E false (2 * d) [g] t0 true
  | .node v cs, d, h => by
    simp only [WritableAt] at h
    obtain ⟨⟨s, rfl, hs⟩, hcs⟩ := h
    obtain ⟨hne, r, hr, hsc, -⟩ := text_line (E := E) hs
    have hne' : s.isEmpty = false := by simpa using hne
    obtain ⟨ih1, ih2⟩ := writes_textAtL E cs (d + 1) hcs
    have htext : (Graph.node (.str s) cs).textAt E false d =
        textIndent d ++ r ++ [10] ++ Graph.textAtL E false (d + 1) cs := by
      simp [Graph.textAt, vstr, hr, hne']
    refine ⟨fun gs t o ht => ?_, ?_⟩
    · rw [htext]
      have := Writes.node (vs := []) (blank_textIndent d) (textIndent_length d) (.last hsc) (.inl rfl)
        (show 2 * d < 2 * (d + 1) by omega) ih1 ht (by simp)
      simpa [chain] using this
    · rw [htext]
      rcases ih2 with rfl | ⟨t0, h1, h2⟩
      · exact ⟨textIndent d ++ r, by simp [Graph.textAtL],
          Writes.open (vs := []) (blank_textIndent d) (textIndent_length d) (.last hsc)⟩
      · refine ⟨textIndent d ++ r ++ [10] ++ t0, by simp [h1], ?_⟩
        have := Writes.node (vs := []) (t2 := []) (o2 := false) (blank_textIndent d) (textIndent_length d) (.last hsc) (.inl rfl)
          (show 2 * d < 2 * (d + 1) by omega) h2 .nil (by simp)
        simpa [chain] using this
theorem writes_textAtL (E : Ext) : ∀ (gs : List Graph) (d : Nat), WritableAtL d gs →
    Writes E false (2 * d) gs (Graph.textAtL E false d gs) false ∧
    (gs = [] ∨ ∃ t0, Graph.textAtL E false d gs = t0 ++ [10] ∧ Writes E false (2 * d) gs t0 true)
  | [], _, _ => ⟨.nil, .inl rfl⟩
  | g :: gs, d, h => by
    simp only [WritableAtL] at h
    obtain ⟨h1, t0, h2, h3⟩ := writes_textAt E g d h.1
    obtain ⟨h4, h5⟩ := writes_textAtL E gs d h.2
    refine ⟨h1 _ _ _ h4, .inr ?_⟩
    rcases h5 with rfl | ⟨t1, h6, h7⟩
    · exact ⟨t0, by simp [Graph.textAtL, h2], h3⟩
    · exact ⟨g.textAt E false d ++ t1, by simp [Graph.textAtL, h6], h1 _ _ _ h7⟩
end

theorem textOf_text_end (E : Ext) (g : Graph) (hw : WritableAtL 0 (shownL E g.out)) :
    ∃ t, g.text E = .ok t ∧ TextOf E false (shownL E g.out) t ∧
      (shownL E g.out = [] ∧ t = [] ∨ Graph.textAtL E false 0 (shownL E g.out) = t ++ [10]) := by
  cases g with
  | nil => exact ⟨[], rfl, ⟨0, false, .nil, by simp⟩, .inl ⟨rfl, rfl⟩⟩
  | node v o =>
    simp only [Graph.out_node] at hw ⊢
    simp only [Graph.text]
    rw [textAtL_shown E o 0]
    revert hw
    generalize shownL E o = gs
    intro hw
    rcases (writes_textAtL E gs 0 hw).2 with rfl | ⟨t0, h1, h2⟩
    · exact ⟨[], by simp [Graph.textAtL, finishText], ⟨0, false, .nil, by simp⟩, .inl ⟨rfl, rfl⟩⟩
    · refine ⟨t0, ?_, ⟨0, true, h2, by simp⟩, .inr h1⟩
      rw [h1]
      have hhead : ∃ c t', t0 = c :: t' ∧ c ≠ 34 := by
        cases gs with
        | nil =>
          simp [Graph.textAtL] at h1
        | cons x xs =>
          simp only [WritableAtL] at hw
          cases x with
          | nil => exact hw.1.elim
          | node v o =>
            obtain ⟨⟨s, rfl, hs⟩, -⟩ := hw.1
            obtain ⟨hne, r, hr, -, h0⟩ := text_line (E := E) hs
            obtain rfl := h0 rfl
            simp only [Writable, ↓reduceIte] at hs
            obtain ⟨c, t', rfl, hc, _⟩ := hs.1.head
            have h3 : ∃ u, t0 ++ [10] = c :: (t' ++ [10]) ++ u := by
              rw [← h1]
              simp only [Graph.textAtL, Graph.textAt, vstr, hr, textIndent]
              exact ⟨_, by simp only [List.append_assoc, Nat.mul_zero, List.replicate_zero, List.nil_append, List.cons_append]; rfl⟩
            obtain ⟨u, h3⟩ := h3
            cases t0 with
            | nil =>
              simp at h3
            | cons a t0 =>
              simp only [List.cons_append, List.cons.injEq] at h3
              exact ⟨a, t0, rfl, by rw [h3.1]; exact hc⟩
      obtain ⟨c, t', rfl, hc⟩ := hhead
      have hf : ∀ s : Bytes, s ≠ [] → finishText (s ++ [10]) = match s with
          | [] => .panic
          | c :: t => if c == 34 then if t.isEmpty then .panic else .ok (unescapeQuotes t.dropLast) else .ok (c :: t) := by
        intro s hs
        cases s with
        | nil => exact (hs rfl).elim
        | cons a s => simp only [finishText, List.getLast?_concat, List.dropLast_concat]; simp
      rw [hf _ (by simp)]
      simp [hc]

theorem textOf_text (E : Ext) (g : Graph) (hw : WritableAtL 0 (shownL E g.out)) :
    ∃ t, g.text E = .ok t ∧ TextOf E false (shownL E g.out) t := by
  obtain ⟨t, h1, h2, _⟩ := textOf_text_end E g hw
  exact ⟨t, h1, h2⟩

/-- The last byte of a value is not a blank or a line end. -/
theorem scal_last {E : Ext} {n : Nat} {v : Val} {r : Bytes} (h : Scal E false n true v r) : ∃ t c, r = t ++ [c] ∧ 32 < c := by
  cases h with
  | word hw =>
    obtain ⟨t, c, rfl⟩ := List.eq_nil_or_concat _ |>.resolve_left (word_ne hw)
    exact ⟨t, c, by simp, hw.text c (by simp)⟩
  | quoted hq _ => exact ⟨_, _, rfl, by rcases hq with rfl | rfl <;> decide⟩

mutual
theorem textAt_last (E : Ext) : ∀ (g : Graph) (d : Nat), WritableAt d g → ∃ t c, g.textAt E false d = t ++ [c, 10] ∧ 32 < c
  | .node v cs, d, h => by
    simp only [WritableAt] at h
    obtain ⟨⟨s, rfl, hs⟩, hcs⟩ := h
    obtain ⟨hne, r, hr, hsc, -⟩ := text_line (E := E) hs
    have hne' : s.isEmpty = false := by simpa using hne
    have htext : (Graph.node (.str s) cs).textAt E false d =
        textIndent d ++ r ++ [10] ++ Graph.textAtL E false (d + 1) cs := by
      simp [Graph.textAt, vstr, hr, hne']
    rw [htext]
    rcases textAtL_last E cs (d + 1) hcs with rfl | ⟨t, c, h1, h2⟩
    · obtain ⟨t, c, rfl, h2⟩ := scal_last hsc
      exact ⟨textIndent d ++ t, c, by simp [Graph.textAtL], h2⟩
    · exact ⟨textIndent d ++ r ++ [10] ++ t, c, by simp [h1], h2⟩
theorem textAtL_last (E : Ext) : ∀ (gs : List Graph) (d : Nat), WritableAtL d gs →
    gs = [] ∨ ∃ t c, Graph.textAtL E false d gs = t ++ [c, 10] ∧ 32 < c
  | [], _, _ => .inl rfl
  | g :: gs, d, h => by
    simp only [WritableAtL] at h
    right
    obtain ⟨t, c, h1, h2⟩ := textAt_last E g d h.1
    rcases textAtL_last E gs d h.2 with rfl | ⟨t', c', h3, h4⟩
    · exact ⟨t, c, by simp [Graph.textAtL, h1], h2⟩
    · exact ⟨g.textAt E false d ++ t', c', by simp [Graph.textAtL, h3], h4⟩
end

mutual
theorem shown_writable (E : Ext) : ∀ (g : Graph) (d : Nat), NoNil g → WritableAt d g → shown E g = [g]
  | .node t o, d, h, hw => by
    simp only [WritableAt] at hw
    obtain ⟨⟨s, rfl, hs⟩, hw⟩ := hw
    have := (text_line (E := E) hs).1
    simp [shown, vstr, this, shownL_writable E o _ h hw]
theorem shownL_writable (E : Ext) : ∀ (gs : List Graph) (d : Nat), NoNilL gs → WritableAtL d gs → shownL E gs = gs
  | [], _, _, _ => rfl
  | g :: gs, d, h, hw => by
    simp [shownL, shown_writable E g d h.1 hw.1, shownL_writable E gs d h.2 hw.2]
end

/-! ## Panics of `Text` and `Show` -/

theorem finishText_panic {s : Bytes} (h : finishText s = .panic) : s = [34] ∨ s = [10] ∨ s = [34, 10] := by
  simp only [finishText] at h
  split at h
  · simp at h
  · split at h
    · rename_i hm
      split at hm
      · rename_i hl
        have hl : s.getLast? = some 10 := by simpa using hl
        cases s with
        | nil => simp at hl
        | cons a s =>
          cases s with
          | nil => simp at hl; simp [hl]
          | cons b s => simp at hm
      · simp_all
    · rename_i c t hm
      split at h
      · rename_i hc
        split at h
        · rename_i ht
          have hc : c = 34 := by simpa using hc
          have ht : t = [] := by simpa using ht
          subst hc ht
          split at hm
          · rename_i hl
            have hl : s.getLast? = some 10 := by simpa using hl
            obtain ⟨ys, rfl⟩ := List.getLast?_eq_some_iff.mp hl
            rw [List.dropLast_concat] at hm
            right; right
            rw [hm]; rfl
          · left; exact hm
        · simp at h
      · simp at h

theorem textLoop_lvl0 : ∀ (s : Bytes) (cp : UInt8), textLoop [] true cp s = s.filter (· ≠ 13)
  | [], _ => rfl
  | c :: t, cp => by
    simp only [textLoop, beq_iff_eq, Bool.not_true, Bool.and_false, textLoop_lvl0 t]
    by_cases h : c = 13
    · simp [h]
    · simp only [h, ↓reduceIte]
      by_cases h10 : c = 10 <;> simp [h, h10]

/-- The text written for a non-empty content at level 0. -/
theorem textContent_lvl0 (show_ : Bool) {s : Bytes} (hs : s ≠ []) : textContent show_ 0 s = s.filter (· ≠ 13) ++ [10] := by
  have hs' : s.isEmpty = false := by simpa using hs
  simp only [textContent]
  split
  · have : textIndent 0 = [] := rfl
    simp [this, textLoop_lvl0]
  · rename_i h
    have : s.filter (· ≠ 13) = s := by
      rw [List.filter_eq_self]
      intro c hc
      simp only [ne_eq, decide_eq_true_eq]
      rintro rfl
      exact h ((hasSpecial_iff s).mpr ⟨13, hc, by decide⟩)
    rw [this, hs']
    simp [textIndent]

theorem textContent_ne {show_ : Bool} {n : Nat} {s : Bytes} (hs : s ≠ [] ∨ show_ = true) :
    textContent show_ n s ≠ [] ∧ (textContent show_ n s).getLast? = some 10 := by
  simp only [textContent]
  split
  · simp
  · split
    · rename_i h; rcases hs with hs | hs <;> simp_all
    · simp

/-- Trees whose nodes hold non-empty strings. -/
def NonEmptyStr (v : Val) : Prop := ∃ s, v = .str s ∧ s ≠ []

mutual
theorem shown_ok (E : Ext) : ∀ g : Graph, NoNilL (shown E g) ∧ AllThisL NonEmptyStr (shown E g)
  | .nil => by simp [shown, NoNilL, NoNil, AllThisL, AllThis, NonEmptyStr]
  | .node t o => by
    simp only [shown]
    split
    · exact shownL_ok E o
    · rename_i h
      have := shownL_ok E o
      exact ⟨⟨this.1, trivial⟩, ⟨⟨⟨_, rfl, h⟩, this.2⟩, trivial⟩⟩
theorem shownL_ok (E : Ext) : ∀ gs : List Graph, NoNilL (shownL E gs) ∧ AllThisL NonEmptyStr (shownL E gs)
  | [] => ⟨trivial, trivial⟩
  | g :: gs => by
    have h1 := shown_ok E g
    have h2 := shownL_ok E gs
    refine ⟨noNilL_append _ _ h1.1 h2.1, ?_⟩
    simp only [shownL]
    generalize shown E g = a at h1
    obtain ⟨-, h1⟩ := h1
    induction a with
    | nil => exact h2.2
    | cons x a ih => exact ⟨h1.1, ih h1.2⟩
end

/-- `A ++ B` is one line, `A` ends a line: `B` is empty. -/
theorem one_line {A B : Bytes} (h : A ++ B = [10] ∨ A ++ B = [34, 10]) (hA : A.getLast? = some 10) : B = [] := by
  obtain ⟨ys, rfl⟩ := List.getLast?_eq_some_iff.mp hA
  match ys, B, h with
  | [], [], _ => rfl
  | [], b :: t, h => simp at h
  | [a], [], _ => rfl
  | [a], b :: t, h => simp at h
  | a :: b :: ys, B, h => simp at h

theorem textAtL_one_line (E : Ext) (gs : List Graph) (hn : NoNilL gs) (ha : AllThisL NonEmptyStr gs)
    (h : Graph.textAtL E false 0 gs = [10] ∨ Graph.textAtL E false 0 gs = [34, 10]) :
    ∃ s, gs = [.node (.str s) []] ∧ (s.filter (· ≠ 13) = [] ∨ s.filter (· ≠ 13) = [34]) := by
  have hempty : ∀ (gs : List Graph) (n : Nat), NoNilL gs → AllThisL NonEmptyStr gs → Graph.textAtL E false n gs = [] → gs = [] := by
    intro gs n hn ha h
    cases gs with
    | nil => rfl
    | cons g gs =>
      cases g with
      | nil => exact hn.1.elim
      | node v o =>
        obtain ⟨⟨⟨s, rfl, hs⟩, _⟩, _⟩ := ha
        simp only [Graph.textAtL, Graph.textAt, vstr, List.append_eq_nil_iff] at h
        exact ((textContent_ne (.inl hs)).1 h.1.1).elim
  cases gs with
  | nil => simp [Graph.textAtL] at h
  | cons g gs =>
    cases g with
    | nil => exact hn.1.elim
    | node v o =>
      obtain ⟨⟨⟨s, rfl, hs⟩, ha1⟩, ha2⟩ := ha
      simp only [NoNilL, NoNil] at hn
      simp only [Graph.textAtL, Graph.textAt, vstr, List.append_assoc] at h
      have hr := one_line h (textContent_ne (.inl hs)).2
      simp only [List.append_eq_nil_iff] at hr
      have h1 := hempty _ _ hn.1 ha1 hr.1
      have h2 := hempty _ _ hn.2 ha2 hr.2
      subst h1 h2
      refine ⟨s, rfl, ?_⟩
      simp only [hr, List.append_nil, textContent_lvl0 false hs] at h
      refine h.imp (fun h => ?_) (fun h => ?_)
      · exact List.append_cancel_right (h.trans (List.nil_append [10]).symm)
      · exact List.append_cancel_right (h.trans (show [34, 10] = [34] ++ [10] from rfl))

theorem textAtL_ends (E : Ext) (show_ : Bool) (n : Nat) : ∀ gs : List Graph, Graph.textAtL E show_ n gs ≠ [34] := by
  have h1 : ∀ (show_ : Bool) (n : Nat) (s : Bytes), textContent show_ n s = [] ∨ (textContent show_ n s).getLast? = some 10 := by
    intro show_ n s
    by_cases h : s ≠ [] ∨ show_ = true
    · exact .inr (textContent_ne h).2
    · left
      simp only [not_or, ne_eq, Decidable.not_not] at h
      obtain ⟨rfl, h⟩ := h
      have : show_ = false := by simpa using h
      subst this
      simp [textContent, hasSpecial]
  have happ : ∀ A B : Bytes, (A = [] ∨ A.getLast? = some 10) → (B = [] ∨ B.getLast? = some 10) →
      (A ++ B = [] ∨ (A ++ B).getLast? = some 10) := by
    intro A B hA hB
    rcases hB with rfl | hB
    · simpa using hA
    · obtain ⟨ys, rfl⟩ := List.getLast?_eq_some_iff.mp hB
      right; simp [← List.append_assoc]
  have h2 : ∀ (g : Graph), (∀ n, g.textAt E show_ n = [] ∨ (g.textAt E show_ n).getLast? = some 10) := by
    intro g
    refine Graph.rec (motive_1 := fun _ => True)
      (motive_2 := fun g => ∀ n, g.textAt E show_ n = [] ∨ (g.textAt E show_ n).getLast? = some 10)
      (motive_3 := fun gs => ∀ n, Graph.textAtL E show_ n gs = [] ∨ (Graph.textAtL E show_ n gs).getLast? = some 10)
      trivial (fun _ => trivial) (fun _ => trivial) (fun _ => trivial) (fun _ _ => trivial) (fun _ => trivial) (fun _ => trivial)
      (fun _ _ => trivial) (fun _ => trivial) ?_ ?_ ?_ ?_ g
    · intro n; simp only [Graph.textAt]; exact h1 _ _ _
    · intro t o _ ih n; simp only [Graph.textAt]; exact happ _ _ (h1 _ _ _) (ih _)
    · intro n; simp [Graph.textAtL]
    · intro g gs ih1 ih2 n; simp only [Graph.textAtL]; exact happ _ _ (ih1 _) (ih2 _)
  intro gs
  have h3 : Graph.textAtL E show_ n gs = [] ∨ (Graph.textAtL E show_ n gs).getLast? = some 10 := by
    induction gs with
    | nil => simp [Graph.textAtL]
    | cons g gs ih => simp only [Graph.textAtL]; exact happ _ _ (h2 g n) ih
  intro h
  rw [h] at h3
  simp at h3

end Ogdl
