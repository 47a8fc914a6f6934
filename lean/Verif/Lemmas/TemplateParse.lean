import Verif.Spec.Template
import Verif.Lemmas.Assign

/-! What `NewTemplate` builds from the text of a template. -/

namespace Ogdl
open Spec Lex

section reads
variable {E : Ext} {L : Nat}

theorem ends_pathStop {rest : Bytes} (h : Ends rest) : PathStop rest := by
  cases rest with
  | nil => exact pathStop_nil
  | cons c t =>
    obtain ⟨h1, h2, h3, h4, h5, h6, h7⟩ := h c rfl
    refine pathStop_cons ⟨h1, ?_, ?_, ?_⟩ ⟨h4, h5, h6, h7⟩
    · have h1 : c.toNat < 128 := by simpa [UInt8.lt_iff_toNat_lt] using h1
      simp only [AsciiLetter, not_or, not_and, UInt8.le_iff_toNat_le] at h2
      have e1 : (65 : UInt8).toNat = 65 := rfl
      have e2 : (90 : UInt8).toNat = 90 := rfl
      have e3 : (97 : UInt8).toNat = 97 := rfl
      have e4 : (122 : UInt8).toNat = 122 := rfl
      rw [e1, e2, e3, e4] at h2
      simp only [latinLetter]
      simp
      omega
    · simp only [Digit, not_and, UInt8.le_iff_toNat_le] at h3
      have e1 : (48 : UInt8).toNat = 48 := rfl
      have e2 : (57 : UInt8).toNat = 57 := rfl
      rw [e1, e2] at h3
      simp only [latinDigit]
      simp
      omega
    · rintro rfl; exact h2 (.inr (.inr rfl))

theorem path_reads {s : Bytes} {es : Elems} (hs : Name E s) (hes : es.Ok E) {f : Nat} {rest : Bytes} (hr : PathStop rest)
    (hf : 6 * (s ++ es.text).length + 4 ≤ f) (hL : (s ++ es.text ++ rest).length < L) :
    Consumes (path E L f) true (s ++ es.text) rest (leaf s :: es.trees) := by
  have : f = (f - 1) + 1 := by omega
  rw [this, path]
  simp only [List.length_append] at hf hL
  have := elem_reads (E := E) (L := L) (.name s) hs (f - 1) es.text rest es.trees true false (by simp) (by simp)
    (fun f' hf' => elems_reads es hes f' rest hr hf' (by simp; omega)) (nameStop_elems hr)
    (by simp [Elem.text]; omega) (by simp [Elem.text]; omega)
  simpa [Elem.text, Elem.tree] using this

theorem var_reads {s : Bytes} {es : Elems} (hs : Name E s) (hes : es.Ok E) (hh : ∀ c, s.head? = some c → c ≠ 92 ∧ c ≠ 40 ∧ c ≠ 123)
    {f : Nat} {rest : Bytes} (hr : PathStop rest) (hf : 6 * (s ++ es.text).length + 4 ≤ f) (hL : (s ++ es.text ++ rest).length < L) :
    Consumes (variable' E L f) true (36 :: (s ++ es.text)) rest [.node (.str b!"!p") (leaf s :: es.trees)] := by
  intro pre ru e
  have hp := path_reads hs hes hr hf hL
  obtain ⟨ru1, e1, g1, g2⟩ := hp (36 :: pre) ru (e.add (.str tyPath)).inc
  refine ⟨ru1, e1.setLevel e.current, ?_, Emits.node g2⟩
  obtain ⟨c, w, hw, _⟩ := name_head hs
  obtain ⟨a1, a2, a3⟩ := hh c (by rw [hw]; rfl)
  rw [hw] at g1 ⊢
  simp only [List.cons_append, List.append_assoc] at g1 ⊢
  have b1 : (c == 92) = false := by simpa using a1
  have b2 : (c == 40) = false := by simpa using a2
  have b3 : (c != 123) = true := by simpa using a3
  have b4 : (c == 123) = false := by simpa using a3
  simp only [variable', Prog.run_bind, run_byte0_cons, bne_self_eq_false, Bool.false_eq_true, ↓reduceIte, b1, run_unread_zero, run_evLevel, b2,
    run_evAdd, run_evInc, b3, g1, b4, run_evSetLevel, Prog.run_pure]
  simp

theorem braced_reads {s : Bytes} {es : Elems} (hs : Name E s) (hes : es.Ok E) (hsp : ∀ c, s.head? = some c → isSpaceChar c = false)
    {f : Nat} {rest : Bytes} (hf : 6 * (s ++ es.text).length + 4 ≤ f) (hL : (123 :: (s ++ es.text) ++ 125 :: rest).length < L) :
    Consumes (variable' E L f) true (36 :: 123 :: (s ++ es.text) ++ [125]) rest [.node (.str b!"!p") (leaf s :: es.trees)] := by
  intro pre ru e
  have hp := path_reads hs hes (f := f) (rest := 125 :: rest) (L := L) (pathStop_cons (by decide) (by decide)) hf (by simp at hL ⊢; omega)
  obtain ⟨ru1, e1, g1, g2⟩ := hp (123 :: 36 :: pre) ru (e.add (.str tyPath)).inc
  refine ⟨ru1, e1.setLevel e.current, ?_, Emits.node g2⟩
  have hs1 := run_space0 (L := L) (post := s ++ es.text ++ 125 :: rest) (by
    obtain ⟨c, w, hw, _⟩ := name_head hs
    intro c' hc'
    rw [hw] at hc' hsp
    simp only [List.cons_append, List.head?_cons, Option.some.injEq] at hc'
    subst hc'
    exact hsp c rfl) (by simp at hL ⊢; omega) (123 :: 36 :: pre) ru (e.add (.str tyPath)).inc
  have hs2 := run_space0 (L := L) (post := 125 :: rest) (by simp; decide) (by simp at hL ⊢; omega) ((s ++ es.text).reverse ++ 123 :: 36 :: pre) ru1 e1
  simp only [List.cons_append, List.append_assoc, List.nil_append] at g1 hs1 ⊢
  simp only [variable', Prog.run_bind, run_byte0_cons, bne_self_eq_false, Bool.false_eq_true, ↓reduceIte, run_unread_zero, run_evLevel,
    run_evAdd, run_evInc, show ((123 : UInt8) == 92) = false from by decide, show ((123 : UInt8) == 40) = false from by decide,
    hs1, g1, beq_self_eq_true, hs2, run_evSetLevel, Prog.run_pure]
  simp

theorem paren_reads {x : Expr} (hx : x.Ok E) {f : Nat} {rest : Bytes} (hf : 6 * x.text.length + 6 ≤ f)
    (hL : (x.text ++ 41 :: rest).length < L) :
    Consumes (variable' E L f) true (36 :: 40 :: x.text ++ [41]) rest [.node (.str b!"!e") x.trees] := by
  intro pre ru e
  have hp := expr_reads (L := L) x hx f (41 :: rest) (exprStop_cons (.inr (.inr (.inl rfl)))) hf hL
  obtain ⟨ru1, e1, g1, g2⟩ := hp (40 :: 36 :: pre) ru (e.add (.str tyExpression)).inc
  refine ⟨ru1, e1.setLevel e.current, ?_, Emits.node g2⟩
  have hs2 := run_space0 (L := L) (post := 41 :: rest) (by simp; decide) (by simp at hL ⊢; omega) (x.text.reverse ++ 40 :: 36 :: pre) ru1 e1
  simp only [List.cons_append, List.append_assoc, List.nil_append] at g1 ⊢
  simp only [variable', Prog.run_bind, run_byte0_cons, bne_self_eq_false, Bool.false_eq_true, ↓reduceIte, run_unread_zero, run_evLevel,
    run_evAdd, run_evInc, show ((40 : UInt8) == 92) = false from by decide, beq_self_eq_true, g1, hs2, run_evSetLevel, Prog.run_pure]
  simp

theorem dollar_reads {f : Nat} {rest : Bytes} : Consumes (variable' E L f) true b!"$\\" rest [leaf b!"$"] := by
  intro pre ru e
  refine ⟨ru, e.add (.str b!"$"), ?_, Emits.leaf e _⟩
  simp only [variable', Prog.run_bind, List.cons_append, List.nil_append, run_byte0_cons, bne_self_eq_false, Bool.false_eq_true, ↓reduceIte,
    beq_self_eq_true, run_evAdd, Prog.run_pure]
  simp

theorem variable_none {f : Nat} : Consumes (variable' E L f) false [] [] [] := by
  intro pre ru e
  refine ⟨ru, e, ?_, Emits.refl e⟩
  simp [variable', Prog.run_bind, Prog.run_pure]

/-! ## Pieces -/

/-- One piece of template text and the node it is read as. -/
def PieceOk (E : Ext) (L g : Nat) (t : Bytes) (n : Graph) (rest : Bytes) : Prop :=
  (t ≠ [] ∧ (∀ c ∈ t, PlainByte c) ∧ n = leaf t ∧ (rest = [] ∨ rest.head? = some 36)) ∨
  (t.head? = some 36 ∧ Consumes (variable' E L g) true t rest [n])

def piecesText (ps : List (Bytes × Graph)) : Bytes := ps.flatMap Prod.fst

def PiecesOk (E : Ext) (L g : Nat) : List (Bytes × Graph) → Bytes → Prop
  | [], _ => True
  | (t, n) :: ps, rest => PieceOk E L g t n (piecesText ps ++ rest) ∧ PiecesOk E L g ps rest

theorem piecesOk_append {g : Nat} {rest : Bytes} : ∀ {ps qs : List (Bytes × Graph)}, PiecesOk E L g ps (piecesText qs ++ rest) → PiecesOk E L g qs rest →
    PiecesOk E L g (ps ++ qs) rest
  | [], _, _, h => h
  | (t, n) :: ps, qs, h, hq => by
    refine ⟨?_, piecesOk_append h.2 hq⟩
    have := h.1
    simpa [piecesText, List.append_assoc] using this

theorem plain_templateText {c : UInt8} (h : PlainByte c) : isTemplateTextChar c = true := by
  obtain ⟨h1, h2⟩ := h
  have : isEndChar c = false := by
    rcases h1 with h1 | rfl | rfl | rfl
    · have : ¬ c < 32 := by simpa using h1
      simp [isEndChar, this]
    · decide
    · decide
    · decide
  simp [isTemplateTextChar, this, h2]

theorem template_reads {g : Nat} : ∀ (ps : List (Bytes × Graph)), PiecesOk E L g ps [] → ∀ f, ps.length < f →
    (piecesText ps).length < L → Consumes (template E L g f) () (piecesText ps) [] (ps.map Prod.snd)
  | [], _, f + 1, _, hL => by
    unfold template
    refine Consumes.bind0 (t := []) (a := []) (by unfold templateText; exact reads_readWhile isTemplateTextChar (by decide) (a := []) (by simp) (by simp) (by simpa [piecesText] using hL)) ?_
    refine Consumes.bind0 (t := []) variable_none ?_
    exact Consumes.pure _ _
  | (t, n) :: ps, h, f + 1, hf, hL => by
    obtain ⟨h1, h2⟩ := h
    rw [List.append_nil] at h1
    have e : piecesText ((t, n) :: ps) = t ++ piecesText ps := rfl
    rw [e] at hL ⊢
    simp only [List.length_append] at hL
    have ih := template_reads ps h2 f (by simp at hf; omega) (by omega)
    unfold template
    rcases h1 with ⟨a1, a2, a3, a4⟩ | ⟨a1, a2⟩
    · refine Consumes.bind (gs := []) (a := t) (by
        unfold templateText
        refine reads_readWhile isTemplateTextChar (by decide) (fun c hc => plain_templateText (a2 c hc)) ?_ (by simp; omega)
        rw [List.append_nil]
        intro c hc
        rcases a4 with a4 | a4
        · rw [a4] at hc; simp at hc
        · rw [a4] at hc; cases hc; decide) ?_
      have : t.isEmpty = false := by cases t with | nil => exact absurd rfl a1 | cons => rfl
      rw [this]
      subst a3
      exact Consumes.bind (t := []) (gs := [leaf t]) (reads_add _ _) ih
    · cases t with
      | nil => simp at a1
      | cons c t =>
        simp only [List.head?_cons, Option.some.injEq] at a1
        subst a1
        refine Consumes.bind0 (a := []) (by
          unfold templateText
          exact reads_readWhile isTemplateTextChar (by decide) (a := []) (by simp) (by simp; decide) (by simp at hL ⊢; omega)) ?_
        refine Consumes.bind (gs := [n]) (a := true) (by rw [List.append_nil]; exact a2) ?_
        exact ih

end reads


/-! ## The pieces of a template -/

theorem name_start {E : Ext} {s : Bytes} (h : Name E s) : ∀ c, s.head? = some c → (c ≠ 92 ∧ c ≠ 40 ∧ c ≠ 123) ∧ isSpaceChar c = false := by
  obtain ⟨rs, hne, hr, rfl⟩ := h
  cases rs with
  | nil => exact (hne rfl).elim
  | cons r rs =>
    obtain ⟨c, t, h1, h2⟩ := encodeRune_head r
    intro c' hc'
    simp only [List.flatMap_cons, h1, List.cons_append, List.head?_cons, Option.some.injEq] at hc'
    subst hc'
    obtain ⟨hv, hn⟩ := hr r (by simp)
    by_cases h80 : r < 0x80
    · rw [if_pos h80] at h2
      have : c.toNat = 95 ∨ latinLetter c.toNat = true ∨ (48 ≤ c.toNat ∧ c.toNat ≤ 57) := by
        rw [h2.1]
        rcases hn with h | h
        · exact .inl h
        · rw [if_pos (by omega)] at h; exact .inr h
      have ne : ∀ d : UInt8, ¬ (d.toNat = 95 ∨ latinLetter d.toNat = true ∨ (48 ≤ d.toNat ∧ d.toNat ≤ 57)) → c ≠ d := by
        rintro d hd rfl; exact hd this
      refine ⟨⟨ne 92 (by decide), ne 40 (by decide), ne 123 (by decide)⟩, ?_⟩
      simp [isSpaceChar, ne 32 (by decide), ne 9 (by decide)]
    · rw [if_neg h80] at h2
      have ne : ∀ d : UInt8, d < 0x80 → c ≠ d := by
        rintro d hd rfl; exact h2 hd
      refine ⟨⟨ne 92 (by decide), ne 40 (by decide), ne 123 (by decide)⟩, ?_⟩
      simp [isSpaceChar, ne 32 (by decide), ne 9 (by decide)]

namespace Spec

/-- The node of a directive with arguments, as it is read. -/
def callNode (s : Bytes) (xs : List (List Graph)) : Graph :=
  .node (.str b!"!p") [leaf s, .node (.str b!"!a") (xs.map fun x => .node (.str b!"!e") x)]

def wordNode (s : Bytes) : Graph := .node (.str b!"!p") [leaf s]

mutual
def Item.pieces : Item → List (Bytes × Graph)
  | .plain s => [(s, leaf s)]
  | .dollar => [(b!"$\\", leaf b!"$")]
  | .var id ids false => [(36 :: dotted (id :: ids), pathOf (id :: ids))]
  | .var id ids true => [(b!"${" ++ dotted (id :: ids) ++ b!"}", pathOf (id :: ids))]
  | .expr x => [(b!"$(" ++ x.text ++ b!")", .node (.str b!"!e") x.tokens)]
  | .cond c body more => (b!"$if(" ++ c.text ++ b!")", callNode b!"if" [c.tokens]) :: body.pieces ++ more.pieces
  | .loop v id ids body =>
    (b!"$for(" ++ v ++ b!", " ++ dotted (id :: ids) ++ b!")", callNode b!"for" [[pathOf [v]], [pathOf (id :: ids)]]) ::
      body.pieces ++ [(b!"$end", wordNode b!"end")]
  | .brk => [(b!"$break", wordNode b!"break")]
def Items.pieces : Items → List (Bytes × Graph)
  | .nil => []
  | .cons i is => i.pieces ++ is.pieces
def Branches.pieces : Branches → List (Bytes × Graph)
  | .done => [(b!"$end", wordNode b!"end")]
  | .els body => (b!"$else", wordNode b!"else") :: body.pieces ++ [(b!"$end", wordNode b!"end")]
  | .elif c body more => (b!"$elseif(" ++ c.text ++ b!")", callNode b!"elseif" [c.tokens]) :: body.pieces ++ more.pieces
end

mutual
theorem Item.pieces_text : ∀ i : Item, piecesText i.pieces = i.text
  | .plain s => by simp [Item.pieces, piecesText, Item.text]
  | .dollar => by simp [Item.pieces, piecesText, Item.text]
  | .var id ids false => by simp [Item.pieces, piecesText, Item.text]
  | .var id ids true => by simp [Item.pieces, piecesText, Item.text]
  | .expr x => by simp [Item.pieces, piecesText, Item.text]
  | .cond c body more => by
    have h1 := Items.pieces_text body
    have h2 := Branches.pieces_text more
    simp only [piecesText] at h1 h2
    simp [Item.pieces, piecesText, Item.text, h1, h2]
  | .loop v id ids body => by
    have h1 := Items.pieces_text body
    simp only [piecesText] at h1
    simp [Item.pieces, piecesText, Item.text, h1]
  | .brk => by simp [Item.pieces, piecesText, Item.text]
theorem Items.pieces_text : ∀ i : Items, piecesText i.pieces = i.text
  | .nil => by simp [Items.pieces, piecesText, Items.text]
  | .cons i is => by
    have h1 := Item.pieces_text i
    have h2 := Items.pieces_text is
    simp only [piecesText] at h1 h2
    simp [Items.pieces, piecesText, Items.text, h1, h2]
theorem Branches.pieces_text : ∀ i : Branches, piecesText i.pieces = i.text
  | .done => by simp [Branches.pieces, piecesText, Branches.text]
  | .els body => by
    have h1 := Items.pieces_text body
    simp only [piecesText] at h1
    simp [Branches.pieces, piecesText, Branches.text, h1]
  | .elif c body more => by
    have h1 := Items.pieces_text body
    have h2 := Branches.pieces_text more
    simp only [piecesText] at h1 h2
    simp [Branches.pieces, piecesText, Branches.text, h1, h2]
end

end Spec

section
variable {E : Ext} {L g : Nat}

theorem ascii_name {s : Bytes} (hne : s ≠ []) (h : ∀ c ∈ s, AsciiLetter c) : Name E s := by
  refine ⟨s.map fun c => c.toNat, by simpa using hne, ?_, ?_⟩
  · intro r hr
    obtain ⟨c, hc, rfl⟩ := List.mem_map.1 hr
    obtain ⟨h1, h2, _⟩ := asciiLetter_letter (h c hc)
    have h2 : c.toNat < 128 := by simpa [UInt8.lt_iff_toNat_lt] using h2
    refine ⟨.inl (by omega), ?_⟩
    rw [if_pos (by omega)]
    simp only [isLetterByte, Bool.or_eq_true, beq_iff_eq] at h1
    rcases h1 with h1 | h1
    · exact .inr (.inl h1)
    · exact .inl (by rw [h1]; rfl)
  · induction s with
    | nil => exact absurd rfl hne
    | cons c s ih =>
      obtain ⟨_, h2, _⟩ := asciiLetter_letter (h c (by simp))
      have h2' : c.toNat < 128 := by simpa [UInt8.lt_iff_toNat_lt] using h2
      have e : encodeRune c.toNat = [c] := by simp [encodeRune, h2']
      rw [List.map_cons, List.flatMap_cons, e]
      by_cases hs : s = []
      · subst hs; rfl
      · rw [← ih hs fun d hd => h d (by simp [hd])]; rfl

theorem word_piece {s rest : Bytes} (hne : s ≠ []) (h : ∀ c ∈ s, AsciiLetter c) (hr : Ends rest)
    (hg : 6 * s.length + 4 ≤ g) (hL : (s ++ rest).length < L) : PieceOk E L g (36 :: s) (wordNode s) rest := by
  refine .inr ⟨rfl, ?_⟩
  have := var_reads (E := E) (L := L) (es := .nil) (f := g) (ascii_name hne h) trivial (fun c hc => (name_start (E := E) (ascii_name hne h) c hc).1)
    (ends_pathStop hr) (by simpa [Elems.text] using hg) (by simpa [Elems.text] using hL)
  simpa [Elems.text, Elems.trees, wordNode] using this

theorem call_piece {s rest : Bytes} {as : Args} (hne : s ≠ []) (h : ∀ c ∈ s, AsciiLetter c) (has : as.Ok E) (hr : Ends rest)
    (hg : 6 * (s ++ (40 :: as.text ++ [41])).length + 4 ≤ g) (hL : (s ++ (40 :: as.text ++ [41]) ++ rest).length < L) :
    PieceOk E L g (36 :: (s ++ (40 :: as.text ++ [41]))) (.node (.str b!"!p") [leaf s, .node (.str b!"!a") as.trees]) rest := by
  refine .inr ⟨rfl, ?_⟩
  have := var_reads (E := E) (L := L) (es := .cons (.call as) .nil) (f := g) (rest := rest) (ascii_name hne h) ⟨has, trivial⟩
    (fun c hc => (name_start (E := E) (ascii_name hne h) c hc).1)
    (ends_pathStop hr) (by simpa [Elems.text, Elem.text] using hg) (by simpa [Elems.text, Elem.text] using hL)
  simpa [Elems.text, Elem.text, Elems.trees, Elem.tree] using this

theorem cond_piece {s rest : Bytes} {x : Grouping} (hne : s ≠ []) (h : ∀ c ∈ s, AsciiLetter c) (hx : x.Ok E) (hr : Ends rest)
    (hg : 6 * (s ++ (40 :: x.text ++ [41])).length + 4 ≤ g) (hL : (s ++ (40 :: x.text ++ [41]) ++ rest).length < L) :
    PieceOk E L g (36 :: (s ++ (40 :: x.text ++ [41]))) (callNode s [x.tokens]) rest := by
  obtain ⟨h1, h2⟩ := Grouping.expr_spec x
  have := call_piece (E := E) (L := L) (g := g) (as := .cons x.expr .nil) (rest := rest) hne h ⟨Grouping.expr_ok hx, trivial⟩ hr
    (by simpa [Args.text, Args.textTail, h1] using hg) (by simpa [Args.text, Args.textTail, h1] using hL)
  simpa [Args.text, Args.textTail, Args.trees, h1, h2, callNode] using this

theorem ends_text {rest : Bytes} {c : UInt8} (h : c < 0x80 ∧ ¬ AsciiLetter c ∧ ¬ Digit c ∧ c ≠ 46 ∧ c ≠ 91 ∧ c ≠ 40 ∧ c ≠ 123) : Ends (c :: rest) := by
  intro c' hc'; cases hc'; exact h

mutual
theorem item_pieces : ∀ (i : Item) (rest : Bytes), i.Ok E rest → 6 * i.text.length + 20 ≤ g → (i.text ++ rest).length < L →
    PiecesOk E L g i.pieces rest
  | .plain s, rest, h, hg, hL => by
    simp only [Item.Ok] at h
    exact ⟨.inl ⟨h.1, h.2.1, rfl, by simpa [piecesText] using h.2.2.2⟩, trivial⟩
  | .dollar, rest, h, hg, hL => ⟨.inr ⟨rfl, dollar_reads⟩, trivial⟩
  | .var id ids false, rest, h, hg, hL => by
    simp only [Item.Ok] at h
    obtain ⟨⟨_, h1⟩, _, h3⟩ := h
    simp only [Item.text, ← names_text] at hg hL
    refine ⟨.inr ⟨rfl, ?_⟩, trivial⟩
    have := var_reads (E := E) (L := L) (es := names ids) (f := g) (rest := rest) (h1 id (by simp)) (names_ok' fun x hx => h1 x (by simp [hx]))
      (fun c hc => (name_start (E := E) (h1 id (by simp)) c hc).1) (ends_pathStop (h3 trivial)) (by simp at hg ⊢; omega) (by simp at hL ⊢; omega)
    rw [names_text, names_trees] at this
    simpa [piecesText, pathOf] using this
  | .var id ids true, rest, h, hg, hL => by
    simp only [Item.Ok] at h
    obtain ⟨⟨_, h1⟩, _, h3⟩ := h
    simp only [Item.text, ← names_text] at hg hL
    refine ⟨.inr ⟨rfl, ?_⟩, trivial⟩
    have := braced_reads (E := E) (L := L) (es := names ids) (f := g) (rest := rest) (h1 id (by simp)) (names_ok' fun x hx => h1 x (by simp [hx]))
      (fun c hc => (name_start (E := E) (h1 id (by simp)) c hc).2) (by simp at hg ⊢; omega) (by simp at hL ⊢; omega)
    rw [names_text, names_trees] at this
    simpa [piecesText, pathOf] using this
  | .expr x, rest, h, hg, hL => by
    simp only [Item.Ok] at h
    obtain ⟨h1, h2⟩ := Grouping.expr_spec x
    simp only [Item.text] at hg hL
    refine ⟨.inr ⟨rfl, ?_⟩, trivial⟩
    have := paren_reads (E := E) (L := L) (x := x.expr) (f := g) (rest := rest) (Grouping.expr_ok h) (by rw [h1]; simp at hg ⊢; omega)
      (by rw [h1]; simp at hL ⊢; omega)
    rw [h1, h2] at this
    simpa [piecesText] using this
  | .cond c body more, rest, h, hg, hL => by
    simp only [Item.Ok] at h
    obtain ⟨h1, h2, h3, h4⟩ := h
    simp only [Item.text] at hg hL
    have e1 := Items.pieces_text body
    have e2 := Branches.pieces_text more
    have a1 := items_pieces body (more.text ++ rest) h3 (by simp at hg ⊢; omega) (by simp at hL ⊢; omega)
    have a2 := branches_pieces more rest h4 (by simp at hg ⊢; omega) (by simp at hL ⊢; omega)
    have a3 := cond_piece (E := E) (L := L) (g := g) (s := b!"if") (by simp) (by unfold AsciiLetter; decide) h1 h2 (by simp at hg ⊢; omega) (by simp at hL ⊢; omega)
    refine ⟨?_, piecesOk_append (by rw [e2]; exact a1) a2⟩
    have e3 : piecesText (body.pieces ++ more.pieces) = body.text ++ more.text := by rw [← e1, ← e2]; simp [piecesText]
    rw [List.append_eq, e3]
    simpa using a3
  | .loop v id ids body, rest, h, hg, hL => by
    simp only [Item.Ok] at h
    obtain ⟨h1, h2, h3, h4, h5, h6, h7⟩ := h
    simp only [Item.text] at hg hL
    have e1 := Items.pieces_text body
    have a1 := items_pieces body (b!"$end" ++ rest) h6 (by simp at hg ⊢; omega) (by simp at hL ⊢; omega)
    have a2 := word_piece (E := E) (L := L) (g := g) (s := b!"end") (by simp) (by unfold AsciiLetter; decide) h7 (by simp at hg ⊢; omega) (by simp at hL ⊢; omega)
    have a3 := call_piece (E := E) (L := L) (g := g) (s := b!"for")
      (as := .cons (.one (.path v .nil)) (.cons (.one (.path id (names ids))) .nil)) (by simp) (by unfold AsciiLetter; decide)
      (by
        simp only [Args.Ok, Expr.Ok, Opnd.Ok]
        exact ⟨⟨h1.2 v (by simp), h2, trivial⟩, ⟨h3.2 id (by simp), h4, names_ok' fun x hx => h3.2 x (by simp [hx])⟩, trivial⟩) h5
      (by simp [Args.text, Args.textTail, Expr.text, Opnd.text, Elems.text, names_text] at hg ⊢; omega)
      (by simp [Args.text, Args.textTail, Expr.text, Opnd.text, Elems.text, names_text] at hL ⊢; omega)
    have a2 : PiecesOk E L g [(b!"$end", wordNode b!"end")] rest := ⟨by simpa [piecesText] using a2, trivial⟩
    refine ⟨?_, piecesOk_append (by simpa [piecesText] using a1) a2⟩
    have e3 : piecesText (body.pieces ++ [(b!"$end", wordNode b!"end")]) = body.text ++ b!"$end" := by rw [← e1]; simp [piecesText]
    rw [List.append_eq, e3]
    simpa [Args.text, Args.textTail, Args.trees, Expr.text, Expr.trees, Opnd.tree, Opnd.text, Elems.text, Elems.trees, callNode, names_text,
      names_trees, pathOf] using a3
  | .brk, rest, h, hg, hL => by
    simp only [Item.Ok] at h
    simp only [Item.text] at hg hL
    have a2 := word_piece (E := E) (L := L) (g := g) (s := b!"break") (by simp) (by unfold AsciiLetter; decide) h (by simp at hg ⊢; omega) (by simp at hL ⊢; omega)
    exact ⟨by simpa [piecesText] using a2, trivial⟩
theorem items_pieces : ∀ (i : Items) (rest : Bytes), i.Ok E rest → 6 * i.text.length + 20 ≤ g → (i.text ++ rest).length < L →
    PiecesOk E L g i.pieces rest
  | .nil, rest, h, hg, hL => by simp [Items.pieces, PiecesOk]
  | .cons i is, rest, h, hg, hL => by
    simp only [Items.Ok] at h
    simp only [Items.text] at hg hL
    have a1 := item_pieces i (is.text ++ rest) h.1 (by simp at hg ⊢; omega) (by simp at hL ⊢; omega)
    have a2 := items_pieces is rest h.2 (by simp at hg ⊢; omega) (by simp at hL ⊢; omega)
    exact piecesOk_append (by rw [Items.pieces_text]; exact a1) a2
theorem branches_pieces : ∀ (i : Branches) (rest : Bytes), i.Ok E rest → 6 * i.text.length + 20 ≤ g → (i.text ++ rest).length < L →
    PiecesOk E L g i.pieces rest
  | .done, rest, h, hg, hL => by
    simp only [Branches.Ok] at h
    simp only [Branches.text] at hg hL
    have a2 := word_piece (E := E) (L := L) (g := g) (s := b!"end") (by simp) (by unfold AsciiLetter; decide) h (by simp at hg ⊢; omega) (by simp at hL ⊢; omega)
    exact ⟨by simpa [piecesText] using a2, trivial⟩
  | .els body, rest, h, hg, hL => by
    simp only [Branches.Ok] at h
    obtain ⟨h5, h6, h7⟩ := h
    simp only [Branches.text] at hg hL
    have e1 := Items.pieces_text body
    have a1 := items_pieces body (b!"$end" ++ rest) h6 (by simp at hg ⊢; omega) (by simp at hL ⊢; omega)
    have a2 := word_piece (E := E) (L := L) (g := g) (s := b!"end") (by simp) (by unfold AsciiLetter; decide) h7 (by simp at hg ⊢; omega) (by simp at hL ⊢; omega)
    have a3 := word_piece (E := E) (L := L) (g := g) (s := b!"else") (by simp) (by unfold AsciiLetter; decide) h5 (by simp at hg ⊢; omega) (by simp at hL ⊢; omega)
    have a2 : PiecesOk E L g [(b!"$end", wordNode b!"end")] rest := ⟨by simpa [piecesText] using a2, trivial⟩
    refine ⟨?_, piecesOk_append (by simpa [piecesText] using a1) a2⟩
    have e3 : piecesText (body.pieces ++ [(b!"$end", wordNode b!"end")]) = body.text ++ b!"$end" := by rw [← e1]; simp [piecesText]
    rw [List.append_eq, e3]
    exact a3
  | .elif c body more, rest, h, hg, hL => by
    simp only [Branches.Ok] at h
    obtain ⟨h1, h2, h3, h4⟩ := h
    simp only [Branches.text] at hg hL
    have e1 := Items.pieces_text body
    have e2 := Branches.pieces_text more
    have a1 := items_pieces body (more.text ++ rest) h3 (by simp at hg ⊢; omega) (by simp at hL ⊢; omega)
    have a2 := branches_pieces more rest h4 (by simp at hg ⊢; omega) (by simp at hL ⊢; omega)
    have a3 := cond_piece (E := E) (L := L) (g := g) (s := b!"elseif") (by simp) (by unfold AsciiLetter; decide) h1 h2 (by simp at hg ⊢; omega) (by simp at hL ⊢; omega)
    refine ⟨?_, piecesOk_append (by rw [e2]; exact a1) a2⟩
    have e3 : piecesText (body.pieces ++ more.pieces) = body.text ++ more.text := by rw [← e1, ← e2]; simp [piecesText]
    rw [List.append_eq, e3]
    simpa using a3
end

end
end Ogdl
