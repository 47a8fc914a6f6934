import Verif.Lemmas.Text
import Verif.Lemmas.Wide

/-!
# C09, C11, C12, C46, C56: OGDL text
-/

namespace Ogdl
open Spec Lex

theorem fromString_small (E : Ext) (s : Bytes) (h : s.length ≤ 2047) : fromString E s = parseText E false s := by
  have hd : delivered { data := s } = s := delivered_full _ ⟨rfl, by simp⟩
  rw [fromString, fromReader_parseText _ _ _ (by
    rw [hd, ← shortRuns_iff]
    rintro p u t rfl _
    simp at h; omega), hd]

/-! ## The grammar -/

/-- The parser reads every text of the grammar of `Verif.Spec.Text` as the trees it
writes, for any shape, depth, indentation, quoting and line ends. -/
theorem C11_grammar (E : Ext) (types : Bool) (gs : List Graph) (t : Bytes) (h : TextOf E types gs t) (hs : ShortRuns t) :
    fromReader E types { data := t } = .ok (.node (.str b!"_") gs) := fromReader_of_textOf h hs

example (E : Ext) : TextOf E false [.node (.str b!"a") [.node (.str b!"b c") [], .node (.str b!"d") []]]
    b!"a\r\n \"b c\"\n\td" :=
  ⟨0, true, Writes.node (s := []) (eol := [13, 10]) (m := 1) (vs := []) (t := b!"a") (t2 := []) (o2 := false)
    (t1 := b!" \"b c\"\n\td") (o1 := true) (by simp [Blank]) rfl
    (.last (word_scal ⟨by decide, _, _, rfl, by decide, by decide, by decide, by decide⟩ (by decide))) (.inr rfl)
    (by decide)
    (Writes.node (s := b!" ") (eol := [10]) (m := 2) (vs := []) (t1 := []) (o1 := false) (t := b!"\"b c\"") (by simp [Blank]) rfl
      (.last (Scal.quoted (q := 34) (.inl rfl) ⟨by decide, by simp [LoneSlashes], by decide⟩)) (.inl rfl) (by decide) .nil
      (Writes.open (s := b!"\t") (vs := []) (t := b!"d") (by simp [Blank]) rfl
        (.last (word_scal ⟨by decide, _, _, rfl, by decide, by decide, by decide, by decide⟩ (by decide)))) (by simp))
    .nil (by simp), .inl (by simp)⟩

/-! ## C11: indentation -/

/-- C11: any two styles of indentation (spaces, tabs or both, any widths below 2048
that grow with the depth) and line ends write the same tree; both are read back. -/
theorem C11_any_style (E : Ext) (gs : List Graph) (hn : NoNilL gs) (hp : AllThisL HoldsPlain gs) (st st' : Style)
    (hv : st.Valid (depthL gs)) (hv' : st'.Valid (depthL gs)) :
    fromString E (renderL st 0 gs) = .ok (.node (.str b!"_") gs) ∧
      fromString E (renderL st 0 gs) = fromString E (renderL st' 0 gs) := by
  have key : ∀ st : Style, st.Valid (depthL gs) → fromString E (renderL st 0 gs) = .ok (.node (.str b!"_") gs) := by
    intro st hv
    refine fromReader_of_textOf (textOf_render E st gs hv hn hp) (shortRuns_iff.mpr ?_)
    have := shortSpaces_renderL st _ hv gs 0 (by omega) hp [] shortSpaces_nil
    simpa using this
  exact ⟨key st hv, by rw [key st hv, key st' hv']⟩

/-- C11 for a constant width: `n` times the same blank at depth `n / w`. -/
theorem C11_any_width (E : Ext) (gs : List Graph) (hn : NoNilL gs) (hp : AllThisL HoldsPlain gs)
    (w w' : Nat) (b b' : UInt8) (hb : b = 32 ∨ b = 9) (hb' : b' = 32 ∨ b' = 9) (hw : 1 ≤ w) (hw' : 1 ≤ w')
    (hd : depthL gs * w ≤ 2047) (hd' : depthL gs * w' ≤ 2047) :
    fromString E (renderL ⟨fun d => List.replicate (d * w) b, [10]⟩ 0 gs) =
      fromString E (renderL ⟨fun d => List.replicate (d * w') b', [10]⟩ 0 gs) := by
  have key : ∀ (w : Nat) (b : UInt8), (b = 32 ∨ b = 9) → 1 ≤ w → depthL gs * w ≤ 2047 →
      Style.Valid ⟨fun d => List.replicate (d * w) b, [10]⟩ (depthL gs) := by
    intro w b hb hw hd
    refine ⟨?_, ?_, ?_, ?_, .inl rfl⟩
    · intro d c hc
      rw [List.eq_of_mem_replicate hc]; exact hb
    · intro d _
      simp only [List.length_replicate, Nat.add_mul]; omega
    · intro d hlt
      simp only [List.length_replicate]
      exact Nat.le_trans (Nat.mul_le_mul_right _ (by omega)) hd
    · simp
  exact (C11_any_style E gs hn hp _ _ (key w b hb hw hd) (key w' b' hb' hw' hd')).2

/-- A tree and two styles that meet the hypotheses. -/
example : NoNilL [.node (.str b!"a") [.node (.str b!"b") [.node (.str b!"c,d") []], .node (.str b!"e") []]] ∧
    AllThisL HoldsPlain [.node (.str b!"a") [.node (.str b!"b") [.node (.str b!"c,d") []], .node (.str b!"e") []]] := by
  have hp : ∀ c t, (∀ x ∈ c :: t, (32 : UInt8) < x) → c ≠ 34 → c ≠ 39 → c ≠ 96 → c ≠ 44 → c :: t ≠ [92] → c :: t ≠ [35] →
      HoldsPlain (.str (c :: t)) := fun c t h h1 h2 h3 h4 h5 h6 =>
    ⟨_, rfl, ⟨⟨h, c, t, rfl, h1, h2, h3, h4⟩, h5, h6⟩⟩
  simp only [NoNilL, NoNil, AllThisL, AllThis, and_true, true_and]
  exact ⟨hp _ _ (by decide) (by decide) (by decide) (by decide) (by decide) (by decide) (by decide),
    ⟨hp _ _ (by decide) (by decide) (by decide) (by decide) (by decide) (by decide) (by decide),
      hp _ _ (by decide) (by decide) (by decide) (by decide) (by decide) (by decide) (by decide)⟩,
    hp _ _ (by decide) (by decide) (by decide) (by decide) (by decide) (by decide) (by decide)⟩

/-- C11 does not hold for an indentation of 4095 blanks: the tree `a (b c)`, written with one
blank, is read as it is, and written with 4095 blanks it is read as `a (b (c))`. -/
theorem C11_refuted (E : Ext) : ∃ (gs : List Graph) (w : Nat), NoNilL gs ∧ AllThisL HoldsPlain gs ∧ 1 ≤ w ∧
    fromString E (renderL ⟨fun d => List.replicate (d * 1) 32, [10]⟩ 0 gs) = .ok (.node (.str b!"_") gs) ∧
    ∃ gs', fromString E (renderL ⟨fun d => List.replicate (d * w) 32, [10]⟩ 0 gs) = .ok (.node (.str b!"_") gs') ∧ gs' ≠ gs := by
  refine ⟨[.node (.str b!"a") [.node (.str b!"b") [], .node (.str b!"c") []]], 4095, by simp [NoNilL, NoNil], ?_, by omega, ?_,
    [.node (.str b!"a") [.node (.str b!"b") [.node (.str b!"c") []]]], ?_, by simp⟩
  · have hp : ∀ c t, (∀ x ∈ c :: t, (32 : UInt8) < x) → c ≠ 34 → c ≠ 39 → c ≠ 96 → c ≠ 44 → c :: t ≠ [92] → c :: t ≠ [35] →
        HoldsPlain (.str (c :: t)) := fun c t h h1 h2 h3 h4 h5 h6 =>
      ⟨_, rfl, ⟨⟨h, c, t, rfl, h1, h2, h3, h4⟩, h5, h6⟩⟩
    simp only [AllThisL, AllThis, and_true]
    exact ⟨hp _ _ (by decide) (by decide) (by decide) (by decide) (by decide) (by decide) (by decide),
      hp _ _ (by decide) (by decide) (by decide) (by decide) (by decide) (by decide) (by decide),
      hp _ _ (by decide) (by decide) (by decide) (by decide) (by decide) (by decide) (by decide)⟩
  · exact (fromString_small E b!"a\n b\n c\n" (by decide)).trans rfl
  · have ht : renderL ⟨fun d => List.replicate (d * 4095) 32, [10]⟩ 0 [.node (.str b!"a") [.node (.str b!"b") [], .node (.str b!"c") []]] =
        b!"a\n" ++ (List.replicate 4095 32 ++ (b!"b\n" ++ (List.replicate 4095 32 ++ b!"c\n"))) := by
      simp only [renderL, render, wordOf, Nat.zero_mul, List.replicate_zero, Nat.zero_add, Nat.one_mul, List.nil_append, List.append_nil, List.append_assoc]
      rfl
    rw [ht]
    have hd : ∀ t, delivered { data := t } = t := fun t => delivered_full _ ⟨rfl, by simp⟩
    have hst := start_tracks { data := b!"a\n" ++ (List.replicate 4095 32 ++ (b!"b\n" ++ (List.replicate 4095 32 ++ b!"c\n"))) }
    rw [hd] at hst
    have hlen : (b!"a\n" ++ (List.replicate 4095 (32 : UInt8) ++ (b!"b\n" ++ (List.replicate 4095 32 ++ b!"c\n")))).length = 8196 := by
      simp only [List.length_append, List.length_replicate, List.length_cons, List.length_nil]
    have hsplit : ∀ m n : Nat, m + n = 4095 → List.replicate 4095 (32 : UInt8) = List.replicate m 32 ++ List.replicate n 32 := fun m n h => by
      rw [List.replicate_append_replicate, h]
    obtain ⟨b', e', h1, h2, h3⟩ := wide_run (E := E) (L := 8196 + 2) (F := 3 * 8196 + 5 - 20) (fun x hx => by rw [List.eq_of_mem_replicate hx]; rfl)
      (hsplit 2046 2049 rfl) (hsplit 2045 2050 rfl) List.length_replicate List.length_replicate List.length_replicate List.length_replicate rfl
      (by rw [hlen]; omega) hst
    rw [show 3 * 8196 + 5 - 20 + 20 = 3 * 8196 + 5 by omega] at h1
    simp only [fromString, fromReader, loopFuel, treeFuel, hlen]
    rw [h1]
    exact tree_of_preorder _ _ (by simp [NoNilL, NoNil]) (by rw [h3]; rfl) h2.2

/-! ## C12: inline form -/

/-- C12: plain words in one line, separated by any blanks, are read like the same
words one below the other, each indented deeper than the one before.  Missing: 2048 or more
blanks in a row, which chains of as many words need. -/
theorem C12_inline_nested_partial (E : Ext) (us : List (Bytes × Bytes)) (w : Bytes)
    (hu : ∀ u ∈ us, PlainWord u.1 ∧ u.2 ≠ [] ∧ Blank u.2) (hw : PlainWord w)
    (hs : ShortRuns (inline us w)) (hs' : ShortRuns (staircase 0 (us.map (·.1) ++ [w]))) :
    fromString E (inline us w) = fromString E (staircase 0 (us.map (·.1) ++ [w])) ∧
      fromString E (inline us w) = .ok (.node (.str b!"_") (chain ((us.map (·.1) ++ [w]).map Val.str))) := by
  have h1 : fromString E (inline us w) = .ok (.node (.str b!"_") (chain ((us.map (·.1) ++ [w]).map Val.str))) := by
    refine fromReader_of_textOf ⟨0, true, ?_, by simp⟩ hs
    have hl := lineOf_inline E 0 us w hu hw
    cases us with
    | nil => simpa [chain] using Writes.open (s := []) (vs := []) (fun c hc => by simp at hc) rfl hl
    | cons u us =>
      simpa [chain] using Writes.open (s := []) (vs := (us.map (·.1) ++ [w]).map Val.str) (fun c hc => by simp at hc) rfl hl
  have h2 : fromString E (staircase 0 (us.map (·.1) ++ [w])) =
      .ok (.node (.str b!"_") (chain ((us.map (·.1) ++ [w]).map Val.str))) := by
    refine fromReader_of_textOf ⟨0, false, writes_staircase E _ 0 ?_, by simp⟩ hs'
    intro x hx
    simp only [List.mem_append, List.mem_map, List.mem_singleton] at hx
    rcases hx with ⟨u, hu', rfl⟩ | rfl
    · exact (hu u hu').1
    · exact hw
  exact ⟨by rw [h1, h2], h1⟩

/-- The words of `"a  b\tc"`. -/
example : ∃ (us : List (Bytes × Bytes)) (w : Bytes), (∀ u ∈ us, PlainWord u.1 ∧ u.2 ≠ [] ∧ Blank u.2) ∧ PlainWord w ∧
    inline us w = b!"a  b\tc" ∧ staircase 0 (us.map (·.1) ++ [w]) = b!"a\n b\n  c\n" := by
  refine ⟨[(b!"a", b!"  "), (b!"b", b!"\t")], b!"c", ?_, ?_, rfl, rfl⟩
  · simp only [List.mem_cons, List.not_mem_nil, or_false, forall_eq_or_imp, forall_eq]
    exact ⟨⟨⟨⟨by decide, _, _, rfl, by decide, by decide, by decide, by decide⟩, by decide, by decide⟩, by decide, by simp [Blank]⟩,
      ⟨⟨⟨by decide, _, _, rfl, by decide, by decide, by decide, by decide⟩, by decide, by decide⟩, by decide, by simp [Blank]⟩⟩
  · exact ⟨⟨by decide, _, _, rfl, by decide, by decide, by decide, by decide⟩, by decide, by decide⟩

/-! ## C56: blank lines and comments -/

/-- C56, part: blank lines and comment lines that are indented like the node that
follows do not change what is read.  Missing: filler lines with another indentation
(refuted below), comments that end with CR NL. -/
theorem C56_fillers_partial (E : Ext) (st : Style) (gs : List Doc) (hok : Doc.OkL gs)
    (hv : st.Valid (depthL (Doc.treeL gs))) (hs : ShortRuns (Doc.textL st 0 gs)) :
    fromString E (Doc.textL st 0 gs) = .ok (.node (.str b!"_") (Doc.treeL gs)) :=
  fromReader_of_textOf (textOf_doc E st gs hv hok) hs

example (E : Ext) : fromString E b!"# file\na\n\n  # sub\n  b\n" =
    .ok (.node (.str b!"_") [.node (.str b!"a") [.node (.str b!"b") []]]) := by
  rw [fromString_small _ _ (by decide)]; rfl

/-- The document of the example above without the blank line, as a `Doc`. -/
example : Doc.textL ⟨fun d => List.replicate (2 * d) 32, [10]⟩ 0
    [.node [.comment b!"file"] b!"a" [.node [.comment b!"sub", .blank] b!"b" []]] =
    b!"# file\na\n  # sub\n  \n  b\n" := rfl

/-- C56 is refuted: an unindented blank line between two nodes of the third level
moves the second one up. -/
theorem C56_blank_line_refuted (E : Ext) :
    fromString E b!"x\n  a\n    b\n    c" =
      .ok (.node (.str b!"_") [.node (.str b!"x") [.node (.str b!"a") [.node (.str b!"b") [], .node (.str b!"c") []]]]) ∧
    fromString E b!"x\n  a\n    b\n\n    c" =
      .ok (.node (.str b!"_") [.node (.str b!"x") [.node (.str b!"a") [.node (.str b!"b") []], .node (.str b!"c") []]]) := by
  rw [fromString_small _ _ (by decide), fromString_small _ _ (by decide)]
  exact ⟨rfl, rfl⟩

/-! ## C09: round trip -/

/-- C09, part: for every graph whose visible contents can be written (words without
quotes at the top, words and quotable strings below) `FromString(g.Text())` is the
visible tree, of any shape and depth.  Missing: the contents that `Text` does not
quote although it should (refutations below). -/
theorem C09_round_trip_partial (E : Ext) (g : Graph) (hw : WritableAtL 0 (shownL E g.out)) :
    ∃ t, g.text E = .ok t ∧
      (ShortRuns t → fromString E t = .ok (.node (.str b!"_") (shownL E g.out))) := by
  obtain ⟨t, h1, h2⟩ := textOf_text E g hw
  exact ⟨t, h1, fromReader_of_textOf h2⟩

/-- If no content is empty or anything but a string, the tree read back is the tree
itself. -/
theorem C09_exact_partial (E : Ext) (gs : List Graph) (hn : NoNilL gs) (hw : WritableAtL 0 gs) :
    ∃ t, (Graph.node (.str b!"_") gs).text E = .ok t ∧
      (ShortRuns t → fromString E t = .ok (.node (.str b!"_") gs)) := by
  have hshown := shownL_writable E
  have := C09_round_trip_partial E (.node (.str b!"_") gs) (by rw [Graph.out_node, hshown gs 0 hn hw]; exact hw)
  rwa [Graph.out_node, hshown gs 0 hn hw] at this

example : WritableAtL 0 [.node (.str b!"a\"b") [.node (.str b!"two words") [.node (.str b!"l1\nl \"2\"") []]]] := by
  simp only [WritableAtL, WritableAt, Writable]
  refine ⟨⟨⟨_, rfl, ⟨by decide, _, _, rfl, by decide, by decide, by decide, by decide⟩, by decide⟩,
    ⟨⟨_, rfl, .inr ⟨⟨32, by decide, by decide⟩, ⟨by decide, by simp [LoneSlashes], by decide⟩, by decide⟩⟩,
      ⟨⟨_, rfl, .inr ⟨⟨32, by decide, by decide⟩, ⟨by decide, by simp [LoneSlashes], by decide⟩, by decide⟩⟩, trivial⟩,
      trivial⟩, trivial⟩, trivial⟩

example (E : Ext) : (Graph.node (.str b!"_") [.node (.str b!"a") [.node (.str b!"two words") []]]).text E =
    .ok b!"a\n  \"two words\"" := rfl

/-- C09 is refuted for strings with spaces at the top level: they are not quoted. -/
theorem C09_top_level_spaces_refuted (E : Ext) :
    (Graph.node (.str b!"_") [.node (.str b!"a b") []]).text E = .ok b!"a b" ∧
    fromString E b!"a b" = .ok (.node (.str b!"_") [.node (.str b!"a") [.node (.str b!"b") []]]) := by
  rw [fromString_small _ _ (by decide)]
  exact ⟨rfl, rfl⟩

/-- C09 is refuted for a quote after a backslash: it is dropped. -/
theorem C09_slash_quote_refuted (E : Ext) :
    (Graph.node (.str b!"_") [.node (.str b!"a") [.node (.str b!"x\\\"y") []]]).text E = .ok b!"a\n  \"x\\y\"" ∧
    fromString E b!"a\n  \"x\\y\"" = .ok (.node (.str b!"_") [.node (.str b!"a") [.node (.str b!"x\\y") []]]) := by
  rw [fromString_small _ _ (by decide)]
  exact ⟨rfl, rfl⟩

/-- C09 is refuted for a lone backslash: it is read as the start of a block. -/
theorem C09_backslash_refuted (E : Ext) :
    (Graph.node (.str b!"_") [.node (.str b!"a") [.node (.str b!"\\") [], .node (.str b!"b") []]]).text E =
      .ok b!"a\n  \\\n  b" ∧
    fromString E b!"a\n  \\\n  b" ≠
      .ok (.node (.str b!"_") [.node (.str b!"a") [.node (.str b!"\\") [], .node (.str b!"b") []]]) := by
  rw [fromString_small _ _ (by decide)]
  refine ⟨rfl, fun h => ?_⟩
  have h2 : parseText E false b!"a\n  \\\n  b" = .ok (.node (.str b!"_") [.node (.str b!"a") [.node (.str b!"") []],
      .node (.str b!"b") []]) := rfl
  rw [h2] at h
  simp at h

/-- C09 is refuted for a leading backtick: it is read as a quote. -/
theorem C09_backtick_refuted (E : Ext) :
    (Graph.node (.str b!"_") [.node (.str b!"a") [.node (.str b!"`x`y") []]]).text E = .ok b!"a\n  `x`y" ∧
    fromString E b!"a\n  `x`y" = .ok (.node (.str b!"_") [.node (.str b!"a") [.node (.str b!"x") [.node (.str b!"y") []]]]) := by
  rw [fromString_small _ _ (by decide)]
  exact ⟨rfl, rfl⟩

/-! ## C46: `Text` and `Show` do not panic -/

/-- C46 is refuted: a graph whose only visible node is a quote, or a CR. -/
theorem C46_text_panics_refuted (E : Ext) :
    (Graph.node (.str b!"_") [.node (.str b!"\"") []]).text E = .panic ∧
    (Graph.node (.str b!"_") [.node (.str b!"\r") []]).text E = .panic ∧
    (Graph.node (.str b!"\"") []).show_ E = .panic := ⟨rfl, rfl, rfl⟩

/-- C46, part: `Text` panics exactly on the graphs that show a single leaf made of CRs
and at most one quote; nil pointers among the subnodes included. -/
theorem C46_text_panic_iff_partial (E : Ext) (g : Graph) :
    g.text E = .panic ↔ ∃ s, shownL E g.out = [.node (.str s) []] ∧
      (s.filter (· ≠ 13) = [] ∨ s.filter (· ≠ 13) = [34]) := by
  cases g with
  | nil => simp [Graph.text, shownL, Graph.out]
  | node v o =>
    simp only [Graph.text, Graph.out_node]
    have hok := shownL_ok E o
    constructor
    · intro h
      have h1 := finishText_panic h
      rw [textAtL_shown] at h1
      refine textAtL_one_line E _ hok.1 hok.2 (h1.resolve_left ?_)
      exact textAtL_ends E false 0 _
    · rintro ⟨s, hs, h⟩
      rw [textAtL_shown, hs]
      have hne : s ≠ [] := by
        rw [hs] at hok
        obtain ⟨⟨⟨_, h1, h2⟩, _⟩, _⟩ := hok.2
        simp only [Val.str.injEq] at h1
        rw [h1]; exact h2
      simp only [Graph.textAtL, Graph.textAt, vstr, textContent_lvl0 false hne, List.append_nil]
      rcases h with h | h <;> rw [h] <;> rfl

/-- C46, part: neither `Text` nor `Show` ever fails to return. -/
theorem C46_returns_partial (E : Ext) (g : Graph) : g.text E ≠ .oof ∧ g.show_ E ≠ .oof := by
  have : ∀ s, finishText s ≠ .oof := by
    intro s
    simp only [finishText]
    split
    · simp
    · split
      · simp
      · split
        · split <;> simp
        · simp
  cases g with
  | nil => simp [Graph.text, Graph.show_]
  | node t o => exact ⟨this _, this _⟩

/-- C46, part: `Show` panics exactly on a leaf made of CRs and at most one quote. -/
theorem C46_show_panic_iff_partial (E : Ext) (g : Graph) :
    g.show_ E = .panic ↔ ∃ t, g = .node t [] ∧ vstr E t ≠ [] ∧
      ((vstr E t).filter (· ≠ 13) = [] ∨ (vstr E t).filter (· ≠ 13) = [34]) := by
  cases g with
  | nil => simp [Graph.show_]
  | node t o =>
    simp only [Graph.show_, Graph.textAt]
    constructor
    · intro h
      have h1 := finishText_panic h
      have hlast := (textContent_ne (n := 0) (s := vstr E t) (.inr (rfl : true = true)))
      have h2 : ∀ B : Bytes, textContent true 0 (vstr E t) ++ B ≠ [34] := by
        intro B hB
        obtain ⟨ys, hy⟩ := List.getLast?_eq_some_iff.mp hlast.2
        rw [hy] at hB
        cases ys <;> simp at hB
      have h3 := h1.resolve_left (h2 _)
      have h4 := one_line h3 hlast.2
      have ho : o = [] := by
        cases o with
        | nil => rfl
        | cons x xs =>
          simp only [Graph.textAtL, List.append_eq_nil_iff] at h4
          cases x with
          | nil =>
            simp only [Graph.textAt] at h4
            exact ((textContent_ne (.inr rfl)).1 h4.1).elim
          | node a b =>
            simp only [Graph.textAt, List.append_eq_nil_iff] at h4
            exact ((textContent_ne (.inr rfl)).1 h4.1.1).elim
      subst ho
      refine ⟨t, rfl, ?_⟩
      rw [h4, List.append_nil] at h3
      by_cases hne : vstr E t = []
      · rw [hne] at h3
        simp [textContent, hasSpecial, textIndent] at h3
      · refine ⟨hne, ?_⟩
        rw [textContent_lvl0 true hne] at h3
        refine h3.imp (fun h => ?_) (fun h => ?_)
        · exact List.append_cancel_right (h.trans (List.nil_append [10]).symm)
        · exact List.append_cancel_right (h.trans (show [34, 10] = [34] ++ [10] from rfl))
    · rintro ⟨t', h, hne, hf⟩
      simp only [Graph.node.injEq] at h
      obtain ⟨rfl, rfl⟩ := h
      simp only [Graph.textAtL, List.append_nil, textContent_lvl0 true hne]
      rcases hf with h | h <;> rw [h] <;> rfl

/-! ## C63: words converted to Go values -/

/-- Every word has exactly one Go value: an int64 if it is a decimal integer in range,
else a float64 if it is a number, else a bool if it is true or false, else itself. -/
theorem C63_one_value (E : Ext) (w : Bytes) : ∃ v, TypedWord E w v ∧ ∀ v', TypedWord E w v' → v' = v :=
  ⟨typed E w, typed_iff.2 rfl, fun _ h => typed_iff.1 h⟩

/-- C63: `FromStringTypes` reads a tree of words, in any style, as the same tree with
each word replaced by its Go value.  Missing: indentations of 2048 columns or more. -/
theorem C63_typed_tree_partial (E : Ext) (gs xs : List Graph) (hp : AllThisL HoldsPlain gs) (hc : ConvertedL E gs xs) (st : Style)
    (hv : st.Valid (depthL gs)) : fromStringTypes E (renderL st 0 gs) = .ok (.node (.str b!"_") xs) := by
  refine fromReader_of_textOf (textOf_typed E st gs xs hv hp hc) (shortRuns_iff.mpr ?_)
  have := shortSpaces_renderL st _ hv gs 0 (by omega) hp [] shortSpaces_nil
  simpa using this

theorem intText_12 : IntText b!"-12" (-12) :=
  ⟨b!"12", by decide, by decide, .inr ⟨rfl, by decide⟩, by decide, by decide⟩

theorem not_intText_of_head (w : Bytes) (h : ∀ c, w.head? = some c → c ≠ 43 ∧ c ≠ 45 ∧ 57 < c) (hne : w ≠ []) (i : Int) : ¬ IntText w i := by
  rintro ⟨ds, hd, hdig, h2, _⟩
  cases ds with
  | nil => exact hd rfl
  | cons a ds =>
    have h57 := (hdig a (by simp)).2
    rcases h2 with ⟨rfl | rfl, _⟩ | ⟨rfl, _⟩
    · exact absurd (h a rfl).2.2 (UInt8.not_lt.mpr h57)
    · exact (h 43 rfl).1 rfl
    · exact (h 45 rfl).2.1 rfl

/-- `k -12` and `true`: a number, a boolean and a word. -/
example (E : Ext) (h1 : E.parseFloat b!"k" = none) (h2 : E.parseFloat b!"true" = none) :
    ConvertedL E [.node (.str b!"k") [.node (.str b!"-12") []], .node (.str b!"true") []]
      [.node (.str b!"k") [.node (.int .int64 (-12)) []], .node (.bool true) []] := by
  simp only [ConvertedL, Converted, and_true]
  exact ⟨⟨.text (fun i => not_intText_of_head _ (by simp) (by decide) i) h1 (by decide) (by decide), .int intText_12⟩,
    .true (fun i => not_intText_of_head _ (by simp) (by decide) i) h2 rfl⟩

/-- C63: quoted text stays a string, whatever it looks like.  Missing: texts with 2048 blanks in a row. -/
theorem C63_quoted_partial (E : Ext) (q : UInt8) (hq : q = 34 ∨ q = 39) (v : Bytes) (hv : Quotable 0 v)
    (hs : ShortRuns (q :: escape 0 q v ++ [q])) :
    fromStringTypes E (q :: escape 0 q v ++ [q]) = .ok (.node (.str b!"_") [.node (.str v) []]) := by
  refine fromReader_of_textOf ⟨0, true, ?_, by simp⟩ hs
  simpa [chain] using Writes.open (s := []) (vs := []) (fun c hc => by simp at hc) rfl (.last (Scal.quoted (E := E) (types := true) hq hv))

example : Quotable 0 b!"12" ∧ escape 0 34 b!"12" = b!"12" := ⟨⟨by decide, by simp [LoneSlashes], by decide⟩, rfl⟩

/-! ## C64: blocks -/

/-- C64, part: a backslash at the end of an unindented line makes the indented lines
that follow one value, without their indentation, and the text goes on after them.
Missing: blocks below the top level (refuted below), lines indented by a mixture of
spaces and tabs. -/
theorem C64_block_partial (E : Ext) (us : List (Bytes × Bytes)) (hu : ∀ u ∈ us, PlainWord u.1 ∧ u.2 ≠ [] ∧ Blank u.2)
    (ls : List (Bytes × Bytes)) (hl : ∀ l ∈ ls, l.1 ≠ [] ∧ ((∀ c ∈ l.1, c = 32) ∨ (∀ c ∈ l.1, c = 9)) ∧ BlockLine l.2)
    (hlast : ∀ l, ls.getLast? = some l → l.2 ≠ [])
    (gs : List Graph) (hn : NoNilL gs) (hp : AllThisL HoldsPlain gs) (st : Style) (hv : st.Valid (depthL gs)) (h0 : st.ind 0 = [])
    (hs : ShortRuns (Spec.inline us [] ++ 92 :: 10 :: blockText ls ++ renderL st 0 gs)) :
    fromString E (Spec.inline us [] ++ 92 :: 10 :: blockText ls ++ renderL st 0 gs) =
      .ok (.node (.str b!"_") (chain ((us.map fun u => Val.str u.1) ++ [.str (unlines (ls.map (·.2)))]) ++ gs)) := by
  have hw := writes_renderL E st _ hv gs 0 (by omega) hn hp
  rw [h0, List.length_nil] at hw
  have := Writes.block (k := 0) (eol := [10]) (ls := ls.map (·.2)) (prefixOf_words E 0 us hu) (.inl rfl) (by
      intro l h
      rw [List.getLast?_map, Option.map_eq_some_iff] at h
      obtain ⟨x, hx, rfl⟩ := h
      exact hlast x hx) (by simpa using blockOf_text ls hl) hw (render_head h0 hn hp)
  refine fromReader_of_textOf ⟨0, false || (renderL st 0 gs).isEmpty, ?_, by simp⟩ hs
  rw [show Spec.inline us [] ++ 92 :: 10 :: blockText ls = Spec.inline us [] ++ 92 :: [10] ++ blockText ls by simp]
  exact this

/-- An empty line in the middle of the block is kept if it is indented. -/
example (E : Ext) : fromString E b!"a \\\n  x y\n \n\tz\nb\n" =
    .ok (.node (.str b!"_") [.node (.str b!"a") [.node (.str b!"x y\n\nz") []], .node (.str b!"b") []]) := by
  rw [fromString_small _ _ (by decide)]; rfl

example : Spec.inline [(b!"a", b!" ")] [] ++ 92 :: 10 :: blockText [(b!"  ", b!"x y"), (b!" ", []), (b!"\t", b!"z")] ++
    renderL ⟨fun d => List.replicate d 32, [10]⟩ 0 [.node (.str b!"b") []] = b!"a \\\n  x y\n \n\tz\nb\n" ∧
    unlines [b!"x y", [], b!"z"] = b!"x y\n\nz" := ⟨rfl, rfl⟩

/-- C64 is refuted below the top level: the line after the block moves up. -/
theorem C64_nested_refuted (E : Ext) :
    fromString E b!"r\n  a \\\n    x\n  b\n" =
      .ok (.node (.str b!"_") [.node (.str b!"r") [.node (.str b!"a") [.node (.str b!"x") []]], .node (.str b!"b") []]) := by
  rw [fromString_small _ _ (by decide)]; rfl

/-! ## C65: the text of a single value -/

/-- C65, part: `Text` of a graph with one value is the string of that value.  Missing:
values with CR, and values that start with a quote. -/
theorem C65_text_partial (E : Ext) (root v : Val) (h13 : 13 ∉ vstr E v) (h34 : (vstr E v).head? ≠ some 34) :
    (Graph.node root [.node v []]).text E = .ok (vstr E v) := by
  cases hs : vstr E v with
  | nil => simp [Graph.text, Graph.textAtL, Graph.textAt, hs, textContent, hasSpecial, finishText]
  | cons c t =>
    rw [hs] at h13 h34
    have := textContent_top (c :: t) (by simp) h13
    simp only [Graph.text, Graph.textAtL, Graph.textAt, hs, this, List.append_nil, finishText, List.getLast?_concat, List.dropLast_concat]
    simp at h34
    simp [h34]

example (E : Ext) : (Graph.node .nil [.node (.str b!"two words, \"quoted\"\nand a line") []]).text E = .ok b!"two words, \"quoted\"\nand a line" :=
  C65_text_partial E _ _ (by simp [vstr]) (by simp [vstr])

/-- Quotes around the value are removed, and the quotes in it unescaped. -/
theorem C65_unquoted (E : Ext) (root : Val) (s : Bytes) (h : 13 ∉ s) :
    (Graph.node root [.node (.str (34 :: escape 0 34 s ++ [34])) []]).text E = .ok s := by
  have h13 : 13 ∉ escape 0 34 s := by
    induction s with
    | nil => simp [escape]
    | cons c t ih =>
      simp only [List.mem_cons, not_or] at h
      simp only [escape]
      split
      · simpa using ih h.2
      · split
        · rename_i h34
          simp [ih h.2, h34]
        · simp [ih h.2, h.1]
  have := textContent_top (34 :: escape 0 34 s ++ [34]) (by simp) (by simp [h13])
  simp only [Graph.text, Graph.textAtL, Graph.textAt, vstr, this, List.append_nil, finishText, List.getLast?_concat, List.dropLast_concat]
  simp only [List.cons_append, List.isEmpty_cons, Bool.false_eq_true, ↓reduceIte, beq_self_eq_true]
  simp [unescape_escape]

/-- C65 is refuted: the quotes of a quoted value are not part of its text. -/
theorem C65_quotes_refuted (E : Ext) (root : Val) : (Graph.node root [.node (.str b!"\"a\"") []]).text E = .ok b!"a" := rfl

/-! ## C66: comments at the end of a line -/

/-- C66, part: a comment at the end of a line, after at least one blank, does not
change what is read.  Missing: comments that end with CR NL (refuted below). -/
theorem C66_comment_partial (E : Ext) (u : Bytes × Bytes) (us : List (Bytes × Bytes)) (hu : ∀ x ∈ u :: us, PlainWord x.1 ∧ x.2 ≠ [] ∧ Blank x.2)
    (b : UInt8) (hb : b = 32 ∨ b = 9) (c : Bytes) (hc : ∀ x ∈ c, x = 9 ∨ 32 ≤ x)
    (gs : List Graph) (hn : NoNilL gs) (hp : AllThisL HoldsPlain gs) (st : Style) (hv : st.Valid (depthL gs)) (h0 : st.ind 0 = [])
    (hs : ShortRuns (Spec.inline (u :: us) (35 :: b :: c) ++ 10 :: renderL st 0 gs)) :
    fromString E (Spec.inline (u :: us) (35 :: b :: c) ++ 10 :: renderL st 0 gs) =
      .ok (.node (.str b!"_") (chain ((u :: us).map fun u => Val.str u.1) ++ gs)) := by
  have hw := writes_renderL E st _ hv gs 0 (by omega) hn hp
  rw [h0, List.length_nil] at hw
  have hin : ∀ us : List (Bytes × Bytes), Spec.inline us (35 :: b :: c) = Spec.inline us [] ++ 35 :: b :: c := by
    intro us
    induction us with
    | nil => rfl
    | cons u us ih => simp [Spec.inline, ih]
  have hpre := prefixOf_words E 0 (u :: us) hu
  have := Writes.noted (n := 0) (m := 1) (s := []) (o1 := false) (t1 := []) (fun c hc => by simp at hc) rfl hpre hb hc (by omega) .nil hw (by simp)
  refine fromReader_of_textOf ⟨0, false, ?_, by simp⟩ hs
  rw [hin]
  simpa [chain] using this

example (E : Ext) : fromString E b!"a b # note\nc\n" =
    .ok (.node (.str b!"_") [.node (.str b!"a") [.node (.str b!"b") []], .node (.str b!"c") []]) := by
  rw [fromString_small _ _ (by decide)]; rfl

/-- C66, part: comments at the end of any lines of a document, at any depth, do not
change what is read.  Missing: lines that end with CR NL (refuted below). -/
theorem C66_any_line_partial (E : Ext) (ind : Nat → Bytes) (gs : List Lined) (hv : Style.Valid ⟨ind, [10]⟩ (Lined.depthL gs)) (hok : Lined.OkL ind 0 gs)
    (hs : ShortRuns (Lined.textL ind 0 gs)) (hs' : ShortRuns (Lined.textL ind 0 (Lined.bareL gs))) :
    fromString E (Lined.textL ind 0 gs) = fromString E (Lined.textL ind 0 (Lined.bareL gs)) ∧
      fromString E (Lined.textL ind 0 gs) = .ok (.node (.str b!"_") (Lined.treeL gs)) := by
  have h1 : fromString E (Lined.textL ind 0 gs) = .ok (.node (.str b!"_") (Lined.treeL gs)) := fromReader_of_textOf (textOf_lined E ind gs hv hok) hs
  have h2 : fromString E (Lined.textL ind 0 (Lined.bareL gs)) = .ok (.node (.str b!"_") (Lined.treeL (Lined.bareL gs))) :=
    fromReader_of_textOf (textOf_lined E ind (Lined.bareL gs) (by rwa [bare_depthL]) (bare_okL ind gs 0 hok)) hs'
  rw [bare_treeL] at h2
  exact ⟨by rw [h1, h2], h1⟩

/-- Two lines with comments, the second indented and with a quoted value. -/
example : Lined.textL (fun d => List.replicate (2 * d) 32) 0
    [.line [] (.word b!"a") (some (b!" ", b!"first")) [.line [(.word b!"b", b!"  ")] (.quoted 34 b!"c # d") (some (b!"\t", b!"second")) []]] =
    b!"a # first\n  b  \"c # d\"\t# second\n" := rfl

example : Lined.OkL (fun d => List.replicate (2 * d) 32) 0
    [.line [] (.word b!"a") (some (b!" ", b!"first")) [.line [(.word b!"b", b!"  ")] (.quoted 34 b!"c # d") (some (b!"\t", b!"second")) []]] := by
  have hp : ∀ c, 32 < c → c ≠ 34 → c ≠ 39 → c ≠ 96 → c ≠ 44 → c ≠ 92 → c ≠ 35 → PlainWord [c] := fun c h h1 h2 h3 h4 h5 h6 =>
    ⟨⟨by simpa using h, c, [], rfl, h1, h2, h3, h4⟩, by simpa using h5, by simpa using h6⟩
  simp only [Lined.OkL, Lined.Ok, Piece.Ok, and_true]
  refine ⟨by simp, hp _ (by decide) (by decide) (by decide) (by decide) (by decide) (by decide) (by decide), ?_, ?_, ⟨.inl trivial, by decide, ?_, by simp⟩, ?_⟩
  · rintro sp c ⟨⟩; exact ⟨by decide, by simp [Blank], by decide⟩
  · simp only [List.mem_singleton, forall_eq]
    exact ⟨hp _ (by decide) (by decide) (by decide) (by decide) (by decide) (by decide) (by decide), by decide, by simp [Blank]⟩
  · simp [LoneSlashes]
  · rintro sp c ⟨⟩; exact ⟨by decide, by simp [Blank], by decide⟩

/-- C66 is refuted for lines that end with CR NL. -/
theorem C66_crlf_refuted (E : Ext) :
    fromString E b!"r\r\n  a\r\n    b\r\n    c" =
      .ok (.node (.str b!"_") [.node (.str b!"r") [.node (.str b!"a") [.node (.str b!"b") [], .node (.str b!"c") []]]]) ∧
    fromString E b!"r\r\n  a\r\n    b # note\r\n    c" =
      .ok (.node (.str b!"_") [.node (.str b!"r") [.node (.str b!"a") [.node (.str b!"b") []], .node (.str b!"c") []]]) := by
  rw [fromString_small _ _ (by decide), fromString_small _ _ (by decide)]
  exact ⟨rfl, rfl⟩

end Ogdl
