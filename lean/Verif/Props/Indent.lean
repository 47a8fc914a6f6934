import Verif.Lemmas.Indent
import Verif.Props.Text

/-!
# C114: indentation of any kind; C56: lines without values
-/

namespace Ogdl
open Spec Spec.Indent Indent

/-- C114: a line is below the nearest line before it that is indented less, whatever the
indentation of the lines in between; the lines below a line are below its first value,
after the other values of that line.  For all texts of any number of lines, each
with any values, a comment or nothing in it, and indented by any blanks.

Missing, and false of the code: the first line is indented by a mixture of spaces and tabs
(`C114_mixed_refuted`), a line is indented less than the first
(`C114_less_refuted`, `C114_levels`), a line without values is indented less than the
next one (`C56_blank_line_refuted`, `C114_levels`). -/
theorem C114_partial (E : Ext) (types : Bool) (i : Nat) (vs : List Val) (ls : List (Nat × List Val)) (t : Bytes)
    (h : Rows E types ((i, vs) :: ls) t) (hu : (∀ c ∈ t.take i, c = 32) ∨ (∀ c ∈ t.take i, c = 9)) (hs : ShortRuns t)
    (hi : ∀ r ∈ ls, i ≤ r.1) (hh : Harmless ((i, vs) :: ls)) :
    fromReader E types { data := t } = .ok (.node (.str b!"_") (trees ((i, vs) :: ls))) :=
  fromReader_trees h hu hs hi hh

/-- The example in the comment of `line` in block.go (its `f` is indented by one blank, and
`e` by less than `d`). -/
theorem sample_rows (E : Ext) : Rows E false
    [(0, [.str b!"a"]), (2, [.str b!"b"]), (2, [.str b!"c"]), (4, [.str b!"d"]), (3, [.str b!"e"]), (1, [.str b!"f"])]
    b!"a\n  b\n  c\n    d\n   e\n f\n" :=
  rows_word (s := []) (w := b!"a") (by simp [Blank]) (word_one (by decide)) (by decide) <|
  rows_word (s := b!"  ") (w := b!"b") (by simp [Blank]) (word_one (by decide)) (by decide) <|
  rows_word (s := b!"  ") (w := b!"c") (by simp [Blank]) (word_one (by decide)) (by decide) <|
  rows_word (s := b!"    ") (w := b!"d") (by simp [Blank]) (word_one (by decide)) (by decide) <|
  rows_word (s := b!"   ") (w := b!"e") (by simp [Blank]) (word_one (by decide)) (by decide) <|
  rows_word (s := b!" ") (w := b!"f") (by simp [Blank]) (word_one (by decide)) (by decide) .nil

example (E : Ext) : fromString E b!"a\n  b\n  c\n    d\n   e\n f\n" =
    .ok (.node (.str b!"_") [.node (.str b!"a") [.node (.str b!"b") [],
      .node (.str b!"c") [.node (.str b!"d") [], .node (.str b!"e") []], .node (.str b!"f") []]]) := by
  have := C114_partial E false _ _ _ _ (sample_rows E) (.inl (by simp)) (by
    intro p u s h _
    have := congrArg List.length h
    simp at this; omega) (by simp) (by simp [Harmless])
  simpa [trees, chain, fromString] using this

/-- Several values in a line, after a comma, a comment, a block, and no end of line at the end. -/
example (E : Ext) : Rows E false
    [(0, [.str b!"a"]), (3, [.str b!"b", .str b!"c"]), (1, [.str b!"d"]), (0, [.str b!"e", .str b!"l m\nn"]), (0, [.str b!"f"])]
    b!"a\n   , b c\n\td # x\ne \\\n  l m\n  n\nf" :=
  rows_word (s := []) (w := b!"a") (by simp [Blank]) (word_one (by decide)) (by decide) <|
  .cons (s := b!"   ") (b := b!", b c\n") (by simp [Blank]) (.comma (sp := b!" ") (t := b!"b c") (eol := [10]) (by simp [Blank])
    (.more (r := b!"b") (sp := b!" ") (t := b!"c") (word_scal_mid (w := b!"b") (word_one (c := 98) (by decide)) (by decide)) (by simp) (by simp [Blank])
      (.last (word_scal (word_one (by decide)) (by decide)))) (.inl rfl)) <|
  .cons (s := b!"\t") (b := b!"d # x\n") (by simp [Blank]) (.noted (t := b!"d ") (c := b!"x") (b := 32)
    (.cons (r := b!"d") (sp := b!" ") (t := []) (word_scal_mid (w := b!"d") (word_one (c := 100) (by decide)) (by decide)) (by simp) (by simp [Blank]) .nil)
    (.inl rfl) (by decide)) <|
  .block (t := b!"e ") (eol := [10]) (b := b!"  l m\n  n\n") (rest := b!"f") (vs := [.str b!"e"]) (bs := [b!"l m", b!"n"]) (k := 0)
    (.cons (r := b!"e") (sp := b!" ") (t := []) (word_scal_mid (w := b!"e") (word_one (c := 101) (by decide)) (by decide)) (by simp) (by simp [Blank]) .nil)
    (.inl rfl) (by simp)
    (.line (ind := b!"  ") (l := b!"l m") (eol := [10]) (t := b!"  n\n") (by simp) (.inl (by simp)) ⟨by decide, by simp⟩ (.inl rfl)
      (.line (ind := b!"  ") (l := b!"n") (eol := [10]) (t := []) (by simp) (.inl (by simp)) ⟨by decide, by simp⟩ (.inl rfl) .nil))
    (by simp)
    (.last (s := []) (t := b!"f") (by simp [Blank]) (.last (word_scal (word_one (by decide)) (by decide))))

/-- C114, whatever the lines: the values of a line are as deep as the rule says, counting
the lines without values among the lines before, and the lines from the first one on
that is indented less than the first line of the text are not read. -/
theorem C114_levels (E : Ext) (types : Bool) (i : Nat) (vs : List Val) (ls : List (Nat × List Val)) (t : Bytes)
    (h : Rows E types ((i, vs) :: ls) t) (hu : (∀ c ∈ t.take i, c = 32) ∨ (∀ c ∈ t.take i, c = 9)) (hs : ShortRuns t) :
    fromReader E types { data := t } =
      .ok (.node (.str b!"_") (below 0 (items [] (((i, vs) :: ls).takeWhile (i ≤ ·.1))))) :=
  fromReader_rows h hu hs

example : items [] [(0, [.str b!"a"]), (2, [.str b!"b"]), (0, []), (4, [.str b!"c", .str b!"d"])] =
    [(0, .str b!"a"), (1, .str b!"b"), (1, .str b!"c"), (2, .str b!"d")] := rfl

/-- C114 is false of lines that are indented less than the first: they are lost. -/
theorem C114_less_refuted (E : Ext) : ∃ (ls : List (Nat × List Val)) (t : Bytes), Rows E false ls t ∧
    trees ls = [.node (.str b!"a") [], .node (.str b!"b") []] ∧
    fromString E t = .ok (.node (.str b!"_") [.node (.str b!"a") []]) := by
  refine ⟨[(2, [.str b!"a"]), (0, [.str b!"b"])], b!"  a\nb\n", ?_, by simp [trees, chain], ?_⟩
  · exact rows_word (s := b!"  ") (w := b!"a") (by simp [Blank]) (word_one (by decide)) (by decide) <|
      rows_word (s := []) (w := b!"b") (by simp [Blank]) (word_one (by decide)) (by decide) .nil
  · rw [fromString_small _ _ (by decide)]; rfl

/-- C114 is false if the first line is indented by spaces and tabs: nothing is read. -/
theorem C114_mixed_refuted (E : Ext) : ∃ (ls : List (Nat × List Val)) (t : Bytes), Rows E false ls t ∧
    trees ls = [.node (.str b!"a") []] ∧ fromString E t = .ok (.node (.str b!"_") []) := by
  refine ⟨[(2, [.str b!"a"])], b!" \ta\n", ?_, by simp [trees, chain], ?_⟩
  · exact rows_word (s := b!" \t") (w := b!"a") (by simp [Blank]) (word_one (by decide)) (by decide) .nil
  · rw [fromString_small _ _ (by decide)]; rfl

/-- C11 and C114: only the order of the indentations matters.  If the lines of two texts have the same
values and the indentations of one are those of the other, changed by any
function that grows (twice as wide, all shifted to the right, tabs for spaces), they are
read as the same graph.  Missing: as in `C114_partial`. -/
theorem C114_order_partial (E : Ext) (types : Bool) (i : Nat) (vs : List Val) (ls : List (Nat × List Val)) (t t' : Bytes)
    (f : Nat → Nat) (hf : ∀ i j, i < j ↔ f i < f j)
    (h : Rows E types ((i, vs) :: ls) t) (h' : Rows E types ((f i, vs) :: ls.map fun r => (f r.1, r.2)) t')
    (hu : (∀ c ∈ t.take i, c = 32) ∨ (∀ c ∈ t.take i, c = 9)) (hu' : (∀ c ∈ t'.take (f i), c = 32) ∨ (∀ c ∈ t'.take (f i), c = 9))
    (hs : ShortRuns t ∧ ShortRuns t') (hi : ∀ r ∈ ls, i ≤ r.1) (hh : Harmless ((i, vs) :: ls)) :
    fromReader E types { data := t } = fromReader E types { data := t' } := by
  have hi' : ∀ r ∈ ls.map (fun r => (f r.1, r.2)), f i ≤ r.1 := by
    intro r hr
    obtain ⟨q, hq, rfl⟩ := List.mem_map.1 hr
    have := hf q.1 i
    have := hi q hq
    simp only; omega
  rw [fromReader_trees h hu hs.1 hi hh, fromReader_trees h' hu' hs.2 hi' (harmless_map hf _ hh)]
  have := trees_map hf _ ((i, vs) :: ls) (Nat.lt_succ_self _)
  rw [List.map_cons] at this
  rw [this]

/-- All lines shifted by one tab. -/
example (E : Ext) : fromString E b!"a\n   b\n  c\n" = fromString E b!"\ta\n\t   b\n\t  c\n" := by
  have key : ∀ t : Bytes, t.length ≤ 2047 → ShortRuns t := by
    intro t ht p u s h _
    have := congrArg List.length h
    simp at this; omega
  refine C114_order_partial E false 0 [.str b!"a"] [(3, [.str b!"b"]), (2, [.str b!"c"])] _ _ (· + 1) (by omega) ?_ ?_
    (.inl (by simp)) (.inr (by simp)) ⟨key _ (by decide), key _ (by decide)⟩ (by simp) (by simp [Harmless])
  · exact rows_word (s := []) (w := b!"a") (by simp [Blank]) (word_one (by decide)) (by decide) <|
      rows_word (s := b!"   ") (w := b!"b") (by simp [Blank]) (word_one (by decide)) (by decide) <|
      rows_word (s := b!"  ") (w := b!"c") (by simp [Blank]) (word_one (by decide)) (by decide) .nil
  · exact rows_word (s := b!"\t") (w := b!"a") (by simp [Blank]) (word_one (by decide)) (by decide) <|
      rows_word (s := b!"\t   ") (w := b!"b") (by simp [Blank]) (word_one (by decide)) (by decide) <|
      rows_word (s := b!"\t  ") (w := b!"c") (by simp [Blank]) (word_one (by decide)) (by decide) .nil

/-- C56, for any indentation: lines without values (empty lines and comments) can be taken
out of a text, or put into it, if each is indented at least as much as the line that
follows.  Missing: lines indented less (`C56_blank_line_refuted`), and
texts with a line indented less than the first. -/
theorem C56_indented_partial (E : Ext) (types : Bool) (i : Nat) (v : Val) (vs : List Val) (ls : List (Nat × List Val)) (t t' : Bytes)
    (h : Rows E types ((i, v :: vs) :: ls) t) (h' : Rows E types ((i, v :: vs) :: ls.filter (!·.2.isEmpty)) t')
    (hu : ((∀ c ∈ t.take i, c = 32) ∨ (∀ c ∈ t.take i, c = 9)) ∧ ((∀ c ∈ t'.take i, c = 32) ∨ (∀ c ∈ t'.take i, c = 9)))
    (hs : ShortRuns t ∧ ShortRuns t') (hi : ∀ r ∈ ls, i ≤ r.1) (hh : Harmless ((i, v :: vs) :: ls)) :
    fromReader E types { data := t } = fromReader E types { data := t' } := by
  rw [fromReader_trees h hu.1 hs.1 hi hh, fromReader_trees h' hu.2 hs.2 (fun r hr => hi r (List.mem_filter.1 hr).1)
    (harmless_of_values _ fun r hr => by
      rcases List.mem_cons.1 hr with rfl | hr
      · simp
      · simpa using (List.mem_filter.1 hr).2), trees_filter hh]
  simp

/-- An empty line with three blanks in it, before a line with two. -/
example (E : Ext) : fromString E b!"a\n  b\n   \n  c\n" = fromString E b!"a\n  b\n  c\n" := by
  have key : ∀ t : Bytes, t.length ≤ 2047 → ShortRuns t := by
    intro t ht p u s h _
    have := congrArg List.length h
    simp at this; omega
  refine C56_indented_partial E false 0 (.str b!"a") [] [(2, [.str b!"b"]), (3, []), (2, [.str b!"c"])] _ _ ?_ ?_
    ⟨.inl (by simp), .inl (by simp)⟩ ⟨key _ (by decide), key _ (by decide)⟩ (by simp) (by simp [Harmless])
  · exact rows_word (s := []) (w := b!"a") (by simp [Blank]) (word_one (by decide)) (by decide) <|
      rows_word (s := b!"  ") (w := b!"b") (by simp [Blank]) (word_one (by decide)) (by decide) <|
      .cons (s := b!"   ") (b := [10]) (by simp [Blank]) (.empty (.inl rfl)) <|
      rows_word (s := b!"  ") (w := b!"c") (by simp [Blank]) (word_one (by decide)) (by decide) .nil
  · exact rows_word (s := []) (w := b!"a") (by simp [Blank]) (word_one (by decide)) (by decide) <|
      rows_word (s := b!"  ") (w := b!"b") (by simp [Blank]) (word_one (by decide)) (by decide) <|
      rows_word (s := b!"  ") (w := b!"c") (by simp [Blank]) (word_one (by decide)) (by decide) .nil

end Ogdl
