import Verif.Spec.Html


/-!
# C83: Html

`Spec.pageLines`: one line per node, linked when it has subnodes.  `Spec.linksClose`:
links are opened and closed in turns.
-/

namespace Ogdl
open Spec

theorem nodeName_eq (E : Ext) (t : Val) : htmlName E t = nodeName E t := by
  simp only [htmlName, nodeName, List.isEmpty_iff]

theorem hasSpecial_plain {s : Bytes} (h : PlainName s) : hasSpecial s = false := by
  simp only [hasSpecial, List.any_eq_false]
  intro c hc
  obtain ⟨h1, h2, h3, h4, h5, h6, h7, h8, h9, _⟩ := h c hc
  simp [h1, h2, h3, h4, h5, h6, h7, h8, h9]

theorem nodeName_plain {E : Ext} {t : Val} (h : PlainName (vstr E t)) : PlainName (nodeName E t) := by
  unfold nodeName
  split
  · intro c hc
    simp at hc
    subst hc
    decide
  · exact h

mutual
theorem htmlAt_lines (E : Ext) : ∀ (g : Graph) (n : Nat) (path : Bytes), AllThis (fun v => PlainName (vstr E v)) g →
    g.htmlAt E n path = ((pageLines E n path g).map (· ++ [10])).flatten
  | .nil, n, path, _ => rfl
  | .node t o, n, path, h => by
    simp only [AllThis] at h
    have hs := hasSpecial_plain (nodeName_plain h.1)
    have ih := htmlAtL_lines E o (n + 1) (path ++ b!"/" ++ nodeName E t) h.2
    simp only [Graph.htmlAt, nodeName_eq, ih, htmlLine, hs]
    cases o with
    | nil => simp [pageLines, htmlIndent]
    | cons a o => simp [pageLines, htmlIndent]
theorem htmlAtL_lines (E : Ext) : ∀ (gs : List Graph) (n : Nat) (path : Bytes), AllThisL (fun v => PlainName (vstr E v)) gs →
    Graph.htmlAtL E n path gs = ((pageLinesL E n path gs).map (· ++ [10])).flatten
  | [], n, path, _ => rfl
  | g :: gs, n, path, h => by
    simp only [AllThisL] at h
    simp [Graph.htmlAtL, pageLinesL, htmlAt_lines E g n path h.1, htmlAtL_lines E gs n path h.2]
end

theorem finish_lines (ls : List Bytes) (h : ∀ l ∈ ls, ∃ c t, l = c :: t ∧ c ≠ 34) :
    finishText ((ls.map (· ++ [10])).flatten) = .ok (List.intercalate [10] ls) := by
  cases hl : ls.reverse with
  | nil =>
    have : ls = [] := by simpa using hl
    subst this
    rfl
  | cons a rs =>
    have hls : ls = rs.reverse ++ [a] := by
      have := congrArg List.reverse hl
      simpa using this
    subst hls
    have hic : ∀ (xs : List Bytes) (a : Bytes), List.intercalate [10] (xs ++ [a]) = (xs.map (· ++ [10])).flatten ++ a := by
      intro xs a
      induction xs with
      | nil => simp [List.intercalate]
      | cons x xs ih =>
        cases xs with
        | nil => simp [List.intercalate, List.intersperse]
        | cons y ys =>
          simp only [List.intercalate] at ih ⊢
          simp only [List.cons_append, List.intersperse, List.flatten_cons, List.map_cons] at ih ⊢
          simp [ih]
    have hfl : ((rs.reverse ++ [a]).map (· ++ [10])).flatten = List.intercalate [10] (rs.reverse ++ [a]) ++ [10] := by
      rw [hic]; simp
    rw [hfl]
    have hhead : ∃ c t, List.intercalate [10] (rs.reverse ++ [a]) = c :: t ∧ c ≠ 34 := by
      rw [hic]
      cases hr : rs.reverse with
      | nil =>
        obtain ⟨c, t, rfl, hc⟩ := h a (by simp)
        exact ⟨c, t, by simp, hc⟩
      | cons b bs =>
        obtain ⟨c, t, rfl, hc⟩ := h b (by simp [hr])
        exact ⟨c, _, by simp; rfl, hc⟩
    obtain ⟨c, t, hct, hc⟩ := hhead
    rw [hct]
    have hd : (c :: t ++ [10]).dropLast = c :: t := List.dropLast_concat
    have hl : (c :: t ++ [10]).getLast? = some 10 := List.getLast?_concat
    have he : (c :: t ++ [10]).isEmpty = false := rfl
    simp only [finishText, he, hd, hl, beq_self_eq_true, ↓reduceIte, Bool.false_eq_true]
    simp [hc]

theorem indent_name_head (E : Ext) (n : Nat) {t : Val} (h : PlainName (vstr E t)) (tail : Bytes) :
    ∃ c r, (List.replicate n b!"&nbsp;&nbsp;").flatten ++ nodeName E t ++ tail = c :: r ∧ c ≠ 34 := by
  cases n with
  | zero =>
    have hp := nodeName_plain h
    cases hs : nodeName E t with
    | nil =>
      exfalso
      unfold nodeName at hs
      split at hs
      · simp at hs
      · rename_i h'; exact h' hs
    | cons c r =>
      rw [hs] at hp
      exact ⟨c, r ++ tail, by simp, (hp c (by simp)).2.2.2.2.2.1⟩
  | succ n => exact ⟨38, _, rfl, by decide⟩

mutual
theorem pageLines_head (E : Ext) : ∀ (g : Graph) (n : Nat) (path : Bytes), AllThis (fun v => PlainName (vstr E v)) g →
    ∀ l ∈ pageLines E n path g, ∃ c t, l = c :: t ∧ c ≠ 34
  | .nil, n, path, _, l, hl => by simp [pageLines] at hl
  | .node t o, n, path, h, l, hl => by
    simp only [AllThis] at h
    simp only [pageLines, List.mem_cons] at hl
    rcases hl with hl | hl
    · subst hl
      cases o with
      | nil => exact indent_name_head E n h.1 _
      | cons a o => exact ⟨60, _, rfl, by decide⟩
    · exact pageLinesL_head E o _ _ h.2 l hl
theorem pageLinesL_head (E : Ext) : ∀ (gs : List Graph) (n : Nat) (path : Bytes), AllThisL (fun v => PlainName (vstr E v)) gs →
    ∀ l ∈ pageLinesL E n path gs, ∃ c t, l = c :: t ∧ c ≠ 34
  | [], n, path, _, l, hl => by simp [pageLinesL] at hl
  | g :: gs, n, path, h, l, hl => by
    simp only [AllThisL] at h
    simp only [pageLinesL, List.mem_append] at hl
    rcases hl with hl | hl
    · exact pageLines_head E g n path h.1 l hl
    · exact pageLinesL_head E gs n path h.2 l hl
end

/-- **C83** `Html` writes one line per node, with its text indented by its level, and
with a link to its path if it has subnodes; nodes without text are shown as `_`.  For
all graphs of plain names and all paths.  Partial: see below. -/
theorem C83_lines_partial (E : Ext) (path : Bytes) (root : Val) (o : List Graph) (h : AllThisL (fun v => PlainName (vstr E v)) o) :
    (Graph.node root o).html E path = .ok (List.intercalate [10] (pageLinesL E 0 path o)) := by
  rw [Graph.html, htmlAtL_lines E o 0 path h, finish_lines _ (pageLinesL_head E o 0 path h)]

/-! ### Links -/

theorem linksClose_skip (b : Bool) : ∀ (w s : Bytes), (∀ c ∈ w, c ≠ 60) → linksClose b (w ++ s) = linksClose b s
  | [], s, _ => rfl
  | c :: w, s, h => by
    have hc : c ≠ 60 := h c (by simp)
    rw [List.cons_append, linksClose, if_neg, if_neg, linksClose_skip b w s (fun c hc => h c (by simp [hc]))]
    · intro hp
      have := (List.cons_prefix_cons.1 hp).1
      exact hc this.symm
    · intro hp
      have := (List.cons_prefix_cons.1 hp).1
      exact hc this.symm

theorem linksClose_open (s : Bytes) : linksClose false (b!"<a " ++ s) = linksClose true s := by
  show linksClose false (60 :: (b!"a " ++ s)) = _
  rw [linksClose, if_pos (by simp)]
  exact linksClose_skip true b!"a " s (by decide)

theorem linksClose_close (s : Bytes) : linksClose true (b!"</a>" ++ s) = linksClose false s := by
  show linksClose true (60 :: (b!"/a>" ++ s)) = _
  rw [linksClose, if_neg (by simp), if_pos (by simp)]
  exact linksClose_skip false b!"/a>" s (by decide)

theorem linksClose_br (b : Bool) (s : Bytes) : linksClose b (b!"<br>" ++ s) = linksClose b s := by
  show linksClose b (60 :: (b!"br>" ++ s)) = _
  rw [linksClose, if_neg (by simp), if_neg (by simp)]
  exact linksClose_skip b b!"br>" s (by decide)

theorem noAngle_indent (n : Nat) : ∀ c ∈ (List.replicate n b!"&nbsp;&nbsp;").flatten, c ≠ 60 := by
  intro c hc
  simp only [List.mem_flatten, List.mem_replicate] at hc
  obtain ⟨l, ⟨_, rfl⟩, hc⟩ := hc
  revert hc
  revert c
  decide

mutual
theorem pageLines_links (E : Ext) : ∀ (g : Graph) (n : Nat) (path s : Bytes), AllThis (fun v => PlainName (vstr E v)) g → (∀ c ∈ path, c ≠ 60) →
    linksClose false (((pageLines E n path g).map (· ++ [10])).flatten ++ s) = linksClose false s
  | .nil, n, path, s, _, _ => rfl
  | .node t o, n, path, s, h, hp => by
    simp only [AllThis] at h
    have hs : ∀ c ∈ nodeName E t, c ≠ 60 := fun c hc => (nodeName_plain h.1 c hc).2.2.2.2.2.2.2.2.2.1
    have hp' : ∀ c ∈ path ++ b!"/" ++ nodeName E t, c ≠ 60 := by
      intro c hc
      simp only [List.mem_append] at hc
      rcases hc with (hc | hc) | hc
      · exact hp c hc
      · revert hc; revert c; decide
      · exact hs c hc
    have ih := pageLinesL_links E o (n + 1) (path ++ b!"/" ++ nodeName E t) s h.2 hp'
    cases o with
    | nil =>
      simp only [pageLines, pageLinesL, List.map_cons, List.map_nil, List.flatten_cons, List.flatten_nil, List.append_nil, List.append_assoc]
      rw [linksClose_skip _ _ _ (noAngle_indent n), linksClose_skip _ _ _ hs, linksClose_br]
      exact linksClose_skip _ [10] _ (by decide)
    | cons a o =>
      simp only [pageLines, List.map_cons, List.flatten_cons, List.append_assoc]
      have e1 : ∀ r : Bytes, b!"<a href='" ++ r = b!"<a " ++ (b!"href='" ++ r) := fun _ => rfl
      have e2 : ∀ r : Bytes, b!"</a><br>" ++ r = b!"</a>" ++ (b!"<br>" ++ r) := fun _ => rfl
      rw [e1, linksClose_open, linksClose_skip _ b!"href='" _ (by decide), linksClose_skip _ path _ hp, linksClose_skip _ b!"/" _ (by decide),
        linksClose_skip _ (nodeName E t) _ hs, linksClose_skip _ b!"'>" _ (by decide), linksClose_skip _ _ _ (noAngle_indent n),
        linksClose_skip _ _ _ hs, e2, linksClose_close, linksClose_br, linksClose_skip _ [10] _ (by decide)]
      simpa using ih
theorem pageLinesL_links (E : Ext) : ∀ (gs : List Graph) (n : Nat) (path s : Bytes), AllThisL (fun v => PlainName (vstr E v)) gs → (∀ c ∈ path, c ≠ 60) →
    linksClose false (((pageLinesL E n path gs).map (· ++ [10])).flatten ++ s) = linksClose false s
  | [], n, path, s, _, _ => rfl
  | g :: gs, n, path, s, h, hp => by
    simp only [AllThisL] at h
    simp only [pageLinesL, List.map_append, List.flatten_append, List.append_assoc]
    rw [pageLines_links E g n path _ h.1 hp, pageLinesL_links E gs n path s h.2 hp]
end

theorem intercalate_lines (ls : List Bytes) : List.intercalate [10] ls ++ (if ls = [] then [] else [10]) = (ls.map (· ++ [10])).flatten := by
  induction ls with
  | nil => rfl
  | cons a ls ih =>
    cases ls with
    | nil => simp [List.intercalate]
    | cons b ls =>
      simp only [List.intercalate, List.intersperse, List.flatten_cons, List.map_cons, reduceCtorEq, ↓reduceIte] at ih ⊢
      rw [← ih]
      simp

theorem linksClose_tail (s : Bytes) : ∀ b, linksClose b (s ++ [10]) = linksClose b s := by
  induction s with
  | nil => intro b; cases b <;> rfl
  | cons c s ih =>
    intro b
    have hpre : ∀ (q : Bytes), 10 ∉ q → (q <+: (c :: s) ++ [10] ↔ q <+: c :: s) := by
      intro q hq
      constructor
      · intro h
        rcases List.prefix_concat_iff.1 h with h | h
        · subst h; simp at hq
        · exact h
      · exact fun h => h.trans (List.prefix_append _ _)
    rw [List.cons_append]
    simp only [linksClose]
    rw [← List.cons_append]
    simp only [hpre b!"<a " (by decide), hpre b!"</a>" (by decide), ih]

/-- **C83** In the page of a graph of plain names, links are opened and closed in turns. -/
theorem C83_links_partial (E : Ext) (path : Bytes) (hp : ∀ c ∈ path, c ≠ 60) (root : Val) (o : List Graph)
    (h : AllThisL (fun v => PlainName (vstr E v)) o) : ∃ s, (Graph.node root o).html E path = .ok s ∧ linksClose false s = true := by
  refine ⟨_, C83_lines_partial E path root o h, ?_⟩
  have h1 := pageLinesL_links E o 0 path [] h hp
  rw [List.append_nil, ← intercalate_lines] at h1
  split at h1
  · rename_i h0
    rw [h0]
    rfl
  · rw [linksClose_tail] at h1
    rw [h1]
    rfl

/-- Two levels and a node without text. -/
example (E : Ext) : (Graph.node .nil [.node (.str b!"a") [.node (.str b!"b") [], .node .nil []]]).html E b!"/x" =
    .ok b!"<a href='/x/a'>a</a><br>\n&nbsp;&nbsp;b<br>\n&nbsp;&nbsp;_<br>" := by
  rw [C83_lines_partial]
  · rfl
  · simp only [AllThisL, AllThis, and_true, PlainName]
    simp [vstr]

mutual
theorem htmlAt_ends (E : Ext) : ∀ (g : Graph) (n : Nat) (path : Bytes), g.htmlAt E n path = [] ∨ ∃ w, g.htmlAt E n path = w ++ b!"<br>\n"
  | .nil, n, path => .inl rfl
  | .node t o, n, path => by
    right
    have hl : ∃ w, htmlLine n path (htmlName E t) (!o.isEmpty) = w ++ b!"<br>\n" := by
      unfold htmlLine
      generalize (if (!o.isEmpty) = true then b!"<a href='" ++ path ++ b!"/" ++ htmlName E t ++ b!"'>" else []) = pre
      split
      · exact ⟨_, (List.append_assoc _ _ _).symm⟩
      · exact ⟨_, (List.append_assoc _ _ _).symm⟩
    simp only [Graph.htmlAt]
    rcases htmlAtL_ends E o (n + 1) (path ++ b!"/" ++ htmlName E t) with h | ⟨w, h⟩
    · obtain ⟨w, hw⟩ := hl
      exact ⟨w, by rw [h, hw, List.append_nil]⟩
    · exact ⟨_, by rw [h, ← List.append_assoc]⟩
theorem htmlAtL_ends (E : Ext) : ∀ (gs : List Graph) (n : Nat) (path : Bytes), Graph.htmlAtL E n path gs = [] ∨ ∃ w, Graph.htmlAtL E n path gs = w ++ b!"<br>\n"
  | [], n, path => .inl rfl
  | g :: gs, n, path => by
    simp only [Graph.htmlAtL]
    rcases htmlAtL_ends E gs n path with h | ⟨w, h⟩
    · rw [h, List.append_nil]
      exact htmlAt_ends E g n path
    · exact .inr ⟨_, by rw [h, ← List.append_assoc]⟩
end

/-- **C83** `Html` always returns. -/
theorem C83_returns (E : Ext) (path : Bytes) (g : Graph) : ∃ s, g.html E path = .ok s := by
  cases g with
  | nil => exact ⟨_, rfl⟩
  | node t o =>
    rw [Graph.html]
    rcases htmlAtL_ends E o 0 path with h | ⟨w, h⟩
    · rw [h]
      exact ⟨_, rfl⟩
    · rw [h]
      have hd : (w ++ b!"<br>\n").dropLast = w ++ b!"<br>" := by
        rw [List.dropLast_append_of_ne_nil (by simp)]
        rfl
      have hl : (w ++ b!"<br>\n").getLast? = some 10 := by simp
      have he : (w ++ b!"<br>\n").isEmpty = false := by simp
      simp only [finishText, he, hd, hl, beq_self_eq_true, ↓reduceIte, Bool.false_eq_true]
      cases w with
      | nil => exact ⟨_, rfl⟩
      | cons c w =>
        simp only [List.cons_append]
        split
        · rw [if_neg (by simp)]
          exact ⟨_, rfl⟩
        · exact ⟨_, rfl⟩

/-- The link of a node with subnodes whose text has a blank is never closed. -/
theorem C83_links_refuted (E : Ext) : ∃ s, (Graph.node .nil [.node (.str b!"a b") [.node (.str b!"c") []]]).html E b!"" = .ok s ∧ linksClose false s = false :=
  ⟨b!"<a href='/a b'>a b<br>\n&nbsp;&nbsp;c<br>", rfl, by decide⟩

/-- Markup in a content is not escaped: a content can close a link that is not open. -/
theorem C83_markup_refuted (E : Ext) : ∃ s, (Graph.node .nil [.node (.str b!"</a><hr>") []]).html E b!"" = .ok s ∧ s = b!"</a><hr><br>" ∧ linksClose false s = false :=
  ⟨b!"</a><hr><br>", rfl, rfl, by decide⟩

/-- A text in quotes loses its last tag. -/
theorem C83_quotes_refuted (E : Ext) : (Graph.node .nil [.node (.str b!"\"a\"") []]).html E b!"" = .ok b!"a\"<br" := rfl

end Ogdl
