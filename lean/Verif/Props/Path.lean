import Verif.Lemmas.PathParse
import Verif.Spec.Path

/-!
# C16, C53, C55: reading paths, expressions and templates
-/

namespace Ogdl
open Lex Spec

namespace Spec

/-- The elements of a path that are names. -/
def namesElems : List Bytes → Elems
  | [] => .nil
  | s :: ss => .cons (.name s) (namesElems ss)

end Spec

theorem namesElems_text : ∀ (ids : List Bytes) (id : Bytes), id ++ (namesElems ids).text = dotted (id :: ids)
  | [], id => by simp [namesElems, Elems.text, dotted, List.intercalate]
  | s :: ss, id => by
    have h := namesElems_text ss s
    simp only [dotted, List.intercalate, List.intersperse, List.flatten_cons] at h ⊢
    simp only [namesElems, Elems.text, Elem.text, Bool.false_eq_true, ↓reduceIte, List.cons_append, h]
    cases ss <;> simp

theorem namesElems_trees : ∀ ids : List Bytes, (namesElems ids).trees = ids.map leaf
  | [] => rfl
  | s :: ss => by simp [namesElems, Elems.trees, Elem.tree, namesElems_trees ss]

theorem namesElems_ok (E : Ext) : ∀ ids : List Bytes, (∀ id ∈ ids, Name E id) → (namesElems ids).Ok E
  | [], _ => trivial
  | s :: ss, h => ⟨h s (by simp), namesElems_ok E ss fun id hi => h id (by simp [hi])⟩

/-! ## C16 -/

/-- `NewPath` on names joined by dots has exactly these names as elements, if the text
fits in the buffer (`Fits`: all texts below 4095 bytes and most longer ones).  Missing: the
other texts, for which it is false (`C16_refuted`). -/
theorem C16_partial (E : Ext) (ids : List Bytes) (hne : ids ≠ []) (hn : ∀ id ∈ ids, Name E id)
    (hl : Fits (dotted ids)) : newPath E (dotted ids) = .ok (pathOf ids) := by
  cases ids with
  | nil => exact absurd rfl hne
  | cons id ids =>
    have h := newPath_exact E (.name id) (namesElems ids) (hn id (by simp))
      (namesElems_ok E ids fun i hi => hn i (by simp [hi])) (by simp)
      (by simpa [Elem.text, namesElems_text] using hl)
    simpa [Elem.text, namesElems_text, Elem.tree, namesElems_trees, pathOf] using h

/-- All forms of paths: names, quoted names, indexes, selectors, calls and groups, in
any order and nesting, are read as written. -/
theorem C16_elements_partial (E : Ext) (e : Elem) (es : Elems) (he : e.Ok E) (hes : es.Ok E) (hc : ∀ as, e ≠ .call as)
    (hl : Fits (e.text true ++ es.text)) :
    newPath E (e.text true ++ es.text) = .ok (.node (.str b!"!p") (e.tree :: es.trees)) :=
  newPath_exact E e es he hes hc hl

/-- On the name made of 4096 letters `a`, `NewPath` does not return, whatever number of
loop iterations and calls is allowed. -/
theorem C16_refuted (E : Ext) : ∃ id : Bytes, Name E id ∧
    ∀ L f, runParser (path E L f) (dotted [id]) = .oof := by
  refine ⟨List.replicate 4096 97, ⟨List.replicate 4096 97, ?_, ?_, ?_⟩, fun L f => ?_⟩
  · intro h
    have := congrArg List.length h
    rw [List.length_replicate] at this
    exact absurd this (by decide)
  · intro r hr
    rw [(List.mem_replicate.1 hr).2]
    exact ⟨.inl (by decide), .inr (.inl rfl)⟩
  · generalize 4096 = n
    induction n with
    | zero => rfl
    | succ n ih => rw [List.replicate_succ, List.replicate_succ, List.flatMap_cons, ← ih]; rfl
  · have h : dotted [List.replicate 4096 97] = List.replicate 4096 97 := by
      generalize List.replicate 4096 (97 : UInt8) = A
      simp [dotted, List.intercalate]
    rw [h]
    unfold runParser
    rw [stuck_path_full E L f {}]
    rfl

theorem nameA (E : Ext) (c : UInt8) (h : AsciiLetter c) : Name E [c] := by
  have h80 : c.toNat < 0x80 ∧ (c = 95 ∨ latinLetter c.toNat = true) := by
    rcases h with ⟨h1, h2⟩ | ⟨h1, h2⟩ | rfl
    · have h1 := UInt8.le_iff_toNat_le.1 h1
      have h2 := UInt8.le_iff_toNat_le.1 h2
      simp only [UInt8.reduceToNat] at h1 h2
      refine ⟨by omega, .inr ?_⟩
      simp [latinLetter]; omega
    · have h1 := UInt8.le_iff_toNat_le.1 h1
      have h2 := UInt8.le_iff_toNat_le.1 h2
      simp only [UInt8.reduceToNat] at h1 h2
      refine ⟨by omega, .inr ?_⟩
      simp [latinLetter]; omega
    · exact ⟨by decide, .inl rfl⟩
  refine ⟨[c.toNat], by simp, ?_, ?_⟩
  · intro r hr
    have : r = c.toNat := by simpa using hr
    subst this
    refine ⟨.inl (by omega), ?_⟩
    rcases h80.2 with rfl | h
    · exact .inl (by decide)
    · exact .inr (by rw [if_pos (by omega)]; exact .inl h)
  · simp [encodeRune, h80.1]

example (E : Ext) : newPath E b!"a.b.c" = .ok (.node (.str b!"!p") [leaf b!"a", leaf b!"b", leaf b!"c"]) :=
  C16_partial E [b!"a", b!"b", b!"c"] (by simp)
    (by
      intro id h
      simp only [List.mem_cons, List.not_mem_nil, or_false] at h
      rcases h with rfl | rfl | rfl
      · exact nameA E 97 (by unfold AsciiLetter; decide)
      · exact nameA E 98 (by unfold AsciiLetter; decide)
      · exact nameA E 99 (by unfold AsciiLetter; decide)) (.short (by decide))

/-- `a["b"].(c, 1)` -/
example (E : Ext) : newPath E b!"a[\"b\"].(c, 1)" = .ok (.node (.str b!"!p") [leaf b!"a",
    .node (.str b!"!i") [.node (.str b!"!string") [leaf b!"b"]],
    .node (.str b!"!g") [.node (.str b!"!e") [.node (.str b!"!p") [leaf b!"c"]], .node (.str b!"!e") [leaf b!"1"]]]) :=
  C16_elements_partial E (.name b!"a")
    (.cons (.index (.one (.str b!"b"))) (.cons (.group (.cons (.one (.path b!"c" .nil)) (.cons (.one (.num b!"1")) .nil))) .nil))
    (nameA E 97 (by unfold AsciiLetter; decide))
    ⟨⟨by simp, by simp [LoneSlashes], by simp⟩, ⟨⟨nameA E 99 (by unfold AsciiLetter; decide), ⟨99, [], rfl, by unfold AsciiLetter; decide⟩, trivial⟩,
      ⟨[], [49], [], .inl rfl, by decide, by simp [Digit], .inl rfl, rfl⟩, trivial⟩, trivial⟩
    (by simp) (.short (by decide))

/-! ## C53 -/

/-- On inputs that fit, of any length, paths, expressions and templates see exactly the
bytes of the input: the result is that of a cursor over the input. -/
theorem C53_partial (E : Ext) (L f g : Nat) (s : Bytes) (hl : Fits s) :
    runParser (path E L f) s = (do let r ← (path E L f).run curM (Cur.start s) {}; r.2.2.tree) ∧
    runParser (expression E L f) s = (do let r ← (expression E L f).run curM (Cur.start s) {}; r.2.2.tree) ∧
    runParser (template E L g f) s = (do let r ← (template E L g f).run curM (Cur.start s) {}; r.2.2.tree) :=
  ⟨runParser_fits _ s hl (fun _ hi => long_path hi E L f), runParser_fits _ s hl (fun _ hi => long_expression hi E L f),
    runParser_fits _ s hl (fun _ hi => long_template hi E L g f)⟩

/-- The result on an input of 4096 letters is not that of a cursor over the input: the
cursor stops at the end and finds one name, but `NewPath` reads on for ever. -/
theorem C53_refuted (E : Ext) : ∃ s : Bytes, s.length = 4096 ∧
    ((path E (loopFuel s) (flowFuel s)).run curM (Cur.start s) {} >>= fun r => r.2.2.tree) =
      .ok (.node (.str b!"_") [leaf s]) ∧
    ∀ L f, runParser (path E L f) s = .oof := by
  have hlen : (List.replicate 4096 (97 : UInt8)).length = 4096 := List.length_replicate
  have hname : Name E (List.replicate 4096 97) := by
    obtain ⟨h1, h2, h3⟩ : (List.replicate 4096 97 : List Nat) ≠ [] ∧ (∀ r ∈ (List.replicate 4096 97 : List Nat), NameRune E r) ∧
        (List.replicate 4096 97 : Bytes) = (List.replicate 4096 97 : List Nat).flatMap encodeRune := by
      refine ⟨?_, ?_, ?_⟩
      · intro h
        have := congrArg List.length h
        rw [List.length_replicate] at this
        exact absurd this (by decide)
      · intro r hr
        rw [(List.mem_replicate.1 hr).2]
        exact ⟨.inl (by decide), .inr (.inl rfl)⟩
      · generalize 4096 = n
        induction n with
        | zero => rfl
        | succ n ih => rw [List.replicate_succ, List.replicate_succ, List.flatMap_cons, ← ih]; rfl
    exact ⟨_, h1, h2, h3⟩
  have hstuck : ∀ L f, runParser (path E L f) (List.replicate 4096 97) = .oof := fun L f => by
    unfold runParser
    rw [stuck_path_full E L f {}]
    rfl
  generalize List.replicate 4096 (97 : UInt8) = s at *
  refine ⟨s, hlen, ?_, hstuck⟩
  have hf : flowFuel s = (flowFuel s - 1) + 1 := by simp only [flowFuel]; omega
  have h := elem_reads (E := E) (L := loopFuel s) (.name s) hname (flowFuel s - 1) [] [] [] true false
    (by simp) (by simp)
    (fun f' hf => elems_reads .nil trivial f' [] pathStop_nil (by simpa [Elems.text] using hf) (by simp [Elems.text, loopFuel]))
    (nameStop_elems (es := .nil) pathStop_nil) (by simp only [flowFuel, Elem.text, List.append_nil, ↓reduceIte]; omega)
    (by simp [loopFuel, Elem.text])
  obtain ⟨ru, e, h1, h2⟩ := h [] [] {}
  simp only [Elem.text, ↓reduceIte, List.append_nil] at h1
  rw [hf, path, show Cur.start s = ⟨[], s, 0, []⟩ from rfl, h1]
  exact tree_of_preorder e [leaf s] (by simp [NoNilL, NoNil, leaf]) (by rw [h2.2.1]; simp [Elem.tree]) (h2.2.2 Ev.ok_empty).2

example (E : Ext) : runParser (path E 10 40) b!"a" =
    (do let r ← (path E 10 40).run curM (Cur.start b!"a") {}; r.2.2.tree) := (C53_partial E 10 40 0 b!"a" (.short (by decide))).1

/-- Texts of any length fit: a byte between words 2048 bytes before the end and another
one after it is enough, for ASCII. -/
example (w v : Bytes) (c d : UInt8) (hc : Separator c) (hd : Separator d) (hv : v.length = 2046)
    (ha : ∀ x ∈ w ++ c :: d :: v, x < 0x80) (hm : w.length % 2048 ≠ 2047) : Fits (w ++ c :: d :: v) := by
  right
  have hlen : (w ++ c :: d :: v).length = w.length + 2048 := by simp [hv]
  refine ⟨by omega, fun i x hi hx => ?_, fun k x _ hx hx' => ?_⟩
  · rw [hlen] at hi
    rcases hi with hi | hi
    · have : i = w.length := by omega
      subst this
      simp at hx; subst hx; exact hc
    · have : i = w.length + 1 := by omega
      subst this
      simp at hx; subst hx; exact hd
  · have := ha x (List.mem_of_getElem? hx)
    have h2 : x.toNat < 128 := this
    have h3 : 128 ≤ x.toNat := hx'.1
    omega

/-! ## C55 -/

/-- `NewPath`, and the parsers of `NewExpression` and `NewTemplate`, return a graph on
every ASCII text that fits, within the given number of steps, which is linear in
the length.  Missing: texts that do not fit and texts with bytes above 0x7F, for which it is false in
general (`C55_refuted`, `C53_refuted`). -/
theorem C55_partial (E : Ext) (s : Bytes) (ha : ∀ c ∈ s, c < 0x80) (hl : Fits s) :
    (∃ g, newPath E s = .ok g) ∧
    (∃ g, runParser (expression E (loopFuel s) (flowFuel s)) s = .ok g) ∧
    (∃ g, runParser (template E (loopFuel s) (flowFuel s) (flowFuel s)) s = .ok g) := by
  have hlo := lettersOk_ascii E ha
  refine ⟨?_, ?_, ?_⟩
  · obtain ⟨g, hg⟩ := runParser_total (fun _ hi => long_path hi E (loopFuel s) (flowFuel s)) hl
      (path_total (s := Cur.start s) (.inl rfl) (by simp [Cur.start, loopFuel]) hlo (by simp only [Cur.start, flowFuel]; omega))
    exact ⟨_, by unfold newPath newPathFuel; rw [hg]; rfl⟩
  · exact runParser_total (fun _ hi => long_expression hi E (loopFuel s) (flowFuel s)) hl
      (expression_total (s := Cur.start s) (.inl rfl) (by simp [Cur.start, loopFuel]) hlo (by simp only [Cur.start, flowFuel]; omega))
  · exact runParser_total (fun _ hi => long_template hi E (loopFuel s) (flowFuel s) (flowFuel s)) hl
      (template_tot (s := Cur.start s) _ (Nat.le_refl _) (.inl rfl) (by simp [Cur.start, loopFuel]) hlo
        (by simp only [Cur.start, flowFuel]; omega) (by simp only [Cur.start, flowFuel]; omega))

/-- The same for every text in which each byte that is a Latin-1 letter starts a rune
that is a letter, digit or underscore: for example texts in Latin script. -/
theorem C55_letters_partial (E : Ext) (s : Bytes) (hl : Fits s)
    (h : ∀ c t, (c :: t) <:+ s → latinLetter c.toNat = true →
      isTokenRune E (decodeRune (c :: t)).1 = true) :
    (∃ g, newPath E s = .ok g) ∧
    (∃ g, runParser (expression E (loopFuel s) (flowFuel s)) s = .ok g) ∧
    (∃ g, runParser (template E (loopFuel s) (flowFuel s) (flowFuel s)) s = .ok g) := by
  have hlo : LettersOk E s := by
    intro c t hs hc
    simp only [isLetterByte, Bool.or_eq_true] at hc
    rcases hc with hc | hc
    · exact h c t hs hc
    · have : c = 95 := by simpa using hc
      subst this; rfl
  refine ⟨?_, ?_, ?_⟩
  · obtain ⟨g, hg⟩ := runParser_total (fun _ hi => long_path hi E (loopFuel s) (flowFuel s)) hl
      (path_total (s := Cur.start s) (.inl rfl) (by simp [Cur.start, loopFuel]) hlo (by simp only [Cur.start, flowFuel]; omega))
    exact ⟨_, by unfold newPath newPathFuel; rw [hg]; rfl⟩
  · exact runParser_total (fun _ hi => long_expression hi E (loopFuel s) (flowFuel s)) hl
      (expression_total (s := Cur.start s) (.inl rfl) (by simp [Cur.start, loopFuel]) hlo (by simp only [Cur.start, flowFuel]; omega))
  · exact runParser_total (fun _ hi => long_template hi E (loopFuel s) (flowFuel s) (flowFuel s)) hl
      (template_tot (s := Cur.start s) _ (Nat.le_refl _) (.inl rfl) (by simp [Cur.start, loopFuel]) hlo
        (by simp only [Cur.start, flowFuel]; omega) (by simp only [Cur.start, flowFuel]; omega))

/-- Neither `NewPath` nor `NewExpression` returns on the five bytes of `a(¢)`: the first
byte of the cent sign is taken for a letter, but no name is found there. -/
theorem C55_refuted (E : Ext) (L f : Nat) :
    runParser (path E L f) [97, 40, 0xC2, 0xA2, 41] = .oof ∧
    runParser (expression E L f) [97, 40, 0xC2, 0xA2, 41] = .oof := by
  constructor
  · rw [runParser_short _ _ (by decide) (runeOk_path E L f)]
    have := stuck_path_cent E L f {}
    simp only [cent] at this
    rw [this]
    rfl
  · rw [runParser_short _ _ (by decide) (runeOk_expression E L f)]
    have : Stuck curM (expression E L f) (Cur.start (97 :: 40 :: cent)) := by
      match f with
      | 0 => exact fun _ => by simp [expression, Prog.run]
      | 1 => exact fun _ => by simp [expression, unary, Prog.run_bind, Prog.run]
      | f + 2 =>
        simp only [expression, unary]
        refine Stuck.bind ?_
        refine StuckOr.stuck (stuckOr_peek 97 [] _ []) ?_
        rw [if_pos (by decide)]
        refine StuckOr.stuck (stuckOr_add _ _) ?_
        refine StuckOr.stuck (stuckOr_inc _) ?_
        exact Stuck.bind (stuck_path_cent E L f)
    have := this {}
    simp only [cent] at this
    rw [this]
    rfl

example (E : Ext) : ∃ g, newPath E b!"a[1 + (b" = .ok g := (C55_partial E b!"a[1 + (b" (by decide) (.short (by decide))).1

end Ogdl
