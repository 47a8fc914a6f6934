import Verif.Lemmas.Cmd
import Verif.Props.Text
import Verif.Props.Path
import Verif.Props.Get
import Verif.Props.Template
import Verif.Props.Xml

/-!
# C84 to C88: the programs gpath, gtemplate, json2ogdl and xml2ogdl
-/

namespace Ogdl
open Spec

/-- gpath in steps. -/
theorem gpath_steps {E : Ext} {p : Bytes} {rd : Reader} {g n : Graph} (hg : fromReader E false rd = .ok g) (hn : nodeAt E g p = .ok n)
    {s out : Bytes} (hs : n.text E = .ok s) (ho : finalNewline s = out) : gpathFrom E p rd = .ok out := by
  rw [gpathFrom, hg, Res.ok_bind, hn, Res.ok_bind, hs, Res.ok_bind, ho]

theorem nodeAt_dot (E : Ext) (g : Graph) : nodeAt E g b!"." = .ok g := by rw [nodeAt, if_pos (by decide)]

theorem nodeAt_path {E : Ext} {ids : List Bytes} {gs : List Graph} (hp : Path E ids) (hl : Fits (dotted ids)) (hd : Data E (.node (.str b!"_") gs)) :
    nodeAt E (.node (.str b!"_") gs) (dotted ids) = .ok (lookup E ids (.node (.str b!"_") gs)) := by
  rw [nodeAt, if_neg (by simpa using dotted_not_dot hp), get_root hp hl hd]

/-! ## C84: gpath . -/

/-- C84, part: `gpath .` prints a text for the same graph, and prints that text unchanged.
Missing: the contents that `Text` does not quote (refuted below). -/
theorem C84_partial (E : Ext) (f : Bytes) (files : Bytes → Option Reader) (stdin : Reader) (gs : List Graph) (t : Bytes) (hf : FileOf E gs t)
    (hfile : files f = some { data := t }) (hw : WritableAtL 0 gs)
    (hs : ∀ out, cmdGpath E [b!".", f] files stdin = .ok out → ShortRuns out) :
    ∃ out, cmdGpath E [b!".", f] files stdin = .ok out ∧ FileOf E gs out ∧ cmdGpath E [b!"."] files { data := out } = .ok out := by
  have hsh := shownL_writable E gs 0 (writes_data hf.1).1 hw
  have hrun : ∀ rd, fromReader E false rd = .ok (.node (.str b!"_") gs) → gpathFrom E b!"." rd = .ok (Graph.textAtL E false 0 gs) := by
    intro rd hrd
    obtain ⟨s, h1, h2⟩ := text_newline E (.node (.str b!"_") gs) (by rw [Graph.out_node, hsh]; exact hw)
    rw [Graph.out_node, hsh] at h2
    exact gpath_steps hrd (nodeAt_dot _ _) h1 h2
  have h1 : cmdGpath E [b!".", f] files stdin = .ok (Graph.textAtL E false 0 gs) := by
    simp only [cmdGpath, hfile]
    exact hrun _ (fileOf_read hf)
  have hf' : FileOf E gs (Graph.textAtL E false 0 gs) := ⟨fileOf_text E gs hw, hs _ h1⟩
  exact ⟨_, h1, hf', hrun _ (fileOf_read hf')⟩

theorem plainWord_letter {c : UInt8} (h : AsciiLetter c) : PlainWord [c] := by
  have h32 : 32 < c := by
    rcases h with h | h | rfl
    · exact Std.lt_of_lt_of_le (by decide) h.1
    · exact Std.lt_of_lt_of_le (by decide) h.1
    · decide
  refine ⟨⟨by simpa using h32, c, [], rfl, ?_, ?_, ?_, ?_⟩, ?_, ?_⟩ <;>
  · rintro ⟨⟩; revert h; unfold AsciiLetter; decide

theorem shortRuns_small {t : Bytes} (h : t.length < 2048) : ShortRuns t := by
  rintro p u s hs _
  have := congrArg List.length hs
  simp only [List.length_append] at this
  omega

theorem writable_letter {c : UInt8} (h : AsciiLetter c) (d : Nat) : Writable d [c] := by
  unfold Writable
  split
  · exact ⟨(plainWord_letter h).word, (plainWord_letter h).notBlock⟩
  · refine .inl ⟨(plainWord_letter h).word, (plainWord_letter h).notBlock, ?_⟩
    simp only [List.mem_singleton, forall_eq]
    intro hc
    simp only [special, List.mem_cons, List.not_mem_nil, or_false] at hc
    rcases hc with rfl | rfl | rfl | rfl | rfl | rfl | rfl | rfl | rfl <;> (revert h; unfold AsciiLetter; decide)

/-- A file that meets the hypotheses, written in another layout. -/
example (E : Ext) : ∃ (gs : List Graph) (t : Bytes), FileOf E gs t ∧ WritableAtL 0 gs ∧ t = b!"a b\n   c\n" ∧
    cmdGpath E [b!"."] (fun _ => none) { data := t } = .ok b!"a\n  b\n  c\n" := by
  have hl : ∀ c, c = 97 ∨ c = 98 ∨ c = 99 → PlainWord [c] := fun c h => plainWord_letter (by
    rcases h with rfl | rfl | rfl <;> unfold AsciiLetter <;> decide)
  refine ⟨[.node (.str b!"a") [.node (.str b!"b") [], .node (.str b!"c") []]], _, ⟨?_, ?_⟩, ?_, rfl, ?_⟩
  · have h2 : Writes E false 3 [.node (.str b!"c") []] b!"   c\n" false :=
      Writes.node (vs := []) (s := b!"   ") (t := b!"c") (eol := [10]) (m := 4) (cs := []) (gs := []) (t1 := []) (t2 := []) (o1 := false) (o2 := false)
        (by simp [Blank]) rfl (.last (word_scal (hl 99 (by decide)).word (hl 99 (by decide)).notBlock)) (.inl rfl) (by decide) .nil .nil (by simp)
    exact Writes.node (vs := [.str b!"b"]) (s := []) (t := b!"a b") (eol := [10]) (gs := []) (t2 := []) (o2 := false)
      (by simp [Blank]) rfl (.more (sp := b!" ") (word_scal_mid (hl 97 (by decide)).word (hl 97 (by decide)).notComment) (by decide) (by simp [Blank])
        (.last (word_scal (hl 98 (by decide)).word (hl 98 (by decide)).notBlock))) (.inl rfl) (by decide) h2 .nil (by simp)
  · rintro p u s hs _
    have := congrArg List.length hs
    simp only [List.length_append] at this
    have h9 : List.length b!"a b\n   c\n" = 9 := rfl
    omega
  · have hw : ∀ c d, c = 97 ∨ c = 98 ∨ c = 99 → Writable d [c] := by
      intro c d hc
      unfold Writable
      split
      · exact ⟨(hl c hc).word, (hl c hc).notBlock⟩
      · refine .inl ⟨(hl c hc).word, (hl c hc).notBlock, ?_⟩
        rcases hc with rfl | rfl | rfl <;> decide
    simp only [WritableAtL, WritableAt, and_true]
    exact ⟨⟨_, rfl, hw _ _ (by decide)⟩, ⟨_, rfl, hw _ _ (by decide)⟩, ⟨_, rfl, hw _ _ (by decide)⟩⟩
  · exact gpath_steps (g := .node (.str b!"_") [.node (.str b!"a") [.node (.str b!"b") [], .node (.str b!"c") []]])
      ((fromString_small E b!"a b\n   c\n" (by decide)).trans rfl) (nodeAt_dot _ _) (s := b!"a\n  b\n  c") rfl rfl

/-- C84 is refuted for a text with a space at the top level. -/
theorem C84_refuted (E : Ext) :
    cmdGpath E [b!"."] (fun _ => none) { data := b!"\"a b\"\n" } = .ok b!"a b\n" ∧
    cmdGpath E [b!"."] (fun _ => none) { data := b!"a b\n" } = .ok b!"a\n  b\n" := by
  refine ⟨gpath_steps (g := .node (.str b!"_") [.node (.str b!"a b") []]) ?_ (nodeAt_dot _ _) (s := b!"a b") rfl rfl,
    gpath_steps (g := .node (.str b!"_") [.node (.str b!"a") [.node (.str b!"b") []]]) ?_ (nodeAt_dot _ _) (s := b!"a\n  b") rfl rfl⟩
  · exact (fromString_small E b!"\"a b\"\n" (by decide)).trans rfl
  · exact (fromString_small E b!"a b\n" (by decide)).trans rfl

/-! ## C85: gpath with a longer path -/

/-- C85, part: `gpath p.q file` prints what `gpath q` prints when it is given the output of
`gpath p file`.  Missing: nodes whose subnodes have contents that `Text` does not quote
(refuted below). -/
theorem C85_partial (E : Ext) (f : Bytes) (files : Bytes → Option Reader) (stdin : Reader) (gs : List Graph) (t : Bytes) (hf : FileOf E gs t)
    (hfile : files f = some { data := t }) (p q : List Bytes) (hp : Path E p) (hq : Path E q) (hl : Fits (dotted p ++ b!"." ++ dotted q))
    (hlp : Fits (dotted p)) (hlq : Fits (dotted q)) (hw : WritableAtL 0 (lookup E p (.node (.str b!"_") gs)).out)
    (hs : ∀ out, cmdGpath E [dotted p, f] files stdin = .ok out → ShortRuns out) :
    ∃ out, cmdGpath E [dotted p, f] files stdin = .ok out ∧
      cmdGpath E [dotted p ++ b!"." ++ dotted q, f] files stdin = cmdGpath E [dotted q] files { data := out } := by
  have hd := fileOf_data hf (.str b!"_") trivial
  have hsh := shownL_writable E _ 0 (writable_noNilL _ 0 hw) hw
  obtain ⟨s, h1, h2⟩ := text_newline E (lookup E p (.node (.str b!"_") gs)) (by rw [hsh]; exact hw)
  rw [hsh] at h2
  have hout : cmdGpath E [dotted p, f] files stdin = .ok (Graph.textAtL E false 0 (lookup E p (.node (.str b!"_") gs)).out) := by
    simp only [cmdGpath, hfile]
    exact gpath_steps (fileOf_read hf) (nodeAt_path hp hlp hd) h1 h2
  refine ⟨_, hout, ?_⟩
  have hpq : Path E (p ++ q) := ⟨by simp [hp.1], fun id h => by
    rcases List.mem_append.1 h with h | h
    · exact hp.2 id h
    · exact hq.2 id h⟩
  have hdot : dotted p ++ b!"." ++ dotted q = dotted (p ++ q) := by rw [dotted_append hp.1 hq.1]; simp
  rw [hdot] at hl ⊢
  have hf' : FileOf E (lookup E p (.node (.str b!"_") gs)).out (Graph.textAtL E false 0 (lookup E p (.node (.str b!"_") gs)).out) :=
    ⟨fileOf_text E _ hw, hs _ hout⟩
  have hlook : lookup E q (.node (.str b!"_") (lookup E p (.node (.str b!"_") gs)).out) = lookup E (p ++ q) (.node (.str b!"_") gs) := by
    rw [lookup_append]
    cases q with
    | nil => exact absurd rfl hq.1
    | cons id q => rfl
  simp only [cmdGpath, hfile, gpathFrom]
  rw [fileOf_read hf, Res.ok_bind, nodeAt_path hpq hl hd, Res.ok_bind, fileOf_read hf', Res.ok_bind,
    nodeAt_path hq hlq (fileOf_data hf' _ trivial), Res.ok_bind, hlook]

/-- `gpath a.b` and `gpath a | gpath b`. -/
example (E : Ext) : ∃ gs t, t = b!"a\n  b\n    c\n" ∧ FileOf E gs t ∧ Path E [b!"a"] ∧ Path E [b!"b"] ∧
    WritableAtL 0 (lookup E [b!"a"] (.node (.str b!"_") gs)).out ∧
    cmdGpath E [b!"a"] (fun _ => none) { data := t } = .ok b!"b\n  c\n" ∧ cmdGpath E [b!"a.b"] (fun _ => none) { data := t } = .ok b!"c\n" := by
  have hl : ∀ c ∈ b!"abc", AsciiLetter c := by unfold AsciiLetter; decide
  have hw : WritableAtL 0 [.node (.str b!"a") [.node (.str b!"b") [.node (.str b!"c") []]]] := by
    simp only [WritableAtL, WritableAt, and_true]
    exact ⟨⟨_, rfl, writable_letter (hl _ (by decide)) _⟩, ⟨_, rfl, writable_letter (hl _ (by decide)) _⟩, ⟨_, rfl, writable_letter (hl _ (by decide)) _⟩⟩
  have hf : FileOf E [.node (.str b!"a") [.node (.str b!"b") [.node (.str b!"c") []]]] b!"a\n  b\n    c\n" :=
    ⟨fileOf_text E _ hw, shortRuns_small (by decide)⟩
  have hp : ∀ c ∈ b!"abc", Path E [[c]] := fun c hc => ⟨by simp, fun id hi => by rw [List.mem_singleton.1 hi]; exact nameA E _ (hl c hc)⟩
  have hab : Path E [b!"a", b!"b"] := ⟨by simp, fun id hi => by
    simp only [List.mem_cons, List.not_mem_nil, or_false] at hi
    rcases hi with rfl | rfl
    · exact nameA E _ (hl _ (by decide))
    · exact nameA E _ (hl _ (by decide))⟩
  have hd := fileOf_data hf (.str b!"_") trivial
  refine ⟨_, _, rfl, hf, hp _ (by decide), hp _ (by decide), ?_,
    gpath_steps (fileOf_read hf) (nodeAt_path (hp 97 (by decide)) (.short (by decide)) hd) (s := b!"b\n  c") ?_ rfl,
    gpath_steps (fileOf_read hf) (nodeAt_path hab (.short (by decide)) hd) (s := b!"c") ?_ rfl⟩
  · show WritableAtL 0 [.node (.str b!"b") [.node (.str b!"c") []]]
    simp only [WritableAtL, WritableAt, and_true]
    exact ⟨⟨_, rfl, writable_letter (hl _ (by decide)) _⟩, ⟨_, rfl, writable_letter (hl _ (by decide)) _⟩⟩
  · simp [lookup, firstNamed, Graph.thisString, vstr, Graph.out, Graph.text, Graph.textAtL, Graph.textAt, textContent, hasSpecial, textLoop, textIndent, finishText]
  · simp [lookup, firstNamed, Graph.thisString, vstr, Graph.out, Graph.text, Graph.textAtL, Graph.textAt, textContent, hasSpecial, textLoop, textIndent, finishText]

/-- C85 is refuted: the text `x y` is printed without quotes and read as two nodes. -/
theorem C85_refuted (E : Ext) :
    cmdGpath E [b!"a"] (fun _ => none) { data := b!"a\n  \"x y\"\n" } = .ok b!"x y\n" ∧
    cmdGpath E [b!"x"] (fun _ => none) { data := b!"x y\n" } = .ok b!"y\n" ∧
    cmdGpath E [b!"a.x"] (fun _ => none) { data := b!"a\n  \"x y\"\n" } = .ok [] := by
  have hn : ∀ c, AsciiLetter c → Name E [c] := fun c h => nameA E c h
  have ha : Path E [b!"a"] := ⟨by simp, fun id hi => by rw [List.mem_singleton.1 hi]; exact hn _ (by unfold AsciiLetter; decide)⟩
  have hx : Path E [b!"x"] := ⟨by simp, fun id hi => by rw [List.mem_singleton.1 hi]; exact hn _ (by unfold AsciiLetter; decide)⟩
  have hax : Path E [b!"a", b!"x"] := ⟨by simp, fun id hi => by
    simp only [List.mem_cons, List.not_mem_nil, or_false] at hi
    rcases hi with rfl | rfl
    · exact hn _ (by unfold AsciiLetter; decide)
    · exact hn _ (by unfold AsciiLetter; decide)⟩
  have h1 : fromString E b!"a\n  \"x y\"\n" = .ok (.node (.str b!"_") [.node (.str b!"a") [.node (.str b!"x y") []]]) :=
    (fromString_small E b!"a\n  \"x y\"\n" (by decide)).trans rfl
  have h2 : fromString E b!"x y\n" = .ok (.node (.str b!"_") [.node (.str b!"x") [.node (.str b!"y") []]]) :=
    (fromString_small E b!"x y\n" (by decide)).trans rfl
  have d1 : Data E (.node (.str b!"_") [.node (.str b!"a") [.node (.str b!"x y") []]]) := by simp [Data, NoNil, NoNilL, AllThis, AllThisL, Inert]
  have d2 : Data E (.node (.str b!"_") [.node (.str b!"x") [.node (.str b!"y") []]]) := by simp [Data, NoNil, NoNilL, AllThis, AllThisL, Inert]
  refine ⟨gpath_steps h1 (nodeAt_path ha (.short (by decide)) d1) (s := b!"x y") ?_ rfl, gpath_steps h2 (nodeAt_path hx (.short (by decide)) d2) (s := b!"y") ?_ rfl,
    gpath_steps h1 (nodeAt_path hax (.short (by decide)) d1) (s := []) ?_ rfl⟩ <;>
  · simp [lookup, firstNamed, Graph.thisString, vstr, Graph.out, Graph.text, Graph.textAtL, Graph.textAt, textContent, hasSpecial, textLoop, textIndent, finishText]

/-! ## C86: gtemplate -/

/-- C86, part: data files one after the other are like one file with all of them.  For
every template.  Missing: empty files (refuted below), files with indented first lines or
without a final line end. -/
theorem C86_partial (E : Ext) (t f : Bytes) (files : List Bytes) (fs fs' : Bytes → Option Bytes) (all : Bytes)
    (h : ∀ x ∈ f :: files, ∃ gs b, fs x = some b ∧ b ≠ [] ∧ FileOf E gs b)
    (ht : fs' t = fs t) (ha : fs' all = some ((f :: files).flatMap fun x => (fs x).getD []))
    (hs : ShortRuns ((f :: files).flatMap fun x => (fs x).getD [])) :
    cmdGtemplate E (t :: f :: files) fs = cmdGtemplate E [t, all] fs' := by
  obtain ⟨gs, b, h1, h2, h3⟩ := h f (by simp)
  have h2' : b.length ≠ 0 := by simpa using h2
  obtain ⟨gs', h4, h5⟩ := moreFiles_fileOf files gs b (.str b!"_") (fun x hx => h x (by simp [hx])) h3.1
  have hb : (f :: files).flatMap (fun x => (fs x).getD []) = b ++ files.flatMap fun x => (fs x).getD [] := by simp [h1]
  rw [hb] at ha hs
  have hr := fileOf_read (E := E) ⟨h5, hs⟩
  have hl : (b ++ files.flatMap fun x => (fs x).getD []).length ≠ 0 := by
    rw [List.length_append]; omega
  have hd : allFiles E fs (f :: files) = .ok (.node (.str b!"_") gs') := by
    simp only [allFiles, fromFile, h1, beq_iff_eq, h2', ↓reduceIte, fileOf_read h3, Res.ok_bind, h4]
  have hd' : allFiles E fs' [all] = .ok (.node (.str b!"_") gs') := by
    simp only [allFiles, fromFile, ha, beq_iff_eq, hl, ↓reduceIte, hr, Res.ok_bind, moreFiles]
  simp only [cmdGtemplate, ht, hd, hd']

/-- Two files with a tree each, and the two in one file. -/
example (E : Ext) : ∃ fs : Bytes → Option Bytes, (∀ x ∈ [b!"f", b!"g"], ∃ gs b, fs x = some b ∧ b ≠ [] ∧ FileOf E gs b) ∧
    [b!"f", b!"g"].flatMap (fun x => (fs x).getD []) = b!"a\n  b\nc\n" ∧ ShortRuns b!"a\n  b\nc\n" := by
  have hl : ∀ c ∈ b!"abc", AsciiLetter c := by unfold AsciiLetter; decide
  refine ⟨fun x => if x = b!"f" then some b!"a\n  b\n" else some b!"c\n", ?_, rfl, shortRuns_small (by decide)⟩
  simp only [List.mem_cons, List.not_mem_nil, or_false, forall_eq_or_imp, forall_eq]
  refine ⟨⟨[.node (.str b!"a") [.node (.str b!"b") []]], _, rfl, by decide, fileOf_text E _ ?_, shortRuns_small (by decide)⟩,
    ⟨[.node (.str b!"c") []], _, rfl, by decide, fileOf_text E _ ?_, shortRuns_small (by decide)⟩⟩
  · simp only [WritableAtL, WritableAt, and_true]
    exact ⟨⟨_, rfl, writable_letter (hl _ (by decide)) _⟩, ⟨_, rfl, writable_letter (hl _ (by decide)) _⟩⟩
  · simp only [WritableAtL, WritableAt, and_true]
    exact ⟨_, rfl, writable_letter (hl _ (by decide)) _⟩

/-- C86 is refuted: if the first file is empty the other files are ignored. -/
theorem C86_refuted (E : Ext) : ∃ fs : Bytes → Option Bytes,
    fs b!"f" = some [] ∧ fs b!"g" = some b!"a 1\n" ∧
    cmdGtemplate E [b!"t", b!"g"] fs = .ok b!"1\n" ∧ cmdGtemplate E [b!"t", b!"f", b!"g"] fs = .ok b!"\n" := by
  have hok : (Item.var b!"a" [] false).Ok E [] := by
    refine ⟨⟨by simp, fun id hi => by rw [List.mem_singleton.1 hi]; exact nameA E _ (by unfold AsciiLetter; decide)⟩, by decide, fun _ => ?_⟩
    intro c hc; simp at hc
  obtain ⟨t, h1, h2⟩ := C61_value E b!"a" [] false (.node (.str b!"_") [.node (.str b!"a") [.node (.str b!"1") []]]) (.str b!"a") (.str b!"1") hok
    (.short (by decide)) (by decide) (by simp [NoNil, NoNilL]) (by simp [lookup, firstNamed, Graph.thisString, vstr, Graph.out]) (by simp)
  have h3 : Renders E (Item.var b!"a" [] false).text .nil [] .nil := by
    rw [var_item hok (.short (by decide))]
    obtain ⟨k, hk⟩ := eval_pathOf (E := E) [b!"a"]
    exact ⟨_, _, var_run (v := .nil) (err := some .invalidArgs) (by rw [hk]; rfl) rfl false⟩
  obtain ⟨t', h4, h5⟩ := h3
  obtain rfl : t = t' := Res.ok.inj (h1.symm.trans h4)
  have hg : fromString E b!"a 1\n" = .ok (.node (.str b!"_") [.node (.str b!"a") [.node (.str b!"1") []]]) :=
    (fromString_small E b!"a 1\n" (by decide)).trans rfl
  refine ⟨fun f => if f = b!"f" then some [] else if f = b!"g" then some b!"a 1\n" else some (Item.var b!"a" [] false).text, rfl, rfl, ?_, ?_⟩
  · have ha : allFiles E (fun f => if f = b!"f" then some [] else if f = b!"g" then some b!"a 1\n" else some (Item.var b!"a" [] false).text) [b!"g"] =
        .ok (.node (.str b!"_") [.node (.str b!"a") [.node (.str b!"1") []]]) := by
      have : fromReader E false { data := b!"a 1\n" } = .ok (.node (.str b!"_") [.node (.str b!"a") [.node (.str b!"1") []]]) := hg
      simp [allFiles, fromFile, moreFiles, this]
    simp only [cmdGtemplate, ha, Res.ok_bind]
    simp [h1, h2, vstr]
  · have ha : allFiles E (fun f => if f = b!"f" then some [] else if f = b!"g" then some b!"a 1\n" else some (Item.var b!"a" [] false).text) [b!"f", b!"g"] =
        .ok .nil := by
      have : fromReader E false { data := b!"a 1\n" } = .ok (.node (.str b!"_") [.node (.str b!"a") [.node (.str b!"1") []]]) := hg
      simp [allFiles, fromFile, moreFiles, this, Graph.addNodes]
    simp only [cmdGtemplate, ha, Res.ok_bind]
    simp [h1, h5]

/-! ## C87: json2ogdl -/

/-- C87, part: what json2ogdl prints for an object is OGDL text for the trees of its
members.  Missing: members with contents that `Text` does not quote, documents that are
no objects (C44). -/
theorem C87_partial (E : Ext) (decode : Bytes → Option Json) (f : Bytes) (files : Bytes → Option Reader) (stdin : Reader) (s : Bytes)
    (hf : files f = some { data := s }) (l : List (Bytes × Json)) (hj : decode s = some (.obj l)) (hw : WritableAtL 0 (jsonMembers E l)) :
    ∃ out, cmdJson2ogdl E decode [f] files stdin = .ok out ∧
      (ShortRuns out → fromString E out = .ok (.node (.str b!"_") (jsonMembers E l))) := by
  have hsh := shownL_toGraphObj E l 0 hw
  have hg : fromJSON (.obj l) = .node (.str b!"_") (toGraphObj l) := rfl
  obtain ⟨s', h1, h2, h3⟩ := textOf_text_end E (.node (.str b!"_") (toGraphObj l)) (by rw [Graph.out_node, hsh]; exact hw)
  rw [Graph.out_node, hsh] at h2 h3
  refine ⟨s' ++ [10], ?_, fun hs => ?_⟩
  · simp only [cmdJson2ogdl, hf, json2ogdlFrom]
    rw [readJson_all _ _ (by simp), hj]
    show (do let s ← (fromJSON (.obj l)).text E; Res.ok (s ++ [10])) = _
    rw [hg, h1]; rfl
  · refine fromReader_of_textOf ⟨0, false, ?_, by simp⟩ hs
    rcases h3 with ⟨h4, rfl⟩ | h3
    · rw [h4]; exact Writes.blank (s := []) (t := []) (eol := [10]) (by simp [Blank]) rfl (.inl rfl) .nil
    · rw [← h3]; exact fileOf_text E _ hw

/-- An object with an object and a list. -/
example (E : Ext) : ∃ l, l = [(b!"a", Json.obj [(b!"b", .str b!"c")]), (b!"b", .arr [.str b!"c", .null])] ∧ WritableAtL 0 (jsonMembers E l) ∧
    json2ogdlFrom E (fun _ => some (.obj l)) { data := [] } = .ok b!"a\n  _\n    b\n      c\nb\n  _\n    c\n  _\n" := by
  have hl : ∀ c ∈ b!"abc_", AsciiLetter c := by unfold AsciiLetter; decide
  have hw : ∀ c ∈ b!"abc_", ∀ d, ∃ s, Val.str [c] = .str s ∧ Writable d s := fun c hc d => ⟨_, rfl, writable_letter (hl c hc) d⟩
  refine ⟨_, rfl, ?_, ?_⟩
  · simp only [jsonMembers, jsonTrees, jsonElems, WritableAtL, WritableAt, and_true]
    simp only [List.cons_ne_nil, ↓reduceIte, WritableAtL, WritableAt, and_true]
    exact ⟨⟨hw _ (by decide) _, hw _ (by decide) _, hw _ (by decide) _, hw _ (by decide) _⟩, hw _ (by decide) _, ⟨hw _ (by decide) _, hw _ (by decide) _⟩, hw _ (by decide) _⟩
  · have h : (fromJSON (.obj [(b!"a", Json.obj [(b!"b", .str b!"c")]), (b!"b", .arr [.str b!"c", .null])])).text E = .ok b!"a\n  _\n    b\n      c\nb\n  _\n    c\n  _" := rfl
    rw [json2ogdlFrom]
    show (do let s ← (fromJSON (.obj [(b!"a", Json.obj [(b!"b", .str b!"c")]), (b!"b", .arr [.str b!"c", .null])])).text E; Res.ok (s ++ [10])) = _
    rw [h]; rfl

/-- C87 is refuted for a text that starts with a backtick: it is read as two nodes. -/
theorem C87_refuted (E : Ext) : ∃ j, j = Json.obj [(b!"a", .str b!"`x`y")] ∧
    json2ogdlFrom E (fun _ => some j) { data := [] } = .ok b!"a\n  `x`y\n" ∧
    fromString E b!"a\n  `x`y\n" = .ok (.node (.str b!"_") [.node (.str b!"a") [.node (.str b!"x") [.node (.str b!"y") []]]]) := by
  refine ⟨_, rfl, ?_, (fromString_small E b!"a\n  `x`y\n" (by decide)).trans rfl⟩
  have h : (fromJSON (.obj [(b!"a", .str b!"`x`y")])).text E = .ok b!"a\n  `x`y" := rfl
  rw [json2ogdlFrom]
  show (do let s ← (fromJSON (.obj [(b!"a", .str b!"`x`y")])).text E; Res.ok (s ++ [10])) = _
  rw [h]; rfl

/-! ## C88: xml2ogdl -/

theorem writable_shownL {E : Ext} {gs : List Graph} (hw : WritableAtL 0 gs) : shownL E gs = gs :=
  shownL_writable E gs 0 (writable_noNilL gs 0 hw) hw

theorem print_reads (E : Ext) (v : Val) (gs : List Graph) (hw : WritableAtL 0 gs) :
    ∃ s, (Graph.node v gs).text E = .ok s ∧ (ShortRuns (s ++ [10]) → fromString E (s ++ [10]) = .ok (.node (.str b!"_") gs)) := by
  obtain ⟨s, h1, h2, h3⟩ := textOf_text_end E (.node v gs) (by rw [Graph.out_node, writable_shownL hw]; exact hw)
  rw [Graph.out_node, writable_shownL hw] at h2 h3
  refine ⟨s, h1, fun hs => fromReader_of_textOf ⟨0, false, ?_, by simp⟩ hs⟩
  rcases h3 with ⟨h4, rfl⟩ | h3
  · rw [h4]; exact Writes.blank (s := []) (t := []) (eol := [10]) (by simp [Blank]) rfl (.inl rfl) .nil
  · rw [← h3]; exact fileOf_text E _ hw

/-- C88, part: what xml2ogdl prints for a document is OGDL text for its elements,
attributes and texts.  Missing: contents that `Text` does not quote (refuted below). -/
theorem C88_partial (E : Ext) (X : XmlExt) (decode : Bytes → List XmlToken) (fs : Bytes → Option Bytes) (f b : Bytes) (hf : fs f = some b)
    (items : List XmlItem) (hd : decode b = tokensL items) (hw : WritableAtL 0 (xmlGraphL X items)) :
    ∃ out, cmdXml2ogdl E X decode false [b!".", f] fs = .ok out ∧
      (ShortRuns out → fromString E out = .ok (.node (.str b!"_") (xmlGraphL X items))) := by
  obtain ⟨s, h1, h2⟩ := print_reads E .nil _ hw
  refine ⟨_, ?_, h2⟩
  simp only [cmdXml2ogdl, hf, hd, C51_document, Res.ok_bind, nodeAt_dot, withId, Bool.false_eq_true, ↓reduceIte, h1]

mutual
theorem simplifyCmd_child (E : Ext) : ∀ g : Graph, FieldFree E g → simplifyCmdChild E g = simplifyXmlChild E g
  | .nil, _ => rfl
  | .node v o, h => by
    simp only [FieldFree] at h
    rw [simplifyCmdChild, simplifyXmlChild, simplifyCmd_each E o h.2]
    congr 1
    cases o with
    | nil => rfl
    | cons first rest =>
      simp only [simplifyCmdNode, simplifyXmlNode]
      split
      · rfl
      · split
        · rename_i k c _
          rw [if_neg]
          intro hc
          simp only [Bool.and_eq_true, beq_iff_eq] at hc
          exact h.1 k c rest rfl hc
        · rfl
theorem simplifyCmd_each (E : Ext) : ∀ gs : List Graph, FieldFreeL E gs → simplifyCmdEach E gs = simplifyXmlEach E gs
  | [], _ => rfl
  | g :: gs, h => by
    simp only [FieldFreeL] at h
    rw [simplifyCmdEach, simplifyXmlEach, simplifyCmd_child E g h.1, simplifyCmd_each E gs h.2]
end

theorem fieldFreeL_append {E : Ext} : ∀ {a b : List Graph}, FieldFreeL E a → FieldFreeL E b → FieldFreeL E (a ++ b)
  | [], _, _, hb => hb
  | g :: a, b, ha, hb => by
    simp only [FieldFreeL, List.cons_append] at ha ⊢
    exact ⟨ha.1, fieldFreeL_append ha.2 hb⟩

theorem fieldFree_attrs (E : Ext) : ∀ attrs : List (Bytes × Bytes), FieldFreeL E (xmlAttrs attrs)
  | [] => trivial
  | a :: attrs => by
    have hc : xmlAttrs (a :: attrs) = .node (.str (b!"@" ++ a.1)) [.node (.str a.2) []] :: xmlAttrs attrs := rfl
    rw [hc]
    simp only [FieldFreeL, FieldFree]
    exact ⟨⟨by simp, ⟨by simp, trivial⟩, trivial⟩, fieldFree_attrs E attrs⟩

mutual
theorem fieldFree_item (E : Ext) (X : XmlExt) : ∀ i : XmlItem, NoAt X i → NoField X i → FieldFreeL E (xmlGraph X i)
  | .elem name attrs items, h, h' => by
    simp only [NoAt] at h
    simp only [NoField] at h'
    have hx : xmlGraph X (.elem name attrs items) = [.node (.str (xmlName X name)) (xmlAttrs attrs ++ xmlGraphL X items)] := rfl
    rw [hx]
    simp only [FieldFreeL, FieldFree, and_true]
    refine ⟨?_, fieldFreeL_append (fieldFree_attrs E attrs) (fieldFree_items E X items h.2 h'.2)⟩
    intro k c rest he hk
    cases attrs with
    | nil =>
      obtain ⟨k', o', h1, _, h3⟩ := graph_head X items h.2 _ _ he
      cases h1
      exact h3 hk.2 rfl
    | cons a as =>
      have hc : xmlAttrs (a :: as) = .node (.str (b!"@" ++ a.1)) [.node (.str a.2) []] :: xmlAttrs as := rfl
      rw [hc, List.cons_append] at he
      injection he with h1 h2
      injection h1 with h1 h3
      subst h1
      simp only [vstr] at hk
      refine h'.1 a as rfl ?_ hk.1
      have := hk.2
      simpa using this
  | .text s, _, _ => by
    simp only [xmlGraph]
    split
    · trivial
    · simp [FieldFreeL, FieldFree]
  | .misc, _, _ => trivial
theorem fieldFree_items (E : Ext) (X : XmlExt) : ∀ is : List XmlItem, NoAtL X is → NoFieldL X is → FieldFreeL E (xmlGraphL X is)
  | [], _, _ => trivial
  | i :: is, h, h' => by
    simp only [NoAtL] at h
    simp only [NoFieldL] at h'
    rw [xmlGraphL]
    exact fieldFreeL_append (fieldFree_item E X i h.1 h'.1) (fieldFree_items E X is h.2 h'.2)
end

/-- With `-id` the text printed is one for the simplified document: what
`gxml.Simplify` makes of it (C82), as long as there is no field with a name. -/
theorem C88_id_partial (E : Ext) (X : XmlExt) (decode : Bytes → List XmlToken) (fs : Bytes → Option Bytes) (f b : Bytes) (hf : fs f = some b)
    (items : List XmlItem) (hd : decode b = tokensL items) (h : NoAtL X items) (h' : NoFieldL X items) (hw : WritableAtL 0 (simpleGraphL X items)) :
    ∃ out, cmdXml2ogdl E X decode true [b!".", f] fs = .ok out ∧
      (ShortRuns out → fromString E out = .ok (.node (.str b!"_") (simpleGraphL X items))) := by
  obtain ⟨s, h1, h2⟩ := print_reads E .nil _ hw
  refine ⟨_, ?_, h2⟩
  have hs : simplifyCmd E (.node .nil (xmlGraphL X items)) = .ok (.node .nil (simpleGraphL X items)) := by
    rw [simplifyCmd, simplifyCmd_each E _ (fieldFree_items E X items h h'), simplifyXml_items E X items h, mapM_ok, Res.ok_bind]
  simp only [cmdXml2ogdl, hf, hd, C51_document, Res.ok_bind, nodeAt_dot, withId, ↓reduceIte, hs, h1]

/-- A document with an id, printed with and without `-id`. -/
example (E : Ext) : ∃ items, items = [XmlItem.elem b!"a" [(b!"id", b!"c")] [.text b!"b"]] ∧ NoAtL ⟨id, id⟩ items ∧ NoFieldL ⟨id, id⟩ items ∧
    WritableAtL 0 (simpleGraphL ⟨id, id⟩ items) ∧
    cmdXml2ogdl E ⟨id, id⟩ (fun _ => tokensL items) false [b!".", b!"f"] (fun _ => some []) = .ok b!"a\n  @id\n    c\n  b\n" ∧
    cmdXml2ogdl E ⟨id, id⟩ (fun _ => tokensL items) true [b!".", b!"f"] (fun _ => some []) = .ok b!"c\n  b\n" := by
  have hl : ∀ c ∈ b!"abc", AsciiLetter c := by unfold AsciiLetter; decide
  refine ⟨_, rfl, ?_, ?_, ?_, ?_, ?_⟩
  · simp [NoAtL, NoAt, xmlName]
  · simp [NoFieldL, NoField]
  · have : simpleGraphL ⟨id, id⟩ [XmlItem.elem b!"a" [(b!"id", b!"c")] [.text b!"b"]] = [.node (.str b!"c") [.node (.str b!"b") []]] := rfl
    rw [this]
    simp only [WritableAtL, WritableAt, and_true]
    exact ⟨⟨_, rfl, writable_letter (hl _ (by decide)) _⟩, ⟨_, rfl, writable_letter (hl _ (by decide)) _⟩⟩
  · have h : (Graph.node .nil (xmlGraphL ⟨id, id⟩ [XmlItem.elem b!"a" [(b!"id", b!"c")] [.text b!"b"]])).text E = .ok b!"a\n  @id\n    c\n  b" := rfl
    simp only [cmdXml2ogdl, C51_document, Res.ok_bind, nodeAt_dot, withId, Bool.false_eq_true, ↓reduceIte, h]
    rfl
  · have h1 : simplifyCmd E (.node .nil (xmlGraphL ⟨id, id⟩ [XmlItem.elem b!"a" [(b!"id", b!"c")] [.text b!"b"]])) = .ok (.node .nil [.node (.str b!"c") [.node (.str b!"b") []]]) := rfl
    have h2 : (Graph.node .nil [.node (.str b!"c") [.node (.str b!"b") []]]).text E = .ok b!"c\n  b" := rfl
    simp only [cmdXml2ogdl, C51_document, Res.ok_bind, nodeAt_dot, withId, ↓reduceIte, h1, h2]
    rfl

/-- C88 is refuted for a text that starts with a backtick: it is read as two nodes. -/
theorem C88_refuted (E : Ext) : ∃ items, items = [XmlItem.elem b!"a" [] [.text b!"`x`y"]] ∧
    cmdXml2ogdl E ⟨id, id⟩ (fun _ => tokensL items) false [b!".", b!"f"] (fun _ => some []) = .ok b!"a\n  `x`y\n" ∧
    fromString E b!"a\n  `x`y\n" = .ok (.node (.str b!"_") [.node (.str b!"a") [.node (.str b!"x") [.node (.str b!"y") []]]]) := by
  refine ⟨_, rfl, ?_, (fromString_small E b!"a\n  `x`y\n" (by decide)).trans rfl⟩
  have h : (Graph.node .nil (xmlGraphL ⟨id, id⟩ [XmlItem.elem b!"a" [] [.text b!"`x`y"]])).text E = .ok b!"a\n  `x`y" := rfl
  simp only [cmdXml2ogdl, C51_document, Res.ok_bind, nodeAt_dot, withId, Bool.false_eq_true, ↓reduceIte, h]
  rfl

end Ogdl
