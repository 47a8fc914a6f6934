import Verif.Spec.Cmd
import Verif.Lemmas.Text
import Verif.Lemmas.Get
import Verif.Lemmas.Assign

/-! # The programs -/

namespace Ogdl
open Spec

/-- The lines that gpath prints for a node. -/
theorem text_newline (E : Ext) (g : Graph) (hw : WritableAtL 0 (shownL E g.out)) :
    ∃ s, g.text E = .ok s ∧ finalNewline s = Graph.textAtL E false 0 (shownL E g.out) := by
  obtain ⟨s, h1, _, h3⟩ := textOf_text_end E g hw
  refine ⟨s, h1, ?_⟩
  rcases h3 with ⟨h4, rfl⟩ | h3
  · rw [h4]; rfl
  · rcases textAtL_last E _ 0 hw with h4 | ⟨t, c, h4, h5⟩
    · rw [h4] at h3; simp [Graph.textAtL] at h3
    · rw [h4]
      rw [h4, show t ++ [c, 10] = (t ++ [c]) ++ [10] by simp] at h3
      have := List.append_cancel_right h3
      subst this
      have h10 : c ≠ 10 := by rintro rfl; exact absurd h5 (by decide)
      have h13 : c ≠ 13 := by rintro rfl; exact absurd h5 (by decide)
      simp [finalNewline, h10, h13]

theorem fileOf_text (E : Ext) (gs : List Graph) (hw : WritableAtL 0 gs) : Writes E false 0 gs (Graph.textAtL E false 0 gs) false :=
  (writes_textAtL E gs 0 hw).1

theorem fileOf_read {E : Ext} {gs : List Graph} {t : Bytes} (h : FileOf E gs t) : fromReader E false { data := t } = .ok (.node (.str b!"_") gs) :=
  fromReader_of_textOf ⟨0, false, h.1, by simp⟩ h.2

/-- Texts of unindented lines can be put one after the other. -/
theorem writes_append {E : Ext} {types : Bool} {n : Nat} {gs : List Graph} {t : Bytes} {o : Bool} (h : Writes E types n gs t o) (ho : o = false)
    {gs' : List Graph} {t' : Bytes} {o' : Bool} (h' : Writes E types n gs' t' o') : Writes E types n (gs ++ gs') (t ++ t') o' := by
  induction h with
  | nil => simpa using h'
  | @node n m s t eol t1 t2 v vs cs gs o1 o2 hb hl hline he hm hw1 hw2 hopen ih1 ih2 =>
    simp only [Bool.or_eq_false_iff] at ho
    obtain ⟨rfl, rfl⟩ := ho
    have := Writes.node hb hl hline he hm hw1 (ih2 rfl h') (by simp)
    simpa using this
  | «open» => simp at ho
  | blank hb hl he hw ih =>
    have := Writes.blank hb hl he (ih ho h')
    simpa using this
  | comment hb hl hbb hc hw ih =>
    have := Writes.comment hb hl hbb hc (ih ho h')
    simpa using this
  | @noted n m s t c t1 t2 b v vs cs gs o1 o2 hb hl hpre hbb hc hm hw1 hw2 hopen ih1 ih2 =>
    simp only [Bool.or_eq_false_iff] at ho
    obtain ⟨rfl, rfl⟩ := ho
    have := Writes.noted hb hl hpre hbb hc hm hw1 (ih2 rfl h') (by simp)
    simpa using this
  | @block k t eol t1 t2 vs ls gs o hpre he hlast hblock hw hhead ih =>
    simp only [Bool.or_eq_false_iff] at ho
    obtain ⟨rfl, hne⟩ := ho
    cases t2 with
    | nil => simp at hne
    | cons c t2 =>
      have := Writes.block (t := t) (eol := eol) (t1 := t1) hpre he hlast hblock (ih rfl h') (by simpa using hhead)
      simpa using this

theorem scal_inert {E : Ext} {n : Nat} {l : Bool} {v : Val} {r : Bytes} (h : Scal E false n l v r) : Inert E v := by
  cases h with
  | word _ _ _ hv => simp only [WordValue, Bool.false_eq_true, ↓reduceIte] at hv; subst hv; trivial
  | quoted => trivial

theorem lineOf_inert {E : Ext} {n : Nat} {vs : List Val} {r : Bytes} (h : LineOf E false n vs r) : ∀ v ∈ vs, Inert E v := by
  induction h with
  | last h => simpa using scal_inert h
  | trailing h => simpa using scal_inert h
  | more h _ _ _ ih =>
    intro v hv
    rcases List.mem_cons.1 hv with rfl | hv
    · exact scal_inert h
    · exact ih v hv

theorem prefixOf_inert {E : Ext} {n : Nat} {vs : List Val} {r : Bytes} (h : PrefixOf E false n vs r) : ∀ v ∈ vs, Inert E v := by
  induction h with
  | nil => simp
  | cons h _ _ _ ih =>
    intro v hv
    rcases List.mem_cons.1 hv with rfl | hv
    · exact scal_inert h
    · exact ih v hv

theorem dataL_append {E : Ext} {a b : List Graph} (ha : NoNilL a ∧ AllThisL (Inert E) a) (hb : NoNilL b ∧ AllThisL (Inert E) b) :
    NoNilL (a ++ b) ∧ AllThisL (Inert E) (a ++ b) := by
  induction a with
  | nil => exact hb
  | cons g a ih =>
    simp only [NoNilL, AllThisL] at ha
    have := ih ⟨ha.1.2, ha.2.2⟩
    exact ⟨⟨ha.1.1, this.1⟩, ⟨ha.2.1, this.2⟩⟩

theorem chain_data {E : Ext} : ∀ {vs : List Val}, (∀ v ∈ vs, Inert E v) → NoNilL (chain vs) ∧ AllThisL (Inert E) (chain vs)
  | [], _ => ⟨trivial, trivial⟩
  | v :: vs, h => by
    have := chain_data (E := E) (vs := vs) fun x hx => h x (by simp [hx])
    exact ⟨⟨this.1, trivial⟩, ⟨⟨h v (by simp), this.2⟩, trivial⟩⟩

/-- What is read from a text is data. -/
theorem writes_data {E : Ext} {n : Nat} {gs : List Graph} {t : Bytes} {o : Bool} (h : Writes E false n gs t o) :
    NoNilL gs ∧ AllThisL (Inert E) gs := by
  have hnode : ∀ {v : Val} {vs : List Val} {cs gs : List Graph}, (∀ x ∈ v :: vs, Inert E x) → (NoNilL cs ∧ AllThisL (Inert E) cs) →
      (NoNilL gs ∧ AllThisL (Inert E) gs) → NoNilL (.node v (chain vs ++ cs) :: gs) ∧ AllThisL (Inert E) (.node v (chain vs ++ cs) :: gs) := by
    intro v vs cs gs hv hc hg
    have := dataL_append (chain_data (E := E) (vs := vs) fun x hx => hv x (by simp [hx])) hc
    exact ⟨⟨this.1, hg.1⟩, ⟨⟨hv v (by simp), this.2⟩, hg.2⟩⟩
  induction h with
  | nil => exact ⟨trivial, trivial⟩
  | node _ _ hline _ _ _ _ _ ih1 ih2 => exact hnode (lineOf_inert hline) ih1 ih2
  | «open» _ _ hline => simpa using hnode (cs := []) (gs := []) (lineOf_inert hline) ⟨trivial, trivial⟩ ⟨trivial, trivial⟩
  | blank _ _ _ _ ih => exact ih
  | comment _ _ _ _ _ ih => exact ih
  | noted _ _ hpre _ _ _ _ _ _ ih1 ih2 => exact hnode (prefixOf_inert hpre) ih1 ih2
  | block hpre _ _ _ _ _ ih =>
    refine dataL_append (chain_data ?_) ih
    intro v hv
    simp only [List.mem_append, List.mem_singleton] at hv
    rcases hv with hv | rfl
    · exact prefixOf_inert hpre v hv
    · trivial

theorem fileOf_data {E : Ext} {gs : List Graph} {t : Bytes} (h : FileOf E gs t) (v : Val) (hv : Inert E v) : Data E (.node v gs) :=
  ⟨(writes_data h.1).1, hv, (writes_data h.1).2⟩

mutual
theorem writable_noNil : ∀ (g : Graph) (d : Nat), WritableAt d g → NoNil g
  | .node _ o, d, h => writable_noNilL o (d + 1) h.2
theorem writable_noNilL : ∀ (gs : List Graph) (d : Nat), WritableAtL d gs → NoNilL gs
  | [], _, _ => trivial
  | g :: gs, d, h => ⟨writable_noNil g d h.1, writable_noNilL gs d h.2⟩
end

theorem name_not_dot {E : Ext} {s : Bytes} (h : Name E s) (t : Bytes) : s ≠ 46 :: t := by
  obtain ⟨rs, hne, hr, rfl⟩ := h
  cases rs with
  | nil => exact absurd rfl hne
  | cons r rs =>
    intro heq
    obtain ⟨c, w, hw, hc⟩ := encodeRune_head r
    rw [List.flatMap_cons, hw] at heq
    simp only [List.cons_append, List.cons.injEq] at heq
    obtain ⟨rfl, _⟩ := heq
    obtain ⟨hv, hn⟩ := hr r (by simp)
    by_cases h80 : r < 0x80
    · rw [if_pos h80] at hc
      have : r = 46 := by rw [← hc.1]; rfl
      subst this
      rcases hn with h | h
      · exact absurd h (by decide)
      · rw [if_pos (by decide)] at h
        rcases h with h | h
        · exact absurd h (by decide)
        · omega
    · rw [if_neg h80] at hc
      exact absurd hc (by decide)

theorem dotted_not_dot {E : Ext} {ids : List Bytes} (hp : Path E ids) : dotted ids ≠ b!"." := by
  cases ids with
  | nil => exact absurd rfl hp.1
  | cons id ids =>
    rw [← names_text]
    have h := hp.2 id (by simp)
    cases id with
    | nil => exact absurd rfl (name_ne_nil h)
    | cons c t =>
      intro he
      simp only [List.cons_append, List.cons.injEq] at he
      rw [he.1] at h
      exact name_not_dot h _ rfl

theorem get_root {E : Ext} {ids : List Bytes} {gs : List Graph} (hp : Path E ids) (hl : Fits (dotted ids)) (hd : Data E (.node (.str b!"_") gs)) :
    ((Graph.node (.str b!"_") gs).get E (dotted ids)).bind (fun r => .ok r.1) = .ok (lookup E ids (.node (.str b!"_") gs)) := by
  rw [get_names hp hl (.inr hd)]; rfl

/-- All files after the first, read. -/
theorem moreFiles_fileOf {E : Ext} {fs : Bytes → Option Bytes} : ∀ (files : List Bytes) (gs : List Graph) (t : Bytes) (root : Val),
    (∀ f ∈ files, ∃ gs t, fs f = some t ∧ t ≠ [] ∧ FileOf E gs t) → Writes E false 0 gs t false →
    ∃ gs', moreFiles E fs (.node root gs) files = .ok (.node root gs') ∧
      Writes E false 0 gs' (t ++ files.flatMap fun f => (fs f).getD []) false
  | [], gs, t, root, _, hw => ⟨gs, rfl, by simpa using hw⟩
  | f :: files, gs, t, root, h, hw => by
    obtain ⟨gs2, t2, h1, h2, h3⟩ := h f (by simp)
    obtain ⟨gs', h4, h5⟩ := moreFiles_fileOf files (gs ++ gs2) (t ++ t2) root (fun x hx => h x (by simp [hx])) (writes_append hw rfl h3.1)
    refine ⟨gs', ?_, by simpa [h1] using h5⟩
    have h2' : t2.length ≠ 0 := by simpa using h2
    simp only [moreFiles, h1, fromFile, beq_iff_eq, h2', ↓reduceIte, fileOf_read h3, Res.ok_bind, Graph.addNodes, h4]

mutual
/-- The trees of a JSON document are what is shown of its graph. -/
theorem shownL_toGraph (E : Ext) : ∀ (j : Json) (d : Nat), WritableAtL d (jsonTrees E j) → shownL E (toGraphOut j) = jsonTrees E j
  | .null, _, _ => rfl
  | .bool true, _, _ => by simp [toGraphOut, jsonTrees, shownL, shown, vstr]
  | .bool false, _, _ => by simp [toGraphOut, jsonTrees, shownL, shown, vstr]
  | .int i, d, h => by
    simp only [jsonTrees, WritableAtL, WritableAt] at h
    obtain ⟨⟨⟨s, h1, h2⟩, _⟩, _⟩ := h
    obtain rfl := Val.str.inj h1
    have := (text_line (E := E) h2).1
    simp [toGraphOut, jsonTrees, shownL, shown, vstr, this]
  | .float f, d, h => by
    simp only [jsonTrees, WritableAtL, WritableAt] at h
    obtain ⟨⟨⟨s, h1, h2⟩, _⟩, _⟩ := h
    obtain rfl := Val.str.inj h1
    have := (text_line (E := E) h2).1
    simp [toGraphOut, jsonTrees, shownL, shown, vstr, this]
  | .str s, d, h => by
    by_cases hs : s = []
    · simp [toGraphOut, jsonTrees, shownL, shown, vstr, hs]
    · simp [toGraphOut, jsonTrees, shownL, shown, vstr, hs]
  | .arr l, d, h => by
    simp only [jsonTrees] at h ⊢
    simp only [toGraphOut]
    exact shownL_toGraphArr E l d h
  | .obj l, d, h => by
    simp only [jsonTrees, WritableAtL, WritableAt] at h ⊢
    simp [toGraphOut, shownL, shown, vstr, shownL_toGraphObj E l _ h.1.2]
theorem shownL_toGraphArr (E : Ext) : ∀ (l : List Json) (d : Nat), WritableAtL d (jsonElems E l) → shownL E (toGraphArr l) = jsonElems E l
  | [], _, _ => rfl
  | j :: l, d, h => by
    simp only [jsonElems, WritableAtL, WritableAt] at h ⊢
    simp [toGraphArr, shownL, shown, vstr, shownL_toGraph E j _ h.1.2, shownL_toGraphArr E l d h.2]
theorem shownL_toGraphObj (E : Ext) : ∀ (l : List (Bytes × Json)) (d : Nat), WritableAtL d (jsonMembers E l) → shownL E (toGraphObj l) = jsonMembers E l
  | [], _, _ => rfl
  | (k, j) :: l, d, h => by
    simp only [jsonMembers, WritableAtL, WritableAt] at h ⊢
    obtain ⟨⟨⟨s, h1, h2⟩, h3⟩, h4⟩ := h
    obtain rfl := Val.str.inj h1
    have := (text_line (E := E) h2).1
    simp [toGraphObj, shownL, shown, vstr, this, shownL_toGraph E j _ h3, shownL_toGraphObj E l d h4]
end

/-- json2ogdl reads all of a file. -/
theorem readJson_all : ∀ (n : Nat) (s : Bytes), s.length < n → readJson n { data := s } = s
  | 0, s, h => by omega
  | n + 1, s, h => by
    simp only [readJson, Reader.read]
    cases s with
    | nil => simp
    | cons c s =>
      have ih := readJson_all n (s.drop 4095) (by simp at h ⊢; omega)
      simp only [List.isEmpty_cons, Bool.false_and, Bool.or_self, Bool.not_false, Bool.not_true, Bool.false_or, List.take_succ_cons, List.length_cons, beq_iff_eq, Nat.add_eq_zero_iff,
        List.drop_succ_cons, List.tail_nil]
      rw [if_neg (by omega), ih]
      simp

end Ogdl
