import Verif.Spec.Xml

/-!
# C51: XML

`Spec.tokensL`: the tokens of a document.  `Spec.xmlGraphL`: a node per element,
nested as in the document.  `X` stands for the text functions from outside.
-/

namespace Ogdl
open Spec

mutual
theorem xml_item (X : XmlExt) : ∀ (i : XmlItem) (v : Val) (o : List Graph) (st : List (Val × List Graph)) (d : Graph),
    (tokens i).foldlM (xmlStep X) ⟨(v, o) :: st, d⟩ = .ok ⟨(v, o ++ xmlGraph X i) :: st, d⟩
  | .elem name attrs items, v, o, st, d => by
    simp only [tokens, List.cons_append, List.foldlM_cons, xmlStep, Res.ok_bind, List.foldlM_append]
    rw [xml_items X items]
    simp [xmlGraph, xmlKey, attrNodes]
  | .text s, v, o, st, d => by
    simp only [tokens, List.foldlM_cons, xmlStep, List.foldlM_nil, xmlGraph]
    by_cases h : X.trim s = []
    · simp [h]
    · have : 0 < (X.trim s).length := List.length_pos_iff.2 h
      simp [h, this]
  | .misc, v, o, st, d => by simp [tokens, xmlStep, xmlGraph]
theorem xml_items (X : XmlExt) : ∀ (is : List XmlItem) (v : Val) (o : List Graph) (st : List (Val × List Graph)) (d : Graph),
    (tokensL is).foldlM (xmlStep X) ⟨(v, o) :: st, d⟩ = .ok ⟨(v, o ++ xmlGraphL X is) :: st, d⟩
  | [], v, o, st, d => by simp [tokensL, xmlGraphL]
  | i :: is, v, o, st, d => by
    simp only [tokensL, List.foldlM_append]
    rw [xml_item X i]
    simp only [Res.ok_bind]
    rw [xml_items X is]
    simp [xmlGraphL]
end

/-- **C51** Every document becomes a root with one node per element, nested as in the
document, with the attributes as `@name` subnodes and the trimmed text that is not
blank as leaves, in the order of the document. -/
theorem C51_document (X : XmlExt) (items : List XmlItem) : fromXML X (tokensL items) = .ok (.node .nil (xmlGraphL X items)) := by
  rw [fromXML, xml_items X items]
  simp [xmlRoot, xmlRoot.up]

/-- `<a x-y="1">t<!-- -->  <b-c/></a>`, with a `trim` that removes spaces. -/
example : fromXML ⟨id, fun s => s.filter (· != 32)⟩ (tokensL [.elem b!"a" [(b!"x-y", b!"1")] [.text b!"t", .misc, .text b!"  ", .elem b!"b-c" [] []]]) =
    .ok (.node .nil [.node (.str b!"a") [.node (.str b!"@x-y") [.node (.str b!"1") []], .node (.str b!"t") [], .node (.str b!"b_c") []]]) := by
  rw [C51_document]
  simp [xmlGraphL, xmlGraph]

theorem xml_cut (X : XmlExt) : ∀ (c : CutDoc) (v : Val) (o : List Graph) (st : List (Val × List Graph)) (d : Graph),
    ∃ f fs, (cutTokens c).foldlM (xmlStep X) ⟨(v, o) :: st, d⟩ = .ok ⟨f :: fs, d⟩ ∧
      xmlRoot.up f fs = xmlRoot.up (v, o ++ cutGraph X c) st
  | .here items, v, o, st, d => ⟨_, _, xml_items X items v o st d, rfl⟩
  | .inside items name attrs c, v, o, st, d => by
    obtain ⟨f, fs, h1, h2⟩ := xml_cut X c (.str (xmlKey X name)) (attrNodes attrs) ((v, o ++ xmlGraphL X items) :: st) d
    refine ⟨f, fs, ?_, ?_⟩
    · simp only [cutTokens, List.foldlM_append, xml_items X items, Res.ok_bind, List.foldlM_cons, xmlStep]
      exact h1
    · rw [h2]
      simp [xmlRoot.up, cutGraph, xmlKey, attrNodes]

mutual
theorem cut_item : ∀ (i : XmlItem) (n : Nat), n < (tokens i).length → ∃ c, (tokens i).take n = cutTokens c
  | .elem name attrs items, 0, _ => ⟨.here [], by simp [cutTokens, tokensL]⟩
  | .elem name attrs items, n + 1, h => by
    by_cases hn : n ≤ (tokensL items).length
    · obtain ⟨c, hc⟩ := cut_items items n
      refine ⟨.inside [] name attrs c, ?_⟩
      simp [tokens, cutTokens, tokensL, List.take_append_of_le_length hn, hc]
    · simp [tokens] at h
      omega
  | .text s, 0, _ => ⟨.here [], by simp [cutTokens, tokensL]⟩
  | .text s, n + 1, h => by simp [tokens] at h
  | .misc, 0, _ => ⟨.here [], by simp [cutTokens, tokensL]⟩
  | .misc, n + 1, h => by simp [tokens] at h
theorem cut_items : ∀ (is : List XmlItem) (n : Nat), ∃ c, (tokensL is).take n = cutTokens c
  | [], n => ⟨.here [], by simp [cutTokens, tokensL]⟩
  | i :: is, n => by
    by_cases hn : n < (tokens i).length
    · obtain ⟨c, hc⟩ := cut_item i n hn
      exact ⟨c, by rw [tokensL, List.take_append_of_le_length (by omega), hc]⟩
    · obtain ⟨c, hc⟩ := cut_items is (n - (tokens i).length)
      have : (tokensL (i :: is)).take n = tokens i ++ cutTokens c := by
        rw [tokensL, List.take_append, List.take_of_length_le (by omega), hc]
      cases c with
      | here items => exact ⟨.here (i :: items), by rw [this]; simp [cutTokens, tokensL]⟩
      | inside items name attrs c => exact ⟨.inside (i :: items) name attrs c, by rw [this]; simp [cutTokens, tokensL]⟩
end

/-- **C51** A document that ends, or becomes invalid, after any number of tokens gives
what has been read of it, with the open elements as they are. -/
theorem C51_cut (X : XmlExt) (items : List XmlItem) (n : Nat) :
    ∃ c, (tokensL items).take n = cutTokens c ∧ fromXML X ((tokensL items).take n) = .ok (.node .nil (cutGraph X c)) := by
  obtain ⟨c, hc⟩ := cut_items items n
  refine ⟨c, hc, ?_⟩
  obtain ⟨f, fs, h1, h2⟩ := xml_cut X c .nil [] [] .nil
  rw [hc, fromXML, h1]
  simp [xmlRoot, h2, xmlRoot.up]

example (X : XmlExt) : cutGraph X (.inside [] b!"a" [] (.inside [.text b!"t"] b!"b" [] (.here []))) =
    [.node (.str ((X.plainKey b!"a").map fun c => if c = 45 then 95 else c))
      ((if X.trim b!"t" = [] then [] else [.node (.str (X.trim b!"t")) []]) ++
        [.node (.str ((X.plainKey b!"b").map fun c => if c = 45 then 95 else c)) []])] := by
  simp [cutGraph, xmlGraphL, xmlGraph]

/-! ## C82: Simplify -/

theorem simplifyXmlEach_append (E : Ext) : ∀ (a b : List Graph), simplifyXmlEach E (a ++ b) = simplifyXmlEach E a ++ simplifyXmlEach E b
  | [], b => rfl
  | g :: a, b => by simp [simplifyXmlEach, simplifyXmlEach_append E a b]

theorem simplifyXmlEach_attrs (E : Ext) : ∀ attrs : List (Bytes × Bytes), simplifyXmlEach E (xmlAttrs attrs) = (xmlAttrs attrs).map .ok
  | [] => rfl
  | a :: attrs => by
    have ih := simplifyXmlEach_attrs E attrs
    have hc : xmlAttrs (a :: attrs) = .node (.str (b!"@" ++ a.1)) [.node (.str a.2) []] :: xmlAttrs attrs := rfl
    rw [hc, simplifyXmlEach, ih]
    simp [simplifyXmlEach, simplifyXmlChild, simplifyXmlNode]

theorem mapM_ok (l : List Graph) : (l.map Res.ok).mapM (id : Res Graph → Res Graph) = .ok l := by
  induction l with
  | nil => rfl
  | cons a l ih => simp [List.map_cons, List.mapM_cons, ih]

/-- The first node of an item is not one of an attribute. -/
theorem graph_head (X : XmlExt) : ∀ (items : List XmlItem), NoAtL X items → ∀ g rest, xmlGraphL X items = g :: rest →
    ∃ k o, g = .node (.str k) o ∧ k ≠ b!"@id" ∧ (k = b!"@name" → o.length ≠ 1)
  | [], _, g, rest, e => by simp [xmlGraphL] at e
  | i :: is, h, g, rest, e => by
    simp only [NoAtL] at h
    cases i with
    | elem name attrs items =>
      simp only [xmlGraphL, xmlGraph, List.cons_append, List.nil_append, List.cons.injEq] at e
      have hn := h.1
      simp only [NoAt] at hn
      refine ⟨_, _, e.1.symm, ?_, ?_⟩
      · intro hk
        apply hn.1
        show (xmlName X name).head? = _
        rw [xmlName, hk]
        rfl
      · intro hk
        exfalso
        apply hn.1
        show (xmlName X name).head? = _
        rw [xmlName, hk]
        rfl
    | text s =>
      simp only [xmlGraphL, xmlGraph] at e
      split at e
      · exact graph_head X is h.2 g rest e
      · simp only [List.cons_append, List.nil_append, List.cons.injEq] at e
        exact ⟨_, _, e.1.symm, h.1, by simp⟩
    | misc =>
      simp only [xmlGraphL, xmlGraph, List.nil_append] at e
      exact graph_head X is h.2 g rest e

theorem simpleGraph_length (X : XmlExt) : ∀ items : List XmlItem, (simpleGraphL X items).length = (xmlGraphL X items).length
  | [] => rfl
  | i :: is => by
    have ih := simpleGraph_length X is
    have hi : (simpleGraph X i).length = (xmlGraph X i).length := by
      cases i with
      | elem name attrs items =>
        simp only [simpleGraph, xmlGraph]
        split
        · split
          · split
            · rfl
            · split <;> rfl
          · split <;> rfl
        · rfl
      | text s => simp only [simpleGraph, xmlGraph]
      | misc => rfl
    simp [simpleGraphL, xmlGraphL, ih, hi]

mutual
theorem simplifyXml_item (E : Ext) (X : XmlExt) : ∀ (i : XmlItem), NoAt X i → simplifyXmlEach E (xmlGraph X i) = (simpleGraph X i).map .ok
  | .elem name attrs items, h => by
    simp only [NoAt] at h
    have ih := simplifyXml_items E X items h.2
    have hlen := simpleGraph_length X items
    have hx : xmlGraph X (.elem name attrs items) = [.node (.str (xmlName X name)) (xmlAttrs attrs ++ xmlGraphL X items)] := rfl
    have hall : simplifyXmlEach E (xmlAttrs attrs ++ xmlGraphL X items) = (xmlAttrs attrs ++ simpleGraphL X items).map .ok := by
      rw [simplifyXmlEach_append, simplifyXmlEach_attrs, ih, List.map_append]
    rw [hx]
    simp only [simplifyXmlEach, simplifyXmlChild, hall, simpleGraph]
    cases attrs with
    | nil =>
      have h0 : xmlAttrs [] = [] := rfl
      simp only [h0, List.nil_append]
      have hn : simplifyXmlNode E (.str (xmlName X name)) (xmlGraphL X items) ((simpleGraphL X items).map .ok) =
          .ok (.str (xmlName X name), (simpleGraphL X items).map .ok) := by
        cases hg : xmlGraphL X items with
        | nil => rfl
        | cons g rest =>
          obtain ⟨k, o, rfl, h1, h2⟩ := graph_head X items h.2 g rest hg
          have hk : (Graph.thisString E (.node (.str k) o) == b!"@id") = false := by
            simpa [Graph.thisString, vstr] using h1
          simp only [simplifyXmlNode, hk, Bool.false_and, Bool.false_eq_true, ↓reduceIte]
          split
          · rename_i k' c he
            cases he
            rw [if_neg]
            rintro hc
            simp only [vstr, Bool.and_eq_true, beq_iff_eq] at hc
            exact h2 hc.2 rfl
          · rfl
      rw [hn]
      simp only [Res.ok_bind, mapM_ok]
      simp
    | cons a rest =>
      obtain ⟨a, v⟩ := a
      have hcons : xmlAttrs ((a, v) :: rest) = .node (.str (b!"@" ++ a)) [.node (.str v) []] :: xmlAttrs rest := rfl
      have hts : (Graph.thisString E (.node (.str (b!"@" ++ a)) [.node (.str v) []]) == b!"@id") = decide (a = b!"id") := by
        simp only [Graph.thisString, vstr, List.cons_append, List.nil_append]
        by_cases ha : a = b!"id"
        · subst ha; rfl
        · simp [ha]
      have hnm : (b!"@" ++ a == b!"@name") = decide (a = b!"name") := by
        simp only [List.cons_append, List.nil_append]
        by_cases ha : a = b!"name"
        · subst ha; rfl
        · simp [ha]
      have hll : ((.node (.str (b!"@" ++ a)) [.node (.str v) []] :: xmlAttrs rest) ++ xmlGraphL X items : List Graph).length =
          (xmlAttrs rest ++ simpleGraphL X items).length + 1 := by simp [hlen]
      simp only [hcons]
      rw [List.cons_append, simplifyXmlNode]
      simp only [hts]
      rw [← List.cons_append, hll]
      cases hlast : (xmlAttrs rest ++ simpleGraphL X items).getLast? with
      | none =>
        have hnil : xmlAttrs rest ++ simpleGraphL X items = [] := List.getLast?_eq_none_iff.1 hlast
        rw [List.cons_append, hnil]
        simp only [List.append_eq_nil_iff] at hnil
        simp only [List.length_nil, Nat.zero_add, ge_iff_le, Nat.not_succ_le_self, decide_false, Bool.and_false, Bool.false_eq_true, ↓reduceIte,
          vstr, hnm, Bool.and_eq_true, beq_iff_eq, decide_eq_true_eq, Graph.thisString]
        by_cases hf : a = b!"name" ∧ xmlName X name = b!"field"
        · rw [if_pos hf, if_pos hf.symm]
          simp
        · rw [if_neg hf, if_neg (fun h => hf h.symm)]
          simp [hnil.1]
      | some last =>
        have hne : 1 ≤ (xmlAttrs rest ++ simpleGraphL X items).length := by
          cases hq : xmlAttrs rest ++ simpleGraphL X items with
          | nil => rw [hq] at hlast; simp at hlast
          | cons => simp
        have h2 : decide ((xmlAttrs rest ++ simpleGraphL X items).length + 1 ≥ 2) = true := by rw [decide_eq_true_eq]; omega
        simp only [h2, Bool.and_true, decide_eq_true_eq]
        have hmap : ((.node (.str (b!"@" ++ a)) [.node (.str v) []] :: xmlAttrs rest ++ simpleGraphL X items : List Graph).map Res.ok).getLast? = some (.ok last) := by
          rw [List.cons_append, List.getLast?_map, List.getLast?_cons]
          simp [hlast]
        by_cases ha : a = b!"id"
        · simp only [ha, ↓reduceIte]
          subst ha
          rw [hmap]
          by_cases hp : xmlName X name = b!"p"
          · rw [hp]
            simp
          · simp only [hp, ↓reduceIte]
            split
            · rename_i heq
              simp only [Val.str.injEq] at heq
              exact absurd heq hp
            · simp
        · simp only [ha, ↓reduceIte, vstr, hnm, Bool.and_eq_true, beq_iff_eq, decide_eq_true_eq, Graph.thisString]
          by_cases hf : a = b!"name" ∧ xmlName X name = b!"field"
          · rw [if_pos hf, if_pos hf.symm]
            simp only [List.cons_append, List.map_cons, List.drop_succ_cons, List.drop_zero, Res.ok_bind, mapM_ok]
            simp
          · rw [if_neg hf, if_neg (fun h => hf h.symm)]
            rw [Res.ok_bind]
            simp only [mapM_ok, Res.ok_bind]
            simp
  | .text s, h => by
    simp only [xmlGraph, simpleGraph]
    split
    · rfl
    · simp [simplifyXmlEach, simplifyXmlChild, simplifyXmlNode]
  | .misc, _ => rfl
theorem simplifyXml_items (E : Ext) (X : XmlExt) : ∀ (is : List XmlItem), NoAtL X is → simplifyXmlEach E (xmlGraphL X is) = (simpleGraphL X is).map .ok
  | [], _ => rfl
  | i :: is, h => by
    simp only [NoAtL] at h
    rw [xmlGraphL, simplifyXmlEach_append, simplifyXml_item E X i h.1, simplifyXml_items E X is h.2, simpleGraphL, List.map_append]
end

/-- C82 (partial: no name of an element starts with `@`, no text is `@id`; see
`C82_panic_refuted`): Simplify of the graph of a document, exactly. -/
theorem C82_partial (E : Ext) (X : XmlExt) (items : List XmlItem) (h : NoAtL X items) :
    (fromXML X (tokensL items) >>= simplifyXml E) = .ok (.node .nil (simpleGraphL X items)) := by
  rw [C51_document, Res.ok_bind, simplifyXml, simplifyXml_items E X items h, mapM_ok, Res.ok_bind]

mutual
theorem simple_noId (X : XmlExt) : ∀ i : XmlItem, NoId X i → simpleGraph X i = xmlGraph X i
  | .elem name attrs items, h => by
    simp only [NoId] at h
    have ih := simple_noIdL X items h.2
    have hx : xmlGraph X (.elem name attrs items) = [.node (.str (xmlName X name)) (xmlAttrs attrs ++ xmlGraphL X items)] := rfl
    rw [hx]
    simp only [simpleGraph]
    cases attrs with
    | nil => simp [ih, xmlAttrs]
    | cons a rest =>
      obtain ⟨a, v⟩ := a
      obtain ⟨h1, h2⟩ := h.1 (a, v) rest rfl
      have h3 : ¬ (a = b!"name" ∧ xmlName X name = b!"field") := fun ⟨p, q⟩ => h2 p q
      simp only [if_neg h1, if_neg h3, ih]
      split
      · rfl
      · rename_i hn
        have := List.getLast?_eq_none_iff.1 hn
        simp only [List.append_eq_nil_iff] at this
        simp [this.2]
  | .text s, _ => by simp only [simpleGraph, xmlGraph]
  | .misc, _ => rfl
theorem simple_noIdL (X : XmlExt) : ∀ is : List XmlItem, NoIdL X is → simpleGraphL X is = xmlGraphL X is
  | [], _ => rfl
  | i :: is, h => by
    simp only [NoIdL] at h
    rw [simpleGraphL, xmlGraphL, simple_noId X i h.1, simple_noIdL X is h.2]
end

/-- C82: a document without the two patterns is left as it is. -/
theorem C82_unchanged_partial (E : Ext) (X : XmlExt) (items : List XmlItem) (h : NoAtL X items) (h' : NoIdL X items) :
    (fromXML X (tokensL items) >>= simplifyXml E) = fromXML X (tokensL items) := by
  rw [C82_partial E X items h, C51_document, simple_noIdL X items h']

/-- A document with the three cases, one inside the other. -/
example (E : Ext) : ∃ items, NoAtL ⟨id, id⟩ items ∧
    (fromXML ⟨id, id⟩ (tokensL items) >>= simplifyXml E) =
      .ok (.node .nil [.node (.str b!"7") [.node (.str b!"a_b") [.node (.str b!"p") [.node (.str b!"t") []]]]]) := by
  have h : NoAtL ⟨id, id⟩ [.elem b!"rec" [(b!"id", b!"7")] [.elem b!"lost" [] [],
      .elem b!"field" [(b!"name", b!"a b")] [.elem b!"p" [(b!"id", b!"1")] [.text b!"t"]]]] := by
    simp [NoAtL, NoAt, xmlName]
  exact ⟨_, h, by rw [C82_partial E _ _ h]; rfl⟩

/-- C82 (negative): of `<a id="1"><b/><c/></a>` Simplify loses `b`. -/
theorem C82_lost_refuted (E : Ext) : ∃ items : List XmlItem,
    items = [.elem b!"a" [(b!"id", b!"1")] [.elem b!"b" [] [], .elem b!"c" [] []]] ∧
    (fromXML ⟨id, id⟩ (tokensL items) >>= simplifyXml E) = .ok (.node .nil [.node (.str b!"1") [.node (.str b!"c") []]]) := by
  refine ⟨_, rfl, ?_⟩
  rw [C82_partial E _ _ (by simp [NoAtL, NoAt, xmlName])]
  rfl

/-- C82 (negative): Simplify of the graph of `<a>@id<b/></a>` panics. -/
theorem C82_panic_refuted (E : Ext) :
    (fromXML ⟨id, id⟩ (tokensL [.elem b!"a" [] [.text b!"@id", .elem b!"b" [] []]]) >>= simplifyXml E) = .panic := rfl

end Ogdl
