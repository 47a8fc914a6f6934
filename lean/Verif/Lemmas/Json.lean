import Verif.Spec.Json
import Verif.Lemmas.Typed
import Verif.Lemmas.Decimal

/-! Lemmas for C43, C44: JSON. -/

namespace Ogdl
open Spec

/-! ## `FromJSON` -/

theorem toGraphArr_get : ∀ (l : List Json) (i : Nat), (toGraphArr l)[i]? = l[i]?.map (fun j => Graph.node (.str b!"_") (toGraphOut j))
  | [], i => by simp [toGraphArr]
  | j :: js, 0 => by simp [toGraphArr]
  | j :: js, i + 1 => by simp [toGraphArr, toGraphArr_get js i]

theorem toGraphArr_length : ∀ l : List Json, (toGraphArr l).length = l.length
  | [] => rfl
  | j :: js => by simp [toGraphArr, toGraphArr_length js]

theorem toGraphObj_find (E : Ext) (k : Bytes) : ∀ l : List (Bytes × Json), (toGraphObj l).find? (fun n => n.thisString E == k) =
    (l.find? (fun m => m.1 == k)).map (fun m => Graph.node (.str m.1) (toGraphOut m.2))
  | [] => rfl
  | (a, j) :: l => by
    simp only [toGraphObj, List.find?_cons, Graph.thisString, vstr]
    cases h : (a == k) with
    | true => rfl
    | false => exact toGraphObj_find E k l

theorem toGraphObj_keys (E : Ext) : ∀ l : List (Bytes × Json), (toGraphObj l).map (fun n => n.thisString E) = l.map (·.1)
  | [] => rfl
  | (a, j) :: l => by
    simp only [toGraphObj, List.map_cons, toGraphObj_keys E l]
    rfl

theorem graphAt_toGraph (E : Ext) : ∀ (p : List Step) (j s : Json), docAt j p = some s → graphAt E (toGraphOut j) p = some (toGraphOut s)
  | [], j, s, h => by
    simp only [docAt, Option.some.injEq] at h
    rw [h]
    simp [graphAt]
  | .elem i :: p, j, s, h => by
    cases j with
    | arr l =>
      simp only [docAt] at h
      simp only [toGraphOut, graphAt, toGraphArr_get]
      cases hl : l[i]? with
      | none => simp [hl] at h
      | some x =>
        simp only [hl] at h
        simpa using graphAt_toGraph E p x s h
    | _ => simp [docAt] at h
  | .member k :: p, j, s, h => by
    cases j with
    | obj l =>
      simp only [docAt] at h
      simp only [toGraphOut, graphAt, Graph.out_node, toGraphObj_find]
      cases hl : l.find? (fun m => m.1 == k) with
      | none => simp [hl] at h
      | some x =>
        simp only [hl] at h
        simpa using graphAt_toGraph E p x.2 s h
    | _ => simp [docAt] at h

/-! ## Numbers and strings -/

theorem utoaAux_head : ∀ (f n : Nat) (acc : Bytes), n < f → n ≠ 0 → ∃ c t, utoaAux f n acc = c :: t ∧ 49 ≤ c ∧ c ≤ 57 ∧
    (Digits acc → Digits t)
  | 0, n, acc, h, _ => by omega
  | f + 1, n, acc, h, hn => by
    have hdig : ∀ m, m < 10 → (48 : UInt8) ≤ UInt8.ofNat (48 + m) ∧ UInt8.ofNat (48 + m) ≤ 57 := fun m hm =>
      ⟨(digit_ofNat hm).1, (digit_ofNat hm).2.1⟩
    by_cases h10 : n < 10
    · refine ⟨UInt8.ofNat (48 + n), acc, by simp [utoaAux, h10], ?_, (hdig n h10).2, fun h => h⟩
      rw [UInt8.le_iff_toNat_le, (digit_ofNat h10).2.2]
      show 49 ≤ 48 + n
      omega
    · obtain ⟨c, t, h1, h2, h3, h4⟩ := utoaAux_head f (n / 10) (UInt8.ofNat (48 + n % 10) :: acc) (by omega) (by omega)
      refine ⟨c, t, by rw [utoaAux, if_neg h10, h1], h2, h3, fun hd => h4 ?_⟩
      intro x hx
      rcases List.mem_cons.1 hx with rfl | hx
      · exact hdig _ (by omega)
      · exact hd x hx

theorem numberText_utoa (n : Nat) : utoa n = b!"0" ∨ ∃ c ds, utoa n = c :: ds ∧ 49 ≤ c ∧ c ≤ 57 ∧ Digits ds := by
  by_cases h : n = 0
  · subst h; exact .inl rfl
  · obtain ⟨c, t, h1, h2, h3, h4⟩ := utoaAux_head (n + 1) n [] (by omega) h
    exact .inr ⟨c, t, h1, h2, h3, h4 (by simp [Digits])⟩

theorem numberText_itoa (i : Int) : NumberText (itoa i) := by
  unfold itoa
  split
  · exact ⟨b!"-", utoa i.natAbs, [], [], by simp, .inr rfl, numberText_utoa _, .inl rfl, .inl rfl⟩
  · exact ⟨[], utoa i.natAbs, [], [], by simp, .inl rfl, numberText_utoa _, .inl rfl, .inl rfl⟩

theorem stringText_escape : ∀ s : Bytes, PlainText s → StringText s (escapeQuotes s)
  | [], _ => .nil
  | c :: t, h => by
    have ih := stringText_escape t fun x hx => h x (by simp [hx])
    obtain ⟨h1, h2⟩ := h c (by simp)
    by_cases h34 : c = 34
    · subst h34
      exact .escape (by simp) ih
    · have : escapeQuotes (c :: t) = c :: escapeQuotes t := by simp [escapeQuotes, h34]
      rw [this]
      exact .plain h1 h34 h2 ih

theorem wrap64_range (i : Int) : -2 ^ 63 ≤ wrap64 i ∧ wrap64 i < 2 ^ 63 := by
  unfold wrap64
  omega

theorem leaf_value {E : Ext} {v : Val} {j : Json} (h : LeafDoc E v j) : ∃ t, writeValue E v = t ++ [32] ∧ JsonText E j t := by
  cases h with
  | int =>
    rename_i k i
    exact ⟨itoa (wrap64 i), by simp [writeValue, vint], .int (numberText_itoa _)
      (parseInt_some.1 (parseInt_itoa (wrap64_range i).1 (wrap64_range i).2))⟩
  | f64 h1 h2 h3 => exact ⟨_, by simp [writeValue, vint, vfloat], .float h1 h2 h3⟩
  | f32 h1 h2 h3 => exact ⟨_, by simp [writeValue, vint, vfloat], .float h1 h2 h3⟩
  | text h1 h2 h3 h4 =>
    refine ⟨34 :: escapeQuotes (vstr E v) ++ [34], ?_, .str (stringText_escape _ h4)⟩
    have hi : vint v = none := by cases v <;> first | rfl | exact absurd rfl (h1 _ _)
    have hf : vfloat E v = none := by cases v <;> first | rfl | exact absurd rfl (h2 _) | exact absurd rfl (h3 _)
    simp [writeValue, hi, hf, writeString]

/-! ## `JSON` -/

theorem plainText_of_all {s : Bytes} (h : s.all (fun c => decide (32 ≤ c) && decide (c ≠ 92)) = true) : PlainText s := by
  intro c hc
  have := List.all_eq_true.1 h c hc
  simpa using this

theorem ws_nil : Ws [] := by simp [Ws]
theorem ws_space : Ws [32] := by simp [Ws]

theorem json_node (E : Ext) (v : Val) (o : List Graph) : Graph.json E (.node v o) = Graph.jsonNode E (.node (.str []) o) := by
  simp only [Graph.json, Graph.jsonRun]
  cases Graph.jsonNode E (.node (.str []) o) <;> rfl

/-- What `jsonList` writes for a subnode. -/
theorem jsonList_item (E : Ext) (g : Graph) (gs : List Graph) (h1 : g.out.length ≠ 1) (hn : g.isNil = false) (comma : Bool) {t u : Bytes}
    (ht : g.jsonNode E = .ok t) (hu : Graph.jsonList E (comma || decide (2 ≤ g.out.length)) gs = .ok u) :
    Graph.jsonList E comma (g :: gs) = .ok ((if comma then b!", " else []) ++ t ++ u) := by
  cases g with
  | nil => simp at hn
  | node v o =>
    match o with
    | [] =>
      have hu : Graph.jsonList E comma gs = .ok u := by simpa using hu
      simp only [Graph.jsonNode, Res.ok.injEq] at ht
      subst ht
      simp [Graph.jsonList, hu]
    | [_] => simp at h1
    | x :: y :: zs =>
      simp only [Graph.out_node, List.length_cons, Nat.le_add_left, decide_true, Bool.or_true] at hu
      simp [Graph.jsonList, hu, ht]

theorem jsonList_member (E : Ext) (k : Val) (g : Graph) (gs : List Graph) (hk : vstr E k ≠ b!"_") (h1 : g.out.length ≠ 1) (hn : g.isNil = false)
    (comma : Bool) {t u : Bytes} (ht : g.jsonNode E = .ok t) (hu : Graph.jsonList E true gs = .ok u) :
    Graph.jsonList E comma (.node k [g] :: gs) = .ok ((if comma then b!", " else []) ++ writeString E k ++ b!": " ++ t ++ u) := by
  have hone : Graph.jsonNode E (.node k [g]) = .ok t := by
    have := jsonList_item E g [] h1 hn false (t := t) (u := []) ht (by simp [Graph.jsonList])
    simp [Graph.jsonNode, this, hk]
  simp [Graph.jsonList, hu, hone]

theorem standsFor_notNil {E : Ext} {g : Graph} {j : Json} (h : StandsFor E g j) : g.isNil = false := by
  cases h <;> rfl

mutual
theorem jsonNode_text (E : Ext) : ∀ {g : Graph} {j : Json}, StandsFor E g j → ∃ t w, g.jsonNode E = .ok (t ++ w) ∧ JsonText E j t ∧ Ws w
  | _, _, .leaf h => by
    obtain ⟨t, h1, h2⟩ := leaf_value h
    exact ⟨t, [32], by simp [Graph.jsonNode, h1], h2, ws_space⟩
  | _, _, .list (v := v) (g := g) (gs := gs) hv (.cons (js := js) h h1 hs) hl => by
    obtain ⟨t, w, ht, hj, hw⟩ := jsonNode_text E h
    obtain ⟨u, hu, hu2⟩ := jsonList_text E hs
    have hrun : Graph.jsonList E false (g :: gs) = .ok (t ++ w ++ u) := by
      have hu' : Graph.jsonList E (false || decide (2 ≤ g.out.length)) gs = .ok u := by
        rcases hl with rfl | hl
        · have : u = [] := by simpa [Graph.jsonList] using hu.symm
          subst this
          simp [Graph.jsonList]
        · simpa [hl] using hu
      simpa using jsonList_item E g gs h1 (standsFor_notNil h) false ht hu'
    refine ⟨91 :: (32 :: (t ++ w ++ u)) ++ [93], [], ?_, .arr ?_, ws_nil⟩
    · simp [Graph.jsonNode, hrun, hv]
    · have := hu2 [32] ws_space t hj w hw
      simpa using this
  | _, _, .object (v := v) (gs := gs) hv h2 hm => by
    obtain ⟨u, hu, hu2⟩ := jsonMembers_text E hm false
    match gs, h2, hu, hm with
    | g1 :: g2 :: gs, _, hu, hm =>
      refine ⟨123 :: (32 :: u) ++ [125], [], ?_, .obj (hu2 (by simp) [32] ws_space), ws_nil⟩
      have hu : Graph.jsonList E false (g1 :: g2 :: gs) = .ok u := by simpa using hu
      simp [Graph.jsonNode, hu, hv]
/-- After a comma: the items of a list, following one that has been written. -/
theorem jsonList_text (E : Ext) : ∀ {gs : List Graph} {js : List Json}, StandForAll E gs js → ∃ u, Graph.jsonList E true gs = .ok u ∧
    ∀ (a : Bytes), Ws a → ∀ {j : Json} (t : Bytes), JsonText E j t → ∀ w, Ws w → ElemsText E (j :: js) (a ++ t ++ w ++ u)
  | _, _, .nil => ⟨[], by simp [Graph.jsonList], fun a ha j t hj w hw => by simpa using ElemsText.last ha hj hw⟩
  | _, _, .cons (g := g) (gs := gs) h h1 hs => by
    obtain ⟨t', w', ht', hj', hw'⟩ := jsonNode_text E h
    obtain ⟨u, hu, hu2⟩ := jsonList_text E hs
    have hrun := jsonList_item E g gs h1 (standsFor_notNil h) true ht' (by simpa using hu)
    refine ⟨44 :: (32 :: (t' ++ w' ++ u)), by simpa using hrun, fun a ha j t hj w hw => ?_⟩
    have := ElemsText.cons ha hj hw (hu2 [32] ws_space t' hj' w' hw')
    simpa using this
/-- The members of an object. -/
theorem jsonMembers_text (E : Ext) : ∀ {gs : List Graph} {ms : List (Bytes × Json)}, StandForMembers E gs ms → ∀ comma : Bool,
    ∃ u, Graph.jsonList E comma gs = .ok ((if comma && !gs.isEmpty then b!", " else []) ++ u) ∧
      (gs ≠ [] → ∀ a, Ws a → MembersText E ms (a ++ u))
  | _, _, .nil, comma => ⟨[], by simp [Graph.jsonList], by simp⟩
  | _, _, .cons (k := k) (g := g) (gs := gs) (j := j) hk hk2 h h1 hs, comma => by
    obtain ⟨t, w, ht, hj, hw⟩ := jsonNode_text E h
    obtain ⟨u, hu, hu2⟩ := jsonMembers_text E hs true
    have hrun := jsonList_member E k g gs hk2 h1 (standsFor_notNil h) comma ht hu
    have hkey := stringText_escape _ hk
    refine ⟨writeString E k ++ b!": " ++ (t ++ w) ++ ((if true && !gs.isEmpty then b!", " else []) ++ u), ?_, fun _ a ha => ?_⟩
    · simpa using hrun
    · cases gs with
      | nil =>
        cases hs
        have hu0 : u = [] := by simpa [Graph.jsonList] using hu.symm
        subst hu0
        have := MembersText.last (j := j) (E := E) ha hkey ws_space ws_space hj hw
        simpa [writeString] using this
      | cons g' gs =>
        have := MembersText.cons (j := j) (E := E) ha hkey ws_space ws_space hj hw (hu2 (by simp) [32] ws_space)
        simpa [writeString] using this
end

mutual
theorem jsonNode_ok (E : Ext) : ∀ g : Graph, NoNil g → ∃ t, g.jsonNode E = .ok t
  | .nil, h => h.elim
  | .node t [], _ => ⟨writeValue E t, by simp only [Graph.jsonNode]⟩
  | .node t (g :: gs), h => by
    obtain ⟨u, hu⟩ := jsonList_ok E (g :: gs) h false
    simp only [Graph.jsonNode, hu, Res.ok_bind]
    split
    · exact ⟨_, rfl⟩
    · split <;> exact ⟨_, rfl⟩
theorem jsonList_ok (E : Ext) : ∀ gs : List Graph, NoNilL gs → ∀ comma, ∃ t, Graph.jsonList E comma gs = .ok t
  | [], _, _ => ⟨[], by simp only [Graph.jsonList]⟩
  | .nil :: _, h, _ => h.1.elim
  | .node t [] :: gs, h, comma => by
    obtain ⟨u, hu⟩ := jsonList_ok E gs h.2 comma
    simp only [Graph.jsonList, hu, Res.ok_bind]
    exact ⟨_, rfl⟩
  | .node t [x] :: gs, h, comma => by
    obtain ⟨u, hu⟩ := jsonList_ok E gs h.2 true
    obtain ⟨w, hw⟩ := jsonNode_ok E (.node t [x]) h.1
    simp only [Graph.jsonList, hu, hw, Res.ok_bind]
    exact ⟨_, rfl⟩
  | .node t (x :: y :: zs) :: gs, h, comma => by
    obtain ⟨u, hu⟩ := jsonList_ok E gs h.2 true
    obtain ⟨w, hw⟩ := jsonNode_ok E (.node t (x :: y :: zs)) h.1
    simp only [Graph.jsonList, hu, hw, Res.ok_bind]
    exact ⟨_, rfl⟩
end

end Ogdl
