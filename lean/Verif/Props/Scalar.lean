import Verif.Props.Call
import Verif.Props.Binary

/-!
# Scalars and integers (C52, C54)
-/

namespace Ogdl
open Spec

/-! ## C54 -/

theorem number_str (E : Ext) (s : Bytes) : (number' E (.str s) = .panic ↔ s ≠ [] ∧ ∀ c ∈ s, c = 32 ∨ c = 9) ∧ number' E (.str s) ≠ .oof := by
  obtain ⟨h1, h2⟩ := isInteger_total s
  have hn : number' E (.str s) = if s.isEmpty then .ok .nil else (do
      if ← isInteger s then
        match parseInt s with
        | some i => .ok (.int .int64 i)
        | none => .ok .nil
      else
        match E.parseFloat s with
        | some f => .ok (.f64 f)
        | none => .ok .nil) := rfl
  rw [hn]
  cases s with
  | nil => simp
  | cons c t =>
    simp only [List.isEmpty_cons, Bool.false_eq_true, ↓reduceIte]
    cases hi : isInteger (c :: t) with
    | ok b =>
      rw [hi] at h1
      refine ⟨⟨fun h => ?_, fun h => absurd (h1.2 h) (by simp)⟩, ?_⟩
      · simp only [Res.ok_bind] at h
        cases b <;> simp only [Bool.false_eq_true, ↓reduceIte] at h <;> split at h <;> cases h
      · simp only [Res.ok_bind]
        cases b <;> simp only [Bool.false_eq_true, ↓reduceIte] <;> split <;> simp
    | panic =>
      rw [hi] at h1
      exact ⟨⟨fun _ => h1.1 rfl, fun _ => rfl⟩, by simp⟩
    | oof => exact absurd hi h2

theorem scalarOf_str (E : Ext) (s : Bytes) : (scalarOf E (.str s) = .panic ↔ s ≠ [] ∧ ∀ c ∈ s, c = 32 ∨ c = 9) ∧ scalarOf E (.str s) ≠ .oof := by
  obtain ⟨h1, h2⟩ := number_str E s
  unfold scalarOf
  cases hn : number' E (.str s) with
  | ok v =>
    rw [hn] at h1
    simp only [Res.ok_bind]
    refine ⟨⟨fun h => ?_, fun h => absurd (h1.2 h) (by simp)⟩, ?_⟩
    · cases v with
      | nil =>
        dsimp only at h
        split at h <;> cases h
      | _ => cases h
    · cases v with
      | nil =>
        dsimp only
        split <;> simp
      | _ => simp
  | panic => rw [hn] at h1; exact ⟨⟨fun _ => h1.1 rfl, fun _ => rfl⟩, by simp⟩
  | oof => exact absurd hn h2

/-- `Scalar`, `Number` and `ThisScalar` return for a text content exactly if it is empty
or has a byte that is not a space or tab. -/
theorem C54_partial (E : Ext) (t : Val) (s : Bytes) (o rest : List Graph) (h : s = [] ∨ ∃ c ∈ s, c ≠ 32 ∧ c ≠ 9) :
    (∃ v, (Graph.node t (.node (.str s) o :: rest)).scalar E = .ok v) ∧
    (∃ v, (Graph.node t (.node (.str s) o :: rest)).number E = .ok v) ∧
    (∃ v, (Graph.node (.str s) o).thisScalar E = .ok v) := by
  have hb : ¬ (s ≠ [] ∧ ∀ c ∈ s, c = 32 ∨ c = 9) := by
    rintro ⟨h1, h2⟩
    rcases h with h | ⟨c, hc, h3, h4⟩
    · exact h1 h
    · rcases h2 c hc with h | h
      · exact h3 h
      · exact h4 h
  have h1 : ∃ v, scalarOf E (.str s) = .ok v := by
    cases hx : scalarOf E (.str s) with
    | ok v => exact ⟨v, rfl⟩
    | panic => exact absurd ((scalarOf_str E s).1.1 hx) hb
    | oof => exact absurd hx (scalarOf_str E s).2
  have h2 : ∃ v, number' E (.str s) = .ok v := by
    cases hx : number' E (.str s) with
    | ok v => exact ⟨v, rfl⟩
    | panic => exact absurd ((number_str E s).1.1 hx) hb
    | oof => exact absurd hx (number_str E s).2
  exact ⟨h1, h2, h1⟩

/-- `Eval` of a constant returns for the same texts, except `!e`. -/
theorem C54_eval_partial (E : Ext) (g : Graph) (s : Bytes) (h : s = [] ∨ ∃ c ∈ s, c ≠ 32 ∧ c ≠ 9) (he : s ≠ b!"!e") :
    ∃ r, g.eval E (leaf s) = .ok (r, g) := by
  obtain ⟨v, hv⟩ := (C54_partial E .nil s [] [] h).2.2
  have hts : (leaf s).thisString E = s := leaf_thisString s
  have hf : evalFuel (leaf s) = 15 + 1 := rfl
  unfold Graph.eval
  rw [hf, Ogdl.eval.eq_def]
  dsimp only
  rw [hts]
  by_cases hp : s = tyPath
  · rw [if_pos hp]
    rw [evalPath]
    simp only [bind, EvalM.ctx, leaf, Graph.len, List.length_nil, true_or, ↓reduceIte, pure]
    exact ⟨_, rfl⟩
  · rw [if_neg hp, if_neg (show ¬ s = tyExpression from he)]
    simp only [leaf, bind, EvalM.lift, hv, pure]
    exact ⟨_, rfl⟩

/-- For every text of one or more spaces and tabs they panic. -/
theorem C54_refuted (E : Ext) (s : Bytes) (hs : s ≠ []) (h : ∀ c ∈ s, c = 32 ∨ c = 9) (t : Val) (o rest : List Graph) (g : Graph) :
    (Graph.node t (.node (.str s) o :: rest)).scalar E = .panic ∧ (Graph.node t (.node (.str s) o :: rest)).number E = .panic ∧
    (Graph.node (.str s) o).thisScalar E = .panic ∧ g.eval E (leaf s) = .panic ∧ g.eval E (leaf b!"!e") = .panic := by
  have h1 := (scalarOf_str E s).1.2 ⟨hs, h⟩
  refine ⟨h1, (number_str E s).1.2 ⟨hs, h⟩, h1, ?_, rfl⟩
  have hts : (leaf s).thisString E = s := leaf_thisString s
  have hf : evalFuel (leaf s) = 15 + 1 := rfl
  have hp : ∀ c t', (c = 33) → s ≠ c :: t' := by
    rintro c t' rfl rfl
    rcases h 33 (by simp) with h | h <;> exact absurd h (by decide)
  unfold Graph.eval
  rw [hf, Ogdl.eval.eq_def]
  dsimp only
  rw [hts, if_neg (show ¬ s = tyPath from hp _ _ rfl), if_neg (show ¬ s = tyExpression from hp _ _ rfl)]
  have h2 : (Graph.node (.str s) []).thisScalar E = .panic := h1
  simp only [leaf, bind, EvalM.lift, h2]

/-! ## C52 -/

/-- An int64 stored with `Set` under a path of names reads back with `Get(path).Int64()`
and with `GetInt64(path)`. -/
theorem C52_partial (E : Ext) (p : List Bytes) (g : Graph) (i : Int64) (hp : Path E p) (hg : Data E g) (hl : Fits (dotted p)) :
    ∃ g' r n, g.set E (dotted p) (.int .int64 i.toInt) = .ok (g', r) ∧ g'.get E (dotted p) = .ok (n, g') ∧
      n.int64 E = .ok i.toInt ∧ g'.getInt64 E (dotted p) = .ok (some i.toInt) := by
  obtain ⟨r, hr⟩ := set_names (.int .int64 i.toInt) hp hl hg.1
  have hd : Data E (store E (.int .int64 i.toInt) p g) := store_data hg trivial (by simp) (by simp)
  obtain ⟨t, ht⟩ := lookup_store (E := E) (.int .int64 i.toInt) p g hg.1
  have hget := get_names hp hl (.inr hd)
  rw [ht, show subnodesOf (.int .int64 i.toInt) = [.node (.int .int64 i.toInt) []] from rfl] at hget
  have hw : wrap64 i.toInt = i.toInt := wrap64_toInt i
  refine ⟨_, r, _, hr, hget, ?_, ?_⟩
  · simp [Graph.int64, Graph.interface, vintf, vintf.go, vint, hw]
  · simp [Graph.getInt64, dotted_not_empty hp, Graph.getFirst, hget, vintf, vintf.go, vint, hw]

/-- Contents that the binary format keeps as they print: not graphs, and printed as a
non-empty text that a text node can hold. -/
def Kept (E : Ext) (v : Val) : Prop := (∀ g, v ≠ .graph g) ∧ vbytes E v ≠ [] ∧ Storable (vbytes E v)

/-- A tree with each content replaced by its text. -/
def printedG (E : Ext) : Graph → Graph
  | .nil => .nil
  | .node t o => .node (.str (vbytes E t)) (visibleL E o)

theorem vbytes_vstr (E : Ext) {v : Val} (h : ∀ g, v ≠ .graph g) : vbytes E v = vstr E v := by
  cases v with
  | graph g => exact absurd rfl (h g)
  | _ => simp [vbytes, vstr]

theorem firstNamed_visible (E : Ext) (id : Bytes) : ∀ o : List Graph, NoNilL o → AllThisL (Kept E) o →
    firstNamed E id (visibleL E o) = printedG E (firstNamed E id o) := by
  intro o
  induction o with
  | nil => intro _ _; rfl
  | cons g gs ih =>
    intro hn hk
    cases g with
    | nil => exact absurd hn.1 (by simp [NoNil])
    | node t k =>
      have hv : vbytes E t ≠ [] := hk.1.1.2.1
      have hs : vbytes E t = vstr E t := vbytes_vstr E hk.1.1.1
      have ih := ih hn.2 hk.2
      unfold firstNamed at ih ⊢
      simp only [visibleL, visible, if_neg hv, List.singleton_append, List.find?_cons, Graph.thisString, vstr_str]
      rw [hs]
      by_cases h : vstr E t = id
      · simp [h, printedG, hs]
      · simp only [h, decide_false]
        exact ih

theorem lookup_visible (E : Ext) : ∀ (p : List Bytes) (g : Graph), (g = .nil ∨ NoNil g) → AllThisL (Kept E) g.out →
    lookup E p (printedG E g) = printedG E (lookup E p g)
  | [], _, _, _ => rfl
  | id :: p, .nil, _, _ => by
    show lookup E p (firstNamed E id []) = printedG E (lookup E p (firstNamed E id []))
    rw [show firstNamed E id [] = .nil from rfl, lookup_nil, ]
    rfl
  | id :: p, .node t o, h, hk => by
    have hn : NoNilL o := by
      rcases h with h | h
      · cases h
      · exact h
    show lookup E p (firstNamed E id (visibleL E o)) = printedG E (lookup E p (firstNamed E id o))
    rw [firstNamed_visible E id o hn hk]
    have hm : firstNamed E id o = .nil ∨ firstNamed E id o ∈ o := by
      unfold firstNamed
      cases hf : o.find? fun g => decide (g.thisString E = id) with
      | none => exact .inl rfl
      | some x => exact .inr (List.mem_of_find?_eq_some hf)
    have hmem : ∀ {x : Graph} {l : List Graph}, x ∈ l → NoNilL l → AllThisL (Kept E) l → NoNil x ∧ AllThis (Kept E) x := by
      intro x l
      induction l with
      | nil => intro h; cases h
      | cons y ys ih =>
        intro h h1 h2
        rcases List.mem_cons.1 h with rfl | h
        · exact ⟨h1.1, h2.1⟩
        · exact ih h h1.2 h2.2
    refine lookup_visible E p _ ?_ ?_
    · rcases hm with h | h
      · exact .inl h
      · exact .inr (hmem h hn hk).1
    · rcases hm with h | h
      · rw [h]; trivial
      · have := (hmem h hn hk).2
        cases hx : firstNamed E id o with
        | nil => trivial
        | node t' o' => rw [hx] at this; exact this.2

theorem encodeRune_ge {r : Nat} (h : 48 ≤ r) : ∀ c ∈ encodeRune r, 48 ≤ c.toNat := by
  intro c hc
  unfold encodeRune at hc
  split at hc
  · simp only [List.mem_singleton] at hc
    subst hc
    simp only [UInt8.toNat_ofNat']
    omega
  split at hc
  · simp only [List.mem_cons, List.not_mem_nil, or_false] at hc
    rcases hc with rfl | rfl <;> simp only [UInt8.toNat_ofNat'] <;> omega
  split at hc
  · simp only [List.mem_cons, List.not_mem_nil, or_false] at hc
    rcases hc with rfl | rfl | rfl <;> decide
  split at hc
  · simp only [List.mem_cons, List.not_mem_nil, or_false] at hc
    rcases hc with rfl | rfl | rfl <;> simp only [UInt8.toNat_ofNat'] <;> omega
  · next h1 h2 =>
    have : r ≤ 0x10FFFF := by
      simp only [Bool.or_eq_true, Bool.and_eq_true, decide_eq_true_eq, not_or, not_and, Nat.not_lt] at h1
      omega
    simp only [List.mem_cons, List.not_mem_nil, or_false] at hc
    rcases hc with rfl | rfl | rfl | rfl <;> simp only [UInt8.toNat_ofNat'] <;> omega

theorem name_storable {E : Ext} {s : Bytes} (h : Name E s) : s ≠ [] ∧ Storable s := by
  refine ⟨name_ne_nil h, ?_⟩
  obtain ⟨rs, _, hr, rfl⟩ := h
  have hge : ∀ c ∈ rs.flatMap encodeRune, 48 ≤ c.toNat := by
    intro c hc
    obtain ⟨r, hr', hc⟩ := List.mem_flatMap.1 hc
    refine encodeRune_ge ?_ c hc
    obtain ⟨_, h⟩ := hr r hr'
    rcases h with rfl | h
    · omega
    · split at h
      · rcases h with h | h
        · simp [latinLetter] at h; omega
        · omega
      · omega
  refine ⟨fun h => absurd (hge _ h) (by decide), fun h => ?_⟩
  have := List.mem_of_mem_head? h
  exact absurd (hge _ this) (by decide)

theorem itoa_storable (i : Int) : itoa i ≠ [] ∧ Storable (itoa i) := by
  have h : ∀ c ∈ itoa i, c ≠ 0 ∧ c ≠ 1 := by
    have hd : ∀ n, ∀ c ∈ utoa n, c ≠ 0 ∧ c ≠ 1 := by
      intro n c hc
      obtain ⟨h1, _⟩ := utoa_digits n c hc
      constructor <;> (rintro rfl; exact absurd h1 (by decide))
    intro c hc
    unfold itoa at hc
    split at hc
    · rcases List.mem_cons.1 hc with rfl | hc
      · decide
      · exact hd _ c hc
    · exact hd _ c hc
  exact ⟨itoa_ne_nil i, fun h0 => (h 0 h0).1 rfl, fun h1 => (h 1 (List.mem_of_mem_head? h1)).2 rfl⟩

theorem store_kept {E : Ext} {v : Val} (hv : AllThisL (Kept E) (subnodesOf v)) : ∀ (p : List Bytes) (g : Graph), (∀ id ∈ p, Name E id) →
    AllThisL (Kept E) g.out → AllThisL (Kept E) (store E v p g).out
  | [], _, _, _ => hv
  | id :: p, g, hp, hk => by
    have hid : Kept E (.str id) := ⟨by simp, by simpa [vbytes] using name_storable (hp id (by simp))⟩
    have key : ∀ o : List Graph, AllThisL (Kept E) o → AllThisL (Kept E) (updateFirst E id (store E v p) o) := by
      intro o ho
      have hstep : ∀ x : Graph, AllThis (Kept E) x → (x ≠ .nil) → AllThis (Kept E) (store E v p x) := by
        intro x hx hne
        cases x with
        | nil => exact absurd rfl hne
        | node t o' =>
          have h2 := store_kept hv p (.node t o') (fun i hi => hp i (by simp [hi])) hx.2
          cases p with
          | nil => exact ⟨hx.1, hv⟩
          | cons j q => exact ⟨hx.1, h2⟩
      induction o with
      | nil => exact ⟨hstep _ ⟨hid, trivial⟩ (by simp [leaf]), trivial⟩
      | cons y ys ih =>
        simp only [updateFirst]
        split
        · next hy =>
          refine ⟨hstep y ho.1 ?_, ho.2⟩
          rintro rfl
          exact absurd hy.symm (name_ne_nil (hp id (by simp)))
        · exact ⟨ho.1, ih ho.2⟩
    exact key g.out hk

mutual
theorem depth_visible (E : Ext) : ∀ g : Graph, depthL (visible E g) ≤ depth g
  | .nil => by simp [visible, depthL]
  | .node t o => by
    have := depth_visibleL E o
    simp only [visible]
    split
    · simp only [depth]; omega
    · simp only [depthL, depth]; omega
theorem depth_visibleL (E : Ext) : ∀ gs : List Graph, depthL (visibleL E gs) ≤ depthL gs
  | [] => by simp [visibleL, depthL]
  | g :: gs => by
    have h1 := depth_visible E g
    have h2 := depth_visibleL E gs
    have h3 : ∀ a b : List Graph, depthL (a ++ b) = max (depthL a) (depthL b) := by
      intro a b
      induction a with
      | nil => simp [depthL]
      | cons x xs ih => simp only [List.cons_append, depthL, ih]; omega
    simp only [visibleL, h3, depthL]
    omega
end

mutual
theorem visible_data (E : Ext) : ∀ g : Graph, NoNilL (visible E g) ∧ AllThisL (Inert E) (visible E g)
  | .nil => ⟨trivial, trivial⟩
  | .node t o => by
    have h := visibleL_data E o
    simp only [visible]
    split
    · exact h
    · exact ⟨⟨h.1, trivial⟩, ⟨⟨trivial, h.2⟩, trivial⟩⟩
theorem visibleL_data (E : Ext) : ∀ gs : List Graph, NoNilL (visibleL E gs) ∧ AllThisL (Inert E) (visibleL E gs)
  | [] => ⟨trivial, trivial⟩
  | g :: gs => by
    have h1 := visible_data E g
    have h2 := visibleL_data E gs
    have h3 : ∀ a b : List Graph, (NoNilL a ∧ AllThisL (Inert E) a) → (NoNilL b ∧ AllThisL (Inert E) b) →
        NoNilL (a ++ b) ∧ AllThisL (Inert E) (a ++ b) := by
      intro a b ha hb
      induction a with
      | nil => exact hb
      | cons x xs ih =>
        have := ih ⟨ha.1.2, ha.2.2⟩
        exact ⟨⟨ha.1.1, this.1⟩, ⟨ha.2.1, this.2⟩⟩
    exact h3 _ _ h1 h2
end

theorem store_depth {E : Ext} {v : Val} {d : Nat} (hv : depthL (subnodesOf v) ≤ d) : ∀ (p : List Bytes) (g : Graph),
    depth (store E v p g) ≤ max (depth g) (p.length + d + 1)
  | [], g => by simp only [store, depth, List.length_nil]; omega
  | id :: p, g => by
    have ih := store_depth (E := E) hv p
    have key : ∀ o : List Graph, depthL (updateFirst E id (store E v p) o) ≤ max (depthL o) (p.length + 1 + d) := by
      intro o
      induction o with
      | nil =>
        have := ih (leaf id)
        simp only [updateFirst, depthL, leaf, depth] at this ⊢
        omega
      | cons y ys ih' =>
        simp only [updateFirst]
        split
        · have := ih y
          simp only [depthL]; omega
        · simp only [depthL]; omega
    have := key g.out
    simp only [store, depth, List.length_cons]
    cases g with
    | nil => simp only [Graph.out, depthL, depth] at this ⊢; omega
    | node t o => simp only [Graph.out, depth] at this ⊢; omega

/-- After a binary round trip of the whole graph the integer, now a text, is still read
as the same int64 at the same path.  The other contents of the graph may be of any kind
that prints as a non-empty text without NUL. -/
theorem C52_binary_partial (E : Ext) (p : List Bytes) (g : Graph) (i : Int64) (hp : Path E p) (hg : Data E g)
    (hl : Fits (dotted p)) (hk : AllThisL (Kept E) g.out) (hd : depth g < 2 ^ 21)
    (hn : p.length + 2 < 2 ^ 21) :
    ∃ g' r bs h n, g.set E (dotted p) (.int .int64 i.toInt) = .ok (g', r) ∧ g'.binary E = .ok (some bs) ∧ FromBinary bs h ∧
      h.get E (dotted p) = .ok (n, h) ∧ n.int64 E = .ok i.toInt ∧ h.getInt64 E (dotted p) = .ok (some i.toInt) := by
  obtain ⟨r, hr⟩ := set_names (.int .int64 i.toInt) hp hl hg.1
  have hd' : Data E (store E (.int .int64 i.toInt) p g) := store_data hg trivial (by simp) (by simp)
  obtain ⟨t, ht⟩ := lookup_store (E := E) (.int .int64 i.toInt) p g hg.1
  have hki : Kept E (.int .int64 i.toInt) := ⟨by simp, by simpa [vbytes] using itoa_storable i.toInt⟩
  have hk' : AllThisL (Kept E) (store E (.int .int64 i.toInt) p g).out := by
    refine store_kept (v := .int .int64 i.toInt) ?_ p g hp.2 hk
    exact ⟨⟨hki, trivial⟩, trivial⟩
  have hdep : depth (store E (.int .int64 i.toInt) p g) < 2 ^ 21 := by
    have := store_depth (E := E) (v := .int .int64 i.toInt) (d := 1) (by simp [subnodesOf, depthL, depth]) p g
    omega
  generalize hs : store E (.int .int64 i.toInt) p g = s at *
  cases s with
  | nil => exact absurd hd'.1 (by simp [NoNil])
  | node st so =>
    have henc : Encodable E (.node st so) := by
      refine ⟨hd'.1, allThisL_mono (fun v h => h.2.2) _ hk', ?_⟩
      have := depth_visibleL E so
      simp only [depth, Graph.out] at hdep ⊢
      omega
    obtain ⟨bs, h1, h2⟩ := C02_binary_roundtrip E _ henc
    have hvd := visibleL_data E so
    have hdr : Data E (.node (.str b!"_") (visibleL E so)) := ⟨hvd.1, ⟨trivial, hvd.2⟩⟩
    have hget := get_names hp hl (.inr hdr)
    have hlk : lookup E p (.node (.str b!"_") (visibleL E so)) = printedG E (lookup E p (.node st so)) := by
      have h3 := lookup_visible E p (.node st so) (.inr hd'.1) hk'
      cases p with
      | nil => exact absurd rfl hp.1
      | cons id q => exact h3
    have hpi : parseInt (itoa i.toInt) = some i.toInt := parseInt_itoa i.le_toInt i.toInt_lt
    have hne := (itoa_storable i.toInt).1
    have hvis : printedG E (.node t (subnodesOf (.int .int64 i.toInt))) = .node (.str (vbytes E t)) [.node (.str (itoa i.toInt)) []] := by
      simp [printedG, subnodesOf, visibleL, visible, vbytes, hne]
    rw [hlk, ht, hvis] at hget
    refine ⟨_, r, bs, _, _, hr, h1, ⟨_, h2 _ (Nat.le_refl _)⟩, hget, ?_, ?_⟩
    · simp [Graph.int64, Graph.interface, vintf, vintf.go, vint, hpi]
    · simp [Graph.getInt64, dotted_not_empty hp, Graph.getFirst, hget, vintf, vintf.go, vint, hpi]

/-! ## Examples -/

example (E : Ext) : ∃ v, (Graph.node .nil [leaf b!" 12 x"]).scalar E = .ok v :=
  (C54_partial E .nil b!" 12 x" [] [] (.inr ⟨49, by decide, by decide, by decide⟩)).1

example (E : Ext) (g : Graph) : ∃ r, g.eval E (leaf b!"007") = .ok (r, g) :=
  C54_eval_partial E g b!"007" (.inr ⟨48, by decide, by decide, by decide⟩) (by decide)

/-- The least int64 in an empty graph, through the binary format. -/
example (E : Ext) : ∃ g' r bs h n, (Graph.node .nil []).set E b!"a.b" (.int .int64 (-9223372036854775808)) = .ok (g', r) ∧
    g'.binary E = .ok (some bs) ∧ FromBinary bs h ∧ h.get E b!"a.b" = .ok (n, h) ∧ n.int64 E = .ok (-9223372036854775808) ∧
    h.getInt64 E b!"a.b" = .ok (some (-9223372036854775808)) :=
  C52_binary_partial E [b!"a", b!"b"] (.node .nil []) (-9223372036854775808)
    ⟨by simp, by
      intro id h
      simp only [List.mem_cons, List.not_mem_nil, or_false] at h
      rcases h with rfl | rfl
      · exact ⟨[97], by simp, by simp [NameRune, ValidRune, latinLetter], rfl⟩
      · exact ⟨[98], by simp, by simp [NameRune, ValidRune, latinLetter], rfl⟩⟩
    ⟨trivial, trivial, trivial⟩ (.short (by decide)) trivial (by decide) (by decide)

end Ogdl
