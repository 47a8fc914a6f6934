import Verif.Model.Rf
import Verif.Spec.Rf

/-! Lemmas for the remote functions. -/

namespace Ogdl
open Spec

theorem be32_header (n : Nat) (h : n < 2 ^ 32) : IsHeader (be32 n) n := by
  refine ⟨_, _, _, _, rfl, ?_⟩
  simp only [UInt8.toNat_ofNat']
  omega

theorem unBe32_header {h : Bytes} {n : Nat} (hh : IsHeader h n) : unBe32 h = n ∧ h.length = 4 := by
  obtain ⟨a, b, c, d, rfl, rfl⟩ := hh
  exact ⟨by simp [unBe32], rfl⟩

theorem header_unique {h h' : Bytes} {n : Nat} (h1 : IsHeader h n) (h2 : IsHeader h' n) : h = h' := by
  obtain ⟨a, b, c, d, rfl, e⟩ := h1
  obtain ⟨a', b', c', d', rfl, e'⟩ := h2
  have ha := a.toNat_lt; have hb := b.toNat_lt; have hc := c.toNat_lt; have hd := d.toNat_lt
  have ha' := a'.toNat_lt; have hb' := b'.toNat_lt; have hc' := c'.toNat_lt; have hd' := d'.toNat_lt
  have e1 : a = a' := UInt8.toNat_inj.1 (by omega)
  have e2 : b = b' := UInt8.toNat_inj.1 (by omega)
  have e3 : c = c' := UInt8.toNat_inj.1 (by omega)
  have e4 : d = d' := UInt8.toNat_inj.1 (by omega)
  rw [e1, e2, e3, e4]

theorem header_lt {h : Bytes} {n : Nat} (h1 : IsHeader h n) : n < 2 ^ 32 := by
  obtain ⟨a, b, c, d, rfl, e⟩ := h1
  have ha := a.toNat_lt; have hb := b.toNat_lt; have hc := c.toNat_lt; have hd := d.toNat_lt
  omega

theorem coalesced_ne_nil : ∀ {ps ss : List Bytes}, Coalesced ps ss → (∀ p ∈ ps, p ≠ []) → ∀ s ∈ ss, s ≠ []
  | _, _, .nil, _, s, hs => by simp at hs
  | _, _, .apart h, hp, s, hs => by
    rcases List.mem_cons.1 hs with rfl | hs
    · exact hp _ (by simp)
    · exact coalesced_ne_nil h (fun p hm => hp p (by simp [hm])) s hs
  | _, _, .joined h, hp, s, hs => by
    rcases List.mem_cons.1 hs with rfl | hs
    · simp [hp _ List.mem_cons_self]
    · exact coalesced_ne_nil h (fun p hm => hp p (by simp [hm])) s (by simp [hs])

theorem read_piece {p : Bytes} {ps ss : List Bytes} (h : Coalesced (p :: ps) ss) (hp : ∀ q ∈ p :: ps, q ≠ []) (c : Conn) (hc : c.inp = ss) :
    ∃ ss', c.read p.length = (some p, { c with inp := ss' }) ∧ Coalesced ps ss' := by
  cases h with
  | apart h =>
    rename_i ss
    exact ⟨ss, by simp [Conn.read, hc], h⟩
  | joined h =>
    rename_i s ss
    have hs : s ≠ [] := coalesced_ne_nil h (fun q hq => hp q (by simp [hq])) s (by simp)
    refine ⟨s :: ss, ?_, h⟩
    have : 0 < s.length := List.length_pos_iff.2 hs
    simp [Conn.read, hc, this]

theorem coalesced_flatten : ∀ {ps ss : List Bytes}, Coalesced ps ss → ss.flatten = ps.flatten
  | _, _, .nil => rfl
  | _, _, .apart h => by simp [coalesced_flatten h]
  | _, _, .joined h => by
    have := coalesced_flatten h
    simp only [List.flatten_cons] at this
    simp [this]

theorem fuel_ge (c : Conn) : c.inp.flatten.length + 1 ≤ c.fuel := by
  have : ∀ l : List Bytes, l.flatten.length ≤ (l.map (fun s => s.length + 1)).sum := by
    intro l
    induction l with
    | nil => simp
    | cons s l ih => simp only [List.flatten_cons, List.length_append, List.map_cons, List.sum_cons]; omega
  have := this c.inp
  unfold Conn.fuel
  omega

theorem areMessages_length : ∀ {ps bs : List Bytes}, AreMessages ps bs → bs.length ≤ ps.flatten.length
  | _, [], _ => by simp
  | _, b :: bs, ⟨m, qs, hps, ⟨h, hm, hh⟩, hq⟩ => by
    have ih := areMessages_length hq
    have := (unBe32_header hh).2
    subst hps
    subst hm
    simp only [List.cons_append, List.nil_append, List.flatten_cons, List.length_append, List.length_cons]
    omega

theorem areMessages_ne_nil : ∀ {ps bs : List Bytes}, AreMessages ps bs → (∀ b ∈ bs, b ≠ []) → ∀ p ∈ ps, p ≠ []
  | _, [], h, _, p, hp => by
    have h : _ = [] := h
    subst h
    simp at hp
  | _, b :: bs, ⟨m, qs, hps, ⟨h, hm, hh⟩, hq⟩, hb, p, hp => by
    subst hps
    subst hm
    simp only [List.cons_append, List.nil_append, List.mem_cons] at hp
    rcases hp with rfl | rfl | hp
    · intro h0
      have := (unBe32_header hh).2
      simp [h0] at this
    · exact hb _ (by simp)
    · exact areMessages_ne_nil hq (fun b hm => hb b (by simp [hm])) p hp

section
variable (E : Ext)

theorem processN_messages (handler : Graph → Res Graph) : ∀ (bs as ps ss : List Bytes) (out : List Bytes) (f : Nat),
    AreMessages ps bs → (∀ b ∈ bs, b ≠ []) → AnswerL E handler bs as → (∀ a ∈ as, a.length < 2 ^ 32) → Coalesced ps ss → bs.length < f →
    ∃ ws, processN E handler f ⟨ss, out, []⟩ = .ok ⟨[], out ++ ws, []⟩ ∧ AreMessages ws as
  | [], [], ps, ss, out, f + 1, hm, _, _, _, hc, _ => by
    have hm : ps = [] := hm
    subst hm
    cases hc
    exact ⟨[], by simp [processN, Conn.read], rfl⟩
  | [], a :: as, _, _, _, _, _, _, h, _, _, _ => h.elim
  | b :: bs, [], _, _, _, _, _, _, h, _, _, _ => h.elim
  | b :: bs, a :: as, ps, ss, out, f + 1, hm, hb, ha, hl, hc, hf => by
    have hne := areMessages_ne_nil hm hb
    obtain ⟨m, qs, hps, ⟨h, hm', hh⟩, hq⟩ := hm
    subst hm'
    subst hps
    obtain ⟨hun, hlen⟩ := unBe32_header hh
    obtain ⟨ss1, hr1, hc1⟩ := read_piece hc hne ⟨ss, out, []⟩ rfl
    rw [hlen] at hr1
    obtain ⟨ss2, hr2, hc2⟩ := read_piece hc1 (fun q hq => hne q (List.mem_cons_of_mem _ hq)) ⟨ss1, out, []⟩ rfl
    obtain ⟨⟨g, r, o, h1, h2, h3, h4, h5, h6⟩, hrest⟩ := ha
    have hb0 : b.length ≠ 0 := fun h0 => hb b (by simp) (List.length_eq_zero_iff.1 h0)
    have hout : g.out.isEmpty = false := by simpa using h3
    obtain ⟨ws, hw, hwm⟩ := processN_messages handler bs as qs ss2 (out ++ [be32 a.length] ++ [a]) f hq (fun b hm => hb b (by simp [hm])) hrest
      (fun a hm => hl a (by simp [hm])) hc2 (by simpa using hf)
    refine ⟨be32 a.length :: a :: ws, ?_, [be32 a.length, a], ws, rfl, ⟨_, rfl, be32_header _ (hl a (by simp))⟩, hwm⟩
    subst h6
    simp only [processN, hr1, hlen, ne_eq, not_true_eq_false, ↓reduceIte, hun, hb0, hr2, h1, Res.ok_bind, h2, hout, Bool.or_self, Bool.false_eq_true,
      h4, h5, Conn.write]
    simpa using hw

end

/-- Reading the body from any segments. -/
theorem readBody_segments (l : Nat) (hl : l < 2 ^ 32) : ∀ (f : Nat) (c : Conn) (l2 : Nat) (buf : Bytes), (∀ s ∈ c.inp, s ≠ []) →
    l2 + c.inp.flatten.length = l → l2 < l → c.inp.flatten.length < f →
    readBody l f l2 buf c = .ok (.ok (buf ++ c.inp.flatten), { c with inp := [] })
  | 0, _, _, _, _, _, _, hf => by omega
  | f + 1, ⟨[], out, fs⟩, l2, buf, _, hs, h2, _ => by simp at hs; omega
  | f + 1, ⟨s :: ss, out, fs⟩, l2, buf, hne, hs, h2, hf => by
    have hs0 : s ≠ [] := hne s (by simp)
    have hpos : 0 < s.length := List.length_pos_iff.2 hs0
    simp only [List.flatten_cons, List.length_append] at hs hf
    by_cases hlen : s.length ≤ 10000
    · match s, hs0 with
      | c0 :: s, _ =>
        have hmod : (l2 + (c0 :: s).length) % 2 ^ 32 = l2 + (c0 :: s).length := Nat.mod_eq_of_lt (by omega)
        simp only [readBody, Conn.read, hlen, ↓reduceIte, hmod]
        cases hss : ss with
        | nil =>
          subst hss
          simp only [List.flatten_nil, List.length_nil] at hs
          rw [if_pos (by omega)]
          simp
        | cons s1 ss1 =>
          have hs1 : 0 < s1.length := List.length_pos_iff.2 (hne s1 (by simp [hss]))
          have : 0 < ss.flatten.length := by rw [hss]; simp only [List.flatten_cons, List.length_append]; omega
          rw [if_neg (by omega), ← hss]
          rw [readBody_segments l hl f ⟨ss, out, fs⟩ _ _ (fun s hm => hne s (by simp [hm])) (by simp only; omega) (by omega) (by simp only; omega)]
          simp
    · have htake : (s.take 10000).length = 10000 := by simp; omega
      match ht : s.take 10000, htake with
      | c0 :: t, htake =>
        have hmod : (l2 + (c0 :: t).length) % 2 ^ 32 = l2 + (c0 :: t).length := Nat.mod_eq_of_lt (by omega)
        have hd : (s.drop 10000).length = s.length - 10000 := by simp
        have hd0 : s.drop 10000 ≠ [] := by intro h0; rw [h0] at hd; simp at hd; omega
        simp only [readBody, Conn.read, hlen, ↓reduceIte, ht, hmod]
        rw [if_neg (by omega)]
        rw [readBody_segments l hl f ⟨s.drop 10000 :: ss, out, fs⟩ _ _
          (fun x hm => by
            rcases List.mem_cons.1 hm with rfl | hm
            · exact hd0
            · exact hne x (by simp [hm]))
          (by simp only [List.flatten_cons, List.length_append]; omega) (by omega) (by simp only [List.flatten_cons, List.length_append]; omega)]
        have : s = (c0 :: t) ++ s.drop 10000 := by rw [← ht, List.take_append_drop]
        simp only [List.flatten_cons, List.append_assoc]
        conv => rhs; rw [this]
        simp

theorem callV2_segments (E : Ext) (g : Graph) {o : Option Bytes} (hg : g.binary E = .ok o) {h body : Bytes} (hh : IsHeader h body.length) (hb : body ≠ [])
    {s : Bytes} {ss : List Bytes} (hs : Segments (h ++ body) (s :: ss)) (h4 : 4 ≤ s.length) {r : Graph} (hr : fromBinary body = .ok r)
    (hn : r.isNil = false) (ho : r.out ≠ []) (out : List Bytes) :
    callV2 E g ⟨s :: ss, out, []⟩ = .ok ((r, none), ⟨[], out ++ [be32 (o.getD []).length, o.getD []], []⟩) := by
  obtain ⟨hun, hlen⟩ := unBe32_header hh
  have hlt := header_lt hh
  obtain ⟨hfl, hne⟩ := hs
  have hbpos : 0 < body.length := List.length_pos_iff.2 hb
  have hout : r.out.isEmpty = false := by simpa using ho
  have htake : s.take 4 = h := by
    have := congrArg (List.take 4) hfl
    rwa [List.flatten_cons, List.take_append_of_le_length h4, List.take_left' hlen] at this
  have hdrop : s.drop 4 ++ ss.flatten = body := by
    have := congrArg (List.drop 4) hfl
    rwa [List.flatten_cons, List.drop_append_of_le_length h4, List.drop_left' hlen] at this
  have key : ∀ ss' : List Bytes, (∀ s ∈ ss', s ≠ []) → ss'.flatten = body → ∀ out, readBody body.length (Conn.fuel ⟨ss', out, []⟩) 0 [] ⟨ss', out, []⟩ =
      .ok (.ok body, ⟨[], out, []⟩) := by
    intro ss' hne' hfl' out
    have := readBody_segments body.length hlt (Conn.fuel ⟨ss', out, []⟩) ⟨ss', out, []⟩ 0 [] hne' (by simp [hfl']) hbpos
      (by have := fuel_ge ⟨ss', out, []⟩; simp only at this ⊢; omega)
    rw [this]
    simp [hfl']
  simp only [callV2, hg, Res.ok_bind, Conn.write, Conn.read]
  by_cases h44 : s.length ≤ 4
  · have hs4 : s = h := by rw [← htake, List.take_of_length_le h44]
    subst hs4
    rw [if_pos (by omega)]
    have hd : ss.flatten = body := by
      rw [List.drop_of_length_le h44] at hdrop
      simpa using hdrop
    simp only [hlen, ne_eq, not_true_eq_false, ↓reduceIte, hun]
    rw [key ss (fun s hm => hne s (by simp [hm])) hd]
    simp [hr, hn, ho]
  · rw [if_neg h44]
    simp only [htake, hlen, ne_eq, not_true_eq_false, ↓reduceIte, hun]
    have hd0 : s.drop 4 ≠ [] := by
      intro h0
      have := congrArg List.length h0
      simp at this
      omega
    rw [key (s.drop 4 :: ss) (fun x hm => by
      rcases List.mem_cons.1 hm with rfl | hm
      · exact hd0
      · exact hne x (by simp [hm])) (by simpa using hdrop)]
    simp [hr, hn, ho]

theorem read_all (s : Bytes) (ss out : List Bytes) (fs : List (Option Nat)) (n : Nat) (h : s.length ≤ n) :
    Conn.read ⟨s :: ss, out, fs⟩ n = (some s, ⟨ss, out, fs⟩) := by
  simp [Conn.read, h]

theorem callLoop_outcome (E : Ext) (g : Graph) : ∀ (n : Nat) (c : Client),
    (∀ k, some k ∈ (tries c) → ∃ x, callV2 E g k = .ok x) →
    ∃ res c', callLoop E g n c = .ok (res, c') ∧ CallOutcome E g (n + 1) (tries c) res c'.dials := by
  have dialed : ∀ (n : Nat) (k : Conn) (ds : List (Option Conn)) (dr cl : List Conn),
      (∀ (c : Client), (∀ k, some k ∈ (tries c) → ∃ x, callV2 E g k = .ok x) →
        ∀ m, n = m + 1 → ∃ res c', callLoop E g m c = .ok (res, c') ∧ CallOutcome E g (m + 1) (tries c) res c'.dials) →
      (∀ k', some k' ∈ some k :: ds → ∃ x, callV2 E g k' = .ok x) →
      ∃ res c', (do
        match ← callV2 E g k with
        | ((r, none), k) => .ok ((r, none), ({ conn := some k, dials := ds, dropped := dr, closed := cl } : Client))
        | ((r, some e), k) =>
          match n with
          | 0 => .ok ((r, some e), ({ conn := some k, dials := ds, dropped := dr, closed := cl } : Client))
          | n + 1 => callLoop E g n { conn := none, dials := ds, dropped := dr ++ [k], closed := cl }) = .ok (res, c') ∧
        CallOutcome E g (n + 1) (some k :: ds) res c'.dials := by
    intro n k ds dr cl ih hk
    obtain ⟨⟨⟨r, e⟩, k'⟩, hx⟩ := hk k (by simp)
    cases e with
    | none =>
      exact ⟨(r, none), _, by rw [hx]; rfl, 0, by omega, by simp, rfl, .inr (.inl ⟨k, k', rfl, hx, rfl⟩)⟩
    | some e =>
      cases n with
      | zero => exact ⟨(r, some e), _, by rw [hx]; rfl, 0, by omega, by simp, rfl, .inr (.inr ⟨rfl, k, k', rfl, hx, by simp⟩)⟩
      | succ n =>
        obtain ⟨res, c', h1, i, hi, h2, h3, h4⟩ := ih { conn := none, dials := ds, dropped := dr ++ [k'], closed := cl }
          (fun k'' hm => hk k'' (List.mem_cons_of_mem _ hm)) n rfl
        refine ⟨res, c', by rw [hx]; exact h1, i + 1, by omega, ?_, by rw [h3]; rfl, ?_⟩
        · intro j hj
          cases j with
          | zero => exact ⟨k, r, e, k', rfl, hx⟩
          | succ j => simpa [tries] using h2 j (by omega)
        · rcases h4 with h4 | h4 | ⟨h4, h5⟩
          · exact .inl (by simpa [tries] using h4)
          · exact .inr (.inl (by simpa [tries] using h4))
          · exact .inr (.inr ⟨by omega, by simpa [tries] using h5⟩)
  have step : ∀ (n : Nat), (∀ (c : Client), (∀ k, some k ∈ (tries c) → ∃ x, callV2 E g k = .ok x) →
        ∀ m, n = m + 1 → ∃ res c', callLoop E g m c = .ok (res, c') ∧ CallOutcome E g (m + 1) (tries c) res c'.dials) →
      ∀ c : Client, (∀ k, some k ∈ (tries c) → ∃ x, callV2 E g k = .ok x) →
      ∃ res c', callLoop E g n c = .ok (res, c') ∧ CallOutcome E g (n + 1) (tries c) res c'.dials := by
    intro n ih c hc
    obtain ⟨conn, dials, dr, cl⟩ := c
    cases conn with
    | some k =>
      obtain ⟨res, c', h1, h2⟩ := dialed n k dials dr cl ih hc
      refine ⟨res, c', ?_, h2⟩
      rw [callLoop]
      exact h1
    | none =>
      match dials with
      | [] =>
        exact ⟨_, _, by rw [callLoop]; rfl, 0, by omega, by simp, rfl, .inl ⟨.inl rfl, rfl⟩⟩
      | none :: ds =>
        exact ⟨_, _, by rw [callLoop]; rfl, 0, by omega, by simp, rfl, .inl ⟨.inr rfl, rfl⟩⟩
      | some k :: ds =>
        obtain ⟨res, c', h1, h2⟩ := dialed n k ds dr cl ih hc
        refine ⟨res, c', ?_, h2⟩
        rw [callLoop]
        exact h1
  intro n
  induction n with
  | zero => exact step 0 (by intro _ _ m h; omega)
  | succ n ih => exact step (n + 1) (by intro c hc m h; cases h; exact ih c hc)

theorem read_out (c : Conn) (n : Nat) : (c.read n).2.out = c.out := by
  unfold Conn.read
  split
  · rfl
  · split <;> rfl

theorem readBody_out (l : Nat) : ∀ (f l2 : Nat) (buf : Bytes) (c : Conn) (x : Except (Option RfErr) Bytes) (c' : Conn),
    readBody l f l2 buf c = .ok (x, c') → c'.out = c.out
  | 0, _, _, _, _, _, h => by simp [readBody] at h
  | f + 1, l2, buf, c, x, c', h => by
    have ho := read_out c 10000
    simp only [readBody] at h
    split at h
    · rename_i hr
      simp only [Res.ok.injEq, Prod.mk.injEq] at h
      rw [← h.2, ← ho, hr]
    · rename_i hr
      simp only [Res.ok.injEq, Prod.mk.injEq] at h
      rw [← h.2, ← ho, hr]
    · rename_i hr
      rw [hr] at ho
      split at h
      · simp only [Res.ok.injEq, Prod.mk.injEq] at h
        rw [← h.2, ← ho]
      · rw [readBody_out l f _ _ _ _ _ h, ← ho]

/-- What a client that got a response has written. -/
theorem callV2_written (E : Ext) (g r : Graph) {req : Bytes} (hg : g.binary E = .ok (some req)) (k k' : Conn)
    (h : callV2 E g k = .ok ((r, none), k')) : k'.out = k.out ++ [be32 req.length, req] := by
  have hw : ∀ (c c' : Conn) (b : Bytes), c.write b = (true, c') → c'.out = c.out ++ [b] := by
    intro c c' b hb
    unfold Conn.write at hb
    split at hb <;> simp only [Prod.mk.injEq, Bool.false_eq_true, false_and, true_and] at hb <;> rw [← hb]
  simp only [callV2, hg, Res.ok_bind, Option.getD_some] at h
  split at h
  · simp at h
  · rename_i c1 h1
    have o1 := hw _ _ _ h1
    split at h
    · simp at h
    · rename_i c2 h2
      have o2 := hw _ _ _ h2
      split at h
      · simp at h
      · rename_i b4 c3 h3
        have o3 := read_out c2 4
        rw [h3] at o3
        split at h
        · simp at h
        · cases hb : readBody (unBe32 b4) c3.fuel 0 [] c3 with
          | panic => simp [hb] at h
          | oof => simp [hb] at h
          | ok y =>
            obtain ⟨x, c4⟩ := y
            have o4 := readBody_out _ _ _ _ _ _ _ hb
            have key : k'.out = c4.out := by
              simp only [hb, Res.ok_bind] at h
              cases x with
              | error e =>
                simp only [Res.ok.injEq, Prod.mk.injEq] at h
                rw [← h.2]
              | ok buf3 =>
                simp only at h
                cases hf : fromBinary buf3 with
                | panic => simp [hf] at h
                | oof => simp [hf] at h
                | ok r' =>
                  simp only [hf, Res.ok_bind] at h
                  split at h
                  · simp at h
                  · simp only [Res.ok.injEq, Prod.mk.injEq] at h
                    rw [← h.2]
            rw [key, o4]
            simp only at o3
            rw [o3, o2, o1]
            simp

end Ogdl
