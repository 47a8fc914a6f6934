import Verif.Lemmas.Loose

/-!
# The context of a template in memory
-/

namespace Ogdl
open Spec HM

variable {E : Ext} {grow : Nat → Nat → Nat} {P N Z : Nat → Prop} {F : List Nat}

theorem Loose.frame {P' N' : Nat → Prop} {h h' : Heap} {g : Graph} {p : Ptr} (hg : Loose P N h g p) (hP : ∀ b, P b → b < h.nodes.length → P' b ∧ look h' b = look h b)
    (hN : ∀ b, N b → b < h.nodes.length → N' b ∧ look h' b = look h b) : Loose P' N' h' g p := by
  cases g with
  | nil => exact hg
  | node v gs =>
    obtain ⟨a, x, ps, e, hp, hl, hv, ho⟩ := hg
    obtain ⟨h1, h2⟩ := hN a hp (look_lt hl)
    exact ⟨a, x, ps, e, h1, h2.trans hl, hv.frame v hP, ho.frame gs hP⟩

/-- Nodes in `Z` that do not change: all but those in `A`. -/
def Stay (Z : Nat → Prop) (A : List Nat) : Nat → Prop := fun b => b ∉ A ∧ Z b

/-- Nodes in `Z` other than the root. -/
def Under (Z : Nat → Prop) (a : Nat) : Nat → Prop := fun b => b ≠ a ∧ Z b

/-- The context at `a`: the root has content `t` and the subnodes `zs`, each with its address.
In `A` are the root and the loop variables. -/
structure Live Z (a : Nat) (A : List Nat) (h : Heap) (t : Val) (zs : List (Graph × Ptr)) : Prop where
  solid : Solid h
  root : ∃ x, look h a = some (x, zs.map (·.2)) ∧ ShowsV (Stay Z A) h t x
  kids : ∀ z ∈ zs, z.1 ≠ .nil ∧ Loose (Stay Z A) (Under Z a) h z.1 z.2
  nodup : (zs.map (·.2)).Nodup
  mem : a ∈ A
  below : ∀ b ∈ A, b < h.nodes.length
  zone : ∀ b ∈ A, Z b
  more : Fresh Z h

/-- The context as a tree. -/
def treeOf (t : Val) (zs : List (Graph × Ptr)) : Graph := .node t (zs.map (·.1))

theorem kids_of {R : Graph → Ptr → Prop} : ∀ {zs : List (Graph × Ptr)}, (∀ z ∈ zs, z.1 ≠ .nil ∧ R z.1 z.2) → Kids R (zs.map (·.1)) (zs.map (·.2))
  | [], _ => .nil
  | z :: zs, hz => .cons (hz z (List.mem_cons_self ..)).1 (hz z (List.mem_cons_self ..)).2 (kids_of fun y hy => hz y (List.mem_cons_of_mem _ hy))

namespace Live

variable {a : Nat} {A : List Nat} {h : Heap} {t : Val} {zs : List (Graph × Ptr)}

theorem under (l : Live Z a A h t zs) : ∀ b, Stay Z A b → Under Z a b := fun b hb => ⟨fun e => hb.1 (by rw [e]; exact l.mem), hb.2⟩

theorem fresh (l : Live Z a A h t zs) : Fresh (Stay Z A) h := fun b hb => ⟨fun hA => by have := l.below b hA; omega, l.more b hb⟩

theorem isRoot (l : Live Z a A h t zs) : Root (Stay Z A) (Under Z a) h (treeOf t zs) (some a) := by
  obtain ⟨x, hl, hv⟩ := l.root
  exact ⟨a, x, _, rfl, hl, hv, kids_of l.kids⟩

theorem ctx (l : Live Z a A h t zs) : Ctx (fun _ => True) h (treeOf t zs) (some a) := ⟨l.solid, fun _ _ => trivial, l.isRoot.any⟩

theorem turns {h' : Heap} (l : Live Z a A h t zs) (tn : Turns [] h h') : Live Z a A h' t zs := by
  obtain ⟨x, hl, hv⟩ := l.root
  refine ⟨tn.solid, ⟨x, ?_, hv.turns tn⟩, fun z hz => ⟨(l.kids z hz).1, (l.kids z hz).2.turns tn⟩, l.nodup, l.mem, fun b hb => Nat.lt_of_lt_of_le (l.below b hb) tn.le,
    l.zone, l.more.turns tn⟩
  rw [(tn.keep a (look_lt hl) nofun).2]
  exact hl

/-- Other subnodes below the root. -/
theorem change {h' : Heap} {zs' : List (Graph × Ptr)} (l : Live Z a A h t zs) (tn : Turns [a] h h') {x : HVal} (hx : ShowsV (Stay Z A) h t x)
    (hl : look h' a = some (x, zs'.map (·.2))) (hz : ∀ z ∈ zs', z ∈ zs) (hd : (zs'.map (·.2)).Nodup) : Live Z a A h' t zs' := by
  have hP : ∀ b, Stay Z A b → b < h.nodes.length → Stay Z A b ∧ look h' b = look h b := fun b hb hlt =>
    ⟨hb, (tn.keep b hlt (by simp only [List.mem_singleton]; exact (l.under b hb).1)).2⟩
  have hN : ∀ b, Under Z a b → b < h.nodes.length → Under Z a b ∧ look h' b = look h b := fun b hb hlt => ⟨hb, (tn.keep b hlt (by simp only [List.mem_singleton]; exact hb.1)).2⟩
  exact ⟨tn.solid, ⟨x, hl, hx.frame t hP⟩, fun z hz' => ⟨(l.kids z (hz z hz')).1, (l.kids z (hz z hz')).2.frame hP hN⟩, hd, l.mem,
    fun b hb => Nat.lt_of_lt_of_le (l.below b hb) tn.le, l.zone, l.more.turns tn⟩

end Live

/-! ## Delete -/

/-- The text. -/
def isStr (nm : Bytes) : Val → Bool
  | .str s => s == nm
  | _ => false

theorem isStr_iff {nm : Bytes} {v : Val} : isStr nm v = true ↔ v = .str nm := by
  cases v <;> simp [isStr]

/-- Not the name that is deleted. -/
def keeps (nm : Bytes) (z : Graph × Ptr) : Bool := !isStr nm z.1.this

theorem itfEq_str (v : Val) (nm : Bytes) : itfEq E v (.str nm) = .ok (isStr nm v) := by
  cases v <;> rfl

theorem hvalEq_str {h : Heap} {v : Val} {x : HVal} (hv : ShowsV P h v x) (nm : Bytes) : hvalEq E x (.val (.str nm)) = .ok (isStr nm v) := by
  rcases hv.cases with ⟨_, rfl⟩ | ⟨g, p, rfl, rfl, _⟩
  · exact itfEq_str _ _
  · rfl

theorem map_eraseIdx' {α β : Type} (f : α → β) : ∀ (l : List α) (i : Nat), (l.eraseIdx i).map f = (l.map f).eraseIdx i
  | [], _ => rfl
  | _ :: _, 0 => rfl
  | x :: l, i + 1 => by simp only [List.eraseIdx_cons_succ, List.map_cons, map_eraseIdx' f l i]

theorem delete_live {a : Nat} {A : List Nat} {t : Val} {nm : Bytes} :
    ∀ (k f i : Nat) (h : Heap) (zs : List (Graph × Ptr)), Live Z a A h t zs → zs.length ≤ i + k → zs.length ≤ i + f →
      ∃ h', (hDeleteLoop E grow (some a) (.val (.str nm)) k i).run h = (.ok (), h') ∧ Turns [a] h h' ∧
        Live Z a A h' t (zs.take i ++ (zs.drop i).filter (keeps nm)) ∧
        deleteLoop E (.str nm) f i (zs.map (·.1)) = .ok ((zs.take i ++ (zs.drop i).filter (keeps nm)).map (·.1))
  | 0, f, i, h, zs, l, hk, hf => by
    have : deleteLoop E (.str nm) f i (zs.map (·.1)) = .ok (zs.map (·.1)) := by
      cases f with
      | zero => rfl
      | succ f => rw [deleteLoop, List.getElem?_eq_none (by simp; omega)]
    have e : zs.take i ++ (zs.drop i).filter (keeps nm) = zs := by
      rw [List.drop_eq_nil_of_le (by omega), List.take_of_length_le (by omega)]; simp
    rw [e]
    unfold hDeleteLoop
    exact ⟨h, rfl, .refl l.solid, l, this⟩
  | k + 1, f, i, h, zs, l, hk, hf => by
    obtain ⟨x, hl, hx⟩ := l.root
    obtain ⟨c, hc', hld, hthis, hlen, _⟩ := load_look l.solid hl
    unfold hDeleteLoop
    rw [ok_bind' hld, hlen, List.length_map]
    by_cases hi : i < zs.length
    · simp only [hi, ↓reduceIte]
      cases f with
      | zero => omega
      | succ f =>
      have hzi := List.getElem?_eq_getElem hi
      obtain ⟨hn, hg⟩ := l.kids zs[i] (List.getElem_mem hi)
      have hp : (zs.map (·.2))[i]? = some zs[i].2 := by rw [List.getElem?_map, hzi]; rfl
      have ho : (zs.map (·.1))[i]? = some zs[i].1 := by rw [List.getElem?_map, hzi]; rfl
      have hdrop : zs.drop i = zs[i] :: zs.drop (i + 1) := List.drop_eq_getElem_cons hi
      rw [ok_bind' (index_look l.solid hl hc' hp), deleteLoop, ho]
      cases hgi : zs[i].1 with
      | nil => exact absurd hgi hn
      | node ti oi =>
        rw [hgi] at hg
        obtain ⟨m, y, pm, hm, _, hlm, hcy, _⟩ := hg
        obtain ⟨cm, hcm, hldm, hthism, _, _⟩ := load_look l.solid hlm
        have hkeep : keeps nm zs[i] = !isStr nm ti := by unfold keeps; rw [hgi]; rfl
        rw [hm, ok_bind' hldm, hthism, hvalEq_str hcy]
        dsimp only
        rw [itfEq_str]
        rw [ok_bind' (m := HM.lift (Res.ok (isStr nm ti))) (h := h) (h1 := h) rfl]
        rw [hdrop, List.filter_cons, hkeep]
        cases hd : isStr nm ti with
        | true =>
          simp only [↓reduceIte, Res.ok_bind, Bool.not_true, Bool.false_eq_true]
          obtain ⟨h1, hr, c1⟩ := remove_look (grow := grow) l.solid hl (i := i) (by simpa using hi)
          rw [ok_bind' hr]
          have l1 : Live Z a A h1 t (zs.eraseIdx i) := l.change c1.turns hx (by rw [c1.look]; unfold upd; rw [if_pos rfl, map_eraseIdx']) (fun z hz => List.mem_of_mem_eraseIdx hz)
            (by rw [map_eraseIdx']; exact l.nodup.sublist (List.eraseIdx_sublist ..))
          have hlen' : (zs.eraseIdx i).length = zs.length - 1 := List.length_eraseIdx_of_lt hi
          obtain ⟨h2, hr2, t2, l2, he⟩ := delete_live k f i h1 (zs.eraseIdx i) l1 (by omega) (by omega)
          have e1 : (zs.eraseIdx i).take i = zs.take i := by rw [List.eraseIdx_eq_take_drop_succ, List.take_append_of_le_length (by simp; omega), List.take_take, Nat.min_self]
          have e2 : (zs.eraseIdx i).drop i = zs.drop (i + 1) := by
            rw [List.eraseIdx_eq_take_drop_succ, List.drop_append_of_le_length (by simp; omega), List.drop_take, Nat.sub_self]; simp
          rw [e1, e2] at l2 he
          refine ⟨h2, hr2, c1.turns.trans t2 .refl, l2, ?_⟩
          rw [← map_eraseIdx']
          exact he
        | false =>
          simp only [Bool.false_eq_true, ↓reduceIte, Res.ok_bind, Bool.not_false]
          obtain ⟨h2, hr2, t2, l2, he⟩ := delete_live k f (i + 1) h zs l (by omega) (by omega)
          have e1 : zs.take (i + 1) ++ (zs.drop (i + 1)).filter (keeps nm) = zs.take i ++ zs[i] :: (zs.drop (i + 1)).filter (keeps nm) := by
            rw [List.take_succ_eq_append_getElem hi, List.append_assoc]; rfl
          rw [e1] at l2 he
          exact ⟨h2, hr2, t2, l2, he⟩
    · simp only [hi, ↓reduceIte]
      have : deleteLoop E (.str nm) f i (zs.map (·.1)) = .ok (zs.map (·.1)) := by
        cases f with
        | zero => rfl
        | succ f => rw [deleteLoop, List.getElem?_eq_none (by simp; omega)]
      have e : zs.take i ++ (zs.drop i).filter (keeps nm) = zs := by
        rw [List.drop_eq_nil_of_le (by omega), List.take_of_length_le (by omega)]; simp
      rw [e]
      exact ⟨h, rfl, .refl l.solid, l, this⟩

theorem hDelete_live {a : Nat} {A : List Nat} {t : Val} {nm : Bytes} {h : Heap} {zs : List (Graph × Ptr)} (l : Live Z a A h t zs) :
    ∃ h', (hDelete E grow (some a) (.val (.str nm))).run h = (.ok (), h') ∧ Turns [a] h h' ∧ Live Z a A h' t (zs.filter (keeps nm)) ∧
      (treeOf t zs).delete E (.str nm) = .ok (treeOf t (zs.filter (keeps nm))) := by
  obtain ⟨x, hl, hx⟩ := l.root
  obtain ⟨c, hc', hld, hthis, hlen, _⟩ := load_look l.solid hl
  obtain ⟨h', hr, tn, l', he⟩ := delete_live (E := E) (grow := grow) (nm := nm) zs.length (zs.length + 1) 0 h zs l (by omega) (by omega)
  refine ⟨h', ?_, tn, by simpa using l', ?_⟩
  · unfold hDelete
    dsimp only
    rw [ok_bind' hld, hlen, List.length_map]
    exact hr
  · unfold Graph.delete treeOf
    dsimp only
    rw [List.length_map, he]
    simp only [List.take_zero, List.nil_append, List.drop_zero, Res.ok_bind]

/-! ## The loop variable -/

theorem addVar_live {a : Nat} {A : List Nat} {t : Val} {nm : Bytes} {h : Heap} {zs : List (Graph × Ptr)} (l : Live Z a A h t zs) :
    ∃ h', (hAdd grow (some a) (.val (.str nm))).run h = (.ok (some h.nodes.length), h') ∧ Turns [a] h h' ∧ h'.nodes.length = h.nodes.length + 1 ∧
      Live Z a (h.nodes.length :: A) h' t (zs ++ [(.node (.str nm) [], some h.nodes.length)]) ∧
      ((treeOf t zs).add (.str nm)).1 = treeOf t (zs ++ [(.node (.str nm) [], some h.nodes.length)]) := by
  obtain ⟨x, hl, hx⟩ := l.root
  obtain ⟨h', hr, tn, l1, l2, hlen⟩ := alloc_append (grow := grow) (y := .val (.str nm)) l.solid hl
  have hP : ∀ b, Stay Z A b → b < h.nodes.length → Stay Z (h.nodes.length :: A) b ∧ look h' b = look h b := fun b hb hlt =>
    ⟨⟨fun hm => by rcases List.mem_cons.1 hm with rfl | hm; exact absurd hlt (Nat.lt_irrefl _); exact hb.1 hm, hb.2⟩, (tn.keep b hlt (by simp only [List.mem_singleton]; exact (l.under b hb).1)).2⟩
  have hN : ∀ b, Under Z a b → b < h.nodes.length → Under Z a b ∧ look h' b = look h b := fun b hb hlt => ⟨hb, (tn.keep b hlt (by simp only [List.mem_singleton]; exact hb.1)).2⟩
  have hal := l.below a l.mem
  refine ⟨h', hr, tn, hlen, ⟨tn.solid, ⟨x, by simpa using l1, hx.frame t hP⟩, fun z hz => ?_, ?_, List.mem_cons_of_mem _ l.mem, fun b hb => ?_, fun b hb => ?_, l.more.turns tn⟩, ?_⟩
  · rcases List.mem_append.1 hz with hz | hz
    · exact ⟨(l.kids z hz).1, (l.kids z hz).2.frame hP hN⟩
    · rw [List.mem_singleton] at hz
      subst hz
      exact ⟨nofun, _, _, _, rfl, ⟨by omega, l.more _ (Nat.le_refl _)⟩, l2, .plain nofun, .nil⟩
  · rw [List.map_append, List.nodup_append]
    refine ⟨l.nodup, by simp, fun p hp q hq e => ?_⟩
    simp only [List.map_cons, List.map_nil, List.mem_singleton] at hq
    subst e hq
    obtain ⟨z, hz, e⟩ := List.mem_map.1 hp
    obtain ⟨hn, hg⟩ := l.kids z hz
    rw [e] at hg
    cases hz1 : z.1 with
    | nil => exact hn hz1
    | node v gs =>
      rw [hz1] at hg
      obtain ⟨b, _, _, e, _, hlb, _⟩ := hg
      have := look_lt hlb
      simp only [Option.some.injEq] at e
      omega
  · rcases List.mem_cons.1 hb with rfl | hb
    · omega
    · have := l.below b hb
      omega
  · rcases List.mem_cons.1 hb with rfl | hb
    · exact l.more _ (Nat.le_refl _)
    · exact l.zone b hb
  · unfold treeOf Graph.add
    simp [addedNode]

/-- Cell `i` is the one subnode with content `v`. -/
def Active (v : Bytes) (i : Nat) (zs : List (Graph × Ptr)) : Prop := (∃ z ∈ zs, z.2 = some i) ∧ ∀ z ∈ zs, z.2 = some i ↔ z.1.this = .str v

/-- Cell `i` is not a subnode. -/
def Gone (i : Nat) (zs : List (Graph × Ptr)) : Prop := ∀ z ∈ zs, z.2 ≠ some i

/-- The element is put below cell `i`. -/
def bindAt (v : Bytes) (i : Nat) (ee : Graph) (z : Graph × Ptr) : Graph × Ptr := if z.2 = some i then (.node (.str v) [ee], z.2) else z

theorem bindAt_snd {v : Bytes} {i : Nat} {ee : Graph} (z : Graph × Ptr) : (bindAt v i ee z).2 = z.2 := by unfold bindAt; split <;> rfl

theorem bindAt_gone {v : Bytes} {i : Nat} {ee : Graph} : ∀ {zs : List (Graph × Ptr)}, Gone i zs → zs.map (bindAt v i ee) = zs
  | [], _ => rfl
  | z :: zs, hg => by
    rw [List.map_cons, bindAt_gone fun y hy => hg y (List.mem_cons_of_mem _ hy)]
    unfold bindAt
    rw [if_neg (hg z (List.mem_cons_self ..))]

theorem setVar_bind {v : Bytes} {i : Nat} {ee : Graph} (hn : ee ≠ .nil) : ∀ {zs : List (Graph × Ptr)}, (zs.map (·.2)).Nodup → (∀ z ∈ zs, z.2 = some i ↔ z.1.this = .str v) → (∀ z ∈ zs, z.1 ≠ .nil) →
    setVar v ee (zs.map (·.1)) = (zs.map (bindAt v i ee)).map (·.1)
  | [], _, _, _ => rfl
  | z :: zs, hd, ha, hz => by
    have h1 := ha z (List.mem_cons_self ..)
    have hd' := (List.nodup_cons.1 hd)
    have ih := setVar_bind hn hd'.2 (fun y hy => ha y (List.mem_cons_of_mem _ hy)) fun y hy => hz y (List.mem_cons_of_mem _ hy)
    simp only [List.map_cons]
    by_cases hzi : z.2 = some i
    · have hg : Gone i zs := fun y hy e => hd'.1 (by show z.2 ∈ _; rw [hzi, ← e]; exact List.mem_map_of_mem hy)
      rw [bindAt_gone hg]
      obtain ⟨g, p⟩ := z
      have h1 := h1.1 hzi
      cases g with
      | nil => exact absurd rfl (hz _ (List.mem_cons_self ..))
      | node u o =>
        obtain rfl : u = .str v := h1
        have e : addedNode (.graph ee) = ee := by cases ee with | nil => exact absurd rfl hn | node t o => rfl
        simp only [setVar, bindAt, e, ↓reduceIte]
        rw [if_pos hzi]
    · obtain ⟨g, p⟩ := z
      have h2 : ¬ g.this = .str v := fun e => hzi (h1.2 e)
      have e1 : bindAt v i ee (g, p) = (g, p) := by unfold bindAt; rw [if_neg hzi]
      rw [e1, ← ih]
      cases g with
      | nil => exact absurd rfl (hz _ (List.mem_cons_self ..))
      | node u o =>
        cases u with
        | str s =>
          simp only [setVar]
          rw [if_neg]
          rintro rfl
          exact h2 rfl
        | _ => rfl

theorem Active.bind {v w : Bytes} {i j : Nat} {ee : Graph} {zs : List (Graph × Ptr)} (hw : Active w j zs) (ha : Active v i zs) : Active w j (zs.map (bindAt v i ee)) := by
  obtain ⟨⟨z, hz, e⟩, hi⟩ := hw
  refine ⟨⟨bindAt v i ee z, List.mem_map_of_mem hz, by rw [bindAt_snd, e]⟩, fun y hy => ?_⟩
  obtain ⟨y, hy', rfl⟩ := List.mem_map.1 hy
  replace hy := hy'
  rw [bindAt_snd, hi y hy]
  unfold bindAt
  split
  · rename_i h
    rw [(ha.2 y hy).1 h]
    rfl
  · rfl

theorem Gone.bind {v : Bytes} {i j : Nat} {ee : Graph} {zs : List (Graph × Ptr)} (hg : Gone j zs) : Gone j (zs.map (bindAt v i ee)) := by
  intro y hy
  obtain ⟨y, hy', rfl⟩ := List.mem_map.1 hy
  replace hy := hy'
  rw [bindAt_snd]
  exact hg y hy

/-- The subnodes of cell `i`. -/
def kidsAt (v : Bytes) (i : Nat) (es : List Graph) (z : Graph × Ptr) : Graph × Ptr := if z.2 = some i then (.node (.str v) es, z.2) else z

theorem kidsAt_snd {v : Bytes} {i : Nat} {es : List Graph} (z : Graph × Ptr) : (kidsAt v i es z).2 = z.2 := by unfold kidsAt; split <;> rfl

theorem kidsAt_bind {v : Bytes} {i : Nat} {es : List Graph} {ee : Graph} (z : Graph × Ptr) : bindAt v i ee (kidsAt v i es z) = bindAt v i ee z := by
  unfold bindAt
  rw [kidsAt_snd]
  split
  · rfl
  · rename_i h
    unfold kidsAt
    rw [if_neg h]

theorem Active.kids {v w : Bytes} {i j : Nat} {es : List Graph} {zs : List (Graph × Ptr)} (hw : Active w j zs) (ha : Active v i zs) : Active w j (zs.map (kidsAt v i es)) := by
  obtain ⟨⟨z, hz, e⟩, hi⟩ := hw
  refine ⟨⟨kidsAt v i es z, List.mem_map_of_mem hz, by rw [kidsAt_snd, e]⟩, fun y hy => ?_⟩
  obtain ⟨y, hy', rfl⟩ := List.mem_map.1 hy
  replace hy := hy'
  rw [kidsAt_snd, hi y hy]
  unfold kidsAt
  split
  · rename_i h
    rw [(ha.2 y hy).1 h]
    rfl
  · rfl

theorem Gone.kids {v : Bytes} {i j : Nat} {es : List Graph} {zs : List (Graph × Ptr)} (hg : Gone j zs) : Gone j (zs.map (kidsAt v i es)) := by
  intro y hy
  obtain ⟨y, hy', rfl⟩ := List.mem_map.1 hy
  replace hy := hy'
  rw [kidsAt_snd]
  exact hg y hy

theorem Live.lookAt {a : Nat} {A : List Nat} {t : Val} {h : Heap} {zs : List (Graph × Ptr)} (l : Live Z a A h t zs) {i : Nat} (hi : i ∈ A) : ∃ y qs, look h i = some (y, qs) := by
  unfold look
  rw [List.getElem?_eq_getElem (l.below i hi)]
  exact ⟨_, _, rfl⟩

/-- The loop variable at `i` gets other subnodes. -/
theorem kids_live {a i : Nat} {A : List Nat} {t : Val} {v : Bytes} {h h2 : Heap} {zs : List (Graph × Ptr)} {es : List Graph} {y : HVal} {ps qs : List Ptr} (l : Live Z a A h t zs) (hi : i ∈ A)
    (hia : i ≠ a) (hz : Gone i zs ∨ Active v i zs) (tn : Turns [i] h h2) (hl : look h i = some (y, qs)) (hl2 : look h2 i = some (y, ps)) (he : ShowsL (Stay Z A) h es ps) :
    Live Z a A h2 t (zs.map (kidsAt v i es)) := by
  have hP : ∀ b, Stay Z A b → b < h.nodes.length → Stay Z A b ∧ look h2 b = look h b := fun b hb hlt =>
    ⟨hb, (tn.keep b hlt (by simp only [List.mem_singleton]; rintro rfl; exact hb.1 hi)).2⟩
  obtain ⟨x, hla, hx⟩ := l.root
  have hsnd : (zs.map (kidsAt v i es)).map (·.2) = zs.map (·.2) := by
    rw [List.map_map]
    exact List.map_congr_left fun z _ => kidsAt_snd z
  refine ⟨tn.solid, ⟨x, ?_, hx.frame t hP⟩, fun z hz' => ?_, by rw [hsnd]; exact l.nodup, l.mem, fun b hb => ?_, l.zone, l.more.turns tn⟩
  · rw [hsnd, (tn.keep a (look_lt hla) (by simpa using hia.symm)).2]
    exact hla
  · obtain ⟨z, hzm, rfl⟩ := List.mem_map.1 hz'
    obtain ⟨hnz, hg⟩ := l.kids z hzm
    by_cases hzi : z.2 = some i
    · rcases hz with hz | hz
      · exact absurd hzi (hz z hzm)
      have hthis := (hz.2 z hzm).1 hzi
      unfold kidsAt
      rw [if_pos hzi]
      refine ⟨nofun, i, y, _, hzi, ⟨hia, l.zone i hi⟩, hl2, ?_, he.frame es hP⟩
      obtain ⟨g, p⟩ := z
      cases g with
      | nil => exact absurd rfl hnz
      | node u o =>
        obtain rfl : u = .str v := hthis
        obtain ⟨a', x', ps', e1, _, e2, hv, _⟩ := hg
        rw [show p = some i from hzi] at e1
        cases e1
        rw [hl] at e2
        cases e2
        exact hv.frame _ hP
    · have e0 : kidsAt v i es z = z := by unfold kidsAt; rw [if_neg hzi]
      rw [e0]
      refine ⟨hnz, ?_⟩
      cases hz1 : z.1 with
      | nil => exact absurd hz1 hnz
      | node u o =>
        rw [hz1] at hg
        obtain ⟨d, x', ps', e1, hd, e2, hv, ho⟩ := hg
        refine ⟨d, x', ps', e1, hd, ?_, hv.frame _ hP, ho.frame _ hP⟩
        rw [(tn.keep d (look_lt e2) ?_).2]
        · exact e2
        · simp only [List.mem_singleton]
          rintro rfl
          exact hzi e1
  · exact Nat.lt_of_lt_of_le (l.below b hb) tn.le

/-- The loop variable at `i` is emptied. -/
theorem clearVar_live {a i : Nat} {A : List Nat} {t : Val} {v : Bytes} {h : Heap} {zs : List (Graph × Ptr)} (l : Live Z a A h t zs) (hi : i ∈ A) (hia : i ≠ a)
    (hz : Gone i zs ∨ Active v i zs) :
    ∃ y h1, (HM.putOut (some i) {}).run h = (.ok (), h1) ∧ Turns [i] h h1 ∧ look h1 i = some (y, []) ∧ Live Z a A h1 t (zs.map (kidsAt v i [])) := by
  obtain ⟨y, qs, hl⟩ := l.lookAt hi
  obtain ⟨h1, hr1, c1⟩ := clear_look l.solid hl
  have hl1 : look h1 i = some (y, []) := by rw [c1.look]; unfold upd; rw [if_pos rfl]
  exact ⟨y, h1, hr1, c1.turns, hl1, kids_live l hi hia hz c1.turns hl hl1 (by unfold ShowsL; rfl)⟩

/-- The loop variable at `i`, which is empty, gets the element at `b`. -/
theorem fillVar_live {a i b : Nat} {A : List Nat} {t : Val} {v : Bytes} {h : Heap} {zs : List (Graph × Ptr)} {ee : Graph} {y : HVal} (l : Live Z a A h t zs) (hi : i ∈ A) (hia : i ≠ a)
    (hz : Gone i zs ∨ Active v i zs) (hl : look h i = some (y, [])) (he : Shows (Stay Z A) h ee (some b)) (hn : ee ≠ .nil) :
    ∃ h', (hAdd grow (some i) (.ptr (some b))).run h = (.ok (some b), h') ∧ Turns [i] h h' ∧ Live Z a A h' t (zs.map (bindAt v i ee)) := by
  obtain ⟨h2, hr2, c2⟩ := add_ptr (grow := grow) (b := b) l.solid hl
  have hl2 : look h2 i = some (y, [some b]) := by rw [c2.look]; unfold upd; rw [if_pos rfl]; rfl
  exact ⟨h2, hr2, c2.turns, kids_live (es := [ee]) l hi hia hz c2.turns hl hl2 (showsL_kids.2 (.cons hn he .nil))⟩

/-- The loop variable at `i` gets the element at `b`. -/
theorem setVar_live {a i b : Nat} {A : List Nat} {t : Val} {v : Bytes} {h : Heap} {zs : List (Graph × Ptr)} {ee : Graph} (l : Live Z a A h t zs) (hi : i ∈ A) (hia : i ≠ a)
    (hz : Gone i zs ∨ Active v i zs) (he : Shows (Stay Z A) h ee (some b)) (hn : ee ≠ .nil) :
    ∃ h1 h', (HM.putOut (some i) {}).run h = (.ok (), h1) ∧ (hAdd grow (some i) (.ptr (some b))).run h1 = (.ok (some b), h') ∧ Turns [i] h h1 ∧ Turns [i] h1 h' ∧
      Live Z a A h' t (zs.map (bindAt v i ee)) := by
  obtain ⟨y, h1, hr1, t1, hl1, l1⟩ := clearVar_live (v := v) l hi hia hz
  have hz1 : Gone i (zs.map (kidsAt v i [])) ∨ Active v i (zs.map (kidsAt v i [])) := by
    rcases hz with hz | hz
    · exact .inl hz.kids
    · exact .inr (hz.kids hz)
  have he1 : Shows (Stay Z A) h1 ee (some b) := he.frame ee fun d hd hlt => ⟨hd, (t1.keep d hlt (by simp only [List.mem_singleton]; rintro rfl; exact hd.1 hi)).2⟩
  obtain ⟨h2, hr2, t2, l2⟩ := fillVar_live (grow := grow) l1 hi hia hz1 hl1 he1 hn
  refine ⟨h1, h2, hr1, hr2, t1, t2, ?_⟩
  rw [List.map_map] at l2
  rwa [show bindAt v i ee ∘ kidsAt v i [] = bindAt v i ee from funext fun z => kidsAt_bind z] at l2

end Ogdl
