import Verif.Spec.Read
import Verif.Lemmas.RefineRun
import Verif.Lemmas.ScalarText

/-!
# Reading a tree held in memory
-/

namespace Ogdl
open Spec HM

variable {E : Ext} {grow : Nat → Nat → Nat} {fuel : Nat}

/-- Reads that agree. -/
def ReadsAs (m : HM α) (h : Heap) (r : Res β) (Q : α → β → Prop) : Prop := Gives m h r fun a b h' => h' = h ∧ Q a b

theorem ReadsAs.bind {m : HM α} {f : α → HM γ} {h : Heap} {r : Res β} {k : β → Res δ} {Q : α → β → Prop} {Q' : γ → δ → Prop}
    (hm : ReadsAs m h r Q) (hf : ∀ a b, Q a b → ReadsAs (f a) h (k b) Q') : ReadsAs (m >>= f) h (r >>= k) Q' :=
  Gives.bind hm fun a b h' hq => by obtain ⟨rfl, hq⟩ := hq; exact hf a b hq

theorem ReadsAs.pure {h : Heap} {a : α} {b : β} {Q : α → β → Prop} (hq : Q a b) : ReadsAs (Pure.pure a : HM α) h (.ok b) Q := Gives.pure ⟨rfl, hq⟩

theorem ReadsAs.step {m : HM α} {f : α → HM γ} {h : Heap} {a : α} {r : Res β} {Q : γ → β → Prop} (hm : m.run h = (.ok a, h))
    (hf : ReadsAs (f a) h r Q) : ReadsAs (m >>= f) h r Q := Gives.step hm hf

theorem ReadsAs.lift {h : Heap} {r : Res α} {Q : α → α → Prop} (hq : ∀ a, r = .ok a → Q a a) : ReadsAs (HM.lift r) h r Q := by
  cases r with
  | ok a => exact ⟨a, h, rfl, rfl, hq a rfl⟩
  | panic => exact ⟨h, rfl⟩
  | oof => trivial

theorem ReadsAs.lift_eq {h : Heap} {r : Res α} : ReadsAs (HM.lift r) h r Eq := .lift fun _ _ => rfl

theorem interface_reads {h : Heap} (hs : Solid h) {g : Graph} {p : Ptr} {F : List Nat} (hg : Holds h g p F) : ReadsAs (hInterface p) h g.interface Content := by
  cases g with
  | nil =>
    unfold Holds at hg
    obtain ⟨rfl, rfl⟩ := hg
    unfold hInterface Graph.interface
    exact .pure (.val nofun)
  | node t o =>
    obtain ⟨a, x, ps, F', rfl, rfl, haF, hl, hc, ho⟩ := hg.parts
    obtain ⟨c, hc', hld, hthis, hlen, _⟩ := load_look hs hl
    unfold hInterface
    refine .step hld ?_
    rw [hlen]
    cases o with
    | nil =>
      unfold HoldsL at ho
      rw [ho.1]
      exact .pure (.val nofun)
    | cons g gs =>
      unfold HoldsL at ho
      obtain ⟨p, ps', F1, F2, rfl, rfl, hd, hg1, hr⟩ := ho
      simp only [List.length_cons, Nat.add_eq_zero_iff, Nat.succ_ne_self, and_false, ↓reduceIte]
      refine .step (index_look hs hl hc' (i := 0) (p := p) rfl) ?_
      cases g with
      | nil =>
        unfold Holds at hg1
        rw [hg1.1]
        exact .panicked load_none
      | node t1 o1 =>
        obtain ⟨m, x1, pm, Fm, rfl, rfl, hmF, hlm, hcx, hom⟩ := hg1.parts
        obtain ⟨cm, hcm, hldm, hthism, _, _⟩ := load_look hs hlm
        refine .step hldm ?_
        rw [hthism]
        exact .pure hcx

theorem string_reads {h : Heap} {x : HVal} {v : Val} (hc : Content x v) : ReadsAs (hstring E fuel x) h (.ok (vstr E v)) Eq :=
  ⟨_, h, hstring_content hc fuel h, rfl, rfl⟩

theorem bytes_reads {h : Heap} {x : HVal} {v : Val} (hc : Content x v) : ReadsAs (hbytes E fuel x) h (.ok (vbytes E v)) Eq := by
  cases hc with
  | val _ => exact .pure rfl
  | nil => exact .pure rfl

theorem intf_reads {h : Heap} {x : HVal} {v : Val} (hc : Content x v) : ReadsAs (hintf E x) h (vintf E v) Eq := by
  cases hc with
  | val _ => exact .lift_eq
  | nil => exact .panicked load_none

theorem floatf_reads {h : Heap} {x : HVal} {v : Val} (hc : Content x v) : ReadsAs (hfloatf E fuel x) h (.ok (vfloatf E v)) Eq := by
  cases hc with
  | val _ => exact .pure rfl
  | nil =>
    unfold hfloatf
    exact .step (hstring_content .nil fuel h) (.pure rfl)

theorem boolf_reads {h : Heap} {x : HVal} {v : Val} (hc : Content x v) : ReadsAs (hboolf x) h (.ok (vboolf v)) Eq := by
  cases hc with
  | val _ => exact .pure rfl
  | nil => exact .pure rfl

theorem number_reads {h : Heap} {x : HVal} {v : Val} (hc : Content x v) : ReadsAs (hnumber E fuel x) h (number' E v) Eq := by
  cases hc with
  | val _ => exact .lift_eq
  | nil =>
    unfold hnumber
    refine .step (hstring_content .nil fuel h) ?_
    exact .lift_eq

theorem number_content {v n : Val} (hn : number' E v = .ok n) : Content (.val n) n := by
  refine .val fun g e => ?_
  subst e
  unfold number' at hn
  split at hn
  · cases hn
  · split at hn
    · cases hn
    · split at hn
      · cases hn
      · dsimp only at hn
        split at hn
        · cases hn
        · rename_i s _
          cases hi : isInteger (vstr E v) with
          | ok b =>
            rw [hi] at hn
            cases b with
            | true =>
              dsimp only [Res.ok_bind] at hn
              simp only [Res.ok_bind, ↓reduceIte] at hn
              split at hn <;> cases hn
            | false =>
              simp only [Res.ok_bind, Bool.false_eq_true, ↓reduceIte] at hn
              split at hn <;> cases hn
          | panic => rw [hi] at hn; cases hn
          | oof => rw [hi] at hn; cases hn

theorem number_ne_oof (v : Val) : number' E v ≠ .oof := by
  unfold number'
  split
  · nofun
  · split
    · nofun
    · split
      · nofun
      · dsimp only
        split
        · nofun
        · cases hi : isInteger (vstr E v) with
          | ok b => cases b <;> simp only [Res.ok_bind, Bool.false_eq_true, ↓reduceIte] <;> split <;> nofun
          | panic => nofun
          | oof => exact absurd hi (isInteger_total _).2

theorem scalar_reads {h : Heap} {x : HVal} {v : Val} (hc : Content x v) : ReadsAs (hscalar E fuel x) h (scalarOf E v) Content := by
  unfold hscalar scalarOf
  have hn := number_reads (E := E) (fuel := fuel) (h := h) hc
  cases hx : number' E v with
  | oof => exact absurd hx (number_ne_oof v)
  | panic =>
    rw [hx] at hn
    obtain ⟨h', hr⟩ := hn
    exact .panicked hr
  | ok n =>
    rw [hx] at hn
    obtain ⟨n', h', hr, e, rfl⟩ := hn
    subst e
    refine .step hr ?_
    have hnc := number_content hx
    rw [Res.ok_bind]
    cases n' with
    | nil =>
      obtain ⟨b, h'', hb, e, rfl⟩ := boolf_reads (h := h') hc
      subst e
      refine .step hb ?_
      rcases vboolf v with ⟨b, _ | _⟩
      · exact .pure hc
      · exact .pure (.val nofun)
    | graph g => cases hnc with | val hg => exact absurd rfl (hg g)
    | _ => exact .pure (.val nofun)

theorem scalar_ne_oof (v : Val) : scalarOf E v ≠ .oof := by
  unfold scalarOf
  cases hx : number' E v with
  | oof => exact absurd hx (number_ne_oof v)
  | panic => nofun
  | ok n =>
    rw [Res.ok_bind]
    cases n with
    | nil => dsimp only; split <;> nofun
    | _ => nofun

/-! ## Several subnodes -/

/-- The text of one subnode. -/
def textOf (E : Ext) : Graph → Res Bytes
  | .nil => .panic
  | .node t _ => .ok (vstr E t)

theorem strings_texts (t : Val) (o : List Graph) : (Graph.node t o).strings E = o.mapM (textOf E) := by
  unfold Graph.strings
  congr 1

theorem texts_reads {h : Heap} (hs : Solid h) {a : Nat} {c : HNode} {x : HVal} {ps : List Ptr} (hl : look h a = some (x, ps)) (hc : h.nodes[a]? = some c) :
    ∀ (o : List Graph) (ps2 : List Ptr) (F : List Nat) (i : Nat), ps.drop i = ps2 → HoldsL h o ps2 F → ReadsAs (hTexts E fuel c.out o.length i) h (o.mapM (textOf E)) Eq
  | [], ps2, F, i, _, ho => by
    rw [List.mapM_nil]
    exact .pure rfl
  | g :: gs, ps2, F, i, hd, ho => by
    unfold HoldsL at ho
    obtain ⟨p, ps', F1, F2, rfl, rfl, _, hg, hr⟩ := ho
    obtain ⟨hp, hd'⟩ := getElem?_of_drop hd
    rw [List.mapM_cons, List.length_cons]
    unfold hTexts
    refine .step (index_look hs hl hc hp) ?_
    cases g with
    | nil =>
      unfold Holds at hg
      rw [hg.1]
      exact .panicked load_none
    | node t o1 =>
      obtain ⟨m, x1, pm, Fm, rfl, rfl, hmF, hlm, hcx, hom⟩ := hg.parts
      obtain ⟨cm, hcm, hldm, hthism, _, _⟩ := load_look hs hlm
      refine .step hldm ?_
      rw [hthism]
      refine .bind (string_reads hcx) fun s s' e => ?_
      subst e
      refine .bind (texts_reads hs hl hc gs ps' F2 (i + 1) hd' hr) fun l l' e => ?_
      subst e
      exact .pure rfl

/-! ## Equality -/

theorem hvalEq_contents (hE : E.ptrEq .nil .nil = true) {x y : HVal} {v w : Val} (hx : Content x v) (hy : Content y w) : hvalEq E x y = itfEq E v w := by
  cases hx with
  | val hg =>
    cases hy with
    | val hg' => rfl
    | nil => cases v <;> first | rfl | exact absurd rfl (hg _)
  | nil =>
    cases hy with
    | val hg' => cases w <;> first | rfl | exact absurd rfl (hg' _)
    | nil => show Res.ok _ = Res.ok (E.ptrEq .nil .nil); rw [hE]; rfl

theorem pairwise_reads {f : Ptr → Ptr → HM Bool} {h : Heap} (hs : Solid h) {a b : Nat} {c d : HNode} {x y : HVal} {ps qs : List Ptr}
    (hl : look h a = some (x, ps)) (hc : h.nodes[a]? = some c) (hl' : look h b = some (y, qs)) (hd : h.nodes[b]? = some d) {P : Graph → Prop}
    (hf : ∀ g g' p q F G, P g → Holds h g p F → Holds h g' q G → ReadsAs (f p q) h (g.equals E g') Eq) :
    ∀ (o o' : List Graph) (ps2 qs2 : List Ptr) (F G : List Nat) (i : Nat), o.length = o'.length → (∀ g ∈ o, P g) → ps.drop i = ps2 → qs.drop i = qs2 → HoldsL h o ps2 F → HoldsL h o' qs2 G →
      ReadsAs (hPairwise f c.out d.out o.length i) h (Graph.equalsList E o o') Eq
  | [], _, _, _, _, _, _, _, _, _, _, _, _ => by unfold Graph.equalsList; exact .pure rfl
  | g :: gs, [], _, _, _, _, _, he, _, _, _, _, _ => by simp at he
  | g :: gs, g' :: gs', _, _, _, _, i, he, hP, hp, hq, ho, ho' => by
    unfold HoldsL at ho ho'
    obtain ⟨p, ps', F1, F2, rfl, rfl, _, hg, hr⟩ := ho
    obtain ⟨q, qs', G1, G2, rfl, rfl, _, hg', hr'⟩ := ho'
    obtain ⟨hp1, hp2⟩ := getElem?_of_drop hp
    obtain ⟨hq1, hq2⟩ := getElem?_of_drop hq
    unfold Graph.equalsList
    rw [List.length_cons]
    unfold hPairwise
    refine .step (index_look hs hl hc hp1) (.step (index_look hs hl' hd hq1) (.bind (hf g g' p q F1 G1 (hP g (List.mem_cons_self ..)) hg hg') fun r r' e => ?_))
    subst e
    cases r with
    | false => exact .pure rfl
    | true => exact pairwise_reads hs hl hc hl' hd hf gs gs' ps' qs' F2 G2 (i + 1) (by simpa using he) (fun g hm => hP g (List.mem_cons_of_mem _ hm)) hp2 hq2 hr hr'

theorem equals_reads (hE : E.ptrEq .nil .nil = true) : ∀ (f : Nat) {h : Heap}, Solid h → ∀ {g g' : Graph} {p q : Ptr} {F G : List Nat}, g.height < f → Holds h g p F → Holds h g' q G →
    ReadsAs (hEquals E f p q) h (g.equals E g') Eq
  | 0, _, _, _, _, _, _, _, _, hf, _, _ => by omega
  | f + 1, h, hs, g, g', p, q, F, G, hf, hg, hg' => by
    unfold hEquals
    cases g' with
    | nil =>
      unfold Holds at hg'
      rw [hg'.1]
      have : g.equals E .nil = .panic := by cases g <;> rw [Graph.equals] <;> nofun
      rw [this]
      exact .panicked load_none
    | node t' o' =>
      obtain ⟨b, y, qs, G', rfl, rfl, _, hl', hc', ho'⟩ := hg'.parts
      obtain ⟨d, hd, hldd, hthisd, hlend, _⟩ := load_look hs hl'
      refine .step hldd ?_
      cases g with
      | nil =>
        unfold Holds at hg
        rw [hg.1, Graph.equals]
        · exact .panicked load_none
        · nofun
      | node t o =>
        obtain ⟨a, x, ps, F', rfl, rfl, _, hl, hc, ho⟩ := hg.parts
        obtain ⟨c, hcn, hld, hthis, hlen, _⟩ := load_look hs hl
        refine .step hld ?_
        rw [Graph.equals, hthis, hthisd, hvalEq_contents hE hc' hc]
        refine .bind .lift_eq fun r r' e => ?_
        subst e
        cases r with
        | false => exact .pure rfl
        | true =>
          simp only [Bool.not_true, Bool.false_eq_true, ↓reduceIte]
          rw [hlen, hlend, ← ho.length, ← ho'.length]
          by_cases he : o.length = o'.length
          · simp only [ne_eq, he, not_true_eq_false, bne_self_eq_false, Bool.false_eq_true, ↓reduceIte]
            rw [← he]
            refine pairwise_reads (P := fun g => g.height < f) hs hl hcn hl' hd (fun g g' p q F G hP h1 h2 => equals_reads hE f hs hP h1 h2) o o' ps qs F' G' 0 he (fun g hm => ?_) rfl rfl ho ho'
            rw [height_node] at hf
            have := height_mem hm
            omega
          · simp only [ne_eq, he, not_false_eq_true, ↓reduceIte, bne_iff_ne]
            exact .pure rfl

end Ogdl
