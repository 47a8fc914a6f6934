import Verif.Lemmas.Read
import Verif.Lemmas.Tidy

/-!
# Every question about a graph
-/

namespace Ogdl
open Spec HM

variable {E : Ext} {grow : Nat → Nat → Nat} {fuel : Nat}

/-! ## Questions change nothing -/

/-- Memory is unchanged, whatever the outcome. -/
def Reading (m : HM α) : Prop := ∀ h, (m.run h).2 = h

namespace Reading

theorem read {f : Heap → Res α} : Reading (HM.read f) := fun _ => rfl

theorem pure {a : α} : Reading (Pure.pure a : HM α) := fun _ => rfl

theorem bind {m : HM α} {f : α → HM β} (hm : Reading m) (hf : ∀ a, Reading (f a)) : Reading (m >>= f) := by
  intro h
  show ((HM.bind m f).run h).2 = h
  unfold HM.bind
  dsimp only
  have hm := hm h
  rcases hr : m.run h with ⟨r, h'⟩
  rw [hr] at hm
  subst hm
  cases r with
  | ok a => exact hf a h'
  | panic => rfl
  | oof => rfl

theorem ite {c : Prop} [Decidable c] {m n : HM α} (hm : Reading m) (hn : Reading n) : Reading (if c then m else n) := by
  by_cases h : c
  · rw [if_pos h]; exact hm
  · rw [if_neg h]; exact hn

theorem string : ∀ (f : Nat) (v : HVal), Reading (hstring E f v)
  | _, .val v => by unfold hstring; exact pure
  | _, .ptr none => by unfold hstring; exact pure
  | 0, .ptr (some _) => by unfold hstring; exact read
  | f + 1, .ptr (some a) => by
    unfold hstring
    exact bind read fun c => ite pure (bind read fun n => bind read fun c => string f c.this)

theorem interface {p : Ptr} : Reading (hInterface p) := by
  unfold hInterface
  split
  · exact pure
  · exact bind read fun _ => ite pure (bind read fun _ => bind read fun _ => pure)

theorem stringDef {p : Ptr} {d : Option Bytes} : Reading (hStringDef E fuel p d) := by
  unfold hStringDef
  split
  · exact pure
  · exact bind interface fun _ => string _ _

theorem thisString {p : Ptr} {d : Option Bytes} : Reading (hThisString E fuel p d) := by
  unfold hThisString
  split
  · exact pure
  · exact bind read fun _ => string _ _

theorem bytes {v : HVal} : Reading (hbytes E fuel v) := by
  unfold hbytes
  split
  · exact pure
  · exact thisString

theorem texts {s : Slice} : ∀ k i, Reading (hTexts E fuel s k i)
  | 0, _ => pure
  | k + 1, i => by
    unfold hTexts
    exact bind read fun _ => bind read fun _ => bind (string _ _) fun _ => bind (texts k (i + 1)) fun _ => pure

theorem intf {v : HVal} : Reading (hintf E v) := by
  unfold hintf
  split
  · exact read
  · refine bind read fun c => ?_
    split <;> exact pure

theorem floatf {v : HVal} : Reading (hfloatf E fuel v) := by
  unfold hfloatf
  split
  · exact pure
  · exact bind (string _ _) fun _ => pure

theorem boolf {v : HVal} : Reading (hboolf v) := by
  unfold hboolf
  split
  · exact pure
  · exact pure
  · refine bind read fun c => ?_
    split <;> exact pure

theorem number {v : HVal} : Reading (hnumber E fuel v) := by
  unfold hnumber
  split
  · exact read
  · exact bind (string _ _) fun _ => read

theorem scalar {v : HVal} : Reading (hscalar E fuel v) := by
  unfold hscalar
  refine bind number fun n => ?_
  split
  · refine bind boolf fun b => ?_
    split <;> exact pure
  · exact pure

theorem orFirst {p : Ptr} {v : HVal} : Reading (hOrFirst p v) := by
  unfold hOrFirst
  split
  · exact bind read fun _ => ite (bind read fun _ => bind read fun _ => pure) pure
  · exact pure

theorem ask (q : Query) (p : Ptr) : Reading (q.ask E fuel p) := by
  cases q with
  | len =>
    refine bind ?_ fun _ => pure
    unfold hLen
    split
    · exact pure
    · exact bind read fun _ => pure
  | interface => exact bind interface fun _ => pure
  | string d => exact bind stringDef fun _ => pure
  | thisString d => exact bind thisString fun _ => pure
  | strings =>
    refine bind ?_ fun _ => pure
    unfold hStrings
    split
    · exact pure
    · exact bind read fun _ => texts _ _
  | stringCSV d =>
    refine bind ?_ fun _ => pure
    unfold hStringCSV
    split
    · exact pure
    · exact bind read fun _ => bind (texts _ _) fun _ => ite read pure
  | stringTxt d =>
    refine bind ?_ fun _ => pure
    unfold hStringTxt
    split
    · exact pure
    · exact bind read fun _ => ite pure (bind (texts _ _) fun _ => pure)
  | bytes => exact bind (bind interface fun _ => bytes) fun _ => pure
  | thisBytes => exact bind (bind read fun _ => bytes) fun _ => pure
  | int64 d =>
    refine bind (bind interface fun _ => bind intf fun r => ?_) fun _ => pure
    split <;> exact pure
  | thisInt64 => exact bind (bind read fun _ => intf) fun _ => pure
  | float64 d =>
    refine bind (bind stringDef fun _ => ?_) fun _ => pure
    split <;> exact pure
  | thisFloat64 => exact bind (bind read fun _ => floatf) fun _ => pure
  | boolean d =>
    refine bind (bind stringDef fun _ => ?_) fun _ => pure
    split <;> exact pure
  | number => exact bind (bind interface fun _ => number) fun _ => pure
  | thisNumber => exact bind (bind read fun _ => number) fun _ => pure
  | scalar => exact bind (bind interface fun _ => bind orFirst fun _ => scalar) fun _ => pure
  | thisScalar => exact bind (bind read fun _ => bind orFirst fun _ => scalar) fun _ => pure

theorem pairwise {f : Ptr → Ptr → HM Bool} {x y : Slice} (hf : ∀ p q, Reading (f p q)) : ∀ k i, Reading (hPairwise f x y k i)
  | 0, _ => pure
  | k + 1, i => by
    unfold hPairwise
    exact bind read fun p => bind read fun q => bind (hf p q) fun b => ite (pairwise hf k (i + 1)) pure

theorem equals : ∀ (f : Nat) (p q : Ptr), Reading (hEquals E f p q)
  | 0, _, _ => read
  | f + 1, p, q => by
    unfold hEquals
    exact bind read fun _ => bind read fun _ => bind read fun _ => ite (ite pure (pairwise (fun p q => equals f p q) _ _)) pure

end Reading

/-! ## Answers -/

theorem outcome {m : HM α} {h : Heap} {r : Res β} {Q : α → β → Prop} (hm : ReadsAs m h r Q) (hr : r ≠ .oof) {F : α → Reply HVal} {G : β → Reply Val}
    (hq : ∀ a b, r = .ok b → Q a b → SameReply (F a) (G b)) : SameOutcome ((do pure (F (← m)) : HM (Reply HVal)).run h).1 (r >>= fun b => .ok (G b)) := by
  cases r with
  | oof => exact absurd rfl hr
  | panic =>
    obtain ⟨h', hp⟩ := hm
    have := panic_bind' (f := fun a => (pure (F a) : HM (Reply HVal))) hp
    show SameOutcome (HM.run (m >>= fun a => pure (F a)) h).1 _
    rw [this]
    exact .panic
  | ok b =>
    obtain ⟨a, h', ha, rfl, hab⟩ := hm
    have := ok_bind' (f := fun a => (pure (F a) : HM (Reply HVal))) ha
    show SameOutcome (HM.run (m >>= fun a => pure (F a)) _).1 _
    rw [this]
    exact .ok (hq a b rfl hab)

theorem vintf_ne_oof' (v : Val) : vintf E v ≠ .oof := by
  unfold vintf
  split <;> nofun

theorem mapM_texts_ne_oof (o : List Graph) : o.mapM (textOf E) ≠ .oof :=
  mapM_ne_oof (fun g => by cases g <;> nofun) o

theorem stringDef_reads {h : Heap} (hs : Solid h) {g : Graph} {p : Ptr} {F : List Nat} (hg : Holds h g p F) (d : Option Bytes) :
    ReadsAs (hStringDef E fuel p d) h (g.string E d) Eq := by
  have hi := interface_reads hs hg
  cases g with
  | nil =>
    unfold Holds at hg
    obtain ⟨rfl, rfl⟩ := hg
    exact .pure rfl
  | node t o =>
    obtain ⟨a, x, ps, F', rfl, rfl, _⟩ := hg.parts
    exact .bind hi fun x v hc => string_reads hc

theorem string_ne_oof' (g : Graph) (d : Option Bytes) : g.string E d ≠ .oof := by
  unfold Graph.string
  split
  · nofun
  · exact Res.bind_ne_oof (interface_ne_oof) fun _ => nofun

/-- A question about the content of the node itself. -/
theorem this_reads {h : Heap} (hs : Solid h) {g : Graph} {p : Ptr} {F : List Nat} (hg : Holds h g p F) {f : HVal → HM α} {r : Graph → Res β} {k : Val → Res β}
    {Q : α → β → Prop} (h0 : r .nil = .panic) (h1 : ∀ t o, r (.node t o) = k t) (hf : ∀ x v, Content x v → ReadsAs (f x) h (k v) Q) :
    ReadsAs (do let c ← HM.load p; f c.this) h (r g) Q := by
  cases g with
  | nil =>
    unfold Holds at hg
    rw [hg.1, h0]
    exact .panicked load_none
  | node t o =>
    obtain ⟨a, x, ps, F', rfl, rfl, _, hl, hc, _⟩ := hg.parts
    obtain ⟨c, hc', hld, hthis, hlen, _⟩ := load_look hs hl
    rw [h1]
    refine .step hld ?_
    rw [hthis]
    exact hf x t hc

/-- A nil content is that of the first subnode, unless the slice is empty and not nil. -/
theorem orFirst_reads {h : Heap} (hs : Solid h) {a : Nat} {t : Val} {o : List Graph} {F : List Nat} (hg : Holds h (.node t o) (some a) F)
    (ht : ∀ c, h.nodes[a]? = some c → TidyS c.out) {x : HVal} {v : Val} (hc : Content x v) :
    ReadsAs (hOrFirst (some a) x) h (match v with | .nil => (Graph.node t o).interface | v => .ok v) Content := by
  by_cases hv : v = .nil
  · subst hv
    cases hc with
    | val _ =>
      obtain ⟨a', y, ps, F', e, rfl, _, hl, hc, ho⟩ := hg.parts
      cases e
      obtain ⟨c, hc', hld, hthis, hlen, _⟩ := load_look hs hl
      unfold hOrFirst
      refine .step hld ?_
      cases o with
      | nil =>
        unfold HoldsL at ho
        rw [ho.1] at hlen
        rw [ht c hc' hlen]
        exact .pure (.val nofun)
      | cons g gs =>
        have hi := interface_reads hs hg
        unfold HoldsL at ho
        obtain ⟨p, ps', F1, F2, rfl, rfl, hd, hg1, hr⟩ := ho
        have hsome : c.out.arr.isSome = true := by
          have hcap := hs.cap a c hc'
          cases ha : c.out.arr with
          | some k => rfl
          | none =>
            unfold Heap.array at hcap
            rw [ha] at hcap
            simp only [List.length_nil] at hcap
            rw [List.length_cons] at hlen
            omega
        unfold hInterface at hi
        have hi2 := hi
        rw [hsome]
        simp only [↓reduceIte]
        refine .step (index_look hs hl hc' (i := 0) (p := p) rfl) ?_
        cases g with
        | nil =>
          unfold Holds at hg1
          rw [hg1.1]
          exact .panicked load_none
        | node t1 o1 =>
          obtain ⟨m, x1, pm, Fm, rfl, rfl, hmF, hlm, hcx, hom⟩ := hg1.parts
          obtain ⟨cm, hcm, hldm, hthism, _, _⟩ := load_look hs hlm
          refine .step hldm ?_
          rw [hthism]
          exact .pure hcx
  · have h1 : hOrFirst (some a) x = Pure.pure x := by
      unfold hOrFirst
      cases hc with
      | val _ => cases v <;> first | rfl | exact absurd rfl hv
      | nil => rfl
    rw [h1]
    cases v <;> first | exact absurd rfl hv | exact .pure hc

theorem scalar_holds {h : Heap} (hs : Solid h) {g : Graph} {p : Ptr} {F : List Nat} (hg : Holds h g p F)
    (ht : ∀ a c, p = some a → h.nodes[a]? = some c → TidyS c.out) : ReadsAs (hScalar E fuel p) h (g.scalar E) Content := by
  have hi := interface_reads hs hg
  cases g with
  | nil =>
    unfold Holds at hg
    obtain ⟨rfl, rfl⟩ := hg
    exact .step (a := .val .nil) rfl (.panicked (panic_bind' load_none))
  | node t o =>
    obtain ⟨a, x, ps, F', rfl, rfl, _⟩ := hg.parts
    unfold hScalar Graph.scalar
    dsimp only
    cases hv : (Graph.node t o).interface with
    | oof => exact absurd hv (interface_ne_oof)
    | panic =>
      rw [hv] at hi
      obtain ⟨h', hp⟩ := hi
      exact .panicked hp
    | ok v =>
      rw [hv] at hi
      obtain ⟨y, h', hp, rfl, hc⟩ := hi
      refine .step hp ?_
      have h2 := orFirst_reads hs hg (fun c hc => ht a c rfl hc) hc
      have : (match v with | .nil => (Graph.node t o).interface | v => .ok v) = .ok v := by
        split
        · exact hv
        · rfl
      rw [this] at h2
      exact .bind h2 fun z w hzw => scalar_reads hzw

theorem thisScalar_holds {h : Heap} (hs : Solid h) {g : Graph} {p : Ptr} {F : List Nat} (hg : Holds h g p F)
    (ht : ∀ a c, p = some a → h.nodes[a]? = some c → TidyS c.out) : ReadsAs (hThisScalar E fuel p) h (g.thisScalar E) Content := by
  cases g with
  | nil =>
    unfold Holds at hg
    rw [hg.1]
    exact .panicked load_none
  | node t o =>
    obtain ⟨a, x, ps, F', rfl, rfl, _, hl, hc, _⟩ := hg.parts
    obtain ⟨c, hc', hld, hthis, hlen, _⟩ := load_look hs hl
    unfold hThisScalar
    refine .step hld ?_
    rw [hthis]
    have h2 := orFirst_reads hs hg (fun c hc => ht a c rfl hc) hc
    have : ∀ t, (Graph.node t o).thisScalar E = (match t with | .nil => (Graph.node t o).interface | v => .ok v) >>= scalarOf E := by
      intro t
      cases t with
      | nil => cases o with
        | nil => rfl
        | cons g gs => cases g <;> rfl
      | _ => rfl
    rw [this]
    exact .bind h2 fun z w hzw => scalar_reads hzw

theorem number_val {g : Graph} {b : Val} (h : g.number E = .ok b) : Content (.val b) b := by
  unfold Graph.number at h
  cases hi : g.interface with
  | ok v => rw [hi] at h; exact number_content h
  | panic => rw [hi] at h; cases h
  | oof => rw [hi] at h; cases h

/-- Every question about a tree held in memory gets the answer for the tree. -/
theorem ask_holds {h : Heap} (hs : Solid h) {g : Graph} {p : Ptr} {F : List Nat} (hg : Holds h g p F) (q : Query)
    (ht : q.Slices → ∀ a c, p = some a → h.nodes[a]? = some c → TidyS c.out) : SameOutcome ((q.ask E fuel p).run h).1 (q.tree E g) := by
  have hi := interface_reads hs hg
  have hio := interface_ne_oof (g := g)
  cases q with
  | len =>
    refine outcome (m := hLen p) (r := .ok g.len) (Q := Eq) ?_ nofun (G := .int) fun a b _ e => by subst e; exact .int
    cases g with
    | nil =>
      unfold Holds at hg
      rw [hg.1]
      exact .pure rfl
    | node t o =>
      obtain ⟨a, x, ps, F', rfl, rfl, _, hl, hc, ho⟩ := hg.parts
      obtain ⟨c, hc', hld, hthis, hlen, _⟩ := load_look hs hl
      unfold hLen
      refine .step hld ?_
      rw [hlen, ← ho.length]
      exact .pure rfl
  | interface => exact outcome hi hio fun a b _ e => .content e
  | string d => exact outcome (stringDef_reads hs hg d) (string_ne_oof' g d) fun a b _ e => by subst e; exact .text
  | thisString d =>
    cases g with
    | nil =>
      unfold Holds at hg
      rw [hg.1]
      exact .ok .text
    | node t o =>
      obtain ⟨a, x, ps, F', rfl, rfl, _, hl, hc, ho⟩ := hg.parts
      obtain ⟨c, hc', hld, hthis, hlen, _⟩ := load_look hs hl
      refine outcome (m := hThisString E fuel (some a) d) (r := .ok (vstr E t)) (Q := Eq) ?_ nofun (G := .text) fun a b _ e => by subst e; exact .text
      unfold hThisString
      refine .step hld ?_
      rw [hthis]
      exact string_reads hc
  | strings =>
    cases g with
    | nil =>
      unfold Holds at hg
      rw [hg.1]
      exact .ok .texts
    | node t o =>
      obtain ⟨a, x, ps, F', rfl, rfl, _, hl, hc, ho⟩ := hg.parts
      obtain ⟨c, hc', hld, hthis, hlen, _⟩ := load_look hs hl
      refine outcome (m := hStrings E fuel (some a)) (Q := Eq) ?_ (strings_texts t o ▸ mapM_texts_ne_oof o) fun a b _ e => by subst e; exact .texts
      unfold hStrings
      refine .step hld ?_
      rw [strings_texts, hlen, ← ho.length]
      exact texts_reads hs hl hc' o ps F' 0 rfl ho
  | stringCSV d =>
    cases g with
    | nil =>
      unfold Holds at hg
      rw [hg.1]
      exact .ok .text
    | node t o =>
      obtain ⟨a, x, ps, F', rfl, rfl, _, hl, hc, ho⟩ := hg.parts
      obtain ⟨c, hc', hld, hthis, hlen, _⟩ := load_look hs hl
      refine outcome (m := hStringCSV E fuel (some a) d) (Q := Eq) ?_ ?_ fun a b _ e => by subst e; exact .text
      · unfold hStringCSV Graph.stringCSV
        refine .step hld ?_
        dsimp only
        rw [strings_texts, hlen, ← ho.length]
        refine .bind (texts_reads hs hl hc' o ps F' 0 rfl ho) fun l l' e => ?_
        subst e
        split
        · exact ⟨h, rfl⟩
        · exact .pure rfl
      · unfold Graph.stringCSV
        dsimp only
        rw [strings_texts]
        refine Res.bind_ne_oof (mapM_texts_ne_oof o) fun l => ?_
        split <;> nofun
  | stringTxt d =>
    cases g with
    | nil =>
      unfold Holds at hg
      rw [hg.1]
      exact .ok .text
    | node t o =>
      obtain ⟨a, x, ps, F', rfl, rfl, _, hl, hc, ho⟩ := hg.parts
      obtain ⟨c, hc', hld, hthis, hlen, _⟩ := load_look hs hl
      cases o with
      | nil =>
        refine outcome (m := hStringTxt E fuel (some a) d) (r := .ok []) (Q := Eq) ?_ nofun (G := .text) fun a b _ e => by subst e; exact .text
        unfold hStringTxt
        refine .step hld ?_
        rw [hlen, ← ho.length]
        exact .pure rfl
      | cons g gs =>
        refine outcome (m := hStringTxt E fuel (some a) d) (Q := Eq) ?_ ?_ fun a b _ e => by subst e; exact .text
        · unfold hStringTxt Graph.stringTxt
          refine .step hld ?_
          dsimp only
          rw [strings_texts, hlen, ← ho.length]
          simp only [List.length_cons, Nat.add_eq_zero_iff, Nat.succ_ne_self, and_false, ↓reduceIte]
          refine .bind (texts_reads hs hl hc' (g :: gs) ps F' 0 rfl ho) fun l l' e => ?_
          subst e
          exact .pure rfl
        · unfold Graph.stringTxt
          dsimp only
          rw [strings_texts]
          exact Res.bind_ne_oof (mapM_texts_ne_oof _) fun l => nofun
  | bytes => exact outcome (m := hBytes E fuel p) (.bind hi fun x v hc => bytes_reads hc) (Res.bind_ne_oof hio fun _ => nofun) fun a b _ e => by subst e; exact .text
  | thisBytes =>
    exact outcome (m := hThisBytes E fuel p) (this_reads hs hg (r := Graph.thisBytes E) rfl (fun _ _ => rfl) fun x v hc => bytes_reads hc) (by cases g <;> nofun)
      fun a b _ e => by subst e; exact .text
  | int64 d =>
    refine outcome (m := hInt64 E p d) (r := g.int64 E d) (Q := Eq) (.bind hi fun x v hc => .bind (intf_reads hc) fun r r' e => ?_)
      (Res.bind_ne_oof hio fun v => Res.bind_ne_oof (vintf_ne_oof' v) fun r => ?_) fun a b _ e => by subst e; exact .int
    · subst e
      cases r <;> exact .pure rfl
    · cases r <;> nofun
  | thisInt64 =>
    refine outcome (m := hThisInt64 E p) (this_reads hs hg (r := Graph.thisInt64 E) rfl (fun _ _ => rfl) fun x v hc => intf_reads hc) ?_
      fun a b _ e => by subst e; exact .maybeInt
    cases g with
    | nil => nofun
    | node t o => exact vintf_ne_oof' t
  | float64 d =>
    refine outcome (m := hFloat64 E fuel p d) (r := g.float64 E d) (Q := Eq) (.bind (stringDef_reads hs hg none) fun s s' e => ?_)
      (Res.bind_ne_oof (string_ne_oof' g none) fun s => ?_) fun a b _ e => by subst e; exact .float
    · subst e
      cases vfloatf E (.str s) <;> exact .pure rfl
    · cases vfloatf E (.str s) <;> nofun
  | thisFloat64 =>
    exact outcome (m := hThisFloat64 E fuel p) (this_reads hs hg (r := Graph.thisFloat64 E) rfl (fun _ _ => rfl) fun x v hc => floatf_reads hc) (by cases g <;> nofun)
      fun a b _ e => by subst e; exact .maybeFloat
  | boolean d =>
    refine outcome (m := hBool E fuel p d) (r := g.boolean E d) (Q := Eq) (.bind (stringDef_reads hs hg none) fun s s' e => ?_)
      (Res.bind_ne_oof (string_ne_oof' g none) fun s => ?_) fun a b _ e => by subst e; exact .bool
    · subst e
      rcases hb : vboolf (.str s) with ⟨b, _ | _⟩ <;> exact .pure rfl
    · rcases hb : vboolf (.str s) with ⟨b, _ | _⟩ <;> nofun
  | number =>
    exact outcome (m := hNumber E fuel p) (r := g.number E) (Q := Eq) (.bind hi fun x v hc => number_reads hc)
      (Res.bind_ne_oof hio fun v => number_ne_oof v) fun a b hb e => by subst e; exact .content (number_val hb)
  | thisNumber =>
    refine outcome (m := hThisNumber E fuel p) (this_reads hs hg (r := Graph.thisNumber E) rfl (fun _ _ => rfl) fun x v hc => number_reads hc) ?_
      fun a b hb e => ?_
    · cases g with
      | nil => nofun
      | node t o => exact number_ne_oof t
    · subst e
      cases g with
      | nil => cases hb
      | node t o => exact .content (number_content hb)
  | scalar =>
    refine outcome (m := hScalar E fuel p) (scalar_holds hs hg (ht trivial)) ?_ fun a b _ e => .content e
    cases g with
    | nil => nofun
    | node t o => exact Res.bind_ne_oof hio fun v => scalar_ne_oof v
  | thisScalar => exact outcome (m := hThisScalar E fuel p) (thisScalar_holds hs hg (ht trivial)) thisScalar_ne_oof fun a b _ e => .content e

end Ogdl
