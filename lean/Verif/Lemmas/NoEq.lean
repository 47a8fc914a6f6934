import Verif.Lemmas.Parsed
import Verif.Spec.Calc
import Verif.Lemmas.Calc

/-! Expressions whose text has no `=` have no assignments. -/

namespace Ogdl
open Lex Spec

/-- Not `=`. -/
def NotEq (c : UInt8) : Prop := c ≠ 61
/-- A text without `=`. -/
def StrNoEq (v : Val) : Prop := ∃ b : Bytes, v = .str b ∧ 61 ∉ b
def NoEqO (o : Option Bytes) : Prop := ∀ b, o = some b → (61 : UInt8) ∉ b

theorem PutsQ.any {α : Type} {B : UInt8 → Prop} {P : Val → Prop} {Q : α → Prop} {x : Prog α} (h : PutsQ P Q x) : PutsB B P Q x := by
  induction x with
  | ret a => exact h
  | byte k ih => exact fun c _ => ih c (h c fun _ _ => trivial)
  | unread k ih => exact ih h
  | rune k ih => exact fun r => ih r (h r)
  | unreadRune k ih => exact ih h
  | getEv k ih => exact fun e he => ih e (h e he)
  | setEv e k ih => exact ⟨h.1, ih h.2⟩
  | oof => trivial

theorem Puts.any {α : Type} {B : UInt8 → Prop} {P : Val → Prop} {x : Prog α} (h : Puts P x) : PutsB B P (fun _ => True) x := PutsQ.any h

abbrev NE {α : Type} (Q : α → Prop) (x : Prog α) : Prop := PutsB NotEq StrNoEq Q x

theorem ne_byte0 : NE NotEq byte0 := fun c hc => by
  cases c with
  | none => exact (by decide : (0 : UInt8) ≠ 61)
  | some b => exact hc b rfl

theorem ne_readWhile (p : UInt8 → Bool) : ∀ L, NE (fun b => (61 : UInt8) ∉ b) (readWhile p L)
  | 0 => trivial
  | L + 1 => by
    rw [readWhile]
    refine PutsB.bind ne_byte0 fun c hc => ?_
    split
    · refine PutsB.bind (ne_readWhile p L) fun r hr => ?_
      show (61 : UInt8) ∉ c :: r
      rw [List.mem_cons]
      rintro (h | h)
      · exact hc h.symm
      · exact hr h
    · exact PutsB.bind (Q := fun _ => True) (Puts.any puts_unread) fun _ _ => List.not_mem_nil

theorem ne_quotedLoop (L ind : Nat) (c1 : UInt8) : ∀ f (buf : Bytes) c2, 61 ∉ buf → NE NoEqO (quotedLoop L ind c1 f buf c2)
  | 0, _, _, _ => trivial
  | f + 1, buf, c2, hb => by
    have ih := ne_quotedLoop L ind c1 f
    have hs : NoEqO (some buf) := fun b h => by cases h; exact hb
    have hno : NoEqO none := nofun
    rw [quotedLoop]
    refine PutsB.bind ne_byte0 fun c hc => ?_
    have h1 : (61 : UInt8) ∉ (if (c2 == 92 && c != 39 && c != 34) = true then buf ++ [92] else buf) ++ [c] := by
      rw [List.mem_append]
      rintro (h | h)
      · split at h
        · rcases List.mem_append.1 h with h | h
          · exact hb h
          · exact absurd (List.mem_singleton.1 h) (by decide)
        · exact hb h
      · exact hc (List.mem_singleton.1 h).symm
    split
    · exact hno
    · split
      · exact hs
      · split
        · exact hs
        · split
          · exact ih _ _ hb
          · dsimp only
            split
            · refine PutsB.bind (Puts.any (puts_spaceMaxLoop _ _ _ _)) fun r _ => ?_
              split
              · exact hno
              · split
                · exact fun b h => by cases h; exact h1
                · exact ih _ _ h1
            · exact ih _ _ h1

theorem ne_quoted (L ind : Nat) : NE NoEqO (quoted L ind) := by
  rw [quoted]
  refine PutsB.bind ne_byte0 fun c _ => ?_
  split
  · exact PutsB.bind (Q := fun _ => True) (Puts.any puts_unread) fun _ _ => nofun
  · exact ne_quotedLoop _ _ _ _ _ _ List.not_mem_nil

theorem encodeRune_noEq (r : Nat) (h : r ≠ 61) : (61 : UInt8) ∉ encodeRune r := by
  have key : ∀ n, 128 ≤ n → n < 256 → (61 : UInt8) ≠ UInt8.ofNat n := by
    intro n h1 h2 e
    have := congrArg UInt8.toNat e
    simp at this
    omega
  unfold encodeRune
  split
  · rw [List.mem_singleton]
    intro e
    have := congrArg UInt8.toNat e
    simp at this
    omega
  · split
    · simp only [List.mem_cons, List.not_mem_nil, or_false]
      rintro (e | e) <;> revert e
      · exact key _ (by omega) (by omega)
      · exact key _ (by omega) (by omega)
    · split
      · decide
      · rename_i h3
        simp only [Bool.or_eq_true, Bool.and_eq_true, decide_eq_true_eq, not_or] at h3
        split
        · simp only [List.mem_cons, List.not_mem_nil, or_false]
          rintro (e | e | e) <;> revert e
          · exact key _ (by omega) (by omega)
          · exact key _ (by omega) (by omega)
          · exact key _ (by omega) (by omega)
        · simp only [List.mem_cons, List.not_mem_nil, or_false]
          rintro (e | e | e | e) <;> revert e
          · exact key _ (by omega) (by omega)
          · exact key _ (by omega) (by omega)
          · exact key _ (by omega) (by omega)
          · exact key _ (by omega) (by omega)

theorem ne_tokenLoop (E : Ext) : ∀ L, NE (fun rs => (61 : Nat) ∉ rs) (tokenLoop E L)
  | 0 => trivial
  | L + 1 => by
    rw [tokenLoop]
    refine PutsB.bind (Q := fun _ => True) (Puts.any puts_rune) fun r _ => ?_
    split
    · rename_i h
      refine PutsB.bind (ne_tokenLoop E L) fun rs hrs => ?_
      show (61 : Nat) ∉ r :: rs
      rw [List.mem_cons]
      rintro (h' | h')
      · subst h'
        simp [isTokenRune, latinLetter, latinDigit] at h
      · exact hrs h'
    · exact PutsB.bind (Q := fun _ => True) (Puts.any puts_unreadRune) fun _ _ => List.not_mem_nil

theorem ne_token8 (E : Ext) (L : Nat) : NE (fun b => (61 : UInt8) ∉ b) (token8 E L) := by
  refine PutsB.bind (ne_tokenLoop E L) fun rs h => ?_
  show (61 : UInt8) ∉ rs.flatMap encodeRune
  rw [List.mem_flatMap]
  rintro ⟨r, hr, h2⟩
  exact encodeRune_noEq r (fun e => h (e ▸ hr)) h2

theorem ne_numberLoop : ∀ L p, NE (fun b => (61 : UInt8) ∉ b) (numberLoop L p)
  | 0, _ => trivial
  | L + 1, p => by
    have hc : ∀ {c : UInt8} {r : Bytes}, NotEq c → 61 ∉ r → (61 : UInt8) ∉ c :: r := by
      intro c r h1 h2
      rw [List.mem_cons]
      rintro (h | h)
      · exact h1 h.symm
      · exact h2 h
    rw [numberLoop]
    refine PutsB.bind ne_byte0 fun c h => ?_
    split
    · exact PutsB.bind (ne_numberLoop L p) fun r hr => hc h hr
    · split
      · exact PutsB.bind (ne_numberLoop L _) fun r hr => hc h hr
      · exact PutsB.bind (Q := fun _ => True) (Puts.any puts_unread) fun _ _ => List.not_mem_nil

theorem ne_number (L : Nat) : NE NoEqO (number L) := by
  have hd : ∀ c : UInt8, NE NoEqO (do
      let buf ← numberLoop L false
      if buf.isEmpty then pure none else pure (some (if c == 45 then 45 :: buf else buf))) := by
    intro c
    refine PutsB.bind (ne_numberLoop L false) fun r hr => ?_
    split
    · exact nofun
    · intro b h
      cases h
      split
      · rw [List.mem_cons]
        rintro (h | h)
        · exact absurd h (by decide)
        · exact hr h
      · exact hr
  rw [number]
  refine PutsB.bind (Puts.any puts_peekByte) fun c _ => ?_
  dsimp only
  split
  · exact PutsB.bind (Puts.any puts_byte0) fun _ _ => hd c
  · exact hd c

theorem ne_evAdd {b : Bytes} (h : 61 ∉ b) : NE (fun _ => True) (evAdd (.str b)) := Puts.any (puts_evAdd ⟨b, rfl, h⟩)

theorem ne_operator (L : Nat) : NE (fun b => (61 : UInt8) ∉ b) (operator L) := ne_readWhile _ L

/-- Decompose a program into its steps. -/
macro "ne_flow" : tactic => `(tactic|
  repeat' first
    | exact Puts.any puts_byte0 | exact Puts.any puts_unread | exact Puts.any puts_peekByte
    | exact Puts.any puts_evInc | exact Puts.any puts_evDec | exact Puts.any puts_evLevel | exact Puts.any (puts_evSetLevel _)
    | exact Puts.any puts_evDelete | exact Puts.any (puts_pure _) | assumption
    | exact Puts.any (puts_space _) | exact Puts.any (puts_whiteSpace _)
    | exact ne_evAdd (by assumption) | exact ne_evAdd (by decide) | exact ne_evAdd (‹NoEqO (some _)› _ rfl)
    | refine PutsB.bind (ne_quoted _ _) (fun _ _ => ?_) | refine PutsB.bind (ne_token8 _ _) (fun _ _ => ?_)
    | refine PutsB.bind (ne_number _) (fun _ _ => ?_) | refine PutsB.bind (ne_operator _) (fun _ _ => ?_)
    | refine PutsB.bind (Q := fun _ => True) ?_ (fun _ _ => ?_) | split)

set_option maxHeartbeats 4000000 in
theorem ne_flow (E : Ext) (L : Nat) : ∀ f,
    (∀ a b c, 61 ∉ c → NE (fun _ => True) (bracket E L a b c f)) ∧ (∀ l s, NE (fun _ => True) (argLoop E L l s f)) ∧
    (∀ d, NE (fun _ => True) (args E L d f)) ∧ NE (fun _ => True) (expression E L f) ∧ NE (fun _ => True) (exprLoop E L f) ∧
    NE (fun _ => True) (unary E L f) ∧ NE (fun _ => True) (path E L f) ∧ (∀ a, NE (fun _ => True) (pathLoop E L a f)) ∧
    (∀ d a, NE (fun _ => True) (pathElem E L d a f))
  | 0 => by
    unfold bracket argLoop args expression exprLoop unary path pathLoop pathElem
    simp [NE, PutsB]
  | f + 1 => by
    obtain ⟨h1, h2, h3, h4, h5, h6, h7, h8, h9⟩ := ne_flow E L f
    refine ⟨?_, ?_, ?_, ?_, ?_, ?_, ?_, ?_, ?_⟩
    · intro a b c hc; rw [bracket]; ne_flow
    · intro l s; rw [argLoop]
      have := h2 l true
      ne_flow
    · intro d; rw [args]
      have h2' := fun l => h2 l false
      have hd : NE (fun _ => True) (evAdd (.str (if d then tyGroup else tyArguments))) := ne_evAdd (by cases d <;> decide)
      repeat' first
        | exact h2' _ | assumption
        | exact Puts.any puts_byte0 | exact Puts.any puts_peekByte
        | exact Puts.any puts_evInc | exact Puts.any puts_evLevel | exact Puts.any (puts_evSetLevel _)
        | exact Puts.any (puts_pure _) 
        | exact Puts.any (puts_whiteSpace _)
        | refine PutsB.bind (Q := fun _ => True) ?_ (fun _ _ => ?_) | split
    · rw [expression]; ne_flow
    · rw [exprLoop]; ne_flow
    · rw [unary]; ne_flow
    · rw [path]; exact h9 _ _
    · intro a; rw [pathLoop]
      have := fun d => h9 d a
      repeat' first
        | exact this _
        | exact Puts.any puts_byte0 | exact Puts.any puts_unread | exact Puts.any (puts_pure _)
        | refine PutsB.bind (Q := fun _ => True) ?_ (fun _ _ => ?_) | split
    · intro d a; rw [pathElem]
      have b1 := h1 91 93 tyIndex (by decide)
      have b2 := h1 123 125 tySelector (by decide)
      have b3 := h3 d
      have b4 := h8 true
      ne_flow


/-! ## The bytes of the buffer -/

/-- All bytes of the buffer, and those still to be read, satisfy `B`. -/
def BufAll (B : UInt8 → Prop) (b : Buf) : Prop := (∀ c ∈ b.buf, B c) ∧ ∀ c ∈ b.rd.data, B c

theorem fillLoop_all {B : UInt8 → Prop} : ∀ (i : Nat) (buf : Bytes) (off : Nat) (rd : Reader), (∀ c ∈ buf, B c) → (∀ c ∈ rd.data, B c) →
    (∀ c ∈ (Buf.fillLoop i buf off rd).1, B c) ∧ ∀ c ∈ (Buf.fillLoop i buf off rd).2.2.data, B c
  | 0, buf, off, rd, h1, h2 => ⟨h1, h2⟩
  | i + 1, buf, off, rd, h1, h2 => by
    have h3 : ∀ c ∈ Buf.write buf off (rd.read (bufSize - off)).1, B c := by
      intro c hc
      simp only [Buf.write, List.mem_append] at hc
      rcases hc with (hc | hc) | hc
      · exact h1 c (List.mem_of_mem_take hc)
      · exact h2 c (List.mem_of_mem_take hc)
      · exact h1 c (List.mem_of_mem_drop hc)
    have h4 : ∀ c ∈ (rd.read (bufSize - off)).2.2.data, B c := fun c hc => h2 c (List.mem_of_mem_drop hc)
    rw [Buf.fillLoop]
    dsimp only
    split
    · exact ⟨h3, h4⟩
    · split
      · exact ⟨h3, h4⟩
      · exact fillLoop_all i _ _ _ h3 h4

theorem fill_all {B : UInt8 → Prop} {b : Buf} (h : BufAll B b) : BufAll B b.fill := by
  unfold Buf.fill
  split
  · exact h
  · refine fillLoop_all 100 _ _ _ ?_ h.2
    intro c hc
    rcases List.mem_append.1 hc with hc | hc <;> exact h.1 c (List.mem_of_mem_drop hc)

theorem start_all {B : UInt8 → Prop} (h0 : B 0) {rd : Reader} (h : ∀ c ∈ rd.data, B c) : BufAll B (Buf.start rd) :=
  fillLoop_all 100 _ _ _ (fun c hc => by rw [List.eq_of_mem_replicate hc]; exact h0) h

theorem PutsB.buf {α : Type} {B : UInt8 → Prop} {P : Val → Prop} {Q : α → Prop} {x : Prog α} {rd : Reader} {a : α} {b : Buf} {e : Ev}
    (hx : PutsB B P Q x) (h0 : B 0) (hd : ∀ c ∈ rd.data, B c) (h : x.run bufM (Buf.start rd) {} = .ok (a, b, e)) : ∀ it ∈ e.items, P it.2 := by
  refine PutsB.run bufM (BufAll B) ?_ ?_ ?_ ?_ x _ {} a b e hx (start_all h0 hd) nofun h
  · intro s c s' hs hb
    change s.byte = _ at hb
    unfold Buf.byte at hb
    split at hb
    · cases hb; exact ⟨hs, nofun⟩
    · split at hb
      · cases hb
      · rename_i c1 hc1
        cases hb
        refine ⟨fill_all hs, fun b hb => ?_⟩
        cases hb
        exact hs.1 _ (List.mem_of_getElem? hc1)
  · intro s r s' hs hb
    change s.rune = _ at hb
    have hf := fill_all hs
    unfold Buf.rune at hb
    dsimp only at hb
    split at hb
    · cases hb
    · split at hb
      · cases hb; exact hf
      · split at hb
        · cases hb
        · cases hb; exact hf
  · exact fun s hs => hs
  · intro s hs
    show BufAll B s.unreadRune
    unfold Buf.unreadRune
    split
    · exact hs
    · exact hs

theorem runParser_noEq {α : Type} {x : Prog α} {s : Bytes} {g : Graph} (hx : NE (fun _ => True) x) (hs : 61 ∉ s) (h : runParser x s = .ok g) :
    PlainG StrNoEq g := by
  unfold runParser at h
  obtain ⟨⟨a, b, e⟩, h1, h2⟩ := res_bind_ok h
  exact tree_plain ⟨_, rfl, by decide⟩ (PutsB.buf hx (show NotEq 0 from (by decide : (0 : UInt8) ≠ 61)) (fun c hc e => hs (e ▸ hc)) h1) h2

variable {E : Ext}

theorem noAssignment_of_noEq {g : Graph} (h : PlainG StrNoEq g) : NoAssignment E g := by
  have key : ∀ v, StrNoEq v → vstr E v ∉ assignments := by
    rintro v ⟨b, rfl, hb⟩
    show b ∉ assignments
    simp only [assignments, List.mem_cons, List.not_mem_nil, or_false, not_or]
    refine ⟨?_, ?_, ?_, ?_, ?_, ?_⟩ <;> (intro e; rw [e] at hb; exact hb (by decide))
  have h1 := (plainG_noNil h).2
  clear h
  unfold NoAssignment
  revert h1
  exact allThis_imp key g

theorem newExpression_noEq {s : Bytes} {e : Graph} (hs : 61 ∉ s) (h : newExpression E s = .ok e) : NoAssignment E e := by
  unfold newExpression at h
  obtain ⟨g1, h1, h2⟩ := res_bind_ok h
  have h3 := runParser_noEq (ne_flow E _ _).2.2.2.1 hs h1
  split at h2
  · cases h2
  · exact noAssignment_of_noEq (astBody_plain ⟨⟨_, rfl, by decide⟩, h3.2⟩ h2)

theorem newPath_noEq {s : Bytes} {p : Graph} (hs : 61 ∉ s) (h : newPath E s = .ok p) : NoAssignment E p := by
  unfold newPath newPathFuel at h
  obtain ⟨g1, h1, h2⟩ := res_bind_ok h
  cases h2
  exact noAssignment_of_noEq (plainG_setThis (runParser_noEq (ne_flow E _ _).2.2.2.2.2.2.1 hs h1) ⟨_, rfl, by decide⟩)

end Ogdl
