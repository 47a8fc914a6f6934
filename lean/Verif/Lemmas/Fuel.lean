import Verif.Model.Flow
import Verif.Lemmas.Prog

/-! More fuel does not change a result. -/

namespace Ogdl
open Lex

/-- `y` does what `x` does wherever `x` does not run out of fuel. -/
def Prog.Le {α : Type} : Prog α → Prog α → Prop
  | .oof, _ => True
  | .ret a, y => y = .ret a
  | .byte k, y => ∃ k', y = .byte k' ∧ ∀ c, Le (k c) (k' c)
  | .unread k, y => ∃ k', y = .unread k' ∧ Le k k'
  | .rune k, y => ∃ k', y = .rune k' ∧ ∀ c, Le (k c) (k' c)
  | .unreadRune k, y => ∃ k', y = .unreadRune k' ∧ Le k k'
  | .getEv k, y => ∃ k', y = .getEv k' ∧ ∀ c, Le (k c) (k' c)
  | .setEv e k, y => ∃ k', y = .setEv e k' ∧ Le k k'

namespace Prog.Le

theorem refl {α : Type} (x : Prog α) : x.Le x := by
  induction x with
  | ret a => rfl
  | byte k ih => exact ⟨k, rfl, ih⟩
  | unread k ih => exact ⟨k, rfl, ih⟩
  | rune k ih => exact ⟨k, rfl, ih⟩
  | unreadRune k ih => exact ⟨k, rfl, ih⟩
  | getEv k ih => exact ⟨k, rfl, ih⟩
  | setEv e k ih => exact ⟨k, rfl, ih⟩
  | oof => trivial

theorem bind {α β : Type} {x y : Prog α} {f g : α → Prog β} (h : x.Le y) (hf : ∀ a, (f a).Le (g a)) :
    (x >>= f).Le (y >>= g) := by
  show (Prog.bind x f).Le (Prog.bind y g)
  induction x generalizing y with
  | ret a => rw [h]; exact hf a
  | byte k ih => obtain ⟨k', rfl, h⟩ := h; exact ⟨_, rfl, fun c => ih c (h c)⟩
  | unread k ih => obtain ⟨k', rfl, h⟩ := h; exact ⟨_, rfl, ih h⟩
  | rune k ih => obtain ⟨k', rfl, h⟩ := h; exact ⟨_, rfl, fun c => ih c (h c)⟩
  | unreadRune k ih => obtain ⟨k', rfl, h⟩ := h; exact ⟨_, rfl, ih h⟩
  | getEv k ih => obtain ⟨k', rfl, h⟩ := h; exact ⟨_, rfl, fun c => ih c (h c)⟩
  | setEv e k ih => obtain ⟨k', rfl, h⟩ := h; exact ⟨_, rfl, ih h⟩
  | oof => trivial

theorem ite {α : Type} {c : Prop} [Decidable c] {x x' y y' : Prog α} (h : x.Le x') (h' : y.Le y') :
    (if c then x else y).Le (if c then x' else y') := by
  split <;> assumption

theorem run {σ α : Type} {M : Machine σ} {x y : Prog α} (h : x.Le y) : ∀ (s : σ) (e : Ev),
    x.run M s e ≠ .oof → y.run M s e = x.run M s e := by
  induction x generalizing y with
  | ret a => intro s e _; rw [h]
  | byte k ih =>
    obtain ⟨k', rfl, h⟩ := h
    intro s e hne
    simp only [Prog.run] at hne ⊢
    split
    · rename_i heq; rw [heq] at hne; exact ih _ (h _) _ _ hne
    · rfl
    · rfl
  | unread k ih => obtain ⟨k', rfl, h⟩ := h; exact fun s e hne => ih h _ _ hne
  | rune k ih =>
    obtain ⟨k', rfl, h⟩ := h
    intro s e hne
    simp only [Prog.run] at hne ⊢
    split
    · rename_i heq; rw [heq] at hne; exact ih _ (h _) _ _ hne
    · rfl
    · rfl
  | unreadRune k ih => obtain ⟨k', rfl, h⟩ := h; exact fun s e hne => ih h _ _ hne
  | getEv k ih => obtain ⟨k', rfl, h⟩ := h; exact fun s e hne => ih _ (h e) _ _ hne
  | setEv e k ih => obtain ⟨k', rfl, h⟩ := h; exact fun s _ hne => ih h _ _ hne
  | oof => intro s e hne; exact (hne rfl).elim

end Prog.Le

open Prog

theorem readWhile_le (p : UInt8 → Bool) : ∀ {f g : Nat}, f ≤ g → (readWhile p f).Le (readWhile p g)
  | 0, _, _ => trivial
  | f + 1, 0, h => by omega
  | f + 1, g + 1, h => by
    have ih := readWhile_le p (Nat.le_of_succ_le_succ h)
    simp only [readWhile]
    exact Le.bind (Le.refl _) fun c => Le.ite (Le.bind ih fun _ => Le.refl _) (Le.refl _)

section
variable {L M : Nat} (hLM : L ≤ M)
include hLM

theorem str_le : (str L).Le (str M) := readWhile_le _ hLM
theorem space_le : (space L).Le (space M) := Le.bind (readWhile_le _ hLM) fun _ => Le.refl _
theorem whiteSpace_le : (whiteSpace L).Le (whiteSpace M) := Le.bind (readWhile_le _ hLM) fun _ => Le.refl _
end

theorem spaceMaxLoop_le (max : Nat) : ∀ {f g : Nat} (a b : Nat), f ≤ g →
    (spaceMaxLoop max f a b).Le (spaceMaxLoop max g a b)
  | 0, _, _, _, _ => trivial
  | f + 1, 0, _, _, h => by omega
  | f + 1, g + 1, a, b, h => by
    simp only [spaceMaxLoop]
    exact Le.bind (Le.refl _) fun c => Le.ite (Le.refl _) (Le.ite (Le.refl _)
      (spaceMaxLoop_le max _ _ (Nat.le_of_succ_le_succ h)))

theorem quotedLoop_le {L M : Nat} (hLM : L ≤ M) (ind : Nat) (c1 : UInt8) : ∀ {f g : Nat} (buf : Bytes) (c2 : UInt8), f ≤ g →
    (quotedLoop L ind c1 f buf c2).Le (quotedLoop M ind c1 g buf c2)
  | 0, _, _, _, _ => trivial
  | f + 1, 0, _, _, h => by omega
  | f + 1, g + 1, buf, c2, h => by
    have ih := fun buf c2 => quotedLoop_le hLM ind c1 (f := f) (g := g) buf c2 (Nat.le_of_succ_le_succ h)
    simp only [quotedLoop]
    exact Le.bind (Le.refl _) fun c => Le.ite (Le.refl _) <| Le.ite (Le.refl _) <| Le.ite (Le.refl _) <|
      Le.ite (ih _ _) <| Le.ite
        (Le.bind (spaceMaxLoop_le ind 0 0 hLM) fun a => Le.ite (Le.refl _) <| Le.ite (Le.refl _) (ih _ _)) (ih _ _)

theorem quoted_le {L M : Nat} (hLM : L ≤ M) (ind : Nat) : (quoted L ind).Le (quoted M ind) := by
  simp only [quoted]
  exact Le.bind (Le.refl _) fun c => Le.ite (Le.refl _) (quotedLoop_le hLM ind _ _ _ hLM)

theorem tokenLoop_le (E : Ext) : ∀ {f g : Nat}, f ≤ g → (tokenLoop E f).Le (tokenLoop E g)
  | 0, _, _ => trivial
  | f + 1, 0, h => by omega
  | f + 1, g + 1, h => by
    have ih := tokenLoop_le E (Nat.le_of_succ_le_succ h)
    simp only [tokenLoop]
    exact Le.bind (Le.refl _) fun c => Le.ite (Le.bind ih fun _ => Le.refl _) (Le.refl _)

theorem numberLoop_le : ∀ {f g : Nat} (b : Bool), f ≤ g → (numberLoop f b).Le (numberLoop g b)
  | 0, _, _, _ => trivial
  | f + 1, 0, _, h => by omega
  | f + 1, g + 1, b, h => by
    have ih := fun b => numberLoop_le b (Nat.le_of_succ_le_succ h)
    simp only [numberLoop]
    exact Le.bind (Le.refl _) fun c => Le.ite (Le.bind (ih _) fun _ => Le.refl _) <|
      Le.ite (Le.bind (ih _) fun _ => Le.refl _) (Le.refl _)

theorem commentLoop_le : ∀ {f g : Nat}, f ≤ g → (commentLoop f).Le (commentLoop g)
  | 0, _, _ => trivial
  | f + 1, 0, h => by omega
  | f + 1, g + 1, h => by
    simp only [commentLoop]
    exact Le.bind (Le.refl _) fun c => Le.ite (Le.refl _) (commentLoop_le (Nat.le_of_succ_le_succ h))

theorem comment_le {L M : Nat} (hLM : L ≤ M) : (comment L).Le (comment M) := by
  simp only [comment]
  exact Le.bind (Le.refl _) fun c => Le.ite (Le.bind (Le.refl _) fun d =>
    Le.ite (Le.bind (commentLoop_le hLM) fun _ => Le.refl _) (Le.refl _)) (Le.refl _)

theorem blockLine_le : ∀ {f g : Nat}, f ≤ g → (blockLine f).Le (blockLine g)
  | 0, _, _ => trivial
  | f + 1, 0, h => by omega
  | f + 1, g + 1, h => by
    have ih := blockLine_le (Nat.le_of_succ_le_succ h)
    simp only [blockLine]
    exact Le.bind (Le.refl _) fun c => Le.ite (Le.refl _) <| Le.ite ih <| Le.ite (Le.refl _) <|
      Le.bind ih fun _ => Le.refl _

theorem blockLoop_le {L M : Nat} (hLM : L ≤ M) (nsp : Nat) : ∀ {f g : Nat}, f ≤ g →
    (blockLoop L nsp f).Le (blockLoop M nsp g)
  | 0, _, _ => trivial
  | f + 1, 0, h => by omega
  | f + 1, g + 1, h => by
    have ih := blockLoop_le hLM nsp (Nat.le_of_succ_le_succ h)
    simp only [blockLoop]
    exact Le.bind (space_le hLM) fun c => Le.ite (Le.refl _) <| Le.bind (blockLine_le hLM) fun _ =>
      Le.bind ih fun _ => Le.refl _

theorem block_le {L M : Nat} (hLM : L ≤ M) (nsp : Nat) : (block L nsp).Le (block M nsp) := by
  simp only [block]
  have key : (do let s ← blockLoop L nsp L; Pure.pure (some (trimNL s)) : Prog (Option Bytes)).Le
      (do let s ← blockLoop M nsp M; Pure.pure (some (trimNL s))) :=
    Le.bind (blockLoop_le hLM nsp hLM) fun _ => Le.refl _
  exact Le.bind (Le.refl _) fun c => Le.ite (Le.refl _) <| Le.bind (Le.refl _) fun d => Le.ite (Le.refl _) <|
    Le.ite (Le.bind (Le.refl _) fun _ => key) key

theorem scalar_le {L M : Nat} (hLM : L ≤ M) (n : Nat) : (scalar L n).Le (scalar M n) := by
  simp only [scalar]
  refine Le.bind (quoted_le hLM n) fun a => ?_
  cases a with
  | some b => exact Le.refl _
  | none => exact Le.bind (str_le hLM) fun _ => Le.refl _

theorem scalarType_le (E : Ext) {L M : Nat} (hLM : L ≤ M) (n : Nat) : (scalarType E L n).Le (scalarType E M n) := by
  simp only [scalarType]
  refine Le.bind (quoted_le hLM n) fun a => ?_
  cases a with
  | some b => exact Le.refl _
  | none => exact Le.bind (str_le hLM) fun _ => Le.refl _

theorem lineScalar_le (E : Ext) {L M : Nat} (hLM : L ≤ M) (types : Bool) (n : Nat) :
    (lineScalar E L types n).Le (lineScalar E M types n) := by
  simp only [lineScalar]
  exact Le.ite (Le.bind (scalarType_le E hLM n) fun _ => Le.refl _) (Le.bind (scalar_le hLM n) fun _ => Le.refl _)

theorem lineBody_le (E : Ext) {L M : Nat} (hLM : L ≤ M) (types : Bool) (n : Nat) : ∀ {f g : Nat}, f ≤ g →
    (lineBody E L types n f).Le (lineBody E M types n g)
  | 0, _, _ => trivial
  | f + 1, 0, h => by omega
  | f + 1, g + 1, h => by
    have ih := lineBody_le E hLM types n (Nat.le_of_succ_le_succ h)
    simp only [lineBody]
    refine Le.bind (Le.refl _) fun _ => Le.ite (Le.refl _) <| Le.bind (Le.refl _) fun _ => Le.ite (Le.refl _) <|
      Le.bind (comment_le hLM) fun _ => Le.ite (Le.refl _) <| Le.bind (block_le hLM n) fun a => ?_
    cases a with
    | some s => exact Le.refl _
    | none =>
      exact Le.bind (lineScalar_le E hLM types n) fun _ => Le.bind (Le.refl _) fun _ => Le.ite (Le.refl _) <|
        Le.bind (space_le hLM) fun _ => Le.bind (Le.refl _) fun _ => ih

theorem lineHere_le (E : Ext) {L M : Nat} (hLM : L ≤ M) (types : Bool) (n : Nat) :
    (lineHere E L types n).Le (lineHere E M types n) := by
  simp only [lineHere]
  refine Le.bind (Le.refl _) fun lv => Le.bind (Le.refl _) fun _ => Le.ite (Le.refl _) <| Le.bind (Le.refl _) fun _ => ?_
  have key : (do
      if ← lineBody E L types n L then do
        evSetLevel lv
        Pure.pure true
      else Pure.pure false : Prog Bool).Le (do
      if ← lineBody E M types n M then do
        evSetLevel lv
        Pure.pure true
      else Pure.pure false) := Le.bind (lineBody_le E hLM types n hLM) fun _ => Le.refl _
  exact Le.ite (Le.bind (Le.refl _) fun _ => Le.bind (space_le hLM) fun _ => key) key

theorem tree_line_le (E : Ext) {L M : Nat} (hLM : L ≤ M) (types : Bool) : ∀ (f : Nat) {g : Nat} (ns : Nat), f ≤ g →
    (tree E L types f ns).Le (tree E M types g ns) ∧ (line E L types f ns).Le (line E M types g ns) := by
  intro f
  induction f with
  | zero => intro g ns _; rw [tree, line]; exact ⟨trivial, trivial⟩
  | succ f ih =>
    intro g ns h
    obtain ⟨g, rfl⟩ : ∃ k, g = k + 1 := ⟨g - 1, by omega⟩
    have ih := fun ns => ih (g := g) ns (by omega)
    simp only [tree, line]
    refine ⟨Le.bind (ih ns).2 fun _ => Le.ite (ih ns).1 (Le.refl _), ?_⟩
    exact Le.bind (space_le hLM) fun a => Le.ite (Le.refl _) <| Le.ite
      (Le.bind (Le.refl _) fun _ => Le.bind (Le.refl _) fun _ => Le.bind (ih _).1 fun _ => Le.refl _)
      (lineHere_le E hLM types _)

theorem ogdl_le (E : Ext) {L M F G : Nat} (hLM : L ≤ M) (types : Bool) (hFG : F ≤ G) :
    (ogdl E L types F).Le (ogdl E M types G) := by
  simp only [ogdl]
  exact Le.bind (space_le hLM) fun a => Le.ite (Le.refl _) <| Le.bind (Le.refl _) fun _ =>
    (tree_line_le E hLM types F _ hFG).1

end Ogdl
