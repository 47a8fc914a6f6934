import Verif.Lemmas.Prog

/-! Lemmas about the lexer programs on the cursor. -/

namespace Ogdl
open Lex

section basic
variable (pre t : Bytes) (c : UInt8) (o : Nat) (r : List Nat) (e : Ev)

@[simp] theorem run_byte0_cons : (byte0).run curM ⟨pre, c :: t, o, r⟩ e = .ok (c, ⟨c :: pre, t, o, r⟩, e) := rfl
@[simp] theorem run_byte0_nil : (byte0).run curM ⟨pre, [], o, r⟩ e = .ok (0, ⟨pre, [], 1, r⟩, e) := rfl
@[simp] theorem run_byteErr_cons : (byteErr).run curM ⟨pre, c :: t, o, r⟩ e = .ok (some c, ⟨c :: pre, t, o, r⟩, e) := rfl
@[simp] theorem run_byteErr_nil : (byteErr).run curM ⟨pre, [], o, r⟩ e = .ok (none, ⟨pre, [], 1, r⟩, e) := rfl
@[simp] theorem run_unread_zero : (Lex.unread).run curM ⟨c :: pre, t, 0, r⟩ e = .ok ((), ⟨pre, c :: t, 0, r⟩, e) := rfl
@[simp] theorem run_unread_succ : (Lex.unread).run curM ⟨pre, t, o + 1, r⟩ e = .ok ((), ⟨pre, t, o, r⟩, e) := rfl
@[simp] theorem run_unread_one : (Lex.unread).run curM ⟨pre, t, 1, r⟩ e = .ok ((), ⟨pre, t, 0, r⟩, e) := rfl
end basic

section ev
variable (s : Cur) (e : Ev)
@[simp] theorem run_evAdd (v : Val) : (evAdd v).run curM s e = .ok ((), s, e.add v) := rfl
@[simp] theorem run_evInc : (evInc).run curM s e = .ok ((), s, e.inc) := rfl
@[simp] theorem run_evDec : (evDec).run curM s e = .ok ((), s, e.dec) := rfl
@[simp] theorem run_evLevel : (evLevel).run curM s e = .ok (e.current, s, e) := rfl
@[simp] theorem run_evSetLevel (l : Nat) : (evSetLevel l).run curM s e = .ok ((), s, e.setLevel l) := rfl
@[simp] theorem run_evDelete : (evDelete).run curM s e = .ok ((), s, e.delete) := rfl
end ev

theorem run_readWhile (p : UInt8 → Bool) (h0 : p 0 = false) : ∀ (post pre : Bytes) (o : Nat) (r : List Nat)
    (e : Ev) (L : Nat), (o = 0 ∨ post = []) → post.length < L →
    (readWhile p L).run curM ⟨pre, post, o, r⟩ e =
      .ok (post.takeWhile p, ⟨(post.takeWhile p).reverse ++ pre, post.dropWhile p, 0, r⟩, e)
  | [], pre, o, r, e, L + 1, _, _ => by
    simp [readWhile, Prog.run_bind, h0, Prog.run_pure]
  | c :: t, pre, o, r, e, L + 1, ho, hL => by
    have ho : o = 0 := by simpa using ho
    subst ho
    cases hp : p c with
    | true =>
      simp only [readWhile, Prog.run_bind, run_byte0_cons, hp, ↓reduceIte]
      rw [run_readWhile p h0 t (c :: pre) 0 r e L (.inl rfl) (by simpa using hL)]
      simp [Prog.run_pure, hp]
    | false => simp [readWhile, Prog.run_bind, hp, Prog.run_pure]

theorem run_unreadN (r : List Nat) (e : Ev) : ∀ (n : Nat) (w pre post : Bytes), w.length = n →
    (unreadN n).run curM ⟨w ++ pre, post, 0, r⟩ e = .ok ((), ⟨pre, w.reverse ++ post, 0, r⟩, e)
  | 0, w, pre, post, h => by
    have : w = [] := by simpa using h
    simp [this, unreadN, Prog.run_pure]
  | n + 1, [], pre, post, h => by simp at h
  | n + 1, c :: w, pre, post, h => by
    simp only [unreadN, Prog.run_bind, List.cons_append, run_unread_zero]
    rw [run_unreadN r e n w pre (c :: post) (by simpa using h)]
    simp

theorem run_peekByte_cons (c : UInt8) (pre t : Bytes) (r : List Nat) (e : Ev) :
    (peekByte).run curM ⟨pre, c :: t, 0, r⟩ e = .ok (c, ⟨pre, c :: t, 0, r⟩, e) := by
  simp [peekByte, Prog.run_bind, Prog.run_pure]

theorem run_peekByte_nil (pre : Bytes) (o : Nat) (r : List Nat) (e : Ev) :
    (peekByte).run curM ⟨pre, [], o, r⟩ e = .ok (0, ⟨pre, [], 1, r⟩, e) := by
  simp [peekByte, Prog.run_bind, Prog.run_pure]

theorem run_space (L : Nat) (post pre : Bytes) (o : Nat) (r : List Nat) (e : Ev)
    (ho : o = 0 ∨ post = []) (hL : post.length < L) :
    (space L).run curM ⟨pre, post, o, r⟩ e =
      .ok (((post.takeWhile isSpaceChar).length, spaceKind (post.takeWhile isSpaceChar)),
        ⟨(post.takeWhile isSpaceChar).reverse ++ pre, post.dropWhile isSpaceChar, 0, r⟩, e) := by
  simp only [space, Prog.run_bind]
  rw [run_readWhile isSpaceChar (by decide) post pre o r e L ho hL]
  simp [Prog.run_pure]

/-- `Space` followed by unreading as many bytes restores the position. -/
theorem run_unspace (post pre : Bytes) (r : List Nat) (e : Ev) :
    (unreadN (post.takeWhile isSpaceChar).length).run curM
      ⟨(post.takeWhile isSpaceChar).reverse ++ pre, post.dropWhile isSpaceChar, 0, r⟩ e =
      .ok ((), ⟨pre, post, 0, r⟩, e) := by
  rw [run_unreadN r e _ _ pre _ (by simp)]
  simp [List.takeWhile_append_dropWhile]

end Ogdl
