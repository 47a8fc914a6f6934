import Verif.Model.Lexer

/-! Lemmas about running programs. -/

namespace Ogdl
namespace Prog

theorem run_bind {σ α β : Type} (M : Machine σ) (x : Prog α) (f : α → Prog β) (s : σ) (e : Ev) :
    (x >>= f).run M s e =
      match x.run M s e with
      | .ok r => (f r.1).run M r.2.1 r.2.2
      | .panic => .panic
      | .oof => .oof := by
  show (Prog.bind x f).run M s e = _
  induction x generalizing s e with
  | ret a => simp [Prog.bind, Prog.run]
  | byte k ih =>
    simp only [Prog.bind, Prog.run]
    cases M.byte s with
    | ok r => simp [ih]
    | panic => rfl
    | oof => rfl
  | unread k ih => simp [Prog.bind, Prog.run, ih]
  | rune k ih =>
    simp only [Prog.bind, Prog.run]
    cases M.rune s with
    | ok r => simp [ih]
    | panic => rfl
    | oof => rfl
  | unreadRune k ih => simp [Prog.bind, Prog.run, ih]
  | getEv k ih => simp [Prog.bind, Prog.run, ih]
  | setEv e' k ih => simp [Prog.bind, Prog.run, ih]
  | oof => rfl

theorem run_pure {σ α : Type} (M : Machine σ) (a : α) (s : σ) (e : Ev) :
    (pure a : Prog α).run M s e = .ok (a, s, e) := rfl

theorem run_bind_ok {σ α β : Type} {M : Machine σ} {x : Prog α} {f : α → Prog β} {s s' : σ}
    {e e' : Ev} {a : α} (h : x.run M s e = .ok (a, s', e')) :
    (x >>= f).run M s e = (f a).run M s' e' := by rw [run_bind, h]

end Prog

/-- Total correctness on the cursor: the program returns, in a state satisfying `Q`. -/
def Tot {α : Type} (x : Prog α) (s : Cur) (e : Ev) (Q : α → Cur → Ev → Prop) : Prop :=
  ∃ a s' e', x.run curM s e = .ok (a, s', e') ∧ Q a s' e'

namespace Tot

theorem of_eq {α : Type} {x : Prog α} {s s' : Cur} {e e' : Ev} {a : α} {Q : α → Cur → Ev → Prop}
    (h : x.run curM s e = .ok (a, s', e')) (hq : Q a s' e') : Tot x s e Q := ⟨a, s', e', h, hq⟩

theorem pure {α : Type} {a : α} {s : Cur} {e : Ev} {Q : α → Cur → Ev → Prop} (h : Q a s e) :
    Tot (Pure.pure a : Prog α) s e Q := ⟨a, s, e, rfl, h⟩

theorem mono {α : Type} {x : Prog α} {s : Cur} {e : Ev} {P Q : α → Cur → Ev → Prop}
    (h : Tot x s e P) (hpq : ∀ a s' e', P a s' e' → Q a s' e') : Tot x s e Q := by
  obtain ⟨a, s', e', h1, h2⟩ := h
  exact ⟨a, s', e', h1, hpq _ _ _ h2⟩

theorem bind {α β : Type} {x : Prog α} {f : α → Prog β} {s : Cur} {e : Ev}
    {P : α → Cur → Ev → Prop} {Q : β → Cur → Ev → Prop}
    (h : Tot x s e P) (hf : ∀ a s' e', P a s' e' → Tot (f a) s' e' Q) :
    Tot (x >>= f) s e Q := by
  obtain ⟨a, s', e', h1, h2⟩ := h
  obtain ⟨b, s'', e'', h3, h4⟩ := hf a s' e' h2
  exact ⟨b, s'', e'', by rw [Prog.run_bind_ok h1, h3], h4⟩

end Tot

/-- The position is beyond the end only at the end. -/
def Cur.Wf (s : Cur) : Prop := s.over = 0 ∨ s.post = []

end Ogdl
