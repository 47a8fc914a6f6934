import Verif.Lemmas.TemplateRun
import Verif.Lemmas.BufferAgree

/-! Plain template text of any length. -/

namespace Ogdl
open Spec Lex

section
variable {E : Ext}

theorem variable_agree {L f : Nat} {inp : Bytes} {s : Cur} {b : Buf} {e : Ev} (ht : Tracks inp 0 s b) (hs : s.post = []) :
    Agree (variable' E L f) s b e fun a s' b' => a = false ∧ Tracks inp 0 s' b' := by
  have h0 : SafeC 0 (fun _ c' => 1 ≤ c') byte0 := by
    intro ch
    show 1 ≤ min 2048 (0 + 1)
    omega
  have h1 := (h0.agree ht e).and_ok (R := fun a _ => a = 0) fun a s' e' h => by
    obtain ⟨pre, post, o, r⟩ := s
    subst hs
    rw [run_byte0_nil] at h
    cases h; rfl
  unfold variable'
  refine Agree.bind h1 fun a s' b' e' ⟨⟨c', hc, ht'⟩, ha⟩ => ?_
  subst ha
  rw [if_pos (by decide)]
  have h2 : SafeC c' (fun a _ => a = false) (do unread; Pure.pure false : Prog Bool) := by
    rw [safe_unread]
    exact ⟨hc, rfl⟩
  exact (h2.agree ht' e').mono fun a s'' b'' ⟨c'', h3, h4⟩ => ⟨h3, h4.mono (Nat.zero_le _)⟩

theorem templateText_agree {L : Nat} {inp : Bytes} {s : Cur} {b : Buf} {e : Ev} (ht : Tracks inp 0 s b) (hw : s.Wf) (hL : s.post.length < L)
    (hp : ∀ c ∈ s.post, isTemplateTextChar c = true) :
    Agree (templateText L) s b e fun w s' b' => (w = s.post ∧ s'.post = [] ∧ s'.Wf) ∧ Tracks inp 0 s' b' := by
  have h1 := ((readWhile_safe isTemplateTextChar L 0).agree ht e).and_ok (R := fun w s' => w = s.post ∧ s'.post = [] ∧ s'.Wf) fun w s' e' h => by
    obtain ⟨pre, post, o, r⟩ := s
    rw [run_readWhile isTemplateTextChar (by decide) post pre o r e L hw hL] at h
    cases h
    have h1 : post.takeWhile isTemplateTextChar = post := by
      have := List.takeWhile_append_of_pos (l₂ := []) hp
      simpa using this
    have h2 : post.dropWhile isTemplateTextChar = [] := by
      have := List.dropWhile_append_of_pos (l₂ := []) hp
      simpa using this
    exact ⟨h1, h2, .inl rfl⟩
  exact h1.mono fun w s' b' ⟨⟨c', _, h3⟩, h4⟩ => ⟨h4, h3.mono (Nat.zero_le _)⟩

theorem template_agree_end {L g f : Nat} {inp : Bytes} {s : Cur} {b : Buf} {e : Ev} (ht : Tracks inp 0 s b) (hw : s.Wf) (hs : s.post = []) (hL : 0 < L) :
    Agree (template E L g (f + 1)) s b e fun _ _ _ => True := by
  unfold template
  refine Agree.bind (templateText_agree ht hw (by rw [hs]; exact hL) (by rw [hs]; simp)) fun w s' b' e' ⟨⟨h1, h2, h3⟩, h4⟩ => ?_
  rw [h1, hs]
  simp only [List.isEmpty_nil, Bool.not_true, Bool.false_eq_true, ↓reduceIte]
  refine Agree.bind (variable_agree h4 h2) fun a s'' b'' e'' ⟨h5, h6⟩ => ?_
  subst h5
  exact Agree.pure trivial

theorem template_agree {L g f : Nat} {inp : Bytes} {s : Cur} {b : Buf} {e : Ev} (ht : Tracks inp 0 s b) (hw : s.Wf) (hL : s.post.length < L)
    (hp : ∀ c ∈ s.post, isTemplateTextChar c = true) :
    Agree (template E L g (f + 2)) s b e fun _ _ _ => True := by
  unfold template
  refine Agree.bind (templateText_agree ht hw hL hp) fun w s' b' e' ⟨⟨h1, h2, h3⟩, h4⟩ => ?_
  split
  · refine Agree.bind (((evAdd_safe _).agree h4 e').and_ok (R := fun _ s'' => s'' = s') fun _ s'' e'' h => ?_) fun _ s'' b'' e'' ⟨h5, h6⟩ => ?_
    · rw [run_evAdd] at h
      cases h; rfl
    · subst h6
      exact template_agree_end h5 h3 h2 (by omega)
  · refine Agree.bind (variable_agree h4 h2) fun a s'' b'' e'' ⟨h5, h6⟩ => ?_
    subst h5
    exact Agree.pure trivial

/-- A template that is plain text, of any length. -/
theorem newTemplate_plain {s : Bytes} (hne : s ≠ []) (hp : ∀ c ∈ s, PlainByte c) (hm : s ∉ markers) :
    newTemplate E s = .ok (.node (.str []) [leaf s]) := by
  have hok : (Items.cons (.plain s) .nil).Ok E [] := by
    simp only [Items.Ok, Item.Ok]
    exact ⟨⟨hne, hp, hm, .inl rfl⟩, trivial⟩
  have e : (Items.cons (.plain s) .nil).text = s := by simp [Items.text, Item.text]
  have et : (Items.cons (.plain s) .nil).trees = [leaf s] := by simp [Items.trees, Item.trees]
  have hc := template_consumes hok
  have hn := items_piecesNoNil (Items.cons (.plain s) .nil)
  have hrun := newTemplate_run hok
  rw [e] at hc hrun
  rw [et] at hrun
  refine hrun ?_
  have hd : delivered { data := s } = s := delivered_full _ ⟨rfl, by simp⟩
  have ht := start_tracks { data := s }
  rw [hd] at ht
  obtain ⟨k, hk⟩ : ∃ k, flowFuel s = k + 2 := ⟨flowFuel s - 2, by simp only [flowFuel]; omega⟩
  have ha := template_agree (E := E) (L := loopFuel s) (g := flowFuel s) (f := k) (e := {}) ht (.inl rfl) (by simp [Cur.start, loopFuel])
    (fun c h => plain_templateText (hp c h))
  rw [← hk] at ha
  obtain ⟨ru, ev, h1, h2⟩ := hc [] [] {}
  rw [List.append_nil] at h1
  unfold Agree at ha
  rw [show Cur.start s = ⟨[], s, 0, []⟩ from rfl, h1] at ha
  obtain ⟨b', h3, _⟩ := ha
  unfold runParser
  rw [h3]
  exact tree_of_preorder ev _ hn (by rw [h2.2.1]; simp) (h2.2.2 Ev.ok_empty).2

end
end Ogdl
