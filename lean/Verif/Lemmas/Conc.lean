import Verif.Model.Conc
import Verif.Spec.Conc
import Verif.Props.Binary

/-! Goroutines: running alone, and several that append to one log. -/

namespace Ogdl
open Spec

namespace Thread
variable {σ α β γ : Type}

@[simp] theorem bind_eq (x : Thread σ α) (f : α → Thread σ β) : x >>= f = x.bind f := rfl
@[simp] theorem pure_eq (a : α) : (pure a : Thread σ α) = done a := rfl
@[simp] theorem done_bind (a : α) (f : α → Thread σ β) : (done a).bind f = f a := rfl
@[simp] theorem step_bind (u : σ → σ) (n : σ → Thread σ α) (f : α → Thread σ β) : (step u n).bind f = step u fun s => (n s).bind f := rfl

theorem bind_assoc' (x : Thread σ α) (f : α → Thread σ β) (g : β → Thread σ γ) : (x.bind f).bind g = x.bind fun a => (f a).bind g := by
  induction x with
  | done a => rfl
  | step u n ih => simp only [step_bind, ih]

theorem alone_bind (x : Thread σ α) (f : α → Thread σ β) : ∀ s : σ, (x.bind f).alone s = (f (x.alone s).1).alone (x.alone s).2 := by
  induction x with
  | done a => intro s; rfl
  | step u n ih => intro s; simp only [step_bind, alone, ih]

theorem alone_act (f : σ → β × σ) (s : σ) : (act f).alone s = f s := rfl

end Thread

/-! ## Logs -/

theorem overwrite_end (d b : Bytes) : overwrite d d.length b = d ++ b := by
  simp [overwrite]

theorem setOff_self (off : Nat → Nat) (h o : Nat) : setOff off h o h = o := by simp [setOff]

theorem autoSync_alone (auto : Bool) (s : FileSt) : ((autoSync auto).alone s).2.data = s.data := by
  cases auto <;> rfl

/-- `AddBinary` alone. -/
theorem addBinaryT_alone (h : Nat) (auto : Bool) (b : Bytes) (s : FileSt) :
    ((addBinaryT h auto b).alone s).1 = (s.data.length : Nat) ∧ ((addBinaryT h auto b).alone s).2.data = s.data ++ b ∧
    (auto = true → ((addBinaryT h auto b).alone s).2.synced = s.data.length + b.length) := by
  have hd : overwrite s.data (setOff s.off h s.data.length h) b = s.data ++ b := by rw [setOff_self, overwrite_end]
  cases auto
  · exact ⟨rfl, hd, fun h => by cases h⟩
  · exact ⟨rfl, hd, fun _ => (congrArg List.length hd).trans (by simp)⟩

theorem getT_alone (fuel h i : Nat) (l : Log) (s : FileSt) (hf : l.isFile = true) (hd : s.data = l.data) :
    ((getT fuel h i).alone s).1 = l.get fuel i ∧ ((getT fuel h i).alone s).2.data = s.data := by
  refine ⟨?_, rfl⟩
  have hb : (((do seekTo h i; readFile h) : Thread FileSt Bytes).alone s).1 = s.data.drop i := by
    show s.data.drop (setOff s.off h i h) = _
    rw [setOff_self]
  have hnn : ¬ ((i : Int) < 0) := by omega
  simp only [Log.get, hf, hnn, Bool.not_true, decide_false, Bool.or_self, Bool.false_eq_true, ↓reduceIte, Int.toNat_natCast]
  rw [← hd, ← hb]
  rfl

theorem getRecordT_alone (i : Nat) (r : Res (Option Nat)) (s : FileSt) :
    ((getRecordT i r).alone s).1 = (match r with
      | .ok none => .ok ([], 0, true)
      | .ok (some n) => .ok ((s.data.drop i).take n, n, true)
      | .panic => .panic
      | .oof => .oof) ∧ ((getRecordT i r).alone s).2.data = s.data := by
  cases r with
  | ok o => cases o <;> exact ⟨rfl, rfl⟩
  | panic => exact ⟨rfl, rfl⟩
  | oof => exact ⟨rfl, rfl⟩

theorem getBinaryT_alone (fuel h i : Nat) (l : Log) (s : FileSt) (hf : l.isFile = true) (hd : s.data = l.data) :
    ((getBinaryT fuel h i).alone s).1 = l.getBinary fuel i ∧ ((getBinaryT fuel h i).alone s).2.data = s.data := by
  have h1 : (getBinaryT fuel h i).alone s =
      (getRecordT i (recordLength fuel (s.data.drop (setOff s.off h i h)))).alone
        { s with off := setOff (setOff s.off h i) h (max (setOff s.off h i h) s.data.length) } := rfl
  rw [h1, setOff_self]
  obtain ⟨h2, h3⟩ := getRecordT_alone i (recordLength fuel (s.data.drop i))
    { s with off := setOff (setOff s.off h i) h (max i s.data.length) }
  refine ⟨h2.trans ?_, h3⟩
  have hnn : ¬ ((i : Int) < 0) := by omega
  simp only [Log.getBinary, hf, hnn, Bool.not_true, decide_false, Bool.or_self, Bool.false_eq_true, ↓reduceIte, Int.toNat_natCast, recordLength, ← hd]
  cases hh : (BinR.mk (s.data.drop i) 0).header with
  | mk b p =>
    cases b with
    | false => rfl
    | true =>
      simp only
      cases p.skip fuel fuel <;> rfl

/-! ### Several goroutines that append -/

/-- Where a goroutine is: between two calls, between `Seek` and `Write`, or before `Sync`. -/
inductive Pc where
  | idle
  | seeked (b : Bytes) (i : Nat)
  | written

/-- A goroutine that appends: the records it has written with the positions it will
return for them, the records to come, and where it is. -/
structure Adder where
  lg : List (Bytes × Int)
  todo : List Bytes
  pc : Pc

namespace Adder

/-- Its remaining program. -/
def code (h : Nat) (auto : Bool) : Adder → Thread FileSt (List Int)
  | ⟨lg, todo, .idle⟩ => (addsT h auto todo).bind fun ps => .done (lg.map (·.2) ++ ps)
  | ⟨lg, todo, .seeked b i⟩ => (writeFile h b).bind fun _ => (autoSync auto).bind fun _ =>
      (addsT h auto todo).bind fun ps => .done (lg.map (·.2) ++ (i : Int) :: ps)
  | ⟨lg, todo, .written⟩ => syncFile.bind fun _ => (addsT h auto todo).bind fun ps => .done (lg.map (·.2) ++ ps)

/-- Its next step. -/
def next (h : Nat) (auto : Bool) (s : FileSt) (a : Adder) : FileSt × Adder :=
  match a.pc with
  | .idle =>
    match a.todo with
    | [] => (s, a)
    | b :: todo => ({ s with off := setOff s.off h s.data.length }, ⟨a.lg, todo, .seeked b s.data.length⟩)
  | .seeked b i =>
    ({ s with data := overwrite s.data (s.off h) b, off := setOff s.off h (s.off h + b.length) },
      ⟨a.lg ++ [(b, (i : Int))], a.todo, if auto then .written else .idle⟩)
  | .written => ({ s with synced := s.data.length }, ⟨a.lg, a.todo, .idle⟩)

theorem code_step {h : Nat} {auto : Bool} {a : Adder} {u : FileSt → FileSt} {n : FileSt → Thread FileSt (List Int)}
    (hc : a.code h auto = .step u n) (s : FileSt) : u s = (a.next h auto s).1 ∧ n s = (a.next h auto s).2.code h auto := by
  obtain ⟨lg, todo, pc⟩ := a
  cases pc with
  | idle =>
    cases todo with
    | nil => cases hc
    | cons b todo =>
      simp only [code, addsT, addBinaryT, seekEnd, Thread.act, Thread.bind_eq, Thread.step_bind, Thread.done_bind, Thread.step.injEq] at hc
      obtain ⟨rfl, rfl⟩ := hc
      refine ⟨rfl, ?_⟩
      simp only [next, code, Thread.bind_assoc', Thread.pure_eq, Thread.done_bind]
  | seeked b i =>
    simp only [code, writeFile, Thread.act, Thread.step_bind, Thread.done_bind, Thread.step.injEq] at hc
    obtain ⟨rfl, rfl⟩ := hc
    refine ⟨rfl, ?_⟩
    cases auto
    · simp [next, code, autoSync]
    · simp [next, code, autoSync]
  | written =>
    simp only [code, syncFile, Thread.act, Thread.step_bind, Thread.done_bind, Thread.step.injEq] at hc
    obtain ⟨rfl, rfl⟩ := hc
    exact ⟨rfl, rfl⟩

theorem code_done {h : Nat} {auto : Bool} {a : Adder} {r : List Int} (hc : a.code h auto = .done r) :
    a.todo = [] ∧ (∃ lg, a = ⟨lg, [], .idle⟩) ∧ r = a.lg.map (·.2) := by
  obtain ⟨lg, todo, pc⟩ := a
  cases pc with
  | idle =>
    cases todo with
    | nil =>
      simp only [code, addsT, Thread.pure_eq, Thread.done_bind, Thread.done.injEq, List.append_nil] at hc
      exact ⟨rfl, ⟨lg, rfl⟩, hc.symm⟩
    | cons b todo => cases hc
  | seeked b i => cases hc
  | written => cases hc

/-- The records it was given. -/
def all : Adder → List Bytes
  | ⟨lg, todo, .seeked b _⟩ => lg.map (·.1) ++ b :: todo
  | ⟨lg, todo, _⟩ => lg.map (·.1) ++ todo

end Adder

theorem merge_length {α : Type} {ls : List (List α)} {l : List α} (h : Merge ls l) : ls.flatten.Perm l := by
  induction h with
  | nil ls h => rw [List.flatten_eq_nil_iff.2 h]
  | snoc ls l i r x _ hi ih =>
    obtain ⟨hl, rfl⟩ := List.getElem?_eq_some_iff.1 hi
    have h1 : ls.set i (ls[i] ++ [x]) = ls.take i ++ (ls[i] ++ [x]) :: ls.drop (i + 1) := List.set_eq_take_append_cons_drop.trans (by simp [hl])
    have h2 : ls = ls.take i ++ ls[i] :: ls.drop (i + 1) := by rw [List.getElem_cons_drop, List.take_append_drop]
    rw [h2] at ih
    rw [h1]
    simp only [List.flatten_append, List.flatten_cons] at ih ⊢
    refine List.Perm.trans ?_ (ih.append_right [x])
    simp only [List.append_assoc]
    refine List.Perm.append_left _ (List.Perm.append_left _ ?_)
    exact List.perm_append_comm

/-- The goroutines and the file. -/
structure Adding (m h : Nat) (auto : Bool) (d : Bytes) (bss : List (List Bytes)) (s : FileSt) (as : List Adder) (lg : List (Bytes × Int)) : Prop where
  data : s.data = d ++ (lg.map (·.1)).flatten
  off : ∀ a ∈ as, ∀ b i, a.pc = .seeked b i → s.off h = s.data.length
  merge : Merge (as.map (·.lg)) lg
  pend : ∀ a ∈ as, ∀ b i, a.pc = .seeked b i → ∃ k ≤ lg.length, (i : Int) = startOf d (lg.map (·.1)) k
  pos : ∀ (k : Nat) b p, lg[k]? = some (b, p) → ∃ k' ≤ k, p = startOf d (lg.map (·.1)) k'
  all : as.map (·.all) = bss
  synced : m ≤ s.synced ∧ m ≤ s.data.length

theorem startOf_append (d : Bytes) (l l' : List Bytes) {k : Nat} (h : k ≤ l.length) : startOf d (l ++ l') k = startOf d l k := by
  rw [startOf, startOf, List.take_append_of_le_length h]

theorem startOf_length (d : Bytes) (l : List Bytes) : startOf d l l.length = ((d ++ l.flatten).length : Nat) := by
  rw [startOf, List.take_length]

theorem Adding.start {m h : Nat} {auto : Bool} {d : Bytes} {bss : List (List Bytes)} {s : FileSt} (hd : s.data = d) (hs : m ≤ s.synced ∧ m ≤ s.data.length) :
    Adding m h auto d bss s (bss.map fun bs => ⟨[], bs, .idle⟩) [] := by
  refine ⟨by simp [hd], ?_, .nil _ ?_, ?_, by simp, ?_, hs⟩
  · intro a ha b i hp
    obtain ⟨bs, _, rfl⟩ := List.mem_map.1 ha
    cases hp
  · intro l hl
    simp only [List.map_map, List.mem_map] at hl
    obtain ⟨bs, _, rfl⟩ := hl
    rfl
  · intro a ha b i hp
    obtain ⟨bs, _, rfl⟩ := List.mem_map.1 ha
    cases hp
  · rw [List.map_map]
    refine (List.map_congr_left fun bs _ => ?_).trans (List.map_id _)
    rfl

theorem mem_set_cases {α : Type} {l : List α} {i : Nat} {x y : α} (h : y ∈ l.set i x) : y = x ∨ y ∈ l := by
  rcases List.mem_or_eq_of_mem_set h with h | h
  · exact .inr h
  · exact .inl h

theorem map_set_same {α β : Type} (f : α → β) (l : List α) (i : Nat) (x a : α) (hi : l[i]? = some a) (he : f x = f a) :
    (l.set i x).map f = l.map f := by
  rw [List.map_set, he]
  obtain ⟨hl, rfl⟩ := List.getElem?_eq_some_iff.1 hi
  apply List.ext_getElem?
  intro j
  by_cases hj : j = i
  · subst hj
    simp [hl]
  · rw [List.getElem?_set_ne (Ne.symm hj)]

theorem Adding.step {m h : Nat} {auto : Bool} {d : Bytes} {bss : List (List Bytes)} {s : FileSt} {as : List Adder} {lg : List (Bytes × Int)}
    (H : Adding m h auto d bss s as lg) {i : Nat} {a : Adder} (hi : as[i]? = some a) :
    ∃ l', Adding m h auto d bss (a.next h auto s).1 (as.set i (a.next h auto s).2) (lg ++ l') := by
  have ha : a ∈ as := List.mem_of_getElem? hi
  obtain ⟨rl, todo, pc⟩ := a
  cases pc with
  | idle =>
    cases todo with
    | nil =>
      refine ⟨[], ?_⟩
      have : as.set i ⟨rl, [], .idle⟩ = as := by
        obtain ⟨hl, he⟩ := List.getElem?_eq_some_iff.1 hi
        rw [← he, List.set_getElem_self]
      simp only [Adder.next, this, List.append_nil]
      exact H
    | cons b todo =>
      refine ⟨[], ?_⟩
      simp only [Adder.next, List.append_nil]
      refine ⟨H.data, fun _ _ _ _ _ => setOff_self _ _ _, ?_, ?_, H.pos, ?_, H.synced⟩
      · rw [map_set_same (·.lg) as i ⟨rl, todo, .seeked b s.data.length⟩ _ hi rfl]; exact H.merge
      · intro a' ha' b' i' hp
        rcases mem_set_cases ha' with rfl | ha'
        · cases hp
          exact ⟨lg.length, Nat.le_refl _, by rw [H.data, ← startOf_length, List.length_map]⟩
        · exact H.pend a' ha' b' i' hp
      · refine (map_set_same (·.all) as i _ _ hi ?_).trans H.all; rfl
  | written =>
    refine ⟨[], ?_⟩
    simp only [Adder.next, List.append_nil]
    refine ⟨H.data, ?_, ?_, ?_, H.pos, ?_, H.synced.2, H.synced.2⟩
    · intro a' ha' b' i' hp
      rcases mem_set_cases ha' with rfl | ha'
      · cases hp
      · exact H.off a' ha' b' i' hp
    · rw [map_set_same (·.lg) as i ⟨rl, todo, .idle⟩ _ hi rfl]; exact H.merge
    · intro a' ha' b' i' hp
      rcases mem_set_cases ha' with rfl | ha'
      · cases hp
      · exact H.pend a' ha' b' i' hp
    · refine (map_set_same (·.all) as i _ _ hi ?_).trans H.all; rfl
  | seeked b p =>
    have ho := H.off _ ha b p rfl
    refine ⟨[(b, (p : Int))], ?_⟩
    have hlen : (s.data ++ b).length = s.data.length + b.length := List.length_append
    simp only [Adder.next, ho, overwrite_end]
    have hpc : ∀ b' i', (if auto then Pc.written else Pc.idle) ≠ .seeked b' i' := by cases auto <;> simp
    refine ⟨by simp [H.data], ?_, ?_, ?_, ?_, ?_, H.synced.1, by simp only [hlen]; have := H.synced.2; omega⟩
    · intro _ _ _ _ _
      simp only [setOff_self, hlen]
    · rw [List.map_set]
      exact .snoc _ _ i rl _ H.merge (by simp [hi])
    · intro a' ha' b' i' hp
      rcases mem_set_cases ha' with rfl | ha'
      · exact absurd hp (hpc _ _)
      · obtain ⟨k, hk, he⟩ := H.pend a' ha' b' i' hp
        exact ⟨k, by simp; omega, by rw [List.map_append, startOf_append _ _ _ (by simpa using hk)]; exact he⟩
    · intro k b' p' hk
      by_cases hkl : k < lg.length
      · rw [List.getElem?_append_left hkl] at hk
        obtain ⟨k', hk', he⟩ := H.pos k b' p' hk
        exact ⟨k', hk', by rw [List.map_append, startOf_append _ _ _ (by rw [List.length_map]; omega)]; exact he⟩
      · have hkl' : k = lg.length := by
          have := (List.getElem?_eq_some_iff.1 hk).1
          simp at this; omega
        subst hkl'
        simp only [List.getElem?_append_right (Nat.le_refl _), Nat.sub_self, List.getElem?_cons_zero, Option.some.injEq, Prod.mk.injEq] at hk
        obtain ⟨rfl, rfl⟩ := hk
        obtain ⟨k', hk', he⟩ := H.pend _ ha b p rfl
        exact ⟨k', hk', by rw [List.map_append, startOf_append _ _ _ (by simpa using hk')]; exact he⟩
    · refine (map_set_same _ as i _ _ hi ?_).trans H.all
      cases auto <;> simp [Adder.all]

theorem Adding.run {m h : Nat} {auto : Bool} {d : Bytes} {bss : List (List Bytes)} : ∀ (sched : List Nat) {s s' : FileSt} {as : List Adder}
    {ts' : List (Thread FileSt (List Int))} {lg : List (Bytes × Int)}, Adding m h auto d bss s as lg →
    runSched sched s (as.map (·.code h auto)) = (s', ts') →
    ∃ as' l', ts' = as'.map (·.code h auto) ∧ Adding m h auto d bss s' as' (lg ++ l')
  | [], s, s', as, ts', lg, H, hr => by
    simp only [runSched, Prod.mk.injEq] at hr
    obtain ⟨rfl, rfl⟩ := hr
    exact ⟨as, [], rfl, by simpa using H⟩
  | i :: is, s, s', as, ts', lg, H, hr => by
    simp only [runSched] at hr
    split at hr
    · rename_i u n hi
      rw [List.getElem?_map, Option.map_eq_some_iff] at hi
      obtain ⟨a, ha, hc⟩ := hi
      obtain ⟨h1, h2⟩ := Adder.code_step hc s
      rw [h1, h2, ← List.map_set] at hr
      obtain ⟨l1, H'⟩ := H.step ha
      obtain ⟨as', l', e1, e2⟩ := Adding.run is H' hr
      exact ⟨as', l1 ++ l', e1, by simpa using e2⟩
    · exact Adding.run is H hr

theorem start_code (h : Nat) (auto : Bool) (bss : List (List Bytes)) :
    (bss.map fun bs => (⟨[], bs, .idle⟩ : Adder)).map (·.code h auto) = bss.map (addsT h auto) := by
  rw [List.map_map]
  refine List.map_congr_left fun bs _ => ?_
  have : ∀ t : Thread FileSt (List Int), (t.bind fun ps => .done ps) = t := by
    intro t
    induction t with
    | done a => rfl
    | step u n ih => simp only [Thread.step_bind, ih]
  simp [Adder.code, this]

theorem addsT_alone (h : Nat) (auto : Bool) : ∀ (recs : List Bytes) (s : FileSt),
    ((addsT h auto recs).alone s).2.data = s.data ++ recs.flatten ∧
    ((addsT h auto recs).alone s).1.length = recs.length ∧
    (∀ j < recs.length, ((addsT h auto recs).alone s).1[j]? = some (startOf s.data recs j)) ∧
    (auto = true → recs ≠ [] → ((addsT h auto recs).alone s).2.synced = ((addsT h auto recs).alone s).2.data.length)
  | [], s => by
    refine ⟨?_, rfl, fun j hj => absurd hj (by simp), fun _ h => absurd rfl h⟩
    show s.data = _
    simp
  | b :: recs, s => by
    obtain ⟨h1, h2, h3⟩ := addBinaryT_alone h auto b s
    obtain ⟨i1, i2, i3, i4⟩ := addsT_alone h auto recs ((addBinaryT h auto b).alone s).2
    have e1 : (addsT h auto (b :: recs)).alone s =
        (((addBinaryT h auto b).alone s).1 :: ((addsT h auto recs).alone ((addBinaryT h auto b).alone s).2).1,
          ((addsT h auto recs).alone ((addBinaryT h auto b).alone s).2).2) := by
      simp only [addsT, Thread.bind_eq, Thread.alone_bind]
      rfl
    rw [e1]
    refine ⟨by simp [i1, h2], by simp [i2], ?_, ?_⟩
    · intro j hj
      cases j with
      | zero => simp [h1, startOf]
      | succ j =>
        simp only [List.getElem?_cons_succ]
        rw [i3 j (by simpa using hj), h2]
        simp [startOf]
    · intro ha _
      by_cases hr : recs = []
      · subst hr
        show ((addBinaryT h auto b).alone s).2.synced = _
        rw [h3 ha]
        show _ = ((addBinaryT h auto b).alone s).2.data.length
        rw [h2, List.length_append]
      · exact i4 ha hr

/-! ## Goroutines on their own components -/

section
variable {σ α : Type}

theorem Thread.steps_add (k : Nat) : ∀ (m : Nat) (t : Thread σ α) (s : σ), t.steps (m + k) s = (t.steps m s).1.steps k (t.steps m s).2
  | 0, t, s => by simp [Thread.steps]
  | m + 1, .done a, s => by
    rw [Nat.add_right_comm]
    simp only [Thread.steps]
    cases k <;> rfl
  | m + 1, .step u n, s => by
    rw [Nat.add_right_comm]
    simp only [Thread.steps]
    exact Thread.steps_add k m _ _

theorem Thread.steps_done (a : α) (s : σ) : ∀ m, (Thread.done a).steps m s = (.done a, s)
  | 0 => rfl
  | _ + 1 => rfl

theorem Thread.steps_end (t : Thread σ α) : ∀ s : σ, ∃ N, ∀ m ≥ N, t.steps m s = (.done (t.alone s).1, (t.alone s).2) := by
  induction t with
  | done a => exact fun s => ⟨0, fun m _ => Thread.steps_done a s m⟩
  | step u n ih =>
    intro s
    obtain ⟨N, hN⟩ := ih s (u s)
    refine ⟨N + 1, fun m hm => ?_⟩
    obtain ⟨m, rfl⟩ : ∃ k, m = k + 1 := ⟨m - 1, by omega⟩
    simp only [Thread.steps, Thread.alone]
    exact hN m (by omega)

/-- Where goroutine `i` is after `k` of its own steps. -/
def place (t : Nat → Thread σ α) (s : Nat → σ) (k : Nat → Nat) (i : Nat) : Thread σ α × σ := (t i).steps (k i) (s i)

/-- One more step of `i`. -/
def bump (k : Nat → Nat) (i : Nat) : Nat → Nat := fun j => if j = i then k i + 1 else k j

theorem place_bump_ne (t : Nat → Thread σ α) (s : Nat → σ) (k : Nat → Nat) {i j : Nat} (h : j ≠ i) : place t s (bump k i) j = place t s k j := by
  simp [place, bump, h]

theorem place_bump (t : Nat → Thread σ α) (s : Nat → σ) (k : Nat → Nat) (i : Nat) :
    place t s (bump k i) i = (place t s k i).1.steps 1 (place t s k i).2 := by
  simp only [place, bump, ↓reduceIte]
  exact Thread.steps_add 1 _ _ _

/-- The goroutines, each on its own component, and the components. -/
def sys (t : Nat → Thread σ α) (s : Nat → σ) (n : Nat) (k : Nat → Nat) : (Nat → σ) × List (Thread (Nat → σ) α) :=
  (fun i => if i < n then (place t s k i).2 else s i, (List.range n).map fun i => (place t s k i).1.on i)

theorem sys_get {t : Nat → Thread σ α} {s : Nat → σ} {n : Nat} {k : Nat → Nat} {i : Nat} (h : i < n) :
    (sys t s n k).2[i]? = some ((place t s k i).1.on i) := by
  simp [sys, h]

theorem sys_bump_done {t : Nat → Thread σ α} {s : Nat → σ} {n : Nat} {k : Nat → Nat} {i : Nat} {a : α} (h : (place t s k i).1 = .done a) :
    sys t s n (bump k i) = sys t s n k := by
  have : ∀ j, place t s (bump k i) j = place t s k j := by
    intro j
    by_cases hj : j = i
    · subst hj
      rw [place_bump]
      have hp : place t s k j = (.done a, (place t s k j).2) := by rw [← h]
      rw [h, Thread.steps_done, ← hp]
    · exact place_bump_ne t s k hj
  have e : place t s (bump k i) = place t s k := funext this
  unfold sys
  rw [e]

theorem sys_bump_step {t : Nat → Thread σ α} {s : Nat → σ} {n : Nat} {k : Nat → Nat} {i : Nat} {u : σ → σ} {nx : σ → Thread σ α}
    (hi : i < n) (h : (place t s k i).1 = .step u nx) :
    sys t s n (bump k i) = (fun j => if j = i then u ((sys t s n k).1 i) else (sys t s n k).1 j,
      (sys t s n k).2.set i ((nx ((sys t s n k).1 i)).on i)) := by
  have h1 : place t s (bump k i) i = (nx (place t s k i).2, u (place t s k i).2) := by
    rw [place_bump, h]; rfl
  refine Prod.ext ?_ ?_
  · funext j
    by_cases hj : j = i
    · subst hj; simp [sys, h1, hi]
    · simp [sys, hj, place_bump_ne t s k hj]
  · apply List.ext_getElem?
    intro j
    by_cases hj : j = i
    · subst hj
      simp [sys, hi, h1]
    · rw [List.getElem?_set_ne (Ne.symm hj)]
      by_cases hjn : j < n
      · rw [sys_get hjn, sys_get hjn, place_bump_ne t s k hj]
      · simp [sys, hjn]

/-- The system after a schedule of a program without panics: every goroutine has made as
many of its own steps as it was scheduled for. -/
theorem runProgram_sys {t : Nat → Thread σ (Res α)} {s : Nat → σ} {n : Nat} (hp : ∀ (i m : Nat), ((t i).steps m (s i)).1 ≠ .done .panic) :
    ∀ (sched : List Nat) (k : Nat → Nat), runProgram sched (sys t s n k).1 (sys t s n k).2 = sys t s n fun i => k i + sched.count i
  | [], k => by simp [runProgram]
  | i :: is, k => by
    have hc : crashed (sys t s n k).2 = false := by
      rw [crashed, List.any_eq_false]
      intro x hx
      simp only [sys, List.mem_map] at hx
      obtain ⟨j, _, rfl⟩ := hx
      have := hp j (k j)
      change (place t s k j).1 ≠ _ at this
      cases hpl : (place t s k j).1 with
      | step u nx => simp [Thread.on]
      | done r =>
        cases r with
        | ok a => simp [Thread.on]
        | oof => simp [Thread.on]
        | panic => exact absurd hpl this
    have hcount : (fun j => bump k i j + is.count j) = fun j => k j + (i :: is).count j := by
      funext j
      by_cases hj : j = i
      · subst hj; simp [bump]; omega
      · rw [List.count_cons_of_ne (Ne.symm hj)]; simp [bump, hj]
    simp only [runProgram, hc, Bool.false_eq_true, ↓reduceIte]
    by_cases hi : i < n
    · rw [sys_get hi]
      cases hpl : (place t s k i).1 with
      | step u nx =>
        simp only [Thread.on]
        have hb := sys_bump_step (t := t) (s := s) hi hpl
        have ih := runProgram_sys (n := n) hp is (bump k i)
        rw [hcount, hb] at ih
        exact ih
      | done r =>
        simp only [Thread.on]
        have hb := sys_bump_done (t := t) (s := s) (n := n) hpl
        have ih := runProgram_sys (n := n) hp is (bump k i)
        rw [hcount, hb] at ih
        exact ih
    · have hnone : (sys t s n k).2[i]? = none := by simp [sys]; omega
      rw [hnone]
      have hb : sys t s n (bump k i) = sys t s n k := by
        refine Prod.ext ?_ ?_
        · funext j
          by_cases hj : j = i
          · subst hj; simp [sys, hi]
          · simp [sys, place_bump_ne t s k hj]
        · refine List.map_congr_left fun j hj => ?_
          have : j ≠ i := by have := List.mem_range.1 hj; omega
          simp [place_bump_ne t s k this]
      have ih := runProgram_sys (n := n) hp is (bump k i)
      rw [hcount, hb] at ih
      exact ih

end

/-! ## Connections -/

section
variable (E : Ext)

theorem readT_alone (n : Nat) (c : Conn) {β : Type} (f : Option Bytes → Thread Conn β) :
    ((readT n).bind f).alone c = (f (c.read n).1).alone (c.read n).2 := rfl

theorem writeT_alone (b : Bytes) (c : Conn) {β : Type} (f : Bool → Thread Conn β) :
    ((writeT b).bind f).alone c = (f (c.write b).1).alone (c.write b).2 := rfl

/-- `process` as a goroutine that is not interrupted is `process`. -/
theorem processT_alone (handler : Graph → Res Graph) : ∀ (f : Nat) (c : Conn),
    (∀ c', processN E handler f c = .ok c' → (processT E handler f).alone c = (.ok (), c')) ∧
    (processN E handler f c = .panic → ((processT E handler f).alone c).1 = .panic) ∧
    (processN E handler f c = .oof → ((processT E handler f).alone c).1 = .oof)
  | 0, c => by
    refine ⟨fun c' h => ?_, fun h => ?_, fun _ => rfl⟩
    · simp [processN] at h
    · simp [processN] at h
  | f + 1, c => by
    have ih := processT_alone handler f
    simp only [processT, processN, Thread.bind_eq, Thread.pure_eq]
    rw [readT_alone]
    cases h1 : c.read 4 with
    | mk o c1 =>
    cases o with
    | none =>
      simp only [Thread.alone]
      exact ⟨fun c' h => by cases h; rfl, (by rintro ⟨⟩), (by rintro ⟨⟩)⟩
    | some b4 =>
      simp only
      by_cases h4 : b4.length ≠ 4
      · simp only [h4, ↓reduceIte, Thread.alone, not_false_eq_true, ne_eq]
        exact ⟨fun c' h => by cases h; rfl, (by rintro ⟨⟩), (by rintro ⟨⟩)⟩
      · simp only [h4, ↓reduceIte]
        by_cases h0 : unBe32 b4 = 0
        · simp only [h0, ↓reduceIte, Thread.alone]
          exact ⟨fun c' h => by cases h; rfl, (by rintro ⟨⟩), (by rintro ⟨⟩)⟩
        · simp only [h0, ↓reduceIte]
          rw [readT_alone]
          cases h2 : c1.read (unBe32 b4) with
          | mk o c2 =>
          cases o with
          | none =>
            simp only [Thread.alone]
            exact ⟨fun c' h => by cases h; rfl, (by rintro ⟨⟩), (by rintro ⟨⟩)⟩
          | some buf =>
            simp only
            by_cases hl : buf.length ≠ unBe32 b4
            · simp only [hl, ↓reduceIte, Thread.alone, not_false_eq_true, ne_eq]
              exact ⟨fun c' h => by cases h; rfl, (by rintro ⟨⟩), (by rintro ⟨⟩)⟩
            · simp only [hl, ↓reduceIte, answerOf]
              cases hg : fromBinary buf with
              | panic => simp [replyT, Thread.alone]
              | oof => simp [replyT, Thread.alone]
              | ok g =>
                simp only [Res.ok_bind]
                by_cases hn : (g.isNil || g.out.isEmpty) = true
                · simp only [hn, ↓reduceIte, replyT, Thread.pure_eq, Thread.alone]
                  exact ⟨fun c' h => by cases h; rfl, (by rintro ⟨⟩), (by rintro ⟨⟩)⟩
                · simp only [hn, ↓reduceIte]
                  cases hh : handler g with
                  | panic => simp [replyT, Thread.alone]
                  | oof => simp [replyT, Thread.alone]
                  | ok r =>
                    simp only [Res.ok_bind]
                    cases hb : r.binary E with
                    | panic => simp [replyT, Thread.alone]
                    | oof => simp [replyT, Thread.alone]
                    | ok o =>
                      simp only [Res.ok_bind, replyT, Thread.bind_eq, Thread.pure_eq, Bool.false_eq_true, ↓reduceIte]
                      rw [writeT_alone]
                      cases w1 : c2.write (be32 (o.getD []).length) with
                      | mk ok c3 =>
                      cases ok with
                      | false =>
                        simp only [Thread.alone]
                        exact ⟨fun c' h => by cases h; rfl, (by rintro ⟨⟩), (by rintro ⟨⟩)⟩
                      | true =>
                        simp only
                        rw [writeT_alone]
                        cases w2 : c3.write (o.getD []) with
                        | mk ok c4 =>
                        cases ok with
                        | false =>
                          simp only [Thread.alone]
                          exact ⟨fun c' h => by cases h; rfl, (by rintro ⟨⟩), (by rintro ⟨⟩)⟩
                        | true => exact ih c4

/-- A goroutine that never panics, whatever the others do. -/
inductive NoPanic {σ α : Type} : Thread σ (Res α) → Prop where
  | done (r : Res α) : r ≠ .panic → NoPanic (.done r)
  | step (u : σ → σ) (n : σ → Thread σ (Res α)) : (∀ s, NoPanic (n s)) → NoPanic (.step u n)

theorem NoPanic.bind {σ α β : Type} {x : Thread σ β} {f : β → Thread σ (Res α)} (h : ∀ b, NoPanic (f b)) : NoPanic (x.bind f) := by
  induction x with
  | done a => exact h a
  | step u n ih => exact .step _ _ ih

theorem NoPanic.steps {σ α : Type} {t : Thread σ (Res α)} (h : NoPanic t) : ∀ (m : Nat) (s : σ), (t.steps m s).1 ≠ .done .panic := by
  induction h with
  | done r hr =>
    intro m s
    rw [Thread.steps_done]
    intro h
    cases h
    exact hr rfl
  | step u n _ ih =>
    intro m s
    cases m with
    | zero => intro h; cases h
    | succ m => exact ih s m (u s)

theorem noPanic_ok {σ α : Type} (a : α) : NoPanic (Thread.done (Res.ok a) : Thread σ (Res α)) := .done _ (by rintro ⟨⟩)
theorem noPanic_oof {σ α : Type} : NoPanic (Thread.done Res.oof : Thread σ (Res α)) := .done _ (by rintro ⟨⟩)

theorem fromBinary_noPanic (b : Bytes) : fromBinary b ≠ .panic := (C04_returns_partial b).2.1 _

theorem answerOf_noPanic {handler : Graph → Res Graph} (hh : ∀ g, handler g ≠ .panic) (hb : ∀ g r, handler g = .ok r → r.binary E ≠ .panic) (buf : Bytes) :
    answerOf E handler buf ≠ .panic := by
  unfold answerOf
  cases hg : fromBinary buf with
  | panic => exact absurd hg (fromBinary_noPanic buf)
  | oof => simp
  | ok g =>
    simp only [Res.ok_bind]
    split
    · simp
    · cases h1 : handler g with
      | panic => exact absurd h1 (hh g)
      | oof => simp
      | ok r =>
        simp only [Res.ok_bind]
        cases h2 : r.binary E with
        | panic => exact absurd h2 (hb g r h1)
        | oof => simp
        | ok o => simp

theorem processT_noPanic {handler : Graph → Res Graph} (hh : ∀ g, handler g ≠ .panic) (hb : ∀ g r, handler g = .ok r → r.binary E ≠ .panic) :
    ∀ f, NoPanic (processT E handler f)
  | 0 => noPanic_oof
  | f + 1 => by
    have ih := processT_noPanic hh hb f
    simp only [processT, Thread.bind_eq, Thread.pure_eq]
    refine .bind fun o => ?_
    cases o with
    | none => exact noPanic_ok _
    | some b4 =>
      simp only
      split
      · exact noPanic_ok _
      · split
        · exact noPanic_ok _
        · refine .bind fun o => ?_
          cases o with
          | none => exact noPanic_ok _
          | some buf =>
            simp only
            split
            · exact noPanic_ok _
            · cases ha : answerOf E handler buf with
              | panic => exact absurd ha (answerOf_noPanic E hh hb buf)
              | oof => exact noPanic_oof
              | ok o =>
                cases o with
                | none => exact noPanic_ok _
                | some b =>
                  simp only [replyT, Thread.bind_eq, Thread.pure_eq]
                  refine .bind fun w => ?_
                  cases w with
                  | false => exact noPanic_ok _
                  | true =>
                    simp only
                    refine .bind fun w => ?_
                    cases w with
                    | false => exact noPanic_ok _
                    | true => exact ih


/-! ## Calls -/

theorem readBody_mono (l : Nat) : ∀ (f l2 : Nat) (buf : Bytes) (c : Conn) (x : Except (Option RfErr) Bytes × Conn),
    readBody l f l2 buf c = .ok x → ∀ f' ≥ f, readBody l f' l2 buf c = .ok x
  | 0, _, _, _, _, h => by simp [readBody] at h
  | f + 1, l2, buf, c, x, h => by
    intro f' hf
    obtain ⟨f', rfl⟩ : ∃ k, f' = k + 1 := ⟨f' - 1, by omega⟩
    simp only [readBody] at h ⊢
    cases hr : c.read 10000 with
    | mk o c1 =>
    rw [hr] at h
    cases o with
    | none => exact h
    | some tmp =>
      cases tmp with
      | nil => exact h
      | cons t ts =>
        simp only at h ⊢
        split
        · rename_i hl
          rw [if_pos hl] at h
          exact h
        · rename_i hl
          rw [if_neg hl] at h
          exact readBody_mono l f _ _ _ _ h f' (by omega)

theorem readBodyT_alone (l : Nat) : ∀ (f l2 : Nat) (buf : Bytes) (c : Conn) (x : Except (Option RfErr) Bytes × Conn),
    readBody l f l2 buf c = .ok x → (readBodyT l f l2 buf).alone c = (.ok x.1, x.2)
  | 0, _, _, _, _, h => by simp [readBody] at h
  | f + 1, l2, buf, c, x, h => by
    simp only [readBody] at h
    simp only [readBodyT, Thread.bind_eq, Thread.pure_eq]
    rw [readT_alone]
    cases hr : c.read 10000 with
    | mk o c1 =>
    rw [hr] at h
    cases o with
    | none => cases h; rfl
    | some tmp =>
      cases tmp with
      | nil => cases h; rfl
      | cons t ts =>
        simp only at h ⊢
        split
        · rename_i hl
          simp only [hl, ↓reduceIte, Res.ok.injEq] at h
          subst h
          rfl
        · rename_i hl
          rw [if_neg hl] at h
          exact readBodyT_alone l f _ _ _ _ h

/-- `callV2` as a goroutine that is not interrupted is `callV2`. -/
theorem callT_alone (g : Graph) (c : Conn) {o : Option Bytes} (hg : g.binary E = .ok o) {r : Graph × Option RfErr} {c' : Conn}
    (h : callV2 E g c = .ok (r, c')) : ∃ N, ∀ fuel ≥ N, (callT fuel (o.getD [])).alone c = (.ok r, c') := by
  simp only [callV2, hg, Res.ok_bind] at h
  simp only [callT, Thread.bind_eq, Thread.pure_eq]
  simp only [writeT_alone]
  cases w1 : c.write (be32 (o.getD []).length) with
  | mk ok c1 =>
  rw [w1] at h
  cases ok with
  | false => cases h; exact ⟨0, fun _ _ => rfl⟩
  | true =>
    simp only at h ⊢
    simp only [writeT_alone]
    cases w2 : c1.write (o.getD []) with
    | mk ok c2 =>
    rw [w2] at h
    cases ok with
    | false => cases h; exact ⟨0, fun _ _ => rfl⟩
    | true =>
      simp only at h ⊢
      simp only [readT_alone]
      cases r4 : c2.read 4 with
      | mk o4 c3 =>
      rw [r4] at h
      cases o4 with
      | none => cases h; exact ⟨0, fun _ _ => rfl⟩
      | some b4 =>
        simp only at h ⊢
        by_cases hl : b4.length ≠ 4
        · simp only [hl, ↓reduceIte, Res.ok.injEq, Prod.mk.injEq, ne_eq, not_false_eq_true] at h ⊢
          exact ⟨0, fun _ _ => by simp [Thread.alone, h]⟩
        · simp only [hl, ↓reduceIte] at h ⊢
          cases hb : readBody (unBe32 b4) c3.fuel 0 [] c3 with
          | panic => simp [hb] at h
          | oof => simp [hb] at h
          | ok x =>
            rw [hb] at h
            refine ⟨c3.fuel, fun fuel hf => ?_⟩
            rw [Thread.alone_bind, readBodyT_alone _ _ _ _ _ _ (readBody_mono _ _ _ _ _ _ hb fuel hf)]
            obtain ⟨x, c4⟩ := x
            simp only [Res.ok_bind] at h
            cases x with
            | error e => simp only [Res.ok.injEq, Prod.mk.injEq] at h; simp [resultOf, Thread.alone, h]
            | ok buf3 =>
              simp only at h
              cases hr : fromBinary buf3 with
              | panic => simp [hr] at h
              | oof => simp [hr] at h
              | ok r3 =>
                simp only [hr, Res.ok_bind] at h
                simp only [resultOf, hr, Res.ok_bind]
                split
                · rename_i hn
                  simp only [hn, ↓reduceIte, Res.ok.injEq, Prod.mk.injEq] at h
                  simp [Thread.alone, h]
                · rename_i hn
                  simp only [hn, ↓reduceIte, Res.ok.injEq, Prod.mk.injEq, Bool.false_eq_true] at h
                  simp [Thread.alone, h]

theorem resultOf_noPanic {r : Res (Except (Option RfErr) Bytes)} (h : r ≠ .panic) : resultOf r ≠ .panic := by
  cases r with
  | panic => exact absurd rfl h
  | oof => simp [resultOf]
  | ok x =>
    cases x with
    | error e => simp [resultOf]
    | ok b =>
      simp only [resultOf]
      cases hb : fromBinary b with
      | panic => exact absurd hb (fromBinary_noPanic b)
      | oof => simp
      | ok r =>
        simp only [Res.ok_bind]
        split <;> simp

theorem NoPanic.bind_res {σ α β : Type} {x : Thread σ (Res β)} {f : Res β → Thread σ (Res α)} (hx : NoPanic x) (h : ∀ b, b ≠ .panic → NoPanic (f b)) :
    NoPanic (x.bind f) := by
  induction hx with
  | done a ha => exact h a ha
  | step u n _ ih => exact .step _ _ ih

theorem readBodyT_noPanic (l : Nat) : ∀ (f l2 : Nat) (buf : Bytes), NoPanic (readBodyT l f l2 buf)
  | 0, _, _ => noPanic_oof
  | f + 1, l2, buf => by
    simp only [readBodyT, Thread.bind_eq, Thread.pure_eq]
    refine .bind fun o => ?_
    split
    · exact noPanic_ok _
    · exact noPanic_ok _
    · split
      · exact noPanic_ok _
      · exact readBodyT_noPanic l f _ _

theorem callT_noPanic (fuel : Nat) (buf : Bytes) : NoPanic (callT fuel buf) := by
  simp only [callT, Thread.bind_eq, Thread.pure_eq]
  refine .bind fun o => ?_
  cases o with
  | false => exact noPanic_ok _
  | true =>
    refine .bind fun o => ?_
    cases o with
    | false => exact noPanic_ok _
    | true =>
      refine .bind fun o => ?_
      cases o with
      | none => exact noPanic_ok _
      | some b4 =>
        simp only
        split
        · exact noPanic_ok _
        · exact (readBodyT_noPanic _ _ _ _).bind_res fun r hr => .done _ (resultOf_noPanic hr)

end

/-! ## Goroutines that keep an invariant -/

/-- Every step of the goroutine keeps `P`, as long as the others keep it, and what it
returns satisfies `R`. -/
inductive Preserves {σ α : Type} (P : σ → Prop) (R : α → Prop) : Thread σ α → Prop where
  | done (a : α) : R a → Preserves P R (.done a)
  | step (u : σ → σ) (n : σ → Thread σ α) : (∀ s, P s → P (u s)) → (∀ s, P s → Preserves P R (n s)) → Preserves P R (.step u n)

theorem Preserves.run {σ α : Type} {P : σ → Prop} {R : α → Prop} : ∀ (sched : List Nat) {s : σ} {ts : List (Thread σ α)}, P s → (∀ t ∈ ts, Preserves P R t) →
    P (runSched sched s ts).1 ∧ ∀ t ∈ (runSched sched s ts).2, Preserves P R t
  | [], s, ts, hs, ht => ⟨hs, ht⟩
  | i :: is, s, ts, hs, ht => by
    simp only [runSched]
    split
    · rename_i u n hi
      have hk := ht _ (List.mem_of_getElem? hi)
      cases hk with
      | step _ _ h1 h2 =>
        refine Preserves.run is (h1 s hs) fun t ht' => ?_
        rcases mem_set_cases ht' with rfl | ht'
        · exact h2 s hs
        · exact ht t ht'
    · exact Preserves.run is hs ht

/-- The goroutine keeps `P` and, for every step it makes, `G`, if the others only make
steps that keep `P` and satisfy `T`; what it returns satisfies `R`. -/
inductive Tolerates {σ α : Type} (P : σ → Prop) (T G : σ → σ → Prop) (R : α → Prop) : σ → Thread σ α → Prop where
  | done (s : σ) (a : α) : R a → Tolerates P T G R s (.done a)
  | step (s : σ) (u : σ → σ) (n : σ → Thread σ α) : (∀ s', T s s' → P s' → P (u s')) → (∀ s', T s s' → P s' → G s' (u s')) →
      (∀ s', T s s' → P s' → Tolerates P T G R (u s') (n s')) → Tolerates P T G R s (.step u n)

theorem Tolerates.mono {σ α : Type} {P : σ → Prop} {T G : σ → σ → Prop} {R : α → Prop} (htr : ∀ a b c, T a b → T b c → T a c) {s s' : σ} {t : Thread σ α}
    (h : Tolerates P T G R s t) (hs : T s s') : Tolerates P T G R s' t := by
  cases h with
  | done _ a ha => exact .done _ a ha
  | step _ u n h1 h2 h3 => exact .step _ u n (fun x hx => h1 x (htr _ _ _ hs hx)) (fun x hx => h2 x (htr _ _ _ hs hx)) fun x hx => h3 x (htr _ _ _ hs hx)

/-- Goroutines that tolerate each other. -/
theorem Tolerates.run {σ α : Type} {P : σ → Prop} {T : Nat → σ → σ → Prop} {R : Nat → α → Prop} (hrf : ∀ i s, T i s s) (htr : ∀ i a b c, T i a b → T i b c → T i a c) :
    ∀ (sched : List Nat) {s : σ} {ts : List (Thread σ α)}, P s →
    (∀ i t, ts[i]? = some t → Tolerates P (T i) (fun a b => ∀ j, j ≠ i → T j a b) (R i) s t) →
    P (runSched sched s ts).1 ∧ ∀ (i : Nat) a, (runSched sched s ts).2[i]? = some (.done a) → R i a
  | [], s, ts, hs, ht => ⟨hs, fun i a hi => by cases ht i _ hi; assumption⟩
  | k :: ks, s, ts, hs, ht => by
    simp only [runSched]
    split
    · rename_i u n hk
      have hS := ht k _ hk
      cases hS with
      | step _ _ _ h1 h2 h3 =>
        refine Tolerates.run hrf htr ks (h1 s (hrf k s) hs) fun i t hi => ?_
        by_cases hik : i = k
        · subst hik
          obtain ⟨hl, _⟩ := List.getElem?_eq_some_iff.1 hk
          rw [List.getElem?_set_self hl, Option.some.injEq] at hi
          subst hi
          exact h3 s (hrf i s) hs
        · rw [List.getElem?_set_ne (Ne.symm hik)] at hi
          exact (ht i t hi).mono (htr i) (h2 s (hrf k s) hs i hik)
    · exact Tolerates.run hrf htr ks hs ht

theorem Tolerates.bind {σ α β : Type} {P : σ → Prop} {T G : σ → σ → Prop} {R : α → Prop} {R' : β → Prop} (htr : ∀ a b c, T a b → T b c → T a c) {f : α → Thread σ β}
    (hf : ∀ a, R a → ∀ s, Tolerates P T G R' s (f a)) {s : σ} {t : Thread σ α} (h : Tolerates P T G R s t) : Tolerates P T G R' s (t.bind f) := by
  induction h with
  | done s a ha => exact hf a ha s
  | step s u n h1 h2 _ ih => exact .step s _ _ h1 h2 ih

end Ogdl
