import Verif.Lemmas.Conc
import Verif.Lemmas.Rf
import Verif.Props.Log
import Verif.Props.Rf
import Verif.Props.Json

/-!
# C89 to C94: goroutines and crashes

A goroutine (`Thread`) makes atomic steps on a shared state; a schedule is the list of the
numbers of the goroutines that make the next steps.  `runSched sched s ts`: the state and
the goroutines after the schedule; `.done r` is one that has returned `r`.  `Spec.Merge`:
an interleaving of lists.  `Spec.startOf d recs k`: where the `k`-th of the records begins
that follow `d`.
-/

namespace Ogdl
open Spec

section
variable (E : Ext)

/-! ## C89: a log that is shared -/

/-- A call that nothing interrupts does what the sequential model says: `AddBinary`, `Get`
and `GetBinary` on a file. -/
theorem C89_alone (fuel h i : Nat) (auto : Bool) (b : Bytes) (s : FileSt) :
    ((addBinaryT h auto b).alone s).1 = ((Log.mk true s.data).addBinary b).2 ∧
    ((addBinaryT h auto b).alone s).2.data = ((Log.mk true s.data).addBinary b).1.data ∧
    ((getT fuel h i).alone s).1 = (Log.mk true s.data).get fuel i ∧ ((getT fuel h i).alone s).2.data = s.data ∧
    ((getBinaryT fuel h i).alone s).1 = (Log.mk true s.data).getBinary fuel i ∧ ((getBinaryT fuel h i).alone s).2.data = s.data := by
  obtain ⟨h1, h2, _⟩ := addBinaryT_alone h auto b s
  obtain ⟨h3, h4⟩ := getT_alone fuel h i ⟨true, s.data⟩ s rfl rfl
  obtain ⟨h5, h6⟩ := getBinaryT_alone fuel h i ⟨true, s.data⟩ s rfl rfl
  exact ⟨h1, h2, h3, h4, h5, h6⟩

/-- **C89 (part).** Any number of goroutines add records to one log (one handle) at the
same time.  Whatever the schedule, at every moment the file is what it was before followed
by whole records, an interleaving of what the goroutines have added so far: no record is
lost, duplicated or changed.  The position that an `Add` returned is that of a record not
behind its own.  Missing: the position may be that of another record, and `Get` on the same
handle or an `Add` on another handle can destroy records (`C89_refuted`). -/
theorem C89_adds_partial (h : Nat) (auto : Bool) (bss : List (List Bytes)) (s s' : FileSt) (ts' : List (Thread FileSt (List Int))) (sched : List Nat)
    (hrun : runSched sched s (bss.map (addsT h auto)) = (s', ts')) :
    ∃ (lgs : List (List (Bytes × Int))) (lg : List (Bytes × Int)), Merge lgs lg ∧ lgs.length = bss.length ∧
      s'.data = s.data ++ (lg.map (·.1)).flatten ∧
      (∀ (i : Nat) bs, bss[i]? = some bs → ∃ l, lgs[i]? = some l ∧ l.map (·.1) <+: bs ∧
        ∀ ps, ts'[i]? = some (.done ps) → l.map (·.1) = bs ∧ l.map (·.2) = ps) ∧
      ∀ (k : Nat) b p, lg[k]? = some (b, p) → ∃ k' ≤ k, p = startOf s.data (lg.map (·.1)) k' := by
  rw [← start_code] at hrun
  obtain ⟨as, lg, hts, H⟩ := Adding.run sched (Adding.start (m := 0) (h := h) (auto := auto) (bss := bss) rfl ⟨Nat.zero_le _, Nat.zero_le _⟩) hrun
  simp only [List.nil_append] at H
  have hl : as.length = bss.length := by rw [← H.all, List.length_map]
  refine ⟨as.map (·.lg), lg, H.merge, by simpa using hl, H.data, fun i bs hi => ?_, H.pos⟩
  rw [← H.all, List.getElem?_map, Option.map_eq_some_iff] at hi
  obtain ⟨a, ha, rfl⟩ := hi
  refine ⟨a.lg, by simp [ha], ?_, fun ps hp => ?_⟩
  · obtain ⟨l, t, pc⟩ := a
    cases pc <;> exact ⟨_, rfl⟩
  · rw [hts, List.getElem?_map, ha, Option.map_some, Option.some.injEq] at hp
    obtain ⟨_, ⟨l, rfl⟩, h2⟩ := Adder.code_done hp
    exact ⟨by simp [Adder.all], h2.symm⟩

/-- The record of a graph with one node `a`. -/
def recA : Bytes := [1, 71, 0, 1, 97, 0, 0]
/-- The record of a graph with one node `b`. -/
def recB : Bytes := [1, 71, 0, 1, 98, 0, 0]
/-- The header of a message of seven bytes. -/
def hdr7 : Bytes := [0, 0, 0, 7]

/-- They are what `Add` stores. -/
theorem recA_recB : (Graph.node .nil [.node (.str b!"a") []]).binary E = .ok (some recA) ∧ (Graph.node .nil [.node (.str b!"b") []]).binary E = .ok (some recB) :=
  ⟨rfl, rfl⟩

/-- A schedule in which both goroutines finish meets the hypotheses of `C89_adds_partial`. -/
example : ((runSched [0, 1, 1, 0, 1, 0, 0, 0, 0, 1, 1, 1] ⟨[], fun _ => 0, 0⟩ [addsT 0 true [recA, recB], addsT 0 true [recB, recB]]).2.map Thread.returned,
    (runSched [0, 1, 1, 0, 1, 0, 0, 0, 0, 1, 1, 1] ⟨[], fun _ => 0, 0⟩ [addsT 0 true [recA, recB], addsT 0 true [recB, recB]]).1.data) =
    ([some [0, 14], some [0, 21]], recB ++ recA ++ recB ++ recB) := by decide

/-- **C89 refuted.** (1) Two `Add`s at the same time return the same position, and `Get`
there gives only one of the records.  (2) An `Add` and a `Get` at the same time: `Add`
returns the position 7, but it has overwritten the record at 0, and there is nothing at 7.
(3) Two `Add`s on two handles of the same file: both return, one record is lost. -/
theorem C89_refuted :
    (∃ sched s' ts', runSched sched ⟨[], fun _ => 0, 0⟩ [addsT 0 true [recA], addsT 0 true [recB]] = (s', ts') ∧
      ts' = [.done [0], .done [0]] ∧ Log.get 100 ⟨true, s'.data⟩ 0 = .ok (.node (.str b!"_") [.node (.str b!"b") []], 7, true)) ∧
    (∃ sched s' ts', runSched sched ⟨recA, fun _ => 0, 0⟩ [addsT 0 true [recB], (getT 100 0 0).bind fun _ => .done []] = (s', ts') ∧
      ts' = [.done [7], .done []] ∧ s'.data = recB ∧ Log.get 100 ⟨true, s'.data⟩ 7 = .ok (.nil, -1, true)) ∧
    (∃ sched s' ts', runSched sched ⟨[], fun _ => 0, 0⟩ [addsT 0 true [recA], addsT 1 true [recB]] = (s', ts') ∧
      ts' = [.done [0], .done [0]] ∧ s'.data = recB) :=
  ⟨⟨[0, 1, 1, 0, 0, 1], _, _, rfl, rfl, rfl⟩, ⟨[0, 1, 0, 1, 0], _, _, rfl, rfl, rfl, rfl⟩, ⟨[0, 1, 0, 1, 0, 1], _, _, rfl, rfl, rfl⟩⟩

/-- A goroutine that uses a log: it adds records, or reads one, through the handle `h`. -/
inductive LogUser where
  | adds (h : Nat) (auto : Bool) (recs : List Bytes)
  | get (fuel h i : Nat)
  | getBinary (fuel h i : Nat)

namespace LogUser

/-- Its handle. -/
def handle : LogUser → Nat
  | adds h _ _ => h
  | get _ h _ => h
  | getBinary _ h _ => h

/-- It only reads. -/
def reads : LogUser → Bool
  | adds _ _ _ => false
  | _ => true

/-- Its program; the results are told apart. -/
def code : LogUser → Thread FileSt (List Int ⊕ Res (Graph × Int × Bool) ⊕ Res (Bytes × Int × Bool))
  | adds h auto recs => (addsT h auto recs).bind fun ps => .done (.inl ps)
  | get fuel h i => (getT fuel h i).bind fun r => .done (.inr (.inl r))
  | getBinary fuel h i => (getBinaryT fuel h i).bind fun r => .done (.inr (.inr r))

end LogUser

theorem overwrite_prefix {d x : Bytes} {o : Nat} (b : Bytes) (hd : d <+: x) (ho : d.length ≤ o) : d <+: overwrite x o b := by
  obtain ⟨y, rfl⟩ := hd
  refine ⟨y.take (o - d.length) ++ List.replicate (o - (d ++ y).length) 0 ++ b ++ (d ++ y).drop (o + b.length), ?_⟩
  rw [overwrite, List.take_append, List.take_of_length_le ho]
  simp

/-- What user `u` needs of the others: a reader that its offset stays, a writer that its
offset does not get in front of the old content. -/
def needs (d : Bytes) : LogUser → FileSt → FileSt → Prop
  | .adds h _ _, s, s' => d.length ≤ s.off h → d.length ≤ s'.off h
  | .get _ h _, s, s' => s'.off h = s.off h
  | .getBinary _ h _, s, s' => s'.off h = s.off h

theorem needs_refl (d : Bytes) (u : LogUser) (s : FileSt) : needs d u s s := by cases u <;> simp [needs]
theorem needs_trans (d : Bytes) (u : LogUser) (a b c : FileSt) (h1 : needs d u a b) (h2 : needs d u b c) : needs d u a c := by
  cases u <;> simp only [needs] at * <;> first | exact fun h => h2 (h1 h) | rw [h2, h1]

theorem needs_off (d : Bytes) (u : LogUser) (s : FileSt) (data : Bytes) (k h o : Nat) (hh : u.handle = h → u.reads = false ∧ d.length ≤ o) :
    needs d u s ⟨data, setOff s.off h o, k⟩ := by
  cases u <;> simp only [needs, setOff, LogUser.handle, LogUser.reads] at *
  · intro hs
    split
    · rename_i he; exact (hh he).2
    · exact hs
  · split
    · rename_i he; cases (hh he).1
    · rfl
  · split
    · rename_i he; cases (hh he).1
    · rfl

theorem needs_same (d : Bytes) (u : LogUser) (s : FileSt) (data : Bytes) (k : Nat) : needs d u s ⟨data, s.off, k⟩ := by
  cases u <;> simp [needs]

theorem recordLength_record {g : Graph} (hg : Encodable E g) {b : Bytes} (hb : g.binary E = .ok (some b)) (rest : Bytes) {fuel : Nat} (hf : b.length ≤ fuel) :
    recordLength fuel (b ++ rest) = .ok (some b.length) ∧
    (BinR.mk (b ++ rest) 0).parse fuel = .ok (.node (.str b!"_") (visibleL E g.out), ⟨rest, b.length⟩) ∧ b.length ≠ 0 := by
  obtain ⟨bs, h1, h4, h2⟩ := parse_binary E hg
  rw [hb, Res.ok.injEq, Option.some.injEq] at h1
  subst h1
  have hp := h2 rest 0 fuel hf
  have hp' := hp
  simp only [Nat.zero_add] at hp'
  refine ⟨?_, hp', by omega⟩
  simp only [BinR.parse] at hp
  simp only [recordLength]
  split at hp
  · simp at hp
  · rename_i p1 hh
    rw [hh]
    simp only
    cases hl : p1.lines fuel fuel {} with
    | panic => simp [hl] at hp
    | oof => simp [hl] at hp
    | ok r =>
      obtain ⟨ev', p2⟩ := r
      simp only [hl, Res.ok_bind] at hp
      cases ht : ev'.tree with
      | panic => simp [ht] at hp
      | oof => simp [ht] at hp
      | ok gg =>
        simp only [ht, Res.ok_bind, Res.ok.injEq, Prod.mk.injEq] at hp
        obtain ⟨_, rfl⟩ := hp
        rw [skip_of_lines fuel p1 _ fuel _ _ hl]
        simp

/-- What a user of the log gets: a reader what was at its position in the old content `d`
followed by something. -/
def gets (d : Bytes) : LogUser → List Int ⊕ Res (Graph × Int × Bool) ⊕ Res (Bytes × Int × Bool) → Prop
  | .get fuel _ i, .inr (.inl r) => ∃ y, r = (do
      let (g, p) ← (BinR.mk ((d ++ y).drop i) 0).parse fuel
      if p.n = 0 then .ok (g, -1, true) else .ok (g, (i : Int) + p.n, true))
  | .getBinary fuel _ i, .inr (.inr r) => ∃ y y', r = (match recordLength fuel ((d ++ y).drop i) with
      | .ok none => .ok ([], 0, true)
      | .ok (some n) => .ok (((d ++ y').drop i).take n, n, true)
      | .panic => .panic
      | .oof => .oof)
  | .adds _ _ _, .inl _ => True
  | _, _ => False

theorem adds_tolerates (d : Bytes) {G : FileSt → FileSt → Prop} (h : Nat) (auto : Bool)
    (hoff : ∀ s data o k, d.length ≤ o → G s ⟨data, setOff s.off h o, k⟩) (hsame : ∀ s data k, G s ⟨data, s.off, k⟩) :
    ∀ (recs : List Bytes) (s : FileSt), Tolerates (fun s => d <+: s.data) (fun s s' => d.length ≤ s.off h → d.length ≤ s'.off h) G (fun _ => True) s (addsT h auto recs)
  | [], s => .done _ _ trivial
  | b :: bs, s => by
    have ih := adds_tolerates d h auto hoff hsame bs
    simp only [addsT, addBinaryT, seekEnd, writeFile, Thread.act, Thread.bind_eq, Thread.pure_eq, Thread.step_bind, Thread.done_bind, Thread.bind_assoc']
    refine .step _ _ _ (fun s' _ hp => hp) (fun s' _ hp => hoff s' _ _ _ hp.length_le) fun s' _ hp => ?_
    have hs' : d.length ≤ setOff s'.off h s'.data.length h := by rw [setOff_self]; exact hp.length_le
    refine .step _ _ _ (fun s2 ht hp2 => overwrite_prefix b hp2 (ht hs')) (fun s2 ht hp2 => ?_) fun s2 ht hp2 => ?_
    · refine hoff s2 _ _ _ ?_
      have : d.length ≤ s2.off h := ht hs'
      omega
    · have hrest : ∀ s3, Tolerates (fun s => d <+: s.data) (fun s s' => d.length ≤ s.off h → d.length ≤ s'.off h) G (fun _ => True) s3
          ((addsT h auto bs).bind fun ps => Thread.done (((s'.data.length : Nat) : Int) :: ps)) := fun s3 =>
        Tolerates.bind (R := fun _ => True) (fun _ _ _ f g x => g (f x)) (fun a _ s => .done _ _ trivial) (ih s3)
      cases auto with
      | false => exact hrest _
      | true =>
        refine .step _ _ _ (fun s3 _ hp3 => hp3) (fun s3 _ _ => hsame s3 _ _) fun s3 _ _ => hrest _

theorem user_tolerates (d : Bytes) {G : FileSt → FileSt → Prop} (u : LogUser) (s : FileSt)
    (hoff : ∀ s data o k, (u.reads = false → d.length ≤ o) → G s ⟨data, setOff s.off u.handle o, k⟩) (hsame : ∀ s data k, G s ⟨data, s.off, k⟩) :
    Tolerates (fun s => d <+: s.data) (needs d u) G (gets d u) s u.code := by
  cases u with
  | adds h auto recs =>
    have := adds_tolerates d (G := G) h auto (fun s data o k ho => hoff s data o k fun _ => ho) hsame recs s
    exact this.bind (fun _ _ _ f g x => g (f x)) fun a _ s => .done _ _ trivial
  | get fuel h i =>
    simp only [LogUser.code, getT, seekTo, readFile, Thread.act, Thread.bind_eq, Thread.pure_eq, Thread.step_bind, Thread.done_bind]
    refine .step _ _ _ (fun s' _ hp => hp) (fun s' _ hp => hoff s' _ _ _ (by rintro ⟨⟩)) fun s' _ hp => ?_
    refine .step _ _ _ (fun s' _ hp => hp) (fun s' _ hp => hoff s' _ _ _ (by rintro ⟨⟩)) fun s2 ht hp2 => .done _ _ ?_
    obtain ⟨y, hy⟩ := hp2
    simp only [needs, setOff_self] at ht
    refine ⟨y, ?_⟩
    rw [hy, ht]
  | getBinary fuel h i =>
    simp only [LogUser.code, getBinaryT, seekTo, readFile, Thread.act, Thread.bind_eq, Thread.step_bind, Thread.done_bind]
    refine .step _ _ _ (fun s' _ hp => hp) (fun s' _ hp => hoff s' _ _ _ (by rintro ⟨⟩)) fun s' _ hp => ?_
    refine .step _ _ _ (fun s' _ hp => hp) (fun s' _ hp => hoff s' _ _ _ (by rintro ⟨⟩)) fun s2 ht hp2 => ?_
    obtain ⟨y, hy⟩ := hp2
    simp only [needs, setOff_self] at ht
    rw [ht, ← hy]
    cases hr : recordLength fuel ((d ++ y).drop i) with
    | panic => exact .done _ _ ⟨y, y, by rw [hr]⟩
    | oof => exact .done _ _ ⟨y, y, by rw [hr]⟩
    | ok o =>
      cases o with
      | none => exact .done _ _ ⟨y, y, by rw [hr]⟩
      | some n =>
        refine .step _ _ _ (fun s' _ hp => hp) (fun s' _ hp => hsame s' _ _) fun s3 _ hp3 => ?_
        obtain ⟨y', hy'⟩ := hp3
        refine .done _ _ ⟨y, y', ?_⟩
        rw [hr, hy']

/-- **C89 (part).** Any number of goroutines add records, through any handles, and others
read, each through a handle of its own.  Whatever the schedule, nothing that was in the
file before is changed, and a `Get` or a `GetBinary` that has returned has given the graph
and the bytes of the record that was at its position before.  Missing: records added
meanwhile through different handles (`C89_refuted`). -/
theorem C89_readers_partial (us : List LogUser) (s s' : FileSt) (ts' : List (Thread FileSt (List Int ⊕ Res (Graph × Int × Bool) ⊕ Res (Bytes × Int × Bool)))) (sched : List Nat)
    (hh : ∀ (i j : Nat) u v, us[i]? = some u → us[j]? = some v → i ≠ j → u.reads = true → u.handle ≠ v.handle)
    (hrun : runSched sched s (us.map LogUser.code) = (s', ts')) :
    s.data <+: s'.data ∧
    ∀ (g : Graph) (b : Bytes), Encodable E g → g.binary E = .ok (some b) → ∀ (pos fuel h : Nat), b <+: s.data.drop pos → b.length ≤ fuel →
      (∀ (i : Nat) r, us[i]? = some (.get fuel h pos) → ts'[i]? = some (.done r) →
        r = .inr (.inl (.ok (.node (.str b!"_") (visibleL E g.out), (pos : Int) + b.length, true)))) ∧
      (∀ (i : Nat) r, us[i]? = some (.getBinary fuel h pos) → ts'[i]? = some (.done r) → r = .inr (.inr (.ok (b, b.length, true)))) := by
  have key := Tolerates.run (P := fun x : FileSt => s.data <+: x.data) (T := fun i a b => ∀ u, us[i]? = some u → needs s.data u a b)
    (R := fun i r => ∀ u, us[i]? = some u → gets s.data u r) (fun i x u _ => needs_refl _ u x)
    (fun i a b c h1 h2 u hu => needs_trans _ u a b c (h1 u hu) (h2 u hu)) sched (s := s) (ts := us.map LogUser.code) (List.prefix_refl _)
    (by
      intro i t hi
      rw [List.getElem?_map, Option.map_eq_some_iff] at hi
      obtain ⟨u, hu, rfl⟩ := hi
      have ht : (fun a b => ∀ u, us[i]? = some u → needs s.data u a b) = needs s.data u := by
        funext a b
        rw [hu]
        refine propext ⟨fun h => h u rfl, fun h v hv => ?_⟩
        cases hv
        exact h
      have hr : (fun r => ∀ u, us[i]? = some u → gets s.data u r) = gets s.data u := by
        funext r
        rw [hu]
        refine propext ⟨fun h => h u rfl, fun h v hv => ?_⟩
        cases hv
        exact h
      rw [ht, hr]
      refine user_tolerates s.data u s ?_ ?_
      · intro x data o k ho j hj v hv
        refine needs_off s.data v x data k u.handle o fun he => ?_
        have h1 : v.reads = false := by
          cases h2 : v.reads with
          | false => rfl
          | true => exact absurd he (hh j i v u hv hu hj h2)
        refine ⟨h1, ho ?_⟩
        cases h2 : u.reads with
        | false => rfl
        | true => exact absurd he.symm (hh i j u v hu hv (Ne.symm hj) h2)
      · intro x data k j _ v _
        exact needs_same s.data v x data k)
  rw [hrun] at key
  obtain ⟨k1, k2⟩ := key
  refine ⟨k1, fun g b hg hb pos fuel h hpos hf => ⟨fun i r hi hr => ?_, fun i r hi hr => ?_⟩⟩
  · obtain ⟨rest, hrest⟩ := hpos
    have hlen : b.length ≠ 0 := (recordLength_record E hg hb [] hf).2.2
    have hposl : pos ≤ s.data.length := by
      refine Nat.le_of_not_lt fun hc => hlen ?_
      have := congrArg List.length hrest
      simp only [List.length_append, List.length_drop] at this
      omega
    have hd : ∀ y, (s.data ++ y).drop pos = b ++ (rest ++ y) := fun y => by
      rw [List.drop_append_of_le_length hposl, ← hrest, List.append_assoc]
    have hgets := k2 i r hr _ hi
    rcases r with r | r | r
    · exact hgets.elim
    · obtain ⟨y, rfl⟩ := hgets
      obtain ⟨_, h2, h3⟩ := recordLength_record E hg hb (rest ++ y) hf
      rw [hd, h2]
      simp [h3]
    · exact hgets.elim
  · obtain ⟨rest, hrest⟩ := hpos
    have hlen : b.length ≠ 0 := (recordLength_record E hg hb [] hf).2.2
    have hposl : pos ≤ s.data.length := by
      refine Nat.le_of_not_lt fun hc => hlen ?_
      have := congrArg List.length hrest
      simp only [List.length_append, List.length_drop] at this
      omega
    have hd : ∀ y, (s.data ++ y).drop pos = b ++ (rest ++ y) := fun y => by
      rw [List.drop_append_of_le_length hposl, ← hrest, List.append_assoc]
    have hgets := k2 i r hr _ hi
    rcases r with r | r | r
    · exact hgets.elim
    · exact hgets.elim
    · obtain ⟨y, y', rfl⟩ := hgets
      obtain ⟨h1, _, _⟩ := recordLength_record E hg hb (rest ++ y) hf
      rw [hd, h1, hd]
      simp

/-- Two writers on one handle, one on another, and a reader of each kind, on a file with a
record. -/
example : Encodable E (.node .nil [.node (.str b!"a") []]) ∧ recA <+: recA.drop 0 ∧
    ∀ (i j : Nat) u v, [LogUser.adds 0 true [recB], .adds 0 false [recA], .adds 1 true [recB], .get 7 2 0, .getBinary 7 3 0][i]? = some u →
      [LogUser.adds 0 true [recB], .adds 0 false [recA], .adds 1 true [recB], .get 7 2 0, .getBinary 7 3 0][j]? = some v → i ≠ j → u.reads = true → u.handle ≠ v.handle := by
  refine ⟨?_, by decide, ?_⟩
  · simp [Encodable, NoNil, NoNilL, AllThisL, AllThis, Storable, vbytes, visibleL, visible, depthL, depth]
  · intro i j u v hi hj hij hr
    rcases i with _ | _ | _ | _ | _ | i <;> simp at hi <;> subst hi <;> simp [LogUser.reads] at hr <;>
      rcases j with _ | _ | _ | _ | _ | j <;> simp at hj <;> subst hj <;> simp [LogUser.handle] at hij ⊢

/-! ## C93: a record survives a crash -/

/-- `recs` are the records that `Add` stores for `gs`. -/
def Records (gs : List Graph) (recs : List Bytes) : Prop :=
  recs.length = gs.length ∧ ∀ (j : Nat) g, gs[j]? = some g → Encodable E g ∧ ∃ b, recs[j]? = some b ∧ g.binary E = .ok (some b)

/-- **C93.** With the synchronisation that `OpenLog` sets, a record whose `Add` has
returned survives a crash at any later moment: whatever other goroutines add meanwhile
through the same handle and however far they have come, and whatever part `k` of the file
the crash leaves, provided it is at least what `Sync` had brought to the disk, `Get` at the
position that `Add` returned gives the graph, also when the log is written again later. -/
theorem C93_durable (h : Nat) (gs : List Graph) (recs : List Bytes) (hg : Records E gs recs)
    (s0 s1 s2 : FileSt) (ps : List Int) (h1 : (addsT h true recs).alone s0 = (ps, s1))
    (bss : List (List Bytes)) (sched : List Nat) (ts : List (Thread FileSt (List Int))) (h2 : runSched sched s1 (bss.map (addsT h true)) = (s2, ts))
    (k : Nat) (hk : s2.synced ≤ k) (later : Bytes) (j : Nat) (g : Graph) (hj : gs[j]? = some g) :
    ∃ pos b, ps[j]? = some pos ∧ g.binary E = .ok (some b) ∧ ∀ fuel ≥ b.length,
      Log.get fuel ⟨true, s2.data.take k ++ later⟩ pos = .ok (.node (.str b!"_") (visibleL E g.out), pos + b.length, true) := by
  obtain ⟨he, b, hb, hbin⟩ := hg.2 j g hj
  obtain ⟨a1, a2, a3, a4⟩ := addsT_alone h true recs s0
  rw [h1] at a1 a2 a3 a4
  have hjl : j < recs.length := (List.getElem?_eq_some_iff.1 hb).1
  have hne : recs ≠ [] := by rintro rfl; simp at hjl
  have hsy : s1.synced = s1.data.length := a4 rfl hne
  rw [← start_code] at h2
  obtain ⟨as, lg, _, H⟩ := Adding.run sched (Adding.start (m := s1.synced) (h := h) (auto := true) (bss := bss) rfl ⟨Nat.le_refl _, by omega⟩) h2
  refine ⟨_, b, a3 j hjl, hbin, fun fuel hf => ?_⟩
  have hra := record_at s0.data recs j b hb
  have hd : s1.data.drop (s0.data ++ (recs.take j).flatten).length = b ++ (recs.drop (j + 1)).flatten := by
    simp only at a1
    rw [a1]; exact hra
  have hnn : ¬ (startOf s0.data recs j < 0) := by simp only [startOf]; omega
  have htn : (startOf s0.data recs j).toNat = (s0.data ++ (recs.take j).flatten).length := by simp only [startOf, Int.toNat_natCast]
  have hlen1 : (s0.data ++ (recs.take j).flatten).length ≤ s1.data.length := by
    have h3 := (recordLength_record E he hbin [] hf).2.2
    have := congrArg List.length hd
    simp only [List.length_drop, List.length_append] at this ⊢
    omega
  have hm : s1.synced ≤ k := Nat.le_trans H.synced.1 hk
  have hpre : ∃ y, s2.data.take k ++ later = s1.data ++ y := by
    refine ⟨((lg.map (·.1)).flatten).take (k - s1.data.length) ++ later, ?_⟩
    have := H.data
    simp only [List.nil_append] at this
    rw [this, List.take_append, List.take_of_length_le (by omega), List.append_assoc]
  obtain ⟨y, hy⟩ := hpre
  simp only [Log.get, hnn, Bool.not_true, decide_false, Bool.or_self, Bool.false_eq_true, ↓reduceIte, htn]
  rw [hy, List.drop_append_of_le_length hlen1, hd, List.append_assoc]
  obtain ⟨_, h4, h5⟩ := recordLength_record E he hbin ((recs.drop (j + 1)).flatten ++ y) hf
  rw [h4]
  simp [h5, startOf]

/-- Two records, one of them with a goroutine that has written half of its records. -/
example : ∃ s1 s2 ts, (addsT 0 true [recA, recB]).alone ⟨[], fun _ => 0, 0⟩ = ([0, 7], s1) ∧
    runSched [0, 1, 1, 0, 0] s1 ([[recA, recA], [recB]].map (addsT 0 true)) = (s2, ts) ∧ s2.synced = 28 :=
  ⟨_, _, _, rfl, rfl, rfl⟩

/-- With `SetSync(false)` a record whose `Add` has returned can be lost. -/
theorem C93_unsynced : ∃ s1, (addsT 0 false [recA]).alone ⟨[], fun _ => 0, 0⟩ = ([0], s1) ∧ s1.synced = 0 ∧
    Log.get 100 ⟨true, s1.data.take 0⟩ 0 = .ok (.nil, -1, true) := ⟨_, rfl, rfl, rfl⟩

/-! ## C94: reading a log after a crash -/

theorem logRun_append : ∀ (ops ops' : List LogOp) (l0 l1 l2 : Log) (qs qs' : List Int), logRun E l0 ops = .ok (l1, qs) → logRun E l1 ops' = .ok (l2, qs') →
    logRun E l0 (ops ++ ops') = .ok (l2, qs ++ qs') := by
  intro ops
  induction ops with
  | nil =>
    intro ops' l0 l1 l2 qs qs' h1 h2
    simp only [logRun, Res.ok.injEq, Prod.mk.injEq] at h1
    obtain ⟨rfl, rfl⟩ := h1
    exact h2
  | cons op ops ih =>
    intro ops' l0 l1 l2 qs qs' h1 h2
    simp only [logRun] at h1
    cases h3 : op.run E l0 with
    | panic => simp [h3] at h1
    | oof => simp [h3] at h1
    | ok r =>
      obtain ⟨lx, p⟩ := r
      simp only [h3, Res.ok_bind] at h1
      cases h4 : logRun E lx ops with
      | panic => simp [h4] at h1
      | oof => simp [h4] at h1
      | ok r2 =>
        obtain ⟨ly, qx⟩ := r2
        simp only [h4, Res.ok_bind, Res.ok.injEq, Prod.mk.injEq] at h1
        obtain ⟨rfl, rfl⟩ := h1
        simp only [List.cons_append, logRun, h3, Res.ok_bind, ih ops' lx ly l2 qx qs' h4 h2]

theorem logRun_records {gs : List Graph} {recs : List Bytes} (hg : Records E gs recs) : ∀ m, m ≤ gs.length →
    ∃ qs, logRun E ⟨true, []⟩ ((gs.take m).map .add) = .ok (⟨true, (recs.take m).flatten⟩, qs)
  | 0, _ => ⟨[], rfl⟩
  | m + 1, hm => by
    obtain ⟨qs, hq⟩ := logRun_records hg m (by omega)
    have hml : m < gs.length := by omega
    obtain ⟨_, b, hb, hbin⟩ := hg.2 m gs[m] (by simp [hml])
    have h5 : logRun E ⟨true, (recs.take m).flatten⟩ [.add gs[m]] = .ok (⟨true, (recs.take m).flatten ++ b⟩, [(((recs.take m).flatten.length : Nat) : Int)]) := by
      simp only [logRun, LogOp.run, Log.add, hbin, Res.ok_bind, Log.addBinary]
    have h6 := logRun_append E _ _ _ _ _ _ _ hq h5
    refine ⟨qs ++ [(((recs.take m).flatten.length : Nat) : Int)], ?_⟩
    rw [List.take_add_one, List.map_append, List.getElem?_eq_getElem hml, List.take_add_one, hb]
    simpa using h6

/-- **C94 (part).** If the crash has cut the file between two records, then after further
`Add`s following the positions from 0 gives the graphs that were left and then the new
ones.  Missing: a file cut inside a record (`C94_refuted`, `C94_hang_refuted`). -/
theorem C94_partial (gs gs' : List Graph) (recs : List Bytes) (hg : Records E gs recs) (hg' : ∀ g ∈ gs', Encodable E g)
    (n : Nat) (hn : n ≤ gs.length) (l : Log) (ps : List Int) (hrun : logRun E ⟨true, (recs.take n).flatten⟩ (gs'.map .add) = .ok (l, ps))
    (fuel steps : Nat) (hf : l.data.length ≤ fuel) (hs : n + gs'.length < steps) :
    followLog l fuel steps 0 = .ok ((gs.take n ++ gs').map fun g => .node (.str b!"_") (visibleL E g.out)) := by
  obtain ⟨qs, hq⟩ := logRun_records E hg n hn
  have h1 := logRun_append E _ _ _ _ _ _ _ hq hrun
  rw [← List.map_append] at h1
  refine C06_enumerate E l (gs.take n ++ gs') (qs ++ ps) h1 ?_ fuel steps hf ?_
  · intro g hm
    rcases List.mem_append.1 hm with hm | hm
    · obtain ⟨j, hj⟩ := List.getElem?_of_mem hm
      rw [List.getElem?_take] at hj
      split at hj
      · exact (hg.2 j g hj).1
      · cases hj
    · exact hg' g hm
  · simp only [List.length_append, List.length_take]; omega

/-- Wherever the file was cut, also inside a record, `Get` at the position that a later
`Add` returns gives its graph. -/
theorem C94_later_partial (left : Bytes) (gs' : List Graph) (hg' : ∀ g ∈ gs', Encodable E g) (l : Log) (ps : List Int)
    (hrun : logRun E ⟨true, left⟩ (gs'.map .add) = .ok (l, ps)) (k : Nat) (g : Graph) (hk : gs'[k]? = some g) :
    ∃ pos bs, ps[k]? = some pos ∧ g.binary E = .ok (some bs) ∧ (left.length : Int) ≤ pos ∧
      ∀ fuel ≥ l.data.length, l.get fuel pos = .ok (.node (.str b!"_") (visibleL E g.out), pos + bs.length, true) := by
  obtain ⟨pos, bs, h1, h2, h3⟩ := C06_get_added E ⟨true, left⟩ l (gs'.map .add) ps rfl hrun k g (by simp [hk]) (hg' g (List.mem_of_getElem? hk))
  refine ⟨pos, bs, h1, h2, ?_, h3⟩
  obtain ⟨recs, _, _, _, _, e5⟩ := logRun_data E _ _ l ps hrun
  obtain ⟨b, _, g2, g3⟩ := e5 k (.add g) (by simp [hk])
  rcases g3 with g3 | g3
  · cases g3
    have := hg' _ (List.mem_of_getElem? hk)
    simp [Encodable, NoNil] at this
  · rw [h1, Option.some.injEq] at g3
    simp only [g3, List.length_append]
    omega

theorem records_ab : Records E [.node .nil [.node (.str b!"a") []], .node .nil [.node (.str b!"b") []]] [recA, recB] := by
  refine ⟨rfl, ?_⟩
  intro j g hj
  rcases j with _ | _ | j <;> simp at hj
  · subst hj
    exact ⟨by simp [Encodable, NoNil, NoNilL, AllThisL, AllThis, Storable, vbytes, visibleL, visible, depthL, depth], recA, rfl, rfl⟩
  · subst hj
    exact ⟨by simp [Encodable, NoNil, NoNilL, AllThisL, AllThis, Storable, vbytes, visibleL, visible, depthL, depth], recB, rfl, rfl⟩

/-- Two records of which one is left, and a new one. -/
example : Records E [.node .nil [.node (.str b!"a") []], .node .nil [.node (.str b!"b") []]] [recA, recB] ∧
    ∃ l ps, logRun E ⟨true, ([recA, recB].take 1).flatten⟩ ([.node .nil [.node (.str b!"b") []]].map .add) = .ok (l, ps) ∧ l.data.length = 14 :=
  ⟨records_ab E, _, _, rfl, rfl⟩

/-- **C94 refuted.** A crash leaves five bytes of a record; another record is added later.
Following the positions from 0 gives one graph, with the nodes `a\x01G` and `b`, that
nobody added. -/
theorem C94_refuted : ∃ l ps, logRun E ⟨true, recA.take 5⟩ [.add (.node .nil [.node (.str b!"b") []])] = .ok (l, ps) ∧ ps = [5] ∧
    followLog l 100 10 0 = .ok [.node (.str b!"_") [.node (.str [97, 1, 71]) [], .node (.str b!"b") []]] := ⟨_, _, rfl, rfl, rfl⟩

/-- Without the later record `Get` at 0 never returns. -/
theorem C94_hang_refuted : ∀ fuel, Log.get fuel ⟨true, recA.take 5⟩ 0 = .oof := by
  intro fuel
  have h1 : ∀ fuel, fromBinaryFuel fuel [1, 71, 0, 1, 97] = .oof := by
    intro fuel
    cases fuel with
    | zero => rfl
    | succ f =>
      have hl : (BinR.mk [1, 97] 3).line (f + 1) = .oof := by
        have := BinR.textNode_eof 5 (f + 1) [97]
        simp [BinR.line, BinR.varInt, BinR.read, this]
      simp [fromBinaryFuel, BinR.parse, BinR.header, BinR.read, BinR.lines, hl]
  have h2 := h1 fuel
  simp only [fromBinaryFuel] at h2
  show (do
    let (g, p) ← (BinR.mk ([1, 71, 0, 1, 97] : Bytes) 0).parse fuel
    if p.n = 0 then .ok (g, -1, true) else .ok (g, (0 : Int) + p.n, true) : Res (Graph × Int × Bool)) = .oof
  cases h3 : (BinR.mk ([1, 71, 0, 1, 97] : Bytes) 0).parse fuel with
  | ok r => rw [h3] at h2; cases h2
  | panic => rw [h3] at h2; cases h2
  | oof => rfl

/-! ## C90: connections -/

theorem serve_sys (handler : Graph → Res Graph) (cs : List Conn) :
    sys (fun i => processT E handler (conns cs i).fuel) (conns cs) cs.length (fun _ => 0) = (conns cs, serveAll E handler cs) := by
  refine Prod.ext ?_ ?_
  · funext i
    simp only [sys, place, Thread.steps]
    split <;> rfl
  · rfl

/-- **C90 (part).** The server with any number of connections, each served by its own
goroutine, with a handler that does not panic and whose answers can be encoded.  Whatever
the schedule and whatever the other clients send, a connection is in the state that it
would have reached alone in the same number of its own steps; and once it has made enough
of them, it has been served as if it were the only one.  Missing: handlers that panic
(`C90_refuted`). -/
theorem C90_partial (handler : Graph → Res Graph) (hh : ∀ g, handler g ≠ .panic) (hb : ∀ g r, handler g = .ok r → r.binary E ≠ .panic) :
    (∀ (cs cs' : List Conn) (sched sched' : List Nat) (i j : Nat) (c : Conn), cs[i]? = some c → cs'[j]? = some c → sched.count i = sched'.count j →
      (runProgram sched (conns cs) (serveAll E handler cs)).1 i = (runProgram sched' (conns cs') (serveAll E handler cs')).1 j) ∧
    (∀ (cs : List Conn) (i : Nat) (c c' : Conn), cs[i]? = some c → serveConn E handler c = .ok c' →
      ∃ N, ∀ sched : List Nat, N ≤ sched.count i → (runProgram sched (conns cs) (serveAll E handler cs)).1 i = c') := by
  have key : ∀ (cs : List Conn) (sched : List Nat) (i : Nat) (c : Conn), cs[i]? = some c →
      (runProgram sched (conns cs) (serveAll E handler cs)).1 i = ((processT E handler c.fuel).steps (sched.count i) c).2 := by
    intro cs sched i c hi
    have h1 := runProgram_sys (t := fun i => processT E handler (conns cs i).fuel) (s := conns cs) (n := cs.length)
      (fun i m => (processT_noPanic E hh hb _).steps m _) sched fun _ => 0
    rw [serve_sys] at h1
    simp only at h1
    rw [h1]
    have hl := (List.getElem?_eq_some_iff.1 hi).1
    have hc : conns cs i = c := by simp [conns, hi]
    simp only [sys, hl, ↓reduceIte, place, hc, Nat.zero_add]
  refine ⟨fun cs cs' sched sched' i j c hi hj hcount => ?_, fun cs i c c' hi hs => ?_⟩
  · rw [key cs sched i c hi, key cs' sched' j c hj, hcount]
  · obtain ⟨N, hN⟩ := (processT E handler c.fuel).steps_end c
    refine ⟨N, fun sched hc => ?_⟩
    rw [key cs sched i c hi, hN _ hc, (processT_alone E handler c.fuel c).1 c' hs]

section
attribute [local irreducible] be32

set_option maxRecDepth 20000 in
/-- Two clients, of which the second sends nothing complete, and the echo as handler. -/
example : (∀ g : Graph, (Res.ok g : Res Graph) ≠ .panic) ∧
    serveConn E (fun g => .ok g) ⟨[hdr7, recA], [], []⟩ = .ok ⟨[], [be32 recA.length, recA], []⟩ ∧
    (runProgram [0, 1, 0, 0, 1, 0, 0] (conns [⟨[hdr7, recA], [], []⟩, ⟨[[0, 0]], [], []⟩])
      (serveAll E (fun g => .ok g) [⟨[hdr7, recA], [], []⟩, ⟨[[0, 0]], [], []⟩])).1 0 = ⟨[], [be32 recA.length, recA], []⟩ :=
  ⟨fun _ h => (by cases h), rfl, rfl⟩

set_option maxRecDepth 20000 in
theorem echo_two (b : Bytes) (hb : b = be32 recA.length) :
    ∃ sched c' ts, runSched sched ⟨[hdr7, recA, hdr7, recB], [], []⟩ [callT 10 recA, callT 10 recB] = (c', ts) ∧ c'.out = [b, recA, b, recB] ∧
    ts.map Thread.returned = [some (.ok (.node (.str b!"_") [.node (.str b!"b") []], none)), some (.ok (.node (.str b!"_") [.node (.str b!"a") []], none))] := by
  subst hb
  exact ⟨[0, 0, 1, 1, 1, 1, 0, 0], _, _, rfl, rfl, rfl⟩

set_option maxRecDepth 20000 in
theorem echo_server (b : Bytes) (hb : b = be32 recA.length) :
    serveConn E (fun g => .ok g) ⟨[hdr7, recA, hdr7, recB], [], []⟩ = .ok ⟨[], [b, recA, b, recB], []⟩ := by
  subst hb
  rfl

end

/-- A handler that panics on a request with more than one node. -/
def panicsOnTwo (g : Graph) : Res Graph :=
  match g with
  | .node _ (_ :: _ :: _) => .panic
  | _ => .ok g

/-- The record of a graph with the nodes `a` and `b`. -/
def recAB : Bytes := [1, 71, 0, 1, 97, 0, 1, 98, 0, 0]
/-- The header of a message of ten bytes. -/
def hdr10 : Bytes := [0, 0, 0, 10]

theorem runProgram_crashed {σ α : Type} : ∀ (sched : List Nat) (s : σ) (ts : List (Thread σ (Res α))), crashed ts = true → runProgram sched s ts = (s, ts)
  | [], _, _, _ => rfl
  | _ :: _, _, _, h => by simp [runProgram, h]

theorem hdr7_eq : hdr7 = be32 recA.length := by decide

section
attribute [local irreducible] be32

set_option maxRecDepth 20000 in
theorem panics_alone (b : Bytes) (hb : b = be32 recB.length) : serveConn E panicsOnTwo ⟨[hdr7, recB], [], []⟩ = .ok ⟨[], [b, recB], []⟩ := by
  subst hb
  rfl

end

/-- **C90 refuted.** A request on one connection on which the handler panics ends the
server: the client on the other connection never gets an answer, whatever happens later,
although alone it would have got one. -/
theorem C90_refuted : serveConn E panicsOnTwo ⟨[hdr7, recB], [], []⟩ = .ok ⟨[], [hdr7, recB], []⟩ ∧
    ∀ sched, (runProgram (0 :: 0 :: sched) (conns [⟨[hdr10, recAB], [], []⟩, ⟨[hdr7, recB], [], []⟩])
      (serveAll E panicsOnTwo [⟨[hdr10, recAB], [], []⟩, ⟨[hdr7, recB], [], []⟩])).1 1 = ⟨[hdr7, recB], [], []⟩ := by
  refine ⟨panics_alone E hdr7 hdr7_eq, fun sched => ?_⟩
  generalize hcs : [(⟨[hdr10, recAB], [], []⟩ : Conn), ⟨[hdr7, recB], [], []⟩] = cs
  have h1 : crashed (runProgram [0, 0] (conns cs) (serveAll E panicsOnTwo cs)).2 = true := by subst hcs; rfl
  have h2 : runProgram (0 :: 0 :: sched) (conns cs) (serveAll E panicsOnTwo cs) =
    runProgram sched (runProgram [0, 0] (conns cs) (serveAll E panicsOnTwo cs)).1 (runProgram [0, 0] (conns cs) (serveAll E panicsOnTwo cs)).2 := by
    subst hcs; rfl
  rw [h2, runProgram_crashed _ _ _ h1]
  subst hcs
  rfl

/-! ## C91: calls by several goroutines -/

/-- **C91 (part).** Goroutines that call, each through a connection of its own (the
request in `bufs[i]` on `cs[i]`): whatever the schedule, each gets what `callV2` gives on its connection alone.
Missing: several goroutines that use the same client (`C91_refuted`). -/
theorem C91_partial (cs : List Conn) (bufs : List (Option Bytes)) (i : Nat) (g : Graph) (c c' : Conn) (o : Option Bytes) (r : Graph × Option RfErr)
    (hi : cs[i]? = some c) (hb : bufs[i]? = some o) (ho : g.binary E = .ok o) (h : callV2 E g c = .ok (r, c')) :
    ∃ F, ∀ fuel ≥ F, ∃ N, ∀ sched : List Nat, N ≤ sched.count i →
      ∃ s ts, runProgram sched (conns cs) ((List.range cs.length).map fun k => (callT fuel (((bufs[k]?).getD none).getD [])).on k) = (s, ts) ∧
        s i = c' ∧ ts[i]? = some (.done (.ok r)) := by
  obtain ⟨F, hF⟩ := callT_alone E g c ho h
  refine ⟨F, fun fuel hf => ?_⟩
  obtain ⟨N, hN⟩ := (callT fuel (o.getD [])).steps_end c
  refine ⟨N, fun sched hs => ?_⟩
  have h1 := runProgram_sys (t := fun k => callT fuel (((bufs[k]?).getD none).getD [])) (s := conns cs) (n := cs.length)
    (fun k m => (callT_noPanic fuel _).steps m _) sched fun _ => 0
  have h2 : sys (fun k => callT fuel (((bufs[k]?).getD none).getD [])) (conns cs) cs.length (fun _ => 0) =
      (conns cs, (List.range cs.length).map fun k => (callT fuel (((bufs[k]?).getD none).getD [])).on k) := by
    refine Prod.ext ?_ rfl
    funext i
    simp only [sys, place, Thread.steps]
    split <;> rfl
  rw [h2] at h1
  have hl := (List.getElem?_eq_some_iff.1 hi).1
  have hc : conns cs i = c := by simp [conns, hi]
  have hp : place (fun k => callT fuel (((bufs[k]?).getD none).getD [])) (conns cs) (fun i => 0 + sched.count i) i = (.done (.ok r), c') := by
    simp only [place, hb, hc, Nat.zero_add, Option.getD_some]
    rw [hN _ hs, hF fuel hf]
  refine ⟨_, _, h1, ?_, ?_⟩
  · simp only [hl, ↓reduceIte]
    rw [hp]
  · have h3 := sys_get (t := fun k => callT fuel (((bufs[k]?).getD none).getD [])) (s := conns cs) (k := fun i => 0 + sched.count i) hl
    rw [hp] at h3
    exact h3

/-- **C91 refuted.** Two goroutines call through the same client, one with the request `a`
and one with `b`, to a server that echoes: each gets the answer to the request of the
other.  What arrives is what the server sends for what was written. -/
theorem C91_refuted : ∃ sched c' ts, runSched sched ⟨[hdr7, recA, hdr7, recB], [], []⟩ [callT 10 recA, callT 10 recB] = (c', ts) ∧
    serveConn E (fun g => .ok g) ⟨c'.out, [], []⟩ = .ok ⟨[], [hdr7, recA, hdr7, recB], []⟩ ∧
    ts.map Thread.returned = [some (.ok (.node (.str b!"_") [.node (.str b!"b") []], none)), some (.ok (.node (.str b!"_") [.node (.str b!"a") []], none))] := by
  obtain ⟨sched, c', ts, h1, h2, h3⟩ := echo_two hdr7 hdr7_eq
  exact ⟨sched, c', ts, h1, by rw [h2]; exact echo_server E hdr7 hdr7_eq, h3⟩

set_option maxRecDepth 20000 in
/-- One call on a connection meets the hypotheses of `C91_partial`. -/
example : ∃ c', callV2 E (.node .nil [.node (.str b!"a") []]) ⟨[hdr7, recB], [], []⟩ = .ok ((.node (.str b!"_") [.node (.str b!"b") []], none), c') :=
  ⟨_, rfl⟩

/-! ## C92: `JSON` on a graph that is shared -/

/-- Without interruption `JSON` gives the text of the sequential model and leaves the root
that it leaves. -/
theorem C92_alone (v : Val) (o : List Graph) : ((Graph.node v o).jsonRun E).1 = ((jsonT E o).alone v).1 ∧
    ((Graph.node v o).jsonRun E).2 = .node ((jsonT E o).alone v).2 o := by
  simp only [jsonT, loadThis, storeThis, Thread.act, Thread.bind_eq, Thread.step_bind, Thread.done_bind, Thread.alone, Graph.jsonRun]
  cases h : (Graph.node (.str []) o).jsonNode E with
  | ok b => exact ⟨rfl, rfl⟩
  | panic => exact ⟨rfl, rfl⟩
  | oof => exact ⟨rfl, rfl⟩

theorem jsonNode_root (v w : Val) (x : Graph) (o : List Graph) (hv : vstr E v ≠ b!"_") (hw : vstr E w ≠ b!"_") :
    (Graph.node v (x :: o)).jsonNode E = (Graph.node w (x :: o)).jsonNode E := by
  simp only [Graph.jsonNode, hv, hw, ↓reduceIte]

/-- **C92 (part).** Any number of goroutines call `JSON` at the same time on a graph with
subnodes whose root is not `_`: whatever the schedule, each that returns gives the text
that it would give alone, and the content of the root is what it was or the empty text.
Missing: the content of the root can be lost, and with the root `_` the text can be
another one (`C92_refuted`). -/
theorem C92_partial (v : Val) (x : Graph) (o : List Graph) (hv : vstr E v ≠ b!"_") (n : Nat) (sched : List Nat) (v' : Val) (ts : List (Thread Val (Res Bytes)))
    (hrun : runSched sched v (List.replicate n (jsonT E (x :: o))) = (v', ts)) :
    (v' = v ∨ v' = .str []) ∧ ∀ (i : Nat) r, ts[i]? = some (.done r) → r = (Graph.node v (x :: o)).json E := by
  have he : vstr E (.str []) ≠ b!"_" := by simp [vstr]
  have hjs : (Graph.node v (x :: o)).json E = (Graph.node (.str []) (x :: o)).jsonNode E := by
    simp only [Graph.json, Graph.jsonRun]
    cases h : (Graph.node (.str []) (x :: o)).jsonNode E <;> rfl
  have hk : Preserves (fun w => w = v ∨ w = .str []) (fun r => r = (Graph.node v (x :: o)).json E) (jsonT E (x :: o)) := by
    simp only [jsonT, loadThis, storeThis, Thread.act, Thread.bind_eq, Thread.step_bind, Thread.done_bind]
    refine .step _ _ (fun s hs => hs) fun i hi => ?_
    refine .step _ _ (fun s hs => .inr rfl) fun s _ => ?_
    refine .step _ _ (fun s hs => hs) fun w hw => ?_
    have h1 : (Graph.node w (x :: o)).jsonNode E = (Graph.node v (x :: o)).json E := by
      rw [hjs]
      refine jsonNode_root E w _ x o ?_ he
      rcases hw with rfl | rfl
      · exact hv
      · exact he
    rw [h1]
    cases h2 : (Graph.node v (x :: o)).json E with
    | ok b => exact .step _ _ (fun s _ => hi) fun s _ => .done _ rfl
    | panic => exact .done _ rfl
    | oof => exact .done _ rfl
  obtain ⟨h1, h2⟩ := Preserves.run (P := fun w => w = v ∨ w = .str []) (R := fun r => r = (Graph.node v (x :: o)).json E) sched (s := v) (ts := List.replicate n (jsonT E (x :: o))) (.inl rfl) fun t ht => by
    rw [List.eq_of_mem_replicate ht]; exact hk
  rw [hrun] at h1 h2
  refine ⟨h1, fun i r hi => ?_⟩
  have := h2 _ (List.mem_of_getElem? hi)
  cases this
  assumption

/-- A root that is not `_`, and three goroutines. -/
example : vstr E (.str b!"r") ≠ b!"_" ∧ ∃ v' ts, runSched [0, 1, 2, 0, 0, 1, 1, 0, 2, 2, 2, 1] (.str b!"r") (List.replicate 3 (jsonT E [.node (.int .int 1) []])) = (v', ts) ∧
    ts = List.replicate 3 (.done (.ok b!"1 ")) := ⟨by simp [vstr], _, _, rfl, rfl⟩

/-- **C92 refuted.** Two goroutines call `JSON` on the same graph.  (1) Both return, and
the content of the root is lost.  (2) With the root `_` one of them returns a list where
alone it returns the value. -/
theorem C92_refuted :
    (∃ sched ts, runSched sched (.str b!"r") [jsonT E [.node (.int .int 1) []], jsonT E [.node (.int .int 1) []]] = (.str [], ts) ∧
      ts = [.done (.ok b!"1 "), .done (.ok b!"1 ")]) ∧
    (∃ sched v' ts, runSched sched (.str b!"_") [jsonT E [.node (.int .int 1) []], jsonT E [.node (.int .int 1) []]] = (v', ts) ∧
      ts = [.done (.ok b!"1 "), .done (.ok b!"[ 1 ]")]) :=
  ⟨⟨[0, 0, 1, 0, 0, 1, 1, 1], _, rfl, rfl⟩, ⟨[0, 1, 1, 0, 0, 0, 1, 1], _, _, rfl, rfl⟩⟩

end
end Ogdl
