import Verif.Model.Log
import Verif.Model.Rf
import Verif.Model.Json

/-!
# Goroutines

None of the code takes a lock.  A goroutine is a sequence of atomic steps on a state that
it shares with others, and a schedule says whose step comes next.  The steps are: a call
of the operating system on a file or a connection, and a load or store of a field of a
node.  Simplifications: memory is sequentially consistent; the reads that one `Get` or
`GetBinary` does one after the other on the file are one step; what a goroutine computes
from what it has read happens in the step that follows.
-/

namespace Ogdl

/-- A goroutine with result `α` on a shared state `σ`: it has returned, or it changes the
state and goes on with what it saw. The goroutines of ogdlrf/server.go:63-105, and those of a user. -/
inductive Thread (σ α : Type) where
  | done (a : α)
  | step (upd : σ → σ) (next : σ → Thread σ α)

namespace Thread
variable {σ α β : Type}

/-- `x; y`. Go's sequencing of statements. -/
def bind : Thread σ α → (α → Thread σ β) → Thread σ β
  | done a, f => f a
  | step u n, f => step u fun s => (n s).bind f

instance : Monad (Thread σ) where
  pure := done
  bind := bind

/-- One atomic step. The atomic steps are named where the functions of log.go and ogdlrf are modelled below. -/
def act (f : σ → β × σ) : Thread σ β := step (fun s => (f s).2) fun s => done (f s).1

/-- The goroutine runs without being interrupted. A run of one goroutine only; used in specifications. -/
def alone : Thread σ α → σ → α × σ
  | done a, s => (a, s)
  | step u n, s => (n s).alone (u s)

/-- Its first `k` steps without being interrupted. Used in specifications. -/
def steps : Nat → Thread σ α → σ → Thread σ α × σ
  | 0, t, s => (t, s)
  | _ + 1, done a, s => (done a, s)
  | k + 1, step u n, s => steps k (n s) (u s)

/-- It has returned `a`. Used in specifications. -/
def returned : Thread σ α → Option α
  | done a => some a
  | step _ _ => none

/-- The same goroutine on one component of the state.
A goroutine of ogdlrf/server.go:63-105 has a connection of its own. -/
def on (i : Nat) : Thread σ α → Thread (Nat → σ) α
  | done a => done a
  | step u n => step (fun s j => if j = i then u (s i) else s j) fun s => (n (s i)).on i

end Thread

/-- The goroutines `ts` under a schedule: the numbers of the goroutines that make the next
steps.  One that has returned makes no steps. Go's scheduler. -/
def runSched {σ α : Type} : List Nat → σ → List (Thread σ α) → σ × List (Thread σ α)
  | [], s, ts => (s, ts)
  | i :: is, s, ts =>
    match ts[i]? with
    | some (.step u n) => runSched is (u s) (ts.set i (n s))
    | _ => runSched is s ts

/-- A goroutine has panicked. A panic in ogdlrf/server.go:107-189. -/
def crashed {σ α : Type} (ts : List (Thread σ (Res α))) : Bool :=
  ts.any fun t => match t with | .done .panic => true | _ => false

/-- The same in a program that does not recover from panics: when one goroutine panics,
all of them end. Go's run-time; there is no `recover` in ogdlrf/server.go. -/
def runProgram {σ α : Type} : List Nat → σ → List (Thread σ (Res α)) → σ × List (Thread σ (Res α))
  | [], s, ts => (s, ts)
  | i :: is, s, ts =>
    if crashed ts then (s, ts)
    else
      match ts[i]? with
      | some (.step u n) => runProgram is (u s) (ts.set i (n s))
      | _ => runProgram is s ts

/-! ## Files and logs -/

/-- A file that is open: its content, the offset of each handle on it, and how many bytes
of it `Sync` has brought to the disk.  After a crash of the machine at least those are
there. The `*os.File` of log.go:16-20. -/
structure FileSt where
  data : Bytes
  off : Nat → Nat := fun _ => 0
  synced : Nat := 0

/-- The content after writing `b` at `o`; a gap is filled with zeros. `f.Write` of log.go:68 and 98. -/
def overwrite (d : Bytes) (o : Nat) (b : Bytes) : Bytes :=
  d.take o ++ List.replicate (o - d.length) 0 ++ b ++ d.drop (o + b.length)

/-- The offsets after that of the handle `h` is set to `o`. The offset that log.go:66, 97, 119 and 140 change. -/
def setOff (off : Nat → Nat) (h o : Nat) : Nat → Nat := fun k => if k = h then o else off k

/-- `f.Seek(0, 2)`: the position of the end. log.go:66 and 97. -/
def seekEnd (h : Nat) : Thread FileSt Nat :=
  .act fun s => (s.data.length, { s with off := setOff s.off h s.data.length })

/-- `f.Seek(i, 0)`. log.go:119 and 140. -/
def seekTo (h i : Nat) : Thread FileSt Unit := .act fun s => ((), { s with off := setOff s.off h i })

/-- `f.Write(b)`. log.go:68 and 98. -/
def writeFile (h : Nat) (b : Bytes) : Thread FileSt Unit :=
  .act fun s => ((), { s with data := overwrite s.data (s.off h) b, off := setOff s.off h (s.off h + b.length) })

/-- `f.Sync()`. log.go:45, 71 and 101. -/
def syncFile : Thread FileSt Unit := .act fun s => ((), { s with synced := s.data.length })

/-- The reads of a parser on `f`, up to the end of the file. log.go:116-134. -/
def readFile (h : Nat) : Thread FileSt Bytes :=
  .act fun s => (s.data.drop (s.off h), { s with off := setOff s.off h (max (s.off h) s.data.length) })

/-- `f.ReadAt(b, i)` with a buffer of `n` bytes. log.go:165. -/
def readFileAt (i n : Nat) : Thread FileSt Bytes := .act fun s => ((s.data.drop i).take n, s)

/-- log.go:70-72 and 99-101: `if log.autoSync { log.f.Sync() }`. -/
def autoSync (auto : Bool) : Thread FileSt Unit := if auto then syncFile else pure ()

/-- log.go:94-105 `AddBinary` on the handle `h` of a file. -/
def addBinaryT (h : Nat) (auto : Bool) (b : Bytes) : Thread FileSt Int := do
  let i ← seekEnd h
  writeFile h b
  autoSync auto
  pure (i : Int)

/-- Calls of `AddBinary` one after the other, with the positions they return.  `Add` of a
graph is the same with its binary form (log.go:56-74). -/
def addsT (h : Nat) (auto : Bool) : List Bytes → Thread FileSt (List Int)
  | [] => pure []
  | b :: bs => do
    let p ← addBinaryT h auto b
    let ps ← addsT h auto bs
    pure (p :: ps)

/-- log.go:116-132 `Get` on a file at a position that is not negative. -/
def getT (fuel h i : Nat) : Thread FileSt (Res (Graph × Int × Bool)) := do
  seekTo h i
  let b ← readFile h
  pure (do
    let (g, p) ← (BinR.mk b 0).parse fuel
    if p.n = 0 then .ok (g, -1, true) else .ok (g, (i : Int) + p.n, true))

/-- log.go:146-160: the length of the record at the start of `b`, `none` without a header. -/
def recordLength (fuel : Nat) (b : Bytes) : Res (Option Nat) :=
  match (BinR.mk b 0).header with
  | (false, _) => .ok none
  | (true, p) => do
    let p ← p.skip fuel fuel
    .ok (some p.n)

/-- log.go:162-167: the bytes of the record. -/
def getRecordT (i : Nat) : Res (Option Nat) → Thread FileSt (Res (Bytes × Int × Bool))
  | .ok none => pure (.ok ([], 0, true))
  | .ok (some n) => do
    let b ← readFileAt i n
    pure (.ok (b, n, true))
  | .panic => pure .panic
  | .oof => pure .oof

/-- log.go:137-168 `GetBinary` at a position that is not negative. -/
def getBinaryT (fuel h i : Nat) : Thread FileSt (Res (Bytes × Int × Bool)) := do
  seekTo h i
  let b ← readFile h
  getRecordT i (recordLength fuel b)

/-! ## Connections -/

/-- `conn.Read` with a buffer of `n` bytes. ogdlrf/client.go:78-167. -/
def readT (n : Nat) : Thread Conn (Option Bytes) := .act fun c => c.read n

/-- `conn.Write`. ogdlrf/client.go:88, 94 and 146. -/
def writeT (b : Bytes) : Thread Conn Bool := .act fun c => c.write b

section
variable (E : Ext)

/-- server.go:155-186: the answer is written, then the next request is read. -/
def replyT (next : Thread Conn (Res Unit)) : Res (Option Bytes) → Thread Conn (Res Unit)
  | .ok none => pure (.ok ())
  | .ok (some buf) => do
    match ← writeT (be32 buf.length) with
    | false => pure (.ok ())
    | true =>
      match ← writeT buf with
      | false => pure (.ok ())
      | true => next
  | .panic => pure .panic
  | .oof => pure .oof

/-- server.go:150-158: the answer to a request, `none` if there is no graph in it. -/
def answerOf (handler : Graph → Res Graph) (buf : Bytes) : Res (Option Bytes) := do
  let g ← fromBinary buf
  if g.isNil || g.out.isEmpty then .ok none
  else do
    let r ← handler g
    let buf := (← r.binary E).getD []
    .ok (some buf)

/-- server.go:107-188 `process` as a goroutine; the same as `processN` step by step. -/
def processT (handler : Graph → Res Graph) : Nat → Thread Conn (Res Unit)
  | 0 => pure .oof
  | f + 1 => do
    match ← readT 4 with
    | none => pure (.ok ())
    | some b4 =>
      if b4.length ≠ 4 then pure (.ok ())
      else if unBe32 b4 = 0 then pure (.ok ())
      else do
        match ← readT (unBe32 b4) with
        | none => pure (.ok ())
        | some buf =>
          if buf.length ≠ unBe32 b4 then pure (.ok ())
          else replyT (processT handler f) (answerOf E handler buf)

/-- server.go:62-84 `Serve`: a goroutine for each connection that was accepted. -/
def serveAll (handler : Graph → Res Graph) (cs : List Conn) : List (Thread (Nat → Conn) (Res Unit)) :=
  (List.range cs.length).map fun i => (processT E handler ((cs[i]?).getD {}).fuel).on i

/-- The connections by number. The connections accepted in ogdlrf/server.go:63-105. -/
def conns (cs : List Conn) : Nat → Conn := fun i => (cs[i]?).getD {}

/-- client.go:112-131, see `readBody`. -/
def readBodyT (l : Nat) : Nat → Nat → Bytes → Thread Conn (Res (Except (Option RfErr) Bytes))
  | 0, _, _ => pure .oof
  | f + 1, l2, buf3 => do
    match ← readT 10000 with
    | none => pure (.ok (.error (some .readFailed)))
    | some [] => pure (.ok (.error none))
    | some tmp =>
      if l ≤ (l2 + tmp.length) % 2 ^ 32 then pure (.ok (.ok (buf3 ++ tmp)))
      else readBodyT l f ((l2 + tmp.length) % 2 ^ 32) (buf3 ++ tmp)

/-- client.go:133-138: the answer. -/
def resultOf : Res (Except (Option RfErr) Bytes) → Res (Graph × Option RfErr)
  | .ok (.error e) => .ok (.nil, e)
  | .ok (.ok buf3) => do
    let r ← fromBinary buf3
    if r.isNil || r.out.isEmpty then .ok (.nil, some .emptyResponse) else .ok (r, none)
  | .panic => .panic
  | .oof => .oof

/-- client.go:78-139 `callV2` as a goroutine, with the binary form `buf` of the request.
Fuel: number of reads of the body. -/
def callT (fuel : Nat) (buf : Bytes) : Thread Conn (Res (Graph × Option RfErr)) := do
  match ← writeT (be32 buf.length) with
  | false => pure (.ok (.nil, some .writingHeader))
  | true =>
    match ← writeT buf with
    | false => pure (.ok (.nil, some .writingBody))
    | true =>
      match ← readT 4 with
      | none => pure (.ok (.nil, some .header))
      | some b4 =>
        if b4.length ≠ 4 then pure (.ok (.nil, some .header))
        else do
          let r ← readBodyT (unBe32 b4) fuel 0 []
          pure (resultOf r)

/-! ## `JSON` on a graph that is shared -/

/-- A load of `g.This`. Go's memory; the field of graph.go:15-18. -/
def loadThis : Thread Val Val := .act fun v => (v, v)

/-- A store to `g.This`. Go's memory; the field of graph.go:15-18. -/
def storeThis (v : Val) : Thread Val Unit := .act fun _ => ((), v)

/-- encoding.go:111-113: the root content is restored, unless `json` has panicked. -/
def restoreThis (i : Val) : Res Bytes → Thread Val (Res Bytes)
  | .ok b => do
    storeThis i
    pure (.ok b)
  | r => pure r

/-- encoding.go:97-116 `JSON` as a goroutine, on a root with the subnodes `o`.  The shared
state is the content of the root; `json` looks at it once; for a root without
subnodes the code loads it up to three times (`writeValue`, lines 168-178). -/
def jsonT (o : List Graph) : Thread Val (Res Bytes) := do
  let i ← loadThis
  storeThis (.str [])
  let v ← loadThis
  restoreThis i ((Graph.node v o).jsonNode E)

end
end Ogdl
