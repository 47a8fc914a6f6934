import Verif.Model.Scalar
import Verif.Model.Json
import Verif.Model.Ast

/-!
# eval.go, function.go, graph.go:224-231 and 273-345

Evaluation runs in a context graph, which assignments change: `EvalM` threads
that root graph.  The functions recurse on fuel; `evalFuel` always suffices.

Simplifications: graphs are trees, so a walk that has reached a subnode goes on
with that subnode as it was, and assigning a graph copies its subnodes (see
`Verif.Model.Heap` for sharing).
-/

namespace Ogdl

/-- A computation that reads and changes the context graph. The receiver `g` of the functions of eval.go. -/
def EvalM (α : Type) := Graph → Res (α × Graph)

namespace EvalM

instance : Monad EvalM where
  pure a := fun g => .ok (a, g)
  bind x f := fun g =>
    match x g with
    | .ok (a, g') => f a g'
    | .panic => .panic
    | .oof => .oof

/-- A run-time panic. Go's run-time. -/
def panic {α : Type} : EvalM α := fun _ => .panic
/-- Out of fuel. Fuel of the model only. -/
def oof {α : Type} : EvalM α := fun _ => .oof
/-- A computation that does not touch the context. Go's sequencing of statements. -/
def lift {α : Type} (r : Res α) : EvalM α := fun g =>
  match r with
  | .ok a => .ok (a, g)
  | .panic => .panic
  | .oof => .oof
/-- The context graph. The receiver `g` of the functions of eval.go. -/
def ctx : EvalM Graph := fun g => .ok (g, g)
/-- Change the context graph. Assignments to the receiver `g` in eval.go and graph.go:288-348. -/
def modify {α : Type} (f : Graph → Res (Graph × α)) : EvalM α := fun g =>
  match f g with
  | .ok (g', a) => .ok (a, g')
  | .panic => .panic
  | .oof => .oof

end EvalM

/-- The arithmetic operators of eval.go:584-656. -/
inductive ArithOp where
  | add | sub | mul | div | mod
  deriving DecidableEq, Repr

/-- The comparison operators of eval.go:462-527 (`==`, `>=`, `<=`, `!=`, `>`, `<`). -/
inductive CmpOp where
  | eq | ge | le | ne | gt | lt
  deriving DecidableEq, Repr

/-- What the text of an operator node means (eval.go:404-417 and 424-455); an
assignment without arithmetic operator is `=`. -/
inductive BinOp where
  | assign (op : Option ArithOp)
  | arith (op : ArithOp)
  | cmp (op : CmpOp)
  | and
  | or
  deriving DecidableEq, Repr

/-- eval.go:404-417, 424-455: the two switches. -/
def binOp (s : Bytes) : Option BinOp :=
  if s = b!"=" then some (.assign none)
  else if s = b!"+=" then some (.assign (some .add))
  else if s = b!"-=" then some (.assign (some .sub))
  else if s = b!"*=" then some (.assign (some .mul))
  else if s = b!"/=" then some (.assign (some .div))
  else if s = b!"%=" then some (.assign (some .mod))
  else if s = b!"+" then some (.arith .add)
  else if s = b!"-" then some (.arith .sub)
  else if s = b!"*" then some (.arith .mul)
  else if s = b!"/" then some (.arith .div)
  else if s = b!"%" then some (.arith .mod)
  else if s = b!"==" then some (.cmp .eq)
  else if s = b!">=" then some (.cmp .ge)
  else if s = b!"<=" then some (.cmp .le)
  else if s = b!"!=" then some (.cmp .ne)
  else if s = b!">" then some (.cmp .gt)
  else if s = b!"<" then some (.cmp .lt)
  else if s = b!"&&" then some .and
  else if s = b!"||" then some .or
  else none

section
variable (E : Ext)

/-- eval.go:602-614: int64 arithmetic wraps; `/` and `%` truncate toward zero and
panic on zero. -/
def calcInt (i1 i2 : Int) : ArithOp → Res Val
  | .add => .ok (.int .int64 (wrap64 (i1 + i2)))
  | .sub => .ok (.int .int64 (wrap64 (i1 - i2)))
  | .mul => .ok (.int .int64 (wrap64 (i1 * i2)))
  | .div => if i2 = 0 then .panic else .ok (.int .int64 (wrap64 (i1.tdiv i2)))
  | .mod => if i2 = 0 then .panic else .ok (.int .int64 (wrap64 (i1.tmod i2)))

/-- eval.go:640-653: float64 arithmetic; `%` converts both sides to int. -/
def calcFloat (f1 f2 : UInt64) : ArithOp → Res Val
  | .add => .ok (.f64 (E.fadd f1 f2))
  | .sub => .ok (.f64 (E.fsub f1 f2))
  | .mul => .ok (.f64 (E.fmul f1 f2))
  | .div => .ok (.f64 (E.fdiv f1 f2))
  | .mod =>
    if E.toInt f2 = 0 then .panic
    else .ok (.int .int (wrap64 ((E.toInt f1).tmod (E.toInt f2))))

/-- eval.go:584-656 `calc`.  Line 638 ignores the error of `_float64f`: the value is
then 0. -/
def calc' (v1 v2 : Val) (op : ArithOp) : Res Val :=
  match vint v1, vint v2 with
  | some i1, some i2 => calcInt i1 i2 op
  | some i1, none =>
    calcFloat E (E.ofInt i1) ((vfloatf E v2).getD (E.ofInt 0)) op
  | none, n2 =>
    match vfloat E v1, n2, vfloat E v2 with
    | none, none, none => if op = .add then .ok (.str (vstr E v1 ++ vstr E v2)) else .ok .nil
    | none, _, _ => .ok (.str (vstr E v1 ++ vstr E v2))
    | some f1, some i2, _ => calcFloat E f1 (E.ofInt i2) op
    | some f1, none, _ => calcFloat E f1 ((vfloatf E v2).getD (E.ofInt 0)) op

/-- eval.go:476-489 -/
def cmpInt (i1 i2 : Int) : CmpOp → Bool
  | .eq => i1 == i2
  | .ge => i1 ≥ i2
  | .le => i1 ≤ i2
  | .gt => i1 > i2
  | .lt => i1 < i2
  | .ne => i1 != i2

/-- eval.go:501-514 -/
def cmpFloat (f1 f2 : UInt64) : CmpOp → Bool
  | .eq => E.feq f1 f2
  | .ge => E.fle f2 f1
  | .le => E.fle f1 f2
  | .gt => E.flt f2 f1
  | .lt => E.flt f1 f2
  | .ne => !E.feq f1 f2

/-- eval.go:462-527 `compare`: the left operand determines the type; on text only
`==` and `!=`. -/
def compare' (v1 v2 : Val) (op : CmpOp) : Res Bool :=
  match vint v1 with
  | some i1 => do
    match ← vintf E v2 with
    | none => .ok false
    | some i2 => .ok (cmpInt i1 i2 op)
  | none =>
    match vfloat E v1 with
    | some f1 =>
      match vfloatf E v2 with
      | none => .ok false
      | some f2 => .ok (cmpFloat E f1 f2 op)
    | none =>
      match op with
      | .eq => .ok (vstr E v1 == vstr E v2)
      | .ne => .ok (vstr E v1 != vstr E v2)
      | _ => .ok false

/-- eval.go:530-547 `logic`; `conj` selects `&&`. -/
def logic (v1 v2 : Val) (conj : Bool) : Bool :=
  match vboolf v1, vboolf v2 with
  | (b1, true), (b2, true) => if conj then b1 && b2 else b1 || b2
  | _, _ => false

/-! ## Set (graph.go:273-345) -/

/-- graph.go:301-310 and 326-335: `node.Out[i] = New(val)`, after extending the
slice with nil pointers; a negative index panics, and so does the largest one
unless there is such a subnode (`make` with length `i+1`). -/
def putAt (o : List Graph) (i : Int) (n : Graph) : Res (List Graph) :=
  if i < 0 ∨ (i ≥ o.length ∧ i ≥ 2 ^ 63 - 1) then .panic
  else .ok ((o ++ List.replicate (i.toNat + 1 - o.length) Graph.nil).set i.toNat n)

/-- graph.go:342-344: the last node gets `val` as its only subnode, or the subnodes
of `val` if that is a graph.  The second component is the pointer returned. -/
def setLast (val : Val) : Graph → Res (Graph × Graph)
  | .nil => .panic
  | .node t _ =>
    .ok ((Graph.node t []).addNodesVal val,
      match val with
      | .nil => .nil
      | .graph (.node t' o') => .node t' o'
      | v => .node v [])

/-- graph.go:319-344: create the elements that do not exist.  Everything that can
happen after `Add` returned nil (element without content) ends in a panic. -/
def setNew (val : Val) : List Graph → Graph → Res (Graph × Graph)
  | [], n => setLast val n
  | _ :: _, .nil => .panic
  | e :: es, .node t o =>
    if e.thisString E = tyIndex then do
      let i ← e.int64 E
      let o' ← putAt o i (Graph.new val)
      .ok (.node t o', Graph.new val)
    else
      match e with
      | .nil | .node .nil _ => .panic
      | .node v _ => do
        let (n', r) ← setNew val es (addedNode v)
        .ok (.node t (o ++ [n']), r)

/-- graph.go:288-345 `set`: new receiver and returned pointer. -/
def setPath (val : Val) : List Graph → Graph → Res (Graph × Graph)
  | [], n => setLast val n
  | _ :: _, .nil => .panic
  | e :: es, .node t o =>
    if e.thisString E = tyIndex then do
      let i ← e.int64 E
      let o' ← putAt o i (Graph.new val)
      .ok (.node t o', Graph.new val)
    else do
      match ← findName E (e.thisString E) o with
      | none => setNew E val (e :: es) (.node t o)
      | some i => do
        let (n', r) ← setPath val es (o.getD i .nil)
        .ok (.node t (o.set i n'), r)

/-! ## Functions (function.go) -/

/-- `strconv.ParseInt(s, 10, 64)` with the error ignored: 0 if `s` is not a number,
the nearest int64 if it is out of range. function.go:217. -/
def parseIntAny (s : Bytes) : Int :=
  match parseInt s with
  | some i => i
  | none =>
    match s with
    | [] => 0
    | c :: t =>
      match parseDigits (if c == 43 || c == 45 then t else s) with
      | none => 0
      | some _ => if c == 45 then -2 ^ 63 else 2 ^ 63 - 1

/-- `strconv.ParseBool` with the error ignored. function.go:214. -/
def parseBoolAny (s : Bytes) : Bool :=
  s = b!"1" ∨ s = b!"t" ∨ s = b!"T" ∨ s = b!"true" ∨ s = b!"TRUE" ∨ s = b!"True"

/-- function.go:173-239 `convert`; `none` is the invalid `reflect.Value`.
Simplification: `strconv.ParseFloat` with the error ignored is taken to be 0 on every
error (it is an infinity if the number is out of range). -/
def convert (arg : Val) (dtype : Bytes) : Res (Option Val) :=
  if dtype = typeName E arg then .ok (some arg)
  else
    match arg with
    | .graph n =>
      if dtype = b!"int64" then do let i ← n.int64 E; .ok (some (.int .int64 i))
      else if dtype = b!"bool" then do let b ← n.boolean E; .ok (some (.bool b))
      else if dtype = b!"string" then do let s ← n.string E; .ok (some (.str s))
      else if dtype = b!"[]string" then do let l ← n.strings E; .ok (some (E.ofStrings l))
      else if dtype = b!"float64" then do let f ← n.float64 E; .ok (some (.f64 f))
      else if dtype = b!"int" then do let i ← n.int64 E; .ok (some (.int .int i))
      else .ok none
    | .str s =>
      if dtype = b!"float64" then .ok (some (.f64 ((E.parseFloat s).getD (E.ofInt 0))))
      else if dtype = b!"bool" then .ok (some (.bool (parseBoolAny s)))
      else if dtype = b!"int64" then .ok (some (.int .int64 (parseIntAny s)))
      else .ok none
    | .int .int64 i =>
      if dtype = b!"float64" then .ok (some (.f64 (E.ofInt i)))
      else if dtype = b!"int" then .ok (some (.int .int i))
      else .ok none
    | .f64 f =>
      if dtype = b!"int64" then .ok (some (.int .int64 (E.toInt f)))
      else if dtype = b!"int" then .ok (some (.int .int (E.toInt f)))
      else .ok none
    | _ => .ok none

/-- function.go:100-104, 160-164: the first result of the call. -/
def callResult (r : Option (Option Val)) : Res (Val × Option Err) :=
  match r with
  | none => .panic
  | some none => .ok (.nil, none)
  | some (some v) => .ok (v, none)

/-- function.go:78-85: a nil argument becomes the zero value of the parameter type;
`In(i)` panics if there is no such parameter. -/
def zeroArgs : List Bytes → List Val → Res (List Val)
  | _, [] => .ok []
  | [], .nil :: _ => .panic
  | [], v :: vs => do let r ← zeroArgs [] vs; .ok (v :: r)
  | i :: is, .nil :: vs => do let r ← zeroArgs is vs; .ok (E.zero i :: r)
  | _ :: is, v :: vs => do let r ← zeroArgs is vs; .ok (v :: r)

/-- function.go:93-97: the names of the types agree.  (The zero value of a
parameter type has that type.) -/
def argsMatch : List Bytes → List Val → Bool
  | i :: is, .nil :: vs => argsMatch is vs && i == i
  | i :: is, v :: vs => i == typeName E v && argsMatch is vs
  | _, _ => true

/-- function.go:78-104: check the arguments of a Go function and call it. -/
def callFunc (ins : List Bytes) (fn : List Val → Option (Option Val)) (args : List Val) :
    Res (Val × Option Err) := do
  let vargs ← zeroArgs E ins args
  if ins.length ≠ args.length then .ok (.nil, some .argCount)
  else if !argsMatch E ins args then .ok (.nil, some .argTypes)
  else callResult (fn vargs)

/-- function.go:143-155: the arguments of a method, converted; `none` if one of them is
the invalid value, which makes the call panic. -/
def methodArgs : List Bytes → List Val → Res (Option (List Val))
  | [], _ => .ok (some [])
  | i :: is, [] => do
    let r ← methodArgs is []
    .ok (r.map (E.zero i :: ·))
  | i :: is, .nil :: vs => do
    let r ← methodArgs is vs
    .ok (r.map (E.zero i :: ·))
  | i :: is, v :: vs => do
    let c ← convert E v i
    let r ← methodArgs is vs
    match c, r with
    | some c, some r => .ok (some (c :: r))
    | _, _ => .ok none

/-- function.go:143-164: call a method. -/
def callMethod (ins : List Bytes) (fn : List Val → Option (Option Val)) (args : List Val) :
    Res (Val × Option Err) := do
  match ← methodArgs E ins args with
  | none => .panic
  | some vargs => callResult (fn vargs)

/-- function.go:44: the kind of a value.  Only functions and pointers can be called;
text, numbers and the like are neither. -/
def callableOf : Val → Callable
  | .graph g => E.callable (.graph g)
  | .other t => E.callable (.other t)
  | _ => .none

/-! ## Evaluation -/

/-- The variables of the loops of eval.go:49-160 and 176-303. -/
structure PathSt where
  ctx : Graph
  prev : Graph := .nil
  elem : Bytes := []
  addRoot : Bool := false

/-- Result of one iteration: go on, or return from the function. The loop body of eval.go:54-160. -/
inductive PathStep (α : Type) where
  | next (s : PathSt)
  | done (r : α)

/-- eval.go:53-160 and 181-303: the loop over the path elements; it ends when the
context node is nil. -/
def walkPath {α : Type} (step : Graph → PathSt → EvalM (PathStep α)) :
    List Graph → PathSt → EvalM (PathStep α)
  | [], s => pure (.next s)
  | e :: es, s =>
    if s.ctx.isNil then pure (.next s)
    else do
      match ← step e s with
      | .next s' => walkPath step es s'
      | .done r => pure (.done r)

/-- eval.go:94-102 and 217-225: the `k`-th (from 0) of the nodes with that text, or
nil. -/
def nthNamed (key : Bytes) : Nat → List Graph → Graph
  | _, [] => .nil
  | k, n :: ns =>
    if n.thisString E = key then
      match k with
      | 0 => n
      | k + 1 => nthNamed key k ns
    else nthNamed key k ns

/-- eval.go:75-107 and 198-230: the selector case, with `ix` the result of `index`. -/
def selectNodes (s : PathSt) (ix : Int) : Res (Option Graph) :=
  let ix := wrap64 (ix + 1)
  if ix < 0 then .ok none
  else if ix = 0 then do
    let r ← (Graph.new (.str b!"{")).addEqualNodes E s.prev s.elem
    .ok (some r)
  else .ok (some ((Graph.new (.str b!"{")).addNodes (nthNamed E s.elem (ix.toNat - 1) s.prev.out)))

/-- `x.GetAt(0).This` for a graph with subnodes; panics if the first is nil. eval.go:112, 148, 252 and 288. -/
def firstThis (g : Graph) : Res Val :=
  match g with
  | .node _ (.node t _ :: _) => .ok t
  | _ => .panic

/-- Evaluate a list of arguments (function.go:61-65, 71-75, 136-140); errors give nil. -/
def evalEach (ev : Graph → EvalM (Val × Option Err)) : List Graph → EvalM (List Val)
  | [] => pure []
  | a :: as => do
    let (v, _) ← ev a
    let vs ← evalEach ev as
    pure (v :: vs)

/-- eval.go:346-352: the members of a group; those with an error are left out. -/
def evalGroup (ev : Graph → EvalM (Val × Option Err)) : List Graph → Graph → EvalM Graph
  | [], r => pure r
  | a :: as, r => do
    let (v, e) ← ev a
    evalGroup ev as (if e.isNone then (r.add v).1 else r)

/-- Is `s` one or two operator characters (eval.go:368-374)? -/
def isOperatorText : Bytes → Bool
  | [c] => isOperatorChar c
  | [c, d] => isOperatorChar c && isOperatorChar d
  | _ => false

mutual
/-- eval.go:11-28 `Eval` of a parsed expression. -/
def eval : Nat → Graph → EvalM (Val × Option Err)
  | 0, _ => .oof
  | f + 1, e =>
    if e.thisString E = tyPath then evalPath f e true
    else if e.thisString E = tyExpression then evalExpr f e true
    else
      match e with
      | .node t [] => do
        let v ← .lift ((Graph.node t []).thisScalar E)
        pure (v, none)
      | e => pure (.graph e, none)

/-- eval.go:32-39 `evalBool`. -/
def evalBool : Nat → Graph → EvalM Bool
  | 0, _ => .oof
  | f + 1, e => do
    let (v, err) ← eval f e
    pure (if err.isSome then false else (vboolf v).1)

/-- eval.go:658-672 `index` of a path node: -1 without subnodes, -2 on an error, -3 if
not a non-negative integer. -/
def indexOf : Nat → Graph → EvalM Int
  | 0, _ => .oof
  | f + 1, n =>
    match n with
    | .nil => .panic
    | .node _ [] => pure (-1)
    | .node _ (x :: _) => do
      let (v, err) ← evalExpr f x true
      if err.isSome then pure (-2)
      else
        match vint v with
        | none => pure (-3)
        | some i => pure (if i < 0 then -3 else i)

/-- function.go:23-170 `function`. -/
def function : Nat → Graph → Val → EvalM (Val × Option Err)
  | 0, _, _ => .oof
  | f + 1, p, typ =>
    match callableOf E typ with
    | .none => pure (.nil, none)
    | .func remote ins fn =>
      match p.out with
      | _ :: .node t o :: rest =>
        if remote then do
          let args ← match rest with
            | [] => pure []
            | .nil :: _ => .panic
            | .node _ o2 :: _ => evalEach (fun a => evalExpr f a true) o2
          let nn := match t with
            | .nil => []
            | t => [args.foldl (fun n v => (n.add v).1) (addedNode t)]
          .lift (callFunc E ins fn [.graph (.node (.str b!"_") nn)])
        else do
          let args ← evalEach (fun a => evalExpr f a true) o
          .lift (callFunc E ins fn args)
      | _ => .panic
    | .ptr method =>
      match p.out with
      | _ :: fnode :: rest =>
        if fnode.isNil then pure (.nil, some .noMethod)
        else
          match method (fnode.thisString E) with
          | none => pure (.nil, some .noMethod)
          | some (ins, fn) => do
            let args ← match rest with
              | [] => pure []
              | .nil :: _ => .panic
              | .node _ o2 :: _ => evalEach (fun a => evalExpr f a false) o2
            .lift (callMethod E ins fn args)
      | _ => pure (.nil, some .noMethod)

/-- eval.go:138-159: a name in `getPath`; if it is not found, the content of the
first subnode is tried as a function. -/
def getName : Nat → Graph → Bytes → PathSt → EvalM (PathStep (Graph × Option Err))
  | 0, _, _, _ => .oof
  | f + 1, p, name, s => do
    let n ← .lift (s.ctx.nodeNamed E name)
    if n.isNil && s.ctx.len > 0 then do
      let t ← .lift (firstThis s.ctx)
      match ← function f p t with
      | (_, some err) => pure (.done (.nil, some err))
      | (.graph r, none) => pure (.next { ctx := r, prev := s.ctx, elem := name })
      | _ => pure (.done (.nil, some .functionNoGraph))
    else pure (.next { ctx := n, prev := s.ctx, elem := name })

/-- eval.go:59-160: one element in `getPath`. -/
def getStep : Nat → Graph → Graph → PathSt → EvalM (PathStep (Graph × Option Err))
  | 0, _, _, _ => .oof
  | f + 1, p, n, s =>
    let elem := n.thisString E
    if elem = tyIndex then do
      let ix ← indexOf f n
      if ix < 0 then pure (.done (.nil, some .invalidIndex))
      else do
        let x ← .lift (s.ctx.getAt ix)
        pure (.next { s with
          ctx := ((Graph.new (.str b!"[")).add (.graph x)).1, prev := s.ctx })
    else if elem = tySelector then
      if s.prev.isNil || s.elem.isEmpty then pure (.done (.nil, some .invalidIndex))
      else do
        let ix ← indexOf f n
        match ← .lift (selectNodes E s ix) with
        | none => pure (.done (.nil, some .invalidIndex))
        | some r => pure (.next { s with ctx := r, prev := s.ctx })
    else if elem = tyArguments then
      if s.ctx.len > 0 then do
        let t ← .lift (firstThis s.ctx)
        match ← function f p t with
        | (_, some err) => pure (.done (.nil, some err))
        | (.graph r, none) => pure (.next { s with ctx := r, prev := s.ctx })
        | _ => pure (.done (.nil, some .functionNoGraph))
      else pure (.done (.nil, some .notFound))
    else if elem = tyGroup then
      match n.out with
      | [] => .panic
      | x :: _ => do
        let (v, err) ← eval f x
        match err with
        | some err => pure (.done (.nil, some err))
        | none =>
          let str := vstr E v
          if str.isEmpty then pure (.done (.nil, none))
          else getName f p str s
    else getName f p elem s

/-- eval.go:42-163 `getPath`. -/
def getPath : Nat → Graph → EvalM (Graph × Option Err)
  | 0, _ => .oof
  | f + 1, p => do
    let g ← .ctx
    if p.len = 0 ∨ g.isNil then pure (.nil, some .invalidArgs)
    else
      match p with
      | .nil => .panic
      | p => do
        match ← walkPath (getStep f p) p.out { ctx := g } with
        | .done r => pure r
        | .next s => pure (s.ctx, none)

/-- eval.go:279-301: a name in `evalPath`. -/
def evalName : Nat → Graph → Bytes → PathSt → EvalM (PathStep (Val × Option Err))
  | 0, _, _, _ => .oof
  | f + 1, p, name, s => do
    let n ← .lift (s.ctx.nodeNamed E name)
    if n.isNil && s.ctx.len > 0 then do
      let t ← .lift (firstThis s.ctx)
      match ← function f p t with
      | (_, some err) => pure (.done (.nil, some err))
      | (v, none) => pure (.done (v, none))
    else pure (.next { ctx := n, prev := s.ctx, elem := name, addRoot := false })

/-- eval.go:187-303: one element in `evalPath`. -/
def evalStep : Nat → Graph → Graph → PathSt → EvalM (PathStep (Val × Option Err))
  | 0, _, _, _ => .oof
  | f + 1, p, n, s =>
    let elem := n.thisString E
    if elem = tyIndex then do
      let ix ← indexOf f n
      if ix < 0 then pure (.done (.nil, some .invalidIndex))
      else do
        let x ← .lift (s.ctx.getAt ix)
        pure (.next { s with ctx := x, prev := s.ctx, addRoot := true })
    else if elem = tySelector then
      if s.prev.isNil || s.elem.isEmpty then pure (.done (.nil, some .invalidIndex))
      else do
        let ix ← indexOf f n
        match ← .lift (selectNodes E s ix) with
        | none => pure (.done (.nil, some .invalidIndex))
        | some r => pure (.next { s with ctx := r, prev := s.ctx, addRoot := false })
    else if elem = b!"_len" then pure (.done (.int .int s.ctx.len, none))
    else if elem = b!"_this" then pure (.done (.graph s.ctx, none))
    else if elem = b!"_thisString" then pure (.done (.str (s.ctx.thisString E), none))
    else if elem = b!"_string" then do
      let r ← .lift (s.ctx.string E)
      pure (.done (.str r, none))
    else if elem = b!"_json" then do
      let r ← .lift (s.ctx.json E)
      pure (.done (.bytes r, none))
    else if elem = tyArguments then
      if s.ctx.len > 0 then do
        let t ← .lift (firstThis s.ctx)
        match ← function f p t with
        | (_, some err) => pure (.done (.nil, some err))
        | (.graph r, none) => pure (.next { s with ctx := r, prev := s.ctx, addRoot := false })
        | (v, none) => pure (.done (v, none))
      else pure (.done (.nil, none))
    else if elem = tyGroup then
      match n.out with
      | [] => .panic
      | x :: _ => do
        let (v, err) ← eval f x
        match err with
        | some err => pure (.done (.nil, some err))
        | none =>
          let str := vstr E v
          if str.isEmpty then pure (.done (.nil, none))
          else evalName f p str s
    else evalName f p elem s

/-- eval.go:167-316 `evalPath`. -/
def evalPath : Nat → Graph → Bool → EvalM (Val × Option Err)
  | 0, _, _ => .oof
  | f + 1, p, simpl => do
    let g ← .ctx
    if p.len = 0 ∨ g.isNil then pure (.nil, some .invalidArgs)
    else
      match p with
      | .nil => .panic
      | p => do
        match ← walkPath (evalStep f p) p.out { ctx := g } with
        | .done r => pure r
        | .next s =>
          let c := if s.addRoot then ((Graph.new (.str b!"[")).add (.graph s.ctx)).1 else s.ctx
          pure (if simpl then Ogdl.simplify c else .graph c, none)

/-- eval.go:550-576 `assign`; `none` is `=`. -/
def assign : Nat → Graph → Val → Option ArithOp → EvalM Val
  | 0, _, _, _ => .oof
  | f + 1, p, v, op =>
    match op with
    | none => put p v
    | some op => do
      let (left, _) ← getPath f p
      match left with
      | .nil =>
        match op with
        | .add => put p v
        | .sub => do
          let r ← .lift (calc' E (.int .int 0) v .sub)
          put p r
        | .mul => put p (.int .int 0)
        | .div => put p (.str b!"infinity")
        | .mod => put p (.str b!"undefined")
      | left => do
        let l ← .lift (firstThis left)
        let r ← .lift (calc' E l v op)
        put p r
where
  /-- `g.set(p, v)` as an interface value; a nil `p` panics (graph.go:295) -/
  put (p : Graph) (v : Val) : EvalM Val :=
    match p with
    | .nil => .panic
    | p => do
      let r ← .modify (setPath E v p.out)
      pure (.graph r)

/-- eval.go:395-458 `evalBinary`: the right operand is evaluated first; errors are
returned as values. -/
def evalBinary : Nat → Graph → EvalM Val
  | 0, _ => .oof
  | f + 1, p =>
    match p.out with
    | n1 :: n2 :: _ => do
      let (v2, err) ← evalExpr f n2 true
      match err with
      | some err => pure (.other (E.errTag err))
      | none =>
        match binOp (p.thisString E) with
        | some (.assign op) => assign f n1 v2 op
        | op => do
          let (v1, err) ← evalExpr f n1 true
          match err with
          | some err => pure (.other (E.errTag err))
          | none =>
            match op with
            | some (.arith o) => .lift (calc' E v1 v2 o)
            | some (.cmp o) => do
              let b ← .lift (compare' E v1 v2 o)
              pure (.bool b)
            | some .and => pure (.bool (logic v1 v2 true))
            | some .or => pure (.bool (logic v1 v2 false))
            | _ => pure .nil
    | _ => .panic

/-- eval.go:321-393 `evalExpression`. -/
def evalExpr : Nat → Graph → Bool → EvalM (Val × Option Err)
  | 0, _, _ => .oof
  | f + 1, p, simpl =>
    match p with
    | .nil => .panic
    | .node .nil _ => pure (.nil, some .nilReceiver)
    | .node t o =>
      let s := vstr E t
      if s.isEmpty then pure (.str [], none)
      else if isNumber s then do
        let v ← .lift (number' E t)
        pure (v, none)
      else if s = b!"!" then
        match o with
        | [] => .panic
        | n :: _ => do
          let b ← evalBool f n
          pure (.bool !b, none)
      else if s = tyExpression then evalExpr f (o.headD .nil) simpl
      else if s = tyPath then evalPath f (.node t o) simpl
      else if s = tyGroup then do
        let r ← evalGroup (fun a => evalExpr f a simpl) o (Graph.new (.str tyGroup))
        pure (.graph r, none)
      else if s = tyString then pure (.str ((o.headD .nil).thisString E), none)
      else if isOperatorText s then do
        let v ← evalBinary f (.node t o)
        pure (v, none)
      else
        let c := s.headD 0
        if c == 34 || c == 39 then pure (.str s, none)
        else if isLetterByte c then
          if s = b!"false" then pure (.bool false, none)
          else if s = b!"true" then pure (.bool true, none)
          else pure (.str s, none)
        else pure (.graph (.node t o), none)
end

mutual
/-- Number of levels of a tree (used as fuel only). Fuel of the model only. -/
def Graph.height : Graph → Nat
  | .nil => 0
  | .node _ o => Graph.heightL o + 1
/-- Maximum of the heights. Fuel of the model only. -/
def Graph.heightL : List Graph → Nat
  | [] => 0
  | g :: gs => max g.height (Graph.heightL gs)
end

/-- Fuel for evaluating the expression or path `p`. Fuel of the model only. -/
def evalFuel (p : Graph) : Nat := 8 * p.height + 8

/-- graph.go:224-231 `Get`: the result and the graph afterwards. -/
def Graph.get (g : Graph) (s : Bytes) : Res (Graph × Graph) :=
  match g with
  | .nil => .ok (.nil, .nil)
  | g => do
    let p ← newPath E s
    let ((r, _), g') ← getPath E (evalFuel p) p g
    .ok (r, g')

/-- graph.go:273-285 `Set`: the graph afterwards and the node returned. -/
def Graph.set (g : Graph) (s : Bytes) (val : Val) : Res (Graph × Graph) :=
  match g with
  | .nil => .ok (.nil, .nil)
  | g => do
    let p ← newPath E s
    setPath E val p.out g

/-- eval.go:11-28 `Eval`: value, error and the context afterwards. -/
def Graph.eval (g e : Graph) : Res ((Val × Option Err) × Graph) := Ogdl.eval E (evalFuel e) e g

/-! ## Typed getters with a path (gettypes.go:328-428) -/

/-- gettypes.go:331-341 and the same prologue in the other getters: the content of
the first subnode of the node found, or an error (`none`). -/
def Graph.getFirst (g : Graph) (path : Bytes) : Res (Option Val) := do
  let (i, _) ← g.get E path
  match i with
  | .nil => .ok none
  | .node _ [] => .ok none
  | .node _ (.nil :: _) => .panic
  | .node _ (.node t _ :: _) => .ok (some t)

/-- gettypes.go:328-341 `GetString`. -/
def Graph.getString (g : Graph) (path : Bytes) : Res (Option Bytes) :=
  if path.isEmpty then do
    let s ← g.string E
    .ok (some s)
  else do
    match ← g.getFirst E path with
    | none => .ok none
    | some v => .ok (some (vstr E v))

/-- gettypes.go:345-359 `GetBytes`. -/
def Graph.getBytes (g : Graph) (path : Bytes) : Res (Option Bytes) :=
  if path.isEmpty then do
    let v ← g.interface
    .ok (some (vbytes E v))
  else do
    match ← g.getFirst E path with
    | none => .ok none
    | some v => .ok (some (vbytes E v))

/-- gettypes.go:364-382 `GetInt64`. -/
def Graph.getInt64 (g : Graph) (path : Bytes) : Res (Option Int) :=
  if path.isEmpty then do
    let i ← g.int64 E
    .ok (some i)
  else do
    match ← g.getFirst E path with
    | none => .ok none
    | some v => vintf E v

/-- gettypes.go:387-405 `GetFloat64`. -/
def Graph.getFloat64 (g : Graph) (path : Bytes) : Res (Option UInt64) :=
  if path.isEmpty then do
    let f ← g.float64 E
    .ok (some f)
  else do
    match ← g.getFirst E path with
    | none => .ok none
    | some v => .ok (vfloatf E v)

/-- gettypes.go:410-428 `GetBool`. -/
def Graph.getBool (g : Graph) (path : Bytes) : Res (Option Bool) :=
  if path.isEmpty then do
    let b ← g.boolean E
    .ok (some b)
  else do
    match ← g.getFirst E path with
    | none => .ok none
    | some v =>
      match vboolf v with
      | (b, true) => .ok (some b)
      | (_, false) => .ok none

end
end Ogdl
