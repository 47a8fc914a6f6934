import Verif.Model.HeapRead
import Verif.Model.Eval

/-!
# eval.go with pointers

`getPath`, `evalPath`, `Eval`, assignment and `Get` in explicit memory: the context is the
pointer `g`, and results may point into it.  The expression is a tree, since evaluation
does not change it.

Simplifications: where the code returns a node of the expression itself, a copy of it is
returned; a function that is called gets the trees that its arguments point to, and what it
returns is new memory; JSON is made from the tree that is read; the elements of a path to
be set are all read before the walk.
-/

namespace Ogdl
open HM

/-- The results for all elements of a list. Go's loops. -/
def hEach (f : α → HM β) : List α → HM (List β)
  | [] => pure []
  | a :: as => do
    let b ← f a
    let bs ← hEach f as
    pure (b :: bs)

/-- The tree that a pointer leads to.  Fuel: depth.
Used where the values of function.go:23-170 go to a called function. -/
def hTree : Nat → Ptr → HM Graph
  | _, none => pure .nil
  | 0, _ => oof
  | f + 1, p => do
    let c ← load p
    let ps ← elems c.out
    let gs ← hEach (hTree f) ps
    match c.this with
    | .val v => pure (.node v gs)
    | .ptr q => do
      let t ← hTree f q
      pure (.node (.graph t) gs)

/-- The value, with graphs read from memory. Used where the values of function.go:23-170 go to a called function. -/
def hValue (fuel : Nat) (x : HVal) : HM Val :=
  match x with
  | .val v => pure v
  | .ptr p => do
    let t ← hTree fuel p
    pure (.graph t)

section
variable (grow : Nat → Nat → Nat)

mutual
/-- New memory for a tree. Used for graphs that the parsers and function.go:23-170 return. -/
def hPut : Graph → HM Ptr
  | .nil => pure none
  | .node v gs => do
    let x ← hPutVal v
    let ps ← hPutAll gs
    let a ← alloc x
    let s ← append grow {} ps
    putOut (some a) s
    pure (some a)
/-- New memory for a value. Used for graphs that the parsers and function.go:23-170 return. -/
def hPutVal : Val → HM HVal
  | .graph g => do
    let p ← hPut g
    pure (.ptr p)
  | v => pure (.val v)
/-- New memory for a list of trees. Used for graphs that the parsers and function.go:23-170 return. -/
def hPutAll : List Graph → HM (List Ptr)
  | [] => pure []
  | g :: gs => do
    let p ← hPut g
    let ps ← hPutAll gs
    pure (p :: ps)
end

variable (E : Ext) (fuel : Nat)

/-- gettypes.go:498-525 `_int64`. -/
def hint : HVal → Option Int
  | .val v => vint v
  | .ptr _ => none

/-- gettypes.go:455-466 `_float64`. -/
def hfloat : HVal → Option UInt64
  | .val v => vfloat E v
  | .ptr _ => none

/-- eval.go:584-656 `calc`. -/
def hCalc (x1 x2 : HVal) (op : ArithOp) : HM Val :=
  match hint x1, hint x2 with
  | some i1, some i2 => lift (calcInt i1 i2 op)
  | some i1, none => do
    let f2 ← hfloatf E fuel x2
    lift (calcFloat E (E.ofInt i1) (f2.getD (E.ofInt 0)) op)
  | none, n2 =>
    match hfloat E x1, n2, hfloat E x2 with
    | none, none, none =>
      if op = .add then do
        let s1 ← hstring E fuel x1
        let s2 ← hstring E fuel x2
        pure (.str (s1 ++ s2))
      else pure .nil
    | none, _, _ => do
      let s1 ← hstring E fuel x1
      let s2 ← hstring E fuel x2
      pure (.str (s1 ++ s2))
    | some f1, some i2, _ => lift (calcFloat E f1 (E.ofInt i2) op)
    | some f1, none, _ => do
      let f2 ← hfloatf E fuel x2
      lift (calcFloat E f1 (f2.getD (E.ofInt 0)) op)

/-- eval.go:462-527 `compare`. -/
def hCompare (x1 x2 : HVal) (op : CmpOp) : HM Bool :=
  match hint x1 with
  | some i1 => do
    match ← hintf E x2 with
    | none => pure false
    | some i2 => pure (cmpInt i1 i2 op)
  | none =>
    match hfloat E x1 with
    | some f1 => do
      match ← hfloatf E fuel x2 with
      | none => pure false
      | some f2 => pure (cmpFloat E f1 f2 op)
    | none =>
      match op with
      | .eq => do
        let s1 ← hstring E fuel x1
        let s2 ← hstring E fuel x2
        pure (s1 == s2)
      | .ne => do
        let s1 ← hstring E fuel x1
        let s2 ← hstring E fuel x2
        pure (s1 != s2)
      | _ => pure false

/-- eval.go:530-547 `logic`; `conj` selects `&&`. -/
def hLogic (x1 x2 : HVal) (conj : Bool) : HM Bool := do
  let b1 ← hboolf x1
  let b2 ← hboolf x2
  match b1, b2 with
  | (b1, true), (b2, true) => pure (if conj then b1 && b2 else b1 || b2)
  | _, _ => pure false

/-- gettypes.go:596-604 `_simplify` of a `*Graph`. -/
def hSimplify (p : Ptr) : HM HVal :=
  match p with
  | none => pure (.ptr none)
  | p => do
    let c ← load p
    if c.out.len = 1 then do
      let n ← index c.out 0
      let k ← hLen n
      if k = 0 then do
        let x ← load n
        pure x.this
      else pure (.ptr p)
    else pure (.ptr p)

/-- `x.GetAt(0).This` for a graph with subnodes. eval.go:112, 148, 252 and 288. -/
def hFirstThis (p : Ptr) : HM HVal := do
  let n ← hGetAt p 0
  let c ← load n
  pure c.this

/-- graph.go:104-116 `addEqualNodes` with `recurse = false`. -/
def hAddEqualNodes (r g2 : Ptr) (key : Bytes) : HM Unit :=
  match g2 with
  | none => pure ()
  | g2 => do
    let c ← load g2
    range c.out (fun n => do
      let x ← load n
      let t ← hstring E fuel x.this
      if key = t then do
        let _ ← hAddNodes grow r n
        pure ()
      else pure ()) c.out.len 0

/-- eval.go:94-102 and 217-225: the `k`-th (from 0) of the nodes with that text, among `m`
of them from index `i` on. -/
def hNthNamed (s : Slice) (key : Bytes) : Nat → Nat → Nat → HM Ptr
  | _, 0, _ => pure none
  | k, m + 1, i => do
    let n ← index s i
    let t ← hThisString E fuel n none
    if t = key then
      match k with
      | 0 => pure n
      | k + 1 => hNthNamed s key k m (i + 1)
    else hNthNamed s key k m (i + 1)

/-- The variables of the loops of eval.go:49-160 and 176-303. -/
structure HPathSt where
  ctx : Ptr
  prev : Ptr := none
  elem : Bytes := []
  addRoot : Bool := false

/-- Result of one iteration: go on, or return from the function. The loop body of eval.go:54-160. -/
inductive HPathStep (α : Type) where
  | next (s : HPathSt)
  | done (r : α)

/-- eval.go:53-160 and 181-303: the loop over the path elements. -/
def hWalkPath (step : Graph → HPathSt → HM (HPathStep α)) : List Graph → HPathSt → HM (HPathStep α)
  | [], s => pure (.next s)
  | e :: es, s =>
    match s.ctx with
    | none => pure (.next s)
    | _ => do
      match ← step e s with
      | .next s' => hWalkPath step es s'
      | .done r => pure (.done r)

/-- eval.go:75-107 and 198-230: the selector case, with `ix` the result of `index`. -/
def hSelect (s : HPathSt) (ix : Int) : HM (Option Ptr) :=
  let ix := wrap64 (ix + 1)
  if ix < 0 then pure none
  else do
    let r ← hNew (.val (.str b!"{"))
    if ix = 0 then do
      hAddEqualNodes grow E fuel r s.prev s.elem
      pure (some r)
    else do
      let c ← load s.prev
      let n ← hNthNamed E fuel c.out s.elem (ix.toNat - 1) c.out.len 0
      let _ ← hAddNodes grow r n
      pure (some r)

/-- eval.go:69-70 and 306-308: a new node `[` with the node below it. -/
def hBracket (p : Ptr) : HM Ptr := do
  let r ← hNew (.val (.str b!"["))
  let _ ← hAdd grow r (.ptr p)
  pure r

/-- The elements of a path to be set, up to an index. graph.go:288-348. -/
def hSteps : List Graph → Res (List HStep)
  | [] => .ok []
  | e :: es =>
    if e.thisString E = tyIndex then do
      let i ← e.int64 E
      .ok [.index i]
    else do
      let ss ← hSteps es
      .ok (.name (match e with | .node v _ => v | .nil => .nil) :: ss)

/-- graph.go:288-345 `set`.  Other than `Set`, it panics for nil. -/
def hSetPath (g : Ptr) (p : Graph) (x : HVal) : HM HVal :=
  match g, p with
  | none, _ => panic
  | _, .nil => panic
  | g, p => do
    let ss ← lift (hSteps E p.out)
    let r ← hSet E grow fuel g ss x
    pure (.ptr r)

/-- function.go:44: the kind of a value. -/
def hCallable (x : HVal) : HM Callable := do
  let v ← hValue fuel x
  pure (callableOf E v)

/-- A value that a called function returns, in new memory. function.go:23-170. -/
def hResult (r : Res (Val × Option Err)) : HM (HVal × Option Err) := do
  let (v, e) ← lift r
  let x ← hPutVal grow v
  pure (x, e)

/-- eval.go:346-352: the members of a group; those with an error are left out. -/
def hEvalGroup (ev : Graph → HM (HVal × Option Err)) (r : Ptr) : List Graph → HM Unit
  | [] => pure ()
  | a :: as => do
    let (x, e) ← ev a
    if e.isNone then do
      let _ ← hAdd grow r x
      hEvalGroup ev r as
    else hEvalGroup ev r as

/-- Evaluate a list of arguments (function.go:61-65, 71-75, 136-140); errors give nil. -/
def hEvalEach (ev : Graph → HM (HVal × Option Err)) : List Graph → HM (List Val)
  | [] => pure []
  | a :: as => do
    let (x, _) ← ev a
    let v ← hValue fuel x
    let vs ← hEvalEach ev as
    pure (v :: vs)

variable (g : Ptr)

mutual
/-- eval.go:11-28 `Eval` of a parsed expression. -/
def hEval : Nat → Graph → HM (HVal × Option Err)
  | 0, _ => oof
  | f + 1, e =>
    if e.thisString E = tyPath then hEvalPath f e true
    else if e.thisString E = tyExpression then hEvalExpr f e true
    else
      match e with
      | .node t [] => do
        let v ← lift ((Graph.node t []).thisScalar E)
        let x ← hPutVal grow v
        pure (x, none)
      | e => do
        let p ← hPut grow e
        pure (.ptr p, none)

/-- eval.go:32-39 `evalBool`. -/
def hEvalBool : Nat → Graph → HM Bool
  | 0, _ => oof
  | f + 1, e => do
    let (x, err) ← hEval f e
    if err.isSome then pure false
    else do
      let b ← hboolf x
      pure b.1

/-- eval.go:658-672 `index` of a path node. -/
def hIndexOf : Nat → Graph → HM Int
  | 0, _ => oof
  | f + 1, n =>
    match n with
    | .nil => panic
    | .node _ [] => pure (-1)
    | .node _ (x :: _) => do
      let (v, err) ← hEvalExpr f x true
      if err.isSome then pure (-2)
      else
        match hint v with
        | none => pure (-3)
        | some i => pure (if i < 0 then -3 else i)

/-- function.go:23-170 `function`. -/
def hFunction : Nat → Graph → HVal → HM (HVal × Option Err)
  | 0, _, _ => oof
  | f + 1, p, typ => do
    match ← hCallable E fuel typ with
    | .none => pure (.val .nil, none)
    | .func remote ins fn =>
      match p.out with
      | _ :: .node t o :: rest =>
        if remote then do
          let args ← match rest with
            | [] => pure []
            | .nil :: _ => panic
            | .node _ o2 :: _ => hEvalEach fuel (fun a => hEvalExpr f a true) o2
          let nn := match t with
            | .nil => []
            | t => [args.foldl (fun n v => (n.add v).1) (addedNode t)]
          hResult grow (callFunc E ins fn [.graph (.node (.str b!"_") nn)])
        else do
          let args ← hEvalEach fuel (fun a => hEvalExpr f a true) o
          hResult grow (callFunc E ins fn args)
      | _ => panic
    | .ptr method =>
      match p.out with
      | _ :: fnode :: rest =>
        if fnode.isNil then pure (.val .nil, some .noMethod)
        else
          match method (fnode.thisString E) with
          | none => pure (.val .nil, some .noMethod)
          | some (ins, fn) => do
            let args ← match rest with
              | [] => pure []
              | .nil :: _ => panic
              | .node _ o2 :: _ => hEvalEach fuel (fun a => hEvalExpr f a false) o2
            hResult grow (callMethod E ins fn args)
      | _ => pure (.val .nil, some .noMethod)

/-- eval.go:138-159: a name in `getPath`. -/
def hGetName : Nat → Graph → Bytes → HPathSt → HM (HPathStep (Ptr × Option Err))
  | 0, _, _, _ => oof
  | f + 1, p, name, s => do
    let n ← hNode E fuel s.ctx name
    let k ← hLen s.ctx
    if n.isNone && k > 0 then do
      let t ← hFirstThis s.ctx
      match ← hFunction f p t with
      | (_, some err) => pure (.done (none, some err))
      | (.ptr r, none) => pure (.next { ctx := r, prev := s.ctx, elem := name })
      | _ => pure (.done (none, some .functionNoGraph))
    else pure (.next { ctx := n, prev := s.ctx, elem := name })

/-- eval.go:59-160: one element in `getPath`. -/
def hGetStep : Nat → Graph → Graph → HPathSt → HM (HPathStep (Ptr × Option Err))
  | 0, _, _, _ => oof
  | f + 1, p, n, s =>
    let elem := n.thisString E
    if elem = tyIndex then do
      let ix ← hIndexOf f n
      if ix < 0 then pure (.done (none, some .invalidIndex))
      else do
        let x ← hGetAt s.ctx ix
        let r ← hBracket grow x
        pure (.next { s with ctx := r, prev := s.ctx })
    else if elem = tySelector then
      if s.prev.isNone || s.elem.isEmpty then pure (.done (none, some .invalidIndex))
      else do
        let ix ← hIndexOf f n
        match ← hSelect grow E fuel s ix with
        | none => pure (.done (none, some .invalidIndex))
        | some r => pure (.next { s with ctx := r, prev := s.ctx })
    else if elem = tyArguments then do
      let k ← hLen s.ctx
      if k > 0 then do
        let t ← hFirstThis s.ctx
        match ← hFunction f p t with
        | (_, some err) => pure (.done (none, some err))
        | (.ptr r, none) => pure (.next { s with ctx := r, prev := s.ctx })
        | _ => pure (.done (none, some .functionNoGraph))
      else pure (.done (none, some .notFound))
    else if elem = tyGroup then
      match n.out with
      | [] => panic
      | x :: _ => do
        let (v, err) ← hEval f x
        match err with
        | some err => pure (.done (none, some err))
        | none => do
          let str ← hstring E fuel v
          if str.isEmpty then pure (.done (none, none))
          else hGetName f p str s
    else hGetName f p elem s

/-- eval.go:42-163 `getPath`. -/
def hGetPath : Nat → Graph → HM (Ptr × Option Err)
  | 0, _ => oof
  | f + 1, p =>
    if p.len = 0 ∨ g = none then pure (none, some .invalidArgs)
    else
      match p with
      | .nil => panic
      | p => do
        match ← hWalkPath (hGetStep f p) p.out { ctx := g } with
        | .done r => pure r
        | .next s => pure (s.ctx, none)

/-- eval.go:279-301: a name in `evalPath`. -/
def hEvalName : Nat → Graph → Bytes → HPathSt → HM (HPathStep (HVal × Option Err))
  | 0, _, _, _ => oof
  | f + 1, p, name, s => do
    let n ← hNode E fuel s.ctx name
    let k ← hLen s.ctx
    if n.isNone && k > 0 then do
      let t ← hFirstThis s.ctx
      match ← hFunction f p t with
      | (_, some err) => pure (.done (.val .nil, some err))
      | (v, none) => pure (.done (v, none))
    else pure (.next { ctx := n, prev := s.ctx, elem := name, addRoot := false })

/-- eval.go:187-303: one element in `evalPath`. -/
def hEvalStep : Nat → Graph → Graph → HPathSt → HM (HPathStep (HVal × Option Err))
  | 0, _, _, _ => oof
  | f + 1, p, n, s =>
    let elem := n.thisString E
    if elem = tyIndex then do
      let ix ← hIndexOf f n
      if ix < 0 then pure (.done (.val .nil, some .invalidIndex))
      else do
        let x ← hGetAt s.ctx ix
        pure (.next { s with ctx := x, prev := s.ctx, addRoot := true })
    else if elem = tySelector then
      if s.prev.isNone || s.elem.isEmpty then pure (.done (.val .nil, some .invalidIndex))
      else do
        let ix ← hIndexOf f n
        match ← hSelect grow E fuel s ix with
        | none => pure (.done (.val .nil, some .invalidIndex))
        | some r => pure (.next { s with ctx := r, prev := s.ctx, addRoot := false })
    else if elem = b!"_len" then do
      let k ← hLen s.ctx
      pure (.done (.val (.int .int k), none))
    else if elem = b!"_this" then pure (.done (.ptr s.ctx, none))
    else if elem = b!"_thisString" then do
      let t ← hThisString E fuel s.ctx none
      pure (.done (.val (.str t), none))
    else if elem = b!"_string" then do
      let t ← hStringDef E fuel s.ctx none
      pure (.done (.val (.str t), none))
    else if elem = b!"_json" then do
      let t ← hTree fuel s.ctx
      let r ← lift (t.json E)
      pure (.done (.val (.bytes r), none))
    else if elem = tyArguments then do
      let k ← hLen s.ctx
      if k > 0 then do
        let t ← hFirstThis s.ctx
        match ← hFunction f p t with
        | (_, some err) => pure (.done (.val .nil, some err))
        | (.ptr r, none) => pure (.next { s with ctx := r, prev := s.ctx, addRoot := false })
        | (v, none) => pure (.done (v, none))
      else pure (.done (.val .nil, none))
    else if elem = tyGroup then
      match n.out with
      | [] => panic
      | x :: _ => do
        let (v, err) ← hEval f x
        match err with
        | some err => pure (.done (.val .nil, some err))
        | none => do
          let str ← hstring E fuel v
          if str.isEmpty then pure (.done (.val .nil, none))
          else hEvalName f p str s
    else hEvalName f p elem s

/-- eval.go:167-316 `evalPath`. -/
def hEvalPath : Nat → Graph → Bool → HM (HVal × Option Err)
  | 0, _, _ => oof
  | f + 1, p, simpl =>
    if p.len = 0 ∨ g = none then pure (.val .nil, some .invalidArgs)
    else
      match p with
      | .nil => panic
      | p => do
        match ← hWalkPath (hEvalStep f p) p.out { ctx := g } with
        | .done r => pure r
        | .next s => do
          let c ← if s.addRoot then hBracket grow s.ctx else pure s.ctx
          if simpl then do
            let x ← hSimplify c
            pure (x, none)
          else pure (.ptr c, none)

/-- eval.go:550-576 `assign`; `none` is `=`. -/
def hAssign : Nat → Graph → HVal → Option ArithOp → HM HVal
  | 0, _, _, _ => oof
  | f + 1, p, x, op =>
    match op with
    | none => hSetPath grow E fuel g p x
    | some op => do
      let (left, _) ← hGetPath f p
      match left with
      | none =>
        match op with
        | .add => hSetPath grow E fuel g p x
        | .sub => do
          let r ← hCalc E fuel (.val (.int .int 0)) x .sub
          hSetPath grow E fuel g p (.val r)
        | .mul => hSetPath grow E fuel g p (.val (.int .int 0))
        | .div => hSetPath grow E fuel g p (.val (.str b!"infinity"))
        | .mod => hSetPath grow E fuel g p (.val (.str b!"undefined"))
      | left => do
        let c ← load left
        let n ← index c.out 0
        let y ← load n
        let r ← hCalc E fuel y.this x op
        hSetPath grow E fuel g p (.val r)

/-- eval.go:395-458 `evalBinary`: the right operand is evaluated first. -/
def hEvalBinary : Nat → Graph → HM HVal
  | 0, _ => oof
  | f + 1, p =>
    match p.out with
    | n1 :: n2 :: _ => do
      let (v2, err) ← hEvalExpr f n2 true
      match err with
      | some err => pure (.val (.other (E.errTag err)))
      | none =>
        match binOp (p.thisString E) with
        | some (.assign op) => hAssign f n1 v2 op
        | op => do
          let (v1, err) ← hEvalExpr f n1 true
          match err with
          | some err => pure (.val (.other (E.errTag err)))
          | none =>
            match op with
            | some (.arith o) => do
              let r ← hCalc E fuel v1 v2 o
              pure (.val r)
            | some (.cmp o) => do
              let b ← hCompare E fuel v1 v2 o
              pure (.val (.bool b))
            | some .and => do
              let b ← hLogic v1 v2 true
              pure (.val (.bool b))
            | some .or => do
              let b ← hLogic v1 v2 false
              pure (.val (.bool b))
            | _ => pure (.val .nil)
    | _ => panic

/-- eval.go:321-393 `evalExpression`. -/
def hEvalExpr : Nat → Graph → Bool → HM (HVal × Option Err)
  | 0, _, _ => oof
  | f + 1, p, simpl =>
    match p with
    | .nil => panic
    | .node .nil _ => pure (.val .nil, some .nilReceiver)
    | .node t o =>
      let s := vstr E t
      if s.isEmpty then pure (.val (.str []), none)
      else if isNumber s then do
        let v ← lift (number' E t)
        let x ← hPutVal grow v
        pure (x, none)
      else if s = b!"!" then
        match o with
        | [] => panic
        | n :: _ => do
          let b ← hEvalBool f n
          pure (.val (.bool !b), none)
      else if s = tyExpression then hEvalExpr f (o.headD .nil) simpl
      else if s = tyPath then hEvalPath f (.node t o) simpl
      else if s = tyGroup then do
        let r ← hNew (.val (.str tyGroup))
        hEvalGroup grow (fun a => hEvalExpr f a simpl) r o
        pure (.ptr r, none)
      else if s = tyString then pure (.val (.str ((o.headD .nil).thisString E)), none)
      else if isOperatorText s then do
        let v ← hEvalBinary f (.node t o)
        pure (v, none)
      else
        let c := s.headD 0
        if c == 34 || c == 39 then pure (.val (.str s), none)
        else if isLetterByte c then
          if s = b!"false" then pure (.val (.bool false), none)
          else if s = b!"true" then pure (.val (.bool true), none)
          else pure (.val (.str s), none)
        else do
          let q ← hPut grow (.node t o)
          pure (.ptr q, none)
end

/-- graph.go:224-231 `Get` with the parsed path given. -/
def hGet (p : Graph) : HM Ptr :=
  match g with
  | none => pure none
  | g => do
    let (r, _) ← hGetPath grow E fuel g (evalFuel p) p
    pure r

end
end Ogdl
