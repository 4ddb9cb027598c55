import Verif.Compile.Syntax

/-
The compiler, from forms to the instructions of the virtual machine (lisp/rep/vm/compiler/basic.jl,
bindings.jl, inline.jl, lap.jl and the handlers of rep.jl).  Not modelled: source transformations,
constants known to the compiler, handlers that turn calls of subrs into instructions, `defsubst`,
special variables, optional, keyword and rest parameters, and the accounting of stack sizes.  The
peephole optimiser and the assembler, which come after this, are modelled separately.
-/

namespace Rep.Compile

/-- `lex-bindings` (bindings.jl:55): variables, innermost first, with the identity of the cell that
the tags of the variable are attached to. -/
abbrev Lex := List (Name × Nat)

/-- Instructions.  `lexBind`, `lexRef` and `lexSet` are the pseudo instructions that
`allocate-bindings` replaces; `enclose k` is `push-bytecode` for the function `k` of the table
followed by `enclose`. -/
inductive I
  | push (a : Atom)
  | pop
  | popAll
  | dup
  | refg (x : Name)
  | setg (x : Name)
  | lexBind (x : Name) (lex : Lex)
  | lexRef (x : Name) (lex : Lex)
  | lexSet (x : Name) (lex : Lex)
  | bind
  | refn (n : Nat)
  | setn (n : Nat)
  | slotRef (n : Nat)
  | slotSet (n : Nat)
  | initBind
  | unbind
  | unbindall
  | unbindall0
  | jmp (l : Nat)
  | jn (l : Nat)
  | jpt (l : Nat)
  | jnp (l : Nat)
  | jtp (l : Nat)
  | label (l : Nat)
  | call (n : Nat)
  | reqArg
  | enclose (k : Nat)
  | ret
  deriving DecidableEq, Repr

/-- `lambda-record` (basic.jl:75-84). -/
structure Rec where
  name : Option Name
  args : List Name
  depth : Nat
  sp : Nat
  bp : Nat
  label : Nat
  inlined : Bool

/-- What is known where a form is compiled: `lex-bindings`, `lambda-stack`, `current-stack` and
`current-b-stack`. -/
structure Ctx where
  lex : Lex
  recs : List Rec
  sp : Nat
  bp : Nat

/-- The code of a function, and the bindings at the place where it is enclosed. -/
structure Fn where
  code : List I
  base : Lex

/-- What compilation updates: the supplies of labels (`gensym`) and of cells, the tags of the cells
and the functions enclosed by the code emitted so far.  `inplace` is not in the program: it
records the variables that jumps to the start of a function have assigned. -/
structure CSt where
  lab : Nat
  cell : Nat
  modified : List Nat
  notTail : List Nat
  enclosed : List Nat
  across : List Nat
  exposed : List Nat
  inplace : List Nat
  fns : List Fn

def CSt.init : CSt := ⟨0, 0, [], [], [], [], [], [], []⟩

/-- `find-lambda` (basic.jl:92-97). -/
def findLambda (recs : List Rec) (x : Name) : Option Rec :=
  recs.find? fun r => r.name == some x

/-- `(lambda-depth (current-lambda))`; see `call-with-lambda-record` (basic.jl:99-108). -/
def depth (recs : List Rec) : Nat := match recs with
  | [] => 0
  | r :: _ => r.depth

/-- `call-with-lambda-record`'s depth for a function that is not compiled inline. -/
def nextDepth (recs : List Rec) : Nat := match recs with
  | [] => 0
  | r :: _ => r.depth + 1

/-- `inlinable-call-p` (basic.jl:126-134); without special variables the code is always lexically
pure. -/
def inlinable (c : Ctx) (s : CSt) (x : Name) (rf : Bool) : Option Rec :=
  match findLambda c.recs x with
  | some r =>
    if (r.inlined || (rf && !(match look x c.lex with
          | some k => s.modified.contains k
          | none => false))) && r.depth == depth c.recs
    then some r else none
  | none => none

/-- `emit-varref` (bindings.jl:207-221), with `note-binding-referenced`. -/
def varref (c : Ctx) (x : Name) (s : CSt) : List I × CSt :=
  match look x c.lex with
  | some k => ([.lexRef x c.lex], { s with notTail := k :: s.notTail })
  | none => ([.refg x], s)

/-- `emit-varset` (bindings.jl:192-205). -/
def varset (c : Ctx) (x : Name) : I :=
  match look x c.lex with
  | some _ => .lexSet x c.lex
  | none => .setg x

/-- `note-binding-modified` (bindings.jl:135-140). -/
def noteModified (c : Ctx) (x : Name) (s : CSt) : CSt :=
  match look x c.lex with
  | some k => { s with
      modified := k :: s.modified
      exposed := if s.across.contains k then k :: s.exposed else s.exposed }
  | none => s

/-- `note-function-call-made` (bindings.jl:158-160). -/
def noteCall (c : Ctx) (s : CSt) : CSt :=
  { s with across := c.lex.map (·.2) ++ s.across }

/-- `note-closure-made` (bindings.jl:166-168). -/
def noteClosure (c : Ctx) (s : CSt) : CSt :=
  { s with enclosed := c.lex.map (·.2) ++ s.enclosed }

/-- `note-binding` and `emit-binding` for each of some variables (basic.jl:277-281,
inline.jl:137-139): every one gets a new cell. -/
def bindAll : List Name → Lex → Nat → List I × Lex × Nat
  | [], lex, n => ([], lex, n)
  | x :: xs, lex, n =>
    let lex := (x, n) :: lex
    let r := bindAll xs lex (n + 1)
    (.lexBind x lex :: r.1, r.2)

/-- As `bindAll`, every value being a constant nil (rep.jl:460-466). -/
def bindNils : List Name → Lex → Nat → List I × Lex × Nat
  | [], lex, n => ([], lex, n)
  | x :: xs, lex, n =>
    let lex := (x, n) :: lex
    let r := bindNils xs lex (n + 1)
    (.push .nil :: .lexBind x lex :: r.1, r.2)

/-- `pop-between` (inline.jl:166-175). -/
def popBetween (top bottom : Nat) : List I :=
  if top = bottom then [] else if bottom = 0 then [.popAll] else List.replicate (top - bottom) .pop

/-- `unbind-between` (inline.jl:177-184). -/
def unbindBetween (top bottom : Nat) : List I :=
  if bottom = 0 then (if top ≤ bottom then [] else [.unbindall])
  else List.replicate (top - bottom) .unbind

/-- `unbind-between` when the frame below the given one is the one to return to; below the first
one there is none, and `(unbindall-0)` removes everything. -/
def unbindBelow (top bp : Nat) : List I :=
  match bp with
  | 0 => [.unbindall0]
  | b + 1 => unbindBetween top b

/-- Is one of the variables tagged `enclosed`? (inline.jl:193-198) -/
def anyEnclosed (c : Ctx) (s : CSt) (xs : List Name) : Bool :=
  xs.any fun x => match look x c.lex with
    | some k => s.enclosed.contains k
    | none => false

/-- `compile-tail-call` (inline.jl:186-215) after the arguments have been pushed; `extra` of them
have no parameter. -/
def tailCall (c : Ctx) (r : Rec) (extra : Nat) (s : CSt) : List I × CSt :=
  if anyEnclosed c s r.args then
    (unbindBelow c.bp r.bp ++ [.initBind] ++ r.args.reverse.map (fun x => .lexBind x c.lex) ++
      List.replicate extra .pop ++ popBetween c.sp r.sp ++ [.jmp r.label], s)
  else
    (r.args.reverse.map (varset c) ++ List.replicate extra .pop ++ unbindBetween c.bp r.bp ++
      popBetween c.sp r.sp ++ [.jmp r.label],
      { s with inplace := r.args.filterMap (fun x => look x c.lex) ++ s.inplace })

/-- The part of `compile-lambda-inline` (inline.jl:105-164) between the arguments and the body, with
the context of the body. -/
def inlineHead (c : Ctx) (name : Option Name) (ps : List Name) (extra : Nat) (s : CSt) :
    List I × Ctx × CSt :=
  if ps = [] then
    (List.replicate extra .pop ++ [.label s.lab],
      { c with recs := ⟨name, ps, depth c.recs, c.sp, c.bp, s.lab, true⟩ :: c.recs },
      { s with lab := s.lab + 1 })
  else
    let b := bindAll ps.reverse c.lex s.cell
    (.initBind :: b.1 ++ List.replicate extra .pop ++ [.label s.lab],
      { c with
        lex := b.2.1
        bp := c.bp + 1
        recs := ⟨name, ps, depth c.recs, c.sp, c.bp + 1, s.lab, true⟩ :: c.recs },
      { s with lab := s.lab + 1, cell := b.2.2 })

/-- The part after the body. -/
def inlineTail (ps : List Name) : List I :=
  if ps = [] then [] else [.unbind]

/-- The part of `compile-lambda-to-asm` (basic.jl:334-348) before the body, with the context of the
body. -/
def lambdaHead (c : Ctx) (name : Option Name) (ps : List Name) (s : CSt) : List I × Ctx × CSt :=
  let b := bindAll ps.reverse c.lex s.cell
  (ps.map (fun _ => .reqArg) ++ b.1 ++ [.label s.lab],
    ⟨b.2.1, ⟨name, ps, nextDepth c.recs, 0, 0, s.lab, false⟩ :: c.recs, 0, 0⟩,
    { s with lab := s.lab + 1, cell := b.2.2 })

/-- `compile-lambda-constant` (basic.jl:390-427) after the function has been compiled. -/
def enclose (c : Ctx) (code : List I) (s : CSt) : List I × CSt :=
  ([.enclose s.fns.length], noteClosure c { s with fns := s.fns ++ [⟨code, c.lex⟩] })

/-- `reload-state` (lap.jl:78-95): the tags of `s`, the supplies of `t`. -/
def reload (s t : CSt) : CSt := { s with lab := t.lab, cell := t.cell }

/-- A constant condition is squashed to `t` or nil (rep.jl:571-572). -/
def squash : Exp → Option Bool
  | .quote a => some (decide (a ≠ .nil))
  | _ => none

/-- Would `compile-letrec` try to compile this one inline? (rep.jl:474-491) -/
def loopShape : Binds → Exp → Bool
  | .cons x (.lam _ _) .nil, .call (.var y) _ => x == y
  | _, _ => false

mutual
/-- `compile-form-1` (basic.jl:137-230) and the handlers of the special forms; `rf` is
`return-follows`. -/
def cExp (c : Ctx) (rf : Bool) : Exp → CSt → Option (List I × CSt)
  | .quote a, s => some ([.push a], s)
  | .var x, s => some (varref c x s)
  -- `compile-set`, rep.jl:389-408
  | .set x e, s => do
    let (k, s) ← cExp c false e s
    some (k ++ [.dup, varset c x], noteModified c x s)
  -- `compile-body`, basic.jl:234-249
  | .seq a b, s => do
    let (k, s) ← cExp c false a s
    let (k', s) ← cExp c rf b s
    some (k ++ .pop :: k', s)
  -- `compile-cond`, rep.jl:555-622
  | .cond cs, s => do
    let (k, need, t) ← cCls c rf s.lab cs { s with lab := s.lab + 1 }
    some (k ++ (if need then [.push .nil] else []) ++ [.label s.lab], t)
  -- `compile-while`, rep.jl:322-333
  | .while q b, s => do
    let (k, t) ← cExp c false b { s with lab := s.lab + 2 }
    let (k', t) ← cExp c false q t
    some (.jmp (s.lab + 1) :: .label s.lab :: k ++ [.pop, .label (s.lab + 1)] ++ k' ++
      [.jpt s.lab], t)
  | .lam ps b, s => do
    let (h, c', s) := lambdaHead c none ps s
    let (k, s) ← cExp c' true b s
    some (enclose c (h ++ k ++ [.ret]) s)
  | .call f as, s => match f with
    | .lam _ _ => none
    | .var x => match inlinable c s x rf with
      | some r => do
        let (k, s) ← cArgs c as s
        if as.length < r.args.length then none
        else
          let (k', s) := tailCall c r (as.length - r.args.length) s
          some (k ++ k', s)
      | none => do
        let (k, s) := varref c x s
        let (k', s) ← cArgs { c with sp := c.sp + 1 } as s
        some (k ++ k' ++ [.call as.length], noteCall c s)
    | f => do
      let (k, s) ← cExp c false f s
      let (k', s) ← cArgs { c with sp := c.sp + 1 } as s
      some (k ++ k' ++ [.call as.length], noteCall c s)
  | .inl ps b as, s => do
    let (k, s) ← cArgs c as s
    if as.length < ps.length then none
    else
      let (h, c', s) := inlineHead c none ps (as.length - ps.length) s
      let (k', s) ← cExp c' rf b s
      some (k ++ h ++ k' ++ inlineTail ps, s)
  -- `compile-let*`, rep.jl:411-436
  | .lets bs b, s => do
    let (k, lex, s) ← cLets { c with bp := c.bp + 1 } bs s
    let (k', s) ← cExp { c with bp := c.bp + 1, lex := lex } rf b s
    some (.initBind :: k ++ k' ++ [.unbind], s)
  -- `compile-letrec`, rep.jl:442-508
  | .letrec bs b, s =>
    if loopShape bs b then none
    else do
      let (k, lex, n) := bindNils bs.names c.lex s.cell
      let c' : Ctx := { c with bp := c.bp + 1, lex := lex }
      let (k', s) ← cSets c' bs { s with cell := n }
      let (k'', s) ← cExp c' rf b s
      some (.initBind :: k ++ k' ++ k'' ++ [.unbind], s)
  | .named x ps b as, s => do
    let c1 : Ctx := { c with bp := c.bp + 1, lex := (x, s.cell) :: c.lex }
    let (h, c2, s1) := lambdaHead c1 (some x) ps { s with cell := s.cell + 1 }
    let (k, s1) ← cExp c2 true b s1
    let (k, s1) := enclose c1 (h ++ k ++ [.ret]) s1
    if s1.notTail.contains s.cell then
      let k0 := [.initBind, .push .nil, .lexBind x c1.lex] ++ k ++ [.lexSet x c1.lex]
      match inlinable c1 s1 x rf with
      | some r => do
        let (k1, s1) ← cArgs c1 as s1
        if as.length < r.args.length then none
        else
          let (k2, s1) := tailCall c1 r (as.length - r.args.length) s1
          some (k0 ++ k1 ++ k2 ++ [.unbind], s1)
      | none => do
        let (k1, s1) := varref c1 x s1
        let (k2, s1) ← cArgs { c1 with sp := c1.sp + 1 } as s1
        some (k0 ++ k1 ++ k2 ++ [.call as.length, .unbind], noteCall c1 s1)
    else do
      let (k, s) ← cArgs c as (reload s s1)
      if as.length < ps.length then none
      else
        let (h, c', s) := inlineHead c (some x) ps (as.length - ps.length) s
        let (k', s) ← cExp c' rf b s
        some (k ++ h ++ k' ++ inlineTail ps, s)

/-- The arguments of a call, each of which is left on the stack (basic.jl:220-224,
inline.jl:44-50). -/
def cArgs (c : Ctx) : Exps → CSt → Option (List I × CSt)
  | .nil, s => some ([], s)
  | .cons e es, s => do
    let (k, s) ← cExp c false e s
    let (k', s) ← cArgs { c with sp := c.sp + 1 } es s
    some (k ++ k', s)

/-- The loop of `compile-cond`; the second result is `need-trailing-nil`. -/
def cCls (c : Ctx) (rf : Bool) (fin : Nat) : Clauses → CSt → Option (List I × Bool × CSt)
  | .nil, s => some ([], true, s)
  | .test q r, s => match squash q with
    | some true => do
      let (k, s) ← cExp c rf q { s with lab := s.lab + 1 }
      some (k, false, s)
    | some false => cCls c rf fin r { s with lab := s.lab + 1 }
    | none => do
      let (k, s) ← cExp c (rf && r.isNil) q { s with lab := s.lab + 1 }
      if r.isNil then some (k, false, s)
      else do
        let (k', need, s) ← cCls c rf fin r s
        some (k ++ .jtp fin :: k', need, s)
  | .act q b r, s => match squash q with
    | some true => do
      let (k, s) ← cExp c rf b { s with lab := s.lab + 1 }
      some (k, false, s)
    | some false => cCls c rf fin r { s with lab := s.lab + 1 }
    | none => do
      let next := s.lab
      let (k, s) ← cExp c false q { s with lab := s.lab + 1 }
      let (k', s) ← cExp c rf b s
      if r.isNil then some (k ++ .jnp fin :: k', false, s)
      else do
        let (k'', need, s) ← cCls c rf fin r s
        some (k ++ .jn next :: k' ++ [.jmp fin, .label next] ++ k'', need, s)

/-- The loop of `compile-let*`. -/
def cLets (c : Ctx) : Binds → CSt → Option (List I × Lex × CSt)
  | .nil, s => some ([], c.lex, s)
  | .cons x e r, s => do
    let (k, s) ← cExp c false e s
    let lex := (x, s.cell) :: c.lex
    let (k', lex', s) ← cLets { c with lex := lex } r { s with cell := s.cell + 1 }
    some (k ++ .lexBind x lex :: k', lex', s)

/-- The assignments of `compile-letrec`; a lambda expression gets the name of the variable
(basic.jl:241-243). -/
def cSets (c : Ctx) : Binds → CSt → Option (List I × CSt)
  | .nil, s => some ([], s)
  | .cons x (.lam ps b) r, s => do
    let (h, c', s) := lambdaHead c (some x) ps s
    let (k, s) ← cExp c' true b s
    let (k, s) := enclose c (h ++ k ++ [.ret]) s
    let (k', s) ← cSets c r s
    some (k ++ varset c x :: k', s)
  | .cons x e r, s => do
    let (k, s) ← cExp c false e s
    let (k', s) ← cSets c r s
    some (k ++ varset c x :: k', s)
end

/-! ### Allocation of bindings -/

/-- `identify-captured-bindings` (bindings.jl:262-272): a variable of the place where a function is
enclosed is captured if an instruction of the function names it. -/
def captured (fns : List Fn) (k : Nat) : Bool :=
  fns.any fun f => f.code.any fun i => match i with
    | .lexRef x _ => look x f.base == some k
    | .lexSet x _ => look x f.base == some k
    | _ => false

/-- `heap-binding-p` (bindings.jl:226-231); `u` is `unsafe-for-call/cc`. -/
def heapP (u : Bool) (s : CSt) (k : Nat) : Bool :=
  captured s.fns k || (!u && s.exposed.contains k)

/-- `heap-address` (bindings.jl:234-243). -/
def heapAddr (H : Nat → Bool) (x : Name) : Lex → Nat
  | [] => 0
  | (y, k) :: r => if !H k then heapAddr H x r else if y = x then 0 else heapAddr H x r + 1

/-- `slot-address` (bindings.jl:246-258): the bindings of the function that are older than the
variable and not in the heap; `b` is the number of bindings at the place where the function is
enclosed. -/
def slotAddr (H : Nat → Bool) (b : Nat) (x : Name) : Lex → Nat
  | [] => 0
  | (y, _) :: r =>
    if y = x then ((r.take (r.length - b)).filter fun e => !H e.2).length else slotAddr H b x r

/-- `allocate-bindings-1` (bindings.jl:277-312). -/
def alloc (H : Nat → Bool) (b : Nat) : I → I
  | .lexBind x lex => match look x lex with
    | some k => if H k then .bind else .slotSet (slotAddr H b x lex)
    | none => .slotSet (slotAddr H b x lex)
  | .lexRef x lex => match look x lex with
    | some k => if H k then .refn (heapAddr H x lex) else .slotRef (slotAddr H b x lex)
    | none => .slotRef (slotAddr H b x lex)
  | .lexSet x lex => match look x lex with
    | some k => if H k then .setn (heapAddr H x lex) else .slotSet (slotAddr H b x lex)
    | none => .slotSet (slotAddr H b x lex)
  | i => i

/-- `compile-lambda` for every `defun` of a file (rep.jl:193-206). -/
def cDefs : List (Name × List Name × Exp) → CSt → Option (List (Name × Nat) × CSt)
  | [], s => some ([], s)
  | (x, ps, b) :: r, s => do
    let (h, c, s) := lambdaHead ⟨[], [], 0, 0⟩ (some x) ps s
    let (k, s) ← cExp c true b s
    let n := s.fns.length
    let (ds, s) ← cDefs r { s with fns := s.fns ++ [⟨h ++ k ++ [.ret], []⟩] }
    some ((x, n) :: ds, s)

/-- A compiled file: the code of its functions, which of them are the values of which global
variables, and the code of the form. -/
structure TProg where
  table : List (List I)
  defs : List (Name × Nat)
  main : List I

/-- Compilation of a file before the allocation of bindings: the table of its functions is that of
the resulting state. -/
def compile1 (p : Prog) : Option (List (Name × Nat) × List I × CSt) := do
  let (ds, s) ← cDefs p.defs CSt.init
  -- `compile-form`, basic.jl:379-384
  let (k, t) ← cExp ⟨[], [⟨none, [], 0, 0, 0, s.lab, false⟩], 0, 0⟩ true p.main
    { s with lab := s.lab + 1 }
  some (ds, .label s.lab :: k ++ [.ret], t)

/-- `allocate-bindings` for the whole file. -/
def finish (u : Bool) (ds : List (Name × Nat)) (k : List I) (s : CSt) : TProg :=
  { table := s.fns.map fun f => f.code.map (alloc (heapP u s) f.base.length)
    defs := ds
    main := k.map (alloc (heapP u s) 0) }

def compile (u : Bool) (p : Prog) : Option TProg := do
  let (ds, k, s) ← compile1 p
  some (finish u ds k s)

end Rep.Compile
