import Verif.Compile.Machine

/-
The sizes that the compiler declares for the code of a function: of the stack, of the stack of
frames and of the slots (lisp/rep/vm/compiler/utils.jl, basic.jl, inline.jl, rep.jl, bindings.jl), how
they are packed into one number, and what the virtual machine allocates for them
(src/lispmach.c, src/lispmach.h).  The code itself is that of Verif/Compile: what is added here is
the accounting, which was left out there.
-/

namespace Rep.Stack

open Rep.Compile

/-- `max-stack` and `max-b-stack` (utils.jl:62-65) of the function being compiled, and those of the
functions enclosed so far, in the order of the table of functions. -/
structure Use where
  v : Nat
  b : Nat
  fns : List (Nat × Nat)
  deriving DecidableEq, Repr

/-- `increment-stack` (utils.jl:292-298) when `current-stack` becomes `n`.  The value of
`current-stack` is that of the context plus what the form has pushed so far; so
`decrement-stack` has no counterpart. -/
def Use.inc (u : Use) (n : Nat) : Use := { u with v := max u.v n }

/-- `increment-b-stack` (utils.jl:307-310) when `current-b-stack` becomes `n`. -/
def Use.incB (u : Use) (n : Nat) : Use := { u with b := max u.b n }

/-- `get-assembly` (basic.jl:264-267) at the end of a function: the enclosing function goes on with
the maxima that it had, as `call-with-initial-env` (basic.jl:255-262) binds them. -/
def Use.close (u w : Use) : Use := { u with fns := w.fns ++ [(w.v, w.b)] }

/-- `compile-lambda-spec` (basic.jl:284-336): the parameters are pushed one after another and then
bound. -/
def Use.enter (u : Use) (ps : List Name) : Use := ⟨ps.length, 0, u.fns⟩

/-- `compile-lambda-inline` (inline.jl:137-164): a frame only if there is something to bind. -/
def Use.inline (u : Use) (c : Ctx) (ps : List Name) : Use :=
  if ps = [] then u else u.incB (c.bp + 1)

mutual
/-- The accounting of `compile-form-1` and of the handlers of the special forms; the same cases as
`cExp`. -/
def uExp (c : Ctx) (rf : Bool) : Exp → CSt → Use → Use
  -- `compile-constant`, basic.jl:127-129
  | .quote _, _, u => u.inc (c.sp + 1)
  -- basic.jl:165-167
  | .var _, _, u => u.inc (c.sp + 1)
  -- `compile-set`, rep.jl:404-409
  | .set _ e, s, u => (uExp c false e s u).inc (c.sp + 2)
  | .seq a b, s, u =>
    match cExp c false a s with
    | some (_, t) => uExp c rf b t (uExp c false a s u)
    | none => u
  -- rep.jl:620-622
  | .cond cs, s, u => (uCls c rf s.lab cs { s with lab := s.lab + 1 } u).inc (c.sp + 1)
  -- rep.jl:329-340
  | .while q b, s, u =>
    match cExp c false b { s with lab := s.lab + 2 } with
    | some (_, t) => uExp c false q t (uExp c false b { s with lab := s.lab + 2 } u)
    | none => u
  -- `compile-lambda-constant`, basic.jl:436-443
  | .lam ps b, s, u =>
    let h := lambdaHead c none ps s
    (u.close (uExp h.2.1 true b h.2.2 (u.enter ps))).inc (c.sp + 1)
  | .call f as, s, u => match f with
    | .lam _ _ => u
    | .var x => match inlinable c s x rf with
      -- an inlinable tail call, basic.jl:205-210
      | some _ => (uArgs c as s u).inc (c.sp + 1)
      | none => uArgs { c with sp := c.sp + 1 } as (varref c x s).2 (u.inc (c.sp + 1))
    | f => match cExp c false f s with
      | some (_, t) => uArgs { c with sp := c.sp + 1 } as t (uExp c false f s u)
      | none => u
  | .inl ps b as, s, u =>
    match cArgs c as s with
    | some (_, t) =>
      let h := inlineHead c none ps (as.length - ps.length) t
      uExp h.2.1 rf b h.2.2 ((uArgs c as s u).inline c ps)
    | none => u
  -- `compile-let*`, rep.jl:418-443
  | .lets bs b, s, u =>
    match cLets { c with bp := c.bp + 1 } bs s with
    | some (_, lex, t) =>
      uExp { c with bp := c.bp + 1, lex := lex } rf b t
        (uLets { c with bp := c.bp + 1 } bs s (u.incB (c.bp + 1)))
    | none => u
  -- `compile-letrec`, rep.jl:449-515; `compile-constant` is called for every variable
  | .letrec bs b, s, u =>
    let r := bindNils bs.names c.lex s.cell
    let c' : Ctx := { c with bp := c.bp + 1, lex := r.2.1 }
    let u := u.incB (c.bp + 1)
    let u := if bs.names = [] then u else u.inc (c.sp + 1)
    match cSets c' bs { s with cell := r.2.2 } with
    | some (_, t) => uExp c' rf b t (uSets c' bs { s with cell := r.2.2 } u)
    | none => u
  | .named x ps b as, s, u =>
    let c1 : Ctx := { c with bp := c.bp + 1, lex := (x, s.cell) :: c.lex }
    let h := lambdaHead c1 (some x) ps { s with cell := s.cell + 1 }
    let u1 := (u.incB (c.bp + 1)).inc (c.sp + 1)
    let u1 := (u1.close (uExp h.2.1 true b h.2.2 (u1.enter ps))).inc (c.sp + 1)
    match cExp h.2.1 true b h.2.2 with
    | some (k, s1) =>
      let s1 := (enclose c1 (h.1 ++ k ++ [.ret]) s1).2
      if s1.notTail.contains s.cell then
        match inlinable c1 s1 x rf with
        | some _ => (uArgs c1 as s1 u1).inc (c.sp + 1)
        | none => uArgs { c1 with sp := c1.sp + 1 } as (varref c1 x s1).2 (u1.inc (c.sp + 1))
      else
        -- `reload-state` (lap.jl:97-110) restores the maxima
        match cArgs c as (reload s s1) with
        | some (_, t) =>
          let h := inlineHead c (some x) ps (as.length - ps.length) t
          uExp h.2.1 rf b h.2.2 ((uArgs c as (reload s s1) u).inline c ps)
        | none => u
    | none => u

/-- The accounting of the arguments of a call. -/
def uArgs (c : Ctx) : Exps → CSt → Use → Use
  | .nil, _, u => u
  | .cons e es, s, u =>
    match cExp c false e s with
    | some (_, t) => uArgs { c with sp := c.sp + 1 } es t (uExp c false e s u)
    | none => u

/-- The accounting of the loop of `compile-cond` (rep.jl:576-618). -/
def uCls (c : Ctx) (rf : Bool) (fin : Nat) : Clauses → CSt → Use → Use
  | .nil, _, u => u
  | .test q r, s, u => match squash q with
    | some true => uExp c rf q { s with lab := s.lab + 1 } u
    | some false => uCls c rf fin r { s with lab := s.lab + 1 } u
    | none =>
      match cExp c (rf && r.isNil) q { s with lab := s.lab + 1 } with
      | some (_, t) =>
        uCls c rf fin r t (uExp c (rf && r.isNil) q { s with lab := s.lab + 1 } u)
      | none => u
  | .act q b r, s, u => match squash q with
    | some true => uExp c rf b { s with lab := s.lab + 1 } u
    | some false => uCls c rf fin r { s with lab := s.lab + 1 } u
    | none =>
      match cExp c false q { s with lab := s.lab + 1 } with
      | some (_, t) =>
        match cExp c rf b t with
        | some (_, t') =>
          uCls c rf fin r t' (uExp c rf b t (uExp c false q { s with lab := s.lab + 1 } u))
        | none => u
      | none => u

/-- The accounting of the loop of `compile-let*`. -/
def uLets (c : Ctx) : Binds → CSt → Use → Use
  | .nil, _, u => u
  | .cons x e r, s, u =>
    match cExp c false e s with
    | some (_, t) =>
      uLets { c with lex := (x, t.cell) :: c.lex } r { t with cell := t.cell + 1 }
        (uExp c false e s u)
    | none => u

/-- The accounting of the assignments of `compile-letrec` (rep.jl:463-468). -/
def uSets (c : Ctx) : Binds → CSt → Use → Use
  | .nil, _, u => u
  | .cons x (.lam ps b) r, s, u =>
    let h := lambdaHead c (some x) ps s
    let u := (u.close (uExp h.2.1 true b h.2.2 (u.enter ps))).inc (c.sp + 1)
    match cExp h.2.1 true b h.2.2 with
    | some (k, t) => uSets c r (enclose c (h.1 ++ k ++ [.ret]) t).2 u
    | none => u
  | .cons _ e r, s, u =>
    match cExp c false e s with
    | some (_, t) => uSets c r t (uExp c false e s u)
    | none => u
end

/-- `compile-lambda` for every `defun` of a file; the same cases as `cDefs`. -/
def uDefs : List (Name × List Name × Exp) → CSt → Use → Use
  | [], _, u => u
  | (x, ps, b) :: r, s, u =>
    let h := lambdaHead ⟨[], [], 0, 0⟩ (some x) ps s
    let w := uExp h.2.1 true b h.2.2 (u.enter ps)
    match cExp h.2.1 true b h.2.2 with
    | some (k, t) => uDefs r { t with fns := t.fns ++ [⟨h.1 ++ k ++ [.ret], []⟩] } (u.close w)
    | none => u

/-- The accounting of a whole file; the result is that of the form, and its functions. -/
def uses (p : Prog) : Option Use := do
  let (_, s) ← cDefs p.defs CSt.init
  let u := uDefs p.defs CSt.init ⟨0, 0, []⟩
  some (uExp ⟨[], [⟨none, [], 0, 0, 0, s.lab, false⟩], 0, 0⟩ true p.main
    { s with lab := s.lab + 1 } ⟨0, 0, u.fns⟩)

/-! ### Slots -/

/-- The slot that an instruction uses after the allocation of bindings, plus one. -/
def slotOf : I → Nat
  | .slotRef n => n + 1
  | .slotSet n => n + 1
  | _ => 0

/-- `max-slot` of `allocate-bindings-1` (bindings.jl:256-289), for code whose bindings have been
allocated. -/
def slots (k : List I) : Nat := (k.map slotOf).foldl max 0

/-! ### What is declared -/

/-- The sizes of an `assembly` (basic.jl:71-77). -/
structure Sizes where
  v : Nat
  b : Nat
  s : Nat
  deriving DecidableEq, Repr

/-- The third argument of `run-byte-code` and `make-byte-code-subr` (basic.jl:365-380): the sizes in
one number.  `ash` by a positive count is a multiplication. -/
def Sizes.pack (z : Sizes) : Nat := z.v + z.b * 2 ^ 10 + z.s * 2 ^ 20

/-- What `vm` is called with (src/lispmach.c:100-102, src/lispmach.h:508-510); the `alloca`s for the
stack and the frames have one element more, for `stack[0]` and `bindstack[0]`
(lispmach.h:540-542). -/
def unpack (n : Nat) : Sizes := ⟨n % 1024, n / 2 ^ 10 % 1024, n / 2 ^ 20⟩

/-- A file compiled with the sizes of its functions. -/
structure Sized where
  prog : TProg
  main : Sizes
  table : List Sizes

/-- Compilation of a file with sizes.  The peephole optimiser is not modelled here. -/
def compileS (u : Bool) (p : Prog) : Option Sized := do
  let t ← compile u p
  let w ← uses p
  some ⟨t, ⟨w.v, w.b, slots t.main⟩,
    List.zipWith (fun k (z : Nat × Nat) => ⟨z.1, z.2, slots k⟩) t.table w.fns⟩

/-- The code of the form and the functions, with what `vm` allocates for each. -/
def Sized.codes (z : Sized) : List (List I × Sizes) :=
  (z.prog.main, unpack z.main.pack) :: z.prog.table.zip (z.table.map fun y => unpack y.pack)

end Rep.Stack
