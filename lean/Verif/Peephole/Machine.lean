/-
The assembly code the compiler hands to the peephole optimiser, and what the virtual
machine does with it.

Models the instruction set of lisp/rep/vm/bytecode-defs.jl:46-236 as far as the optimiser
(lisp/rep/vm/peephole.jl) distinguishes instructions, and the fetch-execute loop of
src/lispmach.h:586-2270.

Simplifications, all stated again where they are used:
* `push-label X; binderr` is one instruction (`handler X`).  The compiler only emits the two
  together (rep.jl compile-catch, compile-unwind-pro, compile-condition-case).
* a code address is a label; the assembler (assembler.jl:182-206) gives every label the
  address that follows it.
* interrupts, garbage collection and thread switches, which happen at jumps
  (lispmach.h:2185-2196), are not modelled, nor is the tail call elimination of `call`
  (lispmach.h:751), which looks at the byte after the instruction.
* allocation is not an effect: an instruction that only allocates leaves the world unchanged.
* two constants that are `equal` are one constant, as they are for the assembler, which keeps
  constants in an association list searched with `assoc` (assembler.jl:63-67).
* `unbindall-0`, which also removes the bottom frame of the binding stack, is not modelled; the
  machine starts with that frame (lispmach.h:591) and code that binds or unbinds without it is
  `stuck`.
* an index out of range, which the machine checks with ASSERT only (lispmach.h:910-936), an
  empty stack, and running off the end of the code are all the outcome `stuck`.
-/

namespace Rep.Peep

/-- Constants in the code.  `()` , fixnums and anything else. -/
inductive Const
  | nil
  | int (i : Int)
  | obj (n : Nat)
deriving DecidableEq, Repr

/-- The three kinds of variables: `refn`/`setn` (heap-allocated lexical), `refg`/`setg`
(global), `slot-ref`/`slot-set` (stack-allocated lexical); bytecodes.jl:84-87. -/
inductive RK
  | n | g | slot
deriving DecidableEq, Repr

/-- The jumps, bytecode-defs.jl:226-236. -/
inductive JK
  | jmp | ejmp | jpn | jpt | jn | jt | jnp | jtp
deriving DecidableEq, Repr

/-- Instructions that replace the top of the stack by a function of it.  `other n vf` is any
other member of `byte-side-effect-free-insns` (bytecodes.jl:66-72) with stack delta 0; `vf`
says whether it also is in `byte-varref-free-insns` (bytecodes.jl:58-63). -/
inductive Un
  | car | cdr | caar | cdar | cadr | cddr
  | testScm | testScmF | scmTest
  | inc | dec | zerop | not | notZeroP
  | other (n : Nat) (vf : Bool)
deriving DecidableEq, Repr

/-- Instructions that replace the two topmost values by a function of them.  `other n vf` as
in `Un`, with stack delta -1. -/
inductive Bin
  | add | sub | numEq
  | other (n : Nat) (vf : Bool)
deriving DecidableEq, Repr

/-- An element of the list the compiler emits: a label, or an instruction.  `α` is what a jump
carries: a label, or (in the optimiser) the cons cell that holds the label. `eff n` is any
instruction the optimiser never looks into (`call`, `rplaca`, `swap`, `spec-bind`, …). -/
inductive Insn (α : Type)
  | label (l : Nat)
  | push (c : Const)
  | dup
  | pop
  | ref (k : RK) (x : Nat)
  | set (k : RK) (x : Nat)
  | bind
  | initBind
  | unbind
  | unbindall
  | ret
  | jump (j : JK) (a : α)
  | handler (a : α)
  | un (o : Un)
  | bin (o : Bin)
  | eff (n : Nat)
deriving DecidableEq, Repr

/-- Code as the machine sees it: every jump carries the label it goes to. -/
abbrev Code := List (Insn Nat)

/-- `byte-varref-free-insns`, bytecodes.jl:58-63, for unary instructions. -/
def Un.vf : Un → Bool
  | .car | .cdr | .caar | .cdar | .cadr => true
  | .testScm | .testScmF | .scmTest | .zerop | .notZeroP => true
  | .cddr | .inc | .dec | .not => false
  | .other _ vf => vf

/-- `byte-side-effect-free-insns`, bytecodes.jl:66-72, for unary instructions. -/
def Un.sef : Un → Bool
  | .cddr => false
  | _ => true

/-- `byte-varref-free-insns` for binary instructions (`cons`, `eq`, `equal`, `eql`). -/
def Bin.vf : Bin → Bool
  | .other _ vf => vf
  | _ => false

/-- `byte-side-effect-free-insns` for binary instructions; `num-eq` is not in the list. -/
def Bin.sef : Bin → Bool
  | .numEq => false
  | _ => true

/-- What reading a variable does. -/
inductive RefRes (V : Type)
  | ok (v : V)
  | raise (e : V)
  | ub

/-- How an opaque instruction changes the binding stack. -/
inductive FAct
  /-- not at all -/
  | none
  /-- marks a special binding in the top frame (`spec-bind`, `fluid-bind`) -/
  | spec
  /-- pushes a frame with one lexical binding (`errorpro`) -/
  | lexFrame

/-- What an opaque instruction does with the world and the stack. -/
inductive EffRes (V W : Type)
  | ok (w : W) (stack : List V) (act : FAct)
  | raise (e : V) (w : W) (stack : List V)
  | ub

/-- Everything about the machine that the optimiser cannot see: values, the world (heap,
lexical environment, special bindings, slots, global variables) and what each instruction
computes.  The laws say what lispmach.h implements; the theorems hold for every machine that
obeys them. -/
structure Machine where
  V : Type
  W : Type
  const : Const → V
  isNil : V → Bool
  un : Un → W → V → Except V V
  bin : Bin → W → V → V → Except V V
  ref : RK → W → Nat → RefRes V
  set : RK → W → Nat → V → Option W
  bindLex : W → V → W
  unbind : W → Nat → Nat → W
  eff : Nat → W → List V → EffRes V W
  /-- bytecodes.jl and peephole.jl:292: `()` is the only false constant -/
  nil_const : isNil (const .nil) = true
  /-- lispmach.h:2129-2135: false is one value -/
  nil_unique : ∀ v, isNil v = true → v = const .nil
  const_nonnil : ∀ c, c ≠ .nil → isNil (const c) = false
  /-- lispmach.h:1182-1198 and 1784-1817: `cadr` is `car` of `cdr` … -/
  caar_eq : ∀ w v, un .caar w v = (un .car w v).bind (un .car w)
  cdar_eq : ∀ w v, un .cdar w v = (un .car w v).bind (un .cdr w)
  cadr_eq : ∀ w v, un .cadr w v = (un .cdr w v).bind (un .car w)
  cddr_eq : ∀ w v, un .cddr w v = (un .cdr w v).bind (un .cdr w)
  /-- lispmach.h:1338-1341 and 2022-2025: `test-scm; scm-test` keeps the truth value -/
  scm_eq : ∀ w v v1 v2, un .testScm w v = .ok v1 → un .scmTest w v1 = .ok v2 →
    isNil v2 = isNil v
  /-- lispmach.h:1294-1300 -/
  not_eq : ∀ w v, ∃ v1, un .not w v = .ok v1 ∧ isNil v1 = !isNil v
  /-- lispmach.h:1228-1243, 1423-1452, numbers.c 1355, 1434, 2080, 2120 -/
  inc_add : ∀ w v, un .inc w v = bin .add w v (const (.int 1))
  inc_sub : ∀ w v, un .inc w v = bin .sub w v (const (.int (-1)))
  dec_sub : ∀ w v, un .dec w v = bin .sub w v (const (.int 1))
  dec_add : ∀ w v, un .dec w v = bin .add w v (const (.int (-1)))
  /-- adding or subtracting zero gives the number back (numbers are values; `-0.0` and `0.0`
  count as one) -/
  add_zero : ∀ w v r, bin .add w v (const (.int 0)) = .ok r → r = v
  sub_zero : ∀ w v r, bin .sub w v (const (.int 0)) = .ok r → r = v
  /-- lispmach.h:1457-1466, 2002-2020 -/
  zerop_eq : ∀ w v, un .zerop w v = bin .numEq w v (const (.int 0))
  /-- lispmach.h:1468-1481 -/
  notZeroP_eq : ∀ w v, un .notZeroP w v = (un .zerop w v).bind (un .not w)
  /-- what was assigned is what is read back -/
  set_ref : ∀ k w x v w', k ≠ .g → set k w x v = some w' → ref k w' x = .ok v
  /-- assigning the present value changes nothing -/
  ref_set : ∀ k w x v, ref k w x = .ok v → set k w x v = some w
  /-- lispmach.h:852-857: `bind` conses onto the environment; `refn 0` is its car -/
  bind_ref : ∀ w v, ref .n (bindLex w v) 0 = .ok v
  /-- lispmach.h:90-107: `unbind` drops as many bindings as the frame counts -/
  unbind_zero : ∀ w, unbind w 0 0 = w
  unbind_bind : ∀ w v l s, unbind (bindLex w v) (l + 1) s = unbind w l s
  /-- bytecodes.jl:56-57: the instructions in `byte-varref-free-insns` neither depend on
  bindings nor raise errors -/
  un_vf : ∀ o w v, o.vf = true → ∃ r, un o w v = .ok r ∧
    ∀ l s, un o (unbind w l s) v = .ok r
  bin_vf : ∀ o w v u, o.vf = true → ∃ r, bin o w v u = .ok r ∧
    ∀ l s, bin o (unbind w l s) v u = .ok r
  /-- heap and slot variables have no void value -/
  ref_safe : ∀ k w x e, k ≠ .g → ref k w x ≠ .raise e
  cddr_safe : ∀ w v, ∃ r, un .cddr w v = .ok r
  numEq_safe : ∀ w v u, ∃ r, bin .numEq w v u = .ok r

variable (M : Machine)

/-- Frames of the binding stack: a count of lexical and special bindings
(`rep_NEW_FRAME`, `rep_MARK_LEX_BINDING`), or an error handler (`binderr`). -/
inductive Frame
  | binds (lex spec : Nat)
  | handler (l : Nat) (sp : Nat)
deriving DecidableEq, Repr

/-- The state of the machine: value stack (top first), binding stack (top first), world. -/
structure St where
  stack : List M.V
  frames : List Frame
  w : M.W

/-- How a run ends: `return`, an error nobody handled, or undefined behaviour. -/
inductive Out
  | ret (v : M.V) (w : M.W)
  | exn (e : M.V) (w : M.W)
  | stuck

/-- The result of one instruction. -/
inductive R
  | next (s : St M)
  | goto (l : Nat) (s : St M)
  | out (o : Out M)

variable {M}

/-- `unbind_n` over the whole binding stack (lispmach.h:120-125). -/
def unwindAll (w : M.W) : List Frame → M.W
  | [] => w
  | .binds l s :: fs => unwindAll (M.unbind w l s) fs
  | .handler _ _ :: fs => unwindAll w fs

/-- The code at label `error:` (lispmach.h:2219-2264): undo bindings until there is a handler;
it finds the stack as it was, with the error on top. -/
def throwTo (e : M.V) (stack : List M.V) (w : M.W) : List Frame → R M
  | [] => .out (.exn e w)
  | .binds l s :: fs => throwTo e stack (M.unbind w l s) fs
  | .handler l sp :: fs =>
    if sp ≤ stack.length then
      .goto l ⟨e :: stack.drop (stack.length - sp), fs, w⟩
    else .out .stuck

/-- Raise an error in state `s`. -/
def St.throw (s : St M) (e : M.V) : R M := throwTo e s.stack s.w s.frames

/-- Jump instructions, lispmach.h:2119-2200. -/
def execJump (j : JK) (l : Nat) (s : St M) : R M :=
  match j with
  | .jmp => .goto l s
  | .ejmp =>
    match s.stack with
    | [] => .out .stuck
    | v :: st =>
      if M.isNil v then .goto l { s with stack := st }
      else St.throw { s with stack := st } v
  | .jn =>
    match s.stack with
    | [] => .out .stuck
    | v :: st => if M.isNil v then .goto l { s with stack := st } else .next { s with stack := st }
  | .jt =>
    match s.stack with
    | [] => .out .stuck
    | v :: st => if M.isNil v then .next { s with stack := st } else .goto l { s with stack := st }
  | .jpn =>
    match s.stack with
    | [] => .out .stuck
    | v :: st => if M.isNil v then .goto l { s with stack := st } else .next s
  | .jpt =>
    match s.stack with
    | [] => .out .stuck
    | v :: st => if M.isNil v then .next s else .goto l { s with stack := st }
  | .jnp =>
    match s.stack with
    | [] => .out .stuck
    | v :: st => if M.isNil v then .goto l s else .next { s with stack := st }
  | .jtp =>
    match s.stack with
    | [] => .out .stuck
    | v :: st => if M.isNil v then .next { s with stack := st } else .goto l s

/-- A side-effect-free instruction finished: put the result in place of the operands, or raise;
then the error has the place of the result (lispmach.h:214-227, where the operands have been
popped and TOP is NULL).  `d` says that errors of this instruction are outside the claim. -/
def finish (d : Bool) (s : St M) (rest : List M.V) (r : Except M.V M.V) : R M :=
  match r with
  | .ok v => .next { s with stack := v :: rest }
  | .error e => if d then .out .stuck else St.throw { s with stack := e :: rest } e

/-- The same for a variable reference. -/
def finishRef (d : Bool) (s : St M) (r : RefRes M.V) : R M :=
  match r with
  | .ok v => .next { s with stack := v :: s.stack }
  | .raise e => if d then .out .stuck else St.throw s e
  | .ub => .out .stuck

/-- Change of the binding stack by an opaque instruction. -/
def actFrames (act : FAct) (fs : List Frame) : Option (List Frame) :=
  match act with
  | .none => some fs
  | .lexFrame => some (.binds 1 0 :: fs)
  | .spec =>
    match fs with
    | .binds l s :: fs => some (.binds l (s + 1) :: fs)
    | _ => none

/-- An opaque instruction. -/
def finishEff (s : St M) (r : EffRes M.V M.W) : R M :=
  match r with
  | .ok w stack act =>
    match actFrames act s.frames with
    | some fs => .next ⟨stack, fs, w⟩
    | none => .out .stuck
  | .raise e w stack => St.throw ⟨stack, s.frames, w⟩ e
  | .ub => .out .stuck

/-- One instruction (not a label) in state `s`: the cases of the big switch,
lispmach.h:606-2200.  `D i = true` declares errors raised by instruction `i` outside the claim:
they end the run as `stuck`.  With `D` constantly false this is the machine. -/
def exec (D : Insn Nat → Bool) (i : Insn Nat) (s : St M) : R M :=
  match i with
  | .label _ => .next s
  | .push c => .next { s with stack := M.const c :: s.stack }
  | .dup =>
    match s.stack with
    | [] => .out .stuck
    | v :: st => .next { s with stack := v :: v :: st }
  | .pop =>
    match s.stack with
    | [] => .out .stuck
    | _ :: st => .next { s with stack := st }
  | .ref k x => finishRef (D (.ref k x)) s (M.ref k s.w x)
  | .set k x =>
    match s.stack with
    | [] => .out .stuck
    | v :: st =>
      match M.set k s.w x v with
      | some w => .next { s with stack := st, w := w }
      | none => .out .stuck
  | .bind =>
    match s.stack with
    | [] => .out .stuck
    | v :: st =>
      match s.frames with
      | .binds l n :: fs => .next ⟨st, .binds (l + 1) n :: fs, M.bindLex s.w v⟩
      | _ => .out .stuck
  | .initBind =>
    match s.frames with
    | [] => .out .stuck
    | _ :: _ => .next { s with frames := .binds 0 0 :: s.frames }
  | .unbind =>
    match s.frames with
    | [] => .out .stuck
    | .binds l n :: fs => .next { s with frames := fs, w := M.unbind s.w l n }
    | .handler _ _ :: fs => .next { s with frames := fs }
  | .unbindall =>
    match s.frames.reverse with
    | [] => .out .stuck
    | f :: fs => .next { s with frames := [f], w := unwindAll s.w fs.reverse }
  | .ret =>
    match s.stack with
    | [] => .out .stuck
    | v :: _ => .out (.ret v (unwindAll s.w s.frames))
  | .jump j l => execJump j l s
  | .handler l => .next { s with frames := .handler l s.stack.length :: s.frames }
  | .un o =>
    match s.stack with
    | [] => .out .stuck
    | v :: st => finish (D (.un o)) s st (M.un o s.w v)
  | .bin o =>
    match s.stack with
    | u :: v :: st => finish (D (.bin o)) s st (M.bin o s.w v u)
    | _ => .out .stuck
  | .eff n => finishEff s (M.eff n s.w s.stack)

/-- The code after label `l`. -/
def findL (l : Nat) : Code → Option Code
  | [] => none
  | .label m :: k => if m = l then some k else findL l k
  | _ :: k => findL l k

/-- Where the machine is: the rest of the code, and the state. -/
abbrev Cfg (M : Machine) := Code × St M

/-- Follow up the result of an instruction. -/
def follow (c k : Code) (r : R M) : Cfg M ⊕ Out M :=
  match r with
  | .next s => .inl (k, s)
  | .out o => .inr o
  | .goto l s =>
    match findL l c with
    | some k' => .inl (k', s)
    | none => .inr .stuck

/-- One step of code `c`. -/
def step (D : Insn Nat → Bool) (c : Code) (cfg : Cfg M) : Cfg M ⊕ Out M :=
  match cfg.1 with
  | [] => .inr .stuck
  | i :: k => follow c k (exec D i cfg.2)

/-- `Runs D c n cfg o`: code `c`, started at `cfg`, ends after `n` steps with outcome `o`. -/
inductive Runs (D : Insn Nat → Bool) (c : Code) : Nat → Cfg M → Out M → Prop
  | stop {cfg o} : step D c cfg = .inr o → Runs D c 0 cfg o
  | step {n cfg cfg' o} : step D c cfg = .inl cfg' → Runs D c n cfg' o → Runs D c (n + 1) cfg o

/-- The run from `cfg` ends with outcome `o`. -/
def Ends (D : Insn Nat → Bool) (c : Code) (cfg : Cfg M) (o : Out M) : Prop :=
  ∃ n, Runs D c n cfg o

/-- An executable interpreter, used for concrete programs: at most `n` steps. -/
def interp (D : Insn Nat → Bool) (c : Code) : Nat → Cfg M → Option (Out M)
  | 0, _ => none
  | n + 1, cfg =>
    match step D c cfg with
    | .inr o => some o
    | .inl cfg' => interp D c n cfg'

theorem interp_ends {D : Insn Nat → Bool} {c : Code} :
    ∀ (n : Nat) (cfg : Cfg M) (o : Out M), interp D c n cfg = some o → Ends D c cfg o := by
  intro n
  induction n with
  | zero => intro cfg o h; simp [interp] at h
  | succ n ih =>
    intro cfg o h
    rw [interp] at h
    cases hs : step D c cfg with
    | inr o' =>
      rw [hs] at h; simp at h; subst h
      exact ⟨0, .stop hs⟩
    | inl cfg' =>
      rw [hs] at h
      obtain ⟨m, hm⟩ := ih cfg' o h
      exact ⟨m + 1, .step hs hm⟩

/-- A run has one outcome, and takes a definite number of steps. -/
theorem Runs.det {D : Insn Nat → Bool} {c : Code} {n m : Nat} {cfg : Cfg M} {o o' : Out M}
    (h : Runs D c n cfg o) : Runs D c m cfg o' → n = m ∧ o = o' := by
  induction h generalizing m with
  | stop h =>
    intro h'
    cases h' with
    | stop h' => rw [h] at h'; cases h'; exact ⟨rfl, rfl⟩
    | step h' _ => rw [h] at h'; cases h'
  | step h _ ih =>
    intro h'
    cases h' with
    | stop h' => rw [h] at h'; cases h'
    | step h' h2 =>
      rw [h] at h'; cases h'
      obtain ⟨rfl, rfl⟩ := ih h2
      exact ⟨rfl, rfl⟩

theorem Ends.det {D : Insn Nat → Bool} {c : Code} {cfg : Cfg M} {o o' : Out M}
    (h : Ends D c cfg o) (h' : Ends D c cfg o') : o = o' := by
  obtain ⟨_, h⟩ := h; obtain ⟨_, h'⟩ := h'; exact (h.det h').2

theorem Ends.step {D : Insn Nat → Bool} {c : Code} {cfg cfg' : Cfg M} {o : Out M}
    (h : Peep.step D c cfg = .inl cfg') (h' : Ends D c cfg' o) : Ends D c cfg o := by
  obtain ⟨n, h'⟩ := h'; exact ⟨n + 1, .step h h'⟩

theorem Ends.stop {D : Insn Nat → Bool} {c : Code} {cfg : Cfg M} {o : Out M}
    (h : Peep.step D c cfg = .inr o) : Ends D c cfg o := ⟨0, .stop h⟩

end Rep.Peep
