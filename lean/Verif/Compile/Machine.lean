import Verif.Compile.Compiler

/-
The virtual machine (src/lispmach.h), for the instructions that the modelled part of the compiler
emits.  Simplified: the activations that wait for a call to return are a list instead of the C
stack, and elimination of tail calls by the machine, interrupts, garbage collection, the limit on
the depth of calls and the sizes of the stacks are left out.
-/

namespace Rep.Compile

/-- A compiled closure: a function of the table and `rep_env` where it was enclosed. -/
structure TClo where
  fn : Nat
  env : List Nat
  deriving DecidableEq, Repr

abbrev TVal := Val TClo

/-- An activation of `vm` (lispmach.h:516): code, `pc`, `stackp`, `rep_env`, `bindp` (the numbers of
lexical bindings of the frames, the innermost first), `slotp` and the arguments that have not been
taken yet. -/
structure Act where
  code : List I
  pc : Nat
  stk : List TVal
  env : List Nat
  bst : List Nat
  slots : Nat → Option TVal
  args : List TVal

/-- The bindings in the heap, and the global variables. -/
structure TSt where
  heap : List TVal
  g : Name → Option TVal

/-- The state of the machine: the running activation, those that wait for it, and the memory. -/
structure MSt where
  act : Act
  ks : List Act
  st : TSt

inductive Out
  | next (m : MSt)
  | done (v : TVal) (s : TSt)
  | err (e : Err) (s : TSt)
  /-- the program reads a slot or a stack that has no such element, or leaves the code -/
  | crash

/-- The activation of a function (lispmach.h:580-597). -/
def enter (code : List I) (env : List Nat) (args : List TVal) : Act :=
  ⟨code, 0, [], env, [0], fun _ => none, args⟩

/-- Go to a label. -/
def goto (m : MSt) (stk : List TVal) (l : Nat) : Out :=
  match m.act.code.findIdx? (· == .label l) with
  | some p => .next { m with act := { m.act with pc := p, stk := stk } }
  | none => .crash

def Act.next (a : Act) (stk : List TVal) : Act := { a with pc := a.pc + 1, stk := stk }

/-- One instruction. -/
def step (P : Prims) (T : List (List I)) (m : MSt) : Out :=
  let a := m.act
  let go (stk : List TVal) : Out := .next { m with act := a.next stk }
  match a.code[a.pc]? with
  | none => .crash
  | some i => match i, a.stk with
    | .push k, stk => go (.atom k :: stk)
    | .pop, _ :: stk => go stk
    | .popAll, _ => go []
    | .dup, v :: stk => go (v :: v :: stk)
    -- OP_REFG, OP_SETG
    | .refg x, stk => match m.st.g x with
      | some v => go (v :: stk)
      | none => .err .void m.st
    | .setg x, v :: stk => .next { m with
        act := a.next stk
        st := { m.st with g := fun y => if y = x then some v else m.st.g y } }
    -- OP_BIND
    | .bind, v :: stk => match a.bst with
      | b :: bst => .next { m with
          act := { a.next stk with env := m.st.heap.length :: a.env, bst := (b + 1) :: bst }
          st := { m.st with heap := m.st.heap ++ [v] } }
      | [] => .crash
    -- OP_REFN, OP_SETN
    | .refn n, stk => match a.env[n]? with
      | some l => match m.st.heap[l]? with
        | some v => go (v :: stk)
        | none => .crash
      | none => .crash
    | .setn n, v :: stk => match a.env[n]? with
      | some l => .next { m with
          act := a.next stk
          st := { m.st with heap := m.st.heap.set l v } }
      | none => .crash
    -- OP_SLOT_REF, OP_SLOT_SET
    | .slotRef n, stk => match a.slots n with
      | some v => go (v :: stk)
      | none => .crash
    | .slotSet n, v :: stk => .next { m with
        act := { a.next stk with slots := fun k => if k = n then some v else a.slots k } }
    -- OP_INIT_BIND, OP_UNBIND, OP_UNBINDALL, OP_UNBINDALL_0
    | .initBind, stk => .next { m with act := { a.next stk with bst := 0 :: a.bst } }
    | .unbind, stk => match a.bst with
      | b :: bst => .next { m with act := { a.next stk with env := a.env.drop b, bst := bst } }
      | [] => .crash
    | .unbindall, stk => match a.bst.reverse with
      | b :: r => .next { m with
          act := { a.next stk with env := a.env.drop r.sum, bst := [b] } }
      | [] => .crash
    | .unbindall0, stk => .next { m with
        act := { a.next stk with env := a.env.drop a.bst.sum, bst := [] } }
    -- OP_JMP, OP_JN, OP_JPT, OP_JNP, OP_JTP
    | .jmp l, stk => goto m stk l
    | .jn l, v :: stk => if v.isNil then goto m stk l else go stk
    | .jpt l, v :: stk => if v.isNil then go (v :: stk) else goto m stk l
    | .jnp l, v :: stk => if v.isNil then goto m (v :: stk) l else go stk
    | .jtp l, v :: stk => if v.isNil then go stk else goto m (v :: stk) l
    | .label _, stk => go stk
    -- OP_CALL
    | .call n, stk => match stk.drop n with
      | .fn f :: stk' => match T[f.fn]? with
        | some code => .next ⟨enter code f.env (stk.take n).reverse, a.next stk' :: m.ks, m.st⟩
        | none => .crash
      | .prim p :: stk' => match P.run p (stk.take n).reverse with
        | some v => go (v :: stk')
        | none => .err .prim m.st
      | _ :: _ => .err .invalid m.st
      | [] => .crash
    -- OP_REQUIRED_ARG
    | .reqArg, stk => match a.args with
      | v :: r => .next { m with act := { a.next (v :: stk) with args := r } }
      | [] => .err .missing m.st
    -- OP_ENCLOSE
    | .enclose k, stk => go (.fn ⟨k, a.env⟩ :: stk)
    -- OP_RETURN
    | .ret, v :: _ => match m.ks with
      | [] => .done v m.st
      | k :: ks => .next ⟨{ k with stk := v :: k.stk }, ks, m.st⟩
    | _, _ => .crash

/-- At most so many instructions; `none`: they were not enough. -/
def exec (P : Prims) (T : List (List I)) : Nat → MSt → Option Out
  | 0, _ => none
  | n + 1, m => match step P T m with
    | .next m => exec P T n m
    | o => some o

/-- The global variables of compiled code when the form is evaluated. -/
def TProg.globals (p : TProg) (lib : Name → Option Nat) : Name → Option TVal := fun x =>
  match look x p.defs.reverse with
  | some k => some (.fn ⟨k, []⟩)
  | none => (lib x).map .prim

/-- Loading the compiled file. -/
def load (P : Prims) (lib : Name → Option Nat) (n : Nat) (p : TProg) : Option Out :=
  exec P p.table n ⟨enter p.main [] [], [], ⟨[], p.globals lib⟩⟩

end Rep.Compile
