/-
Expanding macros: src/macros.c, `macroexpand` with the history of expansions it keeps.

The functions that expand macros are arbitrary programs: they may expand other forms, change anything and let the collector run.  So an
execution is a sequence of events, in which calls of `macroexpand` are nested.  Not modelled: expanders that are autoloads (src/macros.c:99-123), the
binding of `macro-environment`, the counters of hits.
-/

namespace Rep.Macro

/-- Where an object is: a `repv`. -/
abbrev Addr := Nat

/-- The identity of an object: an address may be used for another object after a collection. -/
abbrev Obj := Nat

/-- What may be at the head of a form, or the value of a symbol. -/
inductive Head where
  | sym (s : Nat)
  /-- `(macro . F)` -/
  | mac (f : Nat)
  /-- a function -/
  | fn (f : Nat)
  /-- anything else -/
  | other
  deriving DecidableEq, Repr

/-- What expansion depends on. -/
structure World where
  /-- the first element of an object, if it is a pair -/
  car : Obj → Option Head
  /-- the value of a symbol in a structure -/
  value : Nat → Nat → Head
  /-- the current structure -/
  current : Nat
  /-- whether what a macro consists of is a function, src/lispcmds.c:1788 -/
  isFn : Nat → Bool

/-- The argument ENVIRONMENT. -/
inductive Env where
  | nil
  | fn (f : Nat)
  | struct (s : Nat)
  | other
  deriving DecidableEq, Repr

/-- What `macroexpand-1` does with a form: return it, or call a function, on the form itself or on its arguments. -/
inductive First where
  | same
  | call (f : Nat) (whole : Bool)
  deriving DecidableEq, Repr

/-- src/macros.c:65-97 `macroexpand-1`, up to the call of the expander -/
def macroexpand1 (w : World) (form : Obj) (env : Env) : First :=
  match w.car form with
  | none => .same
  | some car =>
    match env with
    | .fn f => .call f true
    | env =>
      match car with
      | .sym s =>
        match w.value (match env with | .struct m => m | _ => w.current) s with
        | .mac f => if w.isFn f then .call f false else .same
        | _ => .same
      | .mac f => if w.isFn f then .call f false else .same
      | .fn f => .call f false
      | .other => .same

/-- A call of `macroexpand` that waits for an expander: the local variables `input`, `pred` and `env`. -/
structure Frame where
  input : Addr
  pred : Addr
  env : Env
  deriving DecidableEq, Repr

/-- The state. -/
structure St where
  world : World
  /-- which object is at an address -/
  obj : Addr → Option Obj := fun _ => none
  /-- how many objects there have been -/
  count : Nat := 0
  /-- src/macros.c:46 `history` -/
  history : Nat → List (Addr × Addr) := fun _ => []
  stack : List Frame := []

/-- src/macros.c:41-42 -/
def HIST_SIZE : Nat := 256
def histHash (x : Addr) : Nat := (x / 16) % HIST_SIZE

/-- `macroexpand` returns: for which object it had been called, with which environment, what it returns (if it is not an error), and whether that
was in the history. -/
structure Out where
  form : Obj
  env : Env
  result : Option Obj
  cached : Bool
  deriving DecidableEq, Repr

/-- src/macros.c:156-164: the search in the history -/
def search (st : St) (form : Addr) : Option Addr := ((st.history (histHash form)).find? fun p => p.1 = form).map (·.2)

/-- src/macros.c:181-188: the end of `macroexpand` -/
def finish (st : St) (env : Env) (input form : Addr) : St × Option Out :=
  ({ st with history := fun i => if i = histHash input then (input, form) :: st.history i else st.history i },
   match st.obj input, st.obj form with
   | some o, some p => some ⟨o, env, some p, false⟩
   | _, _ => none)

/-- src/macros.c:171-178: the loop, until an expander is called -/
def loop (st : St) (env : Env) (input pred : Addr) : St × Option Out :=
  match st.obj pred with
  | none => (st, none)
  | some o =>
    match macroexpand1 st.world o env with
    | .same => finish st env input pred
    | .call _ _ => ({ st with stack := ⟨input, pred, env⟩ :: st.stack }, none)

/-- src/macros.c:136 `macroexpand` -/
def macroexpand (st : St) (form : Addr) (env : Env) : St × Option Out :=
  match st.obj form with
  | none => (st, none)
  | some o =>
    if st.world.car o = none then (st, some ⟨o, env, some o, false⟩)
    else
      match search st form with
      | some r => (st, (st.obj r).map fun p => ⟨o, env, some p, true⟩)
      | none => loop st env form form

/-- What may happen. -/
inductive Event where
  /-- a new object -/
  | alloc (a : Addr)
  /-- the collector frees objects -/
  | gc (freed : Addr → Bool)
  /-- macros are defined, the current structure, or the contents of a form are changed -/
  | change (w : World)
  /-- `macroexpand` is called -/
  | call (form : Addr) (env : Env)
  /-- the expander of the innermost call of `macroexpand` returns, or fails -/
  | result (r : Option Addr)

/-- One event, and what is returned by `macroexpand` if it returns; `none` if the event cannot happen: objects are made where there is none, the
collector keeps what is protected (src/macros.c:167-168) and forms are objects that exist. -/
def step (st : St) : Event → Option (St × Option Out)
  | .alloc a => if st.obj a = none then some ({ st with obj := fun x => if x = a then some st.count else st.obj x, count := st.count + 1 }, none) else none
  | .gc freed =>
    if st.stack.all (fun f => !freed f.input && !freed f.pred) then
      -- src/values.c:970, src/macros.c:191 `rep_macros_before_gc`
      some ({ st with obj := fun x => if freed x then none else st.obj x, history := fun _ => [] }, none)
    else none
  | .change w => some ({ st with world := w }, none)
  | .call form env => if st.obj form = none then none else some (macroexpand st form env)
  | .result r =>
    match st.stack with
    | [] => none
    | f :: fs =>
      match r with
      | none => some ({ st with stack := fs }, (st.obj f.input).map fun o => ⟨o, f.env, none, false⟩)
      | some r =>
        if st.obj r = none then none
        else if r = f.pred then some (finish { st with stack := fs } f.env f.input r)
        else some (loop { st with stack := fs } f.env f.input r)

/-- A sequence of events, with what `macroexpand` returns in each of them. -/
def run (st : St) : List Event → Option (St × List (Option Out))
  | [] => some (st, [])
  | e :: es =>
    match step st e with
    | none => none
    | some (st, o) => (run st es).map fun q => (q.1, o :: q.2)

end Rep.Macro
