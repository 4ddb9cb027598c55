/-
Hooks: `call-hook` (src/lispcmds.c) and the functions that change a hook (lisp/rep/system.jl).

A hook is a variable whose value is a list; `add-hook` at the end and `remove-hook` change the cells of that list, and `call-hook` walks through it
while the functions it calls change it.  Functions are numbers.  Not modelled: other changes of the variable or of the list, hooks given as a
list, interrupts.
-/

namespace Rep.Hook

/-- The argument TYPE. -/
inductive Kind where
  | nil
  | and
  | or
  deriving DecidableEq, Repr

/-- What a function returns. -/
inductive Res where
  | nil
  | true
  | error
  deriving DecidableEq, Repr

/-- A call of `call-hook` whose function `cur` is running.  (The fields after `cur` say what has happened, for the statements only.) -/
structure Walker where
  id : Nat
  kind : Kind
  /-- the cell whose function is running: `hook` -/
  cur : Nat
  /-- the cells of the hook when it was called -/
  orig : List Nat
  /-- the cells whose functions have returned, and what they returned -/
  called : List Nat := []
  results : List Res := []
  /-- the cells added at the end since it was called -/
  added : List Nat := []

/-- `call-hook` has returned. -/
structure Out where
  id : Nat
  kind : Kind
  result : Res
  orig : List Nat
  called : List Nat
  results : List Res
  added : List Nat
  /-- the cells of the hook at the end -/
  left : List Nat
  deriving DecidableEq, Repr

/-- The cells, the variable, the calls of `call-hook` in progress. -/
structure St where
  count : Nat := 0
  car : Nat → Nat := fun _ => 0
  cdr : Nat → Option Nat := fun _ => none
  hook : Option Nat := none
  walkers : List Walker := []
  ids : Nat := 0

/-- The cells from a place on. -/
def cellsFrom (cdr : Nat → Option Nat) : Nat → Option Nat → List Nat
  | _, none => []
  | 0, some _ => []
  | k + 1, some c => c :: cellsFrom cdr k (cdr c)

/-- The cells of the hook. -/
def cells (st : St) : List Nat := cellsFrom st.cdr st.count st.hook

/-- A link is set: of a cell, or the variable. -/
def St.setLink (st : St) (prev v : Option Nat) : St :=
  match prev with
  | none => { st with hook := v }
  | some c => { st with cdr := fun x => if x = c then v else st.cdr x }

/-- src/lispcmds.c:701-712 (`delete`), 750-768 (`delete-if`): `*head` is the variable or the `cdr` of the last cell that was kept -/
def deleteLoop (p : Nat → Bool) : Nat → Option Nat → Option Nat → St → St
  | _, _, none, st => st
  | 0, _, some _, st => st
  | k + 1, prev, some c, st => if p (st.car c) then deleteLoop p k prev (st.cdr c) (st.setLink prev (st.cdr c)) else deleteLoop p k (some c) (st.cdr c) st

/-- lisp/rep/system.jl:45-56 `remove-hook`, `remove-hook-by-name` -/
def remove (st : St) (p : Nat → Bool) : St := deleteLoop p st.count none st.hook st

/-- src/lispcmds.c:264-272: `nconc` with a list of one cell -/
def nconcLoop (new : Nat) : Nat → Option Nat → Option Nat → St → St
  | _, prev, none, st => st.setLink prev (some new)
  | 0, _, some _, st => st
  | k + 1, _, some c, st => nconcLoop new k (some c) (st.cdr c) st

/-- A new cell. -/
def St.cons (st : St) (f : Nat) (next : Option Nat) : St :=
  { st with count := st.count + 1, car := fun x => if x = st.count then f else st.car x, cdr := fun x => if x = st.count then next else st.cdr x }

/-- lisp/rep/system.jl:34 `add-hook` -/
def add (st : St) (f : Nat) (atEnd : Bool) : St :=
  if atEnd then nconcLoop st.count st.count none st.hook (st.cons f none)
  else { st.cons f st.hook with hook := some st.count }

/-- src/lispcmds.c:1939-1942: whether the loop is left -/
def stops (kind : Kind) (res : Res) : Bool :=
  match res, kind with
  | .error, _ => true
  | .nil, .and => true
  | .true, .or => true
  | _, _ => false

/-- What may happen. -/
inductive Event where
  | add (f : Nat) (atEnd : Bool)
  | remove (p : Nat → Bool)
  /-- `call-hook` is called -/
  | call (kind : Kind)
  /-- the function that a call of `call-hook` is running returns -/
  | ret (id : Nat) (res : Res)

/-- The end of `call-hook`. -/
def finish (st : St) (w : Walker) (res : Res) : Out := ⟨w.id, w.kind, res, w.orig, w.called ++ [w.cur], w.results ++ [res], w.added, cells st⟩

/-- One event, and what `call-hook` returns if it does. -/
def step (st : St) : Event → St × Option Out
  | .add f atEnd =>
    let st' := add st f atEnd
    (if atEnd then { st' with walkers := st'.walkers.map fun w => { w with added := w.added ++ [st.count] } } else st', none)
  | .remove p => (remove st p, none)
  | .call kind =>
    match st.hook with
    | none => ({ st with ids := st.ids + 1 }, some ⟨st.ids, kind, .nil, [], [], [], [], []⟩)
    | some c => ({ st with ids := st.ids + 1, walkers := { id := st.ids, kind := kind, cur := c, orig := cells st } :: st.walkers }, none)
  | .ret id res =>
    match st.walkers.find? (·.id = id) with
    | none => (st, none)
    | some w =>
      -- src/lispcmds.c:1935: the next cell is looked for now
      match st.cdr w.cur with
      | some c =>
        if stops w.kind res then ({ st with walkers := st.walkers.filter (·.id ≠ id) }, some (finish st w res))
        else ({ st with walkers := st.walkers.map fun x => if x.id = id then { x with cur := c, called := x.called ++ [x.cur], results := x.results ++ [res] } else x }, none)
      | none => ({ st with walkers := st.walkers.filter (·.id ≠ id) }, some (finish st w res))

/-- Several events. -/
def run (st : St) : List Event → St × List (Option Out)
  | [] => (st, [])
  | e :: es => let r := step st e; let q := run r.1 es; (q.1, r.2 :: q.2)

end Rep.Hook
