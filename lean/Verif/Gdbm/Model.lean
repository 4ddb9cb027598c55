import Mathlib.Data.List.Basic
/-!
# Database objects of the gdbm module

Models the life of the handles of the database library behind the objects made by `gdbm-open` (src/repgdbm.c).

Simplifications: what is in the databases is not modelled, only which handles the library has open, and what is called with a handle that isn't open, which is undefined
behaviour (a null pointer is passed after `gdbm-close`). An object has the number of its handle. The function given to `gdbm-walk` makes some calls for each key; it
doesn't call `gdbm-walk` itself.
-/
namespace Rep.Gdbm

/-- The library: the handles that are open; and whether one that wasn't has been used or closed. -/
structure Lib where
  isOpen : Nat → Bool := fun _ => false
  ub : Bool := false

/-- A call of the library with a handle (repgdbm.c:109, 136, 150, 164). -/
def Lib.use (l : Lib) (h : Nat) : Lib := if l.isOpen h then l else { l with ub := true }

/-- `gdbm_close` of the library (repgdbm.c:91, 210). -/
def Lib.close (l : Lib) (h : Nat) : Lib :=
  if l.isOpen h then { l with isOpen := fun n => if n = h then false else l.isOpen n } else { l with ub := true }

/-- The number of objects made; `dbm_chain`; for each object on it, whether it has a handle. -/
structure St where
  next : Nat := 0
  chain : List Nat := []
  obj : Nat → Option Bool := fun _ => none
  lib : Lib := {}

/-- Calls; `fails` says that the library can't open the database; `live` are the objects that are marked when garbage is collected. -/
inductive Call
  | opn (fails : Bool)
  | close (o : Nat)
  | access (o : Nat)
  | collect (live : Nat → Bool)

/-- repgdbm.c:17 `rep_DBMP`. -/
def dbmp (s : St) (o : Nat) : Bool := s.obj o == some true

/-- repgdbm.c:34-83 `Fgdbm_open`. -/
def gdbmOpen (s : St) (fails : Bool) : St × Bool :=
  if fails then (s, false)
  else
    ({ next := s.next + 1, chain := s.next :: s.chain, obj := fun n => if n = s.next then some true else s.obj n,
       lib := { s.lib with isOpen := fun n => if n = s.next then true else s.lib.isOpen n } }, true)

/-- repgdbm.c:85-97 `Fgdbm_close`. -/
def gdbmClose (s : St) (o : Nat) : St × Bool :=
  if dbmp s o then ({ s with obj := fun n => if n = o then some false else s.obj n, lib := s.lib.close o }, true) else (s, false)

/-- repgdbm.c:99-151 `Fgdbm_fetch`, `Fgdbm_store`, `Fgdbm_delete`. -/
def gdbmAccess (s : St) (o : Nat) : St × Bool := if dbmp s o then ({ s with lib := s.lib.use o }, true) else (s, false)

/-- repgdbm.c:199-221 `dbm_sweep`: handles of objects that aren't marked are closed. -/
def sweep (s : St) (live : Nat → Bool) : St :=
  { s with chain := (s.chain.filter live).reverse, obj := fun n => if live n then s.obj n else none,
           lib := (s.chain.filter fun n => !live n && s.obj n == some true).foldl Lib.close s.lib }

/-- One call, and whether it succeeds. `root` are the objects that are protected. -/
def call (root : Nat → Bool) (s : St) : Call → St × Bool
  | .opn f => gdbmOpen s f
  | .close o => gdbmClose s o
  | .access o => gdbmAccess s o
  | .collect live => (sweep s (fun n => live n || root n), true)

/-- Calls made one after the other. -/
def calls (root : Nat → Bool) (s : St) (cs : List Call) : St := cs.foldl (fun s c => (call root s c).1) s

/-- repgdbm.c:173: `gdbm_nextkey` is called with the handle of the object, which is a null pointer after `gdbm-close`. -/
def nextkey (s : St) (o : Nat) : St := if dbmp s o then { s with lib := s.lib.use o } else { s with lib := { s.lib with ub := true } }

/-- repgdbm.c:153-177 `Fgdbm_walk`: for each key, what the function does. The object is protected during the walk. -/
def walk (s : St) (o : Nat) (keys : List (List Call)) : St × Bool :=
  if dbmp s o then (keys.foldl (fun s cs => nextkey (calls (fun n => n == o) s cs) o) { s with lib := s.lib.use o }, true) else (s, false)

/-- A call at top level. -/
inductive Op
  | plain (c : Call)
  | walk (o : Nat) (keys : List (List Call))

/-- The effect of a call at top level, and whether it succeeds. -/
def step (s : St) : Op → St × Bool
  | .plain c => call (fun _ => false) s c
  | .walk o keys => walk s o keys

/-- A history of calls. -/
def run (s : St) (ops : List Op) : St := ops.foldl (fun s o => (step s o).1) s

/-- repgdbm.c:265-274 `rep_dl_kill`. -/
def kill (s : St) : St := s.chain.foldl (fun s o => if dbmp s o then (gdbmClose s o).1 else s) s

end Rep.Gdbm
