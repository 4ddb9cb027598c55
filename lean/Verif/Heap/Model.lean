/-
The cons heap and the list functions of src/lispcmds.c as pointer programs.

A value is nil, a cons cell address, or some other atom.  The heap maps every
allocated address to a car and a cdr.  Loops of the C code that need not
terminate (circular lists) are `partial_fixpoint` functions into `Option`: the
value `none` means "does not return".

Simplifications: no interrupt arrives (`rep_TEST_INT` / `rep_INTERRUPTP`),
allocation succeeds, and the collector (see `Verif/Gc`) does not move or reuse
cells that these functions hold (it is non-moving).  A `repv *` that points to a
local variable or to the cdr of a cell is a `Loc`.  `int` counters (`length`) are
treated as unbounded; the truncation of the index of `nth`/`nthcdr` is modelled.
-/
import Mathlib.Logic.Function.Basic

namespace Rep.Lists

/-- A Lisp value as seen by the list functions.  src/rep_lisp.h:100-240. -/
inductive V where
  | nil
  | atom (n : Int)
  | cell (a : Nat)
  deriving DecidableEq, Repr

/-- The cons cells.  Addresses below `next` are allocated; every cell is
writable: src/repint.h:46 defines `rep_CONS_WRITABLE_P` as true (dumping is not
compiled in). -/
structure Heap where
  car : Nat → V
  cdr : Nat → V
  next : Nat

/-- Errors signalled by the functions below. -/
inductive Err where
  | badArg (v : V) (n : Nat)
  deriving DecidableEq, Repr

/-- `none`: does not return.  `some (h, .error e)`: `e` was signalled, heap `h`.
`some (h, .ok v)`: value `v`. -/
abbrev Run := Option (Heap × Except Err V)

/-- src/rep_lisp.h:451 `rep_LISTP`. -/
def listp : V → Bool
  | .nil => true
  | .cell _ => true
  | .atom _ => false

/-- src/lispcmds.c:121 `Fcar`. -/
def car (h : Heap) : V → V
  | .cell a => h.car a
  | _ => .nil

/-- src/lispcmds.c:133 `Fcdr`. -/
def cdr (h : Heap) : V → V
  | .cell a => h.cdr a
  | _ => .nil

/-- src/values.c:489 `Fcons`: takes a fresh cell. -/
def cons (h : Heap) (x y : V) : Heap × V :=
  ({ h with
      car := Function.update h.car h.next x
      cdr := Function.update h.cdr h.next y
      next := h.next + 1 }, .cell h.next)

def setCar (h : Heap) (a : Nat) (v : V) : Heap := { h with car := Function.update h.car a v }
def setCdr (h : Heap) (a : Nat) (v : V) : Heap := { h with cdr := Function.update h.cdr a v }

/-- src/lispcmds.c:278 `Frplaca`. -/
def rplaca (h : Heap) (c v : V) : Heap × Except Err V :=
  match c with
  | .cell a => (setCar h a v, .ok c)
  | _ => (h, .error (.badArg c 1))

/-- src/lispcmds.c:293 `Frplacd`. -/
def rplacd (h : Heap) (c v : V) : Heap × Except Err V :=
  match c with
  | .cell a => (setCdr h a v, .ok c)
  | _ => (h, .error (.badArg c 1))

/-- A `repv *`: a local variable, or the cdr slot of a cell. -/
inductive Loc where
  | var
  | cdrOf (a : Nat)
  deriving DecidableEq, Repr

/-- `*p`, where `x` is the current value of the local variable. -/
def Loc.read (h : Heap) (x : V) : Loc → V
  | .var => x
  | .cdrOf a => h.cdr a

/-- `*p = v`: the new heap and the new value of the local variable. -/
def Loc.write (h : Heap) (x : V) (p : Loc) (v : V) : Heap × V :=
  match p with
  | .var => (h, v)
  | .cdrOf a => (setCdr h a v, x)

/-- src/lispcmds.c:146 `Flist`. -/
def list (h : Heap) : List V → Heap × V
  | [] => (h, .nil)
  | v :: vs =>
      let (h, t) := list h vs
      cons h v t

/-- src/lispcmds.c:164 `Flist_star`. -/
def listStar (h : Heap) : List V → Heap × V
  | [] => (h, .nil)
  | [v] => (h, v)
  | v :: vs =>
      let (h, t) := listStar h vs
      cons h v t

/-- src/lispcmds.c:187 `Fmake_list`, with a fixnum length. -/
def makeList (h : Heap) (n : Int) (init : V) : Heap × Except Err V :=
  if n < 0 then (h, .error (.badArg (.atom n) 1))
  else let r := go h n.toNat .nil; (r.1, .ok r.2)
where
  go (h : Heap) (n : Nat) (l : V) : Heap × V :=
    match n with
    | 0 => (h, l)
    | n + 1 => let (h, l) := cons h init l; go h n l

/-- src/lisp.c:2389 `rep_copy_list`: the loop; `res` is the variable `result`,
`last` the pointer where the next cell goes. -/
def copyList.loop (h : Heap) (res : V) (last : Loc) (l : V) : Option (Heap × V) :=
  match l with
  | .cell a =>
      let (h, c) := cons h (h.car a) .nil
      match c with
      | .cell c =>
          let (h, res) := last.write h res (.cell c)
          copyList.loop h res (.cdrOf c) (h.cdr a)
      | _ => none
  | l => some (last.write h res l)
partial_fixpoint

/-- src/lisp.c:2389 `rep_copy_list`. -/
def copyList (h : Heap) (l : V) : Option (Heap × V) := copyList.loop h .nil .var l

/-- src/lispcmds.c:229-235, 266-272: `while (rep_CONSP (*res_end)) res_end = rep_CDRLOC (*res_end)`. -/
def seekEnd (h : Heap) (x : V) (p : Loc) : Option Loc :=
  match p.read h x with
  | .cell a => seekEnd h x (.cdrOf a)
  | _ => some p
partial_fixpoint

/-- src/lispcmds.c:216-236, the loop of `Fappend`; `i` counts arguments. -/
def append.loop (h : Heap) (res : V) (p : Loc) (i : Nat) : List V → Run
  | [] => some (h, .ok res)
  | [v] =>
      let (h, res) := p.write h res v
      (seekEnd h res p).bind fun _ => some (h, .ok res)
  | v :: vs =>
      if listp v then
        (copyList h v).bind fun (h, c) =>
          let (h, res) := p.write h res c
          (seekEnd h res p).bind fun p => append.loop h res p (i + 1) vs
      else some (h, .error (.badArg v (i + 1)))

/-- src/lispcmds.c:205 `Fappend`. -/
def append (h : Heap) (args : List V) : Run := append.loop h .nil .var 0 args

/-- src/lispcmds.c:253-273, the loop of `Fnconc_`. -/
def nconc.loop (h : Heap) (res : V) (p : Loc) (i : Nat) : List V → Run
  | [] => some (h, .ok res)
  | [v] =>
      let (h, res) := p.write h res v
      (seekEnd h res p).bind fun _ => some (h, .ok res)
  | v :: vs =>
      if !listp v then some (h, .error (.badArg v (i + 1)))
      else
        let (h, res) := p.write h res v
        (seekEnd h res p).bind fun p => nconc.loop h res p (i + 1) vs

/-- src/lispcmds.c:241 `Fnconc_`. -/
def nconc (h : Heap) (args : List V) : Run := nconc.loop h .nil .var 0 args

/-- src/lispcmds.c:318-325, the loop of `Freverse`. -/
def reverse.loop (h : Heap) (res l : V) : Run :=
  match l with
  | .cell a =>
      let (h, res) := cons h (h.car a) res
      reverse.loop h res (h.cdr a)
  | _ => some (h, .ok res)
partial_fixpoint

/-- src/lispcmds.c:308 `Freverse`. -/
def reverse (h : Heap) (l : V) : Run :=
  if listp l then reverse.loop h .nil l else some (h, .error (.badArg l 1))

/-- src/lispcmds.c:344-354, the loop of `Fnreverse`. -/
def nreverse.loop (h : Heap) (res : V) (head : Nat) : Run :=
  match h.cdr head with
  | .cell nxt => nreverse.loop (setCdr h head res) (.cell head) nxt
  | _ => some (setCdr h head res, .ok (.cell head))
partial_fixpoint

/-- src/lispcmds.c:329 `Fnreverse`. -/
def nreverse (h : Heap) (l : V) : Run :=
  match l with
  | .nil => some (h, .ok .nil)
  | .atom _ => some (h, .error (.badArg l 1))
  | .cell a => nreverse.loop h .nil a

/-- src/lispcmds.c:371, 394, 421, 444: the common loop of `Fassoc`, `Fassq`,
`Frassoc`, `Frassq`, for the test `p` on the cell found in the list. -/
def assLoop (h : Heap) (p : Nat → Bool) (l : V) : Option V :=
  match l with
  | .cell a =>
      match h.car a with
      | .cell c => if p c then some (.cell c) else assLoop h p (h.cdr a)
      | _ => assLoop h p (h.cdr a)
  | _ => some .nil
partial_fixpoint

/-- src/lispcmds.c:384 `Fassq` (second argument a list). -/
def assq (h : Heap) (x l : V) : Option V := assLoop h (fun c => h.car c == x) l
/-- src/lispcmds.c:358 `Fassoc`, with the comparison `eqv` standing for `rep_value_cmp`. -/
def assoc (eqv : V → V → Bool) (h : Heap) (x l : V) : Option V := assLoop h (fun c => eqv x (h.car c)) l
/-- src/lispcmds.c:432 `Frassq`. -/
def rassq (h : Heap) (x l : V) : Option V := assLoop h (fun c => h.cdr c == x) l
/-- src/lispcmds.c:407 `Frassoc`. -/
def rassoc (eqv : V → V → Bool) (h : Heap) (x l : V) : Option V := assLoop h (fun c => eqv x (h.cdr c)) l

/-- src/lispcmds.c:467-473 the loop of `Fnth` and `Fnthcdr`. -/
def nthcdr.loop (h : Heap) : Nat → V → V
  | 0, l => l
  | i + 1, .cell a => nthcdr.loop h i (h.cdr a)
  | _ + 1, l => l

/-- A fixnum stored into an `int`. -/
def toInt32 (n : Int) : Int := Int.bmod n (2 ^ 32)

/-- src/lispcmds.c:477 `Fnthcdr` with a fixnum index. -/
def nthcdr (h : Heap) (n : Int) (l : V) : Except Err V :=
  if !listp l then .error (.badArg l 2)
  else
    let i := toInt32 n
    if i < 0 then .error (.badArg (.atom n) 1) else .ok (nthcdr.loop h i.toNat l)

/-- src/lispcmds.c:454 `Fnth` with a fixnum index (when the loop stops before the
index is exhausted the list pointer is not a cons). -/
def nth (h : Heap) (n : Int) (l : V) : Except Err V :=
  if !listp l then .error (.badArg l 2)
  else
    let i := toInt32 n
    if i < 0 then .error (.badArg (.atom n) 1) else .ok (car h (nthcdr.loop h i.toNat l))

/-- src/lispcmds.c:510-517 the loop of `Flast`. -/
def last.loop (h : Heap) (a : Nat) : Option V :=
  match h.cdr a with
  | .cell b => last.loop h b
  | _ => some (h.car a)
partial_fixpoint

/-- src/lispcmds.c:500 `Flast` on a list. -/
def last (h : Heap) : V → Option V
  | .cell a => last.loop h a
  | _ => some .nil

/-- src/lispcmds.c:1097-1107 `Flength` of a list. -/
def length.loop (h : Heap) (i : Nat) (l : V) : Option Nat :=
  match l with
  | .cell a => length.loop h (i + 1) (h.cdr a)
  | _ => some i
partial_fixpoint

def length (h : Heap) (l : V) : Option Nat := length.loop h 0 l

/-- A Lisp function called from `mapcar`, `filter`, ...: heap before, argument,
heap after, result.  It does not signal. -/
abbrev Fn := Heap → V → Heap × V

/-- src/lispcmds.c:540-552, the loop of `Fmapcar`: the cell is allocated and
linked before the call, and filled after it. -/
def mapcar.loop (f : Fn) (h : Heap) (res : V) (last : Loc) (l : V) : Run :=
  match l with
  | .cell a =>
      let c := h.next
      let (h, _) := cons h .nil .nil
      let (h, res) := last.write h res (.cell c)
      let (h, v) := f h (h.car a)
      let h := setCar h c v
      mapcar.loop f h res (.cdrOf c) (h.cdr a)
  | _ => some (h, .ok res)
partial_fixpoint

/-- src/lispcmds.c:522 `Fmapcar`. -/
def mapcar (f : Fn) (h : Heap) (l : V) : Run :=
  if listp l then mapcar.loop f h .nil .var l else some (h, .error (.badArg l 2))

/-- src/lispcmds.c:599-614, the loop of `Ffilter`. -/
def filter.loop (f : Fn) (h : Heap) (res : V) (p : Loc) (l : V) : Run :=
  match l with
  | .cell a =>
      let (h, tem) := f h (h.car a)
      if tem ≠ .nil then
        let c := h.next
        let (h, _) := cons h (h.car a) .nil
        let (h, res) := p.write h res (.cell c)
        filter.loop f h res (.cdrOf c) (h.cdr a)
      else filter.loop f h res p (h.cdr a)
  | _ => some (h, .ok res)
partial_fixpoint

/-- src/lispcmds.c:580 `Ffilter`. -/
def filter (f : Fn) (h : Heap) (l : V) : Run :=
  if listp l then filter.loop f h .nil .var l else some (h, .error (.badArg l 2))

/-- src/lispcmds.c:631, 655, 676: the loop of `Fmember`, `Fmemq`, `Fmemql`. -/
def memLoop (h : Heap) (p : V → Bool) (l : V) : Option V :=
  match l with
  | .cell a => if p (h.car a) then some l else memLoop h p (h.cdr a)
  | _ => some .nil
partial_fixpoint

/-- src/lispcmds.c:643 `Fmemq`. -/
def memq (h : Heap) (x l : V) : Option V := memLoop h (fun v => x == v) l
/-- src/lispcmds.c:619 `Fmember`, with `eqv` for `rep_value_cmp`. -/
def member (eqv : V → V → Bool) (h : Heap) (x l : V) : Option V := memLoop h (fun v => eqv x v) l

/-- src/lispcmds.c:703, 725, 755, 790: the common loop of `Fdelete`, `Fdelq`,
`Fdelete_if`, `Fdelete_if_not`.  `p` decides whether an element goes; it may read
the current heap. -/
def deleteLoop (p : Heap → V → Bool) (h : Heap) (lst : V) (head : Loc) : Run :=
  match head.read h lst with
  | .cell a =>
      if p h (h.car a) then
        let (h, lst) := head.write h lst (h.cdr a)
        deleteLoop p h lst head
      else deleteLoop p h lst (.cdrOf a)
  | _ => some (h, .ok lst)
partial_fixpoint

/-- src/lispcmds.c:694 `Fdelete`, 738 `Fdelete_if`, 773 `Fdelete_if_not`. -/
def deleteIf (p : Heap → V → Bool) (h : Heap) (l : V) : Run :=
  if listp l then deleteLoop p h l .var else some (h, .error (.badArg l 2))

/-- src/lispcmds.c:716 `Fdelq`. -/
def delq (h : Heap) (x l : V) : Run := deleteIf (fun _ v => x == v) h l

/-- src/lispcmds.c:1126-1140 `Fcopy_sequence` of a list: as `rep_copy_list`, but
the final cdr stays nil. -/
def copySeq.loop (h : Heap) (res : V) (last : Loc) (l : V) : Run :=
  match l with
  | .cell a =>
      let c := h.next
      let (h, _) := cons h (h.car a) .nil
      let (h, res) := last.write h res (.cell c)
      copySeq.loop h res (.cdrOf c) (h.cdr a)
  | _ => some (h, .ok res)
partial_fixpoint

/-- src/lispcmds.c:1114 `Fcopy_sequence` of a list. -/
def copySeq (h : Heap) (l : V) : Run :=
  match l with
  | .nil => some (h, .ok .nil)
  | .cell _ => copySeq.loop h .nil .var l
  | .atom _ => some (h, .error (.badArg l 1))

/-! ### sort.jl -/

/-- lisp/rep/data/sort.jl:57-69: the `while` loop that merges.  `lst` and `mid`
are the two sorted halves, `outHead`/`out` the list being built. -/
def sort.merge (pred : V → V → Bool) (h : Heap) (lst mid outHead out : V) : Option (Heap × V × V × V × V) :=
  match lst, mid with
  | .nil, _ => some (h, lst, mid, outHead, out)
  | _, .nil => some (h, lst, mid, outHead, out)
  | _, _ =>
      let useMid := pred (car h mid) (car h lst)
      let tem := if useMid then mid else lst
      let lst' := if useMid then lst else cdr h lst
      let mid' := if useMid then cdr h mid else mid
      if out ≠ .nil then
        sort.merge pred (rplacd h out tem).1 lst' mid' outHead tem
      else
        sort.merge pred h lst' mid' tem tem
partial_fixpoint

/-- lisp/rep/data/sort.jl:28-76 `sort` on a list.  `pred` is a predicate whose
answer depends only on its two arguments. -/
def sort (pred : V → V → Bool) (h : Heap) (lst : V) : Option (Heap × V) :=
  do
    let len ← length h lst
    if len < 2 then some (h, lst)
    else
      let mid := nthcdr.loop h (len / 2 - 1) lst
      let rest := cdr h mid
      let h := (rplacd h mid .nil).1
      let (h, lst) ← sort pred h lst
      let (h, mid) ← sort pred h rest
      let (h, lst, mid, outHead, out) ← sort.merge pred h lst mid .nil .nil
      if lst ≠ .nil ∨ mid ≠ .nil then
        let r := if lst ≠ .nil then lst else mid
        if out ≠ .nil then some ((rplacd h out r).1, outHead)
        else some (h, r)
      else some (h, outHead)
partial_fixpoint

/-! ### queues.jl -/

/-- lisp/rep/data/queues.jl:51 `make-queue`: the queue is a cell (TAIL . HEAD)
(the datum wrapper is in `Verif/Datum`). -/
def makeQueue (h : Heap) : Heap × V := cons h .nil .nil

/-- lisp/rep/data/queues.jl:54 `enqueue`; `q` is the address of the queue's cell. -/
def enqueue (h : Heap) (q : Nat) (x : V) : Heap :=
  let (h, new) := list h [x]
  if h.cdr q = .nil then
    let h := (rplacd h (.cell q) new).1
    (rplaca h (.cell q) new).1
  else
    let h := (rplacd h (h.car q) new).1
    (rplaca h (.cell q) new).1

/-- lisp/rep/data/queues.jl:66 `dequeue`; `none` is the error "Can't dequeue from
empty queue". -/
def dequeue (h : Heap) (q : Nat) : Option (Heap × V) :=
  if h.cdr q = .nil then none
  else
    let x := car h (h.cdr q)
    if h.car q ≠ h.cdr q then
      some ((rplacd h (.cell q) (cdr h (h.cdr q))).1, x)
    else
      let h := (rplacd h (.cell q) .nil).1
      some ((rplaca h (.cell q) .nil).1, x)

/-- lisp/rep/data/queues.jl:78 `queue-empty-p`. -/
def queueEmptyP (h : Heap) (q : Nat) : Bool := h.cdr q == .nil

/-- lisp/rep/data/queues.jl:84 `queue->list`. -/
def queueToList (h : Heap) (q : Nat) : V := h.cdr q

/-- lisp/rep/data/queues.jl:90-102 the loop of `delete-from-queue`. -/
def deleteFromQueue.loop (h : Heap) (q : Nat) (x : V) (ptr : V) : Option Heap :=
  if cdr h ptr = .nil then
    if h.cdr q = .nil then some (rplaca h (.cell q) .nil).1
    else some (rplaca h (.cell q) ptr).1
  else if car h (cdr h ptr) = x then
    deleteFromQueue.loop (rplacd h ptr (cdr h (cdr h ptr))).1 q x ptr
  else deleteFromQueue.loop h q x (cdr h ptr)
partial_fixpoint

/-- lisp/rep/data/queues.jl:90 `delete-from-queue`. -/
def deleteFromQueue (h : Heap) (q : Nat) (x : V) : Option Heap :=
  deleteFromQueue.loop h q x (.cell q)

end Rep.Lists
