/-
Model of the profiler (src/record-profile.c, lisp/rep/lang/profiler.jl).

A sample is taken at an arbitrary moment; it sees the stack of calls, innermost first.  Simplifications:
names are numbers (interned symbols); the structure in which the counts are kept is an association list
(the order in which `structure-walk` goes through it is arbitrary anyway); sorting of the output and its
layout are left out.
-/

namespace Rep.Prof

/-- What `c->fun` is (record-profile.c:114-131). -/
inductive Frame
  /-- nil: `load-file`, `load-dl-file`, loading of a macro (lispcmds.c:1263, 1313, macros.c:110) -/
  | null
  /-- a subr or a closure with a name that is a string -/
  | named (n : Nat)
  /-- anything else -/
  | anon
  deriving DecidableEq, Repr

/-- For each name the counts (LOCAL . TOTAL). -/
abbrev Table := List (Nat × (Nat × Nat))

def ref (t : Table) (n : Nat) : Option (Nat × Nat) := t.lookup n

/-- `Fstructure_define`. -/
def put (t : Table) (n : Nat) (v : Nat × Nat) : Table := (n, v) :: t.filter fun x => x.1 != n

/-- The counts of one name (record-profile.c:144-150). -/
def bump (t : Table) (n : Nat) (top : Bool) : Table :=
  let tem := (ref t n).getD (0, 0)
  let tem := if top then (tem.1 + 1, tem.2) else tem
  put t n (tem.1, tem.2 + 1)

/-- The loop of `test_interrupt` (record-profile.c:113-155).  `max` is the number of elements of `seen`;
none: an element beyond its end is written. -/
def loop (max : Nat) (top : Bool) (seen : List Nat) (t : Table) : List Frame → Option Table
  | [] => some t
  | .null :: _ => some t
  | .anon :: st => loop max false seen t st
  | .named n :: st =>
    if n ∈ seen then loop max false seen t st
    else if seen.length < max then loop max false (seen ++ [n]) (bump t n top) st
    else none

/-- `test_interrupt` while profiling: `max` is `rep_max_lisp_depth` at that time. -/
def sample (t : Table) (s : Nat × List Frame) : Option Table := loop s.1 true [] t s.2

/-- `start-profiler` and all the samples until `stop-profiler`. -/
def profile (t : Table) : List (Nat × List Frame) → Option Table
  | [] => some t
  | s :: ss => (sample t s).bind fun t => profile t ss

/-- `total-samples` in `print-profile` (profiler.jl:44-48). -/
def totalSamples (t : Table) : Nat := (t.map fun x => x.2.1).sum

/-- The lines of `print-profile` (profiler.jl:54-65), in any order: the name, LOCAL, TOTAL and the divisor
of both for the percentages. -/
def lines (t : Table) : List (Nat × Nat × Nat × Nat) :=
  t.filterMap fun x => if x.2.1 > 0 then some (x.1, x.2.1, x.2.2, totalSamples t) else none

end Rep.Prof
