import Verif.Num.Model

/-
Time stamps: pairs (DAYS . SECONDS) (src/misc.c, src/rep_lisp.h, lisp/rep/util/time.jl).
-/

namespace Rep.Time

open Rep.Number

/-- A time stamp.  `rep_TIMEP` (rep_lisp.h:933) accepts any pair; here both halves are exact
numbers. -/
structure Stamp where
  days : Num
  secs : Num
deriving DecidableEq, Repr

/-- Result of a function written in C.  `undef` is signed overflow, or the address of an object
taken for a number (a half that is not a fixnum). -/
inductive CRes (α : Type) where
  | ok (a : α)
  | undef
deriving DecidableEq, Repr

def CRes.bind {α β : Type} : CRes α → (α → CRes β) → CRes β
  | .ok a, f => f a
  | .undef, _ => .undef

/-- A value of type `long`. -/
def slong (x : Int) : CRes Int := if -(2 ^ 63) ≤ x ∧ x < 2 ^ 63 then .ok x else .undef

/-- Conversion of a `long` to `unsigned long`. -/
def ulong (x : Int) : Nat := (x % 2 ^ 64).toNat

/-- `rep_GET_TIME` (rep_lisp.h:930-931), assigned to an `unsigned long`. -/
def getTime (t : Stamp) : CRes Nat :=
  match t.days, t.secs with
  | .fix d, .fix s => (slong (d * 86400)).bind fun p => (slong (p + s)).bind fun x => .ok (ulong x)
  | _, _ => .undef

/-- `rep_MAKE_TIME` (rep_lisp.h:927-928) of an `unsigned long`; also lines 252-253 of misc.c. -/
def makeTime (t : Nat) : Stamp := ⟨makeInt (t / 86400 : Nat), makeInt (t % 86400 : Nat)⟩

/-- `Fcurrent_time` (misc.c:217-229), when `rep_time` returns `now`. -/
def currentTime (now : Nat) : Stamp := makeTime now

/-- `Ffix_time` (misc.c:241-255): the new contents of the pair. -/
def fixTime (t : Stamp) : CRes Stamp := (getTime t).bind fun x => .ok (makeTime x)

/-- `Ftime_later_p` (misc.c:294-307). -/
def timeLaterP (t1 t2 : Stamp) : CRes Bool :=
  (getTime t1).bind fun a => (getTime t2).bind fun b => .ok (decide (a > b))

/-- `time->seconds` (time.jl:36-38). -/
def timeToSeconds (t : Stamp) : Res Num :=
  (product [.num t.days, .num (.fix 86400)]).bind fun p => plus [.num p, .num t.secs]

/-- `seconds->time` (time.jl:40-42). -/
def secondsToTime (x : Num) : Res Stamp :=
  (quotient x (.fix 86400)).bind fun d => (mod x (.fix 86400)).bind fun s => .ok ⟨d, s⟩

/-- `time-` (time.jl:44-46). -/
def timeMinus (t1 t2 : Stamp) : Res Num :=
  (timeToSeconds t1).bind fun a => (timeToSeconds t2).bind fun b => minus [.num a, .num b]

end Rep.Time
