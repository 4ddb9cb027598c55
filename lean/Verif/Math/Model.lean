import Verif.Num.Model

/-
Functions of numbers that are written in Lisp (lisp/rep/lang/math.jl), on exact numbers.
-/

namespace Rep.Math

open Rep.Number

/-- `positivep`, `negativep` (math.jl:44-50). -/
def positivep (x : Num) : Res Bool := gtThan [x, .fix 0]
def negativep (x : Num) : Res Bool := ltThan [x, .fix 0]

/-- `oddp`, `evenp` (math.jl:52-58). -/
def oddp (x : Num) : Res Bool := (mod x (.fix 2)).bind fun r => .ok (!zerop r)
def evenp (x : Num) : Res Bool := (mod x (.fix 2)).bind fun r => .ok (zerop r)

/-- `abs` (math.jl:60-62). -/
def abs (x : Num) : Res Num := (minus [.num x]).bind fun y => .ok (max2 x y)

/-- `mapcar` of `abs`. -/
def absAll : List Num → Res (List Num)
  | [] => .ok []
  | x :: l => (abs x).bind fun y => (absAll l).bind fun l => .ok (y :: l)

/-- `lcm` (math.jl:64-68). -/
def lcm (args : List Num) : Res Num :=
  match args with
  | [] => .ok (.fix 1)
  | _ => (absAll args).bind fun l => (product (l.map .num)).bind fun p =>
      (gcdV (args.map .num)).bind fun g => quotient p g

end Rep.Math
