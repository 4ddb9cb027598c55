import Verif.Num.Spec
import Verif.Time.Model

/-
Specification vocabulary for time stamps: the second that a stamp stands for.
-/

namespace Rep.Time

open Rep.Number

/-- The stamp (DAYS . SECONDS) with two small integers. -/
def stamp (d s : Int) : Stamp := ⟨.fix d, .fix s⟩

/-- The number of seconds since the epoch that (D . S) stands for. -/
def seconds (d s : Int) : Int := d * 86400 + s

/-- The seconds are those since the start of the day. -/
def Consistent (_d s : Int) : Prop := 0 ≤ s ∧ s < 86400

/-- Stamps of times since the epoch that fit a `long`. -/
def SinceEpoch (d s : Int) : Prop :=
  -(2 ^ 63) ≤ d * 86400 ∧ d * 86400 < 2 ^ 63 ∧ 0 ≤ seconds d s ∧ seconds d s < 2 ^ 63

end Rep.Time
