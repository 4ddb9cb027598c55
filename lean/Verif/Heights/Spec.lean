import Verif.Heights.Model

/-
What is claimed about compiled loops.
-/

namespace Rep.Heights

mutual
/-- Does the form contain a `case` or a parameter that takes its default value? -/
def Exp.drifts : Exp → Bool
  | .const _ => false
  | .var _ => false
  | .op _ a b => a.drifts || b.drifts
  | .set _ e => e.drifts
  | .seq a b => a.drifts || b.drifts
  | .cond c a b => c.drifts || a.drifts || b.drifts
  | .case _ _ => true
  | .loop _ i b => i.drifts || b.drifts
  | .jump _ e => e.drifts
  | .opt _ _ _ => true
end

/-- The loops that may be called after the form: all that were callable, if there is no `case` in it;
those at the bottom of the stack always. -/
def after (e : Exp) (zs fs : List Bool) : List Bool := if e.drifts then zs else fs

mutual
/-- Loops are called in tail position only; and there is no `case`, and no parameter with a default
value, in the text between the start of the loop and its call, unless the loop begins where nothing is
on the stack, with no such form in front of it.  `z` tells whether nothing is on the stack here; `zs`
which of the loops around the form began there, `fs` which of them may be called. -/
def Ok (z : Bool) (zs fs : List Bool) : Exp → Prop
  | .const _ => True
  | .var _ => True
  | .op _ a b => Ok z [] [] a ∧ Ok false [] [] b
  | .set _ e => Ok z [] [] e
  | .seq a b => Ok z [] [] a ∧ Ok (z && !a.drifts) zs (after a zs fs) b
  | .cond c a b => Ok z [] [] c ∧ Ok (z && !c.drifts) zs (after c zs fs) a ∧
      Ok (z && !c.drifts && !a.drifts) zs (after a zs (after c zs fs)) b
  | .case k cs => Ok z [] [] k ∧ OkCases zs (after k zs fs) cs
  | .loop _ i b => Ok z [] [] i ∧
      Ok (z && !i.drifts) ((z && !i.drifts) :: zs) (true :: after i zs fs) b
  | .jump n e => Ok z [] [] e ∧ (after e zs fs)[n]? = some true
  | .opt _ d b => Ok z [] [] d ∧ Ok false zs zs b

def OkCases (zs fs : List Bool) : Cases → Prop
  | .nil => True
  | .items _ _ b r => Ok false zs fs b ∧ OkCases zs (after b zs fs) r
  | .other b r => Ok false zs fs b ∧ OkCases zs (after b zs fs) r
end

/-- A form whose loops may all be called. -/
def Exp.Ok (e : Exp) : Prop := Heights.Ok true [] [] e

/-- The machine comes to this state. -/
def Reaches (W : World) (P : List Insn) (c c' : Conf) : Prop := ∃ n, steps W P n c = c'

end Rep.Heights
