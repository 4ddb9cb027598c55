import Verif.Prim.Model

/-
What is claimed about compiled calls of built-in functions.
-/

namespace Rep.Prim

/-- Functions of one argument that are instructions. -/
def B.unary : B → Bool
  | .inc | .dec | .zerop | .not | .null | .car | .cdr | .atom | .consp | .listp | .numberp => true
  | _ => false

/-- Functions that are written in Lisp. -/
def B.lisp : B → Bool
  | .caar | .cadr | .cdar | .cddr | .caddr => true
  | _ => false

/-- Functions of any number of numbers. -/
def B.nary : B → Bool
  | .add | .sub | .mul | .div | .max | .min | .logior | .logxor | .logand => true
  | _ => false

def B.relation : B → Bool
  | .eq | .ne | .gt | .ge | .lt | .le => true
  | _ => false

/-- A form that is never a constant. -/
def Form.open : Form → Bool
  | .var _ => true
  | .app _ _ => true
  | .apply _ => true
  | _ => false

mutual
/-- No surplus arguments; a string that is matched is not constant; `apply` has a list of arguments. -/
def Form.Good : Form → Prop
  | .const _ => True
  | .var _ => True
  | .app f args => f.Good ∧ GoodAll args
  | .call b args => GoodAll args ∧
      (b.unary = true → args.length ≤ 1) ∧ (b.lisp = true → args.length = 1) ∧
      (b = .cons ∨ b = .nth ∨ b = .nthcdr → args.length ≤ 2) ∧ (b = .log → args.length = 1) ∧
      (b = .smatch → args.any Form.open = true)
  | .apply args => GoodAll args ∧ 2 ≤ args.length

def GoodAll : List Form → Prop
  | [] => True
  | f :: fs => f.Good ∧ GoodAll fs
end

mutual
/-- Functions of numbers are called with at most two arguments. -/
def Form.Short : Form → Prop
  | .const _ => True
  | .var _ => True
  | .app f args => f.Short ∧ ShortAll args
  | .call b args => ShortAll args ∧ (b.nary = true → args.length ≤ 2)
  | .apply args => ShortAll args

def ShortAll : List Form → Prop
  | [] => True
  | f :: fs => f.Short ∧ ShortAll fs
end

/-- Calls of built-in functions that give other results when compiled: comparisons of fixnums that
are far from each other; elements of something that is not a list. -/
def Odd (b : B) (vs : List Val) : Prop :=
  (b.relation = true ∧ ∃ x y, .num (.fix x) ∈ vs ∧ .num (.fix y) ∈ vs ∧
    ¬ (-(2 ^ 31) ≤ x - y ∧ x - y < 2 ^ 31)) ∨
  ((b = .nth ∨ b = .nthcdr) ∧ listp (arg vs 1) = false) ∨
  (b = .nthcdr ∧ listp (cdr (arg vs 1)) = false)

mutual
/-- No such call happens when the form is evaluated. -/
def Form.Plain (W : World) : Form → Trace → Prop
  | .const _, _ => True
  | .var _, _ => True
  | .app f args, tr => f.Plain W tr ∧ ∀ v tr', eval W f tr = .ok v tr' → PlainAll W args tr'
  | .call b args, tr => PlainAll W args tr ∧ ∀ vs tr', evalArgs W args tr = .ok vs tr' → ¬ Odd b vs
  | .apply args, tr => PlainAll W args tr ∧
      ∀ vs tr', evalArgs W args tr = .ok vs tr' → listp (vs.getLast?.getD .nil) = true

def PlainAll (W : World) : List Form → Trace → Prop
  | [], _ => True
  | f :: fs, tr => f.Plain W tr ∧ ∀ v tr', eval W f tr = .ok v tr' → PlainAll W fs tr'
end

end Rep.Prim
