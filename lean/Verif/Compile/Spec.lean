import Verif.Compile.Machine

/-
The programs for which compiled code is shown to do what the interpreter does.
-/

namespace Rep.Compile

mutual
/-- Does the variable occur in the form?  What follows a constant condition of a `cond` does not
count, since it is never evaluated. -/
def mentions (x : Name) : Exp → Bool
  | .quote _ => false
  | .var y => y == x
  | .set y e => y == x || mentions x e
  | .seq a b => mentions x a || mentions x b
  | .cond cs => mentionsC x cs
  | .while c b => mentions x b || mentions x c
  | .lam _ b => mentions x b
  | .call f as => mentions x f || mentionsA x as
  | .inl _ b as => mentionsA x as || mentions x b
  | .lets bs b => mentionsB x bs || mentions x b
  | .letrec bs b => mentionsB x bs || mentions x b
  | .named _ _ b as => mentionsA x as || mentions x b
def mentionsA (x : Name) : Exps → Bool
  | .nil => false
  | .cons e es => mentions x e || mentionsA x es
def mentionsC (x : Name) : Clauses → Bool
  | .nil => false
  | .test q r => match squash q with
    | some true => false
    | some false => mentionsC x r
    | none => mentions x q || mentionsC x r
  | .act q b r => match squash q with
    | some true => mentions x b
    | some false => mentionsC x r
    | none => mentions x q || mentions x b || mentionsC x r
def mentionsB (x : Name) : Binds → Bool
  | .nil => false
  | .cons _ e r => mentions x e || mentionsB x r
end

/-- The variables in scope that the program binds: `none` for a variable that may be assigned,
`some n` for the name of a function of `n` parameters. -/
abbrev Scope := List (Name × Option Nat)

/-- New names: different from each other and from all those in scope. -/
def fresh (sc : Scope) : List Name → Bool
  | [] => true
  | x :: xs => (look x sc).isNone && !xs.contains x && fresh sc xs

def vars (ps : List Name) : Scope := ps.map fun p => (p, none)

/-- The names bound by a `letrec`: those bound to a lambda expression are names of functions. -/
def Binds.scope : Binds → Scope
  | .nil => []
  | .cons x (.lam ps _) r => (x, some ps.length) :: r.scope
  | .cons x _ r => (x, none) :: r.scope

/-- The scope of the body of a `let*`. -/
def Binds.after (sc : Scope) : Binds → Scope
  | .nil => sc
  | .cons x _ r => r.after ((x, none) :: sc)

/-- A call of a function of the program has as many arguments as the function has parameters. -/
def arity (sc : Scope) (f : Exp) (n : Nat) : Bool := match f with
  | .var x => match look x sc with
    | some (some m) => n == m
    | _ => true
  | _ => true

/-- Not the name of a function. -/
def assignable (sc : Scope) (x : Name) : Bool := match look x sc with
  | some (some _) => false
  | _ => true

mutual
/-- Names are not bound again where they are in scope, the names of functions are not assigned, a
lambda expression that is called directly and a function of the program get as many arguments as
they have parameters, and the first call of a named `let` does not use its name. -/
def good (sc : Scope) : Exp → Bool
  | .quote _ => true
  | .var _ => true
  | .set x e => assignable sc x && good sc e
  | .seq a b => good sc a && good sc b
  | .cond cs => goodC sc cs
  | .while c b => good sc c && good sc b
  | .lam ps b => fresh sc ps && good (vars ps ++ sc) b
  | .call f as => arity sc f as.length && good sc f && goodA sc as
  | .inl ps b as => as.length == ps.length && fresh sc ps && goodA sc as && good (vars ps ++ sc) b
  | .lets bs b => goodL sc bs && good (bs.after sc) b
  | .letrec bs b => fresh sc bs.names && goodB (bs.scope ++ sc) bs && good (bs.scope ++ sc) b
  | .named x ps b as =>
    as.length == ps.length && fresh sc (x :: ps) && goodA ((x, some ps.length) :: sc) as &&
      !mentionsA x as && good (vars ps ++ (x, some ps.length) :: sc) b
def goodA (sc : Scope) : Exps → Bool
  | .nil => true
  | .cons e es => good sc e && goodA sc es
def goodC (sc : Scope) : Clauses → Bool
  | .nil => true
  | .test q r => good sc q && goodC sc r
  | .act q b r => good sc q && good sc b && goodC sc r
def goodL (sc : Scope) : Binds → Bool
  | .nil => true
  | .cons x e r => good sc e && fresh sc [x] && goodL ((x, none) :: sc) r
def goodB (sc : Scope) : Binds → Bool
  | .nil => true
  | .cons _ e r => good sc e && goodB sc r
end

/-- The names of the functions of a file. -/
def Prog.scope (p : Prog) : Scope := p.defs.map fun d => (d.1, some d.2.1.length)

def Prog.good (p : Prog) : Bool :=
  fresh [] (p.defs.map (·.1)) &&
    p.defs.all (fun d => fresh p.scope d.2.1 && Compile.good (vars d.2.1 ++ p.scope) d.2.2) &&
    Compile.good p.scope p.main

/-- No variable that a jump to the start of a function assigns is a binding in the heap. -/
def noReuse (u : Bool) (s : CSt) : Bool := s.inplace.all fun k => !heapP u s k

def Prog.noReuse (u : Bool) (p : Prog) : Bool := match compile1 p with
  | some (_, _, s) => Compile.noReuse u s
  | none => true

/-- The same value: the same constants and pairs; a function corresponds to some function. -/
def Same (v : SVal) (w : TVal) : Prop := VRel (fun _ _ => True) v w

/-- The same global variables. -/
def SameGlobals (g : Name → Option SVal) (g' : Name → Option TVal) : Prop :=
  ∀ x, match g x, g' x with
    | some v, some w => Same v w
    | none, none => True
    | _, _ => False

end Rep.Compile
