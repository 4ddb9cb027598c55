import Verif.Lambda.Model

/-
Binding of parameters after man/lang.texi, "Lambda Expressions".
-/

namespace Rep.Lambda.Spec

variable {Val Form St : Type} [DecidableEq Val]

/-- The parameters of a function. -/
structure Sig (Form : Type) where
  req : List Nat
  opt : List (Nat × Option Form)
  key : List (Nat × Option Form)
  rest : Option Nat

/-- The names of the parameters. -/
def Sig.names (g : Sig Form) : List Nat := g.req ++ g.opt.map (·.1) ++ g.key.map (·.1) ++ g.rest.toList

/-- The lambda lists for the parameters: the markers may be left out where nothing follows, and the
rest parameter may be marked or be the tail of the list. -/
inductive Lists (g : Sig Form) : List (Item Form) → Option Nat → Prop
  | intro {o k r : List (Item Form)} {tail : Option Nat} :
    (o = .opt :: g.opt.map (fun p => .par p.1 p.2) ∨ o = [] ∧ g.opt = []) →
    (k = .key :: g.key.map (fun p => .par p.1 p.2) ∨ k = [] ∧ g.key = []) →
    ((∃ s, g.rest = some s ∧ r = [.rest, .par s none] ∧ tail = none) ∨ (r = [] ∧ tail = g.rest)) →
    Lists g (g.req.map (fun s => .par s none) ++ o ++ k ++ r) tail

/-- The value of a parameter before defaults are evaluated. -/
inductive Given (Val Form : Type)
  | val (v : Val)
  | list (l : List Val)
  | default (f : Option Form)

/-- The first pair of arguments marked by the keyword: its value, and the other arguments. -/
def takeKey (k : Val) : List Val → Option (Val × List Val)
  | a :: v :: l => if a = k then some (v, l) else (takeKey k l).map fun r => (r.1, a :: v :: r.2)
  | _ => none

def optionals : List (Nat × Option Form) → List Val → List (Nat × Given Val Form) × List Val
  | [], args => ([], args)
  | (s, _) :: l, a :: args => ((s, .val a) :: (optionals l args).1, (optionals l args).2)
  | (s, d) :: l, [] => ((s, .default d) :: (optionals l []).1, (optionals l []).2)

def keys (kw : Nat → Val) : List (Nat × Option Form) → List Val → List (Nat × Given Val Form) × List Val
  | [], args => ([], args)
  | (s, d) :: l, args =>
    match takeKey (kw s) args with
    | some (v, args') => ((s, .val v) :: (keys kw l args').1, (keys kw l args').2)
    | none => ((s, .default d) :: (keys kw l args).1, (keys kw l args).2)

/-- What each parameter gets, if there are enough arguments. -/
def assign (kw : Nat → Val) (g : Sig Form) (args : List Val) : List (Nat × Given Val Form) :=
  let o := optionals g.opt (args.drop g.req.length)
  let k := keys kw g.key o.2
  (g.req.zip args).map (fun p => (p.1, .val p.2)) ++ o.1 ++ k.1 ++ g.rest.toList.map fun s => (s, .list k.2)

/-- The value of a parameter; a default that is not given is nil. -/
def value (eval : Form → St → Option Val × St) (st : St) : Given Val Form → Option (Bound Val) × St
  | .val v => (some (.val v), st)
  | .list vs => (some (.list vs), st)
  | .default none => (some .nil, st)
  | .default (some f) => ((eval f st).1.map .val, (eval f st).2)

/-- The defaults are evaluated from left to right. -/
def evaluate (eval : Form → St → Option Val × St) : List (Nat × Given Val Form) → St → Option (List (Nat × Bound Val)) × St
  | [], st => (some [], st)
  | (s, g) :: l, st =>
    match value eval st g with
    | (none, st') => (none, st')
    | (some b, st') => ((evaluate eval l st').1.map ((s, b) :: ·), (evaluate eval l st').2)

/-- A call of the function. -/
def call (w : World Val Form St) (g : Sig Form) (args : List Val) (st : St) : Res Val × St :=
  if args.length < g.req.length then (.missing, st)
  else
    match evaluate w.eval (assign w.kw g args) st with
    | (none, st') => (.failed, st')
    | (some e, st') => (.bound e, st')

/-- The same outcome: the same error, or each variable bound to the same value. -/
def Same : Res Val → Res Val → Prop
  | .bound e, .bound e' => ∀ x, e.lookup x = e'.lookup x
  | .missing, .missing => True
  | .failed, .failed => True
  | _, _ => False

/-- No keyword of the function is in the place of a value among the arguments after the required and
optional ones. -/
def Aligned (w : World Val Form St) (g : Sig Form) (args : List Val) : Prop :=
  ∀ i, i % 2 = 1 → ∀ v, (args.drop (g.req.length + g.opt.length))[i]? = some v → ∀ p ∈ g.key, v ≠ w.kw p.1

end Rep.Lambda.Spec
