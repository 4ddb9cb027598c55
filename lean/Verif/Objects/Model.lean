/-
Objects: `object` and `object-lambda` (lisp/rep/data/objects.jl:68-109).  An object is a
closure; sending it a message is calling it.  Parameters are bound as in Verif/Lambda.
-/
import Verif.Lambda.Model

namespace Rep.Objects

/-- Lisp values: symbols, keywords (`#:name`), objects and others (`fn`: functions that
are no objects). -/
inductive V
  | nil
  | sym (n : Nat)
  | kw (n : Nat)
  | obj (i : Nat)
  | fn (n : Nat)
  | other (n : Nat)
  deriving DecidableEq

/-- A METHOD: `((NAME . PARAMS) BODY...)`, where PARAMS may end in a symbol, or
`(NAME FUNCTION)`. -/
inductive Method
  | code (name : V) (params : List Nat) (rest : Option Nat)
  | func (name : V)

def Method.name : Method → V
  | .code n _ _ => n
  | .func n => n

/-- The value of BASE-OBJECT, and the methods. -/
structure Obj where
  base : V
  methods : List Method

/-- The variables of the expansion: `op` and `args` are generated symbols. -/
def opVar : Nat := 0
def selfVar : Nat := 1
def argsVar : Nat := 2

/-- Evaluation of the default of `self`: the generated symbol bound by `letrec`
(objects.jl:80-85). -/
def world (id : Nat) : Lambda.World V Unit Unit :=
  { kw := .kw, eval := fun _ st => (some (.obj id), st) }

/-- The lambda list `(OP #!key (self G) . ARGS)` (objects.jl:83). -/
def lambdaList : List (Lambda.Item Unit) := [.par opVar none, .key, .par selfVar (some ())]

def look (x : Nat) (e : Lambda.Env V) : Option (Lambda.Bound V) :=
  (e.find? fun p => p.1 == x).map Prod.snd

/-- The parameters of a call, in interpreted or compiled code: OP, `self` and ARGS. -/
def bindCall (compiled : Bool) (id : Nat) (args : List V) : Option (V × V × List V) :=
  match (if compiled then Lambda.compiled (world id) lambdaList (some argsVar) args ()
         else Lambda.interpret (world id) lambdaList (some argsVar) args ()).1 with
  | .bound e => match look opVar e, look selfVar e, look argsVar e with
    | some (.val op), some (.val self), some (.list l) => some (op, self, l)
    | _, _, _ => none
  | _ => none

/-- `make-let-bindings` (objects.jl:68-78): `(nth I ARGS)`, and `(nthcdr I ARGS)` for the
rest. -/
def letBindings (args : List V) : List Nat → Nat → Option Nat → List (Nat × Lambda.Bound V)
  | [], i, some r => [(r, .list (args.drop i))]
  | [], _, none => []
  | p :: ps, i, rest => (p, .val ((args[i]?).getD .nil)) :: letBindings args ps (i + 1) rest

/-- What a call comes to: the body of a method of an object, with `self` and the
variables of the method; a function; an error; or a call of something that is no
object. -/
inductive Out
  | code (id k : Nat) (self : V) (vars : List (Nat × Lambda.Bound V))
  | func (id k : Nat) (self : V) (args : List V)
  | unknown (op : V)
  | call (f : V) (args : List V)
  | missing

/-- The clause of `case` that matches. -/
def clause (op : V) : List Method → Nat → Option (Nat × Method)
  | [], _ => none
  | m :: ms, k => if m.name = op then some (k, m) else clause op ms (k + 1)

/-- Calling an object (objects.jl:91-109). -/
def send (compiled : Bool) (objs : List Obj) : Nat → Nat → List V → Option Out
  | 0, _, _ => none
  | n + 1, id, args =>
    match objs[id]? with
    | none => none
    | some o =>
      match bindCall compiled id args with
      | none => some .missing
      | some (op, self, rest) =>
        match clause op o.methods 0 with
        | some (k, .code _ params r) => some (.code id k self (letBindings rest params 0 r))
        | some (k, .func _) => some (.func id k self rest)
        | none =>
          match o.base with
          | .nil => some (.unknown op)
          | .obj j => send compiled objs n j (op :: .kw selfVar :: self :: rest)
          | f => some (.call f (op :: .kw selfVar :: self :: rest))

end Rep.Objects
