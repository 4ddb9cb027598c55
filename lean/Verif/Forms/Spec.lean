/-
Derived forms: what the manual (and the documentation strings) say that
programs built from them mean.  The language is given by its abstract syntax,
and each form has its own rule; there are no macros here, no expansions and no
generated symbols.
-/
import Verif.Forms.Model

namespace Rep.Forms

mutual
/-- Programs. -/
inductive Src
  | int (n : Int)
  | empty
  | quote (d : Sexp)
  | var (x : String)
  | lambda (ps : List String) (body : List Src)
  | call (f : Src) (args : List Src)
  | setq (x : String) (e : Src)
  | progn (es : List Src)
  | cond (cls : List Clause)
  | «let» (bs : List Binding) (body : List Src)
  | letStar (bs : List Binding) (body : List Src)
  | letrec (bs : List Binding) (body : List Src)
  | named (f : String) (bs : List Binding) (body : List Src)
  | «if» (c t : Src) (els : List Src)
  | case (key : Src) (cls : List CaseClause)
  | when (c : Src) (body : List Src)
  | unless (c : Src) (body : List Src)
  | or (es : List Src)
  | and (es : List Src)
  | «do» (vars : List DoVar) (test : Src) (exprs body : List Src)
  | «while» (c : Src) (body : List Src)
  | prog1 (e : Src) (es : List Src)
  | prog2 (a b : Src) (es : List Src)
/-- `SYMBOL` or `(SYMBOL FORMS...)` -/
inductive Binding
  | plain (x : String)
  | forms (x : String) (es : List Src)
/-- `(CONDITION FORMS...)` -/
inductive Clause
  | mk (c : Src) (es : List Src)
/-- `((ITEMS...) FORMS...)` or `(t FORMS...)` -/
inductive CaseClause
  | items (is : List Sexp) (es : List Src)
  | otherwise (es : List Src)
/-- `(VARIABLE)`, `(VARIABLE INIT)` or `(VARIABLE INIT STEP)` -/
inductive DoVar
  | bare (x : String)
  | keep (x : String) (init : Src)
  | step (x : String) (init step : Src)
end

/-- The variable of a binding. -/
def Binding.var : Binding → String
  | .plain x => x
  | .forms x _ => x

/-- The forms of a binding. -/
def Binding.es : Binding → List Src
  | .plain _ => []
  | .forms _ es => es

/-- The variable of a `do` loop. -/
def DoVar.var : DoVar → String
  | .bare x => x
  | .keep x _ => x
  | .step x _ _ => x

/-- How it is initialised. -/
def DoVar.init : DoVar → Src
  | .bare _ => .empty
  | .keep _ i => i
  | .step _ i _ => i

/-- How it is updated: without a STEP it keeps its value. -/
def DoVar.next : DoVar → Src
  | .bare x => .var x
  | .keep x _ => .var x
  | .step _ _ s => s

/-! ### The text of a program -/

/-- `(HEAD . REST)` with a named head. -/
def form (h : String) (rest : Sexp) : Sexp := .cons (nm h) rest

/-- A list of variables. -/
def names (xs : List String) : Sexp := .ofList (xs.map nm)

mutual
/-- The program as list structure, as the reader gives it to `eval`. -/
def Src.text : Src → Sexp
  | .int n => .int n
  | .empty => .nil
  | .quote d => form "quote" (.cons d .nil)
  | .var x => nm x
  | .lambda ps body => form "lambda" (.cons (names ps) (textL body))
  | .call f args => .cons f.text (textL args)
  | .setq x e => form "setq" (.cons (nm x) (.cons e.text .nil))
  | .progn es => form "progn" (textL es)
  | .cond cls => form "cond" (textC cls)
  | .let bs body => form "let" (.cons (textB bs) (textL body))
  | .letStar bs body => form "let*" (.cons (textB bs) (textL body))
  | .letrec bs body => form "letrec" (.cons (textB bs) (textL body))
  | .named f bs body => form "let" (.cons (nm f) (.cons (textB bs) (textL body)))
  | .if c t els => form "if" (.cons c.text (.cons t.text (textL els)))
  | .case key cls => form "case" (.cons key.text (textK cls))
  | .when c body => form "when" (.cons c.text (textL body))
  | .unless c body => form "unless" (.cons c.text (textL body))
  | .or es => form "or" (textL es)
  | .and es => form "and" (textL es)
  | .do vars test exprs body =>
    form "do" (.cons (textD vars) (.cons (.cons test.text (textL exprs)) (textL body)))
  | .while c body => form "while" (.cons c.text (textL body))
  | .prog1 e es => form "prog1" (.cons e.text (textL es))
  | .prog2 a b es => form "prog2" (.cons a.text (.cons b.text (textL es)))
def textL : List Src → Sexp
  | [] => .nil
  | e :: es => .cons e.text (textL es)
def Binding.text : Binding → Sexp
  | .plain x => nm x
  | .forms x es => .cons (nm x) (textL es)
def textB : List Binding → Sexp
  | [] => .nil
  | b :: bs => .cons b.text (textB bs)
def Clause.text : Clause → Sexp
  | .mk c es => .cons c.text (textL es)
def textC : List Clause → Sexp
  | [] => .nil
  | c :: cs => .cons c.text (textC cs)
def CaseClause.text : CaseClause → Sexp
  | .items is es => .cons (.ofList is) (textL es)
  | .otherwise es => .cons (nm "t") (textL es)
def textK : List CaseClause → Sexp
  | [] => .nil
  | c :: cs => .cons c.text (textK cs)
def DoVar.text : DoVar → Sexp
  | .bare x => .cons (nm x) .nil
  | .keep x i => .cons (nm x) (.cons i.text .nil)
  | .step x i s => .cons (nm x) (.cons i.text (.cons s.text .nil))
def textD : List DoVar → Sexp
  | [] => .nil
  | v :: vs => .cons v.text (textD vs)
end

/-! ### Meaning -/

/-- Environments: variables and their locations. -/
abbrev SEnv := List (String × Nat)

/-- Values: data, closures and functions. -/
inductive SVal (P : Type)
  | data (d : Sexp)
  | clos (ps : List String) (body : List Src) (env : SEnv)
  | fn (f : Fn P)

/-- The locations (indices) and what they hold, and the world. -/
structure SSt (P W : Type) where
  store : List (SVal P)
  world : W

/-- Only the empty list is false. -/
def SVal.isNil {P : Type} : SVal P → Bool
  | .data .nil => true
  | _ => false

/-- The datum, if it is one. -/
def SVal.view {P : Type} : SVal P → Option Sexp
  | .data d => some d
  | _ => none

/-- The value. -/
def shd {P : Type} (vs : List (SVal P)) : SVal P := vs.headD (.data .nil)

/-- Constants of the language: `nil`, `t` and the functions. -/
def constants (P : Type) : List (String × SVal P) :=
  [("nil", .data .nil), ("t", .data (nm "t")),
   ("not", .fn .not), ("eql", .fn .eql), ("memql", .fn .memql)]

/-- The value of a variable. -/
def slookup {P W : Type} (x : String) (env : SEnv) (st : SSt P W) : Res (SVal P) :=
  match env.lookup x with
  | some l => match st.store[l]? with
    | some v => .ok [v]
    | none => .err (.void (.name x))
  | none => match (constants P).lookup x with
    | some v => .ok [v]
    | none => .err (.void (.name x))

/-- New locations for variables, holding the values; a variable without a value
is an error. -/
def alloc {P : Type} : List String → List (SVal P) → SEnv → List (SVal P) →
    Err ⊕ (SEnv × List (SVal P))
  | [], _, env, store => .inr (env, store)
  | x :: xs, v :: vs, env, store => alloc xs vs ((x, store.length) :: env) (store ++ [v])
  | x :: _, [], _, _ => .inl (.missing (.name x))

/-- Does one of the items match the key? -/
def matchesKey {P : Type} (is : List Sexp) (v : SVal P) : Bool :=
  match v with
  | .data d => is.any fun i => eqlData i d
  | _ => false

/-- The forms of the first clause that matches. -/
def pick {P : Type} (v : SVal P) : List CaseClause → Option (List Src)
  | [] => none
  | .items is es :: rest => if matchesKey is v then some es else pick v rest
  | .otherwise es :: _ => some es

/-- What remains to be done. -/
inductive SJob (P : Type)
  | expr (e : Src)
  | list (es : List Src)
  | progn (es : List Src)
  | cond (cls : List Clause)
  | inits (bs : List Binding)
  | letStar (bs : List Binding) (body : List Src)
  | assign (bs : List Binding) (body : List Src)
  | or (es : List Src)
  | and (es : List Src)
  | «while» (c : Src) (body : List Src)
  | «do» (vars : List DoVar) (test : Src) (exprs body : List Src) (vs : List (SVal P))
  | apply (f : SVal P) (args : List (SVal P))

/-- The rule for each form; `self` gives the meaning of its parts. -/
def sstep {P W : Type} (prim : P → List (Option Sexp) → W → Ans × W)
    (self : SJob P → SEnv → SSt P W → Option (Res (SVal P) × SSt P W))
    (j : SJob P) (env : SEnv) (st : SSt P W) : Option (Res (SVal P) × SSt P W) :=
  let fail := fun (e : Err) (s : SSt P W) => ((.err e, s) : Res (SVal P) × SSt P W)
  match j with
  | .expr e =>
    match e with
    | .int i => some (.ok [.data (.int i)], st)
    | .empty => some (.ok [.data .nil], st)
    | .quote d => some (.ok [.data d], st)
    | .var x => some (slookup x env st, st)
    | .lambda ps body => some (.ok [.clos ps body env], st)
    -- the function, then the arguments from left to right, then the call
    | .call f args =>
      andThen (self (.expr f) env st) (fun fv s =>
        andThen (self (.list args) env s) (fun vs s =>
          self (.apply (shd fv) vs) env s) fail) fail
    | .setq x e =>
      andThen (self (.expr e) env st) (fun v s =>
        match env.lookup x with
        | some l => some (.ok [shd v], { s with store := s.store.set l (shd v) })
        | none => some (.err (.void (.name x)), s)) fail
    | .progn es => self (.progn es) env st
    | .cond cls => self (.cond cls) env st
    -- all values, then all variables, then the body
    | .let bs body =>
      andThen (self (.inits bs) env st) (fun vs s =>
        match alloc (bs.map Binding.var) vs env s.store with
        | .inr (env', store) => self (.progn body) env' { s with store := store }
        | .inl e => some (.err e, s)) fail
    | .letStar bs body => self (.letStar bs body) env st
    -- all variables, then the values in their scope, then the body
    | .letrec bs body =>
      match alloc (bs.map Binding.var) (bs.map fun _ => .data .nil) env st.store with
      | .inr (env', store) => self (.assign bs body) env' { st with store := store }
      | .inl e => some (.err e, st)
    -- a function of the variables with the body as its body, called at once
    | .named f bs body =>
      let env' := (f, st.store.length) :: env
      let fv := SVal.clos (bs.map Binding.var) body env'
      andThen (self (.inits bs) env' { st with store := st.store ++ [fv] })
        (fun vs s => self (.apply fv vs) env' s) fail
    | .if c t els =>
      andThen (self (.expr c) env st) (fun v s =>
        if (shd v).isNil then self (.progn els) env s
        else self (.expr t) env s) fail
    | .case key cls =>
      andThen (self (.expr key) env st) (fun v s =>
        match pick (shd v) cls with
        | some es => self (.progn es) env s
        | none => some (.ok [.data .nil], s)) fail
    | .when c body =>
      andThen (self (.expr c) env st) (fun v s =>
        if (shd v).isNil then some (.ok [.data .nil], s)
        else self (.progn body) env s) fail
    | .unless c body =>
      andThen (self (.expr c) env st) (fun v s =>
        if (shd v).isNil then self (.progn body) env s
        else some (.ok [.data .nil], s)) fail
    | .or es => self (.or es) env st
    | .and es => if es.isEmpty then some (.ok [.data (nm "t")], st)
      else self (.and es) env st
    | .do vars test exprs body =>
      andThen (self (.list (vars.map DoVar.init)) env st) (fun vs s =>
        self (.do vars test exprs body vs) env s) fail
    | .while c body => self (.while c body) env st
    | .prog1 e es =>
      andThen (self (.expr e) env st) (fun v s =>
        andThen (self (.progn es) env s) (fun _ s =>
          some (.ok [shd v], s)) fail) fail
    | .prog2 a b es =>
      andThen (self (.expr a) env st) (fun _ s =>
        andThen (self (.expr b) env s) (fun v s =>
          andThen (self (.progn es) env s) (fun _ s =>
            some (.ok [shd v], s)) fail) fail) fail
  -- the values, from left to right
  | .list es =>
    match es with
    | [] => some (.ok [], st)
    | e :: es =>
      andThen (self (.expr e) env st) (fun v s =>
        andThen (self (.list es) env s) (fun vs s =>
          some (.ok (shd v :: vs), s)) fail) fail
  -- in order; the value of the last
  | .progn es =>
    match es with
    | [] => some (.ok [.data .nil], st)
    | [e] => self (.expr e) env st
    | e :: es =>
      andThen (self (.expr e) env st) (fun _ s =>
        self (.progn es) env s) fail
  | .cond cls =>
    match cls with
    | [] => some (.ok [.data .nil], st)
    | .mk c es :: rest =>
      andThen (self (.expr c) env st) (fun v s =>
        if (shd v).isNil then self (.cond rest) env s
        else if es.isEmpty then some (.ok [shd v], s)
        else self (.progn es) env s) fail
  | .inits bs =>
    match bs with
    | [] => some (.ok [], st)
    | b :: bs =>
      andThen (self (.progn b.es) env st) (fun v s =>
        andThen (self (.inits bs) env s) (fun vs s =>
          some (.ok (shd v :: vs), s)) fail) fail
  -- each variable is bound as soon as its value is computed
  | .letStar bs body =>
    match bs with
    | [] => self (.progn body) env st
    | b :: bs =>
      andThen (self (.progn b.es) env st) (fun v s =>
        self (.letStar bs body) ((b.var, s.store.length) :: env)
          { s with store := s.store ++ [shd v] }) fail
  -- give each variable its value, then evaluate the body
  | .assign bs body =>
    match bs with
    | [] => self (.progn body) env st
    | b :: bs =>
      andThen (self (.progn b.es) env st) (fun v s =>
        match env.lookup b.var with
        | some l => self (.assign bs body) env
            { s with store := s.store.set l (shd v) }
        | none => some (.err (.void (.name b.var)), s)) fail
  | .or es =>
    match es with
    | [] => some (.ok [.data .nil], st)
    | e :: es =>
      andThen (self (.expr e) env st) (fun v s =>
        if (shd v).isNil then self (.or es) env s
        else some (.ok [shd v], s)) fail
  | .and es =>
    match es with
    | [] => some (.ok [.data .nil], st)
    | [e] => andThen (self (.expr e) env st) (fun v s => some (.ok [shd v], s)) fail
    | e :: es =>
      andThen (self (.expr e) env st) (fun v s =>
        if (shd v).isNil then some (.ok [.data .nil], s)
        else self (.and es) env s) fail
  | .while c body =>
    andThen (self (.expr c) env st) (fun v s =>
      if (shd v).isNil then some (.ok [.data .nil], s)
      else andThen (self (.progn body) env s) (fun _ s =>
        self (.while c body) env s) fail) fail
  -- an iteration: new locations for the variables, holding `vs`
  | .do vars test exprs body vs =>
    match alloc (vars.map DoVar.var) vs env st.store with
    | .inl e => some (.err e, st)
    | .inr (env', store) =>
      andThen (self (.expr test) env' { st with store := store }) (fun v s =>
        if (shd v).isNil then
          andThen (self (.progn body) env' s) (fun _ s =>
            andThen (self (.list (vars.map DoVar.next)) env' s) (fun vs' s =>
              self (.do vars test exprs body vs') env s) fail) fail
        else self (.progn exprs) env' s) fail
  | .apply f vs =>
    match f with
    | .clos ps body env' =>
      match alloc ps vs env' st.store with
      | .inr (env'', store) => self (.progn body) env'' { st with store := store }
      | .inl e => some (.err e, st)
    | .fn f =>
      let r := callFn prim f (vs.map SVal.view) st.world
      some (r.1.toRes .data vs, { st with world := r.2 })
    | .data _ => some (.err .notFunction, st)

/-- The meaning of programs; `none`: not finished within the given number of
nested rules. -/
def sev {P W : Type} (prim : P → List (Option Sexp) → W → Ans × W) :
    Nat → SJob P → SEnv → SSt P W → Option (Res (SVal P) × SSt P W)
  | 0, _, _, _ => none
  | n + 1, j, env, st => sstep prim (sev prim n) j env st

/-! ### Which programs -/

/-- The names with a meaning of their own, which a program may not bind or
assign. -/
def reserved : List String :=
  ["nil", "t", "not", "eql", "memql",
   "quote", "lambda", "cond", "setq", "progn", "let", "let*", "letrec", "if",
   "case", "when", "unless", "or", "and", "do", "while", "prog1", "prog2"]

/-- A variable of the program. -/
def free (x : String) : Bool := decide (x ∉ reserved)

/-- Special forms and macros are not values. -/
def readable (x : String) : Bool := free x || ["nil", "t", "not", "eql", "memql"].contains x

mutual
/-- The program binds and assigns only variables of its own; the clauses of
`case` have items and forms, and `letrec` has a body. -/
def Src.ok : Src → Bool
  | .int _ | .empty | .quote _ => true
  | .var x => readable x
  | .lambda ps body => ps.all free && okL body
  | .call f args => f.ok && okL args
  | .setq x e => free x && e.ok
  | .progn es => okL es
  | .cond cls => okC cls
  | .let bs body => okB bs && okL body
  | .letStar bs body => okB bs && okL body
  | .letrec bs body => okB bs && !body.isEmpty && okL body
  | .named f bs body => free f && okB bs && okL body
  | .if c t els => c.ok && t.ok && okL els
  | .case key cls => key.ok && okK cls
  | .when c body => c.ok && okL body
  | .unless c body => c.ok && okL body
  | .or es => okL es
  | .and es => okL es
  | .do vars test exprs body => okD vars && test.ok && okL exprs && okL body
  | .while c body => c.ok && okL body
  | .prog1 e es => e.ok && okL es
  | .prog2 a b es => a.ok && b.ok && okL es
def okL : List Src → Bool
  | [] => true
  | e :: es => e.ok && okL es
def Binding.ok : Binding → Bool
  | .plain x => free x
  | .forms x es => free x && okL es
def okB : List Binding → Bool
  | [] => true
  | b :: bs => b.ok && okB bs
def Clause.ok : Clause → Bool
  | .mk c es => c.ok && okL es
def okC : List Clause → Bool
  | [] => true
  | c :: cs => c.ok && okC cs
def CaseClause.ok : CaseClause → Bool
  | .items is es => !is.isEmpty && !es.isEmpty && okL es
  | .otherwise es => !es.isEmpty && okL es
def okK : List CaseClause → Bool
  | [] => true
  | c :: cs => c.ok && okK cs
def DoVar.ok : DoVar → Bool
  | .bare x => free x
  | .keep x i => free x && i.ok
  | .step x i s => free x && i.ok && s.ok
def okD : List DoVar → Bool
  | [] => true
  | v :: vs => v.ok && okD vs
end

end Rep.Forms
