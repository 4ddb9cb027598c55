/-
Dynamic bindings, exceptions and escapes: fluids (src/fluids.c), special variables
(src/symbols.c), `call-with-exception-handler` (src/lispcmds.c) and the forms that
lisp/rep/lang/interpreter.jl makes from it.

A program is a tree: each node is a call of one of the functions modelled, and what the
program does next may depend in any way on the value returned.
-/
namespace Rep.Dyn

/-- Values: of a cons only its identity matters. -/
inductive Val where
  | int (n : Int)
  | cons (addr : Nat)
  | sym (s : Nat)
  deriving DecidableEq

inductive Prog where
  | ret (v : Val)
  /-- src/lispcmds.c:1981 `raise-exception`, of a cons of a tag and a value -/
  | raise (tag v : Val)
  /-- call of a continuation that is still active -/
  | jump (label : Nat) (v : Val)
  /-- src/fluids.c:55 `make-fluid` -/
  | makeFluid (v : Val) (k : Val → Prog)
  /-- src/fluids.c:69 `fluid` -/
  | fluid (f : Val) (k : Val → Prog)
  /-- src/fluids.c:88 `fluid-set` -/
  | fluidSet (f v : Val) (k : Prog)
  /-- src/symbols.c:836 `symbol-value` of a special variable -/
  | get (s : Nat) (k : Val → Prog)
  /-- src/symbols.c:917 `do_set` of a special variable -/
  | set (s : Nat) (v : Val) (k : Prog)
  /-- src/fluids.c:106 `with-fluids` -/
  | withFluids (fs vs : List Val) (body : Prog) (k : Val → Prog)
  /-- src/lisp.c:1403 `eval_lambda` with parameters that are special variables, which is
  what `let` of special variables does -/
  | letSpecials (bs : List (Nat × Val)) (body : Prog) (k : Val → Prog)
  /-- src/lispcmds.c:1948 `call-with-exception-handler` -/
  | handle (body : Prog) (handler : Val → Val → Prog) (k : Val → Prog)
  /-- `call/cc`, src/continuations.c:627 `primitive_call_cc`; the label stands for the continuation -/
  | callcc (body : Nat → Prog) (k : Val → Prog)

/-- How a program ends: a value, an exception (a null pointer is returned and
`rep_throw_value` is set) or a jump to a continuation. -/
inductive Outcome where
  | ret (v : Val)
  | err (tag v : Val)
  | jump (label : Nat) (v : Val)
  deriving DecidableEq

/-- The tag and value of the error `bad-arg`. -/
def errorTag : Val := .sym 0
def badArg : Val := .sym 1

/-! ### Model -/

/-- `rep_special_bindings` is a list of conses `(key . value)`: `binds` has their addresses
and `cells` has the conses themselves, in the order of allocation.  `global` has the cdrs
of the fluids and the values of special variables in the structure of specials (all of which
are supposed to have been defined). -/
structure State where
  binds : List Nat
  cells : List (Val × Val)
  global : Val → Val
  nextFluid : Nat
  nextLabel : Nat

/-- src/fluids.c:36, src/symbols.c:544, src/lispmach.h:135 `search_special_bindings`. -/
def search (s : State) (key : Val) : Option Nat :=
  s.binds.find? fun a => (s.cells[a]?.map Prod.fst) == some key

/-- The value of the latest binding, or the global one. -/
def value (s : State) (key : Val) : Val :=
  match search s key with
  | some a => (s.cells[a]?.map Prod.snd).getD key
  | none => s.global key

/-- Set the latest binding, or the global value. -/
def assign (s : State) (key v : Val) : State :=
  match search s key with
  | some a => { s with cells := s.cells.set a (key, v) }
  | none => { s with global := fun k => if k = key then v else s.global k }

/-- `rep_special_bindings = Fcons (Fcons (key, v), rep_special_bindings)` -/
def bind (s : State) (key v : Val) : State :=
  { s with cells := s.cells ++ [(key, v)], binds := s.cells.length :: s.binds }

/-- src/fluids.c:28 `FLUIDP` -/
def isFluid : Val → Bool
  | .cons _ => true
  | _ => false

/-- src/fluids.c:132 the loop of `with-fluids`; false if an element is not a fluid, in
which case `rep_DECLARE` returns from the function at once.  Interrupts by the user are not
modelled. -/
def bindFluids : State → List Val → List Val → State × Bool
  | s, f :: fs, v :: vs => if isFluid f then bindFluids (bind s f v) fs vs else (s, false)
  | s, _, _ => (s, true)

/-- src/symbols.c:611 `rep_bind_special` for each parameter, in an environment that does not
restrict special variables. -/
def bindSpecials (s : State) (bs : List (Nat × Val)) : State :=
  bs.foldl (fun s b => bind s (.sym b.1) b.2) s

/-- What a program does. -/
def run : Prog → State → State × Outcome
  | .ret v, s => (s, .ret v)
  | .raise tag v, s => (s, .err tag v)
  | .jump l v, s => (s, .jump l v)
  | .makeFluid v k, s =>
      let f := Val.cons s.nextFluid
      run (k f) { s with nextFluid := s.nextFluid + 1, global := fun x => if x = f then v else s.global x }
  | .fluid f k, s => if isFluid f then run (k (value s f)) s else (s, .err errorTag badArg)
  | .fluidSet f v k, s => if isFluid f then run k (assign s f v) else (s, .err errorTag badArg)
  | .get x k, s => run (k (value s (.sym x))) s
  | .set x v k, s => run k (assign s (.sym x) v)
  | .withFluids fs vs body k, s =>
      if fs.length ≠ vs.length then (s, .err errorTag badArg)
      else
        let b := bindFluids s fs vs
        if b.2 then
          let r := run body b.1
          match r.2 with
          | .ret v => run (k v) { r.1 with binds := s.binds }
          | .err tag v => ({ r.1 with binds := s.binds }, .err tag v)
          | .jump l v => (r.1, .jump l v)
        else (b.1, .err errorTag badArg)
  | .letSpecials bs body k, s =>
      let r := run body (bindSpecials s bs)
      match r.2 with
      -- src/symbols.c:649 `rep_unbind_symbols`
      | .ret v => run (k v) { r.1 with binds := r.1.binds.drop bs.length }
      | .err tag v => ({ r.1 with binds := r.1.binds.drop bs.length }, .err tag v)
      | .jump l v => (r.1, .jump l v)
  | .handle body handler k, s =>
      let r := run body s
      match r.2 with
      | .ret v => run (k v) r.1
      | .err tag v =>
          let h := run (handler tag v) r.1
          match h.2 with
          | .ret v => run (k v) h.1
          | .err tag v => (h.1, .err tag v)
          | .jump l v => (h.1, .jump l v)
      | .jump l v => (r.1, .jump l v)
  | .callcc body k, s =>
      let l := s.nextLabel
      let r := run (body l) { s with nextLabel := l + 1 }
      match r.2 with
      | .ret v => run (k v) r.1
      | .err tag v => (r.1, .err tag v)
      -- src/continuations.c:680 `rep_special_bindings = c->special_bindings`
      | .jump l' v => if l' = l then run (k v) { r.1 with binds := s.binds } else (r.1, .jump l' v)

/-! ### Specification

Dynamic scope by an environment that is passed down: a binding makes a new location, and
what comes after a form runs in the environment of that form. -/

/-- The store; `misuse` records that `with-fluids` was given something that is no fluid. -/
structure Store where
  vals : List Val
  global : Val → Val
  nextFluid : Nat
  nextLabel : Nat
  misuse : Bool

abbrev Env := Val → Option Nat

/-- A new location. -/
def Store.new (st : Store) (v : Val) : Store := { st with vals := st.vals ++ [v] }
def Env.at (env : Env) (key : Val) (loc : Nat) : Env := fun k => if k = key then some loc else env k

def lookup (env : Env) (st : Store) (key : Val) : Val :=
  match env key with
  | some a => (st.vals[a]?).getD key
  | none => st.global key

def update (env : Env) (st : Store) (key v : Val) : Store :=
  match env key with
  | some a => { st with vals := st.vals.set a v }
  | none => { st with global := fun k => if k = key then v else st.global k }

/-- Bind several keys, the first one first. -/
def extend : List (Val × Val) → Env → Store → Env × Store
  | [], env, st => (env, st)
  | (key, v) :: rest, env, st => extend rest (env.at key st.vals.length) (st.new v)

def eval : Prog → Env → Store → Store × Outcome
  | .ret v, _, st => (st, .ret v)
  | .raise tag v, _, st => (st, .err tag v)
  | .jump l v, _, st => (st, .jump l v)
  | .makeFluid v k, env, st =>
      let f := Val.cons st.nextFluid
      eval (k f) env { st with nextFluid := st.nextFluid + 1, global := fun x => if x = f then v else st.global x }
  | .fluid f k, env, st => if isFluid f then eval (k (lookup env st f)) env st else (st, .err errorTag badArg)
  | .fluidSet f v k, env, st => if isFluid f then eval k env (update env st f v) else (st, .err errorTag badArg)
  | .get x k, env, st => eval (k (lookup env st (.sym x))) env st
  | .set x v k, env, st => eval k env (update env st (.sym x) v)
  | .withFluids fs vs body k, env, st =>
      if fs.length ≠ vs.length then (st, .err errorTag badArg)
      else if fs.all isFluid then
        let e := extend (fs.zip vs) env st
        let r := eval body e.1 e.2
        match r.2 with
        | .ret v => eval (k v) env r.1
        | .err tag v => (r.1, .err tag v)
        | .jump l v => (r.1, .jump l v)
      else ({ st with misuse := true }, .err errorTag badArg)
  | .letSpecials bs body k, env, st =>
      let e := extend (bs.map fun b => (.sym b.1, b.2)) env st
      let r := eval body e.1 e.2
      match r.2 with
      | .ret v => eval (k v) env r.1
      | .err tag v => (r.1, .err tag v)
      | .jump l v => (r.1, .jump l v)
  | .handle body handler k, env, st =>
      let r := eval body env st
      match r.2 with
      | .ret v => eval (k v) env r.1
      | .err tag v =>
          let h := eval (handler tag v) env r.1
          match h.2 with
          | .ret v => eval (k v) env h.1
          | .err tag v => (h.1, .err tag v)
          | .jump l v => (h.1, .jump l v)
      | .jump l v => (r.1, .jump l v)
  | .callcc body k, env, st =>
      let l := st.nextLabel
      let r := eval (body l) env { st with nextLabel := l + 1 }
      match r.2 with
      | .ret v => eval (k v) env r.1
      | .err tag v => (r.1, .err tag v)
      | .jump l' v => if l' = l then eval (k v) env r.1 else (r.1, .jump l' v)

/-! ### The relation between the two -/

theorem misuse_update (env : Env) (st : Store) (key v : Val) : (update env st key v).misuse = st.misuse := by
  unfold update; split <;> rfl

theorem misuse_extend : ∀ (l : List (Val × Val)) (env : Env) (st : Store), (extend l env st).2.misuse = st.misuse := by
  intro l
  induction l with
  | nil => intro env st; rfl
  | cons b l ih => intro env st; exact ih _ _

theorem misuse_mono : ∀ (p : Prog) (env : Env) (st : Store), st.misuse = true → (eval p env st).1.misuse = true := by
  intro p
  induction p with
  | ret v => intro env st h; exact h
  | raise tag v => intro env st h; exact h
  | jump l v => intro env st h; exact h
  | makeFluid v k ih => intro env st h; exact ih _ env _ h
  | fluid f k ih => intro env st h; unfold eval; split; exact ih _ env st h; exact h
  | fluidSet f v k ih =>
    intro env st h; unfold eval; split
    · exact ih env _ (by rw [misuse_update]; exact h)
    · exact h
  | get x k ih => intro env st h; exact ih _ env st h
  | set x v k ih => intro env st h; exact ih env _ (by rw [misuse_update]; exact h)
  | withFluids fs vs body k ihb ihk =>
    intro env st h
    unfold eval
    split
    · exact h
    · split
      · have := ihb (extend (fs.zip vs) env st).1 (extend (fs.zip vs) env st).2 (by rw [misuse_extend]; exact h)
        dsimp only
        split
        · exact ihk _ env _ this
        · exact this
        · exact this
      · rfl
  | letSpecials bs body k ihb ihk =>
    intro env st h
    unfold eval
    have := ihb (extend (bs.map fun b => (.sym b.1, b.2)) env st).1 (extend (bs.map fun b => (.sym b.1, b.2)) env st).2
      (by rw [misuse_extend]; exact h)
    dsimp only
    split
    · exact ihk _ env _ this
    · exact this
    · exact this
  | handle body handler k ihb ihh ihk =>
    intro env st h
    unfold eval
    dsimp only
    split
    · exact ihk _ env _ (ihb env st h)
    · split
      · exact ihk _ env _ (ihh _ _ env _ (ihb env st h))
      · exact ihh _ _ env _ (ihb env st h)
      · exact ihh _ _ env _ (ihb env st h)
    · exact ihb env st h
  | callcc body k ihb ihk =>
    intro env st h
    unfold eval
    dsimp only
    have := ihb st.nextLabel env { st with nextLabel := st.nextLabel + 1 } h
    split
    · exact ihk _ env _ this
    · exact this
    · split
      · exact ihk _ env _ this
      · exact this

/-- The store is that of the state. -/
structure StoreRel (s : State) (st : Store) : Prop where
  vals : st.vals = s.cells.map Prod.snd
  global : st.global = s.global
  nextFluid : st.nextFluid = s.nextFluid
  nextLabel : st.nextLabel = s.nextLabel

/-- The environment is the list of bindings. -/
structure EnvRel (binds : List Nat) (keys : List Val) (env : Env) : Prop where
  env : ∀ k, env k = binds.find? fun a => keys[a]? == some k
  lt : ∀ a ∈ binds, a < keys.length

theorem EnvRel.mono {binds : List Nat} {keys keys' : List Val} {env : Env} (h : EnvRel binds keys env) (hp : keys <+: keys') :
    EnvRel binds keys' env := by
  obtain ⟨t, rfl⟩ := hp
  refine ⟨?_, fun a ha => by have := h.lt a ha; simp; omega⟩
  intro k
  rw [h.env]
  have : ∀ l : List Nat, (∀ a ∈ l, a < keys.length) → (l.find? fun a => keys[a]? == some k) = l.find? fun a => (keys ++ t)[a]? == some k := by
    intro l hl
    induction l with
    | nil => rfl
    | cons a l ih =>
      have ha := hl a (List.mem_cons_self ..)
      simp only [List.find?_cons, List.getElem?_append_left ha]
      rw [ih fun b hb => hl b (List.mem_cons_of_mem _ hb)]
  exact this binds h.lt

def keys (s : State) : List Val := s.cells.map Prod.fst

theorem search_env {s : State} {env : Env} (h : EnvRel s.binds (keys s) env) (k : Val) : search s k = env k := by
  rw [h.env]
  unfold search keys
  simp only [List.getElem?_map]

theorem value_lookup {s : State} {st : Store} {env : Env} (h : EnvRel s.binds (keys s) env) (hs : StoreRel s st) (k : Val) :
    value s k = lookup env st k := by
  unfold value lookup
  rw [search_env h]
  cases env k with
  | none => rw [hs.global]
  | some a => simp only [hs.vals, List.getElem?_map]

theorem assign_update {s : State} {st : Store} {env : Env} (h : EnvRel s.binds (keys s) env) (hs : StoreRel s st) (k v : Val) :
    StoreRel (assign s k v) (update env st k v) ∧ keys (assign s k v) = keys s ∧ (assign s k v).binds = s.binds := by
  unfold assign update
  rw [search_env h]
  cases he : env k with
  | none => exact ⟨⟨hs.vals, by simp only [hs.global], hs.nextFluid, hs.nextLabel⟩, rfl, rfl⟩
  | some a =>
    rw [h.env] at he
    have hk := List.find?_some he
    simp only [beq_iff_eq] at hk
    refine ⟨⟨?_, hs.global, hs.nextFluid, hs.nextLabel⟩, ?_, rfl⟩
    · simp only [hs.vals, List.map_set]
    · simp only [keys, List.map_set]
      apply List.ext_getElem?
      intro i
      rw [List.getElem?_set]
      split
      · rename_i e
        subst e
        split
        · exact hk.symm
        · rename_i hl
          rw [List.getElem?_eq_none (by simpa using hl)]
      · rfl

theorem bind_new {s : State} {st : Store} {env : Env} (h : EnvRel s.binds (keys s) env) (hs : StoreRel s st) (k v : Val) :
    StoreRel (bind s k v) (st.new v) ∧ EnvRel (bind s k v).binds (keys (bind s k v)) (env.at k st.vals.length) ∧ keys s <+: keys (bind s k v) ∧
      (bind s k v).binds = s.cells.length :: s.binds := by
  have hlen : st.vals.length = s.cells.length := by rw [hs.vals]; simp
  have hpre : keys s <+: keys (bind s k v) := ⟨[k], by simp [keys, bind]⟩
  have hm := h.mono hpre
  refine ⟨⟨?_, hs.global, hs.nextFluid, hs.nextLabel⟩, ⟨?_, ?_⟩, hpre, rfl⟩
  · simp only [Store.new, bind, hs.vals, List.map_append, List.map_cons, List.map_nil]
  · intro x
    show (if x = k then some st.vals.length else env x) = List.find? _ (s.cells.length :: s.binds)
    rw [List.find?_cons]
    have hkey : (keys (bind s k v))[s.cells.length]? = some k := by simp [keys, bind]
    rw [hkey, hlen]
    by_cases hx : x = k
    · subst hx; simp
    · rw [if_neg hx]
      have : (some k == some x) = false := by simpa using Ne.symm hx
      rw [this]
      exact hm.env x
  · intro a ha
    have hl : (keys (bind s k v)).length = s.cells.length + 1 := by simp [keys, bind]
    rw [hl]
    change a ∈ s.cells.length :: s.binds at ha
    rcases List.mem_cons.mp ha with rfl | ha
    · omega
    · have := h.lt a ha
      simp [keys] at this
      omega

theorem bindAll : ∀ (l : List (Val × Val)) {s : State} {st : Store} {env : Env}, EnvRel s.binds (keys s) env → StoreRel s st →
    let s' := l.foldl (fun s b => bind s b.1 b.2) s
    StoreRel s' (extend l env st).2 ∧ EnvRel s'.binds (keys s') (extend l env st).1 ∧ keys s <+: keys s' ∧ s'.binds.drop l.length = s.binds := by
  intro l
  induction l with
  | nil => intro s st env h hs; exact ⟨hs, h, List.prefix_refl _, rfl⟩
  | cons b l ih =>
    intro s st env h hs
    obtain ⟨h1, h2, h3, h4⟩ := bind_new h hs b.1 b.2
    obtain ⟨i1, i2, i3, i4⟩ := ih h2 h1
    refine ⟨i1, i2, h3.trans i3, ?_⟩
    show List.drop (l.length + 1) _ = _
    have := congrArg (List.drop 1) i4
    rw [List.drop_drop] at this
    simp only [List.foldl_cons]
    rw [this, h4]
    rfl

theorem bindFluids_eq : ∀ (fs vs : List Val) (s : State), fs.length = vs.length → fs.all isFluid = true →
    bindFluids s fs vs = ((fs.zip vs).foldl (fun s b => bind s b.1 b.2) s, true) := by
  intro fs
  induction fs with
  | nil => intro vs s h _; cases vs <;> rfl
  | cons f fs ih =>
    intro vs s h hall
    cases vs with
    | nil => simp at h
    | cons v vs =>
      simp only [List.all_cons, Bool.and_eq_true] at hall
      unfold bindFluids
      rw [if_pos hall.1, ih vs _ (by simpa using h) hall.2]
      rfl

def Outcome.isJump : Outcome → Bool
  | .jump _ _ => true
  | _ => false

/-- What is proved of a program. -/
def Agree (p : Prog) : Prop := ∀ (s : State) (env : Env) (st : Store), EnvRel s.binds (keys s) env → StoreRel s st →
  (eval p env st).1.misuse = false →
    (run p s).2 = (eval p env st).2 ∧ StoreRel (run p s).1 (eval p env st).1 ∧ keys s <+: keys (run p s).1 ∧
      ((run p s).2.isJump = false → (run p s).1.binds = s.binds)

theorem misuse_false {p : Prog} {env : Env} {st : Store} (h : (eval p env st).1.misuse = false) : st.misuse = false := by
  cases hm : st.misuse with
  | false => rfl
  | true => rw [misuse_mono p env st hm] at h; exact absurd h (by simp)

/-- The state goes on after a form. -/
theorem Agree.after {p : Prog} (ha : Agree p) {s s' : State} {env : Env} {st : Store} (h : EnvRel s.binds (keys s) env)
    (hs : StoreRel s' st) (hp : keys s <+: keys s') (hb : s'.binds = s.binds) (hm : (eval p env st).1.misuse = false) :
    (run p s').2 = (eval p env st).2 ∧ StoreRel (run p s').1 (eval p env st).1 ∧ keys s <+: keys (run p s').1 ∧
      ((run p s').2.isJump = false → (run p s').1.binds = s.binds) := by
  obtain ⟨h1, h2, h3, h4⟩ := ha s' env st (by rw [hb]; exact h.mono hp) hs hm
  exact ⟨h1, h2, hp.trans h3, fun hj => (h4 hj).trans hb⟩

theorem agree : ∀ p, Agree p := by
  intro p
  induction p with
  | ret v => intro s env st h hs hm; exact ⟨rfl, hs, List.prefix_refl _, fun _ => rfl⟩
  | raise tag v => intro s env st h hs hm; exact ⟨rfl, hs, List.prefix_refl _, fun _ => rfl⟩
  | jump l v => intro s env st h hs hm; exact ⟨rfl, hs, List.prefix_refl _, fun _ => rfl⟩
  | makeFluid v k ih =>
    intro s env st h hs hm
    unfold eval at hm
    unfold run eval
    dsimp only at hm ⊢
    rw [hs.nextFluid] at hm ⊢
    refine (ih _).after h ?_ (List.prefix_refl _) rfl hm
    exact ⟨hs.vals, by simp only [hs.global], rfl, hs.nextLabel⟩
  | fluid f k ih =>
    intro s env st h hs hm
    unfold eval at hm
    unfold run eval
    split
    · rename_i hf
      rw [if_pos hf] at hm
      rw [value_lookup h hs]
      exact ih _ s env st h hs hm
    · exact ⟨rfl, hs, List.prefix_refl _, fun _ => rfl⟩
  | fluidSet f v k ih =>
    intro s env st h hs hm
    unfold eval at hm
    unfold run eval
    split
    · rename_i hf
      rw [if_pos hf] at hm
      obtain ⟨h1, h2, h3⟩ := assign_update h hs f v
      exact ih.after h h1 (by rw [h2]; exact List.prefix_refl _) h3 hm
    · exact ⟨rfl, hs, List.prefix_refl _, fun _ => rfl⟩
  | get x k ih =>
    intro s env st h hs hm
    unfold eval at hm
    unfold run eval
    rw [value_lookup h hs]
    exact ih _ s env st h hs hm
  | set x v k ih =>
    intro s env st h hs hm
    unfold eval at hm
    unfold run eval
    obtain ⟨h1, h2, h3⟩ := assign_update h hs (.sym x) v
    exact ih.after h h1 (by rw [h2]; exact List.prefix_refl _) h3 hm
  | withFluids fs vs body k ihb ihk =>
    intro s env st h hs hm
    unfold eval at hm
    unfold run eval
    by_cases hl : fs.length = vs.length
    · have hl' : ¬ fs.length ≠ vs.length := fun e => e hl
      rw [if_neg hl'] at hm
      simp only [if_neg hl']
      by_cases hall : fs.all isFluid = true
      · rw [if_pos hall] at hm
        simp only [if_pos hall]
        rw [bindFluids_eq fs vs s hl hall]
        simp only [if_true]
        obtain ⟨b1, b2, b3, b4⟩ := bindAll (fs.zip vs) h hs
        have hm' : (eval body (extend (fs.zip vs) env st).1 (extend (fs.zip vs) env st).2).1.misuse = false := by
          dsimp only at hm
          split at hm
          · exact misuse_false hm
          · exact hm
          · exact hm
        obtain ⟨r1, r2, r3, r4⟩ := ihb _ _ _ b2 b1 hm'
        rw [r1]
        dsimp only at hm ⊢
        cases ho : (eval body (extend (fs.zip vs) env st).1 (extend (fs.zip vs) env st).2).2 with
        | ret v =>
          rw [ho] at hm
          exact (ihk v).after h ⟨r2.vals, r2.global, r2.nextFluid, r2.nextLabel⟩ (b3.trans r3) rfl hm
        | err tag v => exact ⟨rfl, ⟨r2.vals, r2.global, r2.nextFluid, r2.nextLabel⟩, b3.trans r3, fun _ => rfl⟩
        | jump l v => exact ⟨rfl, r2, b3.trans r3, fun hj => absurd hj (by simp [Outcome.isJump])⟩
      · rw [if_neg hall] at hm
        exact absurd hm (by simp)
    · rw [if_pos hl, if_pos hl]
      exact ⟨rfl, hs, List.prefix_refl _, fun _ => rfl⟩
  | letSpecials bs body k ihb ihk =>
    intro s env st h hs hm
    unfold eval at hm
    unfold run eval
    have hbs : bindSpecials s bs = (bs.map fun b => (Val.sym b.1, b.2)).foldl (fun s b => bind s b.1 b.2) s := by
      unfold bindSpecials
      rw [List.foldl_map]
    rw [hbs]
    obtain ⟨b1, b2, b3, b4⟩ := bindAll (bs.map fun b => (Val.sym b.1, b.2)) h hs
    rw [List.length_map] at b4
    generalize (bs.map fun b => (Val.sym b.1, b.2)) = l at *
    have hm' : (eval body (extend l env st).1 (extend l env st).2).1.misuse = false := by
      dsimp only at hm
      split at hm
      · exact misuse_false hm
      · exact hm
      · exact hm
    obtain ⟨r1, r2, r3, r4⟩ := ihb _ _ _ b2 b1 hm'
    rw [r1] at r4
    dsimp only at hm ⊢
    rw [r1]
    cases ho : (eval body (extend l env st).1 (extend l env st).2).2 with
    | ret v =>
      rw [ho] at hm r4
      refine (ihk v).after h ⟨r2.vals, r2.global, r2.nextFluid, r2.nextLabel⟩ (b3.trans r3) ?_ hm
      show List.drop bs.length _ = _
      rw [r4 rfl, b4]
    | err tag v =>
      rw [ho] at r4
      refine ⟨rfl, ⟨r2.vals, r2.global, r2.nextFluid, r2.nextLabel⟩, b3.trans r3, fun _ => ?_⟩
      show List.drop bs.length _ = _
      rw [r4 rfl, b4]
    | jump l' v => exact ⟨rfl, r2, b3.trans r3, fun hj => absurd hj (by simp [Outcome.isJump])⟩
  | handle body handler k ihb ihh ihk =>
    intro s env st h hs hm
    unfold eval at hm
    unfold run eval
    have hm' : (eval body env st).1.misuse = false := by
      dsimp only at hm
      split at hm
      · exact misuse_false hm
      · split at hm
        · exact misuse_false (misuse_false hm)
        · exact misuse_false hm
        · exact misuse_false hm
      · exact hm
    obtain ⟨r1, r2, r3, r4⟩ := ihb s env st h hs hm'
    rw [r1] at r4
    dsimp only at hm ⊢
    rw [r1]
    cases ho : (eval body env st).2 with
    | ret v =>
      rw [ho] at hm r4
      exact (ihk v).after h r2 r3 (r4 rfl) hm
    | err tag v =>
      rw [ho] at hm r4
      dsimp only at hm ⊢
      have hm2 : (eval (handler tag v) env (eval body env st).1).1.misuse = false := by
        split at hm
        · exact misuse_false hm
        · exact hm
        · exact hm
      obtain ⟨q1, q2, q3, q4⟩ := (ihh tag v).after h r2 r3 (r4 rfl) hm2
      rw [q1] at q4 ⊢
      cases ho2 : (eval (handler tag v) env (eval body env st).1).2 with
      | ret w =>
        rw [ho2] at hm q4
        exact (ihk w).after h q2 q3 (q4 rfl) hm
      | err tag w =>
        rw [ho2] at q4
        exact ⟨rfl, q2, q3, fun _ => q4 rfl⟩
      | jump l w => exact ⟨rfl, q2, q3, fun hj => absurd hj (by simp [Outcome.isJump])⟩
    | jump l v => exact ⟨rfl, r2, r3, fun hj => absurd hj (by simp [Outcome.isJump])⟩
  | callcc body k ihb ihk =>
    intro s env st h hs hm
    unfold eval at hm
    unfold run eval
    dsimp only at hm ⊢
    rw [hs.nextLabel] at hm ⊢
    have hm' : (eval (body s.nextLabel) env { st with nextLabel := s.nextLabel + 1 }).1.misuse = false := by
      split at hm
      · exact misuse_false hm
      · exact hm
      · split at hm
        · exact misuse_false hm
        · exact hm
    obtain ⟨r1, r2, r3, r4⟩ := (ihb s.nextLabel).after (s' := { s with nextLabel := s.nextLabel + 1 }) (st := { st with nextLabel := s.nextLabel + 1 }) h
      ⟨hs.vals, hs.global, hs.nextFluid, rfl⟩ (List.prefix_refl _) rfl hm'
    rw [r1] at r4 ⊢
    cases ho : (eval (body s.nextLabel) env { st with nextLabel := s.nextLabel + 1 }).2 with
    | ret v =>
      rw [ho] at hm r4
      exact (ihk v).after h r2 r3 (r4 rfl) hm
    | err tag v =>
      rw [ho] at r4
      exact ⟨rfl, r2, r3, fun _ => r4 rfl⟩
    | jump l v =>
      rw [ho] at hm
      dsimp only at hm ⊢
      by_cases hl : l = s.nextLabel
      · rw [if_pos hl] at hm ⊢
        rw [if_pos hl]
        exact (ihk v).after h ⟨r2.vals, r2.global, r2.nextFluid, r2.nextLabel⟩ r3 rfl hm
      · rw [if_neg hl, if_neg hl]
        exact ⟨rfl, r2, r3, fun hj => absurd hj (by simp [Outcome.isJump])⟩

/-! ### C38 -/

/-- No bindings, some global values. -/
def State.init (g : Val → Val) : State := ⟨[], [], g, 0, 0⟩
def Store.init (g : Val → Val) : Store := ⟨[], g, 0, 0, false⟩
def Env.empty : Env := fun _ => none

/-- **C38** (partial): a program ends as dynamic scope says, and with the global values that
it says, unless `with-fluids` is given something that is not a fluid. -/
theorem C38_scope_partial (p : Prog) (g : Val → Val) (h : (eval p Env.empty (Store.init g)).1.misuse = false) :
    (run p (State.init g)).2 = (eval p Env.empty (Store.init g)).2 ∧
      (run p (State.init g)).1.global = (eval p Env.empty (Store.init g)).1.global := by
  obtain ⟨h1, h2, -⟩ := agree p (State.init g) Env.empty (Store.init g) ⟨fun _ => rfl, by simp [State.init]⟩ ⟨rfl, rfl, rfl, rfl⟩ h
  exact ⟨h1, h2.global.symm⟩

/-- **C38** (partial): however the body is left, by a value, an exception or (when control
arrives at the continuation) by an escape, the bindings afterwards are those from before. -/
theorem C38_restored_partial (p : Prog) (s : State) (env : Env) (st : Store) (h : EnvRel s.binds (keys s) env) (hs : StoreRel s st)
    (hm : (eval p env st).1.misuse = false) (hj : (run p s).2.isJump = false) : (run p s).1.binds = s.binds :=
  (agree p s env st h hs hm).2.2.2 hj

/-- The value that the last of some bindings gives. -/
def lastOf (f : Val) : List (Val × Val) → Option Val
  | [] => none
  | (k, v) :: rest => match lastOf f rest with
      | some w => some w
      | none => if k = f then some v else none

theorem lookup_extend (f : Val) : ∀ (l : List (Val × Val)) (env : Env) (st : Store), (∀ k a, env k = some a → a < st.vals.length) →
    lookup (extend l env st).1 (extend l env st).2 f = (lastOf f l).getD (lookup env st f) := by
  intro l
  induction l with
  | nil => intro env st _; rfl
  | cons b l ih =>
    intro env st hlt
    obtain ⟨k, v⟩ := b
    show lookup (extend l (env.at k st.vals.length) (st.new v)).1 (extend l (env.at k st.vals.length) (st.new v)).2 f = _
    have hlt' : ∀ k' a, (env.at k st.vals.length) k' = some a → a < (st.new v).vals.length := by
      intro k' a ha
      simp only [Env.at, Store.new, List.length_append, List.length_cons, List.length_nil] at ha ⊢
      split at ha
      · cases ha; omega
      · have := hlt k' a ha; omega
    rw [ih _ _ hlt']
    simp only [lastOf]
    cases hx : lastOf f l with
    | some w => rfl
    | none =>
      simp only [Option.getD_none]
      by_cases hk : k = f
      · subst hk
        rw [if_pos rfl]
        simp [lookup, Env.at, Store.new]
      · rw [if_neg hk]
        simp only [lookup, Env.at, if_neg (Ne.symm hk), Option.getD_none]
        cases he : env f with
        | none => rfl
        | some a =>
          have := hlt f a he
          simp only [Store.new, List.getElem?_append_left this]

/-- **C38**: inside of the body of `with-fluids` a fluid has the (last) value given for it,
or, if none is given, the value that it has outside. -/
theorem C38_inside (fs vs : List Val) (f : Val) (s : State) (env : Env) (st : Store) (h : EnvRel s.binds (keys s) env) (hs : StoreRel s st)
    (hm : st.misuse = false) (hl : fs.length = vs.length) (hall : fs.all isFluid = true) (hf : isFluid f = true) :
    (run (.withFluids fs vs (.fluid f .ret) .ret) s).2 = .ret ((lastOf f (fs.zip vs)).getD (value s f)) := by
  have hlt : ∀ k a, env k = some a → a < st.vals.length := by
    intro k a ha
    rw [h.env] at ha
    have := h.lt a (List.mem_of_find?_eq_some ha)
    rw [hs.vals]
    simpa [keys] using this
  have he : (eval (.withFluids fs vs (.fluid f .ret) .ret) env st).2 = .ret ((lastOf f (fs.zip vs)).getD (lookup env st f)) := by
    simp only [eval, ne_eq, hl, not_true_eq_false, if_false, hall, if_true, hf]
    rw [lookup_extend f _ env st hlt]
  have hm2 : (eval (.withFluids fs vs (.fluid f .ret) .ret) env st).1.misuse = false := by
    simp only [eval, ne_eq, hl, not_true_eq_false, if_false, hall, if_true, hf]
    rw [misuse_extend]; exact hm
  rw [(agree _ s env st h hs hm2).1, he, value_lookup h hs]

/-- The program in `C38_violated`: `(condition-case nil (with-fluids (list f 5) (list 1 2) …) (error (fluid f)))`,
where the form is evaluated with `%in-condition-case` bound (lisp/rep/lang/interpreter.jl:472);
it returns the value of `%in-condition-case` after that. -/
def leak : Prog :=
  .makeFluid (.int 0) fun f =>
    .handle (.letSpecials [(7, .int 1)] (.withFluids [f, .int 5] [.int 10, .int 11] (.ret (.int 3)) .ret) .ret)
      (fun _ _ => .ret (.int 4)) fun _ => .get 7 .ret

/-- C38 is false when `with-fluids` is given something that is not a fluid after a fluid: the
bindings made until then stay, and the enclosing form removes one of them instead of its
own.  After the `condition-case` the variable bound in it still has the inner value. -/
theorem C38_violated : (run leak (State.init fun _ => .int 0)).2 = .ret (.int 1) ∧
    (eval leak Env.empty (Store.init fun _ => .int 0)).2 = .ret (.int 0) := by decide +kernel

/-- A program that meets the hypotheses: nested bindings of the same fluid, set inside, left
by an exception and by an escape. -/
def nest : Prog :=
  .makeFluid (.int 0) fun f => .callcc (fun l =>
    .withFluids [f, f] [.int 1, .int 2]
      (.handle (.withFluids [f] [.int 3] (.fluidSet f (.int 4) (.raise (.sym 5) (.int 6))) .ret)
        (fun _ _ => .fluidSet f (.int 9) (.letSpecials [(7, .int 1)] (.fluid f (.jump l)) .ret)) .ret) .ret)
    fun r => .fluid f fun v => if v = .int 0 ∧ r = .int 9 then .ret (.int 100) else .ret v

example : (eval nest Env.empty (Store.init fun _ => .int 0)).1.misuse = false ∧
    (run nest (State.init fun _ => .int 0)).2 = .ret (.int 100) := by decide +kernel

end Rep.Dyn
