/-
Property C43: `catch`, `throw`, `unwind-protect`, `condition-case` and `signal`, as
lisp/rep/lang/interpreter.jl makes them from `call-with-exception-handler` and
`raise-exception` (src/lispcmds.c).
-/
namespace Rep.Exn

/-- Values.  Pairs have an identity, by which `eq` compares them. -/
inductive Val where
  | sym (n : Nat)
  | int (n : Int)
  | cons (id : Nat) (car cdr : Val)
  deriving Inhabited

/-- The symbols `nil` and `error`. -/
abbrev nil : Val := .sym 0
abbrev error : Val := .sym 1

/-- src/lispcmds.c `eq` -/
def eq : Val → Val → Bool
  | .sym a, .sym b => a == b
  | .int a, .int b => a == b
  | .cons a _ _, .cons b _ _ => a == b
  | _, _ => false

/-- src/lispcmds.c `memq` -/
def memq (x : Val) : Val → Bool
  | .cons _ a d => eq a x || memq x d
  | _ => false

/-- src/lispcmds.c `car` -/
def car : Val → Val
  | .cons _ a _ => a
  | _ => nil

def listp : Val → Bool
  | .cons _ _ _ => true
  | v => eq v nil

/-! ### Model: functions on exceptions -/

/-- An exception is a pair of a tag and a value. -/
abbrev Data := Val × Val

/-- Programs that call the functions modelled; `event` is any visible effect. -/
inductive Prog where
  | ret (v : Val)
  | raise (d : Data)
  | event (n : Nat) (k : Prog)
  /-- a new variable of a `let`, bound to nil -/
  | newVar (k : Nat → Prog)
  | setVar (x : Nat) (d : Data) (k : Prog)
  | getVar (x : Nat) (k : Option Data → Prog)
  /-- a form whose value is not used -/
  | seq (a b : Prog)
  | handle (thunk : Prog) (handler : Data → Prog) (k : Val → Prog)

/-- `throwValue` is `rep_throw_value`; `vars` has the variables of `let` forms; `undef` is
set when the assertion at src/lispcmds.c:1975 fails. -/
structure State where
  trace : List Nat
  throwValue : Option Data
  vars : List (Option Data)
  undef : Bool

/-- What a program does; the result `none` is a null pointer. -/
def run : Prog → State → State × Option Val
  | .ret v, s => (s, some v)
  -- src/lispcmds.c:1981 `raise-exception`
  | .raise d, s => (if s.throwValue = none then { s with throwValue := some d } else s, none)
  | .event n k, s => run k { s with trace := s.trace ++ [n] }
  | .newVar k, s => run (k s.vars.length) { s with vars := s.vars ++ [none] }
  | .setVar x d k, s => run k { s with vars := s.vars.set x (some d) }
  | .getVar x k, s => run (k (s.vars[x]?.getD none)) s
  | .seq a b, s =>
      let r := run a s
      match r.2 with
      | some _ => run b r.1
      | none => (r.1, none)
  -- src/lispcmds.c:1948 `call-with-exception-handler`
  | .handle thunk handler k, s =>
      let r := run thunk s
      match r.2 with
      | some v => run (k v) r.1
      | none =>
          match r.1.throwValue with
          | none => ({ r.1 with undef := true }, none)
          | some d =>
              let h := run (handler d) { r.1 with throwValue := none }
              match h.2 with
              | some v => run (k v) h.1
              | none => (h.1, none)

/-! ### The forms -/

/-- A handler of `condition-case`: the errors it is for, and what it does with the error. -/
inductive Form where
  | value (v : Val)
  | event (n : Nat) (k : Form)
  | throw (tag v : Val)
  | signal (id : Nat) (sym data : Val)
  | catch_ (tag : Val) (body : Form) (k : Val → Form)
  | unwindProtect (body cleanup : Form) (k : Val → Form)
  /-- `(condition-case var body (spec …) …)`; the handlers by position -/
  | conditionCase (body : Form) (specs : List Val) (handler : Nat → Val → Form) (k : Val → Form)

/-- lisp/rep/lang/interpreter.jl:443-449: does the handler apply to the type? -/
def applies (type hType : Val) : Bool :=
  (listp hType && memq type hType) || eq hType error || eq hType type

/-- lisp/rep/lang/interpreter.jl:442 the loop over the handlers: the position of the first
that applies.  The list is walked by the named `let`. -/
def findHandler (type : Val) : List Val → Option Nat
  | [] => none
  | h :: rest => if applies type h then some 0 else (findHandler type rest).map (· + 1)

/-- The expansions.  The binding of `%in-condition-case` around the form is left out. -/
def expand : Form → Prog
  | .value v => .ret v
  | .event n k => .event n (expand k)
  -- lisp/rep/lang/interpreter.jl:458 `throw`
  | .throw tag v => .raise (tag, v)
  -- src/lisp.c:2497 `signal`, without backtraces and the debugger
  | .signal id sym data => .raise (error, .cons id sym data)
  -- lisp/rep/lang/interpreter.jl:412 `call-with-catch`
  | .catch_ tag body k =>
      .handle (expand body) (fun d => if eq d.1 tag then .ret d.2 else .raise d) fun v => expand (k v)
  -- lisp/rep/lang/interpreter.jl:422 `call-with-unwind-protect`
  | .unwindProtect body cleanup k =>
      .newVar fun saved =>
        .handle (expand body) (fun d => .setVar saved d (.ret nil)) fun ret =>
          .seq (expand cleanup)
            (.getVar saved fun o =>
              match o with
              | some d => .raise d
              | none => expand (k ret))
  -- lisp/rep/lang/interpreter.jl:434 `call-with-error-handlers`
  | .conditionCase body specs handler k =>
      .handle (expand body)
        (fun d =>
          if !(eq d.1 error) then .raise d
          else
            match findHandler (car d.2) specs with
            | none => .raise d
            | some i => expand (handler i d.2))
        fun v => expand (k v)

/-! ### Specification -/

/-- How a form ends. -/
inductive Exit where
  | value (v : Val)
  | thrown (tag v : Val)

/-- A handler of `condition-case` is for an error: the symbol `error` is for all, another
symbol for the errors of that type, and a list for the types in it. -/
def IsFor (spec type : Val) : Prop :=
  eq spec error = true ∨ eq spec type = true ∨ (listp spec = true ∧ memq type spec = true)

/-- What the manual says of the forms: the visible effects, in order, and the exit. -/
inductive Does : Form → List Nat → Exit → Prop where
  | value (v) : Does (.value v) [] (.value v)
  | event {n k t x} : Does k t x → Does (.event n k) (n :: t) x
  | throw (tag v) : Does (.throw tag v) [] (.thrown tag v)
  | signal (id sym data) : Does (.signal id sym data) [] (.thrown error (.cons id sym data))
  /-- the body of a `catch` returns -/
  | catchValue {tag body k t v t' x} : Does body t (.value v) → Does (k v) t' x → Does (.catch_ tag body k) (t ++ t') x
  /-- it throws to the tag -/
  | catchTag {tag body k t tag' v t' x} : Does body t (.thrown tag' v) → eq tag' tag = true → Does (k v) t' x →
      Does (.catch_ tag body k) (t ++ t') x
  /-- it throws elsewhere -/
  | catchOther {tag body k t tag' v} : Does body t (.thrown tag' v) → eq tag' tag = false →
      Does (.catch_ tag body k) t (.thrown tag' v)
  /-- the body of an `unwind-protect` returns, and the cleanup forms do -/
  | protectValue {body cleanup k t v tc vc t' x} : Does body t (.value v) → Does cleanup tc (.value vc) → Does (k v) t' x →
      Does (.unwindProtect body cleanup k) (t ++ tc ++ t') x
  /-- the body throws, and the cleanup forms return: the exception goes on -/
  | protectThrow {body cleanup k t tag v tc vc} : Does body t (.thrown tag v) → Does cleanup tc (.value vc) →
      Does (.unwindProtect body cleanup k) (t ++ tc) (.thrown tag v)
  /-- the cleanup forms throw: that exception replaces what the body did -/
  | protectCleanup {body cleanup k t x tc tag v} : Does body t x → Does cleanup tc (.thrown tag v) →
      Does (.unwindProtect body cleanup k) (t ++ tc) (.thrown tag v)
  | caseValue {body specs handler k t v t' x} : Does body t (.value v) → Does (k v) t' x →
      Does (.conditionCase body specs handler k) (t ++ t') x
  /-- an exception that is not an error -/
  | caseThrow {body specs handler k t tag v} : Does body t (.thrown tag v) → eq tag error = false →
      Does (.conditionCase body specs handler k) t (.thrown tag v)
  /-- an error without a handler -/
  | caseOther {body specs handler k t tag v} : Does body t (.thrown tag v) → eq tag error = true →
      (∀ spec ∈ specs, ¬ IsFor spec (car v)) → Does (.conditionCase body specs handler k) t (.thrown tag v)
  /-- the first handler for the error is called, and returns -/
  | caseHandler {body specs handler k t tag v i spec th w t' x} : Does body t (.thrown tag v) → eq tag error = true →
      specs[i]? = some spec → IsFor spec (car v) → (∀ j spec', j < i → specs[j]? = some spec' → ¬ IsFor spec' (car v)) →
      Does (handler i v) th (.value w) → Does (k w) t' x → Does (.conditionCase body specs handler k) (t ++ th ++ t') x
  /-- or throws -/
  | caseHandlerThrow {body specs handler k t tag v i spec th tag' w} : Does body t (.thrown tag v) → eq tag error = true →
      specs[i]? = some spec → IsFor spec (car v) → (∀ j spec', j < i → specs[j]? = some spec' → ¬ IsFor spec' (car v)) →
      Does (handler i v) th (.thrown tag' w) → Does (.conditionCase body specs handler k) (t ++ th) (.thrown tag' w)

/-! ### Proofs -/

theorem applies_iff (type h : Val) : applies type h = true ↔ IsFor h type := by
  unfold applies IsFor
  simp only [Bool.or_eq_true, Bool.and_eq_true]
  constructor
  · rintro ((h | h) | h)
    · exact Or.inr (Or.inr h)
    · exact Or.inl h
    · exact Or.inr (Or.inl h)
  · rintro (h | h | h)
    · exact Or.inl (Or.inr h)
    · exact Or.inr h
    · exact Or.inl (Or.inl h)

theorem findHandler_none {type : Val} : ∀ {l : List Val}, findHandler type l = none → ∀ spec ∈ l, ¬ IsFor spec type := by
  intro l
  induction l with
  | nil => simp
  | cons h l ih =>
    unfold findHandler
    split
    · simp
    · rename_i hn
      intro hl spec hs
      rcases List.mem_cons.mp hs with rfl | hs
      · rwa [← applies_iff]
      · exact ih (by simpa using hl) spec hs

theorem findHandler_some {type : Val} : ∀ {l : List Val} {i : Nat}, findHandler type l = some i →
    ∃ spec, l[i]? = some spec ∧ IsFor spec type ∧ ∀ j spec', j < i → l[j]? = some spec' → ¬ IsFor spec' type := by
  intro l
  induction l with
  | nil => simp [findHandler]
  | cons h l ih =>
    intro i
    unfold findHandler
    split
    · rename_i hy
      intro hi
      cases hi
      exact ⟨h, rfl, (applies_iff _ _).mp hy, fun j _ hj => absurd hj (Nat.not_lt_zero j)⟩
    · rename_i hn
      intro hi
      rw [Option.map_eq_some_iff] at hi
      obtain ⟨i', hi', rfl⟩ := hi
      obtain ⟨spec, h1, h2, h3⟩ := ih hi'
      refine ⟨spec, h1, h2, ?_⟩
      intro j spec' hj hs
      cases j with
      | zero => simp at hs; subst hs; rwa [← applies_iff]
      | succ j => exact h3 j spec' (by omega) hs

/-- The result of the machine for an exit. -/
structure Ends (s : State) (t : List Nat) (x : Exit) (r : State × Option Val) : Prop where
  trace : r.1.trace = s.trace ++ t
  undef : r.1.undef = s.undef
  vars : s.vars <+: r.1.vars
  exit : match x with
    | .value v => r.2 = some v ∧ r.1.throwValue = none
    | .thrown tag v => r.2 = none ∧ r.1.throwValue = some (tag, v)

theorem Ends.after {s s' : State} {t t' : List Nat} {x : Exit} {r : State × Option Val} (h : Ends s' t' x r)
    (ht : s'.trace = s.trace ++ t) (hu : s'.undef = s.undef) (hv : s.vars <+: s'.vars) : Ends s (t ++ t') x r :=
  ⟨by rw [h.trace, ht, List.append_assoc], h.undef.trans hu, hv.trans h.vars, h.exit⟩

theorem ends : ∀ (f : Form) (s : State), s.throwValue = none → ∃ t x, Does f t x ∧ Ends s t x (run (expand f) s) := by
  intro f
  induction f with
  | value v => intro s hs; exact ⟨_, _, .value v, by simp [expand, run], rfl, List.prefix_refl _, rfl, hs⟩
  | event n k ih =>
    intro s hs
    obtain ⟨t, x, h1, h2⟩ := ih { s with trace := s.trace ++ [n] } hs
    exact ⟨n :: t, x, .event h1, by show Ends s ([n] ++ t) x _; exact h2.after rfl rfl (List.prefix_refl _)⟩
  | throw tag v =>
    intro s hs
    refine ⟨_, _, .throw tag v, ?_⟩
    simp only [expand, run, if_pos hs]
    exact ⟨by simp, rfl, List.prefix_refl _, rfl, rfl⟩
  | signal id sym data =>
    intro s hs
    refine ⟨_, _, .signal id sym data, ?_⟩
    simp only [expand, run, if_pos hs]
    exact ⟨by simp, rfl, List.prefix_refl _, rfl, rfl⟩
  | catch_ tag body k ihb ihk =>
    intro s hs
    obtain ⟨t, x, h1, h2⟩ := ihb s hs
    cases x with
    | value v =>
      obtain ⟨e1, e2⟩ := h2.exit
      obtain ⟨t', x', h3, h4⟩ := ihk v _ e2
      refine ⟨_, _, .catchValue h1 h3, ?_⟩
      simp only [expand, run, e1]
      exact h4.after h2.trace h2.undef h2.vars
    | thrown tag' v =>
      obtain ⟨e1, e2⟩ := h2.exit
      cases he : eq tag' tag with
      | true =>
        obtain ⟨t', x', h3, h4⟩ := ihk v { (run (expand body) s).1 with throwValue := none } rfl
        refine ⟨_, _, .catchTag h1 he h3, ?_⟩
        simp only [expand, run, e1, e2, he, if_true]
        exact h4.after h2.trace h2.undef h2.vars
      | false =>
        refine ⟨_, _, .catchOther h1 he, ?_⟩
        simp only [expand, run, e1, e2, he, Bool.false_eq_true, if_false, if_true]
        exact ⟨h2.trace, h2.undef, h2.vars, rfl, rfl⟩
  | unwindProtect body cleanup k ihb ihc ihk =>
    intro s hs
    obtain ⟨t, x, h1, h2⟩ := ihb { s with vars := s.vars ++ [none] } hs
    have hvar : (run (expand body) { s with vars := s.vars ++ [none] }).1.vars[s.vars.length]? = some none := by
      obtain ⟨q, hq⟩ := h2.vars
      rw [← hq]; simp
    have hpre : s.vars <+: (run (expand body) { s with vars := s.vars ++ [none] }).1.vars :=
      (List.prefix_append _ _).trans h2.vars
    cases x with
    | value v =>
      obtain ⟨e1, e2⟩ := h2.exit
      obtain ⟨tc, xc, h3, h4⟩ := ihc _ e2
      have hvar2 : (run (expand cleanup) (run (expand body) { s with vars := s.vars ++ [none] }).1).1.vars[s.vars.length]? = some none := by
        obtain ⟨q, hq⟩ := h4.vars
        rw [← hq, List.getElem?_append_left]
        · exact hvar
        · exact (List.getElem?_eq_some_iff.mp hvar).1
      cases xc with
      | value vc =>
        obtain ⟨c1, c2⟩ := h4.exit
        obtain ⟨t', x', h5, h6⟩ := ihk v _ c2
        refine ⟨_, _, .protectValue h1 h3 h5, ?_⟩
        simp only [expand, run, e1, c1, hvar2, Option.getD_some]
        exact h6.after (by rw [h4.trace, h2.trace, List.append_assoc]) (h4.undef.trans h2.undef) (hpre.trans h4.vars)
      | thrown tag w =>
        obtain ⟨c1, c2⟩ := h4.exit
        refine ⟨_, _, .protectCleanup h1 h3, ?_⟩
        simp only [expand, run, e1, c1]
        exact ⟨by rw [h4.trace, h2.trace, List.append_assoc], h4.undef.trans h2.undef, hpre.trans h4.vars, rfl, c2⟩
    | thrown tag v =>
      obtain ⟨e1, e2⟩ := h2.exit
      have hlt := (List.getElem?_eq_some_iff.mp hvar).1
      let s1 : State := { (run (expand body) { s with vars := s.vars ++ [none] }).1 with
        throwValue := none, vars := (run (expand body) { s with vars := s.vars ++ [none] }).1.vars.set s.vars.length (some (tag, v)) }
      have hv1 : s1.vars[s.vars.length]? = some (some (tag, v)) := by simp [s1, hlt]
      have hp1 : s.vars <+: s1.vars := by
        obtain ⟨q, hq⟩ := hpre
        simp only [s1]
        rw [← hq, List.set_append_right _ _ (Nat.le_refl _)]
        exact List.prefix_append _ _
      obtain ⟨tc, xc, h3, h4⟩ := ihc s1 rfl
      have hvar2 : (run (expand cleanup) s1).1.vars[s.vars.length]? = some (some (tag, v)) := by
        obtain ⟨q, hq⟩ := h4.vars
        rw [← hq, List.getElem?_append_left (by simpa [s1] using hlt)]
        exact hv1
      cases xc with
      | value vc =>
        obtain ⟨c1, c2⟩ := h4.exit
        refine ⟨_, _, .protectThrow h1 h3, ?_⟩
        simp only [expand, run, e1, e2]
        change Ends s (t ++ tc) _ (match (run (expand cleanup) s1).2 with
          | some _ => _
          | none => _)
        simp only [c1]
        change Ends s (t ++ tc) _ (run (match ((run (expand cleanup) s1).1.vars[s.vars.length]?).getD none with
          | some d => .raise d
          | none => expand (k nil)) (run (expand cleanup) s1).1)
        simp only [hvar2, Option.getD_some, run, if_pos c2]
        exact ⟨by rw [h4.trace]; simp only [s1]; rw [h2.trace, List.append_assoc], h4.undef.trans h2.undef, hp1.trans h4.vars, rfl, rfl⟩
      | thrown tag' w =>
        obtain ⟨c1, c2⟩ := h4.exit
        refine ⟨_, _, .protectCleanup h1 h3, ?_⟩
        simp only [expand, run, e1, e2]
        change Ends s (t ++ tc) _ (match (run (expand cleanup) s1).2 with
          | some _ => _
          | none => ((run (expand cleanup) s1).1, none))
        simp only [c1]
        exact ⟨by rw [h4.trace]; simp only [s1]; rw [h2.trace, List.append_assoc], h4.undef.trans h2.undef, hp1.trans h4.vars, rfl, c2⟩
  | conditionCase body specs handler k ihb ihh ihk =>
    intro s hs
    obtain ⟨t, x, h1, h2⟩ := ihb s hs
    cases x with
    | value v =>
      obtain ⟨e1, e2⟩ := h2.exit
      obtain ⟨t', x', h3, h4⟩ := ihk v _ e2
      refine ⟨_, _, .caseValue h1 h3, ?_⟩
      simp only [expand, run, e1]
      exact h4.after h2.trace h2.undef h2.vars
    | thrown tag v =>
      obtain ⟨e1, e2⟩ := h2.exit
      cases he : eq tag error with
      | false =>
        refine ⟨_, _, .caseThrow h1 he, ?_⟩
        simp only [expand, run, e1, e2, he, Bool.not_false, if_true]
        exact ⟨h2.trace, h2.undef, h2.vars, rfl, rfl⟩
      | true =>
        cases hf : findHandler (car v) specs with
        | none =>
          refine ⟨_, _, .caseOther h1 he (findHandler_none hf), ?_⟩
          simp only [expand, run, e1, e2, he, hf, Bool.not_true, Bool.false_eq_true, if_false, if_true]
          exact ⟨h2.trace, h2.undef, h2.vars, rfl, rfl⟩
        | some i =>
          obtain ⟨spec, g1, g2, g3⟩ := findHandler_some hf
          obtain ⟨th, xh, h3, h4⟩ := ihh i v { (run (expand body) s).1 with throwValue := none } rfl
          cases xh with
          | value w =>
            obtain ⟨c1, c2⟩ := h4.exit
            obtain ⟨t', x', h5, h6⟩ := ihk w _ c2
            refine ⟨_, _, .caseHandler h1 he g1 g2 g3 h3 h5, ?_⟩
            simp only [expand, run, e1, e2, he, hf, Bool.not_true, Bool.false_eq_true, if_false, c1]
            exact h6.after (by rw [h4.trace]; simp only; rw [h2.trace, List.append_assoc]) (h4.undef.trans h2.undef) (h2.vars.trans h4.vars)
          | thrown tag' w =>
            obtain ⟨c1, c2⟩ := h4.exit
            refine ⟨_, _, .caseHandlerThrow h1 he g1 g2 g3 h3, ?_⟩
            simp only [expand, run, e1, e2, he, hf, Bool.not_true, Bool.false_eq_true, if_false, c1]
            exact ⟨by rw [h4.trace]; simp only; rw [h2.trace, List.append_assoc], h4.undef.trans h2.undef, h2.vars.trans h4.vars, rfl, c2⟩

theorem first_unique {specs : List Val} {type : Val} {i j : Nat} {a b : Val} (hi : specs[i]? = some a) (ha : IsFor a type)
    (hi' : ∀ k s, k < i → specs[k]? = some s → ¬ IsFor s type) (hj : specs[j]? = some b) (hb : IsFor b type)
    (hj' : ∀ k s, k < j → specs[k]? = some s → ¬ IsFor s type) : i = j := by
  rcases Nat.lt_trichotomy i j with h | h | h
  · exact absurd ha (hj' i a h hi)
  · exact h
  · exact absurd hb (hi' j b h hj)

/-- The specification leaves nothing open. -/
theorem Does.unique {f : Form} {t : List Nat} {x : Exit} (h : Does f t x) : ∀ {t' : List Nat} {x' : Exit}, Does f t' x' → t = t' ∧ x = x' := by
  induction h <;> intro t' x' h' <;> cases h' <;> grind [first_unique, List.mem_of_getElem?]

/-- Nothing has been done, and no exception is on its way. -/
def start : State := ⟨[], none, [], false⟩

/-- What the machine shows of an exit. -/
def shows (r : State × Option Val) : Exit → Prop
  | .value v => r.2 = some v ∧ r.1.throwValue = none
  | .thrown tag v => r.2 = none ∧ r.1.throwValue = some (tag, v)

theorem shows_unique {r : State × Option Val} {x y : Exit} (hx : shows r x) (hy : shows r y) : x = y := by
  cases x <;> cases y <;> simp only [shows] at hx hy <;> grind

/-- **C43**: every combination of the forms has the effects, in the order, and the exit that
the specification says, and no others. -/
theorem C43_forms (f : Form) (t : List Nat) (x : Exit) :
    Does f t x ↔ (run (expand f) start).1.trace = t ∧ shows (run (expand f) start) x := by
  obtain ⟨t', x', h1, h2⟩ := ends f start rfl
  have ht : (run (expand f) start).1.trace = t' := by rw [h2.trace]; rfl
  have hx : shows (run (expand f) start) x' := by cases x' <;> exact h2.exit
  constructor
  · intro h
    obtain ⟨rfl, rfl⟩ := h.unique h1
    exact ⟨ht, hx⟩
  · rintro ⟨e, h⟩
    rw [← e, ht, shows_unique h hx]
    exact h1

/-- **C43**: every combination of the forms ends in one way, and the assertion of
`call-with-exception-handler` holds whenever it is reached. -/
theorem C43_total (f : Form) : (∃ t x, Does f t x ∧ ∀ t' x', Does f t' x' → t' = t ∧ x' = x) ∧ (run (expand f) start).1.undef = false := by
  obtain ⟨t, x, h1, h2⟩ := ends f start rfl
  exact ⟨⟨t, x, h1, fun t' x' h => h.unique h1⟩, h2.undef⟩

/-- **C43**: the cleanup forms of an `unwind-protect` are evaluated once, after all that the
body does, whether it returns or throws. -/
theorem C43_cleanup (body : Form) (n : Nat) (t : List Nat) (x : Exit) (h : Does body t x) :
    (run (expand (.unwindProtect body (.event n (.value nil)) .value)) start).1.trace = t ++ [n] ∧
      shows (run (expand (.unwindProtect body (.event n (.value nil)) .value)) start) x := by
  apply (C43_forms _ _ _).mp
  cases x with
  | value v => have := Does.protectValue (k := Form.value) h (.event (n := n) (.value nil)) (.value v); simpa using this
  | thrown tag v => have := Does.protectThrow (k := Form.value) h (.event (n := n) (.value nil)); simpa using this

/-- `(catch 'a (condition-case nil (unwind-protect (catch 'b (throw 'a 5)) EVENT-1) (error EVENT-2)) EVENT-3)`
followed by EVENT-4: the throw passes the inner `catch` and the `condition-case`, the
cleanup is evaluated, and EVENT-3 is not reached. -/
def passing : Form :=
  .catch_ (.sym 10) (.conditionCase
    (.unwindProtect (.catch_ (.sym 11) (.throw (.sym 10) (.int 5)) .value) (.event 1 (.value nil)) .value)
    [error] (fun _ _ => .event 2 (.value nil)) fun _ => .event 3 (.value nil)) fun v => .event 4 (.value v)

example : Does passing [1, 4] (.value (.int 5)) := by
  rw [C43_forms]
  simp [shows, passing, expand, run, start, eq, findHandler, applies, listp, memq, car]

/-- An error that the second handler, a list, is for; the handler throws, after which the
cleanup form of the surrounding `unwind-protect` signals another error. -/
def failing : Form :=
  .unwindProtect (.conditionCase (.signal 0 (.sym 20) nil) [.sym 21, .cons 1 (.sym 22) (.cons 2 (.sym 20) nil), error]
      (fun i _ => .event i (.throw (.sym 30) nil)) .value)
    (.event 7 (.signal 3 (.sym 23) nil)) .value

example : Does failing [1, 7] (.thrown error (.cons 3 (.sym 23) nil)) := by
  rw [C43_forms]
  simp [shows, failing, expand, run, start, eq, findHandler, applies, listp, memq, car]

end Rep.Exn
