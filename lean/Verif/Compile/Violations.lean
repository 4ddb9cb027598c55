import Verif.Compile.Spec

/-
Programs for which compiled code does something else than the interpreter.
-/

namespace Rep.Compile

/-- The integer that a value is. -/
def asInt {F : Type} : Val F → Option Int
  | .atom (.int n) => some n
  | _ => none

/-- `1+`, `1-`, `car` and `cdr`. -/
def demo1 {F : Type} (p : Nat) (a : Val F) : Option (Val F) :=
  if p = 0 then (asInt a).map fun n => .atom (.int (n + 1))
  else if p = 1 then (asInt a).map fun n => .atom (.int (n - 1))
  else match a with
    | .pair b c => if p = 4 then some b else if p = 5 then some c else none
    | _ => none

/-- `=` and `cons`. -/
def demo2 {F : Type} (p : Nat) (a b : Val F) : Option (Val F) :=
  if p = 2 then (asInt a).bind fun m => (asInt b).map fun n => .atom (if m = n then .t else .nil)
  else if p = 3 then some (.pair a b)
  else none

/-- Some subrs. -/
def demoRun {F : Type} (p : Nat) (as : List (Val F)) : Option (Val F) :=
  match as with
  | [a] => demo1 p a
  | [a, b] => demo2 p a b
  | _ => none

theorem asInt_rel {F G : Type} {R : F → G → Prop} {a : Val F} {b : Val G} (h : VRel R a b) :
    asInt a = asInt b := by
  cases h with
  | atom a => cases a <;> rfl
  | _ => rfl

theorem demo_rel {F G : Type} (R : F → G → Prop) (p : Nat) (as : List (Val F)) (bs : List (Val G))
    (h : LRel (VRel R) as bs) :
    match demoRun p as, demoRun p bs with
    | some v, some w => VRel R v w
    | none, none => True
    | _, _ => False := by
  rcases h with _ | ⟨h1, _ | ⟨h2, _ | ⟨h3, h⟩⟩⟩
  · trivial
  · simp only [demoRun, demo1, asInt_rel h1]
    by_cases p0 : p = 0
    · simp only [p0, if_true]
      cases asInt _ <;> simp
      exact .atom _
    by_cases p1 : p = 1
    · simp only [p1, if_true]
      cases asInt _ <;> simp
      exact .atom _
    simp only [p0, p1, if_false]
    cases h1 with
    | pair ha hb =>
      by_cases p4 : p = 4
      · simpa [p4] using ha
      by_cases p5 : p = 5
      · simpa [p5] using hb
      simp [p4, p5]
    | _ => trivial
  · simp only [demoRun, demo2, asInt_rel h1, asInt_rel h2]
    by_cases p2 : p = 2
    · simp only [p2, if_true]
      cases asInt _ <;> cases asInt _ <;> simp
      exact .atom _
    by_cases p3 : p = 3
    · simpa [p3] using VRel.pair h1 h2
    simp [p2, p3]
  · trivial

def demo : Prims := ⟨demoRun, demo_rel⟩

namespace Demo

/-- The global variables that hold the subrs. -/
def inc : Name := 0
def dec : Name := 1
def eq : Name := 2
def cons : Name := 3
def car : Name := 4
def cdr : Name := 5
def f : Name := 10
def g : Name := 11
def x : Name := 12
def y : Name := 13
def z : Name := 14
def i : Name := 15
def j : Name := 16

def lib (n : Name) : Option Nat := if n ≤ 5 then some n else none

def int (n : Int) : Exp := .quote (.int n)
def c0 (f : Name) : Exp := .call (.var f) .nil
def c1 (f : Name) (a : Exp) : Exp := .call (.var f) (.cons a .nil)
def c2 (f : Name) (a b : Exp) : Exp := .call (.var f) (.cons a (.cons b .nil))
/-- `(if C A B)` -/
def ite (c a b : Exp) : Exp := .cond (.act c a (.act (.quote .t) b .nil))

/-- The integer, or list of integers ended by nil, that a value is. -/
def ints {F : Type} : Val F → List Int
  | .atom (.int n) => [n]
  | .pair a b => ints a ++ ints b
  | _ => []

inductive Seen
  | value (l : List Int)
  | error (e : Err)
  | crash
  | running
  | nocode
  deriving DecidableEq, Repr

def sees (n : Nat) (p : Prog) : Seen :=
  match interpret demo lib n p with
  | some (.ok v _) => .value (ints v)
  | some (.err e _) => .error e
  | none => .running

/-- What compiled code computes. -/
def runs (n : Nat) (p : Prog) : Seen :=
  match compile false p with
  | none => .nocode
  | some t => match load demo lib n t with
    | some (.done v _) => .value (ints v)
    | some (.err e _) => .error e
    | some _ => .crash
    | none => .running

/-- `(let loop ((x 0) (n 0)) (if (= n 2) x (let ((x (1+ x))) (loop x (1+ n)))))` -/
def p1 : Prog := ⟨[], .named f [x, i] (ite (c2 eq (.var i) (int 2)) (.var x)
  (.inl [x] (c2 f (.var x) (c1 inc (.var i))) (.cons (c1 inc (.var x)) .nil)))
  (.cons (int 0) (.cons (int 0) .nil))⟩

/-- `(defun f (f x) (cond ((= x 0) 7) (t (f x 0))))`, then `(f cons 5)` -/
def p2 : Prog := ⟨[(f, [f, x], ite (c2 eq (.var x) (int 0)) (int 7) (c2 f (.var x) (int 0)))],
  c2 f (.var cons) (int 5)⟩

/-- A closure over the parameter of a loop that is written after the jump to the start of the
loop. -/
def p3 : Prog := ⟨[], .inl [z] (.seq (.named f [i] (.named g [j]
    (.cond (.act (c2 eq (.var j) (int 0))
        (ite (c2 eq (.var i) (int 1)) (c0 z) (c1 f (c1 inc (.var i))))
      (.act (.quote .t) (.seq
          (ite (c2 eq (.var i) (int 0)) (.set z (.lam [] (.var i))) (.quote .nil))
          (c1 g (c1 dec (.var j)))) .nil)))
    (.cons (int 1) .nil)) (.cons (int 0) .nil)) (c0 z)) (.cons (.quote .nil) .nil)⟩

/-- `(letrec ((f (lambda (x) x))) (f (f 1)))` -/
def p5 : Prog := ⟨[], .named f [x] (.var x) (.cons (c1 f (int 1)) .nil)⟩

/-- `((lambda (x) x) 1 2)` -/
def p6 : Prog := ⟨[], .inl [x] (.var x) (.cons (int 1) (.cons (int 2) .nil))⟩

/-- `(defun f (x x) x)`, then `(f 1 2)` -/
def p7 : Prog := ⟨[(f, [x, x], .var x)], c2 f (int 1) (int 2)⟩

/-- A `letrec` function that calls itself as a tail call, and is then assigned. -/
def p8 : Prog := ⟨[], .letrec (.cons f (.lam [x] (.cond
   (.act (c2 eq (.var x) (int 0)) (int 0)
   (.act (c2 eq (.var x) (int 1)) (c1 f (int 0))
   (.act (.quote .t) (.seq (.set f (.var inc)) (c1 g (int 1))) .nil)))))
   (.cons g (.var f) .nil)) (c1 f (int 2))⟩

/-- `(defun f (x) (if (= x 0) 7 (setq f 1+) (f 0)))`, then `(f 2)` -/
def p9 : Prog := ⟨[(f, [x], ite (c2 eq (.var x) (int 0)) (int 7)
  (.seq (.set f (.var inc)) (c1 f (int 0))))], c1 f (int 2)⟩

/-- `(let loop ((x 0)) (if (= x 3) x (loop (1+ x))))` -/
def q1 : Prog := ⟨[], .named f [x] (ite (c2 eq (.var x) (int 3)) (.var x)
  (c1 f (c1 inc (.var x)))) (.cons (int 0) .nil)⟩

/-- `(defun f (x y) (if (= x 3) (y) (f (1+ x) (if (= x 1) (lambda () x) y))))`, then `(f 0 nil)` -/
def q2 : Prog := ⟨[(f, [x, y], ite (c2 eq (.var x) (int 3)) (.call (.var y) .nil)
  (c2 f (c1 inc (.var x)) (ite (c2 eq (.var x) (int 1)) (.lam [] (.var x)) (.var y))))],
  c2 f (int 0) (.quote .nil)⟩

/-- `(letrec ((f (lambda (x) (if (= x 0) 0 (1+ (f (1- x))))))) (setq z (f 2)) (+ (f z) j))`, with
`cons` for `+` and without a value of `j` -/
def q3 : Prog := ⟨[], .letrec (.cons f (.lam [x] (ite (c2 eq (.var x) (int 0)) (int 0)
  (c1 inc (c1 f (c1 dec (.var x)))))) .nil)
  (.seq (.set z (c1 f (int 2))) (c2 cons (c1 f (.var z)) (.var j)))⟩

end Demo

open Demo

/-! ### C59: where compiled code does something else -/

/-- **C59** Without any condition on the file the claim is false: a variable that is bound again
where it is in scope keeps its value across the jump that should have assigned it (`p1`: the jump
assigns the inner one, whose binding it removes). -/
theorem C59_rebound_loop_variable_violated :
    sees 50 p1 = .value [2] ∧ runs 1000 p1 = .value [0] := by decide +kernel

/-- **C59** A call of a parameter that has the name of the function is compiled as a jump to the
start of the function. -/
theorem C59_parameter_named_as_function_violated :
    sees 50 p2 = .value [5, 0] ∧ runs 1000 p2 = .value [7] := by decide +kernel

/-- **C59** A closure that is written after the jump sees the variable change. -/
theorem C59_closure_after_jump_violated :
    sees 50 p3 = .value [0] ∧ runs 1000 p3 = .value [1] ∧ p3.good = true ∧
    p3.noReuse false = false := by decide +kernel

/-- **C59** The arguments of the first call of a loop cannot use the loop. -/
theorem C59_loop_in_first_arguments_violated :
    sees 50 p5 = .value [1] ∧ runs 1000 p5 = .error .void := by decide +kernel

/-- **C59** A surplus argument of a lambda expression that is called directly becomes its
argument. -/
theorem C59_surplus_argument_violated :
    sees 50 p6 = .value [1] ∧ runs 1000 p6 = .value [2] := by decide +kernel

/-- **C59** Of two parameters of the same name compiled code takes the first one. -/
theorem C59_equal_parameters_violated :
    sees 50 p7 = .value [2] ∧ runs 1000 p7 = .value [1] := by decide +kernel

/-- **C59** An assignment to the name of a function is not seen by calls that are written before
it. -/
theorem C59_assigned_function_violated :
    sees 50 p8 = .value [1] ∧ runs 1000 p8 = .value [0] := by decide +kernel

/-- **C59** A tail call of a global function in itself does not see that the function has been
redefined. -/
theorem C59_redefined_function_violated :
    sees 50 p9 = .value [1] ∧ runs 1000 p9 = .value [7] := by decide +kernel

end Rep.Compile
