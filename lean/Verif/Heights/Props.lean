import Verif.Heights.Sim

/-
C95: `case`, conditionals and loops in compiled code.
-/

namespace Rep.Heights

theorem stop {W : World} {P : List Insn} {c : Conf} (h : step W P c = none) (n : Nat) :
    steps W P n c = c := by
  cases n with
  | zero => rfl
  | succ n => simp [steps, h]

theorem out_compile (W : World) (e : Exp) (ho : e.Ok) (n : Nat) (σ : Store) :
    Out W (compile e) [] [] 0 (.run 0 [] σ) (compile e).length [] (eval W n e σ) := by
  have h := (sim W (compile e) n).1 e true [] [] [] [] 0 0 [] σ ho (fun _ => rfl) (fit_nil (by simp))
    (at_self (compile e) [])
  rw [Nat.zero_add] at h
  exact h

/-- C95: if the evaluation of a form ends with a value, running its code gets to the end with this
value alone on the stack, and the variables are the same. -/
theorem C95_values_partial (W : World) (e : Exp) (ho : e.Ok) (n : Nat) (σ σ' : Store) (v : Val)
    (he : eval W n e σ = some (.val v, σ')) :
    Reaches W (compile e) (.run 0 [] σ) (.run (compile e).length [v] σ') := by
  have := out_compile W e ho n σ
  rw [he] at this
  exact this

/-- C95: if it ends with an error, so does the machine, with the same values of variables. -/
theorem C95_errors_partial (W : World) (e : Exp) (ho : e.Ok) (n : Nat) (σ σ' : Store)
    (he : eval W n e σ = some (.err, σ')) :
    Reaches W (compile e) (.run 0 [] σ) (.err σ') := by
  have := out_compile W e ho n σ
  rw [he] at this
  exact this

/-- The machine is deterministic: where it stops is the only place where it stops. -/
theorem C95_only_result (W : World) (P : List Insn) (c d d' : Conf) (h : Reaches W P c d)
    (h' : Reaches W P c d') (hs : step W P d = none) (hs' : step W P d' = none) : d = d' := by
  obtain ⟨n, rfl⟩ := h
  obtain ⟨m, rfl⟩ := h'
  rcases Nat.le_total n m with hl | hl
  · obtain ⟨k, rfl⟩ := Nat.exists_eq_add_of_le hl
    rw [steps_add, stop hs]
  · obtain ⟨k, rfl⟩ := Nat.exists_eq_add_of_le hl
    rw [steps_add, stop hs']

/-! ## Cases that meet the hypotheses -/

/-- Function 0 adds, 1 tells whether the first number is smaller, 2 is 100 times the first plus the
second. -/
def W0 : World := fun f v w =>
  match v, w with
  | some a, some b =>
    match f with
    | 0 => some (some (a + b))
    | 1 => some (if a < b then some 1 else none)
    | _ => some (some (100 * a + b))
  | _, _ => none

def num (n : Int) : Exp := .const (some n)

/-- What the interpreter returns. -/
def value (r : Eval) : Option Val :=
  match r with
  | some (.val v, _) => some v
  | _ => none

/-- What the machine has left on the stack. -/
def left (P : List Insn) (c : Conf) : Option (List Val) :=
  match c with
  | .run pc st _ => if pc = P.length then some st else none
  | _ => none

/-- `(f 7 (let loop ((i 0)) (if (< i 3) (case i ((1 5) (loop (+ i 2))) (t (loop (+ i 1)))) i)))` -/
def good : Exp := .op 2 (num 7) (.loop 0 (num 0) (.cond (.op 1 (.var 0) (num 3))
  (.case (.var 0) (.items (some 1) [some 5] (.jump 0 (.op 0 (.var 0) (num 2)))
    (.other (.jump 0 (.op 0 (.var 0) (num 1))) .nil))) (.var 0)))

example : good.Ok := by
  simp [good, num, Exp.Ok, Ok, OkCases, after, Exp.drifts]

example : value (eval W0 20 good fun _ => none) = some (some 703) := by decide +kernel

example : left (compile good) (steps W0 (compile good) 100 (.run 0 [] fun _ => none)) =
    some [some 703] := by decide +kernel

/-- A loop at the bottom of the stack may have a `case` before the call:
`(let loop ((i 0)) (case i ((0) nil)) (if (< i 3) (loop (+ i 1)) i))` -/
def loopForm : Exp := .loop 0 (num 0) (.seq (.case (.var 0) (.items (some 0) [] (.const none) .nil))
  (.cond (.op 1 (.var 0) (num 3)) (.jump 0 (.op 0 (.var 0) (num 1))) (.var 0)))

example : loopForm.Ok := by
  simp [loopForm, num, Exp.Ok, Ok, OkCases, after, Exp.drifts]

example : left (compile loopForm) (steps W0 (compile loopForm) 200 (.run 0 [] fun _ => none)) =
    some [some 3] := by decide +kernel

/-! ## Where the compiler counts wrong -/

/-- The same loop as an argument: `(f 7 (let loop ...))`. -/
def bad : Exp := .op 2 (num 7) loopForm

/-- After a `case` the compiler believes that there is one value more on the stack than there is, and
at the call of the loop it removes one that is still needed.  The interpreter returns 703, compiled
code runs out of its stack. -/
theorem C95_case_in_loop_violated :
    value (eval W0 30 bad fun _ => none) = some (some 703) ∧
    (match steps W0 (compile bad) 200 (.run 0 [] fun _ => none) with | .ub => true | _ => false) =
      true := by decide +kernel

/-- A parameter that takes its default value does the same:
`(f 7 (let loop ((i 0)) ((lambda (#!optional (x 1)) (if (< i 3) (loop (+ i x)) i)))))`. -/
def badOpt : Exp := .op 2 (num 7) (.loop 0 (num 0) (.opt 1 (num 1)
  (.cond (.op 1 (.var 0) (num 3)) (.jump 0 (.op 0 (.var 0) (.var 1))) (.var 0))))

theorem C95_default_in_loop_violated :
    value (eval W0 30 badOpt fun _ => none) = some (some 703) ∧
    (match steps W0 (compile badOpt) 200 (.run 0 [] fun _ => none) with | .ub => true | _ => false) =
      true := by decide +kernel

end Rep.Heights
