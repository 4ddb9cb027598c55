import Verif.Stepper.Model
/-!
# C130: stepping through a program
-/
namespace Rep.Stepper

/-! ### Specification -/
namespace Spec

/-- The value of a form, without a debugger. -/
def value : Form → Nat
  | .const _ v => v
  | .brk _ => 1
  | .pair _ a b => value a + value b

/-- The forms in order of completion. -/
def completed : Form → List Nat
  | .const n _ => [n]
  | .brk n => [n]
  | .pair n a b => completed a ++ completed b ++ [n]

/-- The forms in the order in which their evaluation begins. -/
def begun : Form → List Nat
  | .const n _ => [n]
  | .brk n => [n]
  | .pair n a b => n :: (begun a ++ begun b)

/-- There is no call of `break`. -/
def NoBreak : Form → Prop
  | .const _ _ => True
  | .brk _ => False
  | .pair _ a b => NoBreak a ∧ NoBreak b

end Spec

open Spec

variable (script : Nat → Cmd)

theorem eval_plain (h : ∀ k v, script k ≠ .ret v) : ∀ (f : Form) (s : St),
    ((eval script f s).1 = value f ∧ (eval script f s).2.done = s.done ++ completed f) ∧
      ((run script f s).1 = value f ∧ (run script f s).2.done = s.done ++ completed f) := by
  intro f
  have lift : (∀ s : St, (eval script f s).1 = value f ∧ (eval script f s).2.done = s.done ++ completed f) →
      ∀ s : St, (run script f s).1 = value f ∧ (run script f s).2.done = s.done ++ completed f := by
    intro he s
    unfold run debug
    split
    · exact he s
    · cases hc : script s.stops.length with
      | step => exact he _
      | next => exact he _
      | cont => exact he _
      | ret v => exact absurd hc (h _ v)
  suffices he : ∀ s : St, (eval script f s).1 = value f ∧ (eval script f s).2.done = s.done ++ completed f from fun s => ⟨he s, lift he s⟩
  clear lift
  induction f with
  | const n v => intro s; exact ⟨rfl, rfl⟩
  | brk n => intro s; exact ⟨rfl, rfl⟩
  | pair n a b iha ihb =>
    have lift : ∀ (g : Form), (∀ s : St, (eval script g s).1 = value g ∧ (eval script g s).2.done = s.done ++ completed g) →
        ∀ s : St, (debug script (eval script g) g.label s).1 = value g ∧ (debug script (eval script g) g.label s).2.done = s.done ++ completed g := by
      intro g he s
      unfold debug
      split
      · exact he s
      · cases hc : script s.stops.length with
        | step => exact he _
        | next => exact he _
        | cont => exact he _
        | ret v => exact absurd hc (h _ v)
    intro s
    obtain ⟨a1, a2⟩ := lift a iha s
    obtain ⟨b1, b2⟩ := lift b ihb (debug script (eval script a) a.label s).2
    refine ⟨?_, ?_⟩
    · simp only [eval, value, a1, b1]
    · simp only [eval, completed, b2, a2, List.append_assoc]

/-- **C130**: unless the user returns a value in place of a form, the program has the value and the effects that it has without the debugger, whatever the commands. -/
theorem C130_transparent (h : ∀ k v, script k ≠ .ret v) (f : Form) (s : St) :
    (run script f s).1 = value f ∧ (run script f s).2.done = s.done ++ completed f := (eval_plain script h f s).2

theorem eval_off (f : Form) (hn : NoBreak f) (s : St) (hf : s.flag = false) :
    (eval script f s).2.stops = s.stops ∧ (eval script f s).2.flag = false := by
  induction f generalizing s with
  | const n v => exact ⟨rfl, hf⟩
  | brk n => exact hn.elim
  | pair n a b iha ihb =>
    have off : ∀ (g : Form) (t : St), t.flag = false → debug script (eval script g) g.label t = eval script g t := by
      intro g t ht
      simp [debug, ht]
    obtain ⟨a1, a2⟩ := iha hn.1 s hf
    obtain ⟨b1, b2⟩ := ihb hn.2 _ a2
    simp only [eval, off a s hf, off b _ a2]
    exact ⟨b1.trans a1, b2⟩

/-- **C130**: a program that doesn't call `break` isn't stopped if the debugger is off, and it stays off. -/
theorem C130_off (f : Form) (hn : NoBreak f) (s : St) (hf : s.flag = false) :
    (run script f s).2.stops = s.stops ∧ (run script f s).2.flag = false := by
  have : run script f s = eval script f s := by simp [run, debug, hf]
  rw [this]
  exact eval_off script f hn s hf

/-- **C130**: next runs the form without a stop; the form after it is stopped at. -/
theorem C130_next (f : Form) (hn : NoBreak f) (s : St) (hf : s.flag = true) (hc : script s.stops.length = .next) :
    (run script f s).2.stops = s.stops ++ [f.label] ∧ (run script f s).2.flag = true := by
  simp only [run, debug, hf, hc, Bool.not_true, Bool.false_eq_true, if_false]
  exact ⟨(eval_off script f hn _ rfl).1, trivial⟩

/-- **C130**, partial: continue runs the form, and leaves the debugger off. -/
theorem C130_continue_partial (f : Form) (hn : NoBreak f) (s : St) (hf : s.flag = true) (hc : script s.stops.length = .cont) :
    (run script f s).2.stops = s.stops ++ [f.label] ∧ (run script f s).2.flag = false := by
  simp only [run, debug, hf, hc, Bool.not_true, Bool.false_eq_true, if_false]
  exact ⟨(eval_off script f hn _ rfl).1, trivial⟩

/-- **C130**: return gives the value in place of the form, nothing of which is evaluated; the form after it is stopped at. -/
theorem C130_return (f : Form) (s : St) (hf : s.flag = true) (v : Nat) (hc : script s.stops.length = .ret v) :
    run script f s = (v, { s with stops := s.stops ++ [f.label] }) := by
  simp only [run, debug, hf, hc, Bool.not_true, Bool.false_eq_true, if_false]

theorem eval_step (h : ∀ k, script k = .step) (f : Form) (s : St) (hf : s.flag = true) :
    s.stops ++ begun f = (run script f s).2.stops ∧ (run script f s).2.flag = true := by
  induction f generalizing s with
  | const n v => simp [run, debug, eval, hf, h, begun, Form.label]
  | brk n => simp [run, debug, eval, hf, h, begun, Form.label]
  | pair n a b iha ihb =>
    obtain ⟨a1, a2⟩ := iha { s with flag := true, stops := s.stops ++ [n] } rfl
    obtain ⟨b1, b2⟩ := ihb _ a2
    rw [← a1] at b1
    have e : (run script (.pair n a b) s).2.stops = (run script b (run script a { s with flag := true, stops := s.stops ++ [n] }).2).2.stops := by
      rw [run, debug, hf, h]
      rfl
    refine ⟨?_, ?_⟩
    · rw [e, ← b1]
      simp [begun]
    · simp [run, debug, hf, h]

/-- **C130**: if the user steps always, every form is stopped at, in the order in which they begin. -/
theorem C130_step (h : ∀ k, script k = .step) (f : Form) (s : St) : (stepForm script f s).2.stops = s.stops ++ begun f ∧ (stepForm script f s).2.flag = s.flag :=
  ⟨(eval_step script h f { s with flag := true } rfl).1.symm, rfl⟩

theorem begun_cons (f : Form) : ∃ l, begun f = f.label :: l := by cases f <;> exact ⟨_, rfl⟩

theorem eval_sub (f : Form) (s : St) : (∃ l, (eval script f s).2.stops = s.stops ++ l ∧ List.Sublist (f.label :: l) (begun f)) := by
  induction f generalizing s with
  | const n v => exact ⟨[], by simp [eval], List.Sublist.refl _⟩
  | brk n => exact ⟨[], by simp [eval], List.Sublist.refl _⟩
  | pair n a b iha ihb =>
    have lift : ∀ (g : Form), (∀ s : St, ∃ l, (eval script g s).2.stops = s.stops ++ l ∧ List.Sublist (g.label :: l) (begun g)) →
        ∀ s : St, ∃ l, (debug script (eval script g) g.label s).2.stops = s.stops ++ l ∧ List.Sublist l (begun g) := by
      intro g he s
      obtain ⟨g', hg⟩ := begun_cons g
      unfold debug
      split
      · obtain ⟨l, h1, h2⟩ := he s
        exact ⟨l, h1, (List.sublist_cons_self _ _).trans h2⟩
      · have go : ∀ t : St, t.stops = s.stops ++ [g.label] → ∃ l, (eval script g t).2.stops = s.stops ++ l ∧ List.Sublist l (begun g) := by
          intro t ht
          obtain ⟨l, h1, h2⟩ := he t
          exact ⟨g.label :: l, by rw [h1, ht]; simp, h2⟩
        cases hc : script s.stops.length with
        | step => exact go _ rfl
        | next => exact go _ rfl
        | cont => exact go _ rfl
        | ret v => exact ⟨[g.label], rfl, by rw [hg]; simp⟩
    obtain ⟨la, a1, a2⟩ := lift a iha s
    obtain ⟨lb, b1, b2⟩ := lift b ihb (debug script (eval script a) a.label s).2
    refine ⟨la ++ lb, ?_, ?_⟩
    · simp only [eval, b1, a1, List.append_assoc]
    · exact (a2.append b2).cons_cons n

/-- **C130**: whatever the commands, no form is stopped at twice, and they are stopped at in the order in which they begin. -/
theorem C130_order (f : Form) (s : St) : ∃ l, (run script f s).2.stops = s.stops ++ l ∧ List.Sublist l (begun f) := by
  obtain ⟨g', hg⟩ := begun_cons f
  unfold run debug
  split
  · obtain ⟨l, h1, h2⟩ := eval_sub script f s
    exact ⟨l, h1, (List.sublist_cons_self _ _).trans h2⟩
  · have go : ∀ t : St, t.stops = s.stops ++ [f.label] → ∃ l, (eval script f t).2.stops = s.stops ++ l ∧ List.Sublist l (begun f) := by
      intro t ht
      obtain ⟨l, h1, h2⟩ := eval_sub script f t
      exact ⟨f.label :: l, by rw [h1, ht]; simp, h2⟩
    cases hc : script s.stops.length with
    | step => exact go _ rfl
    | next => exact go _ rfl
    | cont => exact go _ rfl
    | ret v => exact ⟨[f.label], rfl, by rw [hg]; simp⟩

/-- **C130**: when the debugger is on, the next form to be evaluated is stopped at first. -/
theorem C130_stopped (f : Form) (s : St) (hf : s.flag = true) : ∃ l, (run script f s).2.stops = s.stops ++ f.label :: l := by
  have go : ∀ t : St, t.stops = s.stops ++ [f.label] → ∃ l, (eval script f t).2.stops = s.stops ++ f.label :: l := by
    intro t ht
    obtain ⟨l, h1, _⟩ := eval_sub script f t
    exact ⟨l, by rw [h1, ht]; simp⟩
  simp only [run, debug, hf, Bool.not_true, Bool.false_eq_true, if_false]
  cases hc : script s.stops.length with
  | step => exact go _ rfl
  | next => exact go _ rfl
  | cont => exact go _ rfl
  | ret v => exact ⟨[], rfl⟩

/-- **C130**, partial: the form after a call of `break` is stopped at, if the debugger was off. -/
theorem C130_break_partial (n m : Nat) (f : Form) (s : St) (hf : s.flag = false) :
    ∃ l, (run script (.pair n (.brk m) f) s).2.stops = s.stops ++ f.label :: l := by
  obtain ⟨l, hl⟩ := C130_stopped script f { s with flag := true, done := s.done ++ [m] } rfl
  refine ⟨l, ?_⟩
  rw [← hl]
  simp [run, debug, eval, hf]

/-- A script that ends with continue. -/
def untilCont (k : Nat) : Nat → Cmd := fun i => if i < k then .step else .cont

/-- Two parts, the first of which has two parts. -/
def nested : Form := .pair 0 (.pair 1 (.const 2 5) (.const 3 6)) (.const 4 7)

/-- **C130**, violated: continue in a form that was stepped into doesn't run all that follows: the debugger stops again after the form around it. -/
theorem C130_continue_violated : NoBreak nested ∧ untilCont 2 2 = .cont ∧ (run (untilCont 2) nested { flag := true }).2.stops = [0, 1, 2, 4] := by
  refine ⟨⟨⟨trivial, trivial⟩, trivial⟩, by decide, by decide +kernel⟩

/-- `break` at the end of the first part. -/
def atEnd : Form := .pair 0 (.brk 1) (.pair 2 (.pair 3 (.const 4 5) (.brk 5)) (.const 6 7))

/-- **C130**, violated: a call of `break` inside of a form that was continued has no effect on the form after it: 6 isn't stopped at. -/
theorem C130_break_violated : (run (untilCont 1) atEnd {}).2.stops = [2, 3] ∧ (run (untilCont 1) atEnd {}).2.done = completed atEnd := by decide +kernel

/-! ### The hypotheses are met -/

example : (∀ k v, untilCont 2 k ≠ .ret v) := fun k v h => by unfold untilCont at h; split at h <;> cases h
example : (run (fun _ => .next) nested { flag := true }).2.stops = [0] ∧ (run (fun _ => .step) nested { flag := true }).2.stops = [0, 1, 2, 3, 4] := by decide +kernel
example : run (fun _ => .ret 9) nested { flag := true } = (9, { flag := true, stops := [0] }) := by decide +kernel

end Rep.Stepper
