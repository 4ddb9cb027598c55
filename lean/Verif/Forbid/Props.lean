import Verif.Forbid.Model
/-!
# C124: preemption of threads
-/
namespace Rep.Forbid

/-! ### Specification -/
namespace Spec

/-- Nothing interrupts `without-interrupts` before it begins. -/
def Quiet : Prog → Prop
  | .seq a b => Quiet a ∧ Quiet b
  | .handle a => Quiet a
  | .without i a => i = false ∧ Quiet a
  | _ => True

end Spec

open Spec

/-- Actions from inside `d` levels, with right flags. -/
def Fits : Nat → List Act → Prop
  | _, [] => True
  | d, .forbid :: r => Fits (d + 1) r
  | d, .permit :: r => 0 < d ∧ Fits (d - 1) r
  | d, .check b :: r => b = decide (0 < d) ∧ Fits d r
  | d, .yield :: r => Fits d r

theorem fits_trace (p : Prog) (hq : Quiet p) (d : Nat) (r : List Act) (hr : Fits d r) : Fits d ((trace (decide (0 < d)) p).1 ++ r) := by
  induction p generalizing d r with
  | call => exact ⟨rfl, hr⟩
  | yield => exact ⟨rfl, hr⟩
  | fail => exact ⟨rfl, hr⟩
  | seq a b iha ihb =>
    simp only [trace]
    split
    · rw [List.append_assoc]
      exact iha hq.1 d _ (ihb hq.2 d r hr)
    · exact iha hq.1 d r hr
  | handle a ih => exact ih hq d r hr
  | without i a ih =>
    obtain ⟨rfl, hq⟩ := hq
    simp only [trace, List.cons_append, List.append_assoc]
    refine ⟨rfl, ?_⟩
    have : Fits (d + 1) ((trace (decide (0 < d + 1)) a).1 ++ (Act.check true :: Act.permit :: r)) :=
      ih hq (d + 1) _ ⟨by simp, by omega, by simpa using hr⟩
    rw [show decide (0 < d + 1) = true by simp] at this
    exact this

/-- The lock of each thread is the number of levels it is in. -/
def Ok (s : St) : Prop := ∃ d : Tid → Nat, s.lock = d s.active ∧ (∀ t, t ≠ s.active → s.saved t = d t) ∧ ∀ t, Fits (d t) (s.todo t)

theorem switch_ok {s : St} (h : Ok s) (nx : Tid) : Ok (switch s nx) := by
  obtain ⟨d, h1, h2, h3⟩ := h
  have key : ∀ t, Function.update s.saved s.active s.lock t = d t := fun t => by
    by_cases e : t = s.active
    · subst e; rw [Function.update_self]; exact h1
    · rw [Function.update_of_ne e]; exact h2 t e
  exact ⟨d, key nx, fun t _ => key t, h3⟩

theorem step_ok {s : St} (h : Ok s) (pending : Bool) (nx : Tid) : Ok (step s pending nx) := by
  rw [step]
  cases ha : s.todo s.active with
  | nil => exact switch_ok h nx
  | cons a r =>
    obtain ⟨d, h1, h2, h3⟩ := h
    have hf := h3 s.active
    rw [ha] at hf
    have same : Fits (d s.active) r → Ok { s with todo := Function.update s.todo s.active r } := fun hr => by
      refine ⟨d, h1, h2, fun t => ?_⟩
      by_cases e : t = s.active
      · subst e; simp only [Function.update_self]; exact hr
      · simp only [Function.update_of_ne e]; exact h3 t
    have other : ∀ n, Fits n r → Ok { s with todo := Function.update s.todo s.active r, lock := (n : Int) } := fun n hr => by
      refine ⟨Function.update d s.active n, by simp, fun t ht => ?_, fun t => ?_⟩
      · simp only [Function.update_of_ne ht]; exact h2 t ht
      · by_cases e : t = s.active
        · subst e; simp only [Function.update_self]; exact hr
        · simp only [Function.update_of_ne e]; exact h3 t
    cases a with
    | forbid =>
      have := other _ hf
      simp only [h1]
      exact_mod_cast this
    | permit =>
      have := other _ hf.2
      have e : (d s.active : Int) - 1 = ((d s.active - 1 : Nat) : Int) := by have := hf.1; omega
      simp only [h1, e]
      exact this
    | check b =>
      simp only [mayYield]
      split
      · exact switch_ok (same hf.2) nx
      · exact same hf.2
    | yield => exact switch_ok (same hf) nx

theorem run_ok {s : St} (h : Ok s) (cs : List (Bool × Tid)) : Ok (run s cs) := by
  induction cs generalizing s with
  | nil => exact h
  | cons c cs ih => exact ih (step_ok h c.1 c.2)

theorem start_ok {ps : Tid → Prog} (hq : ∀ t, Quiet (ps t)) : Ok (start ps) :=
  ⟨fun _ => 0, rfl, fun _ _ => rfl, fun t => by
    have := fits_trace (ps t) (hq t) 0 [] trivial
    rw [List.append_nil] at this
    exact this⟩

theorem check_fits {s : St} (h : Ok s) {b : Bool} {r : List Act} (ha : s.todo s.active = .check b :: r) : b = !(s.lock == 0) ∧ 0 ≤ s.lock := by
  obtain ⟨d, h1, h2, h3⟩ := h
  have hf := h3 s.active
  rw [ha] at hf
  rw [hf.1, h1]
  constructor
  · cases d s.active with
    | zero => rfl
    | succ n =>
      have : ((n + 1 : Nat) : Int) ≠ 0 := by omega
      simp only [beq_eq_false_iff_ne.mpr this]
      simp
  · omega

/-- **C124**, partial: a thread is not preempted inside FORMS of `without-interrupts`, in any history of any threads, if nothing interrupts `without-interrupts` before
it begins. -/
theorem C124_inside_partial (ps : Tid → Prog) (hq : ∀ t, Quiet (ps t)) (cs : List (Bool × Tid)) (r : List Act) (pending : Bool) (nx : Tid)
    (h : (run (start ps) cs).todo (run (start ps) cs).active = .check true :: r) :
    (step (run (start ps) cs) pending nx).active = (run (start ps) cs).active := by
  have ok := run_ok (start_ok hq) cs
  generalize run (start ps) cs = s at h ok
  have hc := (check_fits ok h).1
  have : (s.lock == 0) = false := by simpa using hc.symm
  simp [step, h, mayYield, this]

/-- **C124**, partial: outside it is preempted when its time is over, whatever `without-interrupts` came before and however they were left. -/
theorem C124_outside_partial (ps : Tid → Prog) (hq : ∀ t, Quiet (ps t)) (cs : List (Bool × Tid)) (r : List Act) (nx : Tid)
    (h : (run (start ps) cs).todo (run (start ps) cs).active = .check false :: r) :
    (step (run (start ps) cs) true nx).active = nx ∧ (step (run (start ps) cs) false nx).active = (run (start ps) cs).active := by
  have ok := run_ok (start_ok hq) cs
  generalize run (start ps) cs = s at h ok
  have hc := (check_fits ok h).1
  have : (s.lock == 0) = true := by simpa using hc.symm
  simp [step, h, mayYield, this, switch]

/-- A handler around a `without-interrupts` that is interrupted, a call, and a second `without-interrupts` with a call. -/
def unlucky : Prog := .seq (.handle (.without true .call)) (.seq .call (.without false .call))

/-- **C124**, violated: after an interrupt at the wrong time the thread isn't preempted outside `without-interrupts`, though `thread-permit` said that preemption isn't
blocked; and inside the next one it is. -/
theorem C124_interrupt_violated :
    let s := run (start fun t => if t = 0 then unlucky else .call) [(false, 1), (false, 1)]
    let s' := run s [(true, 1), (true, 1), (true, 1)]
    (s.todo 0).head? = some (.check false) ∧ blocked s = false ∧ (step s true 1).active = 0 ∧
      (s'.todo 0).head? = some (.check true) ∧ s'.active = 0 ∧ (step s' true 1).active = 1 := by decide +kernel

/-- **C124**, partial: what `thread-forbid` and `thread-permit` return tells whether the thread can be preempted at the next call. -/
theorem C124_blocked_partial (ps : Tid → Prog) (hq : ∀ t, Quiet (ps t)) (cs : List (Bool × Tid)) (nx : Tid) :
    (mayYield (run (start ps) cs) true nx).active = if blocked (run (start ps) cs) then (run (start ps) cs).active else nx := by
  obtain ⟨d, h1, _, _⟩ := run_ok (start_ok hq) cs
  generalize run (start ps) cs = s at h1
  by_cases e : s.lock = 0
  · simp [mayYield, e, blocked, switch]
  · have : ¬ s.lock ≤ 0 := by omega
    simp [mayYield, e, blocked, this]

/-! ### The hypotheses are met -/

/-- Nested, left by an error, with a yield inside. -/
def nested : Prog := .seq (.handle (.without false (.seq (.without false .yield) .fail))) .call

example : Quiet nested := ⟨⟨rfl, ⟨rfl, trivial⟩, trivial⟩, trivial⟩

example : let s := run (start fun _ => nested) [(false, 1), (false, 1), (true, 1), (true, 1), (true, 1)]
    s.active = 0 ∧ (s.todo 0).head? = some .yield := by decide +kernel

example : let s := run (start fun t => if t = 0 then nested else .call) ((List.replicate 6 (false, 1)) ++ List.replicate 4 (true, 0))
    s.active = 0 ∧ s.todo 0 = [.check true, .permit, .check false] := by decide +kernel

end Rep.Forbid
