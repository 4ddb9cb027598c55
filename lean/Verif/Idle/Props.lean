import Verif.Idle.Model
import Mathlib.Data.List.Induction
/-!
# C126: the idle hook
-/
namespace Rep.Idle

/-! ### Specification -/
namespace Spec

/-- The timeouts since the last input. -/
def idle : List Ev → List Tick
  | [] => []
  | .input :: es => idle es
  | .tick w :: es => if es.any (fun e => match e with | .input => true | .tick _ => false) then idle es else w :: idle es

/-- Nothing else is to be done. -/
def Free (w : Tick) : Prop := w.interrupt = false ∧ w.saved = false ∧ w.garbage = false

/-- No interrupt is pending at a timeout. -/
def Quiet (es : List Ev) : Prop := ∀ w, Ev.tick w ∈ es → w.interrupt = false

end Spec

open Spec

def isInput (e : Ev) : Bool := match e with | .input => true | .tick _ => false

def free (w : Tick) : Bool := !w.saved && !w.garbage

theorem run_snoc (s : St) (es : List Ev) (e : Ev) : run s (es ++ [e]) = (step (run s es) e).1 := by
  induction es generalizing s with
  | nil => rfl
  | cons a es ih => exact ih _

theorem idle_input (es : List Ev) : idle (es ++ [.input]) = [] := by
  induction es with
  | nil => rfl
  | cons a es ih =>
    cases a with
    | input => exact ih
    | tick w =>
      rw [List.cons_append, idle, if_pos (by simp)]
      exact ih

theorem idle_tick (es : List Ev) (w : Tick) : idle (es ++ [.tick w]) = idle es ++ [w] := by
  induction es with
  | nil => rfl
  | cons a es ih =>
    cases a with
    | input => exact ih
    | tick v =>
      rw [List.cons_append, idle, idle, ih]
      simp only [List.any_append, List.any_cons, List.any_nil, Bool.or_false]
      split
      · rfl
      · rfl

theorem state (es : List Ev) (hq : Quiet es) : (run {} es).period = (idle es).length ∧ ((idle es) ≠ [] → (run {} es).called = (idle es).any free) := by
  induction es using List.reverseRecOn with
  | nil => exact ⟨rfl, fun h => absurd rfl h⟩
  | append_singleton es e ih =>
    obtain ⟨i1, i2⟩ := ih fun w hw => hq w (List.mem_append_left _ hw)
    rw [run_snoc]
    cases e with
    | input =>
      rw [idle_input]
      exact ⟨rfl, fun h => absurd rfl h⟩
    | tick w =>
      have hw : w.interrupt = false := hq w (List.mem_append_right _ (List.mem_singleton.mpr rfl))
      rw [idle_tick]
      simp only [step, hw, Bool.false_eq_true, if_false, List.length_append, List.length_singleton, i1]
      refine ⟨trivial, fun _ => ?_⟩
      rw [List.any_append, List.any_cons, List.any_nil, Bool.or_false]
      by_cases h0 : idle es = []
      · simp only [h0, List.length_nil, onIdle, if_true, List.any_nil, Bool.false_or, free]
        cases w.saved <;> cases w.garbage <;> rfl
      · have hl : (idle es).length ≠ 0 := fun h => h0 (List.length_eq_zero_iff.mp h)
        simp only [onIdle, if_neg hl, i2 h0, free]
        cases w.saved <;> cases w.garbage <;> cases (idle es).any free <;> simp_all [free]

/-- **C126**, partial: the hook is called at a timeout just if this is the first since the last input at which nothing else is to be done, if no interrupt is pending at
a timeout. So it is called once in each such period. -/
theorem C126_once_partial (es : List Ev) (w : Tick) (hq : Quiet es) (hw : w.hook = true) (hi : w.interrupt = false) :
    last es (.tick w) = some .hook ↔ Free w ∧ ∀ v ∈ idle es, ¬ Free v := by
  obtain ⟨h1, h2⟩ := state es hq
  have hf : ∀ v ∈ idle es, (Free v ↔ free v = true) := by
    intro v hv
    have : v.interrupt = false := by
      refine hq v ?_
      clear h1 h2 hq
      induction es with
      | nil => cases hv
      | cons a es ih =>
        cases a with
        | input => exact List.mem_cons_of_mem _ (ih hv)
        | tick u =>
          rw [idle] at hv
          split at hv
          · exact List.mem_cons_of_mem _ (ih hv)
          · rcases List.mem_cons.mp hv with rfl | hv
            · exact List.mem_cons_self ..
            · exact List.mem_cons_of_mem _ (ih hv)
    simp [Free, free, this]
  have hall : (∀ v ∈ idle es, ¬ Free v) ↔ (idle es).any free = false := by
    rw [List.any_eq_false]
    exact ⟨fun h v hv hx => h v hv ((hf v hv).mpr hx), fun h v hv hx => h v hv ((hf v hv).mp hx)⟩
  rw [hall]
  simp only [last, step, hi, Bool.false_eq_true, if_false, h1]
  by_cases h0 : idle es = []
  · simp only [h0, List.length_nil, onIdle, if_true, List.any_nil, Free, hi, hw]
    cases w.saved <;> cases w.garbage <;> simp
  · have hl : (idle es).length ≠ 0 := fun h => h0 (List.length_eq_zero_iff.mp h)
    simp only [onIdle, if_neg hl, h2 h0, Free, hi, hw]
    cases w.saved <;> cases w.garbage <;> cases (idle es).any free <;> simp

/-- **C126**: saving goes before collection of garbage, and this before the hook, in any history. -/
theorem C126_priority (es : List Ev) (w : Tick) (hi : w.interrupt = false) :
    (w.saved = true → last es (.tick w) = some .saved) ∧ (w.saved = false → w.garbage = true → last es (.tick w) = some .collected) := by
  constructor
  · intro h; simp [last, step, hi, onIdle, h]
  · intro h h'; simp [last, step, hi, onIdle, h, h']

/-- **C126**, violated: if an interrupt is pending at the first timeout after input, the hook isn't called in this period, if it was called before. -/
theorem C126_interrupt_violated (n : Nat) :
    last ([.tick {}, .input, .tick { interrupt := true }] ++ List.replicate n (.tick {})) (.tick {}) = none := by
  have key : ∀ (n : Nat) (s : St), s.called = true → s.period ≠ 0 → (run s (List.replicate n (.tick {}))).called = true ∧ (run s (List.replicate n (.tick {}))).period ≠ 0 := by
    intro n
    induction n with
    | zero => exact fun s h1 h2 => ⟨h1, h2⟩
    | succ n ih =>
      intro s h1 h2
      rw [List.replicate_succ]
      exact ih _ (by simp [step, onIdle, h1, h2]) (by simp [step])
  obtain ⟨k1, k2⟩ := key n { period := 1, called := true } rfl (by decide)
  have e : run {} ([.tick {}, .input, .tick { interrupt := true }] ++ List.replicate n (.tick {})) = run { period := 1, called := true } (List.replicate n (.tick {})) := rfl
  rw [last, e]
  simp [step, onIdle, k1, k2]

/-! ### The hypotheses are met -/

example : Quiet [.tick {}, .input, .tick { garbage := true }] := by
  intro w hw
  simp only [List.mem_cons, List.not_mem_nil, or_false, reduceCtorEq, false_or, Ev.tick.injEq] at hw
  rcases hw with rfl | rfl <;> rfl

example : last [.tick {}, .input, .tick { garbage := true }] (.tick {}) = some .hook ∧ last [.tick {}, .input, .tick { garbage := true }, .tick {}] (.tick {}) = none := by
  decide

end Rep.Idle
