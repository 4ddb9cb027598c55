import Verif.EditLoop.Model
/-!
# C125: event loops and what is thrown out of them
-/
namespace Rep.EditLoop

/-! ### Specification: man/lang.texi:5600-5627, man/news.texi:1658-1661 -/
namespace Spec

/-- Where the program is after a throw: in an event loop, with these calls of `recursive-edit` around it, or terminated with a status (nothing: any). -/
inductive After
  | inLoop (fs : Frames)
  | terminated (status : Option Int)

/-- The innermost `catch` for a tag: the calls of `recursive-edit` around it. -/
def catcher (k : Nat) : Frames → Option Frames
  | [] => none
  | c :: fs => if c = some k then some fs else catcher k fs

/-- An error or interrupt. -/
def byMode (fs : Frames) : Mode → After
  | .current => .inLoop fs
  | .topLevel => .inLoop []
  | .exit => .terminated none

/-- The manual. -/
def after (m : Modes) (fs : Frames) : Throw → After
  | .exit => .inLoop fs.tail
  | .topLevel => .inLoop []
  | .quit n => .terminated (some n)
  | .userInterrupt => byMode fs m.interrupt
  | .error => byMode fs m.error
  | .termInterrupt => .terminated none
  | .other k => .inLoop ((catcher k fs).getD [])

/-- What is reported. -/
def reports (fs : Frames) : Throw → List Report
  | .userInterrupt => [.interrupt]
  | .error => [.error]
  | .other k => if (catcher k fs).isSome then [] else [.noCatcher]
  | _ => []

/-- A state is as told. -/
def Is (m : Modes) : St → After → Prop
  | .run fs depth m', .inLoop fs' => fs = fs' ∧ depth = fs.length ∧ m' = m
  | .ended n, .terminated s => ∀ k, s = some k → n = k
  | _, _ => False

end Spec

open Spec

/-- The depth fits. -/
def Ok : St → Prop
  | .run fs depth _ => depth = fs.length
  | .ended _ => True

theorem raise_ok (m : Modes) (fs : Frames) (t : Throw) : Ok (raise m fs fs.length t).1 := by
  induction fs with
  | nil =>
    rw [raise]
    split
    · rfl
    · trivial
    · split
      · rfl
      · trivial
  | cons c fs ih =>
    have e : (((c :: fs).length : Nat) : Int) - 1 = fs.length := by simp
    rw [raise]
    split
    · rfl
    · exact e
    · split
      · exact e
      · rw [e]; exact ih

theorem step_ok {s : St} (h : Ok s) (e : Ev) : Ok (step s e).1 := by
  cases s with
  | ended n => trivial
  | run fs depth m =>
    have hd : depth = fs.length := h
    subst hd
    cases e with
    | edit c => simp [step, Ok]
    | raise t => exact raise_ok m fs t
    | setModes m' => rfl

theorem exec_ok {s : St} (h : Ok s) (es : List Ev) : Ok (exec s es) := by
  induction es generalizing s with
  | nil => exact h
  | cons e es ih => exact ih (step_ok h e)

/-- **C125**: `recursion-depth` is always the number of calls of `recursive-edit` that have not returned, however loops were left. -/
theorem C125_depth (es : List Ev) (fs : Frames) (depth : Int) (m : Modes) (h : exec start es = .run fs depth m) : depth = fs.length := by
  have := exec_ok (s := start) rfl es
  rw [h] at this
  exact this

theorem raise_top (m : Modes) (fs : Frames) (t : Throw) (rs : List Report) (h0 : handle m 0 t = .stay rs) (hp : ∀ d : Int, d ≠ 0 → handle m d t = .pass)
    (hc : ∀ c, caught c t = false) : raise m fs fs.length t = (.run [] 0 m, rs) := by
  induction fs with
  | nil =>
    have e : ((([] : Frames).length : Nat) : Int) = 0 := rfl
    rw [raise, e, h0]
  | cons c fs ih =>
    have e : (((c :: fs).length : Nat) : Int) - 1 = fs.length := by simp
    rw [raise, hp _ (by simp only [List.length_cons]; omega), e]
    simp only [hc, Bool.false_eq_true, if_false]
    exact ih

theorem raise_other (m : Modes) (fs : Frames) (k : Nat) :
    raise m fs fs.length (.other k) =
      (.run ((catcher k fs).getD []) ((catcher k fs).getD []).length m, if (catcher k fs).isSome then [] else [.noCatcher]) := by
  induction fs with
  | nil => rfl
  | cons c fs ih =>
    have e : (((c :: fs).length : Nat) : Int) - 1 = fs.length := by simp
    rw [raise, catcher]
    simp only [handle, caught, e]
    by_cases hc : c = some k
    · simp [hc]
    · rw [if_neg (by simpa using hc), if_neg hc]
      exact ih

theorem raise_stay (m : Modes) (fs : Frames) (t : Throw) (rs : List Report) (h : ∀ d : Int, handle m d t = .stay rs) :
    raise m fs fs.length t = (.run fs fs.length m, rs) := by
  cases fs with
  | nil => rw [raise, h]
  | cons c fs => rw [raise, h]

/-- **C125**, partial: a throw in any event loop leads where the manual says, with the reports that are due, except `quit` and `term-interrupt`, and errors and
interrupts under the mode `exit`. -/
theorem C125_throw_partial (es : List Ev) (fs : Frames) (depth : Int) (m : Modes) (h : exec start es = .run fs depth m) (t : Throw)
    (hq : ∀ n, t ≠ .quit n) (ht : t ≠ .termInterrupt) (he : t = .error → m.error ≠ .exit) (hi : t = .userInterrupt → m.interrupt ≠ .exit) :
    Is m (step (exec start es) (.raise t)).1 (after m fs t) ∧ (step (exec start es) (.raise t)).2 = reports fs t := by
  have hd := C125_depth es fs depth m h
  subst hd
  rw [h]
  simp only [step]
  cases t with
  | quit n => exact absurd rfl (hq n)
  | termInterrupt => exact absurd rfl ht
  | exit =>
    cases fs with
    | nil => exact ⟨⟨rfl, rfl, rfl⟩, rfl⟩
    | cons c fs =>
      have e : (((c :: fs).length : Nat) : Int) - 1 = fs.length := by simp
      have hp : (((c :: fs).length : Nat) : Int) > 0 := by simp only [List.length_cons]; omega
      rw [raise, handle, if_pos hp, e]
      exact ⟨⟨rfl, rfl, rfl⟩, rfl⟩
  | topLevel =>
    rw [raise_top m fs .topLevel [] (by simp [handle]) (fun d hd => by simp [handle, hd]) (fun c => rfl)]
    exact ⟨⟨rfl, rfl, rfl⟩, rfl⟩
  | other k =>
    rw [raise_other]
    exact ⟨⟨rfl, rfl, rfl⟩, rfl⟩
  | error =>
    have hm := he rfl
    cases hx : m.error with
    | exit => exact absurd hx hm
    | current =>
      rw [raise_stay m fs .error [.error] (fun d => by simp [handle, hx])]
      exact ⟨by simp [after, hx, byMode, Is], rfl⟩
    | topLevel =>
      rw [raise_top m fs .error [.error] (by simp [handle, hx]) (fun d hd => by simp [handle, hx, hd]) (fun c => rfl)]
      exact ⟨by simp [after, hx, byMode, Is], rfl⟩
  | userInterrupt =>
    have hm := hi rfl
    cases hx : m.interrupt with
    | exit => exact absurd hx hm
    | current =>
      rw [raise_stay m fs .userInterrupt [.interrupt] (fun d => by simp [handle, hx])]
      exact ⟨by simp [after, hx, byMode, Is], rfl⟩
    | topLevel =>
      rw [raise_top m fs .userInterrupt [.interrupt] (by simp [handle, hx]) (fun d hd => by simp [handle, hx, hd]) (fun c => rfl)]
      exact ⟨by simp [after, hx, byMode, Is], rfl⟩

/-- **C125**, partial: in the outermost event loop `quit` and `term-interrupt`, and under the mode `exit` errors and interrupts, terminate the program, with the cleanup
in all cases but the first. -/
theorem C125_outermost_partial (es : List Ev) (depth : Int) (m : Modes) (h : exec start es = .run [] depth m) :
    (∀ n, step (exec start es) (.raise (.quit n)) = (.ended 0, [])) ∧ step (exec start es) (.raise .termInterrupt) = (.ended 0, [.cleanup]) ∧
      (m.error = .exit → step (exec start es) (.raise .error) = (.ended 0, [.error, .cleanup])) ∧
      (m.interrupt = .exit → step (exec start es) (.raise .userInterrupt) = (.ended 0, [.cleanup])) := by
  have hd : depth = 0 := C125_depth es [] depth m h
  subst hd
  rw [h]
  refine ⟨fun n => rfl, rfl, fun hm => ?_, fun hm => ?_⟩
  · simp [step, raise, handle, hm, terminate, exitStatus]
  · simp [step, raise, handle, hm, terminate, exitStatus]

/-- **C125**, violated: `(throw 'quit 3)` in the outermost loop terminates the program with status 0; in an inner loop the program isn't terminated. -/
theorem C125_quit_violated :
    exec start [.raise (.quit 3)] = .ended 0 ∧ exec start [.edit none, .edit none, .raise (.quit 3)] = .run [none] 1 {} ∧
      ¬ Is {} (exec start [.raise (.quit 3)]) (after {} [] (.quit 3)) ∧
      ¬ Is {} (exec start [.edit none, .edit none, .raise (.quit 3)]) (after {} [none, none] (.quit 3)) := by
  refine ⟨rfl, rfl, fun h => ?_, fun h => h⟩
  exact absurd (h 3 rfl) (by decide)

/-- **C125**, violated: a signal to terminate that arrives in an inner loop only leaves this loop. -/
theorem C125_term_violated :
    exec start [.edit none, .raise .termInterrupt] = .run [] 0 {} ∧ ¬ Is {} (exec start [.edit none, .raise .termInterrupt]) (after {} [none] .termInterrupt) :=
  ⟨rfl, fun h => h⟩

/-- **C125**, violated: with the value `exit` of `error-mode` an error in an inner loop is handled there, and doesn't end the program. -/
theorem C125_mode_violated :
    exec start [.setModes { error := .exit }, .edit none, .raise .error] = .run [none] 1 { error := .exit } ∧
      ¬ Is { error := .exit } (exec start [.setModes { error := .exit }, .edit none, .raise .error]) (after { error := .exit } [none] .error) :=
  ⟨rfl, fun h => h⟩

/-! ### The hypotheses are met -/

example : exec start [.edit (some 5), .edit none, .edit (some 7), .raise .exit, .setModes { error := .topLevel }] = .run [none, some 5] 2 { error := .topLevel } := rfl

example : exec start [.edit (some 5), .edit none, .edit (some 7), .raise (.other 5)] = .run [] 0 {} ∧
    exec start [.edit (some 5), .edit none, .edit (some 7), .raise (.other 7)] = .run [none, some 5] 2 {} := ⟨rfl, rfl⟩

end Rep.EditLoop
