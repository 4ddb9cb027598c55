/-
C81: functions registered with `call-after-load`.
-/
import Verif.Load.After
import Verif.Load.Props

namespace Rep.Load

/-- The functions are called at most once, and only while a load of their library is
about to return. -/
structure CalledRight (log : List Event) : Prop where
  once : ∀ id m n a b c, log ≠ a ++ .call m id :: b ++ .call n id :: c
  only : ∀ before n id after, log = before ++ .call n id :: after →
    ∃ l, .reg l id ∈ before ∧ .read n l ∈ before ∧ .ret n l ∉ before
  /-- a number stands for one registration -/
  one : ∀ l l' id, .reg l id ∈ log → .reg l' id ∈ log → l = l'

/-- When a load of a library returns, each function that was registered for it has
been called, or another load of the library that had not returned calls it later. -/
def CalledAll (log : List Event) : Prop :=
  ∀ before n l after, log = before ++ .ret n l :: after → ∀ id, .reg l id ∈ before →
    (∃ m, .call m id ∈ before) ∨
      ∃ m, .read m l ∈ before ∧ .ret m l ∉ before ∧ .call m id ∈ after

theorem init_J : J .init [] := by
  refine ⟨by simp [ids, St.init, pend, called], by simp [ids, St.init, pend, called], ?_, ?_, ?_, ?_,
    ?_, ?_, ?_, ?_, ?_⟩
  all_goals simp [St.init, pend]

/-- C81: with every library, every program and every functions. -/
theorem C81_called_right (lib : String → Option File) (thunk : Nat → List Cmd) (n : Nat)
    (cs : List Cmd) (r : Val × St) (h : program lib thunk n cs = some r) :
    CalledRight r.2.log := by
  obtain ⟨j, -⟩ := good n [] _ _ _ h init_J (fun h => nomatch h)
  refine ⟨?_, j.calls, j.regOne⟩
  intro id m n a b c hl
  have := j.nodup
  simp only [ids, hl, called, List.filterMap_append, List.filterMap_cons, Event.callOf,
    List.append_assoc, List.cons_append] at this
  have h2 := (List.nodup_append.1 (List.nodup_append.1 (List.nodup_append.1 this).2.1).2.1).2.1
  rw [List.nodup_cons] at h2
  exact h2.1 (by simp)

/-- C81: and if no function registered ends with an error, and no file has a syntax
error, they are all called. -/
theorem C81_called_all_partial (lib : String → Option File) (thunk : Nat → List Cmd) (n : Nat)
    (cs : List Cmd) (r : Val × St) (h : program lib thunk n cs = some r)
    (hbad : .bad ∉ r.2.log) (hbroken : ∀ id, .broken id ∉ r.2.log) : CalledAll r.2.log := by
  obtain ⟨j, -⟩ := good n [] _ _ _ h init_J (fun h => nomatch h)
  intro a n l b hl id hid
  rcases j.rets a n l b hl with (h | ⟨id, h⟩) | h
  · exact absurd h hbad
  · exact absurd h (hbroken id)
  · rcases h id hid with h | ⟨m, h1, h2, h3⟩
    · exact .inl h
    · exact .inr ⟨m, h1, h2, h3.resolve_right (by simp)⟩

/-- A file loaded by two functions that are called after it was loaded, one of them
after registering another. -/
def reloading (file : String) : Option File :=
  if file = "f" then some ⟨[.emit 1], false⟩ else none

def reloadThunk : Nat → List Cmd
  | 0 => [.emit 10]
  | 1 => [.emit 11, .after "f" 0, .load "f" false]
  | _ => [.after "f" 0]

def reloadRun : List Cmd := [.after "f" 2, .after "f" 1, .load "f" false]

def reloadLog : List Event :=
  [.reg "f" 0, .reg "f" 1, .begin "f", .emit 1, .read 0 "f", .call 0 1, .emit 11, .reg "f" 2,
    .begin "f", .emit 1, .read 1 "f", .call 1 2, .emit 10, .ret 1 "f", .call 0 0, .reg "f" 3,
    .call 0 3, .emit 10, .ret 0 "f"]

example : (program reloading reloadThunk 30 reloadRun).map (fun r => r.2.log) = some reloadLog := by
  decide +kernel

/-- The function number 0 is called after the inner load returned. -/
example : CalledRight reloadLog ∧ CalledAll reloadLog := by
  have h : (program reloading reloadThunk 30 reloadRun).map (fun r => r.2.log) = some reloadLog := by
    decide +kernel
  obtain ⟨r, h, hl⟩ := Option.map_eq_some_iff.1 h
  rw [← hl]
  exact ⟨C81_called_right _ _ _ _ _ h,
    C81_called_all_partial _ _ _ _ _ h (by rw [hl]; decide) (by rw [hl]; simp [reloadLog])⟩

/-! ### What is missing -/

/-- An error in a function: the others registered for the library are lost, even if it
is loaded again. -/
theorem C81_error_violated :
    (program reloading (fun k => if k = 1 then [.fail] else [.emit 10]) 30
      [.after "f" 0, .after "f" 1, .try [.load "f" false], .load "f" false]).map
        (fun r => (r.2.throw, r.2.log)) =
    some (false, [.reg "f" 0, .reg "f" 1, .begin "f", .emit 1, .read 0 "f", .call 0 1, .broken 1,
      .ret 0 "f", .begin "f", .emit 1, .read 1 "f", .ret 1 "f"]) := by decide +kernel

/-- A syntax error in the file: the functions are lost without having been called. -/
theorem C81_syntax_violated :
    (program (fun _ => some ⟨[.emit 1], true⟩) (fun _ => [.emit 10]) 30
      [.after "f" 0, .try [.load "f" false]]).map (fun r => (r.2.throw, r.2.afters.length, r.2.log)) =
    some (false, 0, [.reg "f" 0, .begin "f", .emit 1, .bad, .read 0 "f", .ret 0 "f"]) := by
  decide +kernel

/-- `LIBRARY must exactly match the FILE argument to load`: not if the file is that of
a module with a dot in its name. -/
theorem C81_file_name_violated :
    (program (fun file => if file = "a/b" then some ⟨[.define (some "a.b") [] [.emit 1]], false⟩
        else none) (fun _ => [.emit 10]) 30
      [.after "a/b" 0, .load "a/b" false]).map (fun r => (r.2.throw, r.2.log)) =
    some (false, [.reg "a/b" 0, .begin "a/b", .start "a.b", .body "a.b", .emit 1, .done "a.b",
      .read 0 "a.b", .ret 0 "a.b"]) := by decide +kernel

theorem run_succ (lib : String → Option File) (thunk : Nat → List Cmd) (n : Nat) (j : Job)
    (st : St) : run lib thunk (n + 1) j st = step lib thunk (run lib thunk n) j st := rfl

theorem again_loop (n : Nat) : ∀ (st : St) (i k : Nat), st.throw = false →
    st.afters = [("f", [⟨i, 0, 0⟩])] →
    run reloading (fun _ => [.after "f" 0]) n (.again k "f") st = none := by
  induction n using Nat.strongRecOn with
  | ind n ih =>
    intro st i k ht ha
    match n with
    | 0 => rfl
    | 1 => simp [run, step, ha, takeAfter]
    | 2 => simp [run, step, ha, takeAfter, ht]
    | 3 => simp [run, step, ha, takeAfter, ht]
    | n + 4 =>
      have h1 : run reloading (fun _ => [.after "f" 0]) (n + 3) (.thunks k [⟨i, 0, 0⟩])
          { st with afters := [] } =
          some (.obj, ({ st with afters := [] }.note (.call k i)).callAfterLoad "f" 0 0) := by
        simp [run, step, ht]
      rw [run_succ]
      simp only [step, ha, takeAfter, if_true, h1, Option.bind_some]
      exact ih (n + 3) (by omega) _ st.regs k ht rfl

/-- A function that registers itself again for the library: loading it never ends. -/
theorem C81_again_violated : ∀ n, program reloading (fun _ => [.after "f" 0]) n
    [.after "f" 0, .load "f" false] = none := by
  intro n
  match n with
  | 0 => rfl
  | 1 => rfl
  | 2 => rfl
  | 3 => rfl
  | 4 => rfl
  | n + 5 =>
    have h1 : run reloading (fun _ => [.after "f" 0]) (n + 2) (.load "f" false 0)
        (St.init.callAfterLoad "f" 0 0) = none := by
      have h2 : run reloading (fun _ => [.after "f" 0]) (n + 1) (.again 0 "f")
          (((St.init.callAfterLoad "f" 0 0).note (.begin "f")).note (.emit 1) |>.noteRead "f") = none :=
        again_loop _ _ 0 0 rfl rfl
      rw [run_succ]
      cases n with
      | zero => rfl
      | succ n =>
        have h3 : run reloading (fun _ => [.after "f" 0]) (n + 2) (.forms .obj [.emit 1] 0)
            ((St.init.callAfterLoad "f" 0 0).note (.begin "f")) =
            some (.obj, ((St.init.callAfterLoad "f" 0 0).note (.begin "f")).note (.emit 1)) := rfl
        have ht : (St.init.callAfterLoad "f" 0 0).throw = false := rfl
        simp only [step, doLoad, ht, reloading, if_true, loadFile, h3, Option.map_some, Option.bind_some, reduceCtorEq,
          ne_eq, not_false_eq_true, Bool.false_eq_true, and_false, if_false]
        exact Option.map_eq_none_iff.2 h2
    have h4 : run reloading (fun _ => [.after "f" 0]) (n + 3) (.form (.load "f" false) 0)
        (St.init.callAfterLoad "f" 0 0) = none := by
      rw [run_succ]
      exact Option.map_eq_none_iff.2 h1
    show (run reloading (fun _ => [.after "f" 0]) (n + 3) (.form (.load "f" false) 0)
        (St.init.callAfterLoad "f" 0 0)).bind _ = none
    rw [h4]
    rfl

end Rep.Load
