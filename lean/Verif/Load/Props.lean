/-
C80: loading libraries of modules.
-/
import Verif.Load.Ends

namespace Rep.Load

/-- A module gets what it opens: whenever the body of a module `m` begins, each
other module `x` that its file opens has been completed, or it was being made when
`m` was started (the modules then open each other). -/
def OpensFirst (N : List String) (lib : String → Option File) (log : List Event) : Prop :=
  ∀ m ∈ N, ∀ f opens, lib (structureFile m) = some f → ModuleFile N m opens f →
    ∀ before after, log = before ++ .body m :: after →
      ∃ earlier since, before = earlier ++ .start m :: since ∧ .start m ∉ since ∧
        ∀ x ∈ opens, x ≠ m → .done x ∈ before ∨ InProgress earlier x

/-- What is expected of running a program with a library of modules. -/
structure LoadsModules (N : List String) (lib : String → Option File) (st : St) : Prop where
  /-- a file is loaded again only after the module could not be made -/
  once : ∀ x ∈ N, st.log.count (.begin (structureFile x)) ≤ st.log.count (.failed x) + 1
  /-- what is left is complete -/
  complete : ∀ x ∈ N, st.get x ≠ none → .done x ∈ st.log
  /-- one that could not be made is not left -/
  gone : ∀ x ∈ N, st.get x = none →
    st.log.count (.begin (structureFile x)) = st.log.count (.failed x)
  order : OpensFirst N lib st.log

theorem init_ready (lib : String → Option File) (N : List String) : Ready lib N .init := by
  refine ⟨⟨by decide, fun x _ => by simp [begins, fails, St.init, St.get],
    fun x _ h => absurd rfl h, ?_⟩, rfl⟩
  intro q m post _ h
  exact absurd (congrArg List.length h) (by simp [St.init])

/-- C80: with every library of modules, whatever they open and require of each
other, and every program, the program ends, with one result, and the modules are
loaded as expected. -/
theorem C80_loads_partial (lib : String → Option File) (thunk : Nat → List Cmd)
    (N : List String) (hL : ModuleLib N lib) (cs : List Cmd) (hc : tidyL N cs = true) :
    ∃ r, (∃ n, program lib thunk n cs = some r) ∧
      (∀ n r', program lib thunk n cs = some r' → r' = r) ∧ LoadsModules N lib r.2 := by
  have hr := init_ready lib N
  obtain ⟨n, r, h⟩ := (all_end (thunk := thunk) hL (absent N .init)).forms .init .obj cs 0 hr
    (Nat.le_refl _) hc
  refine ⟨r, ⟨n, h⟩, fun m r' h' => run_eq h' h, ?_⟩
  obtain ⟨a, b, -⟩ := does hL n _ _ _ h hr.inv hr.afters hc
  refine ⟨fun x hx => ?_, fun x hx hg => ?_, fun x hx hg => ?_, ?_⟩
  · have := a.counts x hx
    unfold begins fails at this
    split at this <;> omega
  · obtain ⟨ext, h1, -, h3⟩ := b.log
    rw [h1]
    exact List.mem_append_right _ (h3 x hx rfl hg)
  · have := a.counts x hx
    rw [hg] at this
    simpa [begins, fails] using this
  · intro m hm f opens hf hmf before after hl
    exact a.order before m after hm hl f opens hf hmf

/-- Three modules that open each other in a circle, and one that fails. -/
def circle (file : String) : Option File :=
  if file = "a" then some ⟨[.define (some "a") ["b"] [.emit 1, .require "c"]], false⟩
  else if file = "b" then some ⟨[.define (some "b") ["c"] [.emit 2]], false⟩
  else if file = "c" then some ⟨[.define (some "c") ["a"] [.emit 3, .try [.require "d"]]], false⟩
  else if file = "d" then some ⟨[.define (some "d") [] [.emit 4, .fail]], false⟩
  else none

def circleRun : List Cmd := [.require "a", .try [.open ["d"]], .emit 5]

def circleResult : Val × List Event := (.obj,
  [.begin "a", .start "a", .begin "b", .start "b", .begin "c", .start "c", .body "c", .emit 3,
    .begin "d", .start "d", .body "d", .emit 4, .failed "d", .done "c", .read 0 "c", .ret 0 "c",
    .body "b", .emit 2, .done "b", .read 1 "b", .ret 1 "b", .body "a", .emit 1, .done "a",
    .read 2 "a", .ret 2 "a", .begin "d", .start "d", .body "d", .emit 4, .failed "d", .emit 5])

theorem circle_lib : ModuleLib ["a", "b", "c", "d"] circle := by
  have ha : structureFile "a" = "a" := by decide +kernel
  have hb : structureFile "b" = "b" := by decide +kernel
  have hc : structureFile "c" = "c" := by decide +kernel
  have hd : structureFile "d" = "d" := by decide +kernel
  intro x hx f hf
  simp only [List.mem_cons, List.not_mem_nil, or_false] at hx
  rcases hx with rfl | rfl | rfl | rfl
  · rw [ha] at hf
    cases hf
    exact ⟨["b"], ⟨_, rfl, by decide⟩, by simp⟩
  · rw [hb] at hf
    cases hf
    exact ⟨["c"], ⟨_, rfl, by decide⟩, by simp⟩
  · rw [hc] at hf
    cases hf
    exact ⟨["a"], ⟨_, rfl, by decide⟩, by simp⟩
  · rw [hd] at hf
    cases hf
    exact ⟨[], ⟨_, rfl, by decide⟩, by simp⟩

example : ((program circle (fun _ => []) 60 circleRun).map fun r => (r.1, r.2.log)) =
    some circleResult := by decide +kernel

/-- The hypotheses are met by a circle of modules, and one that fails. -/
example : ∃ r, (∃ n, program circle (fun _ => []) n circleRun = some r) ∧
    (∀ n r', program circle (fun _ => []) n circleRun = some r' → r' = r) ∧
      LoadsModules ["a", "b", "c", "d"] circle r.2 :=
  C80_loads_partial circle (fun _ => []) _ circle_lib circleRun (by decide)

/-! ### Files that are not modules -/

/-- Two files that need each other and provide their features at their ends. -/
def mutualFiles (file : String) : Option File :=
  if file = "a" then some ⟨[.require "b", .provide "a"], false⟩
  else if file = "b" then some ⟨[.require "a", .provide "b"], false⟩
  else none

theorem mutual_load (n : Nat) : ∀ (st : St) (file : String), (file = "a" ∨ file = "b") →
    st.throw = false → st.names = [] → st.structs = [⟨none, [], []⟩] →
    run mutualFiles (fun _ => []) n (.load file false 0) st = none := by
  have ha : structureFile "a" = "a" := by decide +kernel
  have hb : structureFile "b" = "b" := by decide +kernel
  induction n using Nat.strongRecOn with
  | ind n ih =>
    intro st file hf ht hn hs
    match n with
    | 0 => rfl
    | 1 =>
      rcases hf with rfl | rfl <;>
        simp [run, step, doLoad, ht, mutualFiles, loadFile]
    | 2 =>
      rcases hf with rfl | rfl <;>
        simp [run, step, doLoad, ht, mutualFiles, loadFile]
    | n + 3 =>
      rcases hf with rfl | rfl
      · have := ih n (by omega) (st.note (.begin "a")) "b" (.inr rfl) ht hn hs
        simp [run, step, doLoad, ht, mutualFiles, loadFile, doRequire, St.featurep, St.importp, hs,
          St.get, show (st.note (.begin "a")).names = [] from hn, hb, this]
      · have := ih n (by omega) (st.note (.begin "b")) "a" (.inl rfl) ht hn hs
        simp [run, step, doLoad, ht, mutualFiles, loadFile, doRequire, St.featurep, St.importp, hs,
          St.get, show (st.note (.begin "b")).names = [] from hn, ha, this]

/-- `(require 'a)` never ends if the file `a` requires `b`, the file `b` requires
`a`, and they provide their features as they usually do, at their ends. -/
theorem C80_circular_require_violated :
    ∀ n, program mutualFiles (fun _ => []) n [.require "a"] = none := by
  have ha : structureFile "a" = "a" := by decide +kernel
  intro n
  match n with
  | 0 => rfl
  | 1 => rfl
  | n + 2 =>
    have := mutual_load n .init "a" (.inl rfl) rfl rfl rfl
    simp [program, run, step, St.init, doRequire, St.featurep, St.importp, St.get, ha] at this ⊢
    simp [this]

/-- The events of a program, and whether it ended in an error. -/
def trace (lib : String → Option File) (n : Nat) (cs : List Cmd) : Option (Bool × List Event) :=
  (program lib (fun _ => []) n cs).map fun r => (r.2.throw, r.2.log)

/-- A file that forgets to provide its feature. -/
def forgetful (file : String) : Option File :=
  if file = "a" then some ⟨[.emit 1], false⟩ else none

/-- `require` does not notice that the file did not provide the feature, and loads it
each time. -/
theorem C80_not_provided_violated : trace forgetful 9 [.require "a", .require "a"] =
    some (false, [.begin "a", .emit 1, .read 0 "a", .ret 0 "a", .begin "a", .emit 1, .read 1 "a",
      .ret 1 "a"]) := by decide +kernel

/-- A file with a syntax error after its module. -/
def badEnd (file : String) : Option File :=
  if file = "a" then some ⟨[.define (some "a") [] [.emit 1]], true⟩ else none

/-- Its syntax error is an error the first time, and no error the second, when the
feature is there and the file not loaded. -/
theorem C80_error_but_provided_violated :
    (trace badEnd 9 [.require "a"]).map Prod.fst = some true ∧
    trace badEnd 9 [.try [.require "a"], .require "a"] =
      some (false, [.begin "a", .start "a", .body "a", .emit 1, .done "a", .bad, .read 0 "a",
        .ret 0 "a"]) := by decide +kernel

/-- A file that defines a module with another name. -/
def misnamed (file : String) : Option File :=
  if file = "a" then some ⟨[.define (some "b") [] [.emit 1]], false⟩ else none

/-- Opening it is no error, but the name that is opened stays the name of nothing. -/
theorem C80_other_name_violated :
    (program misnamed (fun _ => []) 9 [.open ["a"]]).map (fun r =>
      (r.2.throw, r.2.importp 0 "a", r.2.get "a")) = some (false, true, none) := by decide +kernel

end Rep.Load
