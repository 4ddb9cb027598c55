import Verif.Modules.Check

/-
C49: variable references through opened structures behave as if there were no hash tables and no
cache.  C50: a structure exports what its interface says, and nothing else can be seen from
outside.  C51: an immutable binding keeps its value.
-/

namespace Rep.Mods

/-! ### C49 -/

/-- **C49** (partial).  In every history that starts with the empty system and in which the cache
is kept right (`Coherent`), all calls give the answers of the specification, in which a structure
is a map and a reference is a plain search. -/
theorem C49_no_cache_partial {mn : Nat} {ops : List Op} {g : St} {os : List Out}
    (hs : Along Safe (init mn) ops) (hc : Along Coherent (init mn) ops)
    (h : run (init mn) ops = some (g, os)) : os = Spec.outs (Spec.init mn) ops := by
  rw [← init_abs]
  exact (run_full (init_inv mn) hs hc h).2

/-- **C49** (partial).  In such a history the cache never holds a freed structure or a freed
binding. -/
theorem C49_live_partial {mn : Nat} {ops : List Op} {g : St} {os : List Out}
    (hs : Along Safe (init mn) ops) (hc : Along Coherent (init mn) ops)
    (h : run (init mn) ops = some (g, os)) {k : Nat} {l : Line} (hl : some l ∈ g.cache.sets k) :
    (g.mods l.s).isSome ∧ (g.nodes l.n).isSome := by
  obtain ⟨v, hv, _, hlv, _⟩ := (run_full (init_inv mn) hs hc h).1.cache k l hl
  refine ⟨hlv, ?_⟩
  cases hn : g.nodes l.n with
  | none => simp [symOf, hn] at hv
  | some r => rfl

/-- A library (name 16) binds the symbols 8 and 24, a second structure (name 32) passes them on,
and a third one with a header uses them; a fourth is made and freed. -/
def sampleRun : List Op :=
  [.mk [8, 24] (some 16) false 1 100, .define 1 8 (.obj 1) 101, .define 1 24 (.obj 2) 102,
    .mk [8, 24] (some 32) false 2 103, .openS 2 [.name 16],
    .mk [] none true 3 0, .openS 3 [.name 32], .endHeader 3, .ref 3 8, .ref 3 24, .ref 3 8,
    .set 1 8 (.obj 3) 0, .ref 3 8, .define 2 8 (.obj 4) 104, .ref 3 8, .makeImmutable 1 24,
    .immutableP 3 24, .access 3 [16], .external 3 16 8, .mk [] none false 4 0, .ref 4 8, .sweep [4],
    .exportB 2 40, .exportsP 2 40, .ref 3 40, .define 1 24 (.obj 9) 0, .ref 3 24]

def sampleRank : Sid → Nat
  | 3 => 3
  | 2 => 2
  | _ => 1

example : Along Safe (init 64) sampleRun ∧ Along Coherent (init 64) sampleRun := by
  have h1 : alongB safeB (init 64) sampleRun = true := by decide +kernel
  have h2 : alongB (coherentB sampleRank) (init 64) sampleRun = true := by decide +kernel
  exact ⟨safe_run (init_base 64) h1, coherent_run (init_inv 64) h1 h2⟩

example : (run (init 64) sampleRun).map (·.2) =
    some [.sid 1, .val (.obj 1), .val (.obj 2), .sid 2, .done, .sid 3, .done, .done, .val (.obj 1),
      .val (.obj 2), .val (.obj 1), .val (.obj 3), .val (.obj 3), .val (.obj 4), .val (.obj 4), .done,
      .yes, .done, .val (.obj 3), .sid 4, .val .void, .done, .done, .ext, .val .void, .constError,
      .val (.obj 2)] := by
  decide +kernel

/-- Two structures that open each other, and two that bind the symbol 8. -/
def circle : List Op :=
  [.mk [8] none false 1 0, .mk [8] none false 2 0, .mk [8] none false 3 0, .mk [8] none false 4 0,
    .define 3 8 (.obj 1) 10, .define 4 8 (.obj 2) 11,
    .openS 2 [.obj 4, .obj 1], .openS 1 [.obj 3, .obj 2]]

/-- **C49 is violated** for structures that open each other and pass symbols on: the answer to a
reference depends on what was looked up before. -/
theorem C49_circle_violated :
    (run (init 0) (circle ++ [.ref 2 8])).map (·.2.getLast?) = some (some (.val (.obj 2))) ∧
    (run (init 0) (circle ++ [.ref 1 8, .ref 2 8])).map (·.2.getLast?) = some (some (.val (.obj 1))) := by
  constructor <;> decide +kernel

example : Along Safe (init 0) (circle ++ [.ref 1 8, .ref 2 8]) :=
  safe_run (init_base 0) (by decide +kernel)

/-- The symbol 8 is bound in the structure `%meta` (whose name is the symbol 16); a new structure
refers to it in its header and again in its body. -/
def metaRun : List Op :=
  [.mk [8] (some 16) false 1 20, .define 1 8 (.obj 5) 21, .mk [] none true 2 0, .ref 2 8, .endHeader 2,
    .ref 2 8]

/-- **C49 is violated**: what the header of a structure has looked up in `%meta` is still seen by
its body. -/
theorem C49_meta_violated : Along Safe (init 16) metaRun ∧
    (run (init 16) metaRun).map (·.2.getLast?) = some (some (.val (.obj 5))) ∧
    (Spec.outs (Spec.init 16) metaRun).getLast? = some (.val .void) := by
  exact ⟨safe_run (init_base _) (by decide +kernel), by decide +kernel, by decide +kernel⟩

/-- Structure 2 opens 1 and 3, structure 1 opens 4; 3 and 4 bind the symbol 8. -/
def exportsAllRun : List Op :=
  [.mk [] none false 1 0, .mk [] none false 2 0, .mk [8] none false 3 0, .mk [8] none false 4 0,
    .define 3 8 (.obj 1) 10, .define 4 8 (.obj 2) 11, .openS 1 [.obj 4], .openS 2 [.obj 3, .obj 1],
    .ref 2 8, .exportsAll 1 (.obj 0), .ref 2 8]

/-- **C49 is violated**: `structure-exports-all` is not noticed by references that are cached. -/
theorem C49_exports_all_violated : Along Safe (init 0) exportsAllRun ∧
    (run (init 0) exportsAllRun).map (·.2.getLast?) = some (some (.val (.obj 1))) ∧
    (Spec.outs (Spec.init 0) exportsAllRun).getLast? = some (.val (.obj 2)) := by
  exact ⟨safe_run (init_base _) (by decide +kernel), by decide +kernel, by decide +kernel⟩

/-- Unbind a variable another structure has just referred to. -/
def unbindRun : List Op :=
  [.mk [8] none false 1 0, .mk [] none false 2 0, .define 1 8 (.obj 1) 10, .openS 2 [.obj 1], .ref 2 8,
    .define 1 8 .void 11]

/-- **C49 is violated**: `makunbound` of a binding that is in the cache reads freed memory. -/
theorem C49_use_after_free_violated : Along Safe (init 0) unbindRun ∧ run (init 0) unbindRun = none := by
  refine ⟨safe_run (init_base 0) (by decide +kernel), ?_⟩
  · have : (run (init 0) unbindRun).isNone = true := by decide +kernel
    exact Option.isNone_iff_eq_none.1 this

/-- Give the name 16 to another structure with `structure-define` on `%structures`. -/
def renameRun : List Op :=
  [.mk [8] (some 16) false 1 20, .mk [8] none false 2 0, .define 1 8 (.obj 1) 10, .define 2 8 (.obj 2) 11,
    .mk [] none false 3 0, .openS 3 [.name 16], .ref 3 8, .define 0 16 (.struct 2) 12]

/-- **C49 is violated**: a change of the structure of names itself is not noticed by references
that are cached. -/
theorem C49_names_violated : Along Safe (init 0) renameRun ∧
    (run (init 0) (renameRun ++ [.ref 3 8])).map (·.2.getLast?) = some (some (.val (.obj 1))) ∧
    (Spec.outs (Spec.init 0) (renameRun ++ [.ref 3 8])).getLast? = some (.val (.obj 2)) := by
  exact ⟨safe_run (init_base _) (by decide +kernel), by decide +kernel, by decide +kernel⟩

/-- **C49 is violated**: after such a change the structure can be freed while one of its bindings
is still in the cache; the next reference reads it. -/
theorem C49_dangling_violated : Along Safe (init 0) (renameRun ++ [.sweep [1]]) ∧
    ∃ g os k l, run (init 0) (renameRun ++ [.sweep [1]]) = some (g, os) ∧
      some l ∈ g.cache.sets k ∧ g.nodes l.n = none := by
  refine ⟨safe_run (init_base _) (by decide +kernel), ?_⟩
  have h : (run (init 0) (renameRun ++ [.sweep [1]])).any (fun r =>
      (r.1.cache.sets (cacheHash 8)).any fun l => l.any fun l => (r.1.nodes l.n).isNone) = true := by
    decide +kernel
  cases hr : run (init 0) (renameRun ++ [.sweep [1]]) with
  | none => rw [hr] at h; cases h
  | some r =>
    rw [hr] at h
    simp only [Option.any_some, List.any_eq_true] at h
    obtain ⟨x, hx, hx'⟩ := h
    cases x with
    | none => cases hx'
    | some l => exact ⟨r.1, r.2, _, l, rfl, hx, by simpa using hx'⟩

end Rep.Mods
