import Verif.SelfTest.Model
import Verif.StructWalk.Props
/-!
# C122: the self tests
-/
namespace Rep.SelfTest
open Rep.StructWalk Rep.StructWalk.Spec

/-! ### Specification -/
namespace Spec

/-- A form that should make the self tests fail: a test that fails, a failed check or assertion that is fatal, another error. -/
def Bad (c : Config) : Form → Prop
  | .form .test ok => c.disabled .test = false ∧ ok = false
  | .form k ok => c.disabled k = false ∧ ok = false ∧ c.action k ≠ .nothing
  | .error => True

/-- The test functions of the modules, and the libraries with them: what is registered and what a library defines is always the same function; a library
defines the test it is loaded for, and only tests of modules that are registered. -/
structure World (T : Sym → List Form) (libs : Libs) (regs : List (Op Entry)) : Prop where
  registered : ∀ o ∈ regs, ∃ x, o = .define x (.tests (T x)) ∨ ∃ lib, o = .define x (.auto lib) ∧ Op.define x (.tests (T x)) ∈ libs lib
  defined : ∀ lib, ∀ o ∈ libs lib, ∃ y, o = .define y (.tests (T y)) ∧ ∃ e, Op.define y e ∈ regs

end Spec

open Spec

/-- Fatal forms end the test function. -/
def fatal (c : Config) : Form → Bool
  | .form k ok => !(c.disabled k || ok) && decide (c.action k ≠ .nothing)
  | .error => true

def fails (c : Config) : Form → Bool
  | .form .test ok => !(c.disabled .test || ok)
  | _ => false

theorem runForms_eq (c : Config) (fs : List Form) (n : Nat) :
    if fs.any (fatal c) then ∀ j, runForms c fs n ≠ .ok j else runForms c fs n = .ok (n + fs.countP (fails c)) := by
  induction fs generalizing n with
  | nil => simp [runForms]
  | cons f r ih =>
    cases f with
    | error => simp [runForms, fatal]
    | form k ok =>
      rw [runForms, List.any_cons, List.countP_cons]
      cases hd : (c.disabled k || ok) with
      | true =>
        have h1 : fatal c (.form k ok) = false := by simp [fatal, hd]
        have h2 : fails c (.form k ok) = false := by cases k <;> simp [fails, hd]
        simp only [if_true, h1, h2, Bool.false_or, Bool.false_eq_true, if_false, Nat.add_zero]
        exact ih n
      | false =>
        cases ha : c.action k with
        | nothing =>
          have h1 : fatal c (.form k ok) = false := by simp [fatal, ha]
          have h2 : fails c (.form k ok) = decide (k = .test) := by cases k <;> simp [fails, hd]
          have e : n + (r.countP (fails c) + if decide (k = .test) = true then 1 else 0) = (if k = .test then n + 1 else n) + r.countP (fails c) := by
            by_cases hk : k = .test
            · simp only [hk, decide_true, if_true]; omega
            · simp [hk]
          simp only [Bool.false_eq_true, if_false, h1, h2, Bool.false_or, e]
          exact ih _
        | exit =>
          have h1 : fatal c (.form k ok) = true := by simp [fatal, hd, ha]
          simp [h1]
        | signal =>
          have h1 : fatal c (.form k ok) = true := by simp [fatal, hd, ha]
          simp [h1]

/-- Nothing is thrown if no action is `exit`. -/
theorem not_thrown {c : Config} (hc : ∀ k, c.action k ≠ .exit) (fs : List Form) (n : Nat) : runForms c fs n ≠ .thrown := by
  induction fs generalizing n with
  | nil => simp [runForms]
  | cons f r ih =>
    cases f with
    | error => simp [runForms]
    | form k ok =>
      rw [runForms]
      split
      · exact ih n
      · cases ha : c.action k with
        | nothing => exact ih _
        | exit => exact absurd ha (hc k)
        | signal => simp

theorem module_not_thrown {c : Config} (hc : ∀ k, c.action k ≠ .exit) (libs : Libs) (m : Sym → Option Entry) (x : Sym) (v : Entry) :
    (runModule c libs m x v).1 ≠ .thrown := by
  unfold runModule
  split
  · simp
  · exact not_thrown hc _ _
  · simp

theorem bad_iff (c : Config) (f : Form) : Bad c f ↔ fatal c f = true ∨ fails c f = true := by
  cases f with
  | error => simp [Bad, fatal]
  | form k ok => cases k <;> cases ok <;> simp [Bad, fatal, fails] <;> tauto

theorem fold_acts (ops : List (Op Entry)) (m : Map Entry) : ops.foldl seen m = acts m ops := by
  have : seen = act := by
    funext m o
    cases o <;> rfl
  rw [this]
  rfl

/-- Defining the right functions. -/
theorem acts_right {T : Sym → List Form} {ops : List (Op Entry)} (h : ∀ o ∈ ops, ∃ y, o = .define y (.tests (T y))) (m : Map Entry) (x : Sym) :
    (acts m ops x = m x ∨ acts m ops x = some (.tests (T x))) ∧ (Op.define x (.tests (T x)) ∈ ops → acts m ops x = some (.tests (T x))) := by
  induction ops generalizing m with
  | nil => exact ⟨Or.inl rfl, fun h => by cases h⟩
  | cons o r ih =>
    obtain ⟨y, rfl⟩ := h o (List.mem_cons_self ..)
    obtain ⟨i1, i2⟩ := ih (fun o ho => h o (List.mem_cons_of_mem _ ho)) (act m (.define y (.tests (T y))))
    have e : acts m (Op.define y (.tests (T y)) :: r) = acts (act m (.define y (.tests (T y)))) r := rfl
    rw [e]
    have hy : act m (.define y (.tests (T y))) x = m x ∨ act m (.define y (.tests (T y))) x = some (.tests (T x)) := by
      simp only [act]
      split
      · rename_i hx; exact Or.inr (by rw [hx])
      · exact Or.inl rfl
    refine ⟨?_, ?_⟩
    · rcases i1 with i1 | i1
      · rw [i1]; exact hy
      · exact Or.inr i1
    · intro hm
      rcases List.mem_cons.mp hm with hm | hm
      · injection hm with hx _
        subst hx
        rcases i1 with i1 | i1
        · rw [i1]; simp [act]
        · exact i1
      · exact i2 hm

/-- The table is right: each module has its function, or a library that has it. -/
def Right (T : Sym → List Form) (libs : Libs) (m : Map Entry) : Prop :=
  ∀ x e, m x = some e → e = .tests (T x) ∨ ∃ lib, e = .auto lib ∧ Op.define x (.tests (T x)) ∈ libs lib

/-- Calls for any modules: as the functions of these say. -/
theorem calls_right {T : Sym → List Form} {libs : Libs} (c : Config) (hl : ∀ lib, ∀ o ∈ libs lib, ∃ y, o = .define y (.tests (T y)))
    (order : List Sym) (m : Map Entry) (st : Nat) (hm : Right T libs m) (ho : ∀ x ∈ order, (m x).isSome) :
    if order.any (fun x => (T x).any (fatal c)) then ∃ m', (calls (step c libs) order m st).2 = .exit m'
    else ∃ m', (calls (step c libs) order m st).2 = .done (st + (order.map fun x => (T x).countP (fails c)).sum) m' := by
  induction order generalizing m st with
  | nil => exact ⟨m, rfl⟩
  | cons x order ih =>
    obtain ⟨e, he⟩ := Option.isSome_iff_exists.mp (ho x (List.mem_cons_self ..))
    have key : ∃ ops, (∀ o ∈ ops, ∃ y, o = Op.define y (.tests (T y))) ∧ runModule c libs m x e = (runForms c (T x) 0, ops) := by
      rcases hm x e he with rfl | ⟨lib, rfl, hlib⟩
      · exact ⟨[], fun o ho => (by cases ho), rfl⟩
      · refine ⟨libs lib, hl lib, ?_⟩
        simp only [runModule, testRef, fold_acts, (acts_right (hl lib) m x).2 hlib]
    obtain ⟨ops, hops, hr⟩ := key
    have hq := runForms_eq c (T x) 0
    rw [List.any_cons]
    cases hf : (T x).any (fatal c) with
    | true =>
      rw [hf, if_pos rfl] at hq
      have hs : step c libs st m x e = none := by
        simp only [step, hr]
        cases ho : runForms c (T x) 0 with
        | ok j => exact absurd ho (hq j)
        | thrown => rfl
        | error => rfl
      simp only [Bool.true_or, if_true, calls, he, hs]
      exact ⟨m, rfl⟩
    | false =>
      rw [hf] at hq
      simp only [Bool.false_eq_true, if_false, Nat.zero_add] at hq
      have hs : step c libs st m x e = some (st + (T x).countP (fails c), ops) := by simp only [step, hr, hq]
      have hm' : Right T libs (acts m ops) := by
        intro y e' hy
        rcases (acts_right hops m y).1 with h | h
        · rw [h] at hy; exact hm y e' hy
        · rw [h] at hy
          injection hy with hy
          exact Or.inl hy.symm
      have := ih (acts m ops) (st + (T x).countP (fails c)) hm' (by
        intro y hy
        rcases (acts_right hops m y).1 with h | h
        · rw [h]; exact ho y (List.mem_cons_of_mem _ hy)
        · rw [h]; rfl)
      simp only [Bool.false_or, calls, he, hs, List.map_cons, List.sum_cons, ← Nat.add_assoc]
      exact this

theorem regs_right {T : Sym → List Form} {libs : Libs} (regs : List (Op Entry))
    (h : ∀ o ∈ regs, ∃ x, o = .define x (.tests (T x)) ∨ ∃ lib, o = .define x (.auto lib) ∧ Op.define x (.tests (T x)) ∈ libs lib) (m : Map Entry) (hm : Right T libs m) :
    Right T libs (acts m regs) ∧ ∀ x, (acts m regs x).isSome ↔ (m x).isSome ∨ ∃ e, Op.define x e ∈ regs := by
  induction regs generalizing m with
  | nil => exact ⟨hm, fun x => by simp [acts]⟩
  | cons o r ih =>
    obtain ⟨x, hx⟩ := h o (List.mem_cons_self ..)
    have : ∃ e, o = .define x e ∧ (e = .tests (T x) ∨ ∃ lib, e = .auto lib ∧ Op.define x (.tests (T x)) ∈ libs lib) := by
      rcases hx with rfl | ⟨lib, rfl, hl⟩
      · exact ⟨_, rfl, Or.inl rfl⟩
      · exact ⟨_, rfl, Or.inr ⟨lib, rfl, hl⟩⟩
    obtain ⟨e, rfl, he⟩ := this
    obtain ⟨i1, i2⟩ := ih (fun o ho => h o (List.mem_cons_of_mem _ ho)) (act m (.define x e)) (by
      intro y e' hy
      simp only [act] at hy
      split at hy
      · rename_i hyx
        injection hy with hy
        subst hyx hy
        exact he
      · exact hm y e' hy)
    refine ⟨i1, fun y => ?_⟩
    have e1 : acts m (Op.define x e :: r) = acts (act m (.define x e)) r := rfl
    rw [e1, i2]
    simp only [act, List.mem_cons]
    by_cases hy : y = x
    · subst hy
      simp only [if_true, Option.isSome_some, true_or, true_iff]
      exact Or.inr ⟨e, Or.inl rfl⟩
    · rw [if_neg hy]
      constructor
      · rintro (h | ⟨e', h⟩)
        · exact Or.inl h
        · exact Or.inr ⟨e', Or.inr h⟩
      · rintro (h | ⟨e', h | h⟩)
        · exact Or.inl h
        · injection h with h _; exact absurd h hy
        · exact Or.inr ⟨e', h⟩

theorem mild_right {T : Sym → List Form} {ops : List (Op Entry)} (h : ∀ o ∈ ops, ∃ y, o = .define y (.tests (T y))) (x : Sym) (m : Map Entry)
    (hb : ∀ y, Op.define y (.tests (T y)) ∈ ops → (m y).isSome) : Mild x m ops := by
  induction ops generalizing m with
  | nil => trivial
  | cons o r ih =>
    obtain ⟨y, rfl⟩ := h o (List.mem_cons_self ..)
    refine ⟨hb y (List.mem_cons_self ..), ih (fun o ho => h o (List.mem_cons_of_mem _ ho)) _ fun z hz => ?_⟩
    simp only [act]
    split
    · rfl
    · exact hb z (List.mem_cons_of_mem _ hz)

/-- Walks are the same for functions that do the same while something holds of the table. -/
theorem loop_congr {V σ : Type} {f g : Fun σ V} (P : Map V → Prop) (hfg : ∀ st m x v, P m → f st m x v = g st m x v)
    (hp : ∀ st m x v st' ops, P m → f st m x v = some (st', ops) → P (acts m ops)) (k : Nat) (t : Table V) (st : σ) (i : Nat) (n : Option Sym)
    (hi : Inv t) (ht : P (lookup t)) : loop f k t st i n = loop g k t st i n := by
  induction k generalizing t st i n with
  | zero => rfl
  | succ k ih =>
    cases n with
    | none =>
      simp only [loop]
      split
      · exact ih t st _ _ hi ht
      · rfl
    | some x =>
      simp only [loop]
      cases hl : lookup t x with
      | none => rfl
      | some v =>
        simp only
        rw [← hfg st (lookup t) x v ht]
        cases hv : f st (lookup t) x v with
        | none => rfl
        | some r =>
          obtain ⟨st', ops⟩ := r
          simp only
          obtain ⟨r1, r2⟩ := run_inv hi ops
          rw [ih (run t ops) st' i _ r1 (by rw [r2]; exact hp st _ x v st' ops ht hv)]

theorem calls_congr {V σ : Type} {f g : Fun σ V} (P : Map V → Prop) (hfg : ∀ st m x v, P m → f st m x v = g st m x v)
    (hp : ∀ st m x v st' ops, P m → f st m x v = some (st', ops) → P (acts m ops)) (order : List Sym) (m : Map V) (st : σ) (hm : P m) :
    calls f order m st = calls g order m st := by
  induction order generalizing m st with
  | nil => rfl
  | cons x r ih =>
    simp only [calls]
    cases hx : m x with
    | none => exact ih m st hm
    | some v =>
      simp only
      rw [← hfg st m x v hm]
      cases hv : f st m x v with
      | none => rfl
      | some q =>
        obtain ⟨st', ops⟩ := q
        simp only
        rw [ih _ st' (hp st m x v st' ops hm hv)]

/-- What `step` does to the table is nothing, or loading a library. -/
theorem step_ops {c : Config} {libs : Libs} {st : Nat} {m : Map Entry} {x : Sym} {v : Entry} {st' : Nat} {ops : List (Op Entry)}
    (h : step c libs st m x v = some (st', ops)) : ops = [] ∨ ∃ lib, ops = libs lib := by
  have : (runModule c libs m x v).2 = ops := by
    simp only [step] at h
    split at h
    · rename_i heq
      injection h with h
      injection h with _ h
      rw [heq]; exact h
    · cases h
  rw [← this]
  have e : (runModule c libs m x v).2 = (testRef libs m x v).1 := by
    unfold runModule
    split <;> rename_i heq <;> rw [heq]
  rw [e]
  cases v with
  | tests fs => exact Or.inl rfl
  | auto lib => exact Or.inr ⟨lib, rfl⟩

open Classical in
theorem walk_calls {T : Sym → List Form} {libs : Libs} {regs : List (Op Entry)} (c : Config) (hw : World T libs regs) :
    ∃ order : List Sym, order.Nodup ∧ (∀ x, x ∈ order ↔ (acts (fun _ => none) regs x).isSome) ∧
      ∃ n, (walk (step c libs) n (run {} regs) 0).1 = (calls (step c libs) order (acts (fun _ => none) regs) 0).1 ∧
        Agree (walk (step c libs) n (run {} regs) 0).2 (calls (step c libs) order (acts (fun _ => none) regs) 0).2 := by
  let P : Map Entry → Prop := fun m => ∀ y e, Op.define y e ∈ regs → (m y).isSome
  let g : Fun Nat Entry := fun st m x v => if P m then step c libs st m x v else none
  have hl : ∀ lib, ∀ o ∈ libs lib, ∃ y, o = .define y (.tests (T y)) := fun lib o ho => by
    obtain ⟨y, h, _⟩ := hw.defined lib o ho
    exact ⟨y, h⟩
  have hfg : ∀ st m x v, P m → step c libs st m x v = g st m x v := fun st m x v h => by
    simp only [g]
    rw [if_pos h]
  have hp : ∀ st m x v st' ops, P m → step c libs st m x v = some (st', ops) → P (acts m ops) := by
    intro st m x v st' ops h hs y e hy
    rcases step_ops hs with rfl | ⟨lib, rfl⟩
    · exact h y e hy
    · rcases (acts_right (hl lib) m y).1 with q | q
      · rw [q]; exact h y e hy
      · rw [q]; rfl
  have hk : Keeps g := by
    intro st m x v st' ops hs
    simp only [g] at hs
    split at hs
    · rename_i h
      rcases step_ops hs with rfl | ⟨lib, rfl⟩
      · trivial
      · refine mild_right (hl lib) x m fun y hy => ?_
        obtain ⟨z, hz, e, he⟩ := hw.defined lib _ hy
        injection hz with hz _
        subst hz
        exact h y e he
    · cases hs
  obtain ⟨order, o1, o2, n, h1, h2⟩ := C119_walk_partial regs g hk 0
  have hP : P (acts (fun _ => none) regs) := fun y e hy => ((regs_right regs hw.registered (fun _ => none) (fun x e h => by cases h)).2 y).mpr (Or.inr ⟨e, hy⟩)
  have hi : Inv (run ({} : Table Entry) regs) := (run_inv inv_empty regs).1
  have hlk : lookup (run {} regs) = acts (fun _ => none) regs := funext fun v => C119_bindings regs v
  have ew : walk (step c libs) n (run {} regs) 0 = walk g n (run {} regs) 0 := by
    unfold walk
    rw [loop_congr P hfg hp n (run {} regs) 0 0 _ hi (by rw [hlk]; exact hP)]
  have ec := calls_congr P hfg hp order (acts (fun _ => none) regs) 0 hP
  exact ⟨order, o1, o2, n, by rw [ew, ec]; exact h1, by rw [ew, ec]; exact h2⟩

theorem sum_zero (l : List Nat) : l.sum = 0 ↔ ∀ j ∈ l, j = 0 := by
  induction l with
  | nil => simp
  | cons a l ih => simp [ih]

/-- **C122**, partial: the exit status of `rep --check` is 0 just if nothing is wrong in any module that is registered, if loading a library defines tests only for
registered modules and no action is `exit`. -/
theorem C122_status_partial {T : Sym → List Form} {libs : Libs} {regs : List (Op Entry)} (c : Config) (hw : World T libs regs) (hc : ∀ k, c.action k ≠ .exit) :
    ∃ k s, status c libs k (run {} regs) = some s ∧ (s = 0 ↔ ∀ x e, Op.define x e ∈ regs → ∀ f ∈ T x, ¬ Bad c f) := by
  obtain ⟨order, _, o2, n, h1, h2⟩ := walk_calls c hw
  obtain ⟨q1, q2⟩ := regs_right regs hw.registered (fun _ => none) (fun x e h => by cases h)
  have hr := calls_right c (fun lib o ho => by obtain ⟨y, h, _⟩ := hw.defined lib o ho; exact ⟨y, h⟩) order (acts (fun _ => none) regs) 0 q1
    (fun x hx => (o2 x).mp hx)
  have mem : ∀ x, x ∈ order ↔ ∃ e, Op.define x e ∈ regs := fun x => by rw [o2, q2]; simp
  refine ⟨n, ?_⟩
  simp only [status, runAll]
  generalize walk (step c libs) n (run {} regs) 0 = w at h1 h2
  obtain ⟨cs, en⟩ := w
  split at hr
  · rename_i hf
    obtain ⟨m', hr⟩ := hr
    simp only [hr] at h2
    cases en with
    | done => exact absurd h2 id
    | freed => exact absurd h2 id
    | steps => exact absurd h2 id
    | exit t =>
      have : (match cs.getLast? with
          | some (x, v) => some (if (runModule c libs (lookup t) x v).1 = .thrown then 0 else 1)
          | none => some 1) = some 1 := by
        split
        · rw [if_neg (module_not_thrown hc libs _ _ _)]
        · rfl
      refine ⟨1, this, (fun h => by cases h), fun h => ?_⟩
      obtain ⟨x, hx, hf⟩ := List.any_eq_true.mp hf
      obtain ⟨f, hf, hb⟩ := List.any_eq_true.mp hf
      obtain ⟨e, he⟩ := (mem x).mp hx
      exact absurd ((bad_iff c f).mpr (Or.inl hb)) (h x e he f hf)
  · rename_i hf
    obtain ⟨m', hr⟩ := hr
    simp only [hr] at h2
    cases en with
    | exit => exact absurd h2 id
    | freed => exact absurd h2 id
    | steps => exact absurd h2 id
    | done j t =>
      obtain ⟨rfl, _⟩ := h2
      refine ⟨_, rfl, ?_⟩
      have e1 : ∀ a : Nat, (if a = 0 then 0 else 1) = 0 ↔ a = 0 := fun a => by split <;> simp_all
      rw [e1, Nat.zero_add, sum_zero]
      constructor
      · intro h x e he f hfm hb
        have hx := (mem x).mpr ⟨e, he⟩
        rcases (bad_iff c f).mp hb with hb | hb
        · exact hf (List.any_eq_true.mpr ⟨x, hx, List.any_eq_true.mpr ⟨f, hfm, hb⟩⟩)
        · have := h _ (List.mem_map.mpr ⟨x, hx, rfl⟩)
          exact (List.countP_eq_zero.mp this) f hfm hb
      · intro h j hj
        obtain ⟨x, hx, rfl⟩ := List.mem_map.mp hj
        obtain ⟨e, he⟩ := (mem x).mp hx
        exact List.countP_eq_zero.mpr fun f hfm hb => h x e he f hfm ((bad_iff c f).mpr (Or.inr hb))

/-- The settings at the start (framework.jl:47-51). -/
def initial : Config := { action := fun k => if k = .assertion then .signal else .nothing, disabled := fun _ => false }

/-- With the action `exit` for tests. -/
def exits : Config := { initial with action := fun k => if k = .test then .exit else initial.action k }

/-- **C122**, violated: with the action `exit`, which is to leave with status 1, a test that fails makes the status 0; with the action at the start it's 1. -/
theorem C122_exit_violated :
    status exits (fun _ => []) 20 (run {} [.define 3 (.tests [.form .test false])]) = some 0 ∧
      status initial (fun _ => []) 20 (run {} [.define 3 (.tests [.form .test false])]) = some 1 := by decide +kernel

/-- Seventeen modules; the test of module 0 fails; that of module 8 is in library 1, which defines a test for another module too. -/
def modules : List (Op Entry) := (List.range 17).map fun i => .define i (if i = 8 then .auto 1 else .tests [.form .test (i != 0)])

def more : Libs := fun lib => if lib = 1 then [.define 1000 (.tests []), .define 8 (.tests [.form .test true])] else []

/-- **C122**, violated: a module is missed if a library that is loaded defines a test for a module that wasn't registered; the status is 0 though its test fails. -/
theorem C122_missed_violated : Op.define 0 (.tests [.form .test false]) ∈ modules ∧ status initial more 100 (run {} modules) = some 0 := by
  refine ⟨List.mem_map.mpr ⟨0, by decide, rfl⟩, by decide +kernel⟩

/-! ### The hypotheses are met -/

/-- Three modules, two in a library. -/
def three : List (Op Entry) := [.define 1 (.tests [.form .check false, .form .test true]), .define 2 (.auto 7), .define 9 (.auto 7)]
def theirs : Sym → List Form := fun x => if x = 1 then [.form .check false, .form .test true] else if x = 2 then [.form .assertion true] else [.form .test false]
def lib7 : Libs := fun lib => if lib = 7 then [.define 9 (.tests (theirs 9)), .define 2 (.tests (theirs 2))] else []

example : World theirs lib7 three where
  registered := by
    intro o ho
    simp only [three, List.mem_cons, List.not_mem_nil, or_false] at ho
    rcases ho with rfl | rfl | rfl
    · exact ⟨1, Or.inl rfl⟩
    · exact ⟨2, Or.inr ⟨7, rfl, by simp [lib7]⟩⟩
    · exact ⟨9, Or.inr ⟨7, rfl, by simp [lib7]⟩⟩
  defined := by
    intro lib o ho
    simp only [lib7] at ho
    split at ho
    · simp only [List.mem_cons, List.not_mem_nil, or_false] at ho
      rcases ho with rfl | rfl
      · exact ⟨9, rfl, .auto 7, by simp [three]⟩
      · exact ⟨2, rfl, .auto 7, by simp [three]⟩
    · cases ho

example : (∀ k, initial.action k ≠ .exit) ∧ status initial lib7 50 (run {} three) = some 1 := ⟨by intro k; cases k <;> decide, by decide +kernel⟩

end Rep.SelfTest
