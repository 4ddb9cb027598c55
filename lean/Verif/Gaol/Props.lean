import Verif.Gaol.Secrecy
import Verif.Gaol.Claim

/-
C63: restricted code and special variables.
-/

namespace Rep.Gaol

/-! Structures for the examples: 0 is unrestricted, 1 is the user's, 2 and 3 are restricted. -/

def noVars : Sym → Option Val := fun _ => none

/-- What the user's structure imports: the variable 7 (such as `system`). -/
def userImports : Sym → Option Val := fun v => if v = 7 then some (.atom 77) else none

def strucs : Sid → Struc := fun t =>
  if t = 0 then ⟨.all, fun v => if v = 9 then some (.atom 99) else none, noVars, false⟩
  else if t = 1 then ⟨.all, noVars, userImports, true⟩
  else ⟨.only [5], noVars, noVars, false⟩

/-- The variable 4 has been declared by unrestricted code, and has the value 44; nobody knows 6 and 8. -/
def start : St where
  flags := fun v => if v = 4 ∨ v = 5 then { special := true, defvar := true } else {}
  globals := fun v => if v = 4 then some (.atom 44) else if v = 5 then some (.atom 55) else none
  binds := []
  lex := []
  plist := fun _ => []
  struc := strucs
  user := some 1

abbrev read (v : Sym) : Cmd := .op (.symbolValue v)

/-- C63.  Once unrestricted code has declared a variable, it stays so, and who may use it does not change,
whatever code runs. -/
theorem C63_stays_protected (c : Cmd) (t : Sid) (s : St) (v : Sym) (h : Owned s v) :
    Owned (run c t s).2.2 v ∧ ∀ t', MayUse (run c t s).2.2 t' v ↔ MayUse s t' v :=
  ⟨h.keep (keep_run c t s h), fun _ => (keep_run c t s h).mayUse⟩

example : Owned start 4 ∧ MayUse start 0 4 ∧ ¬ MayUse start 2 4 ∧ MayUse start 2 5 := by
  refine ⟨⟨by decide, by decide, by decide⟩, .inl rfl, ?_, .inr ⟨?_, by decide⟩⟩
  · rintro (h | ⟨h, -⟩)
    · exact nomatch (show SpecEnv.only [5] = .all from h)
    · exact absurd (show (4 : Nat) ∈ [5] from h) (by decide)
  · show (5 : Nat) ∈ [5]
    decide

/-- C63.  Secrecy: code running in structures that may not use the variable sees the same, and does the
same, whatever its value is.  (Whether it has a value is not a secret: `default-boundp` tells it.) -/
theorem C63_secrecy (c : Cmd) (t : Sid) (s₁ s₂ : St) (v : Sym) (h : Owned s₁ v) (hs : SameBut v s₁ s₂)
    (hc : c.Ops (fun t o => o.sym = v → ¬ MayUse s₁ t v) t) :
    (run c t s₁).1 = (run c t s₂).1 ∧ (run c t s₁).2.1 = (run c t s₂).2.1 ∧
      SameBut v (run c t s₁).2.2 (run c t s₂).2.2 :=
  SameBut.run c t s₁ s₂ hs h hc

example : SameBut 4 start { start with globals := fun v => if v = 4 then some (.atom 0) else start.globals v } :=
  ⟨rfl, rfl, rfl, rfl, rfl, fun u h => by simp [h], rfl, .nil⟩

/-- C63.  Integrity: if only code in structures that may not use the variable assigns to it (or binds it
without having it in its list), it keeps its value, and those who may use it see that value all the time.
Missing from the full property: a variable that has no value (`C63_unbound_violated`) or that is bound by
code that has put it into its own list (`C63_let_violated`). -/
theorem C63_integrity_partial (c : Cmd) (t : Sid) (s : St) (v : Sym) (x : Val) (h : Owned s v)
    (hx : dynRef s v = some x)
    (ho : c.Ops (fun t o => MayUse s t v → ¬ o.assigns v) t)
    (hl : c.Lets (fun t u => u = v → ¬ Listed s t v) t) :
    dynRef (run c t s).2.2 v = some x ∧ SeesOnly (fun t => MayUse s t v) v x (run c t s).1 :=
  ⟨by rw [(same_run c t s h (by rw [hx]; rfl) ho).dynRef]; exact hx, sees_run c t s h hx ho hl⟩

/-- Restricted code tries to assign and bind the variable, and calls a function that reads it. -/
def attempts : Cmd :=
  .seq (.guarded (.op (.set 4 (.atom 1)))) (.seq (.guarded (.op (.defvar 4 (.atom 2) none)))
    (.seq (.guarded (.letIn 4 (.atom 3) (.call 0 (read 4)))) (.call 0 (read 4))))

example : attempts.Ops (fun t o => MayUse start t 4 → ¬ o.assigns 4) 2 ∧
    attempts.Lets (fun t u => u = 4 → ¬ Listed start t 4) 2 := by
  have h2 : ¬ MayUse start 2 4 := by
    rintro (h | ⟨h, -⟩)
    · exact nomatch (show SpecEnv.only [5] = .all from h)
    · exact absurd (show (4 : Nat) ∈ [5] from h) (by decide)
  refine ⟨⟨fun h => absurd h h2, fun h => absurd h h2, fun _ h => h, fun _ h => h⟩, trivial, trivial, ⟨?_, trivial⟩, trivial⟩
  intro _ h
  exact absurd (show (4 : Nat) ∈ [5] from h) (by decide)

example : (run attempts 2 start).1.getLast? = some ⟨0, .symbolValue 4, .val (some (.atom 44))⟩ := by decide +kernel

/-- C63.  A value that restricted code gives to a variable in advance does not survive the (interpreted)
declaration by unrestricted code: whatever restricted code did before, and does afterwards, unrestricted
code sees the value of its own declaration.
Missing: variables that unrestricted code has already in a structure (`C63_taken_variable_violated`), and
the declarations in compiled files (`C63_compiled_defvar_violated`). -/
theorem C63_declaration_wins_partial (c₁ c₂ : Cmd) (t₁ t₂ t : Sid) (s : St) (v : Sym) (x : Val) (doc : Option Val)
    (hf : s.flags v = {}) (hl : ∀ t, ¬ Unrestricted s t → ¬ Listed s t v) (hb : search s.binds v = none)
    (hu : ∀ w, s.user = some w → Unrestricted s w ∧ sref (s.struc w) v = none)
    (ht : Unrestricted s t) (hr : sref (s.struc t) v = none)
    (h₁ : c₁.Ops (fun t _ => ¬ Unrestricted s t) t₁) (h₂ : c₂.Ops (fun t _ => ¬ Unrestricted s t) t₂) :
    let s₁ := (run c₁ t₁ s).2.2
    let s₂ := (run (.call t (.op (.defvar v x doc))) t₁ s₁).2.2
    let s₃ := (run c₂ t₂ s₂).2.2
    (run (.call t (.op (.symbolValue v))) t₂ s₃).1 = [⟨t, .symbolValue v, .val (some x)⟩] := by
  intro s₁ s₂ s₃
  have hun : Unowned s v := .inl ⟨hf, fun t ht => by
    have := hl t ht
    rwa [listed_iff, not_not] at this⟩
  obtain ⟨a1, a2, a3⟩ := unowned_run c₁ t₁ s hun h₁
  have hk := (run_keys c₁ t₁ s).1
  have hb1 : search s₁.binds v = none := search_none_of_keys hk.symm hb
  have hu1 : s₁.user = s.user := run_user c₁ t₁ s
  obtain ⟨d1, d2, d3⟩ := defvar_takes (s := { s₁ with lex := [] }) (t := t) (v := v) (x := x) (doc := doc) a1
    ((a2 t).mpr ht) (a3 t ht hr) (fun w hw => a3 w (hu w (hu1 ▸ hw)).1 (hu w (hu1 ▸ hw)).2) hb1
  have hs2 : s₂ = { (defvar { s₁ with lex := [] } t v x doc).2 with lex := s₁.lex } := rfl
  have o2 : Owned s₂ v := by rw [hs2]; exact d1
  have m2 : ∀ t', MayUse s₂ t' v ↔ Unrestricted s t' := by
    intro t'
    rw [hs2]
    exact (d3 t').trans (a2 t')
  have v2 : dynRef s₂ v = some x := by rw [hs2]; exact d2
  have k := keep_run (v := v) c₂ t₂ s₂ o2
  have q := same_run (v := v) c₂ t₂ s₂ o2 (by rw [v2]; rfl)
    (h₂.mono fun t' o hp hm => absurd ((m2 t').mp hm) hp)
  have hv3 : symbolValue { s₃ with lex := [] } t v = some x := by
    rw [symbolValue_mayUse (s := { s₃ with lex := [] }) (o2.keep k).1 (k.mayUse.mpr ((m2 t).mpr ht))]
    show dynRef s₃ v = some x
    rw [q.dynRef]
    exact v2
  simp only [run, step, hv3, signalVoid]

/-- The exploit described in the comment of `defvar` (symbols.c:800-813). -/
def exploit : Cmd := .op (.defvar 6 (.atom 666) none)

example : exploit.Ops (fun t _ => ¬ Unrestricted start t) 2 ∧ (∀ t, ¬ Unrestricted start t → ¬ Listed start t 6) ∧
    sref (start.struc 1) 6 = none ∧ sref (start.struc 0) 6 = none ∧
    (run (.seq exploit (read 6)) 2 start).1.getLast? = some ⟨2, .symbolValue 6, .val (some (.atom 666))⟩ ∧
    (run (.seq exploit (.seq (.call 0 (.op (.defvar 6 (.atom 1) none))) (.op (.set 6 (.atom 666))))) 2 start).1.getLast?
      = some ⟨2, .set 6 (.atom 666), .err⟩ := by
  refine ⟨(fun h => nomatch (show SpecEnv.only [5] = .all from h)), ?_, by decide, by decide, by decide +kernel, by decide +kernel⟩
  intro t ht hl
  unfold Unrestricted at ht
  unfold Listed at hl
  by_cases h0 : t = 0
  · subst h0; exact ht rfl
  · by_cases h1 : t = 1
    · subst h1; exact ht rfl
    · have he : (start.struc t).env = .only [5] := by
        show (strucs t).env = _
        simp [strucs, h0, h1]
      rw [he] at hl
      exact absurd (show (6 : Nat) ∈ [5] from hl) (by decide)

/-- C63.  Restricted code does not change the property list of a symbol that it does not have in its list. -/
theorem C63_properties (c : Cmd) (t : Sid) (s : St) (v : Sym) (h : Owned s v)
    (hc : c.Ops (fun t o => o.sym = v → ¬ Listed s t v) t) : (run c t s).2.2.plist v = s.plist v :=
  plist_run c t s h hc

example : (run (.guarded (.op (.put 4 1 (.atom 1)))) 2 start).2.2.plist 4 = [] := by decide +kernel

/-- C63.  Code that runs in other structures does not change an ordinary variable of a structure, unless it
declares the symbol special (`C63_taken_variable_violated`). -/
theorem C63_ordinary_partial (c : Cmd) (t t' : Sid) (s : St) (v : Sym) (hs : (s.flags v).special = false)
    (hc : c.Ops (fun t' o => t' ≠ t ∧ ¬ o.declares v) t') :
    (run (.call t (.op (.symbolValue v))) t' (run c t' s).2.2).1 = (run (.call t (.op (.symbolValue v))) t' s).1 := by
  obtain ⟨h1, h2⟩ := own_run (t := t) c t' s hs hc
  simp only [run, step, symbolValue, h1, hs, search]
  simp only [Bool.false_eq_true, if_false, h2]

example : (run (.call 0 (read 9)) 2 (run (.seq (.op (.define 9 (.atom 1))) (.letIn 9 (.atom 3) (.op (.set 9 (.atom 2))))) 2 start).2.2).1
    = [⟨0, .symbolValue 9, .val (some (.atom 99))⟩] := by decide +kernel

/-- C63 fails for compiled files: what the compiler makes of `defvar` does not replace the value that
restricted code has given in advance, and leaves the variable to that code. -/
theorem C63_compiled_defvar_violated :
    let prog : Cmd := .seq exploit (.seq (.call 0 (.op (.compiledDefvar 6 (.atom 1))))
      (.seq (.call 0 (read 6)) (.seq (.op (.set 6 (.atom 667))) (.call 0 (read 6)))))
    (run prog 2 start).1.filter (fun e => e.who = 0 ∧ e.op = .symbolValue 6) =
      [⟨0, .symbolValue 6, .val (some (.atom 666))⟩, ⟨0, .symbolValue 6, .val (some (.atom 667))⟩] := by
  decide +kernel

/-- C63 fails for variables of compiled files: restricted code gets one by declaring it, and can read and
assign it. -/
theorem C63_compiled_variable_violated :
    let prog : Cmd := .seq (.call 0 (.op (.compiledDefvar 8 (.atom 88)))) (.seq (.op (.defvar 8 (.atom 0) none))
      (.seq (read 8) (.seq (.op (.set 8 (.atom 666))) (.call 0 (read 8)))))
    (run prog 2 start).1.filter (fun e => decide (e.op = .symbolValue 8)) =
      [⟨2, .symbolValue 8, .val (some (.atom 88))⟩, ⟨0, .symbolValue 8, .val (some (.atom 666))⟩] := by
  decide +kernel

/-- C63 fails for the variables and functions that the user's structure has or imports (such as `system`):
restricted code gets one by declaring it special. -/
theorem C63_user_function_violated :
    (run (read 7) 2 start).1 = [⟨2, .symbolValue 7, .err⟩] ∧
    (run (.seq (.op (.defvar 7 (.atom 0) none)) (read 7)) 2 start).1.getLast? =
      some ⟨2, .symbolValue 7, .val (some (.atom 77))⟩ := by
  decide +kernel

/-- C63 fails for the ordinary variables and functions of interpreted code: by declaring the symbol special,
restricted code replaces them in every structure. -/
theorem C63_taken_variable_violated :
    (run (.call 0 (read 9)) 2 start).1 = [⟨0, .symbolValue 9, .val (some (.atom 99))⟩] ∧
    (run (.seq (.op (.defvar 9 (.atom 666) none)) (.call 0 (read 9))) 2 start).1.getLast? =
      some ⟨0, .symbolValue 9, .val (some (.atom 666))⟩ := by
  decide +kernel

/-- C63 fails for `let`: restricted code cannot assign to a variable that has been taken from it, but can
bind it, and functions it calls see that value. -/
theorem C63_let_violated :
    let before : Cmd := .seq exploit (.call 0 (.op (.defvar 6 (.atom 1) none)))
    let s := (run before 2 start).2.2
    Owned s 6 ∧ ¬ MayUse s 2 6 ∧ dynRef s 6 = some (.atom 1) ∧
    (run (.letIn 6 (.atom 666) (.call 0 (read 6))) 2 s).1 = [⟨0, .symbolValue 6, .val (some (.atom 666))⟩] := by
  refine ⟨⟨by decide +kernel, by decide +kernel, by decide +kernel⟩, ?_, by decide +kernel, by decide +kernel⟩
  rw [← readable_iff]
  decide +kernel

/-- C63 fails for a variable without a value: restricted code from which it has been taken gives it one by
declaring it again. -/
theorem C63_unbound_violated :
    let before : Cmd := .seq exploit (.call 0 (.seq (.op (.defvar 6 (.atom 1) none)) (.op (.makunbound 6))))
    let s := (run before 2 start).2.2
    Owned s 6 ∧ ¬ MayUse s 2 6 ∧
    (run (.seq (.op (.defvar 6 (.atom 666) none)) (.call 0 (read 6))) 2 s).1.getLast? =
      some ⟨0, .symbolValue 6, .val (some (.atom 666))⟩ := by
  refine ⟨⟨by decide +kernel, by decide +kernel, by decide +kernel⟩, ?_, by decide +kernel⟩
  rw [← readable_iff]
  decide +kernel

/-- C63 fails for property lists: `symbol-plist` refuses, `get` does not. -/
theorem C63_get_violated :
    let s := (run (.op (.put 4 1 (.atom 123))) 0 start).2.2
    (run (.op (.symbolPlist 4)) 2 s).1 = [⟨2, .symbolPlist 4, .err⟩] ∧
    (run (.op (.get 4 1)) 2 s).1 = [⟨2, .get 4 1, .val (some (.atom 123))⟩] := by
  decide +kernel

/-- C63 fails for what the safe function `add-hook` does on behalf of restricted code: it runs in its own
structure and changes any variable. -/
theorem C63_add_hook_violated :
    (run (.seq (.call 0 (.op (.addHook 4 (.atom 666) (.atom 0)))) (.call 0 (read 4))) 2 start).1.getLast? =
      some ⟨0, .symbolValue 4, .val (some (.cons (.atom 666) (.atom 44)))⟩ := by
  decide +kernel

end Rep.Gaol
