import Verif.Peephole.Concrete

/-
C48: the peephole optimiser keeps the meaning of the code.

Full statement: for every list of instructions the compiler emits, the optimised list, run in
any state, does what the original does: it returns the same value with the same effects, raises
the same error, or runs forever.

It is false (`C48_alias_violated` and the theorems after it).  What is proved
(`C48_peephole_partial`): every run of the optimiser in which no rewrite needed something that
does not hold gives code that behaves like the original, on every machine that obeys the laws of
`Machine`, for all code, all states and any number of passes.  The result of the optimiser lists
what its rewrites needed, so this can be read off.
-/

namespace Rep.Peep

/-! ### Specification -/

/-- Errors of no instruction are excluded. -/
def exact : Insn Nat → Bool := fun _ => false

/-- Errors raised by side-effect-free instructions are outside the claim: a run that raises one
may end in any way after optimisation. -/
def modErrors : Insn Nat → Bool := fun _ => true

/-- `c'` does what `c` does, unless `c` runs into undefined behaviour. -/
def SameMeaning (M : Machine) (D : Insn Nat → Bool) (c c' : Code) : Prop :=
  ∀ (stack : List M.V) (w : M.W) (lex spec : Nat),
    let s : St M := ⟨stack, [.binds lex spec], w⟩
    (∀ o, o ≠ .stuck → Ends D c (c, s) o → Ends D c' (c', s) o) ∧
    (∀ o, Ends D c' (c', s) o → Ends D c (c, s) o ∨ Ends D c (c, s) .stuck)

/-- The original is well defined from this state: it does not run into undefined behaviour. -/
def Defined (M : Machine) (D : Insn Nat → Bool) (c : Code) (s : St M) : Prop :=
  ¬ Ends D c (c, s) .stuck

theorem exact_coherent : Coherent exact := ⟨(fun h => nomatch h), (fun h => nomatch h)⟩
theorem modErrors_coherent : Coherent modErrors := ⟨fun _ => ⟨rfl, rfl⟩, fun _ => ⟨rfl, rfl⟩⟩

/-! ### The theorems -/

/-- **C48** for either treatment of errors. -/
theorem C48_peephole_partial (M : Machine) (D : Insn Nat → Bool) (hD : Coherent D) (n : Nat)
    (c : Code) (r : Asm) (hc : (labels c).Nodup) (h : peephole n c = some r)
    (hn : ∀ q ∈ r.needs, q.holds D = true) : SameMeaning M D c r.code := by
  have g := peephole_good (M := M) hD hc h
  have a := g.alike hn
  rw [load_code] at a
  intro stack w lex spec
  exact a _ (by intro l sp hm; simp at hm)

/-- If nothing was needed, the meaning is exactly the same, errors included. -/
theorem C48_exact_partial (M : Machine) (n : Nat) (c : Code) (r : Asm) (hc : (labels c).Nodup)
    (h : peephole n c = some r) (hn : ∀ q ∈ r.needs, q.holds exact = true) :
    SameMeaning M exact c r.code :=
  C48_peephole_partial M exact exact_coherent n c r hc h hn

/-- Where the original is defined, the two codes have exactly the same outcomes; in particular
one terminates if and only if the other does. -/
theorem C48_iff_partial (M : Machine) (D : Insn Nat → Bool) (hD : Coherent D) (n : Nat)
    (c : Code) (r : Asm) (hc : (labels c).Nodup) (h : peephole n c = some r)
    (hn : ∀ q ∈ r.needs, q.holds D = true) (stack : List M.V) (w : M.W) (lex spec : Nat)
    (hd : Defined M D c ⟨stack, [.binds lex spec], w⟩) (o : Out M) :
    Ends D c (c, ⟨stack, [.binds lex spec], w⟩) o ↔
      Ends D r.code (r.code, ⟨stack, [.binds lex spec], w⟩) o := by
  obtain ⟨f, b⟩ := C48_peephole_partial M D hD n c r hc h hn stack w lex spec
  constructor
  · intro he
    exact f o (fun e => hd (e ▸ he)) he
  · intro he
    rcases b o he with h | h
    · exact h
    · exact absurd h hd

/-- The optimiser never defines a label twice, and every label a jump goes to stays below the
next label it would make. -/
theorem C48_labels (n : Nat) (c : Code) (r : Asm) (hc : (labels c).Nodup)
    (h : peephole n c = some r) : (labels r.code).Nodup := by
  have g : Inv r := (peephole_good (M := M0) modErrors_coherent hc h).inv
  unfold Asm.code
  rw [labels_map]
  exact g.nodup

/-! ### Examples -/

/-- A world for the examples: slots 0 to 3 hold `t`, slot 4 holds `()`, slot 5 `#f`, slot 6 a
number; global variable 0 is void. -/
def w0 : W0 := ⟨[.int 10, .int 11], fun x => if x ≤ 3 then .obj 2 else if x = 5 then .obj 0
  else if x = 6 then .int 41 else .nil, fun x => if x = 0 then none else some (.int 7), []⟩

def s0 : St M0 := ⟨[], [.binds 0 0], w0⟩

/-- What a run returns: `some (some v)` a value, `some none` an error, `none` no result. -/
def result (D : Insn Nat → Bool) (c : Code) : Option (Option V0) :=
  match interp (M := M0) D c 100 (c, s0) with
  | some (.ret v _) => some (some v)
  | some (.exn _ _) => some none
  | _ => none

/-- The code after optimisation. -/
def optimised (c : Code) : Option Code := (peephole 60 c).map Asm.code

/-- Were all rewrites right? -/
def clean (D : Insn Nat → Bool) (c : Code) : Bool :=
  match peephole 60 c with
  | some r => r.needs.all (·.holds D)
  | none => false

theorem result_ends {D : Insn Nat → Bool} {c : Code} {x : Option V0} (h : result D c = some x) :
    ∃ o : Out M0, Ends D c (c, s0) o ∧ o ≠ .stuck ∧
      ((∃ v w, x = some v ∧ o = .ret v w) ∨ (∃ e w, x = none ∧ o = .exn e w)) := by
  unfold result at h
  cases hi : interp (M := M0) D c 100 (c, s0) with
  | none => rw [hi] at h; cases h
  | some o =>
    rw [hi] at h
    refine ⟨o, interp_ends _ _ _ hi, ?_⟩
    cases o with
    | stuck => cases h
    | ret v w => cases h; exact ⟨nofun, .inl ⟨v, w, rfl, rfl⟩⟩
    | exn e w => cases h; exact ⟨nofun, .inr ⟨e, w, rfl, rfl⟩⟩

/-- Different results show that the meaning has changed. -/
theorem result_differs {D : Insn Nat → Bool} {c c' : Code} {x y : Option V0} (hx : result D c = some x)
    (hy : result D c' = some y) (hxy : x ≠ y) : ¬ SameMeaning M0 D c c' := by
  intro h
  obtain ⟨o, ho, hs, ho'⟩ := result_ends hx
  obtain ⟨o2, ho2, _, ho2'⟩ := result_ends hy
  have := ((h [] w0 0 0).1 o hs ho).det ho2
  subst this
  apply hxy
  rcases ho' with ⟨v, w, rfl, rfl⟩ | ⟨e, w, rfl, rfl⟩ <;>
    rcases ho2' with ⟨v', w', rfl, e'⟩ | ⟨e2, w', rfl, e'⟩ <;> cases e' <;> rfl

/-- The optimiser turns `c` into code with another result. -/
theorem violated {D : Insn Nat → Bool} {c c' : Code} {x y : Option V0} (ho : optimised c = some c')
    (hx : result D c = some x) (hy : result D c' = some y) (hxy : x ≠ y) :
    ∃ r, peephole 60 c = some r ∧ ¬ SameMeaning M0 D c r.code := by
  unfold optimised at ho
  cases hp : peephole 60 c with
  | none => rw [hp] at ho; cases ho
  | some r =>
    rw [hp] at ho
    cases ho
    exact ⟨r, rfl, result_differs hx hy hxy⟩

/-- `(let ((x (+ s6 1))) (if (not x) (car (cdr s0)) x))`: many rules apply, no rewrite needs
anything. -/
def demo : Code :=
  [.ref .slot 6, .push (.int 1), .bin .add, .initBind, .bind, .ref .n 0, .un .not, .jump .jn 1,
   .ref .slot 0, .un .cdr, .un .car, .jump .jmp 2, .label 1, .ref .n 0, .label 2, .unbind, .ret]

example : (labels demo).Nodup := by decide
example : optimised demo = some
    [.ref .slot 6, .un .inc, .initBind, .dup, .bind, .jump .jt 1, .ref .slot 0, .un .cadr,
     .ret, .label 1, .ref .n 0, .ret] := by decide +kernel
example : clean exact demo = true := by decide +kernel
example : result exact demo = some (some (.int 42)) := by decide +kernel
example : ((optimised demo).bind (result exact)) = some (some (.int 42)) := by decide +kernel

/-- A loop with an error handler, `(while (f) ...)` inside `condition-case`: labels are merged,
deleted and inserted, jumps are retargeted (`jnp` whose destination is a conditional jump). -/
def demo2 : Code :=
  [.handler 9, .label 1, .label 2, .ref .slot 4, .jump .jnp 3, .ref .slot 1, .label 3, .jump .jtp 4,
   .eff 0, .jump .jmp 1, .label 4, .unbind, .ret, .label 9, .push (.int 3), .ret]

example : clean exact demo2 = true := by decide +kernel
example : (labels demo2).Nodup := by decide
example : optimised demo2 ≠ some demo2 := by decide +kernel

/-- Rewrites whose needs hold only if errors do not count. -/
def demo3 : Code := [.ref .slot 6, .push (.int 0), .bin .add, .ref .g 1, .pop, .ret]

example : clean exact demo3 = false ∧ clean modErrors demo3 = true := by decide +kernel
example : optimised demo3 = some [.ref .slot 6, .ret] := by decide +kernel

/-- The theorem applies to the examples. -/
example : ∃ r, peephole 60 demo = some r ∧ SameMeaning M0 exact demo r.code := by
  have hc : clean exact demo = true := by decide +kernel
  unfold clean at hc
  cases hp : peephole 60 demo with
  | none => rw [hp] at hc; cases hc
  | some r =>
    rw [hp] at hc
    exact ⟨r, rfl, C48_exact_partial M0 60 demo r (by decide) hp
      (fun q hq => List.all_eq_true.1 hc q hq)⟩

/-! ### Wrong code -/

/-- What the compiler emits for `(if (if a (and b c) d) 1 2)` (rep.jl:550-623). -/
def alias : Code :=
  [.ref .slot 0, .jump .jn 1, .ref .slot 1, .jump .jnp 2, .ref .slot 2, .label 2, .jump .jmp 3,
   .label 1, .ref .slot 3, .label 3, .jump .jn 4, .push (.int 1), .jump .jmp 5, .label 4,
   .push (.int 2), .label 5, .ret]

/-- The first pass makes `jnp` share the argument cell of the `jmp` it is threaded through; the
second one stores the destination of the following conditional jump into that cell, so that the
`jmp` goes there as well: with `a`, `b` and `c` true the optimised code evaluates the else
branch. -/
theorem C48_alias_violated :
    result exact alias = some (some (.int 1)) ∧
    (optimised alias).bind (result exact) = some (some (.int 2)) ∧
    (∃ r, peephole 60 alias = some r ∧ ¬ SameMeaning M0 exact alias r.code) ∧
    (∃ r, peephole 60 alias = some r ∧ ¬ SameMeaning M0 modErrors alias r.code) :=
  ⟨by decide +kernel, by decide +kernel,
    violated (c' := [.ref .slot 0, .jump .jn 1, .ref .slot 1, .jump .jn 4, .ref .slot 2, .jump .jmp 4,
      .label 1, .ref .slot 3, .jump .jn 4, .push (.int 1), .ret, .label 4, .push (.int 2), .ret])
      (x := some (.int 1)) (y := some (.int 2))
      (by decide +kernel) (by decide +kernel) (by decide +kernel) (by decide),
    violated (c' := [.ref .slot 0, .jump .jn 1, .ref .slot 1, .jump .jn 4, .ref .slot 2, .jump .jmp 4,
      .label 1, .ref .slot 3, .jump .jn 4, .push (.int 1), .ret, .label 4, .push (.int 2), .ret])
      (x := some (.int 1)) (y := some (.int 2))
      (by decide +kernel) (by decide +kernel) (by decide +kernel) (by decide)⟩

/-- `jtp X; ... X: jpn Y` becomes `jpt Z; ... X: jpn Y; Z:`, but `jpt` pops the value when it
jumps. -/
theorem C48_jtp_jpn_violated :
    ∃ r, peephole 60 [.push (.int 5), .ref .slot 0, .jump .jtp 1, .ref .slot 1, .label 1,
        .jump .jpn 2, .ret, .label 2, .push (.int 9), .ret] = some r ∧
      ¬ SameMeaning M0 modErrors [.push (.int 5), .ref .slot 0, .jump .jtp 1, .ref .slot 1, .label 1,
        .jump .jpn 2, .ret, .label 2, .push (.int 9), .ret] r.code :=
  violated (c' := [.push (.int 5), .ref .slot 0, .jump .jpt 3, .ref .slot 1, .jump .jpn 2, .label 3,
      .ret, .label 2, .push (.int 9), .ret]) (x := some (.obj 2)) (y := some (.int 5))
    (by decide +kernel) (by decide +kernel) (by decide +kernel) (by decide)

/-- `test-scm-f; scm-test` is deleted, but `#f` is false for the one and true for the other. -/
theorem C48_scm_test_violated :
    ∃ r, peephole 60 [.ref .slot 5, .un .testScmF, .un .scmTest, .jump .jn 1, .push (.int 1), .ret,
        .label 1, .push (.int 2), .ret] = some r ∧
      ¬ SameMeaning M0 modErrors [.ref .slot 5, .un .testScmF, .un .scmTest, .jump .jn 1,
        .push (.int 1), .ret, .label 1, .push (.int 2), .ret] r.code :=
  violated (c' := [.ref .slot 5, .jump .jn 1, .push (.int 1), .ret, .label 1, .push (.int 2), .ret])
    (x := some (.int 2)) (y := some (.int 1))
    (by decide +kernel) (by decide +kernel) (by decide +kernel) (by decide)

/-- Errors get lost: `(+ x 0)` of something that is not a number, an unbound variable whose
value is not used, an unbound variable assigned to itself. -/
theorem C48_errors_violated :
    (∃ r, peephole 60 [.ref .slot 0, .push (.int 0), .bin .add, .ret] = some r ∧
      ¬ SameMeaning M0 exact [.ref .slot 0, .push (.int 0), .bin .add, .ret] r.code) ∧
    (∃ r, peephole 60 [.ref .g 0, .pop, .push (.int 1), .ret] = some r ∧
      ¬ SameMeaning M0 exact [.ref .g 0, .pop, .push (.int 1), .ret] r.code) ∧
    (∃ r, peephole 60 [.ref .g 0, .set .g 0, .push (.int 1), .ret] = some r ∧
      ¬ SameMeaning M0 exact [.ref .g 0, .set .g 0, .push (.int 1), .ret] r.code) :=
  ⟨violated (c' := [.ref .slot 0, .ret]) (x := none) (y := some (.obj 2))
      (by decide +kernel) (by decide +kernel) (by decide +kernel) (by decide),
   violated (c' := [.push (.int 1), .ret]) (x := none) (y := some (.int 1))
      (by decide +kernel) (by decide +kernel) (by decide +kernel) (by decide),
   violated (c' := [.push (.int 1), .ret]) (x := none) (y := some (.int 1))
      (by decide +kernel) (by decide +kernel) (by decide +kernel) (by decide)⟩

section
variable (tgt : Nat → Nat) (gs : Nat) (keep extra err : Bool) (needs : List Need)

theorem loop1 (ht : tgt 1 = 0) :
    firstRule ⟨tgt, [], [.label 0, .jump .jnp 1, .ret], gs, keep, extra, err, needs⟩ rules =
      ⟨tgt, [], [.label 0, .jump .jnp 1, .ret], gs, keep, extra, err, needs⟩ := by
  simp [rules, firstRule, lift, rSefPop, rValSetRef, rSetRef, rDupSetPop, rRefRef, rRefSet, rCxr,
    rScm, rIncDec, rAddZero, rZerop, rNotZerop, rJmpLabel, rJnLabel, rJpPop, rNotJump, rJtNil, rFlip,
    rPushJump, rOpUnbind, rBindUnbind, rInitUnbind, rInitRet, rUnbindRet, rRefDups, rMerge, rUnused,
    rDead, rThread, rJmpRet, rRetarget, Insn.ends, used, Insn.target, ht]

theorem loop2 (ht : tgt 1 = 0) :
    firstRule ⟨tgt, [.label 0], [.jump .jnp 1, .ret], gs, keep, extra, err, needs⟩ rules =
      ⟨upd tgt 1 0, [.label 0], [.jump .jnp 1, .ret], gs, true, extra, err, needs⟩ := by
  simp [rules, firstRule, lift, rSefPop, rValSetRef, rSetRef, rDupSetPop, rRefRef, rRefSet, rCxr,
    rScm, rIncDec, rAddZero, rZerop, rNotZerop, rJmpLabel, rJnLabel, rJpPop, rNotJump, rJtNil, rFlip,
    rPushJump, rOpUnbind, rBindUnbind, rInitUnbind, rInitRet, rUnbindRet, rRefDups, rMerge, rUnused,
    rDead, rThread, rJmpRet, rRetarget, Insn.ends, ht, findL, retargeted, retarget, JK.cond,
    sharing, Insn.target]

theorem loop3 :
    firstRule ⟨tgt, [.label 0, .jump .jnp 1], [.ret], gs, keep, extra, err, needs⟩ rules =
      ⟨tgt, [.label 0, .jump .jnp 1], [.ret], gs, keep, extra, err, needs⟩ := by
  simp [rules, firstRule, lift, rSefPop, rValSetRef, rSetRef, rDupSetPop, rRefRef, rRefSet, rCxr,
    rScm, rIncDec, rAddZero, rZerop, rNotZerop, rJmpLabel, rJnLabel, rJpPop, rNotJump, rJtNil, rFlip,
    rPushJump, rOpUnbind, rBindUnbind, rInitUnbind, rInitRet, rUnbindRet, rRefDups, rMerge, rUnused,
    rDead, rThread, rJmpRet, rRetarget]

theorem loop_pass (ht : tgt 1 = 0) (n : Nat) :
    pass rules n ⟨tgt, [], [.label 0, .jump .jnp 1, .ret], gs, keep, extra, err, needs⟩ = none ∨
    pass rules n ⟨tgt, [], [.label 0, .jump .jnp 1, .ret], gs, keep, extra, err, needs⟩ =
      some ⟨upd tgt 1 0, [.label 0, .jump .jnp 1, .ret], [], gs, true, extra, err, needs⟩ := by
  match n with
  | 0 => exact .inl rfl
  | 1 => left; simp only [pass, loop1 _ _ _ _ _ _ ht, shift]
  | 2 =>
    left
    simp only [pass, loop1 _ _ _ _ _ _ ht, shift, List.nil_append, loop2 _ _ _ _ _ _ ht]
  | 3 =>
    left
    simp only [pass, loop1 _ _ _ _ _ _ ht, shift, List.nil_append, loop2 _ _ _ _ _ _ ht,
      List.cons_append, loop3]
  | n + 4 =>
    right
    simp only [pass, loop1 _ _ _ _ _ _ ht, shift, List.nil_append, loop2 _ _ _ _ _ _ ht,
      List.cons_append, loop3]

end

/-- `X: jnp X` keeps the optimiser busy forever: however many passes are allowed, it does not
finish.  (The compiler does not emit this by itself.) -/
theorem C48_loops (n : Nat) : peephole n [.label 0, .jump .jnp 0, .ret] = none := by
  have key : ∀ n (s : Asm), s.pre ++ s.rest = [.label 0, .jump .jnp 1, .ret] → s.tgt 1 = 0 →
      passes n s = none := by
    intro n
    induction n with
    | zero => intro s _ _; rfl
    | succ n ih =>
      intro s hc ht
      rw [passes]
      have e : rewind s = ⟨s.tgt, [], [.label 0, .jump .jnp 1, .ret], s.gs, false, s.extra, s.err,
          s.needs⟩ := by
        rw [← hc]; rfl
      rw [e]
      rcases loop_pass s.tgt s.gs false s.extra s.err s.needs ht (n + 1) with h | h
      · rw [h]
      · rw [h]
        exact ih _ rfl rfl
  unfold peephole
  rw [key n (load _) rfl rfl]

end Rep.Peep
