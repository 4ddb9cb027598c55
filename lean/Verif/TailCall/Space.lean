import Verif.TailCall.Props

/-
C91: the memory that tail calls take.
-/

namespace Rep.TailCall

variable {V : Type}

/-- The number of elements of all blocks. -/
def total (m : Mem V) : Nat := (m.map List.length).sum

theorem poke_total {m m' : Mem V} {p : Option Nat} {i : Nat} {x : V} (h : poke m p i x = some m') :
    total m' = total m := by
  cases p with
  | none => simp [poke] at h
  | some b =>
    simp only [poke, Option.bind_eq_bind, Option.bind_some] at h
    cases hl : m[b]? with
    | none => simp [hl] at h
    | some l =>
      simp only [hl, Option.bind_some] at h
      split at h
      · cases h
        obtain ⟨hb, hl⟩ := List.getElem?_eq_some_iff.1 hl
        unfold total
        rw [List.map_set, List.length_set]
        congr 1
        apply List.ext_getElem (by simp)
        intro j h1 h2
        by_cases hj : b = j
        · subst hj
          simp [hl]
        · simp [hj]
      · cases h

theorem pokes_total {m m' : Mem V} {p : Option Nat} {i : Nat} {xs : List V}
    (h : pokes m p i xs = some m') : total m' = total m := by
  induction xs generalizing m i with
  | nil =>
    simp only [pokes, Option.some.injEq] at h
    rw [h]
  | cons x xs ih =>
    simp only [pokes, Option.bind_eq_bind] at h
    cases h1 : poke m p i x with
    | none => simp [h1] at h
    | some m1 =>
      simp only [h1, Option.bind_some] at h
      rw [ih h, poke_total h1]

theorem alloca_total (m : Mem V) (n : Nat) : total (m ++ [List.replicate n none]) = total m + n := by
  simp [total]

theorem raise {a b k : Nat} (h : a < b) : a * k + k ≤ b * k := by
  rw [← Nat.succ_mul]
  exact Nat.mul_le_mul_right k h

/-- What has been allocated is paid for by the sizes that the machine has. -/
structure Paid (W B S A : Nat) (s : Vm V) : Prop where
  used : s.used ≤ (s.vreq + s.bsize + 1) * (W + 1) + (s.breq + 1) * (B + 1) + (s.sreq + 1) * S
  v : s.vreq ≤ W
  a : s.bsize ≤ W
  b : s.breq ≤ B
  sl : s.sreq ≤ S
  mem : total s.mem ≤ A + s.used

theorem again_paid {W B S A : Nat} {t : V} {s s' : Vm V} (h : Paid W B S A s)
    (e : again t s = some s') : Paid W B S A s' := by
  simp only [again, Option.bind_eq_bind] at e
  cases h1 : poke s.mem s.stack 0 t with
  | none => simp [h1] at e
  | some m =>
    simp only [h1, Option.bind_some, Option.some.injEq] at e
    subst e
    exact ⟨h.used, h.v, h.a, h.b, h.sl, by simpa [poke_total h1] using h.mem⟩

theorem doTail_paid {W B S A : Nat} {t : V} {r : Req} {s s' : Vm V} (h : Paid W B S A s)
    (hb : r.b ≤ B) (hs : r.s ≤ S) (e : doTail t r s = some s') : Paid W B S A s' := by
  have h1 : Paid W B S A
      (if s.breq < r.b then { s with breq := r.b, used := s.used + (r.b + 1) } else s) := by
    split
    · rename_i hlt
      have := raise (k := B + 1) (show s.breq + 1 < r.b + 1 by omega)
      have hu := h.used
      have hm := h.mem
      refine ⟨?_, h.v, h.a, hb, h.sl, ?_⟩
      · simp only
        omega
      · simp only
        omega
    · exact h
  have h2 : ∀ s1 : Vm V, Paid W B S A s1 → Paid W B S A
      (if s1.sreq < r.s then { s1 with sreq := r.s, used := s1.used + r.s } else s1) := by
    intro s1 h
    split
    · rename_i hlt
      have := raise (k := S) (show s1.sreq + 1 < r.s + 1 by omega)
      have hu := h.used
      have hm := h.mem
      refine ⟨?_, h.v, h.a, h.b, hs, ?_⟩
      · simp only
        omega
      · simp only
        omega
    · exact h
  exact again_paid (h2 _ h1) e

theorem push_paid {W B S A : Nat} {x : V} {s s' : Vm V} (h : Paid W B S A s)
    (e : push x s = some s') : Paid W B S A s' := by
  simp only [push, Option.bind_eq_bind] at e
  cases h1 : poke s.mem s.stack (s.sp + 1) x with
  | none => simp [h1] at e
  | some m =>
    simp only [h1, Option.bind_some, Option.some.injEq] at e
    subst e
    exact ⟨h.used, h.v, h.a, h.b, h.sl, by simpa [poke_total h1] using h.mem⟩

theorem step_paid {W B S A : Nat} {k : Lisp V} {e : Ev V} {s s' : Vm V} (h : Paid W B S A s)
    (hr : ∀ r ∈ reqs [e], r.v ≤ W ∧ r.b ≤ B ∧ r.s ≤ S) (ha : ∀ n ∈ applied [e], n ≤ W)
    (he : step k s e = some s') : Paid W B S A s' := by
  have hu := h.used
  have hm := h.mem
  cases e with
  | push x => exact push_paid h he
  | pop =>
    simp only [step, pop] at he
    split at he
    · cases he
    · cases he
      exact ⟨h.used, h.v, h.a, h.b, h.sl, h.mem⟩
  | arg =>
    simp only [step, takeArg] at he
    split at he
    · cases h1 : peek s.mem s.argv (s.off + s.argptr) with
      | none => simp [h1] at he
      | some x =>
        simp only [h1, Option.bind_eq_bind, Option.bind_some] at he
        exact push_paid (s := _) (by exact ⟨h.used, h.v, h.a, h.b, h.sl, h.mem⟩) he
    · exact push_paid h he
  | rest =>
    simp only [step, takeRest] at he
    cases h1 : peeks s.mem s.argv (s.off + s.argptr) (s.argc - s.argptr) with
    | none => simp [h1] at he
    | some x =>
      simp only [h1, Option.bind_eq_bind, Option.bind_some] at he
      exact push_paid (s := _) (by exact ⟨h.used, h.v, h.a, h.b, h.sl, h.mem⟩) he
  | call n r =>
    obtain ⟨rv, rb, rs⟩ := hr r (by simp [reqs])
    simp only [step, tailCall] at he
    split at he
    · cases he
    · split at he
      · exact doTail_paid (by
          exact ⟨by simpa [Nat.add_comm s.bsize] using h.used, h.a, h.v, h.b, h.sl, h.mem⟩) rb rs he
      · rename_i hlt
        have := raise (k := W + 1) (show s.vreq + s.bsize + 1 < r.v + s.vreq + 1 by omega)
        refine doTail_paid ?_ rb rs he
        refine ⟨?_, rv, h.v, h.b, h.sl, ?_⟩
        · simp only
          omega
        · simp only [alloca]
          rw [alloca_total]
          omega
  | apply args r =>
    obtain ⟨rv, rb, rs⟩ := hr r (by simp [reqs])
    have hn := ha args.length (by simp [applied])
    simp only [step, tailApply] at he
    have rest : ∀ s1 : Vm V, Paid W B S A s1 → (do
          let m ← pokes s1.mem s1.argv 0 args
          let s := { s1 with mem := m, argc := args.length }
          let s := if s.vreq < r.v then
              let (m, st) := alloca s.mem (r.v + 1)
              { s with mem := m, stack := some st, vreq := r.v, used := s.used + (r.v + 1) }
            else s
          doTail k.t r s) = some s' → Paid W B S A s' := by
      intro s1 h he
      have hu := h.used
      have hm := h.mem
      simp only [Option.bind_eq_bind] at he
      cases h1 : pokes s1.mem s1.argv 0 args with
      | none => simp [h1] at he
      | some m =>
        simp only [h1, Option.bind_some] at he
        have ht := pokes_total h1
        split at he
        · rename_i hlt
          have := raise (k := W + 1) (show s1.vreq + s1.bsize + 1 < r.v + s1.bsize + 1 by omega)
          refine doTail_paid ?_ rb rs he
          refine ⟨?_, rv, h.a, h.b, h.sl, ?_⟩
          · simp only
            omega
          · simp only [alloca]
            rw [alloca_total]
            omega
        · refine doTail_paid ?_ rb rs he
          exact ⟨h.used, h.v, h.a, h.b, h.sl, by simpa [ht] using h.mem⟩
    by_cases hle : args.length ≤ s.bsize
    · simp only [if_pos hle] at he
      exact rest { s with argv := s.base, off := 0 } ⟨h.used, h.v, h.a, h.b, h.sl, h.mem⟩ he
    · simp only [if_neg hle, alloca] at he
      have := raise (k := W + 1) (show s.vreq + s.bsize + 1 < s.vreq + args.length + 1 by omega)
      refine rest { s with mem := s.mem ++ [List.replicate args.length none],
                           argv := some s.mem.length, off := 0, base := some s.mem.length,
                           bsize := args.length, used := s.used + args.length }
        ⟨?_, h.v, hn, h.b, h.sl, ?_⟩ he
      · simp only
        omega
      · simp only
        rw [alloca_total]
        omega

theorem steps_paid {W B S A : Nat} {k : Lisp V} {es : List (Ev V)} {s s' : Vm V} (h : Paid W B S A s)
    (hr : ∀ r ∈ reqs es, r.v ≤ W ∧ r.b ≤ B ∧ r.s ≤ S) (ha : ∀ n ∈ applied es, n ≤ W)
    (he : steps k s es = some s') : Paid W B S A s' := by
  induction es generalizing s with
  | nil =>
    cases he
    exact h
  | cons e es ih =>
    rw [reqs_cons] at hr
    rw [applied_cons] at ha
    simp only [steps, Option.bind_eq_bind] at he
    cases h1 : step k s e with
    | none => simp [h1] at he
    | some s1 =>
      simp only [h1, Option.bind_some] at he
      exact ih (step_paid h (fun r hm => hr r (List.mem_append_left _ hm))
        (fun n hm => ha n (List.mem_append_left _ hm)) h1)
        (fun r hm => hr r (List.mem_append_right _ hm))
        (fun n hm => ha n (List.mem_append_right _ hm)) he

/-- **C91** A history of tail calls, however long, takes no more memory than a number that depends on
the largest sizes that the functions have declared and the largest number of arguments passed by
`apply`; the blocks that have been allocated for values are part of it. -/
theorem C91_bounded_space (k : Lisp V) (args : List V) (r : Req) (es : List (Ev V)) (s : Vm V)
    (W B S : Nat) (he : run k args r es = some s)
    (hr : ∀ q ∈ r :: reqs es, q.v ≤ W ∧ q.b ≤ B ∧ q.s ≤ S) (ha : ∀ n ∈ applied es, n ≤ W) :
    s.used ≤ (2 * W + 1) * (W + 1) + (B + 1) * (B + 1) + (S + 1) * S ∧
      (s.mem.map List.length).sum ≤ args.length + s.used := by
  have key : Paid W B S args.length s := by
    simp only [run, Option.bind_eq_bind] at he
    cases h0 : start k.t args r with
    | none => simp [h0] at he
    | some s0 =>
      simp only [h0, Option.bind_some] at he
      obtain ⟨rv, rb, rs⟩ := hr r List.mem_cons_self
      refine steps_paid ?_ (fun q hq => hr q (List.mem_cons_of_mem _ hq)) ha he
      simp only [start] at h0
      refine again_paid ⟨?_, rv, Nat.zero_le _, rb, rs, ?_⟩ h0
      · have h1 : r.v + 1 ≤ (r.v + 1) * (W + 1) := Nat.le_mul_of_pos_right _ (by omega)
        have h2 : r.b + 1 ≤ (r.b + 1) * (B + 1) := Nat.le_mul_of_pos_right _ (by omega)
        have h3 : 1 * S ≤ (r.s + 1) * S := Nat.mul_le_mul_right _ (by omega)
        simp only [Nat.add_zero]
        omega
      · simp only [alloca]
        rw [alloca_total]
        simp only [total, List.map_cons, List.map_nil, List.sum_cons, List.sum_nil, List.length_map]
        omega
  refine ⟨Nat.le_trans key.used ?_, key.mem⟩
  have h1 : (s.vreq + s.bsize + 1) * (W + 1) ≤ (2 * W + 1) * (W + 1) :=
    Nat.mul_le_mul_right _ (by have := key.v; have := key.a; omega)
  have h2 : (s.breq + 1) * (B + 1) ≤ (B + 1) * (B + 1) :=
    Nat.mul_le_mul_right _ (by have := key.b; omega)
  have h3 : (s.sreq + 1) * S ≤ (S + 1) * S := Nat.mul_le_mul_right _ (by have := key.sl; omega)
  omega

/-! Cases. -/

/-- Values for the cases. -/
def lisp : Lisp Nat := ⟨1, 0, List.sum⟩

/-- A loop of `n` calls of two functions, which call each other with two arguments. -/
def loop : Nat → List (Ev Nat)
  | 0 => []
  | n + 1 => [.push 9, .arg, .arg, .call 2 ⟨5, 0, 0⟩] ++
    ([.arg, .arg, .push 8, .push n, .push n, .call 2 ⟨4, 1, 3⟩] ++ loop n)

theorem loop_view (n : Nat) (a b : Nat) : ∃ w, View.steps lisp ⟨[], [a, b], 4⟩ (loop n) = some w := by
  induction n generalizing a b with
  | zero => exact ⟨_, rfl⟩
  | succ n ih =>
    obtain ⟨w, h⟩ := ih n n
    refine ⟨w, ?_⟩
    rw [← h]
    simp [loop, View.steps, View.step]

theorem loop_reqs (n : Nat) : (∀ q ∈ reqs (loop n), q = ⟨5, 0, 0⟩ ∨ q = ⟨4, 1, 3⟩) ∧
    applied (loop n) = [] := by
  induction n with
  | zero => simp [loop, reqs, applied]
  | succ n ih =>
    simp only [loop, reqs, applied, List.cons_append, List.nil_append]
    refine ⟨?_, ih.2⟩
    intro q hq
    simp only [List.mem_cons] at hq
    rcases hq with hq | hq | hq
    · exact .inl hq
    · exact .inr hq
    · exact ih.1 q hq

/-- The hypotheses of `C91_calls_partial` and `C91_bounded_space` hold of loops of any length: they
take at most 82 elements. -/
example (n : Nat) : ∃ s, run lisp [3, 4] ⟨4, 1, 3⟩ (loop n) = some s ∧ s.used ≤ 82 := by
  obtain ⟨w, hw⟩ := loop_view n 3 4
  obtain ⟨hq, ha⟩ := loop_reqs n
  obtain ⟨s, hs, _⟩ := C91_calls_partial lisp [3, 4] ⟨4, 1, 3⟩ (loop n) w hw ha (by
    intro q h
    rcases List.mem_cons.1 h with h | h
    · subst h; decide
    · rcases hq q h with h | h <;> subst h <;> decide)
  refine ⟨s, hs, Nat.le_trans (C91_bounded_space lisp [3, 4] ⟨4, 1, 3⟩ (loop n) s 5 1 3 hs ?_ (by simp [ha])).1
    (by decide)⟩
  intro q h
  rcases List.mem_cons.1 h with h | h
  · subst h; decide
  · rcases hq q h with h | h <;> subst h <;> decide

/-- An `apply` within the hypotheses of `C91_tail_calls_partial`: the rest of the arguments is as
passed. -/
def applying : List (Ev Nat) :=
  [.push 7, .apply [2, 3, 4, 5, 6] ⟨3, 0, 0⟩, .arg, .arg, .rest, .call 1 ⟨4, 0, 0⟩, .arg]

example : View.steps lisp ⟨[], [], 2⟩ applying = some ⟨[15], [], 4⟩ ∧
    (∀ q ∈ ⟨2, 0, 0⟩ :: reqs applying, 0 < q.v ∧ q.v ∉ applied applying) := by
  refine ⟨by simp [applying, View.steps, View.step, lisp], ?_⟩
  intro q h
  simp only [applying, reqs, List.mem_cons, List.not_mem_nil, or_false] at h
  rcases h with h | h | h <;> subst h <;> decide

/-- A function calls another through `apply` with three arguments; that calls a function which has
declared three elements, and uses them. -/
def short : List (Ev Nat) :=
  [.apply [1, 2, 3] ⟨2, 0, 0⟩, .push 0, .push 4, .call 1 ⟨3, 0, 0⟩, .push 5, .push 6, .push 7]

/-- **C91 (violated)** The block for the arguments of `apply` has one element less than a stack of the
same size needs (`alloca (sizeof (repv) * nargs)`, lispmach.h:1880, against `v_stkreq + 1` at 774): the
third push is outside of it. -/
theorem C91_stack_one_short_violated :
    (View.steps lisp ⟨[], [], 2⟩ short).isSome = true ∧ run lisp [] ⟨2, 0, 0⟩ short = none := by
  decide +kernel

/-- Before that push all is well. -/
example : (run lisp [] ⟨2, 0, 0⟩ short.dropLast).isSome = true := by decide +kernel

/-- **C91 (violated)** A function that has declared no stack, called before there was an array of
arguments, gets the null pointer as its stack. -/
theorem C91_null_stack_violated :
    (View.steps lisp ⟨[], [], 2⟩ [.push 0, .call 0 ⟨0, 0, 0⟩]).isSome = true ∧
      run lisp [] ⟨2, 0, 0⟩ [.push 0, .call 0 ⟨0, 0, 0⟩] = none := by
  decide +kernel

end Rep.TailCall
