import Verif.TailCall.Mem

/-
C91: tail calls of compiled code take bounded space, and the functions called have their own
stack and arguments.
-/

namespace Rep.TailCall

variable {V : Type}

/-- The block has room for `n` elements after the first; one less if it was made by `apply`. -/
def Roomy (D : List Nat) (m : Mem V) (p : Option Nat) (n : Nat) : Prop :=
  n + 1 ≤ cap m p ∨ (n ≤ cap m p ∧ n ∈ D)

/-- The state of the machine between instructions; `D` are the numbers of arguments of calls through
`apply`. -/
structure Inv (D : List Nat) (s : Vm V) (w : View V) : Prop where
  shows : Shows s w
  vs : Valid s.mem s.stack
  vb : Valid s.mem s.base
  va : Valid s.mem s.argv
  ne : s.base ≠ s.stack
  na : s.argv ≠ s.stack
  room : w.room ≤ s.vreq
  fits : w.stk.length ≤ w.room
  cv : Roomy D s.mem s.stack s.vreq
  cb : Roomy D s.mem s.base s.bsize ∨ (s.base = none ∧ s.bsize = 0)
  nd : w.room ∉ D
  ap : s.argptr ≤ s.argc

theorem Roomy.enough {D : List Nat} {m : Mem V} {p : Option Nat} {n k : Nat} (h : Roomy D m p n)
    (hk : k ≤ n) (hD : k ∉ D) : k + 1 ≤ cap m p := by
  rcases h with h | ⟨h, hd⟩
  · omega
  · rcases Nat.lt_or_ge k n with hlt | hge
    · omega
    · have : k = n := by omega
      subst this
      exact absurd hd hD

theorem Roomy.cap {D : List Nat} {m m' : Mem V} {p : Option Nat} {n : Nat} (h : Roomy D m p n)
    (hc : TailCall.cap m' p = TailCall.cap m p) : Roomy D m' p n := by
  unfold Roomy at *
  rwa [hc]

/-- A push. -/
theorem push_inv {D : List Nat} {s : Vm V} {w : View V} (h : Inv D s w) (x : V)
    (hr : w.stk.length < w.room) : ∃ s', push x s = some s' ∧ Inv D s' { w with stk := x :: w.stk } := by
  have hc := h.cv.enough h.room h.nd
  have hsp := h.shows.sp
  obtain ⟨m, e, l, c, p⟩ := poke_ok x (show s.sp + 1 < cap s.mem s.stack by omega)
  refine ⟨{ s with mem := m, sp := s.sp + 1 }, by simp [push, e], ?_⟩
  refine ⟨⟨by simp [hsp], ?_, h.shows.argc, ?_⟩, h.vs.len l, h.vb.len l, h.va.len l, h.ne, h.na, h.room,
    by simp; omega, h.cv.cap (c _), ?_, h.nd, h.ap⟩
  · intro i hi
    simp only at hi ⊢
    rw [p]
    cases i with
    | zero => simp
    | succ i =>
      rw [if_neg (by omega), show s.sp + 1 - (i + 1) = s.sp - i by omega, h.shows.stk i (by omega)]
      simp
  · intro i hi
    simp only at hi ⊢
    rw [p, if_neg (by simp [h.na]), h.shows.args i hi]
  · rcases h.cb with hb | hb
    · exact .inl (hb.cap (c _))
    · exact .inr hb

/-- The start of a function. -/
theorem again_inv {D : List Nat} {s : Vm V} {w : View V} (t : V) (hstk : w.stk = [])
    (argc : s.argc = w.args.length)
    (args : ∀ i, i < w.args.length → peek s.mem s.argv (s.off + i) = w.args[i]?)
    (vs : Valid s.mem s.stack) (vb : Valid s.mem s.base) (va : Valid s.mem s.argv)
    (ne : s.base ≠ s.stack) (na : s.argv ≠ s.stack) (room : w.room ≤ s.vreq)
    (cv : Roomy D s.mem s.stack s.vreq)
    (cb : Roomy D s.mem s.base s.bsize ∨ (s.base = none ∧ s.bsize = 0)) (nd : w.room ∉ D) :
    ∃ s', again t s = some s' ∧ Inv D s' w := by
  have hc := cv.enough room nd
  obtain ⟨m, e, l, c, p⟩ := poke_ok t (show 0 < cap s.mem s.stack by omega)
  refine ⟨{ s with mem := m, sp := 0, argptr := 0 }, by simp [again, e], ?_⟩
  refine ⟨⟨by simp [hstk], fun i hi => by simp at hi, by simpa using argc, ?_⟩, vs.len l, vb.len l,
    va.len l, ne, na, room, by simp [hstk], cv.cap (c _), ?_, nd, Nat.zero_le _⟩
  · intro i hi
    simp only [Nat.add_zero]
    rw [p, if_neg (by simp [na]), args i hi]
  · rcases cb with hb | hb
    · exact .inl (hb.cap (c _))
    · exact .inr hb

theorem doTail_inv {D : List Nat} {s : Vm V} {w : View V} (t : V) (r : Req) (hstk : w.stk = [])
    (argc : s.argc = w.args.length)
    (args : ∀ i, i < w.args.length → peek s.mem s.argv (s.off + i) = w.args[i]?)
    (vs : Valid s.mem s.stack) (vb : Valid s.mem s.base) (va : Valid s.mem s.argv)
    (ne : s.base ≠ s.stack) (na : s.argv ≠ s.stack) (room : w.room ≤ s.vreq)
    (cv : Roomy D s.mem s.stack s.vreq)
    (cb : Roomy D s.mem s.base s.bsize ∨ (s.base = none ∧ s.bsize = 0)) (nd : w.room ∉ D) :
    ∃ s', doTail t r s = some s' ∧ Inv D s' w := by
  simp only [doTail]
  split <;> split <;>
    exact again_inv t hstk argc args vs vb va ne na room cv cb nd

theorem start_inv (D : List Nat) (t : V) (args : List V) (r : Req) (hr : r.v ∉ D) :
    ∃ s, start t args r = some s ∧ Inv D s ⟨[], args, r.v⟩ := by
  have hlen : ([args.map some] : Mem V).length = 1 := rfl
  have v0 : Valid ([args.map some] : Mem V) (some 0) := fun b hb => by cases hb; simp
  refine again_inv t rfl rfl ?_ (Valid.fresh _ _) (fun b hb => by cases hb) (v0.alloca _)
    (by simp) (by simp) (Nat.le_refl _) (.inl ?_) (.inr ⟨rfl, rfl⟩) hr
  · intro i hi
    simp only [alloca, Nat.zero_add]
    rw [peek_alloca _ _ v0]
    simp only at hi
    simp [peek, hi]
  · simp only [alloca]
    exact Nat.le_of_eq (cap_fresh _ _).symm

/-- One event. -/
theorem step_inv {D : List Nat} (k : Lisp V) {s : Vm V} {w w' : View V} {e : Ev V} (h : Inv D s w)
    (hw : w.step k e = some w') (hr : ∀ r ∈ reqs [e], 0 < r.v ∧ r.v ∉ D)
    (ha : ∀ n ∈ applied [e], n ∈ D) : ∃ s', step k s e = some s' ∧ Inv D s' w' := by
  cases e with
  | push x =>
    simp only [View.step] at hw
    split at hw
    · rename_i hl
      cases hw
      exact push_inv h x hl
    · cases hw
  | pop =>
    simp only [View.step] at hw
    cases hs : w.stk with
    | nil => simp [hs] at hw
    | cons x l =>
      simp only [hs, Option.some.injEq] at hw
      subst hw
      have hsp := h.shows.sp
      rw [hs, List.length_cons] at hsp
      refine ⟨{ s with sp := s.sp - 1 }, by simp [step, pop]; omega, ?_⟩
      refine ⟨⟨by simp; omega, ?_, h.shows.argc, h.shows.args⟩, h.vs, h.vb, h.va, h.ne, h.na, h.room, ?_,
        h.cv, h.cb, h.nd, h.ap⟩
      · intro i hi
        simp only at hi ⊢
        have := h.shows.stk (i + 1) (by omega)
        rw [show s.sp - 1 - i = s.sp - (i + 1) by omega, this, hs]
        simp
      · have := h.fits
        rw [hs, List.length_cons] at this
        simp only
        omega
  | arg =>
    simp only [View.step] at hw
    split at hw
    · rename_i hl
      cases hw
      have hargc := h.shows.argc
      simp only [step, takeArg]
      cases hargs : w.args with
      | nil =>
        rw [hargs, List.length_nil] at hargc
        rw [if_neg (by omega)]
        obtain ⟨s', e1, e2⟩ := push_inv h k.nil hl
        refine ⟨s', e1, ?_⟩
        have : ({ w with stk := k.nil :: w.stk } : View V) =
            { w with stk := k.nil :: w.stk, args := [] } := by rw [← hargs]
        rw [this] at e2
        exact e2
      | cons x l =>
        have hap := h.ap
        have ha0 := h.shows.args 0 (by rw [hargs]; simp)
        rw [hargs, List.length_cons] at hargc
        rw [if_pos (by omega)]
        rw [hargs] at ha0
        simp only [Nat.add_zero, List.getElem?_cons_zero] at ha0
        simp only [ha0, Option.bind_eq_bind, Option.bind_some]
        have hi : Inv D { s with argptr := s.argptr + 1 } { w with args := l } := by
          refine ⟨⟨h.shows.sp, h.shows.stk, by simp; omega, ?_⟩, h.vs, h.vb, h.va, h.ne, h.na, h.room,
            h.fits, h.cv, h.cb, h.nd, by simp; omega⟩
          intro i hi
          simp only at hi ⊢
          have := h.shows.args (i + 1) (by rw [hargs]; simpa using hi)
          rw [show s.off + (s.argptr + 1) + i = s.off + s.argptr + (i + 1) by omega, this, hargs]
          simp
        obtain ⟨s', e1, e2⟩ := push_inv hi x hl
        exact ⟨s', e1, e2⟩
    · cases hw
  | rest =>
    simp only [View.step] at hw
    split at hw
    · rename_i hl
      cases hw
      simp only [step, takeRest]
      rw [h.shows.argc, peeks_ok w.args h.shows.args]
      simp only [Option.bind_eq_bind, Option.bind_some]
      have hi : Inv D { s with argptr := s.argc } { w with args := [] } :=
        ⟨⟨h.shows.sp, h.shows.stk, by simp, fun i hi => by simp at hi⟩, h.vs, h.vb, h.va, h.ne, h.na,
          h.room, h.fits, h.cv, h.cb, h.nd, Nat.le_refl _⟩
      obtain ⟨s', e1, e2⟩ := push_inv hi (k.list w.args) hl
      exact ⟨s', e1, e2⟩
    · cases hw
  | call n r =>
    simp only [View.step] at hw
    split at hw
    · rename_i hn
      cases hw
      obtain ⟨h0, hD⟩ := hr r (by simp [reqs])
      have hsp := h.shows.sp
      have hargs : ∀ i, i < (w.stk.take n).reverse.length →
          peek s.mem s.stack (s.sp - n + 1 + i) = (w.stk.take n).reverse[i]? := by
        intro i hi
        simp only [List.length_reverse, List.length_take] at hi
        have := h.shows.stk (n - 1 - i) (by omega)
        rw [show s.sp - n + 1 + i = s.sp - (n - 1 - i) by omega, this]
        rw [List.getElem?_reverse (by simp; omega)]
        simp only [List.length_take]
        rw [List.getElem?_take_of_lt (by omega)]
        congr 1
        omega
      have hlen : n = (w.stk.take n).reverse.length := by simp; omega
      have hcs := h.cv.enough h.room h.nd
      have hns := (cap_valid (show 0 < cap s.mem s.stack by omega)).2
      simp only [step, tailCall]
      rw [if_neg (by omega)]
      split
      · rename_i hle
        refine doTail_inv k.t r rfl hlen hargs h.vb h.vs h.vs h.ne.symm h.ne.symm hle ?_
          (.inl h.cv) hD
        rcases h.cb with hb | ⟨_, hb⟩
        · exact hb
        · omega
      · simp only [alloca]
        refine doTail_inv k.t r rfl hlen ?_ (Valid.fresh _ _) (h.vs.alloca _) (h.vs.alloca _)
          h.vs.ne h.vs.ne (Nat.le_refl _) (.inl (Nat.le_of_eq (cap_fresh _ _).symm))
          (.inl (h.cv.cap (cap_alloca _ h.vs))) hD
        intro i hi
        have := hargs i hi
        simp only
        rw [peek_alloca _ _ h.vs]
        exact this
    · cases hw
  | apply args r =>
    simp only [View.step, Option.some.injEq] at hw
    subst hw
    obtain ⟨h0, hD⟩ := hr r (by simp [reqs])
    have hn : args.length ∈ D := ha _ (by simp [applied])
    simp only [step, tailApply]
    -- what is true when the arguments have been copied
    have rest : ∀ s1 : Vm V, args = [] ∨ args.length ≤ cap s1.mem s1.argv → s1.off = 0 →
        Valid s1.mem s1.stack → Valid s1.mem s1.base → Valid s1.mem s1.argv → s1.base ≠ s1.stack →
        s1.argv ≠ s1.stack → Roomy D s1.mem s1.stack s1.vreq →
        (Roomy D s1.mem s1.base s1.bsize ∨ (s1.base = none ∧ s1.bsize = 0)) →
        ∃ s', (do
          let m ← pokes s1.mem s1.argv 0 args
          let s := { s1 with mem := m, argc := args.length }
          let s := if s.vreq < r.v then
              let (m, st) := alloca s.mem (r.v + 1)
              { s with mem := m, stack := some st, vreq := r.v, used := s.used + (r.v + 1) }
            else s
          doTail k.t r s) = some s' ∧ Inv D s' ⟨[], args, r.v⟩ := by
      intro s1 hc ho vs vb va ne na cv cb
      obtain ⟨m, e, l, c, p1, _, p3⟩ := pokes_ok (i := 0) args (by
        rcases hc with hc | hc
        · exact .inl hc
        · exact .inr (by simpa using hc))
      simp only [e, Option.bind_eq_bind, Option.bind_some]
      have cb' : Roomy D m s1.base s1.bsize ∨ (s1.base = none ∧ s1.bsize = 0) := by
        rcases cb with hb | hb
        · exact .inl (hb.cap (c _))
        · exact .inr hb
      split
      · simp only [alloca]
        refine doTail_inv k.t r rfl rfl ?_ (Valid.fresh _ _) ((vb.len l).alloca _)
          ((va.len l).alloca _) (vb.len l).ne (va.len l).ne (Nat.le_refl _)
          (.inl (Nat.le_of_eq (cap_fresh _ _).symm)) ?_ hD
        · intro i hi
          simp only [ho, Nat.zero_add] at hi ⊢
          rw [peek_alloca _ _ (va.len l)]
          have := p3 i hi
          rwa [Nat.zero_add] at this
        · rcases cb' with hb | hb
          · exact .inl (hb.cap (cap_alloca _ (vb.len l)))
          · exact .inr hb
      · rename_i hv
        refine doTail_inv k.t r rfl rfl ?_ (vs.len l) (vb.len l) (va.len l) ne na
          (by simpa using hv) (cv.cap (c _)) cb' hD
        intro i hi
        simp only [ho, Nat.zero_add] at hi ⊢
        have := p3 i hi
        rwa [Nat.zero_add] at this
    by_cases hle : args.length ≤ s.bsize
    · simp only [if_pos hle]
      refine rest { s with argv := s.base, off := 0 } ?_ rfl h.vs h.vb h.vb h.ne h.ne h.cv h.cb
      rcases h.cb with hb | ⟨_, hb⟩
      · right
        rcases hb with hb | hb
        · simp only; omega
        · simp only; omega
      · left
        exact List.length_eq_zero_iff.1 (by omega)
    · simp only [if_neg hle, alloca]
      refine rest { s with mem := s.mem ++ [List.replicate args.length none],
                           argv := some s.mem.length, off := 0, base := some s.mem.length,
                           bsize := args.length, used := s.used + args.length }
        (.inr (Nat.le_of_eq (cap_fresh _ _).symm)) rfl (h.vs.alloca _) (Valid.fresh _ _)
        (Valid.fresh _ _) h.vs.ne.symm h.vs.ne.symm (h.cv.cap (cap_alloca _ h.vs))
        (.inl (.inr ⟨Nat.le_of_eq (cap_fresh _ _).symm, hn⟩))

theorem reqs_cons (e : Ev V) (es : List (Ev V)) : reqs (e :: es) = reqs [e] ++ reqs es := by
  cases e <;> simp [reqs]

theorem applied_cons (e : Ev V) (es : List (Ev V)) : applied (e :: es) = applied [e] ++ applied es := by
  cases e <;> simp [applied]

theorem steps_inv {D : List Nat} (k : Lisp V) {s : Vm V} {w w' : View V} {es : List (Ev V)}
    (h : Inv D s w) (hw : w.steps k es = some w') (hr : ∀ r ∈ reqs es, 0 < r.v ∧ r.v ∉ D)
    (ha : ∀ n ∈ applied es, n ∈ D) : ∃ s', steps k s es = some s' ∧ Inv D s' w' := by
  induction es generalizing s w with
  | nil =>
    simp only [View.steps, Option.some.injEq] at hw
    subst hw
    exact ⟨s, rfl, h⟩
  | cons e es ih =>
    simp only [View.steps] at hw
    rw [reqs_cons] at hr
    rw [applied_cons] at ha
    split at hw
    · rename_i w1 h1
      obtain ⟨s1, e1, i1⟩ := step_inv k h h1 (fun r hm => hr r (List.mem_append_left _ hm))
        (fun n hm => ha n (List.mem_append_left _ hm))
      obtain ⟨s2, e2, i2⟩ := ih i1 hw (fun r hm => hr r (List.mem_append_right _ hm))
        (fun n hm => ha n (List.mem_append_right _ hm))
      exact ⟨s2, by simp [steps, e1, e2], i2⟩
    · cases hw

/-- **C91** However many tail calls a function and those that it calls make, through calls and
through `apply`: as long as each of them stays within the sizes that it has declared, no memory is used
that has not been allocated, the function that runs has its own stack and gets the arguments it was
called with.  (Partial: no `apply` in the history passes just as many arguments as one of the
functions has declared for its stack, and no function has declared none.) -/
theorem C91_tail_calls_partial (k : Lisp V) (args : List V) (r : Req) (es : List (Ev V)) (w : View V)
    (hw : View.steps k ⟨[], args, r.v⟩ es = some w)
    (hr : ∀ q ∈ r :: reqs es, 0 < q.v ∧ q.v ∉ applied es) :
    ∃ s, run k args r es = some s ∧ Shows s w := by
  obtain ⟨s, e, i⟩ := start_inv (applied es) k.t args r (hr r List.mem_cons_self).2
  obtain ⟨s', e', i'⟩ := steps_inv k i hw (fun q hq => hr q (List.mem_cons_of_mem _ hq))
    (fun _ h => h)
  exact ⟨s', by simp [run, e, e'], i'.shows⟩

/-- **C91** With tail calls through `apply` left out only functions that have declared no stack are
excepted. -/
theorem C91_calls_partial (k : Lisp V) (args : List V) (r : Req) (es : List (Ev V)) (w : View V)
    (hw : View.steps k ⟨[], args, r.v⟩ es = some w) (ha : applied es = [])
    (hr : ∀ q ∈ r :: reqs es, 0 < q.v) : ∃ s, run k args r es = some s ∧ Shows s w :=
  C91_tail_calls_partial k args r es w hw fun q hq => ⟨hr q hq, by simp [ha]⟩

end Rep.TailCall
