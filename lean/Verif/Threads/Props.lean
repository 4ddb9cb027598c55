import Verif.Threads.Refine

/-
C26: the queues of the scheduler, and fairness.
-/

namespace Rep.Threads

/-- The state in which the first thread function is called, at this time. -/
def P.start (now : TV) : P := { c := { now := now } }

/-- The runnable threads: the links followed from the head of the queue. -/
def P.runnable (p : P) : List Tid := p.walk p.c.n p.head

/-- The suspended threads. -/
def P.suspended (p : P) : List Tid := p.walk p.c.n p.shead

/-- The queues are sound: the backward links give the same members as the forward links; no
thread is in a queue twice, or in both; a thread that has been made is in a queue if and only
if it has not exited, and in the right one; the suspended threads are in the order in which
they wake; the active thread is the first runnable one. -/
structure Sound (p : P) : Prop where
  back : p.walkBack p.c.n p.tail = p.runnable.reverse
  sback : p.walkBack p.c.n p.stail = p.suspended.reverse
  nodup : (p.runnable ++ p.suspended).Nodup
  live : ∀ t < p.c.n, (p.c.th t).exited = false ↔ t ∈ p.runnable ++ p.suspended
  made : ∀ t ∈ p.runnable ++ p.suspended, t < p.c.n
  flag : ∀ t ∈ p.runnable ++ p.suspended, ((p.c.th t).susp = true ↔ t ∈ p.suspended)
  sorted : p.suspended.Pairwise fun a b => later (p.c.th a).runAt (p.c.th b).runAt = false
  active : p.c.active = p.runnable.head?

theorem rs_lists {p : P} {s : S} (h : RS p s) : p.runnable = s.run ∧ p.suspended = s.susp ∧
    p.walkBack p.c.n p.tail = s.run.reverse ∧ p.walkBack p.c.n p.stail = s.susp.reverse := by
  rcases h with ⟨⟨r, w⟩, a⟩ | hl
  · have h1 := length_le (List.nodup_append.1 w.nd).1 fun u hu => (w.run u hu).2.2
    have h2 := susp_le w
    unfold P.runnable P.suspended
    rw [r.c, r.run.head, r.run.tail, r.susp.head, r.susp.tail]
    exact ⟨walk_seg p s.run none s.c.n r.run.seg h1, walk_seg p s.susp none s.c.n r.susp.seg h2,
      walkBack_seg p none s.c.n s.run r.run.seg h1, walkBack_seg p none s.c.n s.susp r.susp.seg h2⟩
  · unfold P.runnable P.suspended
    rw [hl.head, hl.shead, hl.tail, hl.stail, hl.run, hl.susp]
    cases p.c.n <;> exact ⟨rfl, rfl, rfl, rfl⟩

theorem sound_of {p : P} {s : S} (h : RS p s) (w : Wf s) (a : Act s) : Sound p := by
  obtain ⟨e1, e2, e3, e4⟩ := rs_lists h
  have hc : p.c = s.c := by
    rcases h with ⟨⟨r, -⟩, -⟩ | hl
    · exact r.c
    · exact hl.c
  refine ⟨by rw [e3, e1], by rw [e4, e2], ?_, ?_, ?_, ?_, ?_, ?_⟩ <;> (try rw [e1]) <;> (try rw [e2]) <;> (try rw [hc])
  · exact w.nd
  · intro t ht
    refine ⟨fun he => List.mem_append.2 (w.live t ht he), fun hm => ?_⟩
    rcases List.mem_append.1 hm with hm | hm
    · exact (w.run t hm).2.1
    · exact (w.susp t hm).2.1
  · intro t hm
    rcases List.mem_append.1 hm with hm | hm
    · exact (w.run t hm).2.2
    · exact (w.susp t hm).2.2
  · intro t hm
    rcases List.mem_append.1 hm with hm | hm
    · have h1 := (w.run t hm).1
      refine ⟨fun h => (by rw [h1] at h; cases h), fun h => ?_⟩
      have := (w.susp t h).1
      rw [h1] at this; cases this
    · exact ⟨fun _ => hm, fun _ => (w.susp t hm).1⟩
  · exact w.sorted
  · exact a

/-- Both schedulers run side by side. -/
theorem run_both {now : TV} {es : List Ev} {p : P} (h : (P.start now).run es = .ok p) :
    ∃ s, (S.runs { c := { now := now } } es) = .ok s ∧ RS p s ∧ Wf s ∧ Act s := by
  have hs := runs_sim es (init_sim now)
  rw [show (P.run { c := { now := now } } es) = .ok p from h] at hs
  cases hr : S.runs { c := { now := now } } es with
  | bad x => rw [hr] at hs; exact hs.elim
  | ok s =>
    rw [hr] at hs
    exact ⟨s, rfl, hs, runs_inv es (init_inv now).1 (init_inv now).2 hr⟩

/-- **C26**: whatever is done with the threads of a dynamic root, the queues are sound. -/
theorem C26_sound (now : TV) (es : List Ev) (p : P) (h : (P.start now).run es = .ok p) : Sound p := by
  obtain ⟨s, -, r, w, a⟩ := run_both h
  exact sound_of r w a

/-- **C26**: no loop over a queue runs forever, and an assertion fails if and only if
`thread-wake` is called on a thread that is not suspended, or `thread-suspend` on one that is
(the functions for threads have no other failure than the overflow of C27_forever_violated). -/
theorem C26_defined (now : TV) (es : List Ev) (p : P) (h : (P.start now).run es = .ok p) (e : Ev) :
    p.step e ≠ .bad .hang ∧
    (p.step e = .bad .abort ↔ p.c.active ≠ none ∧ Misuse p.c e) := by
  obtain ⟨s, -, r, w, a⟩ := run_both h
  have hs := step_sim r e
  have hg := good_step w a e
  have hc : p.c = s.c := by
    rcases r with ⟨⟨r, -⟩, -⟩ | hl
    · exact r.c
    · exact hl.c
  have key : ∀ b, p.step e = .bad b ↔ s.step e = .bad b := by
    intro b
    constructor
    · intro h1
      rw [h1] at hs
      cases h2 : s.step e with
      | ok x => rw [h2] at hs; exact hs.elim
      | bad x => rw [h2] at hs; rw [show b = x from hs]
    · intro h1
      rw [h1] at hs
      cases h2 : p.step e with
      | ok x => rw [h2] at hs; exact hs.elim
      | bad x => rw [h2] at hs; rw [show x = b from hs]
  refine ⟨?_, ?_⟩
  · rw [Ne, key]
    rintro h1
    rcases hg with ⟨s', h2, -⟩ | ⟨h2, -⟩ | h2 <;> rw [h1] at h2 <;> cases h2
  · rw [key, hc]
    constructor
    · intro h1
      refine ⟨?_, ?_⟩
      · intro hn
        unfold S.step at h1
        rw [hn] at h1
        cases h1
      · rcases hg with ⟨s', h2, -⟩ | ⟨-, h2⟩ | h2
        · rw [h1] at h2; cases h2
        · exact h2
        · rw [h1] at h2; cases h2
    · rintro ⟨hn, hm⟩
      obtain ⟨x, hx⟩ := Option.ne_none_iff_exists'.1 hn
      unfold S.step
      rw [hx]
      show s.stepBy x e = _
      cases e with
      | wake t =>
        obtain ⟨h1, h2⟩ := hm
        show (if s.c.threadp t = true then s.fwake t else .ok s) = _
        rw [if_pos h1]
        unfold S.fwake S.wake
        rw [if_pos]
        left
        simp [S.set, set_th, h2]
      | suspend t ms z =>
        obtain ⟨h1, h2⟩ := hm
        show (if s.c.threadp t = true then s.fsuspend x t ms z else .ok s) = _
        rw [if_pos h1]
        unfold S.fsuspend
        split
        · unfold S.suspend
          rw [if_pos (.inl h2)]
        · unfold S.suspend
          rw [if_pos (.inl h2)]
          rfl
      | tick _ => exact hm.elim
      | make _ => exact hm.elim
      | yield _ => exact hm.elim
      | join _ _ _ _ => exact hm.elim
      | delete _ _ => exact hm.elim
      | exit _ _ => exact hm.elim
      | throw => exact hm.elim

/-! ### Exited threads -/

/-- No thread comes back to life. -/
def Mono (s : S) (r : Res S) : Prop :=
  ∀ s', r = .ok s' → s.c.n ≤ s'.c.n ∧ ∀ t < s.c.n, (s.c.th t).exited = true → (s'.c.th t).exited = true

theorem mono_ok {s s' : S} (hn : s.c.n ≤ s'.c.n)
    (h : ∀ t < s.c.n, (s.c.th t).exited = true → (s'.c.th t).exited = true) : Mono s (.ok s') := by
  intro _ e; cases e; exact ⟨hn, h⟩

theorem Mono.trans {s s' : S} {r : Res S} (h : Mono s (.ok s')) (h' : Mono s' r) : Mono s r := by
  intro s'' e
  obtain ⟨a, b⟩ := h s' rfl
  obtain ⟨c, d⟩ := h' s'' e
  exact ⟨Nat.le_trans a c, fun t ht he => d t (Nat.lt_of_lt_of_le ht a) (b t ht he)⟩

theorem Mono.andThen {s : S} {r : Res S} {f : S → Res S} (h : Mono s r) (hf : ∀ s', Mono s' (f s')) :
    Mono s (r.andThen f) := by
  cases r with
  | bad b => intro s' e; cases e
  | ok s' => exact h.trans (hf s')

theorem mono_same {s : S} {c : Com} (h : SameQ s.c c) : Mono s (.ok { s with c := c }) :=
  mono_ok (Nat.le_of_eq h.n.symm) fun t _ he => (h.exited t).trans he

theorem mono_set {s : S} {t : Tid} {x : Th} (h : (s.c.th t).exited = true → x.exited = true) :
    Mono s (.ok (s.set t x)) := by
  refine mono_ok (Nat.le_refl _) fun u _ he => ?_
  show (if u = t then x else s.c.th u).exited = true
  split
  · next e => subst e; exact h he
  · exact he

theorem mono_unlink (s : S) (t : Tid) : Mono s (.ok (s.unlink t)) :=
  mono_ok (by rw [unlink_c]) fun u _ he => by rw [unlink_c]; exact he

theorem mono_enqueue (s : S) (t : Tid) : Mono s (s.enqueue t) := by
  unfold S.enqueue
  split
  · intro s' e; cases e
  · split <;> exact mono_ok (Nat.le_refl _) fun u _ he => he

theorem mono_wake (s : S) (t : Tid) : Mono s (s.wake t) := by
  unfold S.wake
  split
  · intro s' e; cases e
  · exact ((mono_unlink s t).trans (mono_set (by rw [unlink_c]; exact id))).trans (mono_enqueue _ t)

theorem mono_wakeAll (test : Com → Tid → Bool) : ∀ (l : List Tid) (s : S) (b : Bool),
    ∀ s' b', S.wakeAll test l s b = .ok (s', b') → Mono s (.ok s')
  | [], s, b, s', b', h => by cases h; exact mono_ok (Nat.le_refl _) fun _ _ he => he
  | t :: l, s, b, s', b', h => by
    unfold S.wakeAll at h
    split at h
    · have hm := mono_wake s t
      cases hw : s.wake t with
      | bad x => rw [hw] at h; cases h
      | ok s1 =>
        rw [hw] at h hm
        exact hm.trans (mono_wakeAll test l s1 true s' b' h)
    · exact mono_wakeAll test l s b s' b' h

theorem mono_close (s : S) : Mono s (.ok s.close) := mono_ok (Nat.le_refl _) fun _ _ _ => rfl

theorem mono_invoke : ∀ (k : Nat) (s : S) (z : Wk), Mono s (s.invoke k z)
  | 0, s, z => by intro s' e; cases e
  | k + 1, s, z => by
    cases hr : s.run with
    | cons t l =>
      rw [invoke_run hr]
      exact mono_same (SameQ.trans (b := { s.c with active := some t })
        ⟨rfl, fun _ => rfl, fun _ => rfl, fun _ => rfl⟩ (SameQ.resume _ t))
    | nil =>
      cases hs : s.susp with
      | nil => rw [invoke_none hr hs]; exact mono_close s
      | cons b l =>
        rw [invoke_sleep hr hs]
        cases hw : S.wakeAll Com.pollTrue (b :: l) s false with
        | bad x => intro s' e; cases e
        | ok r =>
          obtain ⟨s1, b1⟩ := r
          have hm := mono_wakeAll _ _ _ _ _ _ hw
          show Mono s (if b1 = true then S.invoke k s1 z else _)
          split
          · exact hm.trans (mono_invoke k s1 z)
          · rcases sleep_cases s.c (s.c.th b).runAt z with hsl | ⟨c, hsl, hc⟩
            · rw [hsl]; intro s' e; cases e
            · rw [hsl]
              exact (mono_same hc.1).trans (Mono.andThen (mono_wake _ b) fun s' => mono_invoke k s' z)

theorem mono_delete (s : S) (t : Tid) (z : Wk) : Mono s (s.delete t z) := by
  have h := (mono_unlink s t).trans (mono_set (s := s.unlink t) (t := t)
    (x := { (s.unlink t).c.th t with exited := true }) fun _ => rfl)
  unfold S.delete
  show Mono s (if _ then _ else _)
  split
  · exact h.trans (mono_invoke _ _ z)
  · exact h

theorem mono_suspend (s : S) (t : Tid) (ms poll call z) : Mono s (s.suspend t ms poll call z) := by
  unfold S.suspend
  split
  · intro s' e; cases e
  · refine ((mono_unlink s t).trans (mono_set (s := s.unlink t) (t := t)
      (x := { (s.unlink t).c.th t with
        susp := true, runAt := wakeTime (s.unlink t).c.now ms, poll := poll, val := .nil,
        call := call }) id)).trans (Mono.andThen (mono_enqueue _ t) fun s' => ?_)
    show Mono s' (if _ then _ else _)
    split
    · exact mono_invoke _ _ z
    · exact mono_ok (Nat.le_refl _) fun _ _ he => he

theorem mono_step (s : S) (e : Ev) : Mono s (s.step e) := by
  have refl : Mono s (.ok s) := mono_ok (Nat.le_refl _) fun _ _ he => he
  unfold S.step
  cases s.c.active with
  | none => exact refl
  | some x =>
    show Mono s (s.stepBy x e)
    cases e with
    | tick now => exact mono_same ⟨rfl, fun _ => rfl, fun _ => rfl, fun _ => rfl⟩
    | make susp =>
      refine Mono.trans (s' := { s with c := { s.c.set s.c.n { susp := susp } with n := s.c.n + 1 } })
        (mono_ok (Nat.le_succ _) fun t ht he => ?_) (mono_enqueue _ _)
      show (if t = s.c.n then _ else s.c.th t).exited = true
      rw [if_neg (Nat.ne_of_lt ht)]
      exact he
    | yield z =>
      show Mono s (s.yield z)
      unfold S.yield
      have h0 : Mono s (.ok s.rotate) := by
        refine mono_ok ?_ fun t _ he => ?_
        · rw [(rotate_c s).1]
        · rw [(rotate_c s).1]; exact he
      show Mono s (Res.andThen (S.wakeAll Com.due s.rotate.susp s.rotate false) _)
      cases hw : S.wakeAll Com.due s.rotate.susp s.rotate false with
      | bad x => intro s' e; cases e
      | ok r =>
        obtain ⟨s1, b1⟩ := r
        have hm := h0.trans (mono_wakeAll _ _ _ _ _ _ hw)
        show Mono s (if s1.run.head? = s.run.head? then .ok s1 else s1.invoke rounds z)
        split
        · exact hm
        · exact hm.trans (mono_invoke _ _ z)
    | suspend t ms z =>
      show Mono s (if s.c.threadp t = true then s.fsuspend x t ms z else .ok s)
      split
      · unfold S.fsuspend
        split
        · exact (mono_same (sameq_log s.c _)).trans (mono_suspend _ _ _ _ _ _)
        · exact Mono.andThen (mono_suspend _ _ _ _ _ _) fun _ => mono_set id
      · exact refl
    | join t ms d z =>
      show Mono s (if t < s.c.n ∧ t ≠ x then _ else .ok s)
      split
      · exact (mono_same (sameq_log s.c _)).trans (mono_suspend _ _ _ _ _ _)
      · exact refl
    | wake t =>
      show Mono s (if s.c.threadp t = true then s.fwake t else .ok s)
      split
      · unfold S.fwake
        exact ((mono_same (sameq_log s.c (.woken t))).trans (mono_set
          (s := { s with c := s.c.logged (.woken t) }) (t := t) (x := { s.c.th t with val := .t }) id)).trans
          (mono_wake _ t)
      · exact refl
    | delete t z =>
      show Mono s (if s.c.threadp t = true then S.delete _ t z else .ok s)
      split
      · exact (mono_same (sameq_log s.c _)).trans (mono_delete _ t z)
      · exact refl
    | exit v z =>
      show Mono s (if x = 0 then S.delete _ x z else S.delete _ x z)
      split
      · exact (mono_same (sameq_log s.c _)).trans (mono_delete _ x z)
      · exact ((mono_same (sameq_log s.c (.done x v))).trans (mono_set
          (s := { s with c := s.c.logged (.done x v) }) (t := x)
          (x := { s.c.th x with exited := true, val := v }) fun _ => rfl)).trans (mono_delete _ x z)
    | throw => exact mono_close s

theorem mono_runs : ∀ (es : List Ev) (s : S), Mono s (s.runs es)
  | [], s => mono_ok (Nat.le_refl _) fun _ _ he => he
  | e :: es, s => Mono.andThen (mono_step s e) fun s' => mono_runs es s'

theorem run_append (es fs : List Ev) (p : P) : p.run (es ++ fs) = (p.run es).andThen fun q => q.run fs := by
  induction es generalizing p with
  | nil => rfl
  | cons e es ih =>
    show (p.step e).andThen (fun q => q.run (es ++ fs)) = ((p.step e).andThen fun q => q.run es).andThen _
    cases p.step e with
    | bad b => rfl
    | ok q => exact ih q

/-- **C26**: a thread that has exited never runs again, and is in no queue any more. -/
theorem C26_exited (now : TV) (es fs : List Ev) (p q : P) (h : (P.start now).run es = .ok p)
    (h' : p.run fs = .ok q) (t : Tid) (ht : t < p.c.n) (he : (p.c.th t).exited = true) :
    (q.c.th t).exited = true ∧ q.c.active ≠ some t ∧ t ∉ q.runnable ++ q.suspended := by
  obtain ⟨s, -, r, w, a⟩ := run_both h
  have hq : (P.start now).run (es ++ fs) = .ok q := by rw [run_append, h]; exact h'
  have so := C26_sound now _ q hq
  have hs := runs_sim fs r
  rw [h'] at hs
  have hcc : ∀ {p : P} {s : S}, RS p s → p.c = s.c := by
    rintro p s (⟨⟨r, -⟩, -⟩ | hl)
    · exact r.c
    · exact hl.c
  cases hr : s.runs fs with
  | bad x => rw [hr] at hs; exact hs.elim
  | ok s' =>
    rw [hr] at hs
    have hm := mono_runs fs s s' hr
    rw [hcc r] at ht he
    have hx : (q.c.th t).exited = true := by rw [hcc hs]; exact hm.2 t ht he
    have hn : t < q.c.n := by rw [hcc hs]; exact Nat.lt_of_lt_of_le ht hm.1
    have hnm : t ∉ q.runnable ++ q.suspended := fun hmem => by
      have := (so.live t hn).2 hmem
      rw [hx] at this; cases this
    refine ⟨hx, fun ha => hnm ?_, hnm⟩
    rw [so.active] at ha
    exact List.mem_append.2 (.inl (List.mem_of_mem_head? ha))

end Rep.Threads
