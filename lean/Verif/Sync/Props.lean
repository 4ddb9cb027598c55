import Mathlib.Data.List.Induction
import Verif.Sync.StepP

/-
C23, C24 and C25: mutexes, condition variables and message ports.
-/

namespace Rep.Sync

variable {f : Nat → Nat} {s s' : St} {t : Tid}

theorem init_Inv (f : Nat → Nat) : Inv f {} := by
  refine ⟨fun t => ⟨rfl, rfl, fun m h => by cases h⟩, fun m => ⟨{}, rfl, ?_⟩, fun c => ⟨{}, rfl, ?_⟩, fun p => ⟨{}, rfl, ?_⟩⟩
  · constructor
    · rfl
    · intro u h; cases h
    · exact List.nodup_nil
    · intro u h; cases h
    · intro _ u h; cases h
    · intro u h; cases h
    · intro u h; cases h
  · constructor
    · intro u h; cases h
    · exact List.nodup_nil
    · intro u h; cases h
    · intro t pc h; simp [critOf, crit] at h
    · exact fun _ => ⟨rfl, rfl⟩
  · constructor
    · rfl
    · exact fun _ => rfl
    · exact fun _ => rfl
    · intro t h; cases h
    · intro t v h; cases h

theorem exec_Inv (h : Inv f s) (hr : (s.th t).st.isSusp = false) :
    ∃ s', s.exec t (s.th t) = some s' ∧ Inv f s' := by
  unfold St.exec
  cases hpc : (s.th t).pc with
  | idle => exact ⟨s, rfl, h⟩
  | obt m tm =>
    dsimp only
    by_cases he : s.mx m = []
    · rw [if_pos he]; exact ⟨_, rfl, step_obt_free h hpc he⟩
    · rw [if_neg he]; exact ⟨_, rfl, step_obt_wait h hpc he⟩
  | obtd m => exact ⟨_, rfl, step_obtd h hpc hr⟩
  | relChk m =>
    dsimp only
    by_cases he : (s.mx m).head? = some t
    · rw [if_pos he]; exact ⟨_, rfl, step_relChk_ok h hpc he⟩
    · rw [if_neg he]; exact ⟨_, rfl, step_relChk_err h hpc he⟩
  | rel m =>
    obtain ⟨s1, e1, h1⟩ := step_rel h hpc
    exact ⟨_, by dsimp only; rw [e1]; rfl, h1 _⟩
  | waitMem c m tm =>
    obtain ⟨hn, h1⟩ := step_waitMem h hpc
    exact ⟨_, by dsimp only; rw [if_neg hn], h1⟩
  | waitRead c m tm => exact ⟨_, rfl, step_waitRead h hpc⟩
  | waitWrite c m tm l => exact ⟨_, rfl, step_waitWrite h hpc⟩
  | waitGo c m tm =>
    obtain ⟨hh, s1, e1, h1⟩ := step_waitGo h hpc
    exact ⟨_, by dsimp only; rw [if_pos hh, e1]; rfl, h1⟩
  | waited c m => exact ⟨_, rfl, step_waited h hpc hr⟩
  | sigChk c =>
    dsimp only
    by_cases he : s.cv c = []
    · rw [if_pos he]; exact ⟨_, rfl, step_sigChk_empty h hpc he _⟩
    · rw [if_neg he]; exact ⟨_, rfl, step_sigChk h hpc he⟩
  | sigLast c => exact ⟨_, rfl, step_sigLast h hpc⟩
  | sigRead c u => exact ⟨_, rfl, step_sigRead h hpc⟩
  | sigWrite c u l => exact ⟨_, rfl, step_sigWrite h hpc⟩
  | sigWake c u =>
    obtain ⟨s1, e1, h1⟩ := step_sigWake h hpc
    exact ⟨_, by dsimp only; rw [e1]; rfl, h1 _⟩
  | bcRead c => exact ⟨_, rfl, step_bcRead h hpc⟩
  | bcClear c l => exact ⟨_, rfl, step_bcClear h hpc⟩
  | bcWake c l =>
    cases l with
    | nil => exact ⟨_, rfl, step_bcWake_nil h hpc _⟩
    | cons u l =>
      obtain ⟨s1, e1, h1⟩ := step_bcWake h hpc
      exact ⟨_, by dsimp only; rw [e1]; rfl, h1⟩
  | enq p v => exact ⟨_, rfl, step_enq h hpc⟩
  | emp p tm can =>
    have hs := (h.th t).shape
    simp only [Shape, hpc] at hs
    dsimp only
    by_cases he : s.pq p = []
    · rw [if_pos he, if_pos hs.2]; exact ⟨_, rfl, step_emp_wait h hpc⟩
    · rw [if_neg he]; exact ⟨_, rfl, step_emp h hpc he⟩
  | deq p =>
    obtain ⟨hne, h1⟩ := step_deq h hpc
    exact ⟨_, by dsimp only; rw [if_neg hne], h1⟩
  | deqW p v => exact ⟨_, rfl, step_deqW h hpc⟩
  | chk p => exact ⟨_, rfl, step_chk h hpc _⟩

theorem call_Inv (h : Inv f s) (hpc : (s.th t).pc = .idle) {o : Op} (ho : CallOk f s t o) : Inv f (s.call t o) := by
  cases o with
  | obtain m tm => exact call_obtain h hpc m tm
  | maybe m => exact call_maybe h hpc m
  | release m => exact call_release h hpc m
  | wait c m tm =>
    obtain ⟨hm, hh⟩ := ho
    subst hm
    exact call_wait h hpc c tm hh
  | signal c => exact call_signal h hpc c ho
  | broadcast c => exact call_broadcast h hpc c ho
  | send p v => exact call_send h hpc p v
  | fetch p tm => exact call_fetch h hpc p tm
  | query p => exact call_query h hpc p

theorem step_Inv (h : Inv f s) {e : Ev} (ho : EvOk f s e) : ∃ s', s.step e = some s' ∧ Inv f s' := by
  cases e with
  | call t o =>
    dsimp only [St.step]
    by_cases hpc : (s.th t).pc = .idle
    · rw [if_pos hpc]; exact ⟨_, rfl, call_Inv h hpc (ho hpc)⟩
    · rw [if_neg hpc]; exact ⟨_, rfl, h⟩
  | run t =>
    dsimp only [St.step]
    by_cases hs : (s.th t).st = .susp true ∨ (s.th t).st = .susp false
    · rw [if_pos hs]; exact ⟨_, rfl, h⟩
    · rw [if_neg hs]
      refine exec_Inv h ?_
      cases hst : (s.th t).st with
      | run => rfl
      | ready b => rfl
      | susp b => exact absurd (by rw [hst]; cases b <;> simp) hs
  | timeout t => exact ⟨s, if_neg ho, h⟩

theorem runs_Inv : ∀ {es : List Ev} {s : St}, Inv f s → OkRun f s es → ∃ s', s.runs es = some s' ∧ Inv f s' := by
  intro es
  induction es with
  | nil => exact fun h _ => ⟨_, rfl, h⟩
  | cons e es ih =>
    intro s h ho
    obtain ⟨s1, e1, h1⟩ := step_Inv h ho.1
    obtain ⟨s2, e2, h2⟩ := ih h1 (ho.2 s1 e1)
    exact ⟨s2, by show (s.step e).bind _ = _; rw [e1]; exact e2, h2⟩

/-! ### The guard can be computed -/

def CallOkB (f : Nat → Nat) (s : St) (t : Tid) : Op → Bool
  | .wait c m _ => decide (m = f c) && decide ((s.mx (.user m)).head? = some t)
  | .signal c => decide ((s.mx (.user (f c))).head? = some t)
  | .broadcast c => decide ((s.mx (.user (f c))).head? = some t)
  | _ => true

def EvOkB (f : Nat → Nat) (s : St) : Ev → Bool
  | .call t o => decide ((s.th t).pc ≠ .idle) || CallOkB f s t o
  | .run _ => true
  | .timeout t => decide ((s.th t).st ≠ .susp false)

def OkRunB (f : Nat → Nat) (s : St) : List Ev → Bool
  | [] => true
  | e :: es => EvOkB f s e && match s.step e with
    | some s' => OkRunB f s' es
    | none => true

theorem CallOkB_of {o : Op} (h : CallOkB f s t o = true) : CallOk f s t o := by
  cases o with
  | wait c m tm => simpa [CallOkB, CallOk] using h
  | _ => simp_all [CallOkB, CallOk]

theorem OkRunB_of : ∀ {es : List Ev} {s : St}, OkRunB f s es = true → OkRun f s es := by
  intro es
  induction es with
  | nil => exact fun _ => trivial
  | cons e es ih =>
    intro s h
    unfold OkRunB at h
    rw [Bool.and_eq_true] at h
    refine ⟨?_, fun s' hs' => ?_⟩
    · have h1 := h.1
      cases e with
      | call t o =>
        intro hpc
        simp only [EvOkB, Bool.or_eq_true, decide_eq_true_eq] at h1
        cases h1 with
        | inl h1 => exact absurd hpc h1
        | inr h1 => exact CallOkB_of h1
      | run t => trivial
      | timeout t => simpa [EvOkB, EvOk] using h1
    · have h2 := h.2
      rw [hs'] at h2
      exact ih h2

/-! ### C23 -/

/-- C23, for histories in which no time of a suspended thread is over: no assertion fails, and what
is seen of every mutex is what `MS.step` accepts.  Missing: timeouts, see `C23_timeout_violated`,
`C23_failed_violated` and `C23_abort_violated`. -/
theorem C23_mutex_partial (f : Nat → Nat) (es : List Ev) (h : OkRun f {} es) :
    ∃ s, St.runs {} es = some s ∧ ∀ m, ∃ sp, MS.run m s.log = some sp := by
  obtain ⟨s, e, i⟩ := runs_Inv (init_Inv f) h
  exact ⟨s, e, fun m => let ⟨sp, r, _⟩ := i.mx m; ⟨sp, r⟩⟩

/-- Three threads ask for a mutex; it is handed over in the order of asking. -/
def exMutex : List Ev :=
  [.call 0 (.obtain 1 none), .run 0, .call 1 (.obtain 1 none), .run 1, .call 2 (.obtain 1 (some 0)), .run 2,
   .call 3 (.maybe 1), .call 0 (.release 1), .run 0, .run 0, .run 1, .call 3 (.release 1), .run 3,
   .call 1 (.release 1), .run 1, .run 1, .run 2]

example : OkRun id {} exMutex := OkRunB_of (by decide +kernel)

example : (St.runs {} exMutex).map (·.log) = some
    [.asked 0 (.user 1), .got 0 (.user 1) true, .asked 1 (.user 1), .asked 2 (.user 1), .maybe 3 (.user 1) false,
     .rel 0 (.user 1), .got 1 (.user 1) true, .relErr 3 (.user 1), .rel 1 (.user 1), .got 2 (.user 1) true] := by
  decide +kernel

/-- The specification is not met by any log: a mutex got twice, a mutex got out of turn, a
release by another thread. -/
example : MS.run (.user 1) [.asked 0 (.user 1), .got 0 (.user 1) true, .asked 1 (.user 1), .got 1 (.user 1) true] = none ∧
    (MS.run (.user 1) [.asked 0 (.user 1), .asked 1 (.user 1), .got 1 (.user 1) true]).isNone = true ∧
    (MS.run (.user 1) [.asked 0 (.user 1), .got 0 (.user 1) true, .rel 1 (.user 1)]).isNone = true := by
  refine ⟨rfl, rfl, rfl⟩

/-- C23 is violated: thread 1 gives up waiting for mutex 1, and then waits for mutex 2, which thread
2 owns.  When thread 0 releases mutex 1, `obtain-mutex` returns true in thread 1, for mutex 2. -/
def exTimeout : List Ev :=
  [.call 0 (.obtain 1 none), .run 0, .call 2 (.obtain 2 none), .run 2, .call 1 (.obtain 1 (some 5)), .run 1,
   .timeout 1, .run 1, .call 1 (.obtain 2 none), .run 1, .call 0 (.release 1), .run 0, .run 0, .run 1]

theorem C23_timeout_violated :
    ∃ s, St.runs {} exTimeout = some s ∧
      s.log = [.asked 0 (.user 1), .got 0 (.user 1) true, .asked 2 (.user 2), .got 2 (.user 2) true,
        .asked 1 (.user 1), .got 1 (.user 1) false, .asked 1 (.user 2), .rel 0 (.user 1), .got 1 (.user 2) true] ∧
      MS.run (.user 2) s.log = none := by
  have h : (St.runs {} exTimeout).map (·.log) = some [.asked 0 (.user 1), .got 0 (.user 1) true, .asked 2 (.user 2),
      .got 2 (.user 2) true, .asked 1 (.user 1), .got 1 (.user 1) false, .asked 1 (.user 2), .rel 0 (.user 1),
      .got 1 (.user 2) true] := by decide +kernel
  cases hs : St.runs {} exTimeout with
  | none => rw [hs] at h; cases h
  | some s =>
    rw [hs] at h
    have hl : s.log = _ := Option.some.inj h
    exact ⟨s, rfl, hl, by rw [hl]; rfl⟩

/-- C23 is violated: after that thread 1, which was told that it failed to obtain mutex 1, owns it:
it can release it, and `maybe-obtain-mutex` says that it is taken. -/
def exFailed : List Ev := exTimeout ++ [.call 2 (.maybe 1), .call 1 (.release 1), .run 1, .run 1]

theorem C23_failed_violated :
    (St.runs {} exFailed).map (fun s => s.log.drop 9) = some [.maybe 2 (.user 1) false, .rel 1 (.user 1)] := by
  decide +kernel

/-- C23 is violated: the thread that gave up is running when the mutex is released; the assertion
in `thread-wake` fails. -/
theorem C23_abort_violated :
    St.runs {} [.call 0 (.obtain 1 none), .run 0, .call 1 (.obtain 1 none), .run 1, .timeout 1, .run 1,
      .call 0 (.release 1), .run 0] ≠ none ∧
    (St.runs {} [.call 0 (.obtain 1 none), .run 0, .call 1 (.obtain 1 none), .run 1, .timeout 1, .run 1,
      .call 0 (.release 1), .run 0, .run 0]).isNone = true := by
  constructor
  · intro h
    have : (St.runs {} [.call 0 (.obtain 1 none), .run 0, .call 1 (.obtain 1 none), .run 1, .timeout 1, .run 1,
      .call 0 (.release 1), .run 0]).isSome = true := by decide +kernel
    rw [h] at this
    cases this
  · decide +kernel

/-! ### C24 -/

/-- C24, for histories in which the functions of a condition variable are called by the owner of its
mutex and no time of a suspended thread is over: no assertion fails, and what is seen of every
condition variable is what `CS.step` accepts.  Missing: timeouts, see `C24_timeout_violated` and
`C24_abort_violated`, and calls without the mutex, see `C24_unlocked_violated`. -/
theorem C24_condition_partial (f : Nat → Nat) (es : List Ev) (h : OkRun f {} es) :
    ∃ s, St.runs {} es = some s ∧ ∀ c, ∃ sp, CS.run c s.log = some sp := by
  obtain ⟨s, e, i⟩ := runs_Inv (init_Inv f) h
  exact ⟨s, e, fun c => let ⟨sp, r, _⟩ := i.cv c; ⟨sp, r⟩⟩

/-- `t` obtains mutex 1 and waits for condition variable 1. -/
def doWait (t : Tid) (tm : Option Nat) : List Ev :=
  [.call t (.obtain 1 none), .run t, .call t (.wait 1 1 tm), .run t, .run t, .run t, .run t]

/-- `t` obtains mutex 1, signals condition variable 1 and releases the mutex. -/
def doSignal (t : Tid) (o : Op) : List Ev :=
  [.call t (.obtain 1 none), .run t, .call t o, .run t, .run t, .run t, .run t, .run t]

def exCv : List Ev :=
  doWait 0 none ++ doWait 1 (some 0) ++ doWait 2 none ++ doSignal 3 (.signal 1) ++
  [.call 3 (.broadcast 1), .run 3, .run 3, .run 3, .run 3, .run 3]

example : OkRun id {} exCv := OkRunB_of (by decide +kernel)

example : (St.runs {} exCv).map (fun s => s.log.filter fun x => !x.noC) = some
    [.waits 0 (.user 1), .waits 1 (.user 1), .waits 2 (.user 1), .sigCall 3 (.user 1), .woke 3 (.user 1) 0,
     .sigRet 3 (.user 1), .bcCall 3 (.user 1), .woke 3 (.user 1) 1, .woke 3 (.user 1) 2, .sigRet 3 (.user 1)] := by
  decide +kernel

/-- C24 is violated: thread 0 gives up waiting, and then waits for mutex 2.  Thread 1 begins to
wait.  The signal wakes thread 0. -/
def exCvTimeout : List Ev :=
  [.call 2 (.obtain 2 none), .run 2] ++ doWait 0 (some 5) ++ [.timeout 0, .run 0, .run 0, .call 0 (.release 1), .run 0, .run 0,
   .call 0 (.obtain 2 (some 0)), .run 0] ++ doWait 1 none ++ doSignal 3 (.signal 1)

theorem C24_timeout_violated :
    (St.runs {} exCvTimeout).map (fun s => s.log.filter fun x => !x.noC) = some
      [.waits 0 (.user 1), .waitRet 0 (.user 1) false, .waits 1 (.user 1), .sigCall 3 (.user 1), .woke 3 (.user 1) 0,
       .sigRet 3 (.user 1)] := by
  decide +kernel

/-- C24 is violated: thread 0 gives up waiting and runs; the signal makes the assertion in
`thread-wake` fail. -/
theorem C24_abort_violated :
    (St.runs {} (doWait 0 none ++ [.timeout 0, .run 0, .run 0, .call 0 (.signal 1), .run 0, .run 0, .run 0, .run 0])).isSome = true ∧
    (St.runs {} (doWait 0 none ++ [.timeout 0, .run 0, .run 0, .call 0 (.signal 1), .run 0, .run 0, .run 0, .run 0, .run 0])).isNone = true := by
  constructor <;> decide +kernel

/-- C24 is violated without the mutex: thread 3 signals while thread 1 is adding itself.  Thread 0,
which is woken, stays in the list, and a second signal makes the assertion fail. -/
def exUnlocked : List Ev :=
  doWait 0 none ++ [.call 1 (.obtain 1 none), .run 1, .call 1 (.wait 1 1 none), .run 1, .run 1,
    .call 3 (.signal 1), .run 3, .run 3, .run 3, .run 3, .run 3, .run 1, .run 1, .run 0, .run 0,
    .call 3 (.signal 1), .run 3, .run 3, .run 3, .run 3]

theorem C24_unlocked_violated :
    (St.runs {} exUnlocked).map (fun s => s.log.filter fun x => !x.noC) = some
      [.waits 0 (.user 1), .sigCall 3 (.user 1), .woke 3 (.user 1) 0, .sigRet 3 (.user 1), .waits 1 (.user 1),
       .sigCall 3 (.user 1)] ∧
    (St.runs {} (exUnlocked ++ [.run 3])).isNone = true := by
  constructor <;> decide +kernel

/-! ### C25 -/

/-- C25, for histories in which no time of a suspended thread is over: what is seen of every port is
what `PS.step` accepts.  Missing: timeouts, see `C25_lost_violated`. -/
theorem C25_messages_partial (f : Nat → Nat) (es : List Ev) (h : OkRun f {} es) :
    ∃ s, St.runs {} es = some s ∧ ∀ p, ∃ sp, PS.run p s.log = some sp := by
  obtain ⟨s, e, i⟩ := runs_Inv (init_Inv f) h
  exact ⟨s, e, fun p => let ⟨sp, r, _⟩ := i.pq p; ⟨sp, r⟩⟩

/-- The messages sent to a port, and the messages taken from it, in the order of the log -/
def sentTo (p : Nat) (l : List Log) : List Msg :=
  l.filterMap fun
    | .sent _ k v => if k = p then some v else none
    | _ => none

def takenFrom (p : Nat) (l : List Log) : List Msg :=
  l.filterMap fun
    | .took _ k v => if k = p then some v else none
    | _ => none

theorem PS.run_order {p : Nat} : ∀ (l : List Log) (sp : PS), PS.run p l = some sp → sentTo p l = takenFrom p l ++ sp.q := by
  intro l
  induction l using List.reverseRecOn with
  | nil => intro sp h; cases h; rfl
  | append_singleton l x ih =>
    intro sp h
    unfold PS.run at h
    rw [List.foldl_append] at h
    change (PS.run p l).bind (fun s => s.step p x) = some sp at h
    cases hr : PS.run p l with
    | none => rw [hr] at h; cases h
    | some sp0 =>
      rw [hr] at h
      have h : sp0.step p x = some sp := h
      have ih := ih sp0 hr
      unfold sentTo takenFrom at *
      rw [List.filterMap_append, List.filterMap_append, ih]
      cases x with
      | sent t k v =>
        simp only [PS.step] at h
        by_cases hk : k = p
        · rw [if_pos hk] at h
          split at h
          · cases h; simp [hk]
          · cases h
        · rw [if_neg hk] at h; cases h; simp [hk]
      | took t k v =>
        simp only [PS.step] at h
        by_cases hk : k = p
        · rw [if_pos hk] at h
          split at h
          · next hc =>
            cases h
            have hc := hc.1
            cases hq : sp0.q with
            | nil => rw [hq] at hc; cases hc
            | cons a q => rw [hq] at hc; simp at hc; simp [hk, hc]
          · cases h
        · rw [if_neg hk] at h; cases h; simp [hk]
      | sendCall t k v =>
        simp only [PS.step] at h
        repeat (first | (split at h) | (cases h; simp))
        all_goals (cases h; simp)
      | _ =>
        simp only [PS.step] at h
        repeat (first | (split at h) | (cases h; simp))
        all_goals first | (cases h; done) | (cases h; simp)

/-- So the messages are taken in the order in which they were sent, each at most once, and those
that have not been taken are still in the queue. -/
theorem C25_order_partial (f : Nat → Nat) (es : List Ev) (h : OkRun f {} es) :
    ∃ s, St.runs {} es = some s ∧ ∀ p, sentTo p s.log = takenFrom p s.log ++ s.pq p := by
  obtain ⟨s, e, i⟩ := runs_Inv (init_Inv f) h
  refine ⟨s, e, fun p => ?_⟩
  obtain ⟨sp, r, hi⟩ := i.pq p
  rw [PS.run_order _ sp r, hi.q]

/-- Two threads fetch while a third sends. -/
def exPort : List Ev :=
  [.call 1 (.fetch 0 none), .run 1, .run 1, .run 1, .run 1, .run 1, .run 1,
   .call 0 (.send 0 7), .run 0, .run 0, .run 0, .run 0, .run 0, .run 0, .run 0, .run 1, .run 1, .run 0, .run 0,
   .call 0 (.send 0 8), .run 0, .call 2 (.fetch 0 none), .run 2,
   .run 1, .run 1, .run 1, .run 1, .run 1, .run 1, .run 0, .run 0, .run 0, .run 0, .run 0, .run 0,
   .run 2, .run 2, .run 2, .run 2, .run 2, .run 2]

example : OkRun id {} exPort := OkRunB_of (by decide +kernel)

example : (St.runs {} exPort).map (fun s => s.log.filter fun x => !x.noP) = some
    [.sendCall 0 0 7, .sent 0 0 7, .sendRet 0 0, .sendCall 0 0 8, .took 1 0 7, .fetchRet 1 0 (some 7),
     .sent 0 0 8, .sendRet 0 0, .took 2 0 8, .fetchRet 2 0 (some 8)] := by
  decide +kernel

/-- C25 is violated: thread 1 is in `message-fetch`, thread 2 calls it too and gives up waiting for
the mutex of the port after a millisecond.  It takes the message, and `release-mutex` signals an
error: the message is lost. -/
def exLost : List Ev :=
  [.call 0 (.send 0 7), .run 0, .run 0, .run 0, .run 0, .run 0,
   .call 1 (.fetch 0 none), .run 1, .call 2 (.fetch 0 none), .run 2, .timeout 2, .run 2, .run 2, .run 2, .run 2, .run 2,
   .run 1]

theorem C25_lost_violated :
    (St.runs {} exLost).map (fun s => (s.log.filter (fun x => !x.noP), s.pq 0, (s.th 1).pc)) = some
      ([.sendCall 0 0 7, .sent 0 0 7, .sendRet 0 0, .took 2 0 7, .fetchErr 2 0], [], .waitMem (.port 0) (.port 0) none) := by
  decide +kernel

end Rep.Sync
