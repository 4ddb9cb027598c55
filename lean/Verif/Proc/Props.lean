import Verif.Proc.Notify
import Verif.Proc.Output

/-
C61: the functions of processes are called for what happens to their children.
C62: the output of the children arrives.
-/

namespace Rep.Proc

open Spec

/-! ### The loops end -/

def reports (s : St) : Nat := s.ids.countP fun p => (s.kid p).report.isSome

/-- What the event loop has to do. -/
def work (s : St) (L : List Id) (e : Option Id) : Nat :=
  3 * reports s + 2 * (if s.got then 1 else 0) + (if s.reaping then 1 else 0) + load L e

theorem Run.allowed_internal {s s' : St} {ops : List Op} (hr : Run s ops s') :
    (∀ op ∈ ops, op.internal = true) → (∀ p, (s.obj p).sync = false) →
    AllowedRun s ops s' ∧ ∀ p, (s'.obj p).sync = false := by
  induction hr with
  | nil s => exact fun _ h => ⟨.nil s, h⟩
  | @cons s op s1 ops s2 hs hr ih =>
    intro hi hsy
    have hop := hi op List.mem_cons_self
    have hall : Allowed s op := by
      cases op <;> first | trivial | (exact hsy _) | (cases hop)
    have hsy1 : ∀ p, (s1.obj p).sync = false := by
      cases op with
      | zombies =>
        simp only [step] at hs; split at hs
        · cases hs; exact hsy
        · cases hs
      | reaped =>
        simp only [step] at hs; split at hs
        · cases hs; exact hsy
        · cases hs
      | dispatch =>
        simp only [step] at hs
        unfold dispatch at hs
        split at hs
        · cases hs
        · cases hs
          intro p
          simp only [see_obj, setObj_obj]
          split
          · exact hsy _
          · exact hsy p
      | reap q =>
        simp only [step] at hs
        unfold reap at hs
        split at hs
        · cases hs
        split at hs
        · cases hs
        dsimp only at hs
        by_cases hact : ((setKid s q { s.kid q with report := none }).obj q).status.active = true
        · rw [if_neg (by simpa using hact)] at hs
          split at hs
          · cases hs
            intro p
            simp only [queue_sync, see_obj, setObj_obj]
            split
            · exact hsy _
            · exact hsy p
          · cases hs
            intro p
            simp only [queue_sync, see_obj, setObj_obj, readOpen_sync, setKid_obj]
            by_cases hp : p = q
            · subst hp; simp [hsy]
            · simp [hp, hsy]
        · rw [if_pos hact] at hs
          cases hs; exact hsy
      | _ => cases hop
    obtain ⟨h1, h2⟩ := ih (fun o ho => hi o (List.mem_cons_of_mem _ ho)) hsy1
    exact ⟨.cons hall hs h1, h2⟩

theorem work_decreases {s s' : St} {L e} {op : Op} (hS : InvS s) (h : InvQ s L e) (hi : op.internal = true)
    (ha : Allowed s op) (hs : step s op = .ok s') : ∃ L' e', InvQ s' L' e' ∧ work s' L' e' < work s L e := by
  cases op with
  | zombies =>
    obtain ⟨L', e', h', hl⟩ := h.step hS ha hs
    refine ⟨L', e', h', ?_⟩
    have hl := hl rfl
    simp only [step] at hs
    split at hs
    · rename_i hg
      cases hs
      simp only [work, reports, hg, if_true, Bool.false_eq_true, if_false]
      dsimp only at hl
      split <;> omega
    · cases hs
  | reaped =>
    obtain ⟨L', e', h', hl⟩ := h.step hS ha hs
    refine ⟨L', e', h', ?_⟩
    have hl := hl rfl
    simp only [step] at hs
    split at hs
    · rename_i hg
      cases hs
      simp only [work, reports, hg.1, if_true, Bool.false_eq_true, if_false]
      dsimp only at hl
      omega
    · cases hs
  | dispatch =>
    obtain ⟨L', e', h', hl⟩ := h.dispatch hs
    refine ⟨L', e', h', ?_⟩
    simp only [step] at hs
    unfold dispatch at hs
    split at hs
    · cases hs
    · cases hs
      show 3 * reports s + 2 * (if s.got then 1 else 0) + (if s.reaping then 1 else 0) + load L' e' < _
      unfold work
      omega
  | reap q =>
    obtain ⟨L', e', h', hl⟩ := h.step hS ha hs
    refine ⟨L', e', h', ?_⟩
    have hl := hl rfl
    dsimp only at hl
    have key : s'.ids = s.ids ∧ s'.got = s.got ∧ s'.reaping = s.reaping ∧ q ∈ s.ids ∧
        (s.kid q).report ≠ none ∧ (s'.kid q).report = none ∧ ∀ p, p ≠ q → (s'.kid p).report = (s.kid p).report := by
      simp only [step] at hs
      unfold reap at hs
      split at hs
      · cases hs
      rename_i hg
      simp only [not_not] at hg
      split at hs
      · cases hs
      rename_i r hr
      have hne : (s.kid q).report ≠ none := by rw [hr]; simp
      dsimp only at hs
      by_cases hact : ((setKid s q { s.kid q with report := none }).obj q).status.active = true
      · rw [if_neg (by simpa using hact)] at hs
        split at hs
        · cases hs
          refine ⟨by simp, by simp, by simp, hg.2.2, hne, by simp, fun p hp => by simp [hp]⟩
        · cases hs
          refine ⟨by simp, by simp, by simp, hg.2.2, hne, by simp, fun p hp => by simp [hp]⟩
      · rw [if_pos hact] at hs
        cases hs
        refine ⟨by simp, by simp, by simp, hg.2.2, hne, by simp, fun p hp => by simp [hp]⟩
    obtain ⟨h1, h2, h3, h4, h5, h6, h7⟩ := key
    have hc := countP_change (f := fun p => (s.kid p).report.isSome) (g := fun p => (s'.kid p).report.isSome)
      (p := q) (fun p hp => by rw [h7 p hp]) hS.nodup h4
    rw [h6] at hc
    simp only [Option.isSome_none, Bool.false_eq_true, if_false, Option.isSome_iff_ne_none.mpr h5, if_true] at hc
    unfold work reports
    rw [h1, h2, h3]
    omega
  | _ => cases hi

theorem run_bounded {s s' : St} {ops : List Op} (hr : AllowedRun s ops s') :
    (∀ op ∈ ops, op.internal = true) → InvS s → ∀ {L e}, InvQ s L e → ops.length ≤ work s L e := by
  induction hr with
  | nil => intro _ _ L e _; exact Nat.zero_le _
  | cons ha hs _ ih =>
    intro hi hS L e h
    obtain ⟨L', e', h', hw⟩ := work_decreases hS h (hi _ List.mem_cons_self) ha hs
    have := ih (fun o ho => hi o (List.mem_cons_of_mem _ ho)) (hS.step ha hs) h'
    simp only [List.length_cons]
    omega

theorem AllowedRun.append {s s1 s2 : St} {a b : List Op} (h1 : AllowedRun s a s1) (h2 : AllowedRun s1 b s2) :
    AllowedRun s (a ++ b) s2 := by
  induction h1 with
  | nil => exact h2
  | cons ha hs _ ih => exact .cons ha hs (ih h2)

theorem AllowedRun.run {s s' : St} {ops : List Op} (h : AllowedRun s ops s') : Run s ops s' := by
  induction h with
  | nil s => exact .nil s
  | cons _ hs _ ih => exact .cons hs ih

/-- In a quiet state nothing is to be told and nothing is to be waited for. -/
theorem quiet_none {s : St} (hS : InvS s) (hsy : ∀ p, (s.obj p).sync = false) (hq : Quiet s) :
    s.chain = none ∧ ∀ p, (s.kid p).report = none := by
  constructor
  · cases hc : s.chain with
    | none => rfl
    | some p =>
      exfalso
      refine hq .dispatch rfl (see (setObj { s with chain := (s.obj p).next } p
        { s.obj p with next := none })
        (.call p ((setObj { s with chain := (s.obj p).next } p { s.obj p with next := none }).obj p).status)) ?_
      simp only [step, dispatch, hc]
  · intro p
    cases hr : (s.kid p).report with
    | none => rfl
    | some r =>
      exfalso
      have hne : (s.kid p).report ≠ none := by rw [hr]; simp
      have hact : (s.obj p).status.active = true := by
        rw [active_cases]; intro hd; exact hne ((hS.ps p).dead hd).1
      have hid := hS.act p hact
      rcases hS.flag p hne (hsy p) with hg | hg
      · exact hq .zombies rfl { s with got := false, reaping := true } (by simp only [step, if_pos hg])
      · have hpos : s.count > 0 := by
          rw [hS.count]
          have : 0 < s.ids.countP (counted s) :=
            List.countP_pos_iff.mpr ⟨p, hid, by simp [counted, hact, hsy]⟩
          omega
        have hex : ∃ s', reap s p = .ok s' := by
          unfold reap
          rw [if_neg (by simp [hg, hpos, hid]), hr]
          dsimp only
          rw [if_neg (by simpa using hact)]
          cases r with
          | stopped => exact ⟨_, rfl⟩
          | exited st => exact ⟨_, rfl⟩
        obtain ⟨s', hs'⟩ := hex
        exact hq (.reap p) rfl s' hs'

/-! ### C61 -/

/-- Whenever no process is queued, the function of every process has been called after every change of
its state. -/
theorem C61_every_change_told_partial {ops : List Op} {s : St} (h : AllowedRun init ops s)
    (hc : s.chain = none) (p : Id) : Answered s.log p := by
  obtain ⟨L, e, hQ⟩ := InvQ.run h InvS.init ⟨_, _, InvQ.init⟩
  rw [← waiting_iff]
  cases hw : waiting s.log p with
  | false => rfl
  | true =>
    have := hQ.wait p hw
    rw [hQ.q.empty_iff.mp hc] at this
    cases this

/-- A round of the event loop ends, whatever the kernel's choices; and then every change has been told,
and every child that has ended is known to have ended, with its status. -/
theorem C61_event_loop_round_partial {ops : List Op} {s : St} (h : AllowedRun init ops s)
    (hsy : ∀ p, (s.obj p).sync = false) :
    (∃ n, ∀ ops' s', (∀ op ∈ ops', op.internal = true) → Run s ops' s' → ops'.length ≤ n) ∧
    ∀ ops' s', (∀ op ∈ ops', op.internal = true) → Run s ops' s' → Quiet s' → ∀ p,
      Answered s'.log p ∧
      ∀ st, ended s'.log p = some st → (s'.obj p).status = .dead ∧ exitStatus (s'.obj p) = some st := by
  have hS := InvS.init.run h
  obtain ⟨L, e, hQ⟩ := InvQ.run h InvS.init ⟨_, _, InvQ.init⟩
  refine ⟨⟨work s L e, ?_⟩, ?_⟩
  · intro ops' s' hi hr
    exact run_bounded (hr.allowed_internal hi hsy).1 hi hS hQ
  · intro ops' s' hi hr hq p
    obtain ⟨ha, hsy'⟩ := hr.allowed_internal hi hsy
    have hS' := hS.run ha
    obtain ⟨hc, hrep⟩ := quiet_none hS' hsy' hq
    refine ⟨C61_every_change_told_partial (h.append ha) hc p, ?_⟩
    intro st hen
    have hps := hS'.ps p
    have hdead : (s'.obj p).status = .dead := by
      by_contra hd
      have hact := active_cases.mpr hd
      cases hal : (s'.kid p).alive with
      | true => have := (hps.alive hal).2.1; rw [hen] at this; cases this
      | false =>
        obtain ⟨x, hx, _⟩ := hps.gone hal hact
        rw [hrep p] at hx; cases hx
    refine ⟨hdead, ?_⟩
    unfold exitStatus
    rw [if_pos hdead, (hps.dead hdead).2.2, hen]

/-- The function is not called more often than the state changes. -/
theorem C61_not_more_calls_than_changes_partial {ops : List Op} {s : St} (h : AllowedRun init ops s) (p : Id) :
    calls s.log p ≤ changes s.log p := by
  obtain ⟨L, e, hQ⟩ := InvQ.run h InvS.init ⟨_, _, InvQ.init⟩
  have := hQ.count p
  omega

/-- When the function is called, the state it sees is the state the process is in. -/
theorem C61_call_sees_state {ops : List Op} {s : St} (h : Run init ops s) (p : Id) :
    (s.obj p).status = now s.log p ∧
    ∀ after st before, s.log = after ++ .call p st :: before → st = now before p :=
  ⟨(InvO.init.run h).st p, fun a st b => (InvO.init.run h).truth p a st b⟩

/-- No null pointer is followed and no loop is endless. -/
theorem C61_no_crash_partial {ops : List Op} {s : St} {op : Op} (h : AllowedRun init ops s)
    (ha : Allowed s op) : step s op ≠ .crash := by
  obtain ⟨L, e, hQ⟩ := InvQ.run h InvS.init ⟨_, _, InvQ.init⟩
  cases op with
  | notify1 p =>
    simp only [step]
    split
    · by_cases hn : (s.obj p).next = none
      · unfold notify1; rw [if_pos hn]; intro hh; cases hh
      · obtain ⟨s', hs', _⟩ := hQ.notify1 hn
        rw [hs']; intro hh; cases hh
    · intro hh; cases hh
  | gc marked =>
    simp only [step]
    split
    · unfold sweep
      rcases ha with hc | ⟨p, hp, hm, _⟩
      · rw [if_pos hc]; intro hh; cases hh
      · rw [if_neg (by rw [hp]; simp), hp, firstMarked, if_pos hm]; intro hh; cases hh
    · intro hh; cases hh
  | reap p =>
    simp only [step]; unfold reap
    split
    · intro hh; cases hh
    split
    · intro hh; cases hh
    dsimp only
    split
    · intro hh; cases hh
    split <;> (intro hh; cases hh)
  | dispatch =>
    simp only [step]; unfold dispatch
    split <;> (intro hh; cases hh)
  | called p st =>
    simp only [step]
    split
    · split
      · split <;> (intro hh; cases hh)
      · intro hh; cases hh
    · intro hh; cases hh
  | make => simp only [step]; intro hh; cases hh
  | write | halt | exit | start | resume | close | read | zombies | reaped | call | callRead =>
    simp only [step]; split <;> (intro hh; cases hh)

/-- `process-exit-value` of a program that has exited with this value. -/
theorem C61_exit_value_partial (o : Obj) (v : Nat) (hv : v < 256) (hd : o.status = .dead)
    (he : exitStatus o = some (v * 256)) : exitValue o = some v := by
  unfold exitStatus at he
  rw [if_pos hd] at he
  unfold exitValue
  rw [if_pos hd, he]
  simp [Nat.mod_eq_of_lt hv]

/-! ### C62 -/

/-- What arrives is what has been written, in that order, as far as it has arrived. -/
theorem C62_output_in_order {ops : List Op} {s : St} (h : Run init ops s) (p : Id) (err : Bool) :
    received s.log p err <+: sent s.log p err :=
  ⟨_, (InvO.init.run h).io p err⟩

/-- When the end of a child is told, all its output has arrived, unless `close-process` was called. -/
theorem C62_all_output_before_the_end {ops : List Op} {s : St} (h : Run init ops s) (p : Id)
    (hc : Op.close p ∉ ops) (err : Bool) {after before : List Obs}
    (hl : s.log = after ++ .change p .dead :: before) : received before p err = sent before p err :=
  (InvC.run h hc InvO.init (InvC.init p)).all _ _ _ hl

/-! ### Witnesses -/

/-- Executing a list of operations. -/
def exec : St → List Op → Option St
  | s, [] => some s
  | s, op :: ops => match step s op with
    | .ok s' => exec s' ops
    | _ => none

theorem exec_run : ∀ {ops : List Op} {s s' : St}, exec s ops = some s' → Run s ops s'
  | [], s, s', h => by cases h; exact .nil s
  | op :: ops, s, s', h => by
    rw [exec] at h
    split at h
    · rename_i s1 h1; exact .cons h1 (exec_run h)
    · cases h

/-- Observed, oldest first. -/
def story (ops : List Op) : Option (List Obs) := (exec init ops).map fun s => s.log.reverse

/-- One child that writes, stops, is continued, writes and ends. -/
def life : List Op :=
  [.make, .start 0, .write 0 false [1, 2], .read 0 false, .halt 0, .zombies, .reap 0, .reaped, .dispatch,
    .resume 0, .write 0 false [3], .write 0 true [4], .exit 0 (7 * 256), .dispatch, .zombies, .reap 0, .reaped,
    .dispatch]

example : story life = some [.start 0, .wrote 0 false [1, 2], .data 0 false [1, 2], .change 0 .stopped,
    .call 0 .stopped, .change 0 .running, .wrote 0 false [3], .wrote 0 true [4], .ended 0 (7 * 256),
    .call 0 .running, .data 0 false [3], .data 0 true [4], .change 0 .dead, .call 0 .dead] := by
  decide +kernel

example : (exec init life).map (fun s => (s.chain, exitValue (s.obj 0))) = some (none, some 7) := by
  decide +kernel

/-- The conditions of the theorems, as a test. -/
def allowed (s : St) : Op → Bool
  | .gc marked => match s.chain with
    | none => true
    | some p => marked p && decide ((s.obj p).next = none)
  | .reap p => !(s.obj p).sync
  | _ => true

theorem allowed_sound {s : St} {op : Op} (h : allowed s op = true) : Allowed s op := by
  cases op with
  | gc marked =>
    unfold allowed at h
    unfold Allowed
    cases hc : s.chain with
    | none => exact Or.inl rfl
    | some p =>
      rw [hc] at h
      simp only [Bool.and_eq_true, decide_eq_true_eq] at h
      exact Or.inr ⟨p, rfl, h.1, h.2⟩
  | reap p => simpa [allowed, Allowed] using h
  | _ => trivial

def execA : St → List Op → Option St
  | s, [] => some s
  | s, op :: ops => if allowed s op then match step s op with
    | .ok s' => execA s' ops
    | _ => none
    else none

theorem execA_run : ∀ {ops : List Op} {s s' : St}, execA s ops = some s' → AllowedRun s ops s'
  | [], s, s', h => by cases h; exact .nil s
  | op :: ops, s, s', h => by
    rw [execA] at h
    split at h
    · rename_i ha
      split at h
      · rename_i s1 h1; exact .cons (allowed_sound ha) h1 (execA_run h)
      · cases h
    · cases h

/-- Two children end at the same time; a third is collected. -/
def two : List Op :=
  [.make, .make, .make, .gc (fun p => p != 2), .start 0, .start 1, .exit 0 0, .exit 1 256, .zombies, .reap 1, .reap 0,
    .reaped, .dispatch, .gc (fun _ => true), .dispatch]

/-- The hypotheses of the theorems hold for these histories, which tell something. -/
example : ∃ s, AllowedRun init life s ∧ s.chain = none ∧ changes s.log 0 = 3 ∧ calls s.log 0 = 3 :=
  ⟨(execA init life).get (by decide +kernel), execA_run (by rw [Option.some_get]), by decide +kernel,
    by decide +kernel, by decide +kernel⟩

example : ∃ s, AllowedRun init two s ∧ s.chain = none ∧ changes s.log 0 = 1 ∧ changes s.log 1 = 1 ∧
    calls s.log 1 = 1 :=
  ⟨(execA init two).get (by decide +kernel), execA_run (by rw [Option.some_get]), by decide +kernel,
    by decide +kernel, by decide +kernel, by decide +kernel⟩

/-- A state with something to do for the event loop: two children have ended. -/
example : ∃ s, AllowedRun init (two.take 8) s ∧ (∀ p, (s.obj p).sync = false) ∧ s.got = true ∧
    ended s.log 1 = some 256 := by
  refine ⟨(execA init (two.take 8)).get (by decide +kernel), execA_run (by rw [Option.some_get]), ?_,
    by decide +kernel, by decide +kernel⟩
  intro p
  match p with
  | 0 => decide +kernel
  | 1 => decide +kernel
  | n + 2 => rfl

/-! ### Where the code fails -/

/-- Three children end; then the collector runs, all three objects being referenced. -/
def lost : List Op :=
  [.make, .make, .make, .start 0, .start 1, .start 2, .exit 0 0, .exit 1 0, .exit 2 0, .zombies, .reap 0, .reap 1,
    .reap 2, .reaped, .gc (fun _ => true), .dispatch]

theorem not_answered {l : List Obs} {p : Id} (h : waiting l p = true) : ¬ Answered l p := by
  intro ha
  rw [← waiting_iff] at ha
  rw [ha] at h
  cases h

/-- The collector loses the other two: nothing is queued, and their functions have not been called;
one of them will never be told of anything again, and waiting for its output follows a null pointer. -/
theorem C61_collection_violated : ∃ s, Run init lost s ∧ s.chain = none ∧
    ¬ Answered s.log 0 ∧ ¬ Answered s.log 1 ∧
    queueNotify s 1 = s ∧ (match step s (.notify1 1) with | .crash => true | _ => false) = true :=
  ⟨(exec init lost).get (by decide +kernel), exec_run (by rw [Option.some_get]), by decide +kernel,
    not_answered (by decide +kernel), not_answered (by decide +kernel),
    by unfold queueNotify; exact if_neg (by decide +kernel), by decide +kernel⟩

/-- One child ends; its object is not referenced; the collector runs before the event loop. -/
def dropped : List Op :=
  [.make, .start 0, .exit 0 0, .zombies, .reap 0, .reaped, .gc (fun _ => false)]

/-- Its function is never called. -/
theorem C61_unreferenced_violated : ∃ s, Run init dropped s ∧ s.chain = none ∧ s.ids = [] ∧
    ¬ Answered s.log 0 :=
  ⟨(exec init dropped).get (by decide +kernel), exec_run (by rw [Option.some_get]), by decide +kernel,
    by decide +kernel, not_answered (by decide +kernel)⟩

/-- A child is stopped, continued and ends, before its function is called. -/
def ring : List Op :=
  [.make, .start 0, .halt 0, .zombies, .reap 0, .reaped, .resume 0, .exit 0 0, .zombies, .reap 0, .reaped]

theorem firstMarked_self {s : St} {p : Id} (h : (s.obj p).next = some p) :
    ∀ n, firstMarked s (fun _ => false) n (some p) = none
  | 0 => rfl
  | n + 1 => by
    rw [firstMarked, if_neg (by simp), h]
    exact firstMarked_self h n

/-- It is linked to itself; if it is not referenced then, the collector does not end. -/
theorem C61_endless_collection_violated : ∃ s, Run init ring s ∧ s.chain = some 0 ∧
    (∀ n, firstMarked s (fun _ => false) n s.chain = none) ∧ step s (.gc fun _ => false) = .crash := by
  refine ⟨(exec init ring).get (by decide +kernel), exec_run (by rw [Option.some_get]), by decide +kernel, ?_, ?_⟩
  · intro n
    have hc : ((exec init ring).get (by decide +kernel)).chain = some 0 := by decide +kernel
    rw [hc]
    exact firstMarked_self (by decide +kernel) n
  · have hc : ((exec init ring).get (by decide +kernel)).chain = some 0 := by decide +kernel
    have hi : ((exec init ring).get (by decide +kernel)).ids = [0] := by decide +kernel
    simp only [step]
    rw [if_pos (by rw [hi]; decide +kernel)]
    unfold sweep
    rw [hc, if_neg (by simp), firstMarked_self (by decide +kernel)]

/-- `call-process` while a child runs; its output function lets the event loop run when the child of
`call-process` has ended; then the other child ends. -/
def nested : List Op :=
  [.make, .make, .start 0, .call 1, .exit 1 0, .zombies, .reap 1, .reaped, .dispatch, .exit 0 0, .zombies, .reaped]

/-- The child that was running has ended, but nothing is left to be done: it is never waited for, its
function is not called, and it is still said to be running. -/
theorem C61_nested_call_process_violated : ∃ s, Run init nested s ∧ s.chain = none ∧ Quiet s ∧
    ended s.log 0 = some 0 ∧ (s.obj 0).status = .running := by
  refine ⟨(exec init nested).get (by decide +kernel), exec_run (by rw [Option.some_get]), by decide +kernel, ?_,
    by decide +kernel, by decide +kernel⟩
  have h1 : ((exec init nested).get (by decide +kernel)).chain = none := by decide +kernel
  have h2 : ((exec init nested).get (by decide +kernel)).reaping = false := by decide +kernel
  have h3 : ((exec init nested).get (by decide +kernel)).got = false := by decide +kernel
  intro op hi s'
  cases op with
  | zombies => simp only [step]; rw [h3]; simp
  | reap p => simp only [step]; unfold reap; rw [h2]; simp
  | reaped => simp only [step]; rw [h2]; simp
  | dispatch => simp only [step]; unfold dispatch; rw [h1]; simp
  | _ => cases hi

/-- One child has ended and the end is known: `accept-process-output-1` does not find it, for the
last in the chain is taken not to be in it. -/
theorem C61_accept_output_violated : ∃ s, AllowedRun init (dropped.take 6) s ∧ ¬ Answered s.log 0 ∧
    step s (.notify1 0) = .no := by
  refine ⟨(execA init (dropped.take 6)).get (by decide +kernel), execA_run (by rw [Option.some_get]),
    not_answered (by decide +kernel), ?_⟩
  have hi : ((execA init (dropped.take 6)).get (by decide +kernel)).ids = [0] := by decide +kernel
  simp only [step]
  rw [if_pos (by rw [hi]; decide)]
  unfold notify1
  exact if_pos (by decide +kernel)

/-- A child killed by a signal has the value 0, like one that succeeds; nil is documented. -/
theorem C61_exit_value_violated : ∃ s, AllowedRun init
    [.make, .start 0, .exit 0 9, .zombies, .reap 0, .reaped, .dispatch] s ∧
    ended s.log 0 = some 9 ∧ exitValue (s.obj 0) = some 0 :=
  ⟨(execA init [.make, .start 0, .exit 0 9, .zombies, .reap 0, .reaped, .dispatch]).get (by decide +kernel),
    execA_run (by rw [Option.some_get]), by decide +kernel, by decide +kernel⟩

/-- `close-process`: what is in the pipes is lost, although the end is told. -/
theorem C62_close_process_loses : ∃ s, Run init
    [.make, .start 0, .write 0 false [1], .close 0, .exit 0 0, .zombies, .reap 0, .reaped, .dispatch] s ∧
    sent s.log 0 false = [1] ∧ received s.log 0 false = [] ∧ now s.log 0 = .dead :=
  ⟨(exec init [.make, .start 0, .write 0 false [1], .close 0, .exit 0 0, .zombies, .reap 0, .reaped, .dispatch]).get
    (by decide +kernel), exec_run (by rw [Option.some_get]), by decide +kernel, by decide +kernel, by decide +kernel⟩

end Rep.Proc
