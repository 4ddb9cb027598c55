import Verif.Proxy.Inv

/-
C103: a function that was moved to a thread of its own.
-/

namespace Rep.Proxy

/-- For every history (with waiting times that are over, deletion, exceptions): what a call returns, or
raises, in its thread is what the function gives for it if all calls are carried out one after the
other in the order in which they were made; a call returns only in the thread that made it, and once. -/
theorem C103_results (F : Fn) (st0 : Nat) (as : List Act) (s : State) (h : run F (.start st0) as = some s) :
    (∀ t n o, .ret t n o ∈ s.log →
      (callers s.log)[n]? = some (t, true) ∧ (outs F st0 (args s.log))[n]? = some o ∧ o ≠ .self) ∧
    ∀ t o n, s.log.count (.ret t n o) ≤ 1 ∧ (∀ t' o', .ret t n o ∈ s.log → .ret t' n o' ∈ s.log → t = t' ∧ o = o') := by
  obtain ⟨k, hi⟩ := run_inv as _ s 0 (start_inv F st0) h
  refine ⟨fun t n o hm => ?_, fun t o n => ⟨?_, ?_⟩⟩
  · obtain ⟨a, b, c, -⟩ := hi.ret t n o hm
    exact ⟨a, b, c⟩
  · have : s.log.count (.ret t n o) ≤ (rets s.log).count n := by
      clear hi h
      generalize s.log = l
      induction l with
      | nil => simp
      | cons x l ih =>
        cases x with
        | ret t' n' o' =>
          have e1 : rets (.ret t' n' o' :: l) = n' :: rets l := rfl
          rw [e1, List.count_cons, List.count_cons]
          by_cases e : Seen.ret t' n' o' = Seen.ret t n o
          · cases e; simpa using ih
          · simp only [beq_iff_eq, e, if_false]
            omega
        | sent _ _ _ => simpa [rets, List.count_cons] using ih
        | badArg _ _ => simpa [rets, List.count_cons] using ih
    exact Nat.le_trans this (List.nodup_iff_count_le_one.1 hi.nodup n)
  · intro t' o' h1 h2
    obtain ⟨a, b, -⟩ := hi.ret t n o h1
    obtain ⟨a', b', -⟩ := hi.ret t' n o' h2
    rw [a] at a'; rw [b] at b'
    exact ⟨by simpa using a', by simpa using b'⟩

/-! ### every call is answered -/

/-- The guard: the function does not call its own proxy, and raises no exception in asynchronous calls. -/
def Good (F : Fn) (st0 : Nat) (l : List Seen) : Prop :=
  ∀ (n : Nat) (o : Out), (outs F st0 (args l))[n]? = some o → o ≠ Out.self ∧ ∀ t e, (callers l)[n]? = some (t, false) → o ≠ Out.raise e

/-- The thread of the proxy is there. -/
def Alive (s : State) : Prop := s.closed = false ∧ (s.worker = .idle ∨ ∃ m, s.worker = .busy m)

theorem step_log {F : Fn} {s s' : State} {a : Act} (h : step F s a = some s') : ∃ x, s'.log = s.log ++ x ∧ (a.internal = true → calls x = []) := by
  unfold step at h
  split at h
  · cases h
  cases a with
  | finish =>
    simp only at h
    split at h
    · cases h
      refine ⟨[], ?_, fun _ => rfl⟩
      unfold finish
      split <;> simp
    · cases h
  | _ =>
    simp only at h
    repeat' (first | (split at h) | (cases h; done))
    all_goals (cases h; first | exact ⟨[], (List.append_nil _).symm, fun _ => rfl⟩ | exact ⟨_, rfl, fun _ => rfl⟩ | exact ⟨_, rfl, fun e => by cases e⟩)

theorem Good_mono {F : Fn} {st0 : Nat} {l x : List Seen} (h : Good F st0 (l ++ x)) : Good F st0 l := by
  intro n o hn
  have ha : args (l ++ x) = args l ++ args x := by simp [args, List.filterMap_append]
  have hc : callers (l ++ x) = callers l ++ callers x := by simp [callers, List.filterMap_append]
  obtain ⟨h1, h2⟩ := h n o (by rw [ha, outs_append, List.getElem?_append_left (List.getElem?_eq_some_iff.1 hn).1, hn])
  refine ⟨h1, fun t e hc' => h2 t e ?_⟩
  rw [hc, List.getElem?_append_left (List.getElem?_eq_some_iff.1 hc').1, hc']

theorem step_alive {F : Fn} {st0 k : Nat} {s s' : State} (hi : Inv F st0 k s) (hg : Good F st0 s.log) (ha : Alive s) {a : Act}
    (h1 : a ≠ .fetchTimeout) (h2 : a ≠ .delete) (h : step F s a = some s') : Alive s' := by
  unfold step at h
  split at h
  · cases h
  cases a with
  | fetchTimeout => exact absurd rfl h1
  | delete => exact absurd rfl h2
  | call t x => simp only at h; split at h <;> cases h; exact ha
  | post t x => simp only at h; split at h <;> cases h; exact ha
  | fetch =>
    simp only at h
    split at h
    · cases h; exact ⟨ha.1, Or.inr ⟨_, rfl⟩⟩
    · cases h
  | get t =>
    simp only at h
    split at h
    · cases h
    · split at h <;> cases h; exact ha
  | getTimeout t =>
    simp only at h
    split at h
    · cases h
    · split at h <;> cases h; exact ha
  | finish =>
    simp only at h
    split at h
    · next m hw =>
      cases h
      obtain ⟨b1, b2, b3⟩ := hi.busy m hw
      obtain ⟨t, x, b, hc, rfl⟩ := msgs_get b1
      have harg : (args s.log)[k]? = some x := by rw [args_eq, List.getElem?_map, hc]; rfl
      have hcl : (callers s.log)[k]? = some (t, b) := by rw [callers_eq, List.getElem?_map, hc]; rfl
      obtain ⟨o1, -⟩ := outs_get F (args s.log) st0 k x harg
      rw [← b3] at o1
      obtain ⟨g1, g2⟩ := hg k _ o1
      cases b with
      | true =>
        simp only [msg, if_true, finish]
        cases hF : F s.st x with
        | mk st' o =>
          rw [hF] at g1
          cases o with
          | value v => exact ⟨ha.1, Or.inl rfl⟩
          | raise v => exact ⟨ha.1, Or.inl rfl⟩
          | self => exact absurd rfl g1
      | false =>
        simp only [msg, Bool.false_eq_true, if_false, finish]
        cases hF : F s.st x with
        | mk st' o =>
          rw [hF] at g1 g2
          cases o with
          | value v => exact ⟨ha.1, Or.inl rfl⟩
          | raise v => exact absurd rfl (g2 t v hcl)
          | self => exact absurd rfl g1
    · cases h

theorem run_log {F : Fn} : ∀ (as : List Act) (s s' : State), run F s as = some s' → ∃ x, s'.log = s.log ++ x := by
  intro as
  induction as with
  | nil => intro s s' h; cases h; exact ⟨[], by simp⟩
  | cons a as ih =>
    intro s s' h
    simp only [run] at h
    cases hs : step F s a with
    | none => rw [hs] at h; cases h
    | some s1 =>
      rw [hs] at h
      obtain ⟨x, hx, -⟩ := step_log hs
      obtain ⟨y, hy⟩ := ih s1 s' h
      exact ⟨x ++ y, by rw [hy, hx, List.append_assoc]⟩

theorem run_alive {F : Fn} {st0 : Nat} : ∀ (as : List Act) (s s' : State) (k : Nat), Inv F st0 k s → Alive s → Good F st0 s'.log →
    (∀ a ∈ as, a ≠ .fetchTimeout ∧ a ≠ .delete) → run F s as = some s' → Alive s' := by
  intro as
  induction as with
  | nil => intro s s' k _ ha _ _ h; cases h; exact ha
  | cons a as ih =>
    intro s s' k hi ha hg hq h
    simp only [run] at h
    cases hs : step F s a with
    | none => rw [hs] at h; cases h
    | some s1 =>
      rw [hs] at h
      obtain ⟨k1, h1⟩ := step_inv hi hs
      obtain ⟨x, hx, -⟩ := step_log hs
      obtain ⟨y, hy⟩ := run_log as s1 s' h
      have hg' : Good F st0 s.log := by
        rw [hy, hx, List.append_assoc] at hg
        exact Good_mono hg
      have q := hq a List.mem_cons_self
      exact ih s1 s' k1 h1 (step_alive hi hg' ha q.1 q.2 hs) hg (fun b hb => hq b (List.mem_cons_of_mem _ hb)) h

/-- The calls that wait for a result. -/
def syncs (l : List Seen) : List Nat :=
  (List.range (callers l).length).filter fun n => (callers l)[n]?.map Prod.snd == some true

def busyN : Worker → Nat
  | .busy _ => 1
  | _ => 0

def left (s : State) : Nat := 2 * s.inport.length + busyN s.worker + ((syncs s.log).length - (rets s.log).length)

theorem syncs_mem {l : List Seen} {n t : Nat} (h : (callers l)[n]? = some (t, true)) : n ∈ syncs l := by
  simp only [syncs, List.mem_filter, List.mem_range]
  exact ⟨(List.getElem?_eq_some_iff.1 h).1, by rw [h]; rfl⟩

theorem step_left {F : Fn} {st0 k : Nat} {s s' : State} (hi : Inv F st0 k s) {a : Act} (hin : a.internal = true) (h : step F s a = some s') :
    left s' < left s := by
  unfold step at h
  split at h
  · cases h
  cases a with
  | call => cases hin
  | post => cases hin
  | delete => cases hin
  | fetchTimeout => cases hin
  | getTimeout => cases hin
  | fetch =>
    simp only at h
    split at h
    · next hw hq =>
      cases h
      simp only [left, hw, hq, busyN, List.length_cons]
      omega
    · cases h
  | finish =>
    simp only at h
    split at h
    · next m hw =>
      cases h
      unfold finish
      split <;> simp [left, hw, busyN]
    · cases h
  | get t =>
    simp only at h
    split at h
    · cases h
    · next n hw =>
      split at h
      · cases h
      · cases h
        obtain ⟨w1, w2⟩ := hi.waits t n hw
        have hsub : n :: rets s.log ⊆ syncs s.log := by
          intro j hj
          rcases List.mem_cons.1 hj with rfl | hj
          · exact syncs_mem w1
          · obtain ⟨t', o, hm⟩ := ret_mem.1 hj
            exact syncs_mem (hi.ret t' j o hm).1
        have hlen := (List.subperm_of_subset (List.nodup_cons.2 ⟨w2, hi.nodup⟩) hsub).length_le
        have e1 : ∀ (o : Out), callers (s.log ++ [.ret t n o]) = callers s.log := by intro o; simp [callers, List.filterMap_append]
        have e2 : ∀ (o : Out), rets (s.log ++ [.ret t n o]) = rets s.log ++ [n] := by intro o; simp [rets, List.filterMap_append]
        simp only [List.length_cons] at hlen
        simp only [left, syncs, e1, e2, List.length_append, List.length_cons, List.length_nil] at hlen ⊢
        omega

theorem run_left {F : Fn} {st0 : Nat} : ∀ (as : List Act) (s s' : State) (k : Nat), Inv F st0 k s → (∀ a ∈ as, a.internal = true) →
    run F s as = some s' → as.length + left s' ≤ left s := by
  intro as
  induction as with
  | nil => intro s s' k _ _ h; cases h; simp
  | cons a as ih =>
    intro s s' k hi hq h
    simp only [run] at h
    cases hs : step F s a with
    | none => rw [hs] at h; cases h
    | some s1 =>
      rw [hs] at h
      obtain ⟨k1, h1⟩ := step_inv hi hs
      have := step_left hi (hq a List.mem_cons_self) hs
      have := ih s1 s' k1 h1 (fun b hb => hq b (List.mem_cons_of_mem _ hb)) h
      simp only [List.length_cons]
      omega

theorem run_calls {F : Fn} : ∀ (as : List Act) (s s' : State), (∀ a ∈ as, a.internal = true) → run F s as = some s' → calls s'.log = calls s.log := by
  intro as
  induction as with
  | nil => intro s s' _ h; cases h; rfl
  | cons a as ih =>
    intro s s' hq h
    simp only [run] at h
    cases hs : step F s a with
    | none => rw [hs] at h; cases h
    | some s1 =>
      rw [hs] at h
      obtain ⟨x, hx, hc⟩ := step_log hs
      have := hc (hq a List.mem_cons_self)
      rw [ih s1 s' (fun b hb => hq b (List.mem_cons_of_mem _ hb)) h, hx]
      simp only [calls, List.filterMap_append] at this ⊢
      rw [this, List.append_nil]

theorem left_le {F : Fn} {st0 k : Nat} {s : State} (hi : Inv F st0 k s) (ha : Alive s) : left s ≤ 3 * (args s.log).length := by
  have h1 : (syncs s.log).length ≤ (args s.log).length := by
    refine Nat.le_trans (List.length_filter_le _ _) ?_
    rw [List.length_range, callers_eq, args_eq, List.length_map, List.length_map]
    exact Nat.le_refl _
  have h2 : (args s.log).length = (calls s.log).length := by rw [args_eq, List.length_map]
  have h3 : (msgs (calls s.log)).length = (calls s.log).length := by simp [msgs]
  have h4 : 2 * s.inport.length + busyN s.worker ≤ 2 * (calls s.log).length := by
    rcases ha.2 with e | ⟨m, e⟩
    · have := congrArg List.length (hi.idle e).1
      rw [List.length_drop, h3] at this
      rw [e]; simp only [busyN]; omega
    · obtain ⟨b1, b2, -⟩ := hi.busy m e
      have hk := (List.getElem?_eq_some_iff.1 b1).1
      have := congrArg List.length b2
      rw [List.length_drop, h3] at this
      rw [e]; simp only [busyN]; omega
  unfold left
  omega

/-- If the function does not call its own proxy, raises no exception in asynchronous calls, no
waiting time is over and the proxy is not deleted: however the threads run, without new calls they
come to rest after at most three steps for each call, and then no thread waits. -/
theorem C103_answered_partial (F : Fn) (st0 : Nat) (as : List Act) (s : State) (h : run F (.start st0) as = some s)
    (hu : Untimed as) (hd : .delete ∉ as) (hg : Good F st0 s.log) (bs : List Act) (hb : ∀ b ∈ bs, b.internal = true) (s' : State)
    (h' : run F s bs = some s') :
    bs.length ≤ 3 * (args s.log).length ∧
    ((∀ a, a.internal = true → step F s' a = none) → ∀ t, s'.waits t = none) := by
  obtain ⟨k, hi⟩ := run_inv as _ s 0 (start_inv F st0) h
  have ha : Alive s := run_alive as _ s 0 (start_inv F st0) ⟨rfl, Or.inl rfl⟩ hg
    (fun a hm => ⟨(hu a hm).1, fun e => hd (e ▸ hm)⟩) h
  refine ⟨?_, ?_⟩
  · have := run_left bs s s' k hi hb h'
    have := left_le hi ha
    omega
  · intro hstop t
    obtain ⟨k', hi'⟩ := run_inv bs s s' k hi h'
    have hc := run_calls bs s s' hb h'
    have hg' : Good F st0 s'.log := by
      unfold Good
      rw [args_eq, callers_eq, hc, ← args_eq, ← callers_eq]
      exact hg
    have ha' : Alive s' := run_alive bs s s' k hi ha hg'
      (fun a hm => ⟨fun e => (by have := hb a hm; rw [e] at this; cases this), fun e => (by have := hb a hm; rw [e] at this; cases this)⟩) h'
    cases hw : s'.waits t with
    | none => rfl
    | some n =>
      exfalso
      obtain ⟨w1, w2⟩ := hi'.waits t n hw
      have hn : n < (calls s'.log).length := by
        have := (List.getElem?_eq_some_iff.1 w1).1
        rw [callers_eq, List.length_map] at this
        exact this
      by_cases hnk : n < k'
      · have hp := hi'.kept t n hnk w1 w2
        have := hstop (.get t) rfl
        simp only [step, ha'.1, Bool.false_eq_true, if_false, hw] at this
        cases e : s'.ports n with
        | nil => exact hp e
        | cons r rest => rw [e] at this; cases this
      · rcases ha'.2 with e | ⟨m, e⟩
        · have := hstop .fetch rfl
          have hl := congrArg List.length (hi'.idle e).1
          rw [List.length_drop] at hl
          simp only [step, ha'.1, Bool.false_eq_true, if_false, e] at this
          cases q : s'.inport with
          | nil => rw [q] at hl; simp [msgs] at hl; omega
          | cons m ms => rw [q] at this; cases this
        · have := hstop .finish rfl
          simp [step, ha'.1, e] at this

theorem dead_run (F : Fn) (s : State) (h : s.worker = .dead) : ∀ (as : List Act) (s' : State), run F s as = some s' →
    s'.worker = .dead ∧ s'.st = s.st := by
  intro as
  induction as generalizing s with
  | nil => intro s' e; cases e; exact ⟨h, rfl⟩
  | cons a as ih =>
    intro s' e
    simp only [run] at e
    cases hs : step F s a with
    | none => rw [hs] at e; cases e
    | some s1 =>
      rw [hs] at e
      have : s1.worker = .dead ∧ s1.st = s.st := by
        unfold step at hs
        split at hs
        · cases hs
        cases a <;> simp only [h] at hs <;> repeat' (first | (split at hs) | (cases hs; done))
        all_goals (cases hs; first | exact ⟨h, rfl⟩ | exact ⟨rfl, rfl⟩)
      obtain ⟨a1, a2⟩ := ih s1 this.1 s' e
      exact ⟨a1, a2.trans this.2⟩

/-- After `thread-proxy-delete` the function is not carried out again. -/
theorem C103_deleted (F : Fn) (s s1 s2 : State) (as : List Act) (h : step F s .delete = some s1) (h2 : run F s1 as = some s2) :
    s2.st = s.st := by
  unfold step at h
  split at h
  · cases h
  · cases h
    exact (dead_run F _ rfl as s2 h2).2

example : (run (fun st a => (st + a, .value (st + a))) (.start 0) [.call 1 5, .call 2 6, .fetch, .finish, .delete, .get 1]).map (fun s => (s.st, s.log)) =
    some (5, [.sent 1 5 true, .sent 2 6 true, .ret 1 0 (.value 5)]) := by decide +kernel

/-! ### an example, and where calls are not answered -/

/-- A counter: adds its argument to its state and returns it; 13 is an error, 99 calls the proxy. -/
def counter : Fn := fun st a => if a = 13 then (st, .raise 13) else if a = 99 then (st, .self) else (st + a, .value (st + a))

example : (run counter (.start 0) [.call 1 5, .post 2 7, .fetch, .call 2 13, .finish, .fetch, .get 1, .call 1 1, .finish, .fetch, .finish, .fetch,
    .get 2, .finish, .get 1]).map State.log =
    some [.sent 1 5 true, .sent 2 7 false, .sent 2 13 true, .ret 1 0 (.value 5), .sent 1 1 true, .ret 2 2 (.raise 13), .ret 1 3 (.value 13)] := by
  decide +kernel

example : Good counter 0 [.sent 1 5 true, .sent 2 7 false, .sent 2 13 true] := by
  have e : outs counter 0 (args [.sent 1 5 true, .sent 2 7 false, .sent 2 13 true]) = [.value 5, .value 12, .raise 13] := by decide +kernel
  intro n o h
  rw [e] at h
  match n, h with
  | 0, h => cases h; exact ⟨nofun, nofun⟩
  | 1, h => cases h; exact ⟨nofun, nofun⟩
  | 2, h => cases h; exact ⟨nofun, fun t e hc => by cases hc⟩
  | n + 3, h => simp at h

/-- An asynchronous call that raises an exception ends the thread and leaves the dynamic root: no call
is answered, nothing goes on. -/
theorem C103_async_violated :
    ∃ s, run counter (.start 0) [.post 1 13, .call 1 5, .fetch, .finish] = some s ∧ s.waits 1 = some 1 ∧
      ∀ a, step counter s a = none := by
  refine ⟨_, rfl, rfl, fun a => ?_⟩
  rfl

/-- If no call comes before the time of `message-fetch` is over (one millisecond when none is given)
the thread of the proxy fails. -/
theorem C103_idle_violated :
    ∃ s, run counter (.start 0) [.fetchTimeout] = some s ∧ ∀ a, step counter s a = none :=
  ⟨_, rfl, fun _ => rfl⟩

/-- If the function takes longer than that the call raises an error, though the function returns a
value. -/
theorem C103_slow_violated :
    (run counter (.start 0) [.call 1 5, .fetch, .getTimeout 1, .finish]).map (fun s => (s.log, s.st, s.ports 0)) =
      some ([.sent 1 5 true, .badArg 1 0], 5, [(true, 5)]) := by
  decide +kernel

/-- A function that calls its own proxy waits for ever, and with it all later calls. -/
theorem C103_self_violated :
    ∃ s, run counter (.start 0) [.call 1 99, .fetch, .finish, .call 2 5] = some s ∧ s.waits 1 = some 0 ∧ s.waits 2 = some 1 ∧
      ∀ a, a.internal = true → step counter s a = none := by
  refine ⟨_, rfl, rfl, rfl, fun a ha => ?_⟩
  cases a <;> first | (cases ha; done) | rfl | skip
  next t =>
    by_cases h1 : t = 1
    · subst h1; rfl
    · by_cases h2 : t = 2
      · subst h2; rfl
      · simp [step, State.start, set, finish, counter, h1, h2]

end Rep.Proxy
