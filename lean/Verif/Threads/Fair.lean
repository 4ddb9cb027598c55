import Verif.Threads.Props

/-
C26: fairness.
-/

namespace Rep.Threads

/-- The active thread gives up control: it yields (or is preempted), suspends itself, waits for
another thread, ends, or deletes itself. -/
def turn (c : Com) : Ev → Bool
  | .yield _ => true
  | .suspend t _ _ => decide (c.active = some t)
  | .join t _ _ _ => decide (t < c.n) && decide (c.active ≠ some t)
  | .delete t _ => decide (c.active = some t)
  | .exit _ _ => true
  | _ => false

/-- Nobody suspends or deletes this thread, and the dynamic root is not left by a throw. -/
def Spares (t : Tid) : Ev → Bool
  | .suspend u _ _ => decide (u ≠ t)
  | .delete u _ => decide (u ≠ t)
  | .throw => false
  | _ => true

/-- Where a thread is: this many threads are before it. -/
def At (t : Tid) (i : Nat) (l : List Tid) : Prop := ∃ l₁ l₂, l = l₁ ++ t :: l₂ ∧ l₁.length = i

/-- It is there or further ahead. -/
def AtMost (t : Tid) (i : Nat) (l : List Tid) : Prop := ∃ j ≤ i, At t j l

theorem At.le {t : Tid} {i j : Nat} {l : List Tid} (h : At t i l) (hj : i ≤ j) : AtMost t j l := ⟨i, hj, h⟩

theorem At.append {t : Tid} {i : Nat} {l m : List Tid} (h : At t i l) : At t i (l ++ m) := by
  obtain ⟨l₁, l₂, e, h⟩ := h
  exact ⟨l₁, l₂ ++ m, by rw [e]; simp, h⟩

theorem At.ne_nil {t : Tid} {i : Nat} {l : List Tid} (h : At t i l) : l ≠ [] := by
  obtain ⟨l₁, l₂, e, -⟩ := h
  rw [e]; simp

theorem At.erase {t u : Tid} {i : Nat} {l : List Tid} (h : At t i l) (hu : u ≠ t) :
    AtMost t i (l.erase u) ∧ (l.head? = some u → AtMost t (i - 1) (l.erase u)) := by
  obtain ⟨l₁, l₂, e, hl⟩ := h
  by_cases hm : u ∈ l₁
  · have he : l.erase u = l₁.erase u ++ t :: l₂ := by rw [e, List.erase_append_left _ hm]
    have hlen : (l₁.erase u).length = i - 1 := by rw [List.length_erase_of_mem hm, hl]
    rw [he]
    exact ⟨⟨i - 1, Nat.sub_le _ _, _, _, rfl, hlen⟩, fun _ => ⟨i - 1, Nat.le_refl _, _, _, rfl, hlen⟩⟩
  · have hb : ¬ (t == u) = true := by simpa using fun e => hu e.symm
    have he : l.erase u = l₁ ++ t :: l₂.erase u := by
      rw [e, List.erase_append_right _ hm, List.erase_cons, if_neg hb]
    rw [he]
    refine ⟨⟨i, Nat.le_refl _, _, _, rfl, hl⟩, fun hh => ?_⟩
    exfalso
    rw [e] at hh
    cases l₁ with
    | nil => exact hu (by simpa using hh.symm)
    | cons a l => exact hm (by simp at hh; simp [hh])

theorem invoke_keep {s s' : S} {z : Wk} (hne : s.run ≠ []) (h : s.invoke rounds z = .ok s') :
    s'.run = s.run := by
  obtain ⟨x, l, e⟩ := List.exists_cons_of_ne_nil hne
  rw [show rounds = 1 + 1 from rfl, invoke_run e] at h
  cases h; rfl

theorem at_unlink {s : S} {t u : Tid} {i : Nat} (h : At t i s.run) (hu : u ≠ t) :
    AtMost t i (s.unlink u).run ∧
    ((s.c.th u).susp = false → s.run.head? = some u → AtMost t (i - 1) (s.unlink u).run) := by
  unfold S.unlink
  split
  · next hs => exact ⟨h.le (Nat.le_refl _), fun h' => by rw [hs] at h'; cases h'⟩
  · obtain ⟨a, b⟩ := h.erase hu
    exact ⟨a, fun _ => b⟩

theorem at_delete {s s' : S} {t u : Tid} {i : Nat} {z : Wk} (h : At t i s.run) (hu : u ≠ t)
    (hs : s.run.head? = some u → (s.c.th u).susp = false) (hd : s.delete u z = .ok s') :
    AtMost t (i - if s.run.head? = some u then 1 else 0) s'.run := by
  unfold S.delete at hd
  change (if s.run.head? = some u then S.invoke rounds ((s.unlink u).set u _) z else .ok ((s.unlink u).set u _))
    = _ at hd
  split at hd
  · next hh =>
    rw [if_pos hh]
    obtain ⟨j, hj, ha⟩ := (at_unlink h hu).2 (hs hh) hh
    have ha' : At t j ((s.unlink u).set u { (s.unlink u).c.th u with exited := true }).run := ha
    rw [invoke_keep ha'.ne_nil hd]
    exact ⟨j, hj, ha⟩
  · next hh =>
    rw [if_neg hh]
    cases hd
    exact (at_unlink h hu).1

theorem at_suspend {s s' : S} {t u : Tid} {i : Nat} {ms poll call} {z : Wk} (a : Act s) (h : At t i s.run)
    (hu : u ≠ t) (hd : s.suspend u ms poll call z = .ok s') :
    AtMost t (i - if s.c.active = some u then 1 else 0) s'.run := by
  unfold S.suspend at hd
  split at hd
  · cases hd
  · next hm =>
    have h1 : (s.c.th u).susp = false := by
      rcases hx : (s.c.th u).susp with _ | _
      · rfl
      · exact absurd (.inl hx) hm
    have h2 : (s.c.th u).exited = false := by
      rcases hx : (s.c.th u).exited with _ | _
      · rfl
      · exact absurd (.inr hx) hm
    have hth : (((s.unlink u).set u { (s.unlink u).c.th u with
      susp := true, runAt := wakeTime (s.unlink u).c.now ms, poll := poll, val := .nil,
      call := call }).c.th u).exited = false := by
      simp [S.set, set_th, unlink_c, h2]
    have hts : (((s.unlink u).set u { (s.unlink u).c.th u with
      susp := true, runAt := wakeTime (s.unlink u).c.now ms, poll := poll, val := .nil,
      call := call }).c.th u).susp = true := by
      simp [S.set, set_th]
    have e := enqueue_susp hth hts
    change Res.andThen (S.enqueue ((s.unlink u).set u { (s.unlink u).c.th u with
      susp := true, runAt := wakeTime (s.unlink u).c.now ms, poll := poll, val := .nil,
      call := call }) u) _ = _ at hd
    rw [e] at hd
    change (if (s.unlink u).c.active = some u then S.invoke rounds _ z else Res.ok _) = _ at hd
    rw [unlink_c] at hd
    by_cases hh : s.c.active = some u
    · rw [if_pos hh] at hd ⊢
      obtain ⟨j, hj, ha⟩ := (at_unlink h hu).2 h1 (by rw [← a, hh])
      refine ⟨j, hj, ?_⟩
      have := invoke_keep (s := _) (by exact ha.ne_nil) hd
      rw [this]
      exact ha
    · rw [if_neg hh] at hd ⊢
      cases hd
      exact (at_unlink h hu).1

/-- A thread that is not at the head moves ahead with every turn, and never falls back. -/
theorem fair_step {s s' : S} {t : Tid} {i : Nat} {e : Ev} (w : Wf s) (a : Act s) (h : At t (i + 1) s.run)
    (hsp : Spares t e = true) (hs : s.step e = .ok s') :
    AtMost t (i + 1 - if turn s.c e = true then 1 else 0) s'.run := by
  obtain ⟨l₁, l₂, hl, hlen⟩ := h
  obtain ⟨x, l₁, rfl⟩ := List.exists_cons_of_ne_nil (l := l₁) (by rintro rfl; cases hlen)
  have hat : At t (i + 1) s.run := ⟨x :: l₁, l₂, hl, hlen⟩
  have hlen' : l₁.length = i := by simpa using hlen
  have hhead : s.run.head? = some x := by rw [hl]; rfl
  have hact : s.c.active = some x := by rw [a, hhead]
  have hxr : x ∈ s.run := by rw [hl]; simp
  obtain ⟨x1, x2, x3⟩ := w.run x hxr
  have hxt : x ≠ t := by
    intro e
    have nd := (List.nodup_append.1 w.nd).1
    rw [hl, e] at nd
    exact (List.nodup_cons.1 nd).1 (by simp)
  have refl : AtMost t (i + 1) s.run := hat.le (Nat.le_refl _)
  unfold S.step at hs
  rw [hact] at hs
  change s.stepBy x e = _ at hs
  cases e with
  | tick now =>
    change Res.ok _ = _ at hs
    cases hs; exact refl
  | make susp =>
    change s.make susp = _ at hs
    unfold S.make at hs
    cases susp with
    | true =>
      rw [enqueue_susp (by simp [Com.set]) (by simp [Com.set])] at hs
      cases hs; exact refl
    | false =>
      rw [enqueue_run (by simp [Com.set]) (by simp [Com.set])] at hs
      cases hs
      exact (hat.append).le (Nat.le_refl _)
  | yield z =>
    change s.yield z = _ at hs
    unfold S.yield at hs
    have er : s.rotate = { s with run := l₁ ++ t :: l₂ ++ [x] } := by
      unfold S.rotate; rw [hl]; rfl
    obtain ⟨s1, ws, b', h1, h2, h3, -⟩ :=
      wakeAll_ok Com.due s.rotate.susp [] s.rotate false (rotate_wf w) rfl
    change Res.andThen (S.wakeAll Com.due s.rotate.susp s.rotate false) _ = _ at hs
    rw [h1] at hs
    change (if s1.run.head? = s.run.head? then Res.ok s1 else s1.invoke rounds z) = _ at hs
    have hat1 : At t i s1.run := by
      rw [h3, er]
      exact (At.append (At.append ⟨l₁, l₂, rfl, hlen'⟩))
    have hres : s'.run = s1.run := by
      split at hs
      · cases hs; rfl
      · exact invoke_keep hat1.ne_nil hs
    rw [hres]
    exact hat1.le (by simp [turn])
  | suspend u ms z =>
    have hu : u ≠ t := by simpa [Spares] using hsp
    change (if s.c.threadp u = true then s.fsuspend x u ms z else .ok s) = _ at hs
    show AtMost t (i + 1 - if decide (s.c.active = some u) = true then 1 else 0) s'.run
    split at hs
    · unfold S.fsuspend at hs
      split at hs
      · next hux =>
        have := at_suspend (s := { s with c := s.c.logged (.called u ms s.c.now) }) a hat hu hs
        simp only [decide_eq_true_eq]
        exact this
      · next hux =>
        cases hr : s.suspend u (suspendMsecs ms) none (s.c.th u).call z with
        | bad b => rw [hr] at hs; cases hs
        | ok s1 =>
          rw [hr] at hs
          cases hs
          have := at_suspend a hat hu hr
          simp only [decide_eq_true_eq]
          exact this
    · next hp =>
      cases hs
      have : ¬ s.c.active = some u := by
        rw [hact]
        intro e; cases e
        exact hp ((threadp_iff _ _).2 ⟨x3, x2⟩)
      simp only [this, decide_false, Bool.false_eq_true, if_false]
      exact refl
  | join u ms d z =>
    change (if u < s.c.n ∧ u ≠ x then _ else Res.ok s) = _ at hs
    show AtMost t (i + 1 - if (decide (u < s.c.n) && decide (s.c.active ≠ some u)) = true then 1 else 0) s'.run
    split at hs
    · have := at_suspend (s := { s with c := s.c.logged (.joined x u ms d s.c.now) }) a hat hxt hs
      have e : ({ s with c := s.c.logged (.joined x u ms d s.c.now) } : S).c.active = some x := hact
      rw [if_pos e] at this
      obtain ⟨j, hj, ha⟩ := this
      refine ⟨j, Nat.le_trans hj ?_, ha⟩
      split <;> omega
    · next hp =>
      cases hs
      have : ¬ (decide (u < s.c.n) && decide (s.c.active ≠ some u)) = true := by
        rw [hact]
        simp only [Bool.and_eq_true, decide_eq_true_eq]
        rintro ⟨h1, h2⟩
        exact hp ⟨h1, fun e => h2 (by rw [e])⟩
      rw [if_neg this]
      exact refl
  | wake u =>
    change (if s.c.threadp u = true then s.fwake u else .ok s) = _ at hs
    show AtMost t (i + 1) s'.run
    split at hs
    · next hp =>
      unfold S.fwake at hs
      have w1 : Wf (({ s with c := s.c.logged (.woken u) } : S).set u { s.c.th u with val := .t }) :=
        w.same ((sameq_log s.c (.woken u)).trans (SameQ.set rfl rfl rfl))
      by_cases hsu : (s.c.th u).susp = true
      · obtain ⟨hp1, hp2⟩ := (threadp_iff _ _).1 hp
        rw [wake_ok w1 (w.mem_of_susp hp1 hsu hp2)] at hs
        cases hs
        exact (hat.append).le (Nat.le_refl _)
      · exfalso
        unfold S.wake at hs
        rw [if_pos] at hs
        · cases hs
        · left
          have : (s.c.th u).susp = false := by simpa using hsu
          simp [S.set, set_th, this]
    · cases hs; exact refl
  | delete u z =>
    have hu : u ≠ t := by simpa [Spares] using hsp
    change (if s.c.threadp u = true then S.delete _ u z else Res.ok s) = _ at hs
    show AtMost t (i + 1 - if decide (s.c.active = some u) = true then 1 else 0) s'.run
    split at hs
    · have := at_delete (s := { s with c := s.c.logged (.gone u) }) hat hu
        (fun hh => by
          have hh' : s.run.head? = some u := hh
          rw [hhead] at hh'; cases hh'; exact x1) hs
      rw [a]
      simp only [decide_eq_true_eq]
      exact this
    · next hp =>
      cases hs
      have : ¬ s.c.active = some u := by
        rw [hact]
        intro e; cases e
        exact hp ((threadp_iff _ _).2 ⟨x3, x2⟩)
      simp only [this, decide_false, Bool.false_eq_true, if_false]
      exact refl
  | exit v z =>
    change (if x = 0 then S.delete _ x z else S.delete _ x z) = _ at hs
    show AtMost t (i + 1 - 1) s'.run
    split at hs
    · have := at_delete (s := { s with c := s.c.logged (.gone x) }) hat hxt (fun _ => x1) hs
      rwa [if_pos (show ({ s with c := s.c.logged (.gone x) } : S).run.head? = some x from hhead)] at this
    · have := at_delete (s := ({ s with c := s.c.logged (.done x v) } : S).set x
          { s.c.th x with exited := true, val := v }) hat hxt
        (fun _ => by simp [S.set, set_th, x1]) hs
      change AtMost t (i + 1 - if s.run.head? = some x then 1 else 0) s'.run at this
      rwa [if_pos hhead] at this
  | throw => cases hsp

/-- The number of times the active thread gives up control. -/
def turns (p : P) : List Ev → Nat
  | [] => 0
  | e :: es => (if turn p.c e = true then 1 else 0) +
      match p.step e with
      | .ok q => turns q es
      | .bad _ => 0

/-- The position of a thread in the runnable queue. -/
def P.before (p : P) (t : Tid) : Nat := (p.runnable.takeWhile (· ≠ t)).length

theorem at_takeWhile {t : Tid} : ∀ {l : List Tid}, t ∈ l → At t (l.takeWhile (· ≠ t)).length l
  | x :: l, h => by
    by_cases hx : x = t
    · subst hx
      exact ⟨[], l, rfl, by simp⟩
    · have h' : t ∈ l := by
        rcases List.mem_cons.1 h with h | h
        · exact absurd h.symm hx
        · exact h
      obtain ⟨l₁, l₂, e, hl⟩ := at_takeWhile h'
      refine ⟨x :: l₁, l₂, by rw [e]; rfl, ?_⟩
      rw [List.takeWhile_cons]
      simp [hx, hl]

/-- **C26, fairness**: a runnable thread with k threads before it becomes the active one at the
latest when the active thread has given up control for the k-th time, whatever the threads do,
provided nobody suspends or deletes it and the dynamic root is not left by a throw. -/
theorem C26_fair (now : TV) (es fs : List Ev) (p q : P) (h : (P.start now).run es = .ok p)
    (h' : p.run fs = .ok q) (t : Tid) (ht : t ∈ p.runnable) (hsp : ∀ e ∈ fs, Spares t e = true)
    (hk : p.before t ≤ turns p fs) :
    ∃ fs₁ fs₂ p', fs = fs₁ ++ fs₂ ∧ p.run fs₁ = .ok p' ∧ p'.c.active = some t := by
  obtain ⟨s, -, r, w, a⟩ := run_both h
  have hat : At t (p.before t) s.run := by
    rw [← (rs_lists r).1]
    unfold P.before
    exact at_takeWhile ht
  generalize p.before t = k at hat hk
  clear h es ht
  induction fs generalizing p s k with
  | nil =>
    have : k = 0 := by simpa [turns] using hk
    subst this
    refine ⟨[], [], p, rfl, rfl, ?_⟩
    obtain ⟨l₁, l₂, e, hl⟩ := hat
    have hnil := List.length_eq_zero_iff.1 hl
    subst hnil
    have hc : p.c = s.c := by
      rcases r with ⟨⟨r, -⟩, -⟩ | hl
      · exact r.c
      · exact hl.c
    rw [hc, a, e]; rfl
  | cons e fs ih =>
    have hc : p.c = s.c := by
      rcases r with ⟨⟨r, -⟩, -⟩ | hl
      · exact r.c
      · exact hl.c
    cases k with
    | zero =>
      refine ⟨[], e :: fs, p, rfl, rfl, ?_⟩
      obtain ⟨l₁, l₂, e, hl⟩ := hat
      have hnil := List.length_eq_zero_iff.1 hl
      subst hnil
      rw [hc, a, e]; rfl
    | succ k =>
      change (p.step e).andThen (fun p => p.run fs) = _ at h'
      have hsim := step_sim r e
      cases hp : p.step e with
      | bad b => rw [hp] at h'; cases h'
      | ok p1 =>
        rw [hp] at h' hsim
        cases hs : s.step e with
        | bad b => rw [hs] at hsim; exact hsim.elim
        | ok s1 =>
          rw [hs] at hsim
          obtain ⟨j, hj, ha⟩ := fair_step w a hat (hsp e (by simp)) hs
          have hw1 : Wf s1 ∧ Act s1 := by
            rcases good_step w a e with ⟨s2, h2, h3⟩ | ⟨h2, -⟩ | h2
            · rw [hs] at h2; cases h2; exact h3
            · rw [hs] at h2; cases h2
            · rw [hs] at h2; cases h2
          have hk' : j ≤ turns p1 fs := by
            have : turns p (e :: fs) = (if turn p.c e = true then 1 else 0) + turns p1 fs := by
              show _ + (match p.step e with | .ok q => turns q fs | .bad _ => 0) = _
              rw [hp]
            rw [this, hc] at hk
            omega
          obtain ⟨fs₁, fs₂, p', e1, e2, e3⟩ := ih p1 h' (fun e he => hsp e (by simp [he])) s1
            hsim hw1.1 hw1.2 j ha hk'
          refine ⟨e :: fs₁, fs₂, p', by rw [e1]; rfl, ?_, e3⟩
          show (p.step e).andThen (fun p => p.run fs₁) = _
          rw [hp]; exact e2

/-! ### Not vacuous -/

/-- The runnable threads, the suspended threads and the active one after a history. -/
def queues (es : List Ev) : Option (List Tid × List Tid × Option Tid) :=
  match (P.start ⟨100, 0⟩).run es with
  | .ok p => some (p.runnable, p.suspended, p.c.active)
  | .bad _ => none

/-- Five threads, two of them suspended; 4 was suspended later, but wakes earlier. -/
def sample : List Ev :=
  [.make false, .make false, .make false, .make false, .suspend 3 (some 50) (.late 0),
    .suspend 4 (some 20) (.late 0), .yield (.late 0), .delete 0 (.late 0)]

example : queues sample = some ([1, 2], [4, 3], some 1) := by decide +kernel

example : queues (sample ++ [.tick ⟨100, 30000⟩, .yield (.late 0)]) = some ([2, 1, 4], [3], some 2) := by
  decide +kernel

/-- All threads are suspended: the root sleeps until the first can run. -/
example : queues (sample ++ [.suspend 1 (some 5000) (.late 0), .suspend 2 (some 5000) (.late 500)]) =
    some ([4], [3, 2, 1], some 4) := by decide +kernel

example : ∃ p q, (P.start ⟨100, 0⟩).run sample = .ok p ∧ p.run [.yield (.late 0)] = .ok q ∧
    (p.c.th 0).exited = true ∧ 2 ∈ p.runnable ∧ p.before 2 = 1 ∧ turns p [.yield (.late 0)] = 1 := by
  refine ⟨_, _, rfl, rfl, ?_⟩
  decide +kernel

example : (P.start ⟨100, 0⟩).run (sample ++ [.wake 2]) = .bad .abort := rfl

end Rep.Threads
