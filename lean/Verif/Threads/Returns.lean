import Verif.Threads.Suspend

/-
C27 and C47, continued: every step keeps the invariant; the theorems.
-/

namespace Rep.Threads

/-- What the theorems ask of an event.  The clock does not go back; no signal ends a sleep;
`thread-suspend` is called by a thread on itself only; a thread is not deleted while something
is in its `exit_val`, that is, while it is suspended in a call, or after it has been woken
before its first run; a function returns a value. -/
def EvOk (c : Com) : Ev → Prop
  | .tick now => TvOk now ∧ c.now.us ≤ now.us
  | .make _ => True
  | .yield z => z.full = true
  | .suspend t _ z => c.active = some t ∧ z.full = true
  | .join _ _ _ z => z.full = true
  | .wake _ => True
  | .delete t z => (c.th t).val = .null ∧ z.full = true
  | .exit v z => v ≠ .null ∧ z.full = true
  | .throw => True

theorem wakeTime_usec (τ : TV) (h : TvOk τ) (n : Nat) : 0 ≤ (wakeTime τ n).usec := by
  by_cases hn : n = 0
  · subst hn; show (0 : Int) ≤ longMax; decide
  · exact (wakeTime_us hn h).2.1

theorem NoCall.nil (t : Tid) : NoCall t [] := fun _ h => by cases h

theorem NoCall.one {t : Tid} {x : Log} (h : match x with
  | .called u _ _ => u ≠ t
  | .joined u _ _ _ _ => u ≠ t
  | .ret u _ _ => u ≠ t
  | .retJoin u _ _ => u ≠ t
  | _ => True) : NoCall t [x] := by
  intro y hy
  have := List.mem_singleton.1 hy
  subst this
  exact h

/-- A thread begins a call. -/
theorem K.call {c : Com} (k : K c) {t : Tid} (ht : t < c.n) (he : (c.th t).exited = false)
    {n : Nat} {poll : Option Tid} {call : Call} {x : Log}
    (hx : (∃ ms, x = .called t ms c.now ∧ n = suspendMsecs ms ∧ poll = none ∧ call = .suspend) ∨
      ∃ u ms d, x = .joined t u ms d c.now ∧ n = joinMsecs ms ∧ poll = some u ∧ call = .join u d) :
    K ((c.logged x).set t { c.th t with
      susp := true, runAt := wakeTime c.now n, poll := poll, val := .nil, call := call }) := by
  have hth : ∀ v, v ≠ t → ((c.logged x).set t { c.th t with
      susp := true, runAt := wakeTime c.now n, poll := poll, val := .nil, call := call }).th v = c.th v := by
    intro v hv
    rw [set_th, if_neg hv]; rfl
  have hst : Status ((c.logged x).set t { c.th t with
      susp := true, runAt := wakeTime c.now n, poll := poll, val := .nil, call := call })
      t n c.now [] poll := by
    unfold Status
    rw [set_th, if_pos rfl]
    exact ⟨rfl, rfl, k.clock, .inl ⟨rfl, rfl, by simp⟩⟩
  have hret : RetOk c.log x := by
    rcases hx with ⟨ms, rfl, -⟩ | ⟨u, ms, d, rfl, -⟩ <;> trivial
  refine k.change t k.clock (Int.le_refl _) hth (fun h => by rw [he] at h; cases h)
    ⟨[x], rfl, fun v hv => ?_⟩ rfl ?_ ?_ ?_ (k.log.snoc hret) (k.freshTo ht rfl rfl hth) ?_
  · rcases hx with ⟨ms, rfl, -⟩ | ⟨u, ms, d, rfl, -⟩
    · exact ⟨NoCall.one fun e => hv e.symm, by simp, by simp⟩
    · exact ⟨NoCall.one fun e => hv e.symm, by simp, by simp⟩
  · intro _
    rw [set_th, if_pos rfl]
    rcases hx with ⟨ms, rfl, rfl, rfl, rfl⟩ | ⟨u, ms, d, rfl, rfl, rfl, rfl⟩
    · exact ⟨c.log, ms, c.now, [], rfl, NoCall.nil t, hst⟩
    · exact ⟨c.log, ms, c.now, [], rfl, NoCall.nil t, hst⟩
  · intro hcl
    have := k.ended hcl t
    unfold Ended at this ⊢
    rw [set_th, if_pos rfl]
    rw [if_neg (by rw [he]; simp)] at this
    rw [if_neg (by show ¬ (c.th t).exited = true; rw [he]; simp)]
    intro w hw
    have hw' : .done t w ∈ c.log ++ [x] := hw
    rcases List.mem_append.1 hw' with hw' | hw'
    · exact this w hw'
    · rcases hx with ⟨ms, rfl, -⟩ | ⟨u, ms, d, rfl, -⟩ <;> simp at hw'
  · rintro rfl _ hcall
    rw [set_th, if_pos rfl] at hcall
    rcases hx with ⟨ms, rfl, rfl, rfl, rfl⟩ | ⟨u, ms, d, rfl, rfl, rfl, rfl⟩ <;> cases hcall
  · rw [set_th, if_pos rfl]
    exact wakeTime_usec _ k.clock n

/-- `thread-wake` -/
theorem K.wakened {c : Com} (k : K c) {t : Tid} (ht : t < c.n) (he : (c.th t).exited = false)
    (hs : (c.th t).susp = true) :
    K ((c.logged (.woken t)).set t { c.th t with susp := false, val := .t }) := by
  have hth : ∀ v, v ≠ t →
      ((c.logged (.woken t)).set t { c.th t with susp := false, val := .t }).th v = c.th v := by
    intro v hv
    rw [set_th, if_neg hv]; rfl
  have hst : ∀ n τ₀ mid poll, Status c t n τ₀ mid poll →
      Status ((c.logged (.woken t)).set t { c.th t with susp := false, val := .t }) t n τ₀
        (mid ++ [.woken t]) poll := by
    rintro n τ₀ mid poll ⟨h1, h2, h3, -⟩
    unfold Status
    rw [set_th, if_pos rfl]
    exact ⟨h1, h2, h3, .inr (.inl ⟨rfl, rfl, by simp⟩)⟩
  refine k.change t k.clock (Int.le_refl _) hth (fun h => by rw [he] at h; cases h)
    ⟨[.woken t], rfl, fun v hv => ⟨NoCall.one trivial, ?_, by simp⟩⟩ rfl ?_ ?_ ?_ (k.log.snoc trivial)
    (k.freshTo ht rfl rfl hth) ?_
  · simp [hv]
  · intro _
    rw [set_th, if_pos rfl]
    have hc := k.calls t he
    show InCall _ t (c.th t).call
    cases hk : (c.th t).call with
    | none => trivial
    | suspend =>
      rw [hk] at hc
      obtain ⟨pre, ms, τ₀, mid, e, hm, h⟩ := hc
      refine ⟨pre, ms, τ₀, mid ++ [.woken t], ?_, hm.append (NoCall.one trivial), hst _ _ _ _ h⟩
      show c.log ++ [_] = _
      rw [e]; simp
    | join v d =>
      rw [hk] at hc
      obtain ⟨pre, ms, τ₀, mid, e, hm, h⟩ := hc
      refine ⟨pre, ms, τ₀, mid ++ [.woken t], ?_, hm.append (NoCall.one trivial), hst _ _ _ _ h⟩
      show c.log ++ [_] = _
      rw [e]; simp
  · intro hcl
    have := k.ended hcl t
    unfold Ended at this ⊢
    rw [set_th, if_pos rfl]
    rw [if_neg (by rw [he]; simp)] at this
    rw [if_neg (by show ¬ (c.th t).exited = true; rw [he]; simp)]
    intro w hw
    have hw' : .done t w ∈ c.log ++ [Log.woken t] := hw
    rcases List.mem_append.1 hw' with hw' | hw'
    · exact this w hw'
    · simp at hw'
  · rintro rfl _ hcall
    rw [set_th, if_pos rfl] at hcall
    have := (k.dflt he hcall).2
    rw [hs] at this; cases this
  · rw [set_th, if_pos rfl]
    exact k.times t

/-- A thread ends: it is deleted, or its function returns. -/
theorem K.ending {c : Com} (k : K c) {t : Tid} (ht : t < c.n) (he : (c.th t).exited = false) {x : Log} {v : Val}
    (hx : (x = .gone t ∧ v = (c.th t).val ∧ (c.th t).val = .null) ∨ (x = .done t v ∧ v ≠ .null)) :
    K ((c.logged x).set t { c.th t with exited := true, val := v }) := by
  have hth : ∀ u, u ≠ t →
      ((c.logged x).set t { c.th t with exited := true, val := v }).th u = c.th u := by
    intro u hv
    rw [set_th, if_neg hv]; rfl
  have hret : RetOk c.log x := by
    rcases hx with ⟨rfl, -⟩ | ⟨rfl, -⟩ <;> trivial
  refine k.change t k.clock (Int.le_refl _) hth (fun h => by rw [he] at h; cases h)
    ⟨[x], rfl, fun u hv => ?_⟩ rfl ?_ ?_ ?_ (k.log.snoc hret) (k.freshTo ht rfl rfl hth) ?_
  · rcases hx with ⟨rfl, -⟩ | ⟨rfl, -⟩
    · exact ⟨NoCall.one trivial, by simp, by simp⟩
    · exact ⟨NoCall.one trivial, by simp, by simp [hv]⟩
  · intro h
    rw [set_th, if_pos rfl] at h
    cases h
  · intro hcl
    have := k.ended hcl t
    unfold Ended at this ⊢
    rw [if_neg (by rw [he]; simp)] at this
    rw [set_th, if_pos rfl, if_pos rfl]
    show (∀ w, .done t w ∈ c.log ++ [x] → w = v) ∧ (v ≠ .null → .done t v ∈ c.log ++ [x]) ∧
      (v = .null → .gone t ∈ c.log ++ [x] ∧ ∀ w, .done t w ∉ c.log ++ [x])
    rcases hx with ⟨rfl, rfl, hv⟩ | ⟨rfl, hv⟩
    · refine ⟨fun w hw => ?_, fun h => absurd hv h, fun _ => ⟨by simp, fun w hw => ?_⟩⟩
      · simp [this w] at hw
      · simp [this w] at hw
    · refine ⟨fun w hw => ?_, fun _ => by simp, fun h => absurd h hv⟩
      simpa [this w] using hw
  · rintro rfl h _
    rw [set_th, if_pos rfl] at h
    cases h
  · rw [set_th, if_pos rfl]
    exact k.times t

theorem K.making {c : Com} (k : K c) (hcl : c.closed = false) (susp : Bool) (hn : 0 < c.n) :
    K { c.set c.n { susp := susp } with n := c.n + 1 } := by
  have hf := k.fresh hcl c.n (Nat.le_refl _)
  have hth : ∀ u, u ≠ c.n → ({ c.set c.n { susp := susp } with n := c.n + 1 } : Com).th u = c.th u := by
    intro u hu
    show (if u = c.n then _ else _) = _
    rw [if_neg hu]
  have hthn : ({ c.set c.n { susp := susp } with n := c.n + 1 } : Com).th c.n = { susp := susp } := by
    show (if c.n = c.n then _ else _) = _
    rw [if_pos rfl]
  refine k.change c.n k.clock (Int.le_refl _) hth (fun h => by rw [hf] at h; cases h)
    ⟨[], by simp [Com.set], fun v hv => ⟨NoCall.nil v, by simp, by simp⟩⟩ rfl ?_ ?_ ?_ k.log ?_ ?_
  · intro _
    rw [hthn]
    trivial
  · intro hcl
    have := k.ended hcl c.n
    unfold Ended at this ⊢
    rw [hthn, if_neg (by simp)]
    rw [hf, if_neg (by simp)] at this
    exact this
  · intro h
    rw [h] at hn
    exact absurd hn (Nat.lt_irrefl 0)
  · intro _ u hu
    have hu' : c.n < u := hu
    rw [hth u (Nat.ne_of_gt hu')]
    exact k.fresh hcl u (Nat.le_of_lt hu')
  · rw [hthn]; exact Int.le_refl 0

/-- `thread_suspend` called by the active thread -/
theorem suspend_eq {s : S} {t : Tid} (w : Wf s) (ht : t ∈ s.run) (hact : s.c.active = some t) (ms : Nat)
    (poll : Option Tid) (call : Call) (z : Wk) :
    ∃ s', s.suspend t ms poll call z = s'.invoke rounds z ∧ Wf s' ∧ s'.c = s.c.set t { s.c.th t with
      susp := true, runAt := wakeTime s.c.now ms, poll := poll, val := .nil, call := call } := by
  obtain ⟨h1, h2, h3⟩ := w.run t ht
  have wb := (w.unlink (.inl ht)).set { (s.unlink t).c.th t with
    susp := true, runAt := wakeTime (s.unlink t).c.now ms, poll := poll, val := .nil, call := call }
  have hth : (((s.unlink t).set t { (s.unlink t).c.th t with
    susp := true, runAt := wakeTime (s.unlink t).c.now ms, poll := poll, val := .nil,
    call := call }).c.th t).exited = false := by
    simp [S.set, set_th, unlink_c, h2]
  have hts : (((s.unlink t).set t { (s.unlink t).c.th t with
    susp := true, runAt := wakeTime (s.unlink t).c.now ms, poll := poll, val := .nil,
    call := call }).c.th t).susp = true := by
    simp [S.set, set_th]
  have e := enqueue_susp hth hts
  have w' := wb.enqueue (by simp only [S.set, Com.set, unlink_c]; exact h3) e
  refine ⟨_, ?_, w', ?_⟩
  · unfold S.suspend
    rw [if_neg (by simp [h1, h2])]
    show Res.andThen (S.enqueue _ t) _ = _
    rw [e]
    show (if _ then _ else _) = _
    rw [if_pos]
    show (s.unlink t).c.active = some t
    rw [unlink_c]; exact hact
  · simp only [S.set, unlink_c]

/-- The outcome of a step that ends a thread. -/
theorem delete_K {s : S} {t : Tid} {z : Wk} {s' : S} (w : WfBut t (s.unlink t))
    (k : K (s.c.set t { s.c.th t with exited := true })) (hcl : s.c.closed = false)
    (hz : z.full = true) (hcall : ∀ x, x ≠ t → s.c.active = some x → (s.c.th x).call = .none)
    (hact : s.run.head? = s.c.active)
    (h : s.delete t z = .ok s') (hnow : TvOk s'.c.now) : KS s' := by
  have w' : Wf ((s.unlink t).set t { (s.unlink t).c.th t with exited := true }) :=
    (w.set _).exited (by simp [S.set, set_th])
  have hc : ((s.unlink t).set t { (s.unlink t).c.th t with exited := true }).c =
      s.c.set t { s.c.th t with exited := true } := by
    simp only [S.set, unlink_c]
  unfold S.delete at h
  change (if s.run.head? = some t then _ else _) = _ at h
  split at h
  · exact invoke_K w' (hc ▸ k) (by rw [hc]; exact hcl) hz h hnow
  · next hne =>
    have h' := Res.ok.inj h
    subst h'
    refine ⟨hc ▸ k, fun h => ?_, fun x h => ?_⟩
    · rw [hc] at h
      exact absurd (hcl.symm.trans h) (by simp)
    · rw [hc] at h ⊢
      have h' : s.c.active = some x := h
      have hx : x ≠ t := by
        rintro rfl
        rw [hact, h'] at hne
        exact hne rfl
      rw [set_th, if_neg hx]
      exact hcall x hx h'

theorem set_set (c : Com) (t : Tid) (x y : Th) : (c.set t x).set t y = c.set t y := by
  unfold Com.set
  congr 1
  funext u
  dsimp only
  split <;> rfl

theorem set_th_self (c : Com) (t : Tid) (x : Th) : (c.set t x).th t = x := by
  rw [set_th, if_pos rfl]

/-- Every step keeps the invariant. -/
theorem step_K {s s' : S} (w : Wf s) (a : Act s) (k : KS s) {e : Ev} (hok : EvOk s.c e)
    (h : s.step e = .ok s') (hnow : TvOk s'.c.now) : KS s' := by
  obtain ⟨k, hcla, hcall⟩ := k
  unfold S.step at h
  cases hact : s.c.active with
  | none => rw [hact] at h; cases h; exact ⟨k, hcla, hcall⟩
  | some x =>
    rw [hact] at h
    change s.stepBy x e = _ at h
    have hcl : s.c.closed = false := by
      cases hc : s.c.closed with
      | false => rfl
      | true => rw [hcla hc] at hact; cases hact
    have hcx := hcall x hact
    have keep : ∀ {c : Com}, K c → c.closed = false → c.active = s.c.active →
        (c.th x).call = (s.c.th x).call →
        K c ∧ (c.closed = true → c.active = none) ∧ ∀ x, c.active = some x → (c.th x).call = .none := by
      intro c k h ha hc
      refine ⟨k, fun h' => (by rw [h] at h'; cases h'), fun y hy => ?_⟩
      rw [ha, hact] at hy
      cases hy
      rw [hc, hcx]
    obtain ⟨hne, hh⟩ := head_ne a hact
    have hx : x ∈ s.run := by
      cases hr : s.run with
      | nil => exact absurd hr hne
      | cons y l => rw [hr] at hh; cases hh; simp
    obtain ⟨x1, x2, x3⟩ := w.run x hx
    cases e with
    | tick now =>
      cases h
      exact keep (k.tick hok.1 hok.2) hcl rfl rfl
    | make susp =>
      have k' := k.making hcl susp (Nat.lt_of_le_of_lt (Nat.zero_le _) x3)
      change s.make susp = _ at h
      unfold S.make at h
      cases susp with
      | true =>
        rw [enqueue_susp (s := { s with c := { s.c.set s.c.n { susp := true } with n := s.c.n + 1 } })
          (t := s.c.n) (by simp [Com.set]) (by simp [Com.set])] at h
        cases h
        exact keep k' hcl rfl (by
          show (if x = s.c.n then _ else s.c.th x).call = _
          rw [if_neg (Nat.ne_of_lt x3)])
      | false =>
        rw [enqueue_run (s := { s with c := { s.c.set s.c.n { susp := false } with n := s.c.n + 1 } })
          (t := s.c.n) (by simp [Com.set]) (by simp [Com.set])] at h
        cases h
        exact keep k' hcl rfl (by
          show (if x = s.c.n then _ else s.c.th x).call = _
          rw [if_neg (Nat.ne_of_lt x3)])
    | yield z =>
      change s.yield z = _ at h
      obtain ⟨s1, ws, b', h1, h2, h3, h4, h5, h6, h7, h8, h9, h10, -⟩ :=
        wakeAll_ok Com.due s.rotate.susp [] s.rotate false (rotate_wf w) rfl
      have k1 := wakeAll_K (test := Com.due) (fun c u hc h => reason_due hc h) s.rotate.susp [] s.rotate
        false (rotate_wf w) rfl (by rw [(rotate_c s).1]; exact k) h1
      have hc1 := wakeAll_call s.rotate.susp [] s.rotate false (rotate_wf w) rfl h1 x
      have hcl1 : s1.c.closed = false := by rw [h10, (rotate_c s).1]; exact hcl
      unfold S.yield at h
      change Res.andThen _ _ = _ at h
      rw [h1] at h
      change (if s1.run.head? = s.run.head? then Res.ok s1 else s1.invoke rounds z) = _ at h
      split at h
      · cases h
        exact keep k1 hcl1 (by rw [h8, (rotate_c s).1]) (by rw [hc1, (rotate_c s).1])
      · exact invoke_K h2 k1 hcl1 hok h hnow
    | suspend t ms z =>
      change (if s.c.threadp t = true then s.fsuspend x t ms z else .ok s) = _ at h
      split at h
      · have htx : t = x := by
          have := hok.1
          rw [hact] at this
          exact (Option.some.inj this).symm
        unfold S.fsuspend at h
        rw [if_pos htx] at h
        subst htx
        have w' := w.same (sameq_log s.c (.called t ms s.c.now))
        obtain ⟨s1, e1, w1, c1⟩ := suspend_eq w' hx hact (suspendMsecs ms) none .suspend z
        rw [e1] at h
        refine invoke_K w1 ?_ ?_ hok.2 h hnow
        · rw [c1]
          exact k.call x3 x2 (.inl ⟨ms, rfl, rfl, rfl, rfl⟩)
        · rw [c1]; exact hcl
      · cases h; exact ⟨k, hcla, hcall⟩
    | join t ms d z =>
      change (if t < s.c.n ∧ t ≠ x then _ else Res.ok s) = _ at h
      split at h
      · have w' := w.same (sameq_log s.c (.joined x t ms d s.c.now))
        obtain ⟨s1, e1, w1, c1⟩ := suspend_eq w' hx hact (joinMsecs ms) (some t) (.join t d) z
        rw [e1] at h
        refine invoke_K w1 ?_ ?_ hok h hnow
        · rw [c1]
          exact k.call x3 x2 (.inr ⟨t, ms, d, rfl, rfl, rfl, rfl⟩)
        · rw [c1]; exact hcl
      · cases h; exact ⟨k, hcla, hcall⟩
    | wake t =>
      change (if s.c.threadp t = true then s.fwake t else .ok s) = _ at h
      split at h
      · next ht =>
        obtain ⟨ht1, ht2⟩ := (threadp_iff _ _).1 ht
        unfold S.fwake at h
        have w1 : Wf (({ s with c := s.c.logged (.woken t) } : S).set t { s.c.th t with val := .t }) :=
          w.same ((sameq_log s.c (.woken t)).trans (SameQ.set rfl rfl rfl))
        have hs : (s.c.th t).susp = true := by
          cases hs : (s.c.th t).susp with
          | true => rfl
          | false =>
            unfold S.wake at h
            rw [if_pos] at h
            · cases h
            · left
              simp [S.set, set_th, hs]
        rw [wake_ok w1 (w.mem_of_susp ht1 hs ht2)] at h
        cases h
        have hk := k.wakened ht1 ht2 hs
        have hxt : x ≠ t := by
          rintro rfl
          rw [hs] at x1; cases x1
        refine keep ?_ hcl rfl (by
          show (if x = t then _ else if x = t then _ else s.c.th x).call = _
          rw [if_neg hxt, if_neg hxt])
        show K (Com.set _ t _)
        rw [show ((({ s with c := s.c.logged (.woken t) } : S).set t { s.c.th t with val := .t }).c.th t) =
          { s.c.th t with val := .t } from set_th_self _ _ _]
        show K (((s.c.logged (.woken t)).set t _).set t _)
        rw [set_set]
        exact hk
      · cases h; exact ⟨k, hcla, hcall⟩
    | delete t z =>
      change (if s.c.threadp t = true then S.delete _ t z else .ok s) = _ at h
      split at h
      · next ht =>
        obtain ⟨ht1, ht2⟩ := (threadp_iff _ _).1 ht
        have w' := w.same (sameq_log s.c (.gone t))
        exact delete_K (w'.unlink (w.live t ht1 ht2)) (k.ending ht1 ht2 (.inl ⟨rfl, rfl, hok.1⟩)) hcl hok.2
          (fun y _ h => hcall y h) a.symm h hnow
      · cases h; exact ⟨k, hcla, hcall⟩
    | exit v z =>
      change (if x = 0 then S.delete _ x z else S.delete _ x z) = _ at h
      split at h
      · next hx0 =>
        have w' := w.same (sameq_log s.c (.gone x))
        have hv : (s.c.th x).val = .null := by
          subst hx0
          exact (k.dflt x2 hcx).1
        exact delete_K (w'.unlink (.inl hx)) (k.ending x3 x2 (.inl ⟨rfl, rfl, hv⟩)) hcl hok.2
          (fun y _ h => hcall y h) a.symm h hnow
      · have w' := w.same (sameq_log s.c (.done x v))
        have := (w'.unlink (.inl hx)).set { s.c.th x with exited := true, val := v }
        refine delete_K (s := ({ s with c := s.c.logged (.done x v) } : S).set x
          { s.c.th x with exited := true, val := v }) ?_ ?_ hcl hok.2 (fun y hy h => ?_) a.symm h hnow
        · rw [exit_unlink x1]
          exact this
        · show K (Com.set _ x _)
          rw [show ((({ s with c := s.c.logged (.done x v) } : S).set x
            { s.c.th x with exited := true, val := v }).c.th x) =
            { s.c.th x with exited := true, val := v } from set_th_self _ _ _]
          show K (((s.c.logged (.done x v)).set x _).set x _)
          rw [set_set]
          exact k.ending x3 x2 (.inr ⟨rfl, hok.1⟩)
        · show (if y = x then _ else s.c.th y).call = _
          rw [if_neg hy]
          exact hcall y h
    | throw => cases h; exact close_K k

/-- A history in which every event is as asked, and the clock is right after every step. -/
def OkRun (p : P) : List Ev → Prop
  | [] => TvOk p.c.now
  | e :: es => TvOk p.c.now ∧ EvOk p.c e ∧ ∀ p', p.step e = .ok p' → OkRun p' es

theorem OkRun.clock {p : P} : ∀ {es : List Ev}, OkRun p es → TvOk p.c.now
  | [], h => h
  | _ :: _, h => h.1

theorem rs_c {p : P} {s : S} (r : RS p s) : p.c = s.c := by
  rcases r with ⟨⟨r, -⟩, -⟩ | hl
  · exact r.c
  · exact hl.c

theorem run_K_log : ∀ (es : List Ev) {p q : P} {s : S}, RS p s → Wf s → Act s → KS s → OkRun p es →
    p.run es = .ok q → LogOk q.c.log
  | [], p, q, s, r, w, a, k, hok, h => by
    cases h
    rw [rs_c r]
    exact k.1.log
  | e :: es, p, q, s, r, w, a, k, hok, h => by
    change (p.step e).andThen (fun p => p.run es) = _ at h
    have hsim := step_sim r e
    cases hp : p.step e with
    | bad b => rw [hp] at h; cases h
    | ok p1 =>
      rw [hp] at h hsim
      cases hs : s.step e with
      | bad b => rw [hs] at hsim; exact hsim.elim
      | ok s1 =>
        rw [hs] at hsim
        have hok1 := hok.2.2 p1 hp
        have hw1 : Wf s1 ∧ Act s1 := by
          rcases good_step w a e with ⟨s2, h2, h3⟩ | ⟨h2, -⟩ | h2
          · rw [hs] at h2; cases h2; exact h3
          · rw [hs] at h2; cases h2
          · rw [hs] at h2; cases h2
        have k1 := step_K w a k (rs_c r ▸ hok.2.1) hs (rs_c hsim ▸ hok1.clock)
        exact run_K_log es hsim hw1.1 hw1.2 k1 hok1 h

theorem logOk {now : TV} {es : List Ev} {p : P} (hok : OkRun (P.start now) es)
    (h : (P.start now).run es = .ok p) : LogOk p.c.log := by
  refine run_K_log es (init_sim now) (init_inv now).1 (init_inv now).2 ⟨?_, fun h => Bool.noConfusion h, ?_⟩ hok h
  · refine ⟨hok.clock, fun _ _ => trivial, fun _ u => ?_, fun _ _ => ⟨rfl, rfl⟩, fun pre x post e => ?_,
      fun _ _ _ => rfl, fun _ => Int.le_refl 0⟩
    · unfold Ended
      rw [if_neg (by simp)]
      simp
    · exact absurd e.symm (by simp)
  · intro x _
    rfl

/-- **C27**: in every history as asked by `EvOk`, `thread-suspend` returns true only if the
milliseconds have passed (but for less than one) and the thread has not been woken, and false
only if another thread woke it.  See `C27_default_violated` for what happens without MSECS. -/
theorem C27_suspend_partial (now : TV) (es : List Ev) (p : P) (hok : OkRun (P.start now) es)
    (h : (P.start now).run es = .ok p) (pre post : List Log) (t : Tid) (b : Bool) (τ : TV)
    (hl : p.c.log = pre ++ .ret t b τ :: post) : SuspendRet pre t b τ :=
  logOk hok h pre _ post hl

/-- **C47**: in every history as asked by `EvOk`, `thread-join` returns the value of the function of
the other thread if that has returned, and the default value otherwise. -/
theorem C47_join_partial (now : TV) (es : List Ev) (p : P) (hok : OkRun (P.start now) es)
    (h : (P.start now).run es = .ok p) (pre post : List Log) (t : Tid) (v : Val) (τ : TV)
    (hl : p.c.log = pre ++ .retJoin t v τ :: post) : JoinRet pre t v τ :=
  logOk hok h pre _ post hl

/-! ### Not vacuous, and what is wrong -/

instance (t : TV) : Decidable (TvOk t) := by unfold TvOk; infer_instance

/-- `EvOk`, computed -/
def evOkB (c : Com) : Ev → Bool
  | .tick now => decide (TvOk now) && decide (c.now.us ≤ now.us)
  | .make _ => true
  | .yield z => z.full
  | .suspend t _ z => decide (c.active = some t) && z.full
  | .join _ _ _ z => z.full
  | .wake _ => true
  | .delete t z => decide ((c.th t).val = .null) && z.full
  | .exit v z => decide (v ≠ .null) && z.full
  | .throw => true

/-- `OkRun`, computed -/
def okRunB (p : P) : List Ev → Bool
  | [] => decide (TvOk p.c.now)
  | e :: es => decide (TvOk p.c.now) && (evOkB p.c e &&
      match p.step e with
      | .ok p' => okRunB p' es
      | .bad _ => true)

theorem evOk_of {c : Com} {e : Ev} (h : evOkB c e = true) : EvOk c e := by
  cases e <;> simp_all [evOkB, EvOk]

theorem okRun_of : ∀ {es : List Ev} {p : P}, okRunB p es = true → OkRun p es
  | [], p, h => by
    have h' : TvOk p.c.now := of_decide_eq_true h
    exact h'
  | e :: es, p, h => by
    simp only [okRunB, Bool.and_eq_true, decide_eq_true_eq] at h
    refine ⟨h.1, evOk_of h.2.1, fun p' hp => ?_⟩
    have := h.2.2
    rw [hp] at this
    exact okRun_of this

/-- What is seen after a history that starts at 100 s. -/
def seen (es : List Ev) : Option (List Log) :=
  match (P.start ⟨100, 0⟩).run es with
  | .ok p => some p.c.log
  | .bad _ => none

theorem seen_run {es : List Ev} {l : List Log} (h : seen es = some l) :
    ∃ p, (P.start ⟨100, 0⟩).run es = .ok p ∧ p.c.log = l := by
  unfold seen at h
  cases hp : (P.start ⟨100, 0⟩).run es with
  | ok p => rw [hp] at h; exact ⟨p, rfl, by simpa using h⟩
  | bad b => rw [hp] at h; cases h

/-- One thread waits and its time comes, another one is woken by the first; the default thread
joins both. -/
def busy : List Ev :=
  [.make false, .make false, .yield (.late 0), .suspend 1 (some 10) (.late 0),
    .suspend 2 (some 0) (.late 0), .tick ⟨100, 20000⟩, .yield (.late 0), .yield (.late 0), .wake 2,
    .exit (.other 7) (.late 0), .join 1 none (.other 9) (.late 0), .exit .nil (.late 0)]

example : okRunB (P.start ⟨100, 0⟩) busy = true := by decide +kernel

example : seen busy = some
    [.called 1 (some 10) ⟨100, 0⟩, .called 2 (some 0) ⟨100, 0⟩, .ret 1 true ⟨100, 20000⟩, .woken 2,
      .done 1 (.other 7), .joined 0 1 none (.other 9) ⟨100, 20000⟩, .ret 2 false ⟨100, 20000⟩,
      .done 2 .nil, .retJoin 0 (.other 7) ⟨100, 20000⟩] := by decide +kernel

/-- The theorem applies to it. -/
example : SuspendRet [.called 1 (some 10) ⟨100, 0⟩, .called 2 (some 0) ⟨100, 0⟩] 1 true ⟨100, 20000⟩ := by
  obtain ⟨p, hp, hl⟩ := seen_run (es := busy) (l := _) (by decide +kernel : seen busy = some
    [.called 1 (some 10) ⟨100, 0⟩, .called 2 (some 0) ⟨100, 0⟩, .ret 1 true ⟨100, 20000⟩, .woken 2,
      .done 1 (.other 7), .joined 0 1 none (.other 9) ⟨100, 20000⟩, .ret 2 false ⟨100, 20000⟩,
      .done 2 .nil, .retJoin 0 (.other 7) ⟨100, 20000⟩])
  exact C27_suspend_partial _ _ p (okRun_of (by decide +kernel)) hp _ _ _ _ _ (hl.trans rfl)

/-- The default value, when the time is over. -/
example : seen [.make false, .join 1 (some 5) (.other 9) (.late 0), .suspend 1 (some 50) (.late 0)] = some
    [.joined 0 1 (some 5) (.other 9) ⟨100, 0⟩, .called 1 (some 50) ⟨100, 0⟩,
      .retJoin 0 (.other 9) ⟨100, 5000⟩] := by decide +kernel

/-- C27 is wrong: without MSECS, `thread-suspend` does not wait until the thread is woken: it
returns true after a millisecond. -/
theorem C27_default_violated : ∃ es, okRunB (P.start ⟨100, 0⟩) es = true ∧
    seen es = some [.called 0 none ⟨100, 0⟩, .ret 0 true ⟨100, 1000⟩] :=
  ⟨[.suspend 0 none (.late 0)], by decide +kernel, by decide +kernel⟩

/-- C27 is wrong: MSECS 0, which is to wait until the thread is woken, overflows a signed
integer when no other thread can run. -/
theorem C27_forever_violated : okRunB (P.start ⟨100, 0⟩) [.suspend 0 (some 0) (.late 0)] = true ∧
    (P.start ⟨100, 0⟩).run [.suspend 0 (some 0) (.late 0)] = .bad .ub := ⟨by decide +kernel, rfl⟩

/-- C27 is wrong: a thread can be told up to 999 microseconds too early that its time is over,
because the time to sleep is cut to milliseconds. -/
theorem C27_early_violated : ∃ es, okRunB (P.start ⟨100, 0⟩) es = true ∧
    seen es = some [.called 0 (some 10) ⟨100, 0⟩, .called 1 (some 1000) ⟨100, 1⟩,
      .ret 0 true ⟨100, 9001⟩] :=
  ⟨[.make false, .suspend 0 (some 10) (.late 0), .tick ⟨100, 1⟩, .suspend 1 (some 1000) (.late 0)],
    by decide +kernel, by decide +kernel⟩

/-- C27 is wrong: a signal that ends the sleep makes a thread return true, however much of its
time remains. -/
theorem C27_signal_violated : seen [.suspend 0 (some 60000) (.signal 7)] =
    some [.called 0 (some 60000) ⟨100, 0⟩, .ret 0 true ⟨100, 7⟩] := by decide +kernel

/-- C27 is wrong: when a thread whose time is over is suspended by another one before it runs,
its call returns false although nobody has woken it. -/
theorem C27_other_violated : ∃ es, seen es = some
    [.called 0 (some 10) ⟨100, 0⟩, .ret 0 false ⟨100, 70000⟩] :=
  ⟨[.make false, .make false, .suspend 0 (some 10) (.late 0), .tick ⟨100, 20000⟩, .yield (.late 0),
    .suspend 0 (some 30) (.late 0), .tick ⟨100, 70000⟩, .yield (.late 0), .yield (.late 0),
    .yield (.late 0)], by decide +kernel⟩

/-- C27 is wrong: a thread made by `make-suspended-thread` runs as soon as the active thread
yields or is preempted, although nobody has called `thread-wake`: the time at which it is to be
woken is 0. -/
theorem C27_made_violated : seen [.make true, .yield (.late 0)] = some [] ∧
    (∃ p, (P.start ⟨100, 0⟩).run [.make true] = .ok p ∧ p.suspended = [1]) ∧
    ∃ p, (P.start ⟨100, 0⟩).run [.make true, .yield (.late 0), .yield (.late 0)] = .ok p ∧
      p.suspended = [] ∧ p.c.active = some 1 := by
  refine ⟨by decide +kernel, ⟨_, rfl, by decide +kernel⟩, ⟨_, rfl, by decide +kernel⟩⟩

/-- C47 is wrong: when a suspended thread is deleted, `thread-join` does not return the default
value, but nil. -/
theorem C47_deleted_violated : ∃ es, seen es = some
    [.called 1 (some 50) ⟨100, 0⟩, .gone 1, .joined 0 1 none (.other 9) ⟨100, 0⟩,
      .retJoin 0 .nil ⟨100, 0⟩] :=
  ⟨[.make false, .yield (.late 0), .suspend 1 (some 50) (.late 0), .delete 1 (.late 0),
    .join 1 none (.other 9) (.late 0)], by decide +kernel⟩

/-- And it returns t for a thread that was made suspended, woken, and deleted before it ran. -/
theorem C47_woken_violated : ∃ es, seen es = some
    [.woken 1, .gone 1, .joined 0 1 none (.other 9) ⟨100, 0⟩, .retJoin 0 .t ⟨100, 0⟩] :=
  ⟨[.make true, .wake 1, .delete 1 (.late 0), .join 1 none (.other 9) (.late 0)], by decide +kernel⟩

end Rep.Threads
