import Verif.Proc.Frame

/-
What the children write arrives, in the same order, before the end is told.
-/

namespace Rep.Proc

open Spec

def pipe (k : Kid) (e : Bool) : List Nat := if e then k.errPipe else k.outPipe

structure InvO (s : St) : Prop where
  io : ∀ p e, received s.log p e ++ pipe (s.kid p) e = sent s.log p e
  ex : ∀ p x, (s.kid p).report = some (.exited x) → (s.kid p).alive = false
  st : ∀ p, (s.obj p).status = now s.log p
  truth : ∀ p a st b, s.log = a ++ .call p st :: b → st = now b p

/-- A further observation that is not a call. -/
theorem truth_cons {l : List Obs} {o : Obs} (h : ∀ p a st b, l = a ++ .call p st :: b → st = now b p)
    (ho : ∀ p st, o = .call p st → st = now l p) :
    ∀ p a st b, o :: l = a ++ .call p st :: b → st = now b p := by
  intro p a st b hab
  cases a with
  | nil => cases hab; exact ho _ _ rfl
  | cons x a => simp only [List.cons_append, List.cons.injEq] at hab; exact h p a st b hab.2

theorem InvO.init : InvO init := by
  refine ⟨fun _ e => by cases e <;> rfl, (fun _ _ h => nomatch h), fun _ => rfl, ?_⟩
  intro p a st b h
  have : ([] : List Obs) = a ++ .call p st :: b := h
  simp at this

/-- The streams and the children are not touched. -/
theorem InvO.same {s s' : St} (h : InvO s) (hk : s'.kid = s.kid) (hl : s'.log = s.log)
    (ho : ∀ p, (s'.obj p).status = (s.obj p).status) : InvO s' := by
  refine ⟨?_, ?_, ?_, ?_⟩
  · rw [hk, hl]; exact h.io
  · rw [hk]; exact h.ex
  · intro p; rw [ho, hl]; exact h.st p
  · rw [hl]; exact h.truth

theorem InvO.queue {s : St} {p : Id} (h : InvO s) : InvO (queueNotify s p) :=
  h.same (by simp) (by simp) (fun q => by simp)

/-- A change of state is told. -/
theorem InvO.change {s : St} {p : Id} {st : Status} {o : Obj} (h : InvO s) (hs : o.status = st) :
    InvO (see (setObj s p o) (.change p st)) := by
  refine ⟨fun q e => h.io q e, h.ex, ?_, ?_⟩
  · intro q
    simp only [see_obj, setObj_obj, see_log, setObj_log, now]
    by_cases hq : q = p
    · subst hq; simp [hs]
    · simp only [if_neg hq, if_neg (Ne.symm hq)]; exact h.st q
  · exact truth_cons h.truth (fun _ _ hh => nomatch hh)

/-- A call. -/
theorem InvO.call {s s' : St} {p : Id} (h : InvO s) (hk : s'.kid = s.kid)
    (hl : s'.log = .call p (s.obj p).status :: s.log)
    (ho : ∀ p, (s'.obj p).status = (s.obj p).status) : InvO s' := by
  refine ⟨?_, ?_, ?_, ?_⟩
  · rw [hk, hl]; exact fun q e => h.io q e
  · rw [hk]; exact h.ex
  · intro q; rw [ho, hl]; exact h.st q
  · rw [hl]
    refine truth_cons h.truth (fun q st hh => ?_)
    cases hh
    exact h.st p

theorem InvO.kid {s : St} {p : Id} {k : Kid} (h : InvO s) (hp : ∀ e, pipe k e = pipe (s.kid p) e)
    (hx : ∀ x, k.report = some (.exited x) → k.alive = false) : InvO (setKid s p k) := by
  refine ⟨?_, ?_, fun q => h.st q, fun q => h.truth q⟩
  · intro q e
    simp only [setKid_kid, setKid_log]
    split
    · rename_i hq; subst hq; rw [hp]; exact h.io _ _
    · exact h.io q e
  · intro q x
    simp only [setKid_kid]
    split
    · rename_i hq; subst hq; exact hx x
    · exact h.ex q x

theorem InvO.obj {s : St} {p : Id} {o : Obj} (h : InvO s) (hs : o.status = (s.obj p).status) :
    InvO (setObj s p o) := by
  refine h.same rfl rfl (fun q => ?_)
  simp only [setObj_obj]
  split
  · rename_i hq; subst hq; exact hs
  · rfl

theorem sent_read (s : St) (p q : Id) (e e' : Bool) (l : List Obs) :
    sent (readLog s p e ++ l) q e' = sent l q e' := by
  unfold readLog; dsimp only; split <;> split <;> rfl

theorem received_read (s : St) (p q : Id) (e e' : Bool) (l : List Obs) :
    received (readLog s p e ++ l) q e' =
      received l q e' ++ (if p = q ∧ e = e' then pipe (s.kid p) e else []) := by
  unfold readLog pipe
  dsimp only
  cases e
  · by_cases hb : (s.kid p).outPipe = []
    · simp [hb]
    · simp only [Bool.false_eq_true, if_false, if_neg hb, List.singleton_append, received]
      split <;> simp
  · by_cases hb : (s.kid p).errPipe = []
    · simp [hb]
    · simp only [if_true, if_neg hb, List.singleton_append, received]
      split <;> simp

theorem pipe_read (s : St) (p q : Id) (e e' : Bool) :
    pipe ((readFd s p e).kid q) e' = if p = q ∧ e = e' then [] else pipe (s.kid q) e' := by
  rw [readFd_eq]
  dsimp only
  unfold pipe
  by_cases hq : q = p
  · subst hq
    cases e <;> cases e' <;> simp
  · simp [hq, Ne.symm hq]

/-- The log only: reading keeps what has been received and what is in the pipes together. -/
structure InvI (s : St) : Prop where
  io : ∀ p e, received s.log p e ++ pipe (s.kid p) e = sent s.log p e
  ex : ∀ p x, (s.kid p).report = some (.exited x) → (s.kid p).alive = false
  truth : ∀ p a st b, s.log = a ++ .call p st :: b → st = now b p

theorem InvI.read {s : St} {p : Id} {e : Bool} (h : InvI s) : InvI (readFd s p e) := by
  refine ⟨?_, ?_, ?_⟩
  · intro q e'
    rw [readFd_log, sent_read, received_read, pipe_read, ← h.io q e']
    split
    · rename_i hh; obtain ⟨h1, h2⟩ := hh; subst h1; subst h2; simp
    · simp
  · intro q x; rw [readFd_report, readFd_alive]; exact h.ex q x
  · rw [readFd_log]
    unfold readLog
    dsimp only
    split
    · split
      · exact h.truth
      · exact truth_cons h.truth (fun _ _ hh => nomatch hh)
    · split
      · exact h.truth
      · exact truth_cons h.truth (fun _ _ hh => nomatch hh)

theorem InvI.readOpen {s : St} {p : Id} {e : Bool} (h : InvI s) : InvI (readOpen s p e) := by
  unfold Rep.Proc.readOpen
  split
  · exact h.read
  · exact h

theorem InvO.toI {s : St} (h : InvO s) : InvI s := ⟨h.io, h.ex, h.truth⟩

theorem InvO.read {s : St} {p : Id} {e : Bool} (h : InvO s) : InvO (readFd s p e) := by
  have hi : InvI (readFd s p e) := h.toI.read
  exact ⟨hi.io, hi.ex, fun q => by rw [readFd_status, readFd_log, now_read]; exact h.st q, hi.truth⟩

theorem InvO.reap {s s' : St} {p : Id} (h : InvO s) (hs : reap s p = .ok s') : InvO s' := by
  unfold Rep.Proc.reap at hs
  split at hs
  · cases hs
  split at hs
  · cases hs
  dsimp only at hs
  have hk : InvO (setKid s p { s.kid p with report := none }) :=
    h.kid (fun e => rfl) (fun x hx => nomatch hx)
  by_cases hact : ((setKid s p { s.kid p with report := none }).obj p).status.active = true
  · rw [if_neg (by simpa using hact)] at hs
    split at hs
    · cases hs
      exact (hk.change rfl).queue
    · rename_i st _
      cases hs
      refine InvO.queue ?_
      have hi : InvI (setObj (setKid s p { s.kid p with report := none }) p
          { (setKid s p { s.kid p with report := none }).obj p with exit := some st, status := .dead }) :=
        ⟨hk.io, hk.ex, hk.truth⟩
      have hc : ∀ t : St, InvI t → (∀ q, q ≠ p → (t.obj q).status = now t.log q) →
          (t.obj p).status = .dead →
          InvO (see (setObj t p { t.obj p with out := false, err := false }) (.change p .dead)) := by
        intro t ht hst hd
        refine ⟨fun q e => ht.io q e, ht.ex, ?_, ?_⟩
        · intro q
          simp only [see_obj, setObj_obj, see_log, setObj_log, now]
          by_cases hq : q = p
          · subst hq; simp [hd]
          · simp only [if_neg hq, if_neg (Ne.symm hq)]; exact hst q hq
        · exact truth_cons ht.truth (fun _ _ hh => nomatch hh)
      refine hc _ (InvI.readOpen (InvI.readOpen ⟨hi.io, hi.ex, hi.truth⟩)) ?_ ?_
      · intro q hq
        simp only [readOpen_status, readOpen_now, setObj_obj, if_neg hq, setObj_log, setKid_obj, setKid_log]
        exact h.st q
      · simp
  · rw [if_pos hact] at hs
    cases hs
    exact hk

theorem InvO.step {s s' : St} {op : Op} (h : InvO s) (hs : step s op = .ok s') : InvO s' := by
  cases op with
  | write p e b =>
    simp only [Rep.Proc.step] at hs
    split at hs
    · rename_i hl
      cases hs
      refine ⟨?_, ?_, fun q => h.st q, truth_cons h.truth (fun _ _ hh => nomatch hh)⟩
      · intro q e'
        have := h.io q e'
        simp only [see_kid, setKid_kid, see_log, setKid_log, received, sent]
        by_cases hq : q = p
        · subst hq
          cases e <;> cases e' <;> simp_all [pipe] <;> rw [← this] <;> simp
        · simp [hq, Ne.symm hq, this]
      · intro q x
        simp only [see_kid, setKid_kid]
        split
        · rename_i hq; subst hq
          cases e
          · exact h.ex q x
          · exact h.ex q x
        · exact h.ex q x
    · cases hs
  | halt p =>
    simp only [Rep.Proc.step] at hs
    split at hs
    · cases hs
      exact InvO.same (h.kid (p := p) (k := { s.kid p with report := some .stopped }) (fun e => rfl)
        (fun x hx => nomatch hx)) rfl rfl (fun _ => rfl)
    · cases hs
  | exit p st =>
    simp only [Rep.Proc.step] at hs
    split at hs
    · cases hs
      have hk := h.kid (p := p) (k := { s.kid p with report := some (.exited st), alive := false })
        (fun e => rfl) (fun x hx => rfl)
      exact ⟨fun q e => hk.io q e, hk.ex, fun q => h.st q, truth_cons h.truth (fun _ _ hh => nomatch hh)⟩
    · cases hs
  | make =>
    simp only [Rep.Proc.step] at hs
    cases hs
    exact h.same rfl rfl (fun _ => rfl)
  | start p =>
    simp only [Rep.Proc.step] at hs
    split at hs
    · cases hs
      refine ⟨?_, ?_, ?_, truth_cons h.truth (fun _ _ hh => nomatch hh)⟩
      · intro q e
        simp only [see_kid, setObj_kid, setKid_kid, see_log, setObj_log, setKid_log, received, sent]
        by_cases hq : q = p
        · subst hq; cases e <;> simp [pipe]
        · simp only [if_neg hq, if_neg (Ne.symm hq)]; exact h.io q e
      · intro q x
        simp only [see_kid, setObj_kid, setKid_kid]
        split
        · intro hx; cases hx
        · exact h.ex q x
      · intro q
        simp only [see_obj, setObj_obj, see_log, setObj_log, setKid_log, now, setKid_obj]
        by_cases hq : q = p
        · subst hq; simp
        · simp only [if_neg hq, if_neg (Ne.symm hq)]; exact h.st q
    · cases hs
  | resume p =>
    simp only [Rep.Proc.step] at hs
    split at hs
    · cases hs
      refine InvO.queue ?_
      split
      · exact (h.kid (p := p) (k := { s.kid p with report := none }) (fun e => rfl)
          (fun x hx => nomatch hx)).change rfl
      · exact h.change rfl
    · cases hs
  | close p =>
    simp only [Rep.Proc.step] at hs
    split at hs
    · cases hs; exact h.obj rfl
    · cases hs
  | read p e =>
    simp only [Rep.Proc.step] at hs
    split at hs
    · cases hs; exact h.read
    · cases hs
  | zombies =>
    simp only [Rep.Proc.step] at hs
    split at hs
    · cases hs; exact h.same rfl rfl (fun _ => rfl)
    · cases hs
  | reap p => exact h.reap hs
  | reaped =>
    simp only [Rep.Proc.step] at hs
    split at hs
    · cases hs; exact h.same rfl rfl (fun _ => rfl)
    · cases hs
  | dispatch =>
    simp only [Rep.Proc.step] at hs
    unfold Rep.Proc.dispatch at hs
    split at hs
    · cases hs
    · rename_i p _
      cases hs
      refine h.call (p := p) rfl (by simp) (fun q => ?_)
      simp only [see_obj, setObj_obj]
      split
      · rename_i hq; subst hq; rfl
      · rfl
  | notify1 p =>
    simp only [Rep.Proc.step] at hs
    split at hs
    · unfold Rep.Proc.notify1 at hs
      split at hs
      · cases hs
      split at hs
      · cases hs
      · cases hs
        refine h.call (p := p) rfl (by simp) (fun q => ?_)
        simp only [see_obj, setObj_obj]
        split
        · rename_i hq; subst hq; rfl
        · rfl
      · rename_i r _ _
        cases hs
        have hst : ∀ q, ((setObj s r { s.obj r with next := (s.obj p).next }).obj q).status =
            (s.obj q).status := by
          intro q
          simp only [setObj_obj]
          split
          · rename_i hq; subst hq; rfl
          · rfl
        refine h.call (p := p) rfl ?_ (fun q => ?_)
        · simp only [see_log, setObj_log]
          congr 2
          rw [setObj_obj, if_pos rfl]
          exact hst p
        · rw [see_obj, setObj_obj]
          split
          · rename_i hq; subst hq; exact hst _
          · exact hst q
    · cases hs
  | call p =>
    simp only [Rep.Proc.step] at hs
    split at hs
    · cases hs
      refine ⟨?_, ?_, ?_, truth_cons h.truth (fun _ _ hh => nomatch hh)⟩
      · intro q e
        simp only [see_kid, setObj_kid, setKid_kid, see_log, setObj_log, setKid_log, received, sent]
        by_cases hq : q = p
        · subst hq; cases e <;> simp [pipe]
        · simp only [if_neg hq, if_neg (Ne.symm hq)]; exact h.io q e
      · intro q x
        simp only [see_kid, setObj_kid, setKid_kid]
        split
        · intro hx; cases hx
        · exact h.ex q x
      · intro q
        simp only [see_obj, setObj_obj, see_log, setObj_log, setKid_log, now, setKid_obj]
        by_cases hq : q = p
        · subst hq; simp
        · simp only [if_neg hq, if_neg (Ne.symm hq)]; exact h.st q
    · cases hs
  | callRead p e =>
    simp only [Rep.Proc.step] at hs
    split at hs
    · cases hs; exact h.read
    · cases hs
  | called p st =>
    simp only [Rep.Proc.step] at hs
    split at hs
    · split at hs
      · split at hs
        · cases hs
          exact ((h.kid (p := p) (k := { s.kid p with report := none }) (fun e => rfl)
            (fun x hx => nomatch hx)).change rfl).queue
        · cases hs
      · cases hs
        exact (h.change rfl).queue
    · cases hs
  | gc marked =>
    simp only [Rep.Proc.step] at hs
    split at hs
    · unfold sweep at hs
      split at hs
      · cases hs; exact h.same rfl rfl (fun _ => rfl)
      split at hs
      · cases hs
      · cases hs; exact h.same rfl rfl (fun _ => rfl)
      · rename_i p _
        cases hs
        exact InvO.same (h.obj (p := p) (o := { s.obj p with next := none }) rfl) rfl rfl (fun _ => rfl)
    · cases hs

theorem InvO.run {s s' : St} {ops : List Op} (hr : Run s ops s') : InvO s → InvO s' := by
  induction hr with
  | nil => exact fun h => h
  | cons hs _ ih => exact fun h => ih (h.step hs)

/-! ### Nothing is lost before the end is told -/

structure InvC (p : Id) (s : St) : Prop where
  closed : ∀ e, s.isOpen p e = false → pipe (s.kid p) e = [] ∧ (s.kid p).alive = false
  all : ∀ a b e, s.log = a ++ .change p .dead :: b → received b p e = sent b p e

theorem InvC.init (p : Id) : InvC p init := by
  refine ⟨fun e _ => ⟨by cases e <;> rfl, rfl⟩, ?_⟩
  intro a b e h
  have : ([] : List Obs) = a ++ .change p .dead :: b := h
  simp at this

theorem all_cons {p : Id} {l : List Obs} {o : Obs}
    (h : ∀ a b e, l = a ++ .change p .dead :: b → received b p e = sent b p e)
    (ho : o = .change p .dead → ∀ e, received l p e = sent l p e) :
    ∀ a b e, o :: l = a ++ .change p .dead :: b → received b p e = sent b p e := by
  intro a b e hab
  cases a with
  | nil => cases hab; exact ho rfl e
  | cons x a => simp only [List.cons_append, List.cons.injEq] at hab; exact h a b e hab.2

/-- The log grows by observations that are not the end of `p`; its streams and pipes are as before. -/
theorem InvC.same {p : Id} {s s' : St} (h : InvC p s)
    (hc : ∀ e, s'.isOpen p e = s.isOpen p e) (hp : ∀ e, pipe (s'.kid p) e = pipe (s.kid p) e)
    (ha : (s.kid p).alive = false → (s'.kid p).alive = false)
    (hl : s'.log = s.log ∨ ∃ o, s'.log = o :: s.log ∧ o ≠ .change p .dead) : InvC p s' := by
  refine ⟨?_, ?_⟩
  · intro e he
    rw [hc] at he
    rw [hp]
    exact ⟨(h.closed e he).1, ha (h.closed e he).2⟩
  · rcases hl with hl | ⟨o, hl, ho⟩
    · rw [hl]; exact h.all
    · rw [hl]; exact all_cons h.all (fun hh => absurd hh ho)

theorem queue_isOpen (s : St) (p q : Id) (e : Bool) : (queueNotify s p).isOpen q e = s.isOpen q e := by
  cases e <;> simp [St.isOpen]

theorem InvC.queue {p q : Id} {s : St} (h : InvC p s) : InvC p (queueNotify s q) :=
  h.same (fun e => queue_isOpen _ _ _ _) (fun e => by simp) (fun ha => by simpa using ha) (Or.inl (by simp))

theorem read_isOpen (s : St) (p q : Id) (e e' : Bool) : (readFd s p e).isOpen q e' =
    if q = p ∧ e = e' ∧ (s.kid p).alive = false then false else s.isOpen q e' := by
  rw [readFd_eq]
  unfold St.isOpen
  dsimp only
  by_cases hq : q = p
  · subst hq
    cases (s.kid q).alive <;> cases e <;> cases e' <;> simp
  · simp [hq]

theorem InvC.read {p q : Id} {s : St} {e : Bool} (h : InvC p s) : InvC p (readFd s q e) := by
  refine ⟨?_, ?_⟩
  · intro e' he
    rw [read_isOpen] at he
    rw [pipe_read, readFd_alive]
    split at he
    · rename_i hh
      obtain ⟨h1, h2, h3⟩ := hh
      subst h1; subst h2
      exact ⟨by simp, h3⟩
    · obtain ⟨h1, h2⟩ := h.closed e' he
      refine ⟨?_, h2⟩
      split
      · rfl
      · exact h1
  · rw [readFd_log]
    unfold readLog
    dsimp only
    split
    · split
      · exact h.all
      · exact all_cons h.all (fun hh => nomatch hh)
    · split
      · exact h.all
      · exact all_cons h.all (fun hh => nomatch hh)

/-- After reading what is open, both pipes are empty. -/
theorem InvC.readOpen {p q : Id} {s : St} {e : Bool} (h : InvC p s) : InvC p (readOpen s q e) ∧
    (q = p → pipe ((Rep.Proc.readOpen s q e).kid p) e = []) ∧
    (∀ e', pipe (s.kid p) e' = [] → pipe ((Rep.Proc.readOpen s q e).kid p) e' = []) := by
  unfold Rep.Proc.readOpen
  split
  · refine ⟨h.read, ?_, ?_⟩
    · intro hq; subst hq; rw [pipe_read]; simp
    · intro e' he; rw [pipe_read]; split
      · rfl
      · exact he
  · rename_i hh
    refine ⟨h, ?_, fun _ he => he⟩
    intro hq; subst hq
    exact (h.closed e (by simpa using hh)).1

/-- The end of `p` is told when everything has been read. -/
theorem InvC.dead {p : Id} {s s' : St} (hO : InvI s) (h : InvC p s) (hk : s'.kid = s.kid)
    (hl : s'.log = .change p .dead :: s.log) (he : ∀ e, pipe (s.kid p) e = [])
    (ha : (s.kid p).alive = false) : InvC p s' := by
  refine ⟨fun e _ => by rw [hk]; exact ⟨he e, ha⟩, ?_⟩
  rw [hl]
  refine all_cons h.all (fun _ e => ?_)
  have := hO.io p e
  rw [he, List.append_nil] at this
  exact this

theorem setObj_isOpen (s : St) (p q : Id) (o : Obj) (e : Bool) (h1 : o.out = (s.obj p).out)
    (h2 : o.err = (s.obj p).err) : (setObj s p o).isOpen q e = s.isOpen q e := by
  unfold St.isOpen
  rw [setObj_obj]
  by_cases hq : q = p
  · subst hq; rw [if_pos rfl, h1, h2]
  · rw [if_neg hq]

theorem setObj_isOpen_ne (s : St) (p q : Id) (o : Obj) (e : Bool) (h : p ≠ q) :
    (setObj s q o).isOpen p e = s.isOpen p e := by
  unfold St.isOpen
  simp [h]

theorem InvC.reap {s s' : St} {p q : Id} (hO : InvO s) (h : InvC p s) (hs : reap s q = .ok s') :
    InvC p s' := by
  unfold Rep.Proc.reap at hs
  split at hs
  · cases hs
  split at hs
  · cases hs
  rename_i r hr
  dsimp only at hs
  have hkO : InvO (setKid s q { s.kid q with report := none }) :=
    hO.kid (fun e => rfl) (fun x hx => nomatch hx)
  have hkp : ∀ e, pipe ((setKid s q { s.kid q with report := none }).kid p) e = pipe (s.kid p) e := by
    intro e
    simp only [setKid_kid]
    split
    · rename_i hq; subst hq; rfl
    · rfl
  have hka : ((setKid s q { s.kid q with report := none }).kid p).alive = (s.kid p).alive := by
    simp only [setKid_kid]
    split
    · rename_i hq; subst hq; rfl
    · rfl
  have hk : InvC p (setKid s q { s.kid q with report := none }) :=
    h.same (fun e => rfl) hkp (fun ha => by rw [hka]; exact ha) (Or.inl rfl)
  by_cases hact : ((setKid s q { s.kid q with report := none }).obj q).status.active = true
  · rw [if_neg (by simpa using hact)] at hs
    split at hs
    · cases hs
      refine InvC.queue (hk.same (fun e => ?_) (fun e => rfl) (fun ha => ha) (Or.inr ⟨_, rfl, ?_⟩))
      · exact setObj_isOpen _ _ _ _ _ rfl rfl
      · intro hh; cases hh
    · rename_i st
      cases hs
      refine InvC.queue ?_
      have hal : (s.kid q).alive = false := hO.ex q st hr
      have key : ∀ t : St, InvI t → InvC p t → (p = q → (t.kid p).alive = false) →
          InvC p (see (setObj (Rep.Proc.readOpen (Rep.Proc.readOpen t q false) q true) q
            { (Rep.Proc.readOpen (Rep.Proc.readOpen t q false) q true).obj q with out := false, err := false })
            (.change q .dead)) := by
        intro t hI hC ha
        obtain ⟨h1, h2, h3⟩ := hC.readOpen (q := q) (e := false)
        obtain ⟨h4, h5, h6⟩ := h1.readOpen (q := q) (e := true)
        have hI' : InvI (Rep.Proc.readOpen (Rep.Proc.readOpen t q false) q true) := hI.readOpen.readOpen
        by_cases hq : q = p
        · subst hq
          refine InvC.dead (s := Rep.Proc.readOpen (Rep.Proc.readOpen t q false) q true) hI' h4 rfl rfl ?_ ?_
          · intro e
            cases e
            · exact h6 false (h2 rfl)
            · exact h5 rfl
          · simpa using ha rfl
        · refine h4.same (fun e => ?_) (fun e => rfl) (fun ha => ha) (Or.inr ⟨_, rfl, ?_⟩)
          · exact setObj_isOpen_ne _ _ _ _ _ (Ne.symm hq)
          · intro hh; cases hh; exact hq rfl
      refine key _ ⟨hkO.io, hkO.ex, hkO.truth⟩ ?_ ?_
      · refine hk.same (fun e => ?_) (fun e => rfl) (fun ha => ha) (Or.inl rfl)
        exact setObj_isOpen _ _ _ _ _ rfl rfl
      · intro hq; subst hq
        show ((setKid s p { s.kid p with report := none }).kid p).alive = false
        rw [hka]; exact hal
  · rw [if_pos hact] at hs
    cases hs
    exact hk

theorem InvC.step {s s' : St} {op : Op} {p : Id} (hO : InvO s) (h : InvC p s) (hop : op ≠ .close p)
    (hs : step s op = .ok s') : InvC p s' := by
  cases op with
  | write q e b =>
    simp only [Rep.Proc.step] at hs
    split at hs
    · rename_i hl
      cases hs
      by_cases hq : q = p
      · subst hq
        have hal : (s.kid q).alive = true := by
          simp only [St.live, Bool.and_eq_true] at hl; exact hl.1.2
        refine ⟨fun e' he => ?_, all_cons h.all (fun hh => nomatch hh)⟩
        have := (h.closed e' he).2
        rw [hal] at this; cases this
      · refine h.same (fun e => rfl) (fun e => ?_) (fun ha => ?_) (Or.inr ⟨_, rfl, fun hh => nomatch hh⟩)
        · simp [Ne.symm hq]
        · simpa [Ne.symm hq] using ha
    · cases hs
  | halt q =>
    simp only [Rep.Proc.step] at hs
    split at hs
    · cases hs
      refine h.same (fun e => rfl) (fun e => ?_) (fun ha => ?_) (Or.inl rfl)
      · simp only [setKid_kid]; split
        · rename_i hq; subst hq; rfl
        · rfl
      · simp only [setKid_kid]; split
        · rename_i hq; subst hq; exact ha
        · exact ha
    · cases hs
  | exit q st =>
    simp only [Rep.Proc.step] at hs
    split at hs
    · cases hs
      refine h.same (fun e => rfl) (fun e => ?_) (fun ha => ?_) (Or.inr ⟨_, rfl, fun hh => nomatch hh⟩)
      · simp only [see_kid, setKid_kid]; split
        · rename_i hq; subst hq; rfl
        · rfl
      · simp only [see_kid, setKid_kid]; split
        · rfl
        · exact ha
    · cases hs
  | make =>
    simp only [Rep.Proc.step] at hs
    cases hs
    exact h.same (fun e => rfl) (fun e => rfl) (fun ha => ha) (Or.inl rfl)
  | start q =>
    simp only [Rep.Proc.step] at hs
    split at hs
    · cases hs
      by_cases hq : q = p
      · subst hq
        refine ⟨fun e he => ?_, all_cons h.all (fun hh => nomatch hh)⟩
        cases e <;> simp [St.isOpen] at he
      · refine h.same (fun e => ?_) (fun e => ?_) (fun ha => ?_) (Or.inr ⟨_, rfl, fun hh => nomatch hh⟩)
        · exact setObj_isOpen_ne _ _ _ _ _ (Ne.symm hq)
        · simp [Ne.symm hq]
        · simpa [Ne.symm hq] using ha
    · cases hs
  | resume q =>
    simp only [Rep.Proc.step] at hs
    split at hs
    · cases hs
      refine InvC.queue ?_
      split
      · refine h.same (fun e => ?_) (fun e => ?_) (fun ha => ?_) (Or.inr ⟨_, rfl, fun hh => by cases hh⟩)
        · exact setObj_isOpen _ _ _ _ _ rfl rfl
        · simp only [see_kid, setObj_kid, setKid_kid]; split
          · rename_i hq; subst hq; rfl
          · rfl
        · simp only [see_kid, setObj_kid, setKid_kid]; split
          · rename_i hq; subst hq; exact ha
          · exact ha
      · refine h.same (fun e => ?_) (fun e => rfl) (fun ha => ha) (Or.inr ⟨_, rfl, fun hh => by cases hh⟩)
        exact setObj_isOpen _ _ _ _ _ rfl rfl
    · cases hs
  | close q =>
    simp only [Rep.Proc.step] at hs
    split at hs
    · cases hs
      have hq : p ≠ q := fun hh => hop (by rw [hh])
      exact h.same (fun e => setObj_isOpen_ne _ _ _ _ _ hq) (fun e => rfl) (fun ha => ha) (Or.inl rfl)
    · cases hs
  | read q e =>
    simp only [Rep.Proc.step] at hs
    split at hs
    · cases hs; exact h.read
    · cases hs
  | zombies =>
    simp only [Rep.Proc.step] at hs
    split at hs
    · cases hs
      exact h.same (fun e => rfl) (fun e => rfl) (fun ha => ha) (Or.inl rfl)
    · cases hs
  | reap q => exact h.reap hO hs
  | reaped =>
    simp only [Rep.Proc.step] at hs
    split at hs
    · cases hs
      exact h.same (fun e => rfl) (fun e => rfl) (fun ha => ha) (Or.inl rfl)
    · cases hs
  | dispatch =>
    simp only [Rep.Proc.step] at hs
    unfold Rep.Proc.dispatch at hs
    split at hs
    · cases hs
    · cases hs
      refine h.same (fun e => ?_) (fun e => rfl) (fun ha => ha) (Or.inr ⟨_, rfl, fun hh => by cases hh⟩)
      exact setObj_isOpen _ _ _ _ _ rfl rfl
  | notify1 q =>
    simp only [Rep.Proc.step] at hs
    split at hs
    · unfold Rep.Proc.notify1 at hs
      split at hs
      · cases hs
      split at hs
      · cases hs
      · cases hs
        refine h.same (fun e => ?_) (fun e => rfl) (fun ha => ha) (Or.inr ⟨_, rfl, fun hh => by cases hh⟩)
        exact setObj_isOpen _ _ _ _ _ rfl rfl
      · rename_i r _ _
        cases hs
        refine h.same (fun e => ?_) (fun e => rfl) (fun ha => ha) (Or.inr ⟨_, rfl, fun hh => by cases hh⟩)
        have h2 := setObj_isOpen (setObj s r { s.obj r with next := (s.obj q).next }) q p
          { (setObj s r { s.obj r with next := (s.obj q).next }).obj q with next := none } e rfl rfl
        have h3 := setObj_isOpen s r p { s.obj r with next := (s.obj q).next } e rfl rfl
        exact h2.trans h3
    · cases hs
  | call q =>
    simp only [Rep.Proc.step] at hs
    split at hs
    · cases hs
      by_cases hq : q = p
      · subst hq
        refine ⟨fun e he => ?_, all_cons h.all (fun hh => nomatch hh)⟩
        cases e <;> simp [St.isOpen] at he
      · refine h.same (fun e => ?_) (fun e => ?_) (fun ha => ?_) (Or.inr ⟨_, rfl, fun hh => nomatch hh⟩)
        · exact setObj_isOpen_ne _ _ _ _ _ (Ne.symm hq)
        · simp [Ne.symm hq]
        · simpa [Ne.symm hq] using ha
    · cases hs
  | callRead q e =>
    simp only [Rep.Proc.step] at hs
    split at hs
    · cases hs; exact h.read
    · cases hs
  | called q st =>
    simp only [Rep.Proc.step] at hs
    split at hs
    · rename_i hg
      obtain ⟨_, _, h1, h2, hal⟩ := hg
      have key : ∀ (t : St) (o : Obj), InvI t → t.log = s.log → t.obj = s.obj →
          (∀ e, pipe (t.kid p) e = pipe (s.kid p) e) → (t.kid p).alive = (s.kid p).alive →
          InvC p (see (setObj t q o) (.change q .dead)) ∨ q ≠ p := by
        intro t o hI hl ho hp ha
        by_cases hq : q = p
        · left
          subst hq
          have hC : InvC q t := by
            refine h.same (fun e => ?_) hp (fun h => by rw [ha]; exact h) (Or.inl hl)
            unfold St.isOpen; rw [ho]
          refine InvC.dead (s := t) hI hC rfl rfl ?_ ?_
          · intro e
            rw [hp]
            refine (h.closed e ?_).1
            cases e
            · simpa [St.isOpen] using h1
            · simpa [St.isOpen] using h2
          · rw [ha]; simpa using hal
        · right; exact hq
      have other : ∀ (t : St) (o : Obj), q ≠ p → t.log = s.log → t.obj = s.obj →
          (∀ e, pipe (t.kid p) e = pipe (s.kid p) e) → (t.kid p).alive = (s.kid p).alive →
          InvC p (see (setObj t q o) (.change q .dead)) := by
        intro t o hq hl ho hp ha
        refine h.same (fun e => ?_) hp (fun h => ?_) (Or.inr ⟨.change q .dead, ?_, ?_⟩)
        · refine (setObj_isOpen_ne _ _ _ _ _ (Ne.symm hq)).trans ?_
          unfold St.isOpen; rw [ho]
        · show (t.kid p).alive = false; rw [ha]; exact h
        · show _ :: t.log = _; rw [hl]
        · intro hh; cases hh; exact hq rfl
      have hkp : ∀ e, pipe ((setKid s q { s.kid q with report := none }).kid p) e = pipe (s.kid p) e := by
        intro e
        simp only [setKid_kid]
        split
        · rename_i hq; subst hq; rfl
        · rfl
      have hka : ((setKid s q { s.kid q with report := none }).kid p).alive = (s.kid p).alive := by
        simp only [setKid_kid]
        split
        · rename_i hq; subst hq; rfl
        · rfl
      split at hs
      · split at hs
        · cases hs
          refine InvC.queue ?_
          rcases key (setKid s q { s.kid q with report := none }) _
            (hO.kid (p := q) (k := { s.kid q with report := none }) (fun e => rfl) (fun x hx => nomatch hx)).toI
            rfl rfl hkp hka with hh | hh
          · exact hh
          · exact other _ _ hh rfl rfl hkp hka
        · cases hs
      · cases hs
        refine InvC.queue ?_
        rcases key s _ hO.toI rfl rfl (fun _ => rfl) rfl with hh | hh
        · exact hh
        · exact other _ _ hh rfl rfl (fun _ => rfl) rfl
    · cases hs
  | gc marked =>
    simp only [Rep.Proc.step] at hs
    split at hs
    · unfold sweep at hs
      split at hs
      · cases hs
        exact h.same (fun e => rfl) (fun e => rfl) (fun ha => ha) (Or.inl rfl)
      split at hs
      · cases hs
      · cases hs
        exact h.same (fun e => rfl) (fun e => rfl) (fun ha => ha) (Or.inl rfl)
      · cases hs
        refine h.same (fun e => ?_) (fun e => rfl) (fun ha => ha) (Or.inl rfl)
        exact setObj_isOpen _ _ _ _ _ rfl rfl
    · cases hs

theorem InvC.run {s s' : St} {ops : List Op} {p : Id} (hr : Run s ops s') : (Op.close p ∉ ops) → InvO s →
    InvC p s → InvC p s' := by
  induction hr with
  | nil => exact fun _ _ h => h
  | cons hs _ ih =>
    intro hc hO h
    refine ih (fun hh => hc (List.mem_cons_of_mem _ hh)) (hO.step hs) (h.step hO ?_ hs)
    intro hh
    exact hc (by rw [hh]; exact List.mem_cons_self)

end Rep.Proc
