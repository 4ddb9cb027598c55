import Verif.Sync.StepC

/-
The steps of the functions of message ports, and the calls, keep the invariant.
-/

namespace Rep.Sync

variable {f : Nat → Nat} {s s' : St} {t : Tid}

/-- `t` enters a function of a condition variable. -/
theorem enter (h : Inv f s) {y : Th} (c : Cv) (hth : ∀ u, u ≠ t → s'.th u = s.th u) (ht : s'.th t = y)
    (hmx : s'.mx = s.mx) (hcv : s'.cv = s.cv) (hs : Shape f y) (hst : StOk y)
    (hown : ∀ m, own f y = some m → (s.mx m).head? = some t)
    (hcm : (s.mx (cvm f c)).head? = some t)
    (hm0 : ∀ m, mv m (s.th t) = none) (hm1 : ∀ m, mv m y = none)
    (hw0 : ∀ k, cw k (s.th t) = none) (hw1 : ∀ k, cw k y = none)
    (hk0 : ∀ k, critOf k (s.th t) = none) (hk1 : ∀ k, k ≠ c → critOf k y = none)
    (hM : ∀ m sp, MS.run m s.log = some sp → MS.run m s'.log = some sp)
    (hC : ∀ k sp, k ≠ c → CS.run k s.log = some sp → CS.run k s'.log = some sp)
    (hc : ∀ sp, CS.run c s.log = some sp → s.cv c = sp.q.reverse → sp.busy = none →
      ∃ sp', CS.run c s'.log = some sp' ∧ sp'.q = sp.q ∧ CRel t (s.cv c) sp' (critOf c y))
    (hP : ∀ p, ∃ sp, PS.run p s'.log = some sp ∧ PInv s' p sp) : Inv f s' := by
  refine h.upd (t := t) (fun u hu => .of_eq (hth u hu)) (by rw [hmx]; exact fun _ _ _ h => h)
    ⟨by rw [ht]; exact hs, by rw [ht]; exact hst, by rw [ht, hmx]; exact hown⟩ (fun m => ?_) (fun k => ?_) hP
  · exact M_same h hth m (by rw [hmx]) (by rw [ht, hm0, hm1]) fun sp r => hM m sp r
  · by_cases hkc : k = c
    · subst hkc
      obtain ⟨sp, r, i⟩ := h.cv k
      have hrel := i.rel (h.no_crit hcm)
      rw [hk0] at hrel
      obtain ⟨sp', r', hq, hr⟩ := hc sp r hrel.1 hrel.2
      exact ⟨sp', r', i.move (h.no_crit hcm) hth (by rw [ht, hw0, hw1]) hq (by rw [ht, hcv]; exact hr)⟩
    · exact C_same h hth k (by rw [hcv]) (by rw [ht, hw0, hw1]) (by rw [ht, hk0, hk1 k hkc]) fun sp r => hC k sp hkc r

theorem step_enq (h : Inv f s) {p : Nat} {v : Msg} (hpc : (s.th t).pc = .enq p v) :
    Inv f ((((s.add (.sent t p v)).setPq p (s.pq p ++ [v])).add (.sigCall t (.port p))).set t
      { pc := .sigChk (.port p), stk := [.sendSig p] }) := by
  have hs := (h.th t).shape
  simp only [Shape, hpc] at hs
  have hh : (s.mx (.port p)).head? = some t := (h.th t).own _ (by simp [own, hpc])
  generalize hs' : (((s.add (.sent t p v)).setPq p (s.pq p ++ [v])).add (.sigCall t (.port p))).set t
      { pc := .sigChk (.port p), stk := [.sendSig p] } = s'
  have ht : s'.th t = { pc := .sigChk (.port p), stk := [.sendSig p] } := by rw [← hs', set_th, if_pos rfl]
  have hth : ∀ w, w ≠ t → s'.th w = s.th w := fun w hw => by rw [← hs', set_th, if_neg hw]; rfl
  have hlog : s'.log = s.log ++ [.sent t p v] ++ [.sigCall t (.port p)] := by rw [← hs']; rfl
  have hmx : s'.mx = s.mx := by rw [← hs']; rfl
  have hcv : s'.cv = s.cv := by rw [← hs']; rfl
  have hpq : ∀ k, s'.pq k = if k = p then s.pq p ++ [v] else s.pq k := fun k => by rw [← hs']; rfl
  refine enter h (.port p) hth ht hmx hcv ?_ rfl ?_ hh ?_ ?_ ?_ ?_ ?_ ?_ (fun m sp r => ?_) (fun k sp hk r => ?_)
    (fun sp r h1 h2 => ?_) (fun k => ?_)
  · exact .inr ⟨p, rfl, rfl⟩
  · intro m hm; simp [own, cvm] at hm; rw [← hm]; exact hh
  · simp [mv, hpc]
  · simp [mv]
  · simp [cw, hpc]
  · simp [cw]
  · simp [critOf, crit, hpc]
  · intro k hk; simp [critOf, crit, Ne.symm hk]
  · rw [hlog]; exact MS.run_snoc (MS.run_snoc r (MS.step_no rfl)) (MS.step_no rfl)
  · rw [hlog]; exact CS.run_snoc (sp := sp) (CS.run_snoc r (CS.step_no rfl)) (by simp [CS.step, Ne.symm hk])
  · refine ⟨{ sp with busy := some (t, sp.q.take 1) }, ?_, rfl, ?_⟩
    · rw [hlog]; exact CS.run_snoc (sp := sp) (CS.run_snoc r (CS.step_no rfl)) (by simp [CS.step, h2])
    · have : critOf (.port p) ({ pc := .sigChk (.port p), stk := [.sendSig p] } : Th) = some (.sigChk (.port p)) := by
        simp [critOf, crit]
      rw [this]
      exact ⟨h1, rfl⟩
  · obtain ⟨sp, r, i⟩ := h.pq k
    by_cases hk : k = p
    · subst hk
      have ho : sp.out t = some v := by rw [i.out]; simp [outOf, hpc]
      refine ⟨{ sp with q := sp.q ++ [v], out := fun u => if u = t then none else sp.out u }, ?_, ?_⟩
      · rw [hlog]
        exact PS.run_snoc (PS.run_snoc r (by simp [PS.step, ho])) (PS.step_no rfl)
      · refine i.move (t := t) (fun u hu => .of_eq (hth u hu)) ?_ (fun _ _ => rfl) (fun u hu => by simp [hu]) ?_ ?_
          (.inr (h.no_deq hh)) ?_ ?_
        · rw [hpq, if_pos rfl]; show sp.q ++ [v] = _; rw [i.q]
        · rw [ht]; show sp.hand t = _; rw [i.hand]; simp [handOf, handK, hs]
        · rw [ht]; simp [outOf, outK]
        · rw [ht]; exact fun h => by cases h
        · rw [ht]; exact fun v h => by cases h
    · refine ⟨sp, ?_, ?_⟩
      · rw [hlog]
        exact PS.run_snoc (sp := sp) (PS.run_snoc r (by simp [PS.step, Ne.symm hk])) (PS.step_no rfl)
      · refine i.move (t := t) (fun u hu => .of_eq (hth u hu)) ?_ (fun _ _ => rfl) (fun _ _ => rfl) ?_ ?_
          (.inl ?_) ?_ ?_
        · rw [hpq, if_neg hk]; exact i.q
        · rw [ht, i.hand]; simp [handOf, handK, hs]
        · rw [ht, i.out]; simp [outOf, outK, hpc, Ne.symm hk]
        · rw [hpq, if_neg hk]
        · rw [ht]; exact fun h => by cases h
        · rw [ht]; exact fun v h => by cases h

theorem step_emp_wait (h : Inv f s) {p : Nat} {to : Option Nat} {can : Bool} (hpc : (s.th t).pc = .emp p to can) :
    Inv f (s.set t { pc := .waitMem (.port p) (.port p) to, stk := [.fetchW p to] }) := by
  have hs := (h.th t).shape
  simp only [Shape, hpc] at hs
  have hh : (s.mx (.port p)).head? = some t := (h.th t).own _ (by simp [own, hpc])
  generalize hs' : s.set t { pc := .waitMem (.port p) (.port p) to, stk := [.fetchW p to] } = s'
  have ht : s'.th t = { pc := .waitMem (.port p) (.port p) to, stk := [.fetchW p to] } := by rw [← hs', set_th, if_pos rfl]
  have hth : ∀ w, w ≠ t → s'.th w = s.th w := fun w hw => by rw [← hs', set_th, if_neg hw]
  have hlog : s'.log = s.log := by rw [← hs']; rfl
  have hmx : s'.mx = s.mx := by rw [← hs']; rfl
  have hcv : s'.cv = s.cv := by rw [← hs']; rfl
  have hpq : s'.pq = s.pq := by rw [← hs']; rfl
  refine enter h (.port p) hth ht hmx hcv ?_ rfl ?_ hh ?_ ?_ ?_ ?_ ?_ ?_ (by rw [hlog]; exact fun _ _ h => h)
    (by rw [hlog]; exact fun _ _ _ h => h) (fun sp r h1 h2 => ?_) (fun k => ?_)
  · exact ⟨rfl, .inr ⟨p, to, rfl, rfl⟩⟩
  · intro m hm; simp [own] at hm; rw [← hm]; exact hh
  · simp [mv, hpc]
  · simp [mv]
  · simp [cw, hpc]
  · simp [cw]
  · simp [critOf, crit, hpc]
  · intro k hk; simp [critOf, crit, Ne.symm hk]
  · refine ⟨sp, by rw [hlog]; exact r, rfl, ?_⟩
    have : critOf (.port p) ({ pc := .waitMem (.port p) (.port p) to, stk := [.fetchW p to] } : Th) =
        some (.waitMem (.port p) (.port p) to) := by simp [critOf, crit]
    rw [this]
    exact ⟨h1, h2⟩
  · refine P_same h (fun u hu => .of_eq (hth u hu)) k (by rw [hpq]) ?_ ?_ ?_ (by rw [hlog]; exact fun _ h => h)
    · rw [ht]; simp [handOf, handK, hs.1]
    · rw [ht]; simp [outOf, outK, hs.1, hpc]
    · rw [ht]; left; rfl

/-- A step of `message-fetch` or `message-waiting-p` that keeps its mutex -/
theorem step_port (h : Inv f s) {p : Nat} {y : Th} (hown : own f y = some (.port p))
    (hown0 : own f (s.th t) = some (.port p)) (hs : Shape f y) (hst : StOk y)
    (hm0 : ∀ m, mv m (s.th t) = none) (hm1 : ∀ m, mv m y = none)
    (hw0 : ∀ k, cw k (s.th t) = none) (hw1 : ∀ k, cw k y = none)
    (hk0 : ∀ k, critOf k (s.th t) = none) (hk1 : ∀ k, critOf k y = none)
    (hh : ∀ k, handOf k y = handOf k (s.th t)) (ho : ∀ k, outOf k y = outOf k (s.th t))
    (hd : ∀ k, deqOf k y = some none → s.pq k ≠ [])
    (hdw : ∀ k v, deqOf k y = some (some v) → (s.pq k).head? = some v) : Inv f (s.set t y) := by
  have ht : (s.set t y).th t = y := by rw [set_th, if_pos rfl]
  have hth : ∀ w, w ≠ t → (s.set t y).th w = s.th w := fun w hw => by rw [set_th, if_neg hw]
  have hhd := (h.th t).own _ hown0
  refine h.upd (t := t) (fun u hu => .of_eq (hth u hu)) (fun _ _ _ h => h)
    ⟨by rw [ht]; exact hs, by rw [ht]; exact hst, ?_⟩ (fun m => ?_) (fun k => ?_) (fun k => ?_)
  · rw [ht]; intro m hm; rw [hown] at hm; rw [← Option.some.inj hm]; exact hhd
  · exact M_same h hth m rfl (by rw [ht, hm0, hm1]) fun _ h => h
  · exact C_same h hth k rfl (by rw [ht, hw0, hw1]) (by rw [ht, hk0, hk1]) fun _ h => h
  · obtain ⟨sp, r, i⟩ := h.pq k
    refine ⟨sp, r, i.move (t := t) (fun u hu => .of_eq (hth u hu)) i.q (fun _ _ => rfl) (fun _ _ => rfl) ?_ ?_
      (.inl rfl) ?_ ?_⟩
    · rw [ht, hh]; exact i.hand t
    · rw [ht, ho]; exact i.out t
    · rw [ht]; exact hd k
    · rw [ht]; exact hdw k

theorem step_emp (h : Inv f s) {p : Nat} {to : Option Nat} {can : Bool} (hpc : (s.th t).pc = .emp p to can)
    (he : s.pq p ≠ []) : Inv f (s.set t { pc := .deq p }) := by
  have hs := (h.th t).shape
  simp only [Shape, hpc] at hs
  refine step_port h (p := p) rfl (by simp [own, hpc]) rfl rfl (by simp [mv, hpc]) (by simp [mv]) (by simp [cw, hpc])
    (by simp [cw]) (by simp [critOf, crit, hpc]) (by simp [critOf, crit]) (by simp [handOf, handK, hs.1])
    (by simp [outOf, outK, hpc, hs.1]) ?_ ?_
  · intro k hk
    simp [deqOf] at hk
    rw [← hk]; exact he
  · intro k v hk
    simp [deqOf] at hk

theorem step_deq (h : Inv f s) {p : Nat} (hpc : (s.th t).pc = .deq p) :
    s.pq p ≠ [] ∧ Inv f (s.set t { pc := .deqW p ((s.pq p).headD 0) }) := by
  have hs := (h.th t).shape
  simp only [Shape, hpc] at hs
  obtain ⟨sp, r, i⟩ := h.pq p
  have hne := i.deq t (by simp [deqOf, hpc])
  refine ⟨hne, ?_⟩
  refine step_port h (p := p) rfl (by simp [own, hpc]) rfl rfl (by simp [mv, hpc]) (by simp [mv]) (by simp [cw, hpc])
    (by simp [cw]) (by simp [critOf, crit, hpc]) (by simp [critOf, crit]) (by simp [handOf, handK, hs])
    (by simp [outOf, outK, hpc, hs]) ?_ ?_
  · intro k hk
    simp [deqOf] at hk
  · intro k v hk
    simp [deqOf] at hk
    obtain ⟨rfl, hk⟩ := hk
    cases hq : s.pq p with
    | nil => exact absurd hq hne
    | cons a l => rw [hq] at hk; simp at hk; simp [hk]

theorem step_chk (h : Inv f s) {p : Nat} (hpc : (s.th t).pc = .chk p) (r : Bool) :
    Inv f (s.set t { pc := .relChk (.port p), stk := [.queryEnd p r] }) := by
  have hs := (h.th t).shape
  simp only [Shape, hpc] at hs
  refine step_port h (p := p) (by simp [own]) (by simp [own, hpc]) ?_ rfl (by simp [mv, hpc]) (by simp [mv]) (by simp [cw, hpc])
    (by simp [cw]) (by simp [critOf, crit, hpc]) (by simp [critOf, crit]) (by simp [handOf, handK, hs])
    (by simp [outOf, outK, hpc, hs]) ?_ ?_
  · exact .inr ⟨p, rfl, .inr (.inr ⟨r, rfl⟩)⟩
  · intro k hk; simp [deqOf] at hk
  · intro k v hk; simp [deqOf] at hk

theorem step_deqW (h : Inv f s) {p : Nat} {v : Msg} (hpc : (s.th t).pc = .deqW p v) :
    Inv f (((s.add (.took t p v)).setPq p (s.pq p).tail).set t
      { pc := .relChk (.port p), stk := [.fetchEnd p (some v)] }) := by
  have hs := (h.th t).shape
  simp only [Shape, hpc] at hs
  have hh : (s.mx (.port p)).head? = some t := (h.th t).own _ (by simp [own, hpc])
  generalize hs' : ((s.add (.took t p v)).setPq p (s.pq p).tail).set t
      { pc := .relChk (.port p), stk := [.fetchEnd p (some v)] } = s'
  have ht : s'.th t = { pc := .relChk (.port p), stk := [.fetchEnd p (some v)] } := by rw [← hs', set_th, if_pos rfl]
  have hth : ∀ w, w ≠ t → s'.th w = s.th w := fun w hw => by rw [← hs', set_th, if_neg hw]; rfl
  have hlog : s'.log = s.log ++ [.took t p v] := by rw [← hs']; rfl
  have hmx : s'.mx = s.mx := by rw [← hs']; rfl
  have hcv : s'.cv = s.cv := by rw [← hs']; rfl
  have hpq : ∀ k, s'.pq k = if k = p then (s.pq p).tail else s.pq k := fun k => by rw [← hs']; rfl
  refine h.upd (t := t) (fun u hu => .of_eq (hth u hu)) (by rw [hmx]; exact fun _ _ _ h => h) ⟨?_, ?_, ?_⟩
    (fun m => ?_) (fun k => ?_) (fun k => ?_)
  · rw [ht]; exact .inr ⟨p, rfl, .inl ⟨v, rfl⟩⟩
  · rw [ht]; rfl
  · rw [ht, hmx]; intro m hm; simp [own] at hm; rw [← hm]; exact hh
  · refine M_same h hth m (by rw [hmx]) (by rw [ht]; simp [mv, hpc]) fun sp r => ?_
    rw [hlog]; exact MS.run_snoc r (MS.step_no rfl)
  · refine C_same h hth k (by rw [hcv]) (by rw [ht]; simp [cw, hpc]) (by rw [ht]; simp [critOf, crit, hpc]) fun sp r => ?_
    rw [hlog]; exact CS.run_snoc r (CS.step_no rfl)
  · obtain ⟨sp, r, i⟩ := h.pq k
    by_cases hk : k = p
    · subst hk
      have hd := i.deqW t v (by simp [deqOf, hpc])
      have hn : sp.hand t = none := by rw [i.hand]; simp [handOf, handK, hs]
      refine ⟨{ sp with q := sp.q.tail, hand := fun u => if u = t then some v else sp.hand u }, ?_, ?_⟩
      · rw [hlog]
        exact PS.run_snoc r (by simp [PS.step, i.q, hd, hn])
      · refine i.move (t := t) (fun u hu => .of_eq (hth u hu)) ?_ (fun u hu => by simp [hu]) (fun _ _ => rfl) ?_ ?_
          (.inr (h.no_deq hh)) ?_ ?_
        · rw [hpq, if_pos rfl]; show sp.q.tail = _; rw [i.q]
        · rw [ht]; simp [handOf, handK]
        · rw [ht]; show sp.out t = _; rw [i.out]; simp [outOf, outK, hpc, hs]
        · rw [ht]; exact fun h => by cases h
        · rw [ht]; exact fun v h => by cases h
    · refine ⟨sp, ?_, ?_⟩
      · rw [hlog]
        exact PS.run_snoc r (by simp [PS.step, Ne.symm hk])
      · refine i.move (t := t) (fun u hu => .of_eq (hth u hu)) ?_ (fun _ _ => rfl) (fun _ _ => rfl) ?_ ?_
          (.inl ?_) ?_ ?_
        · rw [hpq, if_neg hk]; exact i.q
        · rw [ht, i.hand]; simp [handOf, handK, hs, Ne.symm hk]
        · rw [ht, i.out]; simp [outOf, outK, hpc, hs]
        · rw [hpq, if_neg hk]
        · rw [ht]; exact fun h => by cases h
        · rw [ht]; exact fun v h => by cases h

/-! ### Calls -/

theorem idle_views (h : Inv f s) (hpc : (s.th t).pc = .idle) :
    (s.th t).stk = [] ∧ (s.th t).st = .run := by
  have hs := (h.th t).shape
  have hst := (h.th t).st
  simp only [Shape, hpc] at hs
  simp only [StOk, hpc] at hst
  exact ⟨hs, hst⟩

/-- A call that only leads to another place -/
theorem call_plain (h : Inv f s) (hpc : (s.th t).pc = .idle) {y : Th} {e : Option Log} (hs : Shape f y) (hst : StOk y)
    (hown : own f y = none) (hm : ∀ m, mv m y = none) (hw : ∀ k, cw k y = none) (hk : ∀ k, critOf k y = none)
    (hh : ∀ p, handOf p y = none) (hd : ∀ p, deqOf p y = none)
    (heM : ∀ x ∈ e, x.noM = true) (heC : ∀ x ∈ e, x.noC = true)
    (hP : ∀ p sp, PS.run p s.log = some sp → sp.out t = none →
      PS.run p (s.log ++ e.toList) = some { sp with out := fun u => if u = t then outOf p y else sp.out u }) :
    Inv f ((s.addL e.toList).set t y) := by
  obtain ⟨hk0, hst0⟩ := idle_views h hpc
  generalize hs' : (s.addL e.toList).set t y = s'
  have ht : s'.th t = y := by rw [← hs', set_th, if_pos rfl]
  have hth : ∀ w, w ≠ t → s'.th w = s.th w := fun w hw => by rw [← hs', set_th, if_neg hw]; rfl
  have hlog : s'.log = s.log ++ e.toList := by rw [← hs']; rfl
  have hmx : s'.mx = s.mx := by rw [← hs']; rfl
  have hcv : s'.cv = s.cv := by rw [← hs']; rfl
  have hpq : s'.pq = s.pq := by rw [← hs']; rfl
  refine h.upd (t := t) (fun u hu => .of_eq (hth u hu)) (by rw [hmx]; exact fun _ _ _ h => h) ⟨?_, ?_, ?_⟩
    (fun m => ?_) (fun k => ?_) (fun p => ?_)
  · rw [ht]; exact hs
  · rw [ht]; exact hst
  · rw [ht, hown]; exact fun m h => by cases h
  · refine M_same h hth m (by rw [hmx]) (by rw [ht, hm]; simp [mv, hpc]) fun sp r => ?_
    rw [hlog]
    cases e with
    | none => show MS.run m (s.log ++ []) = _; rw [List.append_nil]; exact r
    | some x => exact MS.run_snoc r (MS.step_no (heM x rfl))
  · refine C_same h hth k (by rw [hcv]) (by rw [ht, hw]; simp [cw, hpc]) (by rw [ht, hk]; simp [critOf, crit, hpc]) fun sp r => ?_
    rw [hlog]
    cases e with
    | none => show CS.run k (s.log ++ []) = _; rw [List.append_nil]; exact r
    | some x => exact CS.run_snoc r (CS.step_no (heC x rfl))
  · obtain ⟨sp, r, i⟩ := h.pq p
    have ho : sp.out t = none := by rw [i.out]; simp [outOf, outK, hpc, hk0]
    refine ⟨_, by rw [hlog]; exact hP p sp r ho, ?_⟩
    refine i.move (t := t) (fun u hu => .of_eq (hth u hu)) ?_ (fun _ _ => rfl) (fun u hu => by simp [hu]) ?_ ?_
      (.inl (by rw [hpq])) ?_ ?_
    · rw [hpq]; exact i.q
    · rw [ht, hh]; show sp.hand t = _; rw [i.hand]; simp [handOf, handK, hk0]
    · rw [ht]; simp
    · rw [ht, hd]; exact fun h => by cases h
    · rw [ht, hd]; exact fun v h => by cases h

/-- The same when nothing is to be sent -/
theorem call_plain' (h : Inv f s) (hpc : (s.th t).pc = .idle) {y : Th} {e : Option Log} (hs : Shape f y) (hst : StOk y)
    (hown : own f y = none) (hm : ∀ m, mv m y = none) (hw : ∀ k, cw k y = none) (hk : ∀ k, critOf k y = none)
    (hh : ∀ p, handOf p y = none) (hd : ∀ p, deqOf p y = none)
    (heM : ∀ x ∈ e, x.noM = true) (heC : ∀ x ∈ e, x.noC = true) (heP : ∀ x ∈ e, x.noP = true)
    (ho : ∀ p, outOf p y = none) : Inv f ((s.addL e.toList).set t y) := by
  refine call_plain h hpc hs hst hown hm hw hk hh hd heM heC fun p sp r h0 => ?_
  have : ({ sp with out := fun u => if u = t then outOf p y else sp.out u } : PS) = sp := by
    obtain ⟨a, b, c⟩ := sp
    simp only at h0 ⊢
    congr 1
    funext u
    split
    · next e => rw [e, ho, h0]
    · rfl
  rw [this]
  cases e with
  | none => show PS.run p (s.log ++ []) = _; rw [List.append_nil]; exact r
  | some x => exact PS.run_snoc r (PS.step_no (heP x rfl))

theorem call_obtain (h : Inv f s) (hpc : (s.th t).pc = .idle) (m : Nat) (to : Option Nat) :
    Inv f (s.set t { pc := .obt (.user m) to }) := by
  have := call_plain' h hpc (y := { pc := .obt (.user m) to }) (e := none) (.inl ⟨m, rfl, rfl⟩) rfl rfl (by simp [mv])
    (by simp [cw]) (by simp [critOf, crit]) (by simp [handOf, handK]) (by simp [deqOf]) (by simp) (by simp) (by simp)
    (by simp [outOf, outK])
  rw [addL_none] at this
  exact this

theorem call_release (h : Inv f s) (hpc : (s.th t).pc = .idle) (m : Nat) :
    Inv f (s.set t { pc := .relChk (.user m) }) := by
  have := call_plain' h hpc (y := { pc := .relChk (.user m) }) (e := none) (.inl ⟨m, rfl, rfl⟩) rfl (by simp [own]) (by simp [mv])
    (by simp [cw]) (by simp [critOf, crit]) (by simp [handOf, handK]) (by simp [deqOf]) (by simp) (by simp) (by simp)
    (by simp [outOf, outK])
  rw [addL_none] at this
  exact this

theorem call_query (h : Inv f s) (hpc : (s.th t).pc = .idle) (p : Nat) :
    Inv f (s.set t { pc := .obt (.port p) none, stk := [.query p] }) := by
  have := call_plain' h hpc (y := { pc := .obt (.port p) none, stk := [.query p] }) (e := none)
    (.inr (.inr ⟨p, rfl, .inr (.inr (.inr rfl))⟩)) rfl rfl (by simp [mv])
    (by simp [cw]) (by simp [critOf, crit]) (by simp [handOf, handK]) (by simp [deqOf]) (by simp) (by simp) (by simp)
    (by simp [outOf, outK])
  rw [addL_none] at this
  exact this

theorem call_fetch (h : Inv f s) (hpc : (s.th t).pc = .idle) (p : Nat) (to : Option Nat) :
    Inv f ((s.add (.fetchCall t p)).set t { pc := .obt (.port p) none, stk := [.fetch p to] }) :=
  call_plain' h hpc (y := { pc := .obt (.port p) none, stk := [.fetch p to] }) (e := some (.fetchCall t p))
    (.inr (.inr ⟨p, rfl, .inr (.inl ⟨to, rfl⟩)⟩)) rfl rfl (by simp [mv])
    (by simp [cw]) (by simp [critOf, crit]) (by simp [handOf, handK]) (by simp [deqOf]) (by simp [Log.noM])
    (by simp [Log.noC]) (by simp [Log.noP]) (by simp [outOf, outK])

theorem call_send (h : Inv f s) (hpc : (s.th t).pc = .idle) (p : Nat) (v : Msg) :
    Inv f ((s.add (.sendCall t p v)).set t { pc := .obt (.port p) none, stk := [.send p v] }) := by
  refine call_plain h hpc (y := { pc := .obt (.port p) none, stk := [.send p v] }) (e := some (.sendCall t p v))
    (.inr (.inr ⟨p, rfl, .inr (.inr (.inl ⟨v, rfl⟩))⟩)) rfl rfl (by simp [mv])
    (by simp [cw]) (by simp [critOf, crit]) (by simp [handOf, handK]) (by simp [deqOf]) (by simp [Log.noM])
    (by simp [Log.noC]) fun k sp r h0 => ?_
  refine PS.run_snoc r ?_
  by_cases hk : p = k
  · subst hk
    simp [PS.step, h0, outOf, outK]
  · simp only [PS.step, if_neg hk, outOf, outK]
    congr 1
    obtain ⟨a, b, c⟩ := sp
    simp only at h0 ⊢
    congr 1
    funext u
    split
    · next e => rw [e, h0]
    · rfl

theorem call_maybe (h : Inv f s) (hpc : (s.th t).pc = .idle) (m : Nat) : Inv f (s.call t (.maybe m)) := by
  have hv : ∀ k, mv k (s.th t) = none := fun k => by simp [mv, hpc]
  show Inv f (if _ then _ else _)
  by_cases he : s.mx (.user m) = []
  · rw [if_pos he]
    generalize hs' : ((((s.add (.asked t (.user m))).setMx (.user m) [t]).add (.got t (.user m) true)).add
      (.maybe t (.user m) true)) = s'
    have hth : s'.th = s.th := by rw [← hs']; rfl
    have hmx : ∀ k, s'.mx k = if k = .user m then [t] else s.mx k := fun k => by rw [← hs']; rfl
    have hlog : s'.log = s.log ++ [.asked t (.user m)] ++ [.got t (.user m) true] ++ [.maybe t (.user m) true] := by
      rw [← hs']; rfl
    have hcv : s'.cv = s.cv := by rw [← hs']; rfl
    have hpq : s'.pq = s.pq := by rw [← hs']; rfl
    refine h.upd (t := t) (fun u _ => by rw [hth]; exact .of_eq rfl) ?_ ⟨?_, ?_, ?_⟩ (fun k => ?_) (fun k => ?_) (fun p => ?_)
    · intro k u _ hk
      rw [hmx]
      by_cases hkm : k = .user m
      · rw [hkm, he] at hk; cases hk
      · rw [if_neg hkm]; exact hk
    · rw [hth]; exact (h.th t).shape
    · rw [hth]; exact (h.th t).st
    · rw [hth]; simp [own, hpc]
    · by_cases hkm : k = .user m
      · subst hkm
        obtain ⟨sp, r, i⟩ := h.mx (.user m)
        obtain ⟨e1, e2⟩ := i.empty he
        refine ⟨{ hold := some t, q := [] }, ?_, i.taken he ?_ ?_ ?_⟩
        · rw [hlog]
          refine MS.run_snoc (sp := { hold := some t, q := [] }) (MS.run_snoc (sp := { hold := none, q := [t] }) (MS.run_snoc r ?_) ?_) ?_
          · simp [MS.step, e1, e2]
          · simp [MS.step]
          · simp [MS.step]
        · rw [hmx, if_pos rfl]
        · intro w _; rw [hth]
        · rw [hth]; exact hv _
      · refine M_same (t := t) h (fun u _ => by rw [hth]) k (by rw [hmx, if_neg hkm]) (by rw [hth]) fun sp r => ?_
        rw [hlog]
        exact MS.run_snoc (sp := sp) (MS.run_snoc (sp := sp) (MS.run_snoc r (by simp [MS.step, Ne.symm hkm])) (by simp [MS.step, Ne.symm hkm])) (by simp [MS.step, Ne.symm hkm])
    · refine C_same (t := t) h (fun u _ => by rw [hth]) k (by rw [hcv]) (by rw [hth]) (by rw [hth]) fun sp r => ?_
      rw [hlog]; exact CS.run_snoc (CS.run_snoc (CS.run_snoc r (CS.step_no rfl)) (CS.step_no rfl)) (CS.step_no rfl)
    · refine P_same (t := t) h (fun u _ => by rw [hth]; exact .of_eq rfl) p (by rw [hpq]) (by rw [hth]) (by rw [hth]) (by rw [hth]; exact .inr rfl) fun sp r => ?_
      rw [hlog]; exact PS.run_snoc (PS.run_snoc (PS.run_snoc r (PS.step_no rfl)) (PS.step_no rfl)) (PS.step_no rfl)
  · rw [if_neg he]
    generalize hs' : s.add (.maybe t (.user m) false) = s'
    have hth : s'.th = s.th := by rw [← hs']; rfl
    have hmx : s'.mx = s.mx := by rw [← hs']; rfl
    have hlog : s'.log = s.log ++ [.maybe t (.user m) false] := by rw [← hs']; rfl
    have hcv : s'.cv = s.cv := by rw [← hs']; rfl
    have hpq : s'.pq = s.pq := by rw [← hs']; rfl
    refine h.upd (t := t) (fun u _ => by rw [hth]; exact .of_eq rfl) (by rw [hmx]; exact fun _ _ _ h => h) ⟨?_, ?_, ?_⟩ (fun k => ?_) (fun k => ?_) (fun p => ?_)
    · rw [hth]; exact (h.th t).shape
    · rw [hth]; exact (h.th t).st
    · rw [hth]; simp [own, hpc]
    · obtain ⟨sp, r, i⟩ := h.mx k
      refine ⟨sp, ?_, i.congr (by rw [hmx]) fun u => by rw [hth]⟩
      rw [hlog]
      refine MS.run_snoc r ?_
      by_cases hkm : .user m = k
      · subst hkm
        have : ¬ (sp.hold = none ∧ sp.q = []) := by
          rintro ⟨e1, e2⟩
          have := i.list
          rw [e1, e2] at this
          exact he this.symm
        simp [MS.step, this]
      · simp [MS.step, hkm]
    · refine C_same (t := t) h (fun u _ => by rw [hth]) k (by rw [hcv]) (by rw [hth]) (by rw [hth]) fun sp r => ?_
      rw [hlog]; exact CS.run_snoc r (CS.step_no rfl)
    · refine P_same (t := t) h (fun u _ => by rw [hth]; exact .of_eq rfl) p (by rw [hpq]) (by rw [hth]) (by rw [hth]) (by rw [hth]; exact .inr rfl) fun sp r => ?_
      rw [hlog]; exact PS.run_snoc r (PS.step_no rfl)

/-- A call of `condition-variable-wait`, `-signal` or `-broadcast` -/
theorem call_cv (h : Inv f s) (hpc : (s.th t).pc = .idle) (c : Nat) (hh : (s.mx (.user (f c))).head? = some t)
    {pc : Pc} {e : Option Log} (hcr : crit pc = some (.user c)) (hs : Shape f { pc := pc })
    (hown : own f { pc := pc } = some (.user (f c)))
    (heM : ∀ x ∈ e, x.noM = true) (heP : ∀ x ∈ e, x.noP = true)
    (hC : ∀ k sp, k ≠ .user c → CS.run k s.log = some sp → CS.run k (s.log ++ e.toList) = some sp)
    (hc : ∀ sp, CS.run (.user c) s.log = some sp → s.cv (.user c) = sp.q.reverse → sp.busy = none →
      ∃ sp', CS.run (.user c) (s.log ++ e.toList) = some sp' ∧ sp'.q = sp.q ∧ CritRel t (s.cv (.user c)) sp' pc) :
    Inv f ((s.addL e.toList).set t { pc := pc }) := by
  obtain ⟨hk0, hst0⟩ := idle_views h hpc
  generalize hs' : (s.addL e.toList).set t { pc := pc } = s'
  have ht : s'.th t = { pc := pc } := by rw [← hs', set_th, if_pos rfl]
  have hth : ∀ w, w ≠ t → s'.th w = s.th w := fun w hw => by rw [← hs', set_th, if_neg hw]; rfl
  have hlog : s'.log = s.log ++ e.toList := by rw [← hs']; rfl
  have hmx : s'.mx = s.mx := by rw [← hs']; rfl
  have hcv : s'.cv = s.cv := by rw [← hs']; rfl
  have hpq : s'.pq = s.pq := by rw [← hs']; rfl
  refine enter h (.user c) hth ht hmx hcv hs ?_ ?_ hh ?_ ?_ ?_ ?_ ?_ ?_ (fun m sp r => ?_) ?_
    (fun sp r h1 h2 => ?_) (fun k => ?_)
  · cases pc <;> first | rfl | cases hcr
  · intro m hm; rw [hown] at hm; rw [← Option.some.inj hm]; exact hh
  · simp [mv, hpc]
  · cases pc <;> first | exact fun _ => rfl | cases hcr
  · simp [cw, hpc]
  · cases pc <;> first | exact fun _ => rfl | cases hcr
  · simp [critOf, crit, hpc]
  · intro k hk
    unfold critOf
    show (if crit pc = some k then _ else _) = _
    rw [hcr, if_neg (by intro e; exact hk (Option.some.inj e).symm)]
  · rw [hlog]
    cases e with
    | none => show MS.run m (s.log ++ []) = _; rw [List.append_nil]; exact r
    | some x => exact MS.run_snoc r (MS.step_no (heM x rfl))
  · rw [hlog]; exact hC
  · have : critOf (.user c) ({ pc := pc } : Th) = some pc := by
      unfold critOf
      show (if crit pc = some _ then some pc else none) = _
      rw [if_pos hcr]
    rw [this, hlog]
    exact hc sp r h1 h2
  · refine P_same h (fun u hu => .of_eq (hth u hu)) k (by rw [hpq]) ?_ ?_ ?_ fun sp r => ?_
    · rw [ht]; simp [handOf, handK, hk0]
    · rw [ht, outOf_K (x := { pc := pc }) (fun p v e => by rw [show pc = _ from e] at hcr; cases hcr)]
      simp [outOf, outK, hk0, hpc]
    · rw [ht]; left
      cases pc <;> first | rfl | cases hcr
    · rw [hlog]
      cases e with
      | none => show PS.run k (s.log ++ []) = _; rw [List.append_nil]; exact r
      | some x => exact PS.run_snoc r (PS.step_no (heP x rfl))

theorem call_wait (h : Inv f s) (hpc : (s.th t).pc = .idle) (c : Nat) (to : Option Nat)
    (hh : (s.mx (.user (f c))).head? = some t) :
    Inv f (s.set t { pc := .waitMem (.user c) (.user (f c)) to }) := by
  have := call_cv h hpc c hh (pc := .waitMem (.user c) (.user (f c)) to) (e := none) rfl
    ⟨rfl, .inl ⟨c, rfl, rfl⟩⟩ rfl (by simp) (by simp) (by simp) (fun sp r h1 h2 => ⟨sp, by simpa using r, rfl, h1, h2⟩)
  rw [addL_none] at this
  exact this

theorem call_signal (h : Inv f s) (hpc : (s.th t).pc = .idle) (c : Nat)
    (hh : (s.mx (.user (f c))).head? = some t) :
    Inv f ((s.add (.sigCall t (.user c))).set t { pc := .sigChk (.user c) }) :=
  call_cv h hpc c hh (pc := .sigChk (.user c)) (e := some (.sigCall t (.user c))) rfl
    (.inl ⟨c, rfl, rfl⟩) rfl (by simp [Log.noM]) (by simp [Log.noP])
    (fun k sp hk r => CS.run_snoc r (by simp [CS.step, Ne.symm hk]))
    (fun sp r h1 h2 => ⟨{ sp with busy := some (t, sp.q.take 1) }, CS.run_snoc r (by simp [CS.step, h2]), rfl, h1, rfl⟩)

theorem call_broadcast (h : Inv f s) (hpc : (s.th t).pc = .idle) (c : Nat)
    (hh : (s.mx (.user (f c))).head? = some t) :
    Inv f ((s.add (.bcCall t (.user c))).set t { pc := .bcRead (.user c) }) :=
  call_cv h hpc c hh (pc := .bcRead (.user c)) (e := some (.bcCall t (.user c))) rfl
    rfl rfl (by simp [Log.noM]) (by simp [Log.noP])
    (fun k sp hk r => CS.run_snoc r (by simp [CS.step, Ne.symm hk]))
    (fun sp r h1 h2 => ⟨{ sp with busy := some (t, sp.q) }, CS.run_snoc r (by simp [CS.step, h2]), rfl, h1, rfl⟩)

end Rep.Sync
