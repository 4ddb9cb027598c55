import Verif.Sync.Ret

/-
Each step keeps the invariant, and no assertion fails.
-/

namespace Rep.Sync

variable {f : Nat → Nat} {s s1 : St} {t : Tid}

/-! ### Mutexes -/

theorem MInv.hold_of_head {m : Mx} {sp : MS} (h : MInv s m sp) (hh : (s.mx m).head? = some t)
    (hv : mv m (s.th t) = none) : sp.hold = some t ∧ s.mx m = t :: sp.q := by
  have hl := h.list
  cases ho : sp.hold with
  | none => have := h.handed ho t hh; rw [hv] at this; cases this
  | some u =>
    rw [ho] at hl
    simp only [Option.toList_some, List.singleton_append] at hl
    rw [← hl] at hh
    have : u = t := by simpa using hh
    subst this
    exact ⟨rfl, hl.symm⟩

theorem MInv.not_hold {m : Mx} {sp : MS} (h : MInv s m sp) (hh : (s.mx m).head? ≠ some t) :
    sp.hold ≠ some t := by
  intro ho
  have := h.list
  rw [ho] at this
  rw [← this] at hh
  exact hh rfl

/-- The first thread after the owner has been woken. -/
theorem wakeHead_spec {m : Mx} {sp : MS} (e : Log) (h : MInv s m sp) :
    ∃ s1, ((s.add e).setMx m (s.mx m).tail).wakeHead (s.mx m).tail = some s1 ∧
      s1.mx = ((s.add e).setMx m (s.mx m).tail).mx ∧ s1.cv = s.cv ∧ s1.pq = s.pq ∧ s1.log = s.log ++ [e] ∧
      ∀ w, s1.th w = if (s.mx m).tail.head? = some w then { s.th w with st := .ready false } else s.th w := by
  cases ht : (s.mx m).tail with
  | nil => exact ⟨_, rfl, rfl, rfl, rfl, rfl, fun w => by simp; rfl⟩
  | cons u l =>
    have hu : mv m (s.th u) = some true := h.tail u (by rw [ht]; simp)
    have hs : (s.th u).st.isSusp = true := by
      unfold mv at hu
      split at hu
      · split at hu
        · exact Option.some.inj hu
        · cases hu
      · cases hu
    refine ⟨((s.add e).setMx m (u :: l)).set u { s.th u with st := .ready false }, ?_, rfl, rfl, rfl, rfl, fun w => ?_⟩
    · show St.wake _ u = _
      unfold St.wake
      have : (((s.add e).setMx m (u :: l)).th u) = s.th u := rfl
      rw [this]
      cases hst : (s.th u).st with
      | susp b => rfl
      | run => rw [hst] at hs; cases hs
      | ready b => rw [hst] at hs; cases hs
    · rw [set_th]
      by_cases hw : w = u
      · subst hw; simp
      · have : ¬ (u :: l).head? = some w := by simp; exact fun h => hw h.symm
        rw [if_neg hw, if_neg this]; rfl

theorem mv_ready {m : Mx} {x : Th} (h : mv m x = some true) : mv m { x with st := .ready false } = some false := by
  unfold mv at *
  split at h
  · next k hk =>
    split at h
    · next hkm => simp [hk, hkm, Run.isSusp]
    · cases h
  · cases h

theorem mv_cases {m : Mx} {x : Th} {b : Bool} (h : mv m x = some b) : x.pc = .obtd m ∧ x.st.isSusp = b := by
  unfold mv at h
  split at h
  · next k hk =>
    split at h
    · next hkm => exact ⟨by rw [hk, hkm], Option.some.inj h⟩
    · cases h
  · cases h

theorem cw_cases {c : Cv} {x : Th} {b : Bool} (h : cw c x = some b) : (∃ m, x.pc = .waited c m) ∧ x.st.isSusp = b := by
  unfold cw at h
  split at h
  · next k m hk =>
    split at h
    · next hkm => exact ⟨⟨m, by rw [hk, hkm]⟩, Option.some.inj h⟩
    · cases h
  · cases h

/-- The mutex that has been released -/
theorem MInv.released {m : Mx} {sp : MS} (h : MInv s m sp) (hh : (s.mx m).head? = some t)
    (hv : mv m (s.th t) = none) {s2 : St} (hmx : s2.mx m = (s.mx m).tail)
    (hth : ∀ w, w ≠ t → s2.th w = if (s.mx m).tail.head? = some w then { s.th w with st := .ready false } else s.th w)
    (ht : mv m (s2.th t) = none) : MInv s2 m { hold := none, q := sp.q } := by
  obtain ⟨h1, h2⟩ := h.hold_of_head hh hv
  have htail : (s.mx m).tail = sp.q := by rw [h2]; rfl
  rw [htail] at hmx hth
  have htl := h.tail
  have hnd := h.nd
  have hsu := h.susp
  have hre := h.ready
  rw [htail] at htl hnd hsu
  have hnt : ∀ w ∈ sp.q, w ≠ t := fun w hw e => by
    have := htl w hw; rw [e, hv] at this; cases this
  refine ⟨by simp [hmx], ?_, ?_, by simp, ?_, ?_, ?_⟩
  · intro w hw
    rw [hmx] at hw
    cases hq : sp.q with
    | nil => rw [hq] at hw; cases hw
    | cons u l =>
      rw [hq] at hw hth hnd htl hnt
      have hw' : w ∈ l := hw
      have hwu : w ≠ u := fun e => by
        rw [e] at hw'
        exact (List.nodup_cons.1 hnd).1 hw'
      rw [hth w (hnt w (List.mem_cons_of_mem _ hw')), if_neg (by simp; exact fun e => hwu e.symm)]
      exact htl w (List.mem_cons_of_mem _ hw')
  · rw [hmx]; exact hnd.sublist (List.tail_sublist _)
  · intro _ w hw
    rw [hmx] at hw
    have hwq : w ∈ sp.q := List.mem_of_mem_head? (by rw [hw]; rfl)
    rw [hth w (hnt w hwq), if_pos hw]
    exact mv_ready (htl w hwq)
  · intro w hw
    by_cases hwt : w = t
    · rw [hwt, ht] at hw; cases hw
    · rw [hth w hwt] at hw
      by_cases hc : sp.q.head? = some w
      · rw [if_pos hc] at hw
        have := (mv_cases hw).2
        cases this
      · rw [if_neg hc] at hw
        have hwq := hsu w hw
        rw [hmx]
        cases hq : sp.q with
        | nil => rw [hq] at hwq; cases hwq
        | cons u l =>
          rw [hq] at hwq hc
          cases List.mem_cons.1 hwq with
          | inl e => exact absurd (by rw [e]; rfl) hc
          | inr h => exact h
  · intro w hw
    by_cases hwt : w = t
    · rw [hwt, ht] at hw; cases hw
    · rw [hth w hwt] at hw
      rw [hmx]
      by_cases hc : sp.q.head? = some w
      · exact hc
      · rw [if_neg hc] at hw
        have := hre w hw
        rw [hh] at this
        exact absurd (Option.some.inj this).symm hwt

/-- Woken threads look the same to other mutexes, and to condition variables. -/
theorem woken_mv {m k : Mx} {sp : MS} (h : MInv s m sp) (hk : k ≠ m) (w : Tid) :
    mv k (if (s.mx m).tail.head? = some w then { s.th w with st := .ready false } else s.th w) = mv k (s.th w) := by
  split
  · next hw =>
    have := (mv_cases (h.tail w (List.mem_of_mem_head? (by rw [hw]; rfl)))).1
    simp [mv, this, hk.symm]
  · rfl

theorem woken_cw {m : Mx} {c : Cv} {sp : MS} (h : MInv s m sp) (w : Tid) :
    cw c (if (s.mx m).tail.head? = some w then { s.th w with st := .ready false } else s.th w) = cw c (s.th w) := by
  split
  · next hw =>
    have := (mv_cases (h.tail w (List.mem_of_mem_head? (by rw [hw]; rfl)))).1
    simp [cw, this]
  · rfl

theorem woken_like {m : Mx} {sp : MS} (h : MInv s m sp) (w : Tid) :
    Like (s.th w) (if (s.mx m).tail.head? = some w then { s.th w with st := .ready false } else s.th w) := by
  split
  · next hw =>
    exact ⟨rfl, rfl, .inr ⟨(mv_cases (h.tail w (List.mem_of_mem_head? (by rw [hw]; rfl)))).2, rfl⟩⟩
  · exact .of_eq rfl

theorem head_setMx {m : Mx} {l : List Tid} (ho : (s.mx m).head? = some t) (k : Mx) (u : Tid) (hu : u ≠ t)
    (h : (s.mx k).head? = some u) : ((s.setMx m l).mx k).head? = some u := by
  show (if k = m then l else s.mx k).head? = some u
  by_cases hk : k = m
  · rw [hk, ho] at h; exact absurd (Option.some.inj h).symm hu
  · rw [if_neg hk]; exact h

/-- The parts of the invariant that are not concerned, when `t` returns -/
theorem M_ret (h : Inv f s) (hth : ∀ u, u ≠ t → s1.th u = s.th u) (m : Mx)
    (hmx : s1.mx m = s.mx m) (hv : mv m (s.th t) = none)
    (hl : ∀ sp, MS.run m s.log = some sp → MInv s m sp → MS.run m s1.log = some sp) :
    ∃ sp, MS.run m s1.log = some sp ∧ MInv (s1.set t {}) m sp := by
  obtain ⟨sp, h1, h2⟩ := h.mx m
  refine ⟨sp, hl sp h1 h2, h2.congr hmx fun u => ?_⟩
  rw [set_th]
  by_cases hu : u = t
  · rw [if_pos hu, hu, hv]; rfl
  · rw [if_neg hu, hth u hu]

theorem C_ret (h : Inv f s) (hth : ∀ u, u ≠ t → s1.th u = s.th u) (c : Cv)
    (hcv : s1.cv c = s.cv c) (hv : cw c (s.th t) = none) (hk : critOf c (s.th t) = none)
    (hl : ∀ sp, CS.run c s.log = some sp → CS.run c s1.log = some sp) :
    ∃ sp, CS.run c s1.log = some sp ∧ CInv (s1.set t {}) c sp := by
  obtain ⟨sp, h1, h2⟩ := h.cv c
  refine ⟨sp, hl sp h1, h2.congr hcv (fun u => ?_) fun u => ?_⟩
  · rw [set_th]
    by_cases hu : u = t
    · rw [if_pos hu, hu, hv]; rfl
    · rw [if_neg hu, hth u hu]
  · rw [set_th]
    by_cases hu : u = t
    · rw [if_pos hu, hu, hk]; simp [critOf, crit]
    · rw [if_neg hu, hth u hu]

theorem step_relChk_ok (h : Inv f s) {m : Mx} (hpc : (s.th t).pc = .relChk m) (hh : (s.mx m).head? = some t) :
    Inv f (s.set t { s.th t with pc := .rel m }) := by
  have hs := (h.th t).shape
  have hst := (h.th t).st
  simp only [Shape, hpc] at hs
  simp only [StOk, hpc] at hst
  refine h.quiet _ ?_ ?_ ?_ ?_ ?_ ?_ ?_ ?_ ?_
  · simpa [Shape] using hs
  · simpa [StOk] using hst
  · intro k hk; simp [own] at hk; rw [← hk]; exact hh
  · intro k; simp [mv, hpc]
  · intro k; simp [cw, hpc]
  · intro k; simp [critOf, crit, hpc]
  · intro k; rfl
  · intro k; simp [outOf, hpc]
  · intro k; simp [deqOf]

theorem step_relChk_err (h : Inv f s) {m : Mx} (hpc : (s.th t).pc = .relChk m) (hh : (s.mx m).head? ≠ some t) :
    Inv f ((s.add (.relErr t m)).err t (s.th t).stk) := by
  have hk : (s.th t).stk = [] := by
    apply Classical.byContradiction
    intro hne
    exact hh ((h.th t).own m (by simp [own, hpc, hne]))
  rw [hk]
  refine Inv.ret (s1 := s.add (.relErr t m)) h (fun u _ => .of_eq rfl) rfl (fun _ _ _ h => h) (fun k => ?_) (fun c => ?_) (fun p sp hsp => ?_) true hk .top ?_
  · refine M_ret (t := t) (s1 := s.add (.relErr t m)) h (fun _ _ => rfl) k rfl (by simp [mv, hpc]) fun sp hsp hi => ?_
    refine MS.run_snoc hsp ?_
    by_cases hkm : m = k
    · subst hkm; simp [MS.step, hi.not_hold hh]
    · simp [MS.step, hkm]
  · exact C_ret (t := t) (s1 := s.add (.relErr t m)) h (fun _ _ => rfl) c rfl (by simp [cw, hpc]) (by simp [critOf, crit, hpc])
      fun sp hsp => CS.run_snoc hsp (CS.step_no rfl)
  · exact PS.run_snoc hsp (PS.step_no rfl)
  · intro p v; rw [hpc]; exact fun h => by cases h

theorem step_rel (h : Inv f s) {m : Mx} (hpc : (s.th t).pc = .rel m) :
    ∃ s1, ((s.add (.rel t m)).setMx m (s.mx m).tail).wakeHead (s.mx m).tail = some s1 ∧
      ∀ b, Inv f (s1.ret t b (s.th t).stk) := by
  have hs := (h.th t).shape
  simp only [Shape, hpc] at hs
  have hh : (s.mx m).head? = some t := (h.th t).own m (by simp [own, hpc])
  obtain ⟨sp0, r0, i0⟩ := h.mx m
  have hv : ∀ k, mv k (s.th t) = none := fun k => by simp [mv, hpc]
  obtain ⟨s1, e1, emx, ecv, epq, elog, eth⟩ := wakeHead_spec (.rel t m) i0
  obtain ⟨ho, hl⟩ := i0.hold_of_head hh (hv m)
  refine ⟨s1, e1, fun b => ?_⟩
  refine Inv.ret h (fun u _ => by rw [eth]; exact woken_like i0 u) epq ?_ (fun k => ?_) (fun c => ?_) (fun p sp hsp => ?_) b rfl ?_ ?_
  · rw [emx]; exact fun k u hu hk => head_setMx (s := s.add (.rel t m)) hh k u hu hk
  · by_cases hkm : k = m
    · subst hkm
      refine ⟨{ hold := none, q := sp0.q }, ?_, i0.released hh (hv k) ?_ ?_ ?_⟩
      · rw [elog]; exact MS.run_snoc r0 (by simp [MS.step, ho])
      · show s1.mx k = _; rw [emx]; simp [St.setMx]
      · intro w hw; rw [set_th, if_neg hw, eth]
      · rw [set_th, if_pos rfl]; rfl
    · obtain ⟨sp, r, i⟩ := h.mx k
      refine ⟨sp, by rw [elog]; exact MS.run_snoc r (by simp [MS.step, Ne.symm hkm]), i.congr ?_ fun u => ?_⟩
      · show s1.mx k = _; rw [emx]; simp [St.setMx, hkm]; rfl
      · rw [set_th]
        by_cases hu : u = t
        · rw [if_pos hu, hu, hv]; rfl
        · rw [if_neg hu, eth, woken_mv i0 hkm]
  · obtain ⟨sp, r, i⟩ := h.cv c
    refine ⟨sp, by rw [elog]; exact CS.run_snoc r (CS.step_no rfl), i.congr ?_ (fun u => ?_) fun u => ?_⟩
    · show s1.cv c = _; rw [ecv]
    · rw [set_th]
      by_cases hu : u = t
      · rw [if_pos hu, hu]; simp [cw, hpc]
      · rw [if_neg hu, eth, woken_cw i0]
    · rw [set_th]
      by_cases hu : u = t
      · rw [if_pos hu, hu]; simp [critOf, crit, hpc]
      · rw [if_neg hu, eth, (woken_like i0 u).crit]
  · rw [elog]; exact PS.run_snoc hsp (PS.step_no rfl)
  · rcases hs with ⟨n, _, hs⟩ | ⟨p, _, ⟨v, hs⟩ | hs | ⟨r, hs⟩⟩ <;> rw [hs]
    · exact .top
    · exact .fetchEnd p v
    · exact .sendEnd p
    · exact .queryEnd p r
  · intro p v; rw [hpc]; exact fun h => by cases h

/-- A return from `obtain-mutex` -/
theorem ObtShape.ret {m : Mx} {k : List Fr} (h : ObtShape f m k) (b : Bool)
    (hh : (s1.mx m).head? = some t) : RetShape s1 t b k := by
  rcases h with ⟨n, _, h⟩ | ⟨n, _, h⟩ | ⟨p, hm, ⟨to, h⟩ | ⟨to, h⟩ | ⟨v, h⟩ | h⟩
  · subst h; exact .top
  · subst h; exact .wait n
  · subst h; subst hm; exact .fetchW p to hh
  · subst h; subst hm; exact .fetch p to hh
  · subst h; subst hm; exact .send p v hh
  · subst h; subst hm; exact .query p hh

theorem MInv.empty {m : Mx} {sp : MS} (h : MInv s m sp) (he : s.mx m = []) : sp.hold = none ∧ sp.q = [] := by
  have := h.list
  rw [he] at this
  cases ho : sp.hold with
  | none => rw [ho] at this; exact ⟨rfl, this⟩
  | some u => rw [ho] at this; cases this

/-- A free mutex is taken. -/
theorem MInv.taken {m : Mx} {sp : MS} (h : MInv s m sp) (he : s.mx m = []) {s2 : St} (hmx : s2.mx m = [t])
    (hth : ∀ w, w ≠ t → mv m (s2.th w) = mv m (s.th w)) (ht : mv m (s2.th t) = none) :
    MInv s2 m { hold := some t, q := [] } := by
  have h1 : ∀ w, mv m (s2.th w) ≠ some true := by
    intro w hw
    by_cases hwt : w = t
    · rw [hwt, ht] at hw; cases hw
    · rw [hth w hwt] at hw
      have := h.susp w hw
      rw [he] at this; cases this
  have h2 : ∀ w, mv m (s2.th w) ≠ some false := by
    intro w hw
    by_cases hwt : w = t
    · rw [hwt, ht] at hw; cases hw
    · rw [hth w hwt] at hw
      have := h.ready w hw
      rw [he] at this; cases this
  refine ⟨by simp [hmx], by rw [hmx]; simp, by rw [hmx]; simp, fun u _ => h2 u, by simp, fun u hu => absurd hu (h1 u),
    fun u hu => absurd hu (h2 u)⟩

theorem step_obt_free (h : Inv f s) {m : Mx} {to : Option Nat} (hpc : (s.th t).pc = .obt m to) (he : s.mx m = []) :
    Inv f ((((s.add (.asked t m)).setMx m [t]).add (.got t m true)).ret t true (s.th t).stk) := by
  have hs := (h.th t).shape
  simp only [Shape, hpc] at hs
  have hv : ∀ k, mv k (s.th t) = none := fun k => by simp [mv, hpc]
  refine Inv.ret (s1 := ((s.add (.asked t m)).setMx m [t]).add (.got t m true)) h (fun u _ => .of_eq rfl) rfl ?_ (fun k => ?_) (fun c => ?_) (fun p sp hsp => ?_) true rfl
    (hs.ret true ?_) ?_
  · intro k u hu hk
    show (if k = m then [t] else s.mx k).head? = some u
    by_cases hkm : k = m
    · rw [hkm, he] at hk; cases hk
    · rw [if_neg hkm]; exact hk
  · by_cases hkm : k = m
    · subst hkm
      obtain ⟨sp, r, i⟩ := h.mx k
      obtain ⟨e1, e2⟩ := i.empty he
      refine ⟨{ hold := some t, q := [] }, ?_, i.taken he ?_ ?_ ?_⟩
      · refine MS.run_snoc (sp := { hold := none, q := [t] }) (MS.run_snoc r ?_) ?_
        · simp [MS.step, e1, e2]
        · simp [MS.step]
      · show (if k = k then [t] else s.mx k) = _; rw [if_pos rfl]
      · intro w hw; rw [set_th, if_neg hw]; rfl
      · rw [set_th, if_pos rfl]; rfl
    · refine M_ret (t := t) (s1 := ((s.add (.asked t m)).setMx m [t]).add (.got t m true)) h (fun _ _ => rfl) k ?_ (hv k) fun sp hsp _ => ?_
      · show (if k = m then [t] else s.mx k) = _; rw [if_neg hkm]
      · refine MS.run_snoc (sp := sp) (MS.run_snoc hsp ?_) ?_ <;> simp [MS.step, Ne.symm hkm]
  · exact C_ret (t := t) (s1 := ((s.add (.asked t m)).setMx m [t]).add (.got t m true)) h (fun _ _ => rfl) c rfl (by simp [cw, hpc]) (by simp [critOf, crit, hpc])
      fun sp hsp => CS.run_snoc (CS.run_snoc hsp (CS.step_no rfl)) (CS.step_no rfl)
  · exact PS.run_snoc (PS.run_snoc hsp (PS.step_no rfl)) (PS.step_no rfl)
  · show (if m = m then [t] else s.mx m).head? = _; rw [if_pos rfl]; rfl
  · intro p v; rw [hpc]; exact fun h => by cases h

theorem step_obt_wait (h : Inv f s) {m : Mx} {to : Option Nat} (hpc : (s.th t).pc = .obt m to) (he : s.mx m ≠ []) :
    Inv f (((s.add (.asked t m)).setMx m (s.mx m ++ [t])).set t
      { pc := .obtd m, stk := (s.th t).stk, st := .susp (forever to) }) := by
  have hs := (h.th t).shape
  simp only [Shape, hpc] at hs
  have hv : ∀ k, mv k (s.th t) = none := fun k => by simp [mv, hpc]
  have hth : ∀ u, u ≠ t → (((s.add (.asked t m)).setMx m (s.mx m ++ [t])).set t
      { pc := .obtd m, stk := (s.th t).stk, st := .susp (forever to) }).th u = s.th u := fun u hu => by
    rw [set_th, if_neg hu]; rfl
  have ht : (((s.add (.asked t m)).setMx m (s.mx m ++ [t])).set t
      { pc := .obtd m, stk := (s.th t).stk, st := .susp (forever to) }).th t =
      { pc := .obtd m, stk := (s.th t).stk, st := .susp (forever to) } := by rw [set_th, if_pos rfl]
  have hmx : ∀ k, (((s.add (.asked t m)).setMx m (s.mx m ++ [t])).set t
      { pc := .obtd m, stk := (s.th t).stk, st := .susp (forever to) }).mx k =
      if k = m then s.mx m ++ [t] else s.mx k := fun k => rfl
  have hlog : (((s.add (.asked t m)).setMx m (s.mx m ++ [t])).set t
      { pc := .obtd m, stk := (s.th t).stk, st := .susp (forever to) }).log = s.log ++ [.asked t m] := rfl
  have hhd : (s.mx m ++ [t]).head? = (s.mx m).head? := by
    cases hl : s.mx m with
    | nil => exact absurd hl he
    | cons a l => rfl
  refine h.upd (t := t) (fun u hu => .of_eq (hth u hu)) (fun k u hu hk => ?_) ⟨?_, ?_, ?_⟩ (fun k => ?_) (fun c => ?_) (fun p => ?_)
  · rw [hmx]
    by_cases hkm : k = m
    · rw [if_pos hkm, hhd, ← hkm]; exact hk
    · rw [if_neg hkm]; exact hk
  · rw [ht]; exact hs
  · rw [ht]; exact ⟨fun h => Run.noConfusion h, fun h => Run.noConfusion h⟩
  · rw [ht]; intro k hk; cases hk
  · by_cases hkm : k = m
    · subst hkm
      obtain ⟨sp, r, i⟩ := h.mx k
      refine ⟨{ sp with q := sp.q ++ [t] }, ?_, ?_⟩
      · rw [hlog]; exact MS.run_snoc r (by simp [MS.step])
      · have hmt : mv k (({ pc := .obtd k, stk := (s.th t).stk, st := .susp (forever to) } : Th)) = some true := by
          simp [mv, Run.isSusp]
        have htail : (s.mx k ++ [t]).tail = (s.mx k).tail ++ [t] := by
          cases hl : s.mx k with
          | nil => exact absurd hl he
          | cons a l => rfl
        have hnt : t ∉ (s.mx k).tail := fun hm => by
          have := i.tail t hm; rw [hv] at this; cases this
        refine ⟨?_, ?_, ?_, ?_, ?_, ?_, ?_⟩ <;> (try rw [hmx, if_pos rfl]) <;> (try rw [htail])
        · rw [← i.list, List.append_assoc]
        · intro u hu
          by_cases hut : u = t
          · rw [hut, ht]; exact hmt
          · rw [hth u hut]
            refine i.tail u ?_
            cases List.mem_append.1 hu with
            | inl h => exact h
            | inr h => exact absurd (List.mem_singleton.1 h) hut
        · rw [List.nodup_append]
          refine ⟨i.nd, by simp, ?_⟩
          intro a ha b hb e
          rw [List.mem_singleton.1 hb] at e
          exact hnt (by rw [← e]; exact ha)
        · intro u hu
          by_cases hut : u = t
          · rw [hut, ht, hmt]; exact fun h => by cases h
          · rw [hth u hut]; exact i.held u hu
        · intro hn u hu
          rw [hhd] at hu
          have hu' := i.handed hn u hu
          by_cases hut : u = t
          · rw [hut, hv] at hu'; cases hu'
          · rw [hth u hut]; exact hu'
        · intro u hu
          by_cases hut : u = t
          · rw [hut]; simp
          · rw [hth u hut] at hu
            exact List.mem_append.2 (.inl (i.susp u hu))
        · intro u hu
          rw [hhd]
          by_cases hut : u = t
          · rw [hut, ht, hmt] at hu; cases hu
          · rw [hth u hut] at hu; exact i.ready u hu
    · refine M_same h hth k (by rw [hmx, if_neg hkm]) ?_ fun sp hsp => ?_
      · rw [ht, hv]; simp [mv, Ne.symm hkm]
      · rw [hlog]; exact MS.run_snoc hsp (by simp [MS.step, Ne.symm hkm])
  · refine C_same h hth c rfl ?_ ?_ fun sp hsp => ?_
    · rw [ht]; simp [cw, hpc]
    · rw [ht]; simp [critOf, crit, hpc]
    · rw [hlog]; exact CS.run_snoc hsp (CS.step_no rfl)
  · refine P_same h (fun u hu => .of_eq (hth u hu)) p rfl ?_ ?_ ?_ fun sp hsp => ?_
    · rw [ht]; rfl
    · rw [ht]; simp [outOf, hpc]
    · rw [ht]; left; rfl
    · rw [hlog]; exact PS.run_snoc hsp (PS.step_no rfl)

theorem step_obtd (h : Inv f s) {m : Mx} (hpc : (s.th t).pc = .obtd m) (hr : (s.th t).st.isSusp = false) :
    Inv f ((s.add (.got t m (decide ((s.th t).st ≠ .ready true)))).ret t (decide ((s.th t).st ≠ .ready true))
      (s.th t).stk) := by
  have hs := (h.th t).shape
  have hst := (h.th t).st
  simp only [Shape, hpc] at hs
  simp only [StOk, hpc] at hst
  have hd : decide ((s.th t).st ≠ .ready true) = true := decide_eq_true hst.2
  rw [hd]
  have hvm : mv m (s.th t) = some false := by simp [mv, hpc, hr]
  have hv : ∀ k, k ≠ m → mv k (s.th t) = none := fun k hk => by simp [mv, hpc, Ne.symm hk]
  obtain ⟨sp0, r0, i0⟩ := h.mx m
  have hh := i0.ready t hvm
  have hn : sp0.hold = none := by
    cases ho : sp0.hold with
    | none => rfl
    | some u =>
      have := i0.list
      rw [ho] at this
      have hu : u = t := by
        rw [← this] at hh
        simpa using hh
      subst hu
      exact absurd hvm (i0.held u ho)
  have hl : s.mx m = t :: sp0.q.tail ∧ sp0.q = s.mx m := by
    have := i0.list
    rw [hn] at this
    have e : sp0.q = s.mx m := this
    refine ⟨?_, e⟩
    rw [e]
    cases hq : s.mx m with
    | nil => rw [hq] at hh; cases hh
    | cons a l => rw [hq] at hh; simp at hh; rw [hh]; rfl
  refine Inv.ret (s1 := s.add (.got t m true)) h (fun u _ => .of_eq rfl) rfl (fun _ _ _ h => h) (fun k => ?_) (fun c => ?_) (fun p sp hsp => ?_) true rfl
    (hs.ret true hh) ?_
  · by_cases hkm : k = m
    · subst hkm
      refine ⟨{ hold := some t, q := sp0.q.tail }, MS.run_snoc r0 ?_, ?_⟩
      · have : sp0.q.head? = some t := by rw [hl.2]; exact hh
        simp [MS.step, hn, this]
      · have hth : ∀ u, u ≠ t → ((s.add (.got t k true)).set t {}).th u = s.th u := fun u hu => by
          rw [set_th, if_neg hu]; rfl
        have ht : ((s.add (.got t k true)).set t {}).th t = {} := by rw [set_th, if_pos rfl]
        have hmx : ((s.add (.got t k true)).set t {}).mx k = s.mx k := rfl
        have hnt : t ∉ (s.mx k).tail := fun hm => by
          have := i0.tail t hm; rw [hvm] at this; cases this
        refine ⟨?_, ?_, ?_, ?_, ?_, ?_, ?_⟩ <;> (try rw [hmx])
        · rw [hl.1]; rfl
        · intro u hu
          rw [hth u (fun e => hnt (by rw [← e]; exact hu))]
          exact i0.tail u hu
        · exact i0.nd
        · intro u hu
          have : t = u := Option.some.inj hu
          rw [← this, ht]; exact fun h => by cases h
        · exact fun h => by cases h
        · intro u hu
          by_cases hut : u = t
          · rw [hut, ht] at hu; cases hu
          · rw [hth u hut] at hu; exact i0.susp u hu
        · intro u hu
          by_cases hut : u = t
          · rw [hut, ht] at hu; cases hu
          · rw [hth u hut] at hu; exact i0.ready u hu
    · exact M_ret (t := t) (s1 := s.add (.got t m true)) h (fun _ _ => rfl) k rfl (hv k hkm) fun sp hsp _ =>
        MS.run_snoc hsp (by simp [MS.step, Ne.symm hkm])
  · exact C_ret (t := t) (s1 := s.add (.got t m true)) h (fun _ _ => rfl) c rfl (by simp [cw, hpc]) (by simp [critOf, crit, hpc])
      fun sp hsp => CS.run_snoc hsp (CS.step_no rfl)
  · exact PS.run_snoc hsp (PS.step_no rfl)
  · intro p v; rw [hpc]; exact fun h => by cases h

end Rep.Sync
