import Verif.Sync.Step

/-
The steps of the functions of condition variables keep the invariant.
-/

namespace Rep.Sync

variable {f : Nat → Nat} {s s1 : St} {t : Tid}

/-- A step inside a function of a condition variable, that may change its list -/
theorem step_in (h : Inv f s) {c : Cv} {pc : Pc} (l : List Tid)
    (hcr : critOf c (s.th t) = some (s.th t).pc) (hpc : crit pc = some c)
    (hown : ∀ x : Th, x = { s.th t with pc := pc } → own f x = own f (s.th t))
    (hsh : Shape f { s.th t with pc := pc })
    (hr : ∀ sp, CritRel t (s.cv c) sp (s.th t).pc → CInv s c sp → CritRel t l sp pc) :
    Inv f ((s.setCv c l).set t { s.th t with pc := pc }) := by
  have hcm := (h.th t).own _ (crit_own (h.th t).shape hcr)
  have hst := (h.th t).st
  have hcr' : crit (s.th t).pc = some c := by
    unfold critOf at hcr
    split at hcr
    · assumption
    · cases hcr
  refine h.stepC { s.th t with pc := pc } c l hsh ?_ ?_ hcm ?_ ?_ ?_ (fun _ => rfl) ?_ ?_ ?_
  · revert hst
    generalize s.th t = x at hcr'
    obtain ⟨a, b, d⟩ := x
    simp only at hcr'
    intro hst
    have : d = .run := by
      cases a <;> first | exact hst | (simp [crit] at hcr')
    subst this
    cases pc <;> first | rfl | (simp [crit] at hpc)
  · intro m hm
    rw [hown _ rfl] at hm
    exact (h.th t).own m hm
  · intro m
    revert hcr'
    generalize s.th t = x
    obtain ⟨a, b, d⟩ := x
    intro hcr'
    cases a <;> cases pc <;> simp_all [mv, crit]
  · intro k
    revert hcr'
    generalize s.th t = x
    obtain ⟨a, b, d⟩ := x
    intro hcr'
    cases a <;> cases pc <;> simp_all [cw, crit]
  · intro k hk
    unfold critOf
    show (if crit pc = some k then _ else _) = _
    rw [hpc, hcr', if_neg (by intro e; exact hk (Option.some.inj e).symm), if_neg (by intro e; exact hk (Option.some.inj e).symm)]
  · intro p
    have h1 : ∀ k v, (s.th t).pc ≠ .enq k v := fun k v e => by rw [e] at hcr'; cases hcr'
    have h2 : ∀ k v, pc ≠ .enq k v := fun k v e => by rw [e] at hpc; cases hpc
    rw [outOf_K h1, outOf_K (x := { s.th t with pc := pc }) h2]
  · intro p
    left
    unfold deqOf
    split
    · next e => rw [show pc = _ from e] at hpc; cases hpc
    · next e => rw [show pc = _ from e] at hpc; cases hpc
    · rfl
  · intro sp h1 h2
    have : critOf c { s.th t with pc := pc } = some pc := by
      unfold critOf
      show (if crit pc = some c then some pc else none) = _
      rw [if_pos hpc]
    rw [this]
    rw [hcr] at h1
    exact hr sp h1 h2

/-- The same, and the list is not changed -/
theorem step_in' (h : Inv f s) {c : Cv} {pc : Pc}
    (hcr : critOf c (s.th t) = some (s.th t).pc) (hpc : crit pc = some c)
    (hown : ∀ x : Th, x = { s.th t with pc := pc } → own f x = own f (s.th t))
    (hsh : Shape f { s.th t with pc := pc })
    (hr : ∀ sp, CritRel t (s.cv c) sp (s.th t).pc → CInv s c sp → CritRel t (s.cv c) sp pc) :
    Inv f (s.set t { s.th t with pc := pc }) := by
  have := step_in h (s.cv c) hcr hpc hown hsh hr
  rw [setCv_self] at this
  exact this

theorem critOf_pc {c : Cv} {pc : Pc} (hpc : (s.th t).pc = pc) (hc : crit pc = some c) :
    critOf c (s.th t) = some (s.th t).pc := by
  unfold critOf
  rw [hpc, hc, if_pos rfl]

theorem step_waitMem (h : Inv f s) {c : Cv} {m : Mx} {to : Option Nat} (hpc : (s.th t).pc = .waitMem c m to) :
    t ∉ s.cv c ∧ Inv f (s.set t { s.th t with pc := .waitRead c m to }) := by
  have hcr := critOf_pc (c := c) hpc rfl
  have hs := (h.th t).shape
  simp only [Shape, hpc] at hs
  constructor
  · obtain ⟨sp, _, i⟩ := h.cv c
    have := i.crit t _ hcr
    rw [hpc] at this
    obtain ⟨h1, _⟩ := this
    rw [h1]
    intro hm
    have := i.wait t (List.mem_reverse.1 hm)
    simp [cw, hpc] at this
  · refine step_in' h hcr rfl ?_ ?_ ?_
    · rintro x rfl; simp [own, hpc]
    · simpa [Shape] using hs
    · intro sp h1 _; rw [hpc] at h1; exact h1

theorem step_waitRead (h : Inv f s) {c : Cv} {m : Mx} {to : Option Nat} (hpc : (s.th t).pc = .waitRead c m to) :
    Inv f (s.set t { s.th t with pc := .waitWrite c m to (s.cv c) }) := by
  have hcr := critOf_pc (c := c) hpc rfl
  have hs := (h.th t).shape
  simp only [Shape, hpc] at hs
  refine step_in' h hcr rfl ?_ ?_ ?_
  · rintro x rfl; simp [own, hpc]
  · simpa [Shape] using hs
  · intro sp h1 _; rw [hpc] at h1; exact ⟨rfl, h1⟩

theorem step_waitWrite (h : Inv f s) {c : Cv} {m : Mx} {to : Option Nat} {l : List Tid}
    (hpc : (s.th t).pc = .waitWrite c m to l) :
    Inv f ((s.setCv c (t :: l)).set t { s.th t with pc := .waitGo c m to }) := by
  have hcr := critOf_pc (c := c) hpc rfl
  have hs := (h.th t).shape
  simp only [Shape, hpc] at hs
  refine step_in h (t :: l) hcr rfl ?_ ?_ ?_
  · rintro x rfl; simp [own, hpc]
  · simpa [Shape] using hs
  · intro sp h1 _; rw [hpc] at h1
    obtain ⟨h1, h2, h3⟩ := h1
    exact ⟨by rw [h1, h2], h3⟩

theorem step_sigChk (h : Inv f s) {c : Cv} (hpc : (s.th t).pc = .sigChk c) (he : s.cv c ≠ []) :
    Inv f (s.set t { s.th t with pc := .sigLast c }) := by
  have hcr := critOf_pc (c := c) hpc rfl
  have hs := (h.th t).shape
  simp only [Shape, hpc] at hs
  refine step_in' h hcr rfl ?_ ?_ ?_
  · rintro x rfl; simp [own, hpc]
  · simpa [Shape] using hs
  · intro sp h1 _; rw [hpc] at h1
    refine ⟨h1.1, h1.2, fun e => he ?_⟩
    rw [h1.1, e]; rfl

theorem step_sigLast (h : Inv f s) {c : Cv} (hpc : (s.th t).pc = .sigLast c) :
    Inv f (s.set t { s.th t with pc := .sigRead c ((s.cv c).getLastD 0) }) := by
  have hcr := critOf_pc (c := c) hpc rfl
  have hs := (h.th t).shape
  simp only [Shape, hpc] at hs
  refine step_in' h hcr rfl ?_ ?_ ?_
  · rintro x rfl; simp [own, hpc]
  · simpa [Shape] using hs
  · intro sp h1 _; rw [hpc] at h1
    obtain ⟨h1, h2, h3⟩ := h1
    cases hq : sp.q with
    | nil => exact absurd hq h3
    | cons u q =>
      have : (s.cv c).getLastD 0 = u := by rw [h1, hq]; simp [List.getLastD_eq_getLast?]
      rw [this]
      exact ⟨h1, by rw [h2, hq]; rfl, by rw [hq]; rfl⟩

theorem step_sigRead (h : Inv f s) {c : Cv} {u : Tid} (hpc : (s.th t).pc = .sigRead c u) :
    Inv f (s.set t { s.th t with pc := .sigWrite c u (s.cv c) }) := by
  have hcr := critOf_pc (c := c) hpc rfl
  have hs := (h.th t).shape
  simp only [Shape, hpc] at hs
  refine step_in' h hcr rfl ?_ ?_ ?_
  · rintro x rfl; simp [own, hpc]
  · simpa [Shape] using hs
  · intro sp h1 _; rw [hpc] at h1; exact ⟨rfl, h1⟩

theorem filter_ne {u : Tid} : ∀ {l : List Tid}, u ∉ l → l.filter (· ≠ u) = l := by
  intro l h
  rw [List.filter_eq_self]
  intro a ha
  exact decide_eq_true fun e => h (by rw [← e]; exact ha)

theorem step_sigWrite (h : Inv f s) {c : Cv} {u : Tid} {l : List Tid} (hpc : (s.th t).pc = .sigWrite c u l) :
    Inv f ((s.setCv c (l.filter (· ≠ u))).set t { s.th t with pc := .sigWake c u }) := by
  have hcr := critOf_pc (c := c) hpc rfl
  have hs := (h.th t).shape
  simp only [Shape, hpc] at hs
  refine step_in h _ hcr rfl ?_ ?_ ?_
  · rintro x rfl; simp [own, hpc]
  · simpa [Shape] using hs
  · intro sp h1 i; rw [hpc] at h1
    obtain ⟨h1, h2, h3, h4⟩ := h1
    refine ⟨?_, h3, h4⟩
    rw [h1, h2]
    have hnd := i.nd
    cases hq : sp.q with
    | nil => rw [hq] at h4; cases h4
    | cons a q =>
      rw [hq] at h4 hnd
      have : a = u := by simpa using h4
      subst this
      have hn := (List.nodup_cons.1 hnd).1
      rw [List.reverse_cons, List.filter_append, filter_ne (by simpa using hn)]
      simp

theorem step_bcRead (h : Inv f s) {c : Cv} (hpc : (s.th t).pc = .bcRead c) :
    Inv f (s.set t { s.th t with pc := .bcClear c (s.cv c) }) := by
  have hcr := critOf_pc (c := c) hpc rfl
  have hs := (h.th t).shape
  simp only [Shape, hpc] at hs
  refine step_in' h hcr rfl ?_ ?_ ?_
  · rintro x rfl; simp [own, hpc]
  · simpa [Shape] using hs
  · intro sp h1 _; rw [hpc] at h1; exact ⟨rfl, h1⟩

theorem step_bcClear (h : Inv f s) {c : Cv} {l : List Tid} (hpc : (s.th t).pc = .bcClear c l) :
    Inv f ((s.setCv c []).set t { s.th t with pc := .bcWake c l.reverse }) := by
  have hcr := critOf_pc (c := c) hpc rfl
  have hs := (h.th t).shape
  simp only [Shape, hpc] at hs
  refine step_in h _ hcr rfl ?_ ?_ ?_
  · rintro x rfl; simp [own, hpc]
  · simpa [Shape] using hs
  · intro sp h1 _; rw [hpc] at h1
    obtain ⟨h1, h2, h3⟩ := h1
    have : l.reverse = sp.q := by rw [h1, h2, List.reverse_reverse]
    rw [this]
    exact ⟨rfl, rfl, h3⟩

/-- The parts of the invariant that are not concerned when `t` returns from a function of a
condition variable -/
theorem SigShape.ret {c : Cv} {k : List Fr} (h : SigShape c k) (b : Bool)
    (hh : (s1.mx (cvm f c)).head? = some t) : RetShape s1 t b k := by
  rcases h with ⟨n, _, h⟩ | ⟨p, hc, h⟩
  · subst h; exact .top
  · subst h; subst hc; exact .sendSig p hh

/-- `t` returns from a function of a condition variable. -/
theorem ret_sig (h : Inv f s) {c : Cv} {es : List Log} (hs1 : s1.log = s.log ++ es) (hmx : s1.mx = s.mx) (hcv : s1.cv = s.cv)
    (hpq : s1.pq = s.pq) (hth : ∀ w, w ≠ t → Like (s.th w) (s1.th w))
    (hmv : ∀ w k, w ≠ t → mv k (s1.th w) = mv k (s.th w))
    (hcw : ∀ w k, w ≠ t → k ≠ c → cw k (s1.th w) = cw k (s.th w))
    (hM : ∀ m sp, MS.run m s.log = some sp → MS.run m (s.log ++ es) = some sp)
    (hC : ∀ k sp, k ≠ c → CS.run k s.log = some sp → CS.run k (s.log ++ es) = some sp)
    (hP : ∀ p sp, PS.run p s.log = some sp → PS.run p (s.log ++ es) = some sp)
    (hc : crit (s.th t).pc = some c)
    (hcc : ∃ sp, CS.run c (s.log ++ es) = some sp ∧ CInv (s1.set t {}) c sp)
    (b : Bool) (hr : RetShape s1 t b (s.th t).stk) : Inv f (s1.ret t b (s.th t).stk) := by
  have hv : ∀ k, mv k (s.th t) = none := by
    intro k; revert hc; generalize s.th t = x; obtain ⟨a, b, d⟩ := x; cases a <;> simp_all [crit, mv]
  have hw : ∀ k, cw k (s.th t) = none := by
    intro k; revert hc; generalize s.th t = x; obtain ⟨a, b, d⟩ := x; cases a <;> simp_all [crit, cw]
  refine Inv.ret h hth hpq (by rw [hmx]; exact fun _ _ _ h => h) (fun m => ?_) (fun k => ?_)
    (fun p sp hsp => by rw [hs1]; exact hP p sp hsp) b rfl hr ?_
  · obtain ⟨sp, r, i⟩ := h.mx m
    refine ⟨sp, by rw [hs1]; exact hM m sp r, i.congr (by show s1.mx m = _; rw [hmx]) fun u => ?_⟩
    rw [set_th]
    by_cases hu : u = t
    · rw [if_pos hu, hu, hv]; rfl
    · rw [if_neg hu, hmv u m hu]
  · by_cases hkc : k = c
    · subst hkc
      rw [hs1]; exact hcc
    · obtain ⟨sp, r, i⟩ := h.cv k
      refine ⟨sp, by rw [hs1]; exact hC k sp hkc r, i.congr (by show s1.cv k = _; rw [hcv]) (fun u => ?_) fun u => ?_⟩
      · rw [set_th]
        by_cases hu : u = t
        · rw [if_pos hu, hu, hw]; rfl
        · rw [if_neg hu, hcw u k hu hkc]
      · rw [set_th]
        by_cases hu : u = t
        · rw [if_pos hu, hu]; unfold critOf
          rw [hc, if_neg (by intro e; cases e), if_neg (by intro e; exact hkc (Option.some.inj e).symm)]
        · rw [if_neg hu, (hth u hu).crit]
  · intro p v e; rw [e] at hc; cases hc

theorem crit_ne (h : Inv f s) {c : Cv} (hpc : crit (s.th t).pc = some c) (u : Tid) (hu : u ≠ t) :
    critOf c (s.th u) = none :=
  h.no_crit ((h.th t).own _ (crit_own (h.th t).shape (critOf_pc rfl hpc))) u hu

theorem step_sigChk_empty (h : Inv f s) {c : Cv} (hpc : (s.th t).pc = .sigChk c) (he : s.cv c = []) (b : Bool) :
    Inv f ((s.add (.sigRet t c)).ret t b (s.th t).stk) := by
  have hcr := critOf_pc (c := c) hpc rfl
  have hs := (h.th t).shape
  have hcm := (h.th t).own _ (crit_own (h.th t).shape hcr)
  simp only [Shape, hpc] at hs
  refine ret_sig (s1 := s.add (.sigRet t c)) (c := c) h (es := [.sigRet t c]) rfl rfl rfl rfl (fun _ _ => .of_eq rfl)
    (fun _ _ _ => rfl) (fun _ _ _ _ => rfl) (fun m sp r => MS.run_snoc r (MS.step_no rfl))
    (fun k sp hk r => CS.run_snoc r (by simp [CS.step, Ne.symm hk])) (fun p sp r => PS.run_snoc r (PS.step_no rfl))
    (by rw [hpc]; rfl) ?_ b (hs.ret b hcm)
  obtain ⟨sp, r, i⟩ := h.cv c
  have hrel := i.crit t _ hcr
  rw [hpc] at hrel
  obtain ⟨h1, h2⟩ := hrel
  have hq : sp.q = [] := by rw [he] at h1; simpa using h1.symm
  rw [hq] at h2
  refine ⟨{ sp with busy := none }, CS.run_snoc r (by simp [CS.step, h2]), ?_⟩
  refine i.move (h.no_crit hcm) (fun u hu => by rw [set_th, if_neg hu]; rfl) ?_ rfl ?_
  · rw [set_th, if_pos rfl]; simp [cw, hpc]
  · rw [set_th, if_pos rfl]
    exact ⟨h1, rfl⟩

theorem step_bcWake_nil (h : Inv f s) {c : Cv} (hpc : (s.th t).pc = .bcWake c []) (b : Bool) :
    Inv f ((s.add (.sigRet t c)).ret t b (s.th t).stk) := by
  have hcr := critOf_pc (c := c) hpc rfl
  have hs := (h.th t).shape
  have hcm := (h.th t).own _ (crit_own (h.th t).shape hcr)
  simp only [Shape, hpc] at hs
  refine ret_sig (s1 := s.add (.sigRet t c)) (c := c) h (es := [.sigRet t c]) rfl rfl rfl rfl (fun _ _ => .of_eq rfl)
    (fun _ _ _ => rfl) (fun _ _ _ _ => rfl) (fun m sp r => MS.run_snoc r (MS.step_no rfl))
    (fun k sp hk r => CS.run_snoc r (by simp [CS.step, Ne.symm hk])) (fun p sp r => PS.run_snoc r (PS.step_no rfl))
    (by rw [hpc]; rfl) ?_ b (by rw [hs]; exact .top)
  obtain ⟨sp, r, i⟩ := h.cv c
  have hrel := i.crit t _ hcr
  rw [hpc] at hrel
  obtain ⟨h1, h2, h3⟩ := hrel
  refine ⟨{ sp with busy := none }, CS.run_snoc r (by simp [CS.step, h3]), ?_⟩
  refine i.move (h.no_crit hcm) (fun u hu => by rw [set_th, if_neg hu]; rfl) ?_ rfl ?_
  · rw [set_th, if_pos rfl]; simp [cw, hpc]
  · rw [set_th, if_pos rfl]
    refine ⟨?_, rfl⟩
    show s.cv c = sp.q.reverse
    rw [h1, h2]; rfl

/-- A waiting thread is woken. -/
theorem wake_cw {c : Cv} {u : Tid} (h : cw c (s.th u) = some true) :
    s.wake u = some (s.set u { s.th u with st := .ready false }) := by
  have := (cw_cases h).2
  unfold St.wake
  cases hst : (s.th u).st with
  | susp b => rfl
  | run => rw [hst] at this; cases this
  | ready b => rw [hst] at this; cases this

/-- The condition variable after its first thread has been woken -/
theorem CInv.woken {c : Cv} {sp sp' : CS} {u : Tid} {q : List Tid} (h : CInv s c sp) (hq : sp.q = u :: q)
    (hq' : sp'.q = q) (hno : ∀ w, w ≠ t → critOf c (s.th w) = none)
    {s2 : St} (hth : ∀ w, w ≠ t → s2.th w = if w = u then { s.th w with st := .ready false } else s.th w)
    (hut : u ≠ t) (hcw : cw c (s.th t) = none) (hcw' : cw c (s2.th t) = none)
    (hr : CRel t (s2.cv c) sp' (critOf c (s2.th t))) : CInv s2 c sp' := by
  have hnd := h.nd
  have hwait := h.wait
  have hsusp := h.susp
  rw [hq] at hnd hwait hsusp
  obtain ⟨hn, hnd'⟩ := List.nodup_cons.1 hnd
  have hlike : ∀ w, w ≠ t → Like (s.th w) (s2.th w) := by
    intro w hw
    rw [hth w hw]
    split
    · next e => subst e; exact ⟨rfl, rfl, .inr ⟨(cw_cases (hwait w (by simp))).2, rfl⟩⟩
    · exact .of_eq rfl
  refine ⟨?_, by rw [hq']; exact hnd', ?_, ?_, ?_⟩
  · intro w hw
    rw [hq'] at hw
    have h1 := hwait w (List.mem_cons_of_mem _ hw)
    have h2 : w ≠ t := fun e => by rw [e, hcw] at h1; cases h1
    rw [hth w h2, if_neg (fun e => hn (by rw [← e]; exact hw))]
    exact h1
  · intro w hw
    rw [hq']
    have h2 : w ≠ t := fun e => by rw [e, hcw'] at hw; cases hw
    rw [hth w h2] at hw
    by_cases hwu : w = u
    · rw [if_pos hwu] at hw
      have := (cw_cases hw).2
      cases this
    · rw [if_neg hwu] at hw
      cases List.mem_cons.1 (hsusp w hw) with
      | inl e => exact absurd e hwu
      | inr e => exact e
  · intro w pc hw
    by_cases hwt : w = t
    · rw [hwt] at hw ⊢; rw [hw] at hr; exact hr
    · rw [(hlike w hwt).crit, hno w hwt] at hw; cases hw
  · intro hall
    rw [hall t] at hr; exact hr

theorem woken_views {c : Cv} {u : Tid} (h : cw c (s.th u) = some true) :
    Like (s.th u) { s.th u with st := .ready false } ∧
    (∀ m, mv m { s.th u with st := .ready false } = mv m (s.th u)) ∧
    (∀ k, k ≠ c → cw k { s.th u with st := .ready false } = cw k (s.th u)) := by
  obtain ⟨⟨m, hpc⟩, hs⟩ := cw_cases h
  refine ⟨⟨rfl, rfl, .inr ⟨hs, rfl⟩⟩, fun m => ?_, fun k hk => ?_⟩
  · simp [mv, hpc]
  · simp [cw, hpc, Ne.symm hk]

theorem step_sigWake (h : Inv f s) {c : Cv} {u : Tid} (hpc : (s.th t).pc = .sigWake c u) :
    ∃ s1, s.wake u = some s1 ∧ ∀ b, Inv f (((s1.add (.woke t c u)).add (.sigRet t c)).ret t b (s.th t).stk) := by
  have hcr := critOf_pc (c := c) hpc rfl
  have hs := (h.th t).shape
  have hcm := (h.th t).own _ (crit_own (h.th t).shape hcr)
  simp only [Shape, hpc] at hs
  obtain ⟨sp, r, i⟩ := h.cv c
  have hrel := i.crit t _ hcr
  rw [hpc] at hrel
  obtain ⟨h1, h2, h3⟩ := hrel
  obtain ⟨q, hq⟩ : ∃ q, sp.q = u :: q := by
    cases hq : sp.q with
    | nil => rw [hq] at h3; cases h3
    | cons a q => rw [hq] at h3; simp at h3; exact ⟨q, by rw [h3]⟩
  have hu := i.wait u (by rw [hq]; simp)
  obtain ⟨v1, v2, v3⟩ := woken_views hu
  have hut : u ≠ t := fun e => by rw [e] at hu; simp [cw, hpc] at hu
  refine ⟨_, wake_cw hu, fun b => ?_⟩
  refine ret_sig (s1 := ((s.set u { s.th u with st := .ready false }).add (.woke t c u)).add (.sigRet t c)) (c := c) h
    (es := [.woke t c u, .sigRet t c]) (by simp [St.add, St.set]) rfl rfl rfl ?_ ?_ ?_
    (fun m sp r => ?_) (fun k sp hk r => ?_) (fun p sp r => ?_) (by rw [hpc]; rfl) ?_ b (hs.ret b hcm)
  · intro w _
    show Like _ ((s.set u _).th w)
    rw [set_th]
    split
    · next e => rw [e]; exact v1
    · exact .of_eq rfl
  · intro w k _
    show mv k ((s.set u _).th w) = _
    rw [set_th]
    split
    · next e => rw [e]; exact v2 k
    · rfl
  · intro w k _ hk
    show cw k ((s.set u _).th w) = _
    rw [set_th]
    split
    · next e => rw [e]; exact v3 k hk
    · rfl
  · rw [show s.log ++ [Log.woke t c u, .sigRet t c] = (s.log ++ [.woke t c u]) ++ [.sigRet t c] by simp]
    exact MS.run_snoc (MS.run_snoc r (MS.step_no rfl)) (MS.step_no rfl)
  · rw [show s.log ++ [Log.woke t c u, .sigRet t c] = (s.log ++ [.woke t c u]) ++ [.sigRet t c] by simp]
    exact CS.run_snoc (sp := sp) (CS.run_snoc r (by simp [CS.step, Ne.symm hk])) (by simp [CS.step, Ne.symm hk])
  · rw [show s.log ++ [Log.woke t c u, .sigRet t c] = (s.log ++ [.woke t c u]) ++ [.sigRet t c] by simp]
    exact PS.run_snoc (PS.run_snoc r (PS.step_no rfl)) (PS.step_no rfl)
  · refine ⟨{ q := q, busy := none }, ?_, ?_⟩
    · rw [show s.log ++ [Log.woke t c u, .sigRet t c] = (s.log ++ [.woke t c u]) ++ [.sigRet t c] by simp]
      refine CS.run_snoc (sp := { q := q, busy := some (t, []) }) (CS.run_snoc r ?_) ?_
      · simp [CS.step, h2, hq]
      · simp [CS.step]
    · refine i.woken hq rfl (h.no_crit hcm) (fun w hw => ?_) hut (by simp [cw, hpc]) ?_ ?_
      · rw [set_th, if_neg hw]
        show (s.set u _).th w = _
        rw [set_th]
        by_cases e : w = u
        · rw [if_pos e, if_pos e, e]
        · rw [if_neg e, if_neg e]
      · rw [set_th, if_pos rfl]; rfl
      · rw [set_th, if_pos rfl]
        refine ⟨?_, rfl⟩
        show s.cv c = q.reverse
        rw [h1, hq]; rfl

theorem step_bcWake (h : Inv f s) {c : Cv} {u : Tid} {l : List Tid} (hpc : (s.th t).pc = .bcWake c (u :: l)) :
    ∃ s1, s.wake u = some s1 ∧ Inv f ((s1.add (.woke t c u)).set t { s.th t with pc := .bcWake c l }) := by
  have hcr := critOf_pc (c := c) hpc rfl
  have hs := (h.th t).shape
  have hst := (h.th t).st
  have hcm := (h.th t).own _ (crit_own (h.th t).shape hcr)
  simp only [Shape, hpc] at hs
  simp only [StOk, hpc] at hst
  obtain ⟨sp, r, i⟩ := h.cv c
  have hrel := i.crit t _ hcr
  rw [hpc] at hrel
  obtain ⟨h1, hq, h3⟩ := hrel
  have hu := i.wait u (by rw [hq]; simp)
  obtain ⟨v1, v2, v3⟩ := woken_views hu
  have hut : u ≠ t := fun e => by rw [e] at hu; simp [cw, hpc] at hu
  refine ⟨_, wake_cw hu, ?_⟩
  generalize hs' : ((s.set u { s.th u with st := .ready false }).add (.woke t c u)).set t
    { s.th t with pc := .bcWake c l } = s'
  have hlog : s'.log = s.log ++ [.woke t c u] := by rw [← hs']; rfl
  have hmx : s'.mx = s.mx := by rw [← hs']; rfl
  have hcv : s'.cv = s.cv := by rw [← hs']; rfl
  have hpq : s'.pq = s.pq := by rw [← hs']; rfl
  have ht : s'.th t = { s.th t with pc := .bcWake c l } := by rw [← hs', set_th, if_pos rfl]
  have hth : ∀ w, w ≠ t → s'.th w = if w = u then { s.th w with st := .ready false } else s.th w := by
    intro w hw
    rw [← hs', set_th, if_neg hw]
    show (s.set u _).th w = _
    rw [set_th]
    by_cases e : w = u
    · rw [if_pos e, if_pos e, e]
    · rw [if_neg e, if_neg e]
  have hlike : ∀ w, w ≠ t → Like (s.th w) (s'.th w) := by
    intro w hw
    rw [hth w hw]
    split
    · next e => rw [e]; exact v1
    · exact .of_eq rfl
  refine h.upd (t := t) hlike (by rw [hmx]; exact fun _ _ _ h => h) ⟨?_, ?_, ?_⟩ (fun m => ?_) (fun k => ?_) (fun p => ?_)
  · rw [ht]; exact hs
  · rw [ht]; exact hst
  · rw [ht, hmx]; intro m hm; simp [own] at hm; rw [← hm]; exact hcm
  · obtain ⟨sp, r, i⟩ := h.mx m
    refine ⟨sp, by rw [hlog]; exact MS.run_snoc r (MS.step_no rfl), i.congr (by rw [hmx]) fun w => ?_⟩
    by_cases hw : w = t
    · rw [hw, ht]; simp [mv, hpc]
    · rw [hth w hw]
      split
      · next e => rw [e]; exact v2 m
      · rfl
  · by_cases hkc : k = c
    · subst hkc
      refine ⟨{ q := l, busy := some (t, l) }, by rw [hlog]; exact CS.run_snoc r (by simp [CS.step, h3, hq]), ?_⟩
      refine i.woken hq rfl (h.no_crit hcm) hth hut (by simp [cw, hpc]) (by rw [ht]; simp [cw]) ?_
      rw [ht, hcv]
      have : critOf k { s.th t with pc := Pc.bcWake k l } = some (.bcWake k l) := by simp [critOf, crit]
      rw [this]
      exact ⟨h1, rfl, rfl⟩
    · obtain ⟨sp, r, i⟩ := h.cv k
      refine ⟨sp, by rw [hlog]; exact CS.run_snoc r (by simp [CS.step, Ne.symm hkc]), i.congr (by rw [hcv]) (fun w => ?_) fun w => ?_⟩
      · by_cases hw : w = t
        · rw [hw, ht]; simp [cw, hpc]
        · rw [hth w hw]
          split
          · next e => rw [e]; exact v3 k hkc
          · rfl
      · by_cases hw : w = t
        · rw [hw, ht]; simp [critOf, crit, hpc, Ne.symm hkc]
        · exact (hlike w hw).crit k
  · refine P_same h hlike p (by rw [hpq]) ?_ ?_ ?_ fun sp r => ?_
    · rw [ht]; rfl
    · rw [ht]; simp [outOf, hpc]
    · rw [ht]; left; rfl
    · rw [hlog]; exact PS.run_snoc r (PS.step_no rfl)

theorem step_waited (h : Inv f s) {c : Cv} {m : Mx} (hpc : (s.th t).pc = .waited c m) (hr : (s.th t).st.isSusp = false) :
    Inv f (s.set t { pc := .obt m none, stk := .wait c (decide ((s.th t).st ≠ .ready true)) :: (s.th t).stk }) := by
  have hs := (h.th t).shape
  have hst := (h.th t).st
  simp only [Shape, hpc] at hs
  simp only [StOk, hpc] at hst
  rw [decide_eq_true hst.2]
  generalize hs' : s.set t { pc := .obt m none, stk := .wait c true :: (s.th t).stk } = s'
  have ht : s'.th t = { pc := .obt m none, stk := .wait c true :: (s.th t).stk } := by rw [← hs', set_th, if_pos rfl]
  have hth : ∀ w, w ≠ t → s'.th w = s.th w := fun w hw => by rw [← hs', set_th, if_neg hw]
  have hlog : s'.log = s.log := by rw [← hs']; rfl
  have hmx : s'.mx = s.mx := by rw [← hs']; rfl
  have hcv : s'.cv = s.cv := by rw [← hs']; rfl
  have hpq : s'.pq = s.pq := by rw [← hs']; rfl
  refine h.upd (t := t) (fun w hw => .of_eq (hth w hw)) (by rw [hmx]; exact fun _ _ _ h => h) ⟨?_, ?_, ?_⟩ (fun k => ?_) (fun k => ?_) (fun p => ?_)
  · rw [ht]
    show ObtShape f m _
    obtain ⟨hm, ⟨n, hc, hk⟩ | ⟨p, to, hc, hk⟩⟩ := hs
    · subst hc; rw [hk, hm]; exact .inr (.inl ⟨n, rfl, rfl⟩)
    · subst hc; rw [hk, hm]; exact .inr (.inr ⟨p, rfl, .inl ⟨to, rfl⟩⟩)
  · rw [ht]; rfl
  · rw [ht]; intro k hk; cases hk
  · refine M_same h hth k (by rw [hmx]) ?_ (by rw [hlog]; exact fun _ h => h)
    rw [ht]; simp [mv, hpc]
  · obtain ⟨sp, r, i⟩ := h.cv k
    have hcwt : cw k (s'.th t) = none := by rw [ht]; rfl
    have hcwf : cw k (s.th t) ≠ some true := fun e => by
      have := (cw_cases e).2; rw [hr] at this; cases this
    have hk1 : critOf k (s.th t) = none := by simp [critOf, crit, hpc]
    have hk2 : critOf k (s'.th t) = none := by rw [ht]; simp [critOf, crit]
    refine ⟨sp, by rw [hlog]; exact r, ⟨?_, i.nd, ?_, ?_, ?_⟩⟩
    · intro u hu
      have := i.wait u hu
      rw [hth u (fun e => hcwf (by rw [← e]; exact this))]
      exact this
    · intro u hu
      by_cases hut : u = t
      · rw [hut, hcwt] at hu; cases hu
      · rw [hth u hut] at hu; exact i.susp u hu
    · intro u pc hu
      rw [hcv]
      by_cases hut : u = t
      · rw [hut, hk2] at hu; cases hu
      · rw [hth u hut] at hu; exact i.crit u pc hu
    · intro hall
      rw [hcv]
      refine i.dflt fun u => ?_
      by_cases hut : u = t
      · rw [hut]; exact hk1
      · have := hall u; rw [hth u hut] at this; exact this
  · refine P_same h (fun w hw => .of_eq (hth w hw)) p (by rw [hpq]) ?_ ?_ ?_ (by rw [hlog]; exact fun _ h => h)
    · rw [ht]
      obtain ⟨hm, ⟨n, hc, hk⟩ | ⟨p, to, hc, hk⟩⟩ := hs <;> simp [handOf, handK, hk]
    · rw [ht]
      obtain ⟨hm, ⟨n, hc, hk⟩ | ⟨p, to, hc, hk⟩⟩ := hs <;> simp [outOf, outK, hk, hpc]
    · rw [ht]; left; rfl

theorem step_waitGo (h : Inv f s) {c : Cv} {m : Mx} {to : Option Nat} (hpc : (s.th t).pc = .waitGo c m to) :
    (s.mx m).head? = some t ∧
    ∃ s1, ((s.add (.rel t m)).setMx m (s.mx m).tail).wakeHead (s.mx m).tail = some s1 ∧
      Inv f ((s1.add (.waits t c)).set t { pc := .waited c m, stk := (s.th t).stk, st := .susp (forever to) }) := by
  have hcr := critOf_pc (c := c) hpc rfl
  have hs := (h.th t).shape
  have hst := (h.th t).st
  have hcm := (h.th t).own _ (crit_own (h.th t).shape hcr)
  simp only [Shape, hpc] at hs
  simp only [StOk, hpc] at hst
  have hh : (s.mx m).head? = some t := (h.th t).own m (by simp [own, hpc])
  obtain ⟨sp0, r0, i0⟩ := h.mx m
  have hv : ∀ k, mv k (s.th t) = none := fun k => by simp [mv, hpc]
  obtain ⟨s1, e1, emx, ecv, epq, elog, eth⟩ := wakeHead_spec (.rel t m) i0
  obtain ⟨ho, hl⟩ := i0.hold_of_head hh (hv m)
  refine ⟨hh, s1, e1, ?_⟩
  generalize hs' : (s1.add (.waits t c)).set t { pc := .waited c m, stk := (s.th t).stk, st := .susp (forever to) } = s'
  have ht : s'.th t = { pc := .waited c m, stk := (s.th t).stk, st := .susp (forever to) } := by
    rw [← hs', set_th, if_pos rfl]
  have hth : ∀ w, w ≠ t → s'.th w = if (s.mx m).tail.head? = some w then { s.th w with st := .ready false } else s.th w :=
    fun w hw => by rw [← hs', set_th, if_neg hw]; exact eth w
  have hlog : s'.log = s.log ++ [.rel t m] ++ [.waits t c] := by rw [← hs', ← elog]; rfl
  have hmx : s'.mx = s1.mx := by rw [← hs']; rfl
  have hcv : s'.cv = s.cv := by rw [← hs', ← ecv]; rfl
  have hpq : s'.pq = s.pq := by rw [← hs', ← epq]; rfl
  have hlike : ∀ w, w ≠ t → Like (s.th w) (s'.th w) := fun w hw => by rw [hth w hw]; exact woken_like i0 w
  refine h.upd (t := t) hlike ?_ ⟨?_, ?_, ?_⟩ (fun k => ?_) (fun k => ?_) (fun p => ?_)
  · rw [hmx, emx]; exact fun k u hu hk => head_setMx (s := s.add (.rel t m)) hh k u hu hk
  · rw [ht]; exact hs
  · rw [ht]; exact ⟨fun h => Run.noConfusion h, fun h => Run.noConfusion h⟩
  · rw [ht]; intro k hk; cases hk
  · by_cases hkm : k = m
    · subst hkm
      refine ⟨{ hold := none, q := sp0.q }, ?_, i0.released hh (hv k) ?_ hth ?_⟩
      · rw [hlog]
        exact MS.run_snoc (MS.run_snoc r0 (by simp [MS.step, ho])) (MS.step_no rfl)
      · rw [hmx, emx]; simp [St.setMx]
      · rw [ht]; rfl
    · obtain ⟨sp, r, i⟩ := h.mx k
      refine ⟨sp, ?_, i.congr ?_ fun u => ?_⟩
      · rw [hlog]
        exact MS.run_snoc (MS.run_snoc r (by simp [MS.step, Ne.symm hkm])) (MS.step_no rfl)
      · rw [hmx, emx]; simp [St.setMx, hkm]; rfl
      · by_cases hu : u = t
        · rw [hu, hv, ht]; rfl
        · rw [hth u hu, woken_mv i0 hkm]
  · by_cases hkc : k = c
    · subst hkc
      obtain ⟨sp, r, i⟩ := h.cv k
      have hrel := i.crit t _ hcr
      rw [hpc] at hrel
      obtain ⟨h1, h2⟩ := hrel
      have hcwt : cw k (s.th t) = none := by simp [cw, hpc]
      have hnt : t ∉ sp.q := fun hm => by have := i.wait t hm; rw [hcwt] at this; cases this
      refine ⟨{ sp with q := sp.q ++ [t] }, ?_, ⟨?_, ?_, ?_, ?_, ?_⟩⟩
      · rw [hlog]
        exact CS.run_snoc (CS.run_snoc r (CS.step_no rfl)) (by simp [CS.step])
      · intro u hu
        by_cases hut : u = t
        · rw [hut, ht]; simp [cw, Run.isSusp]
        · rw [hth u hut, woken_cw i0]
          refine i.wait u ?_
          cases List.mem_append.1 hu with
          | inl h => exact h
          | inr h => exact absurd (List.mem_singleton.1 h) hut
      · rw [List.nodup_append]
        refine ⟨i.nd, by simp, ?_⟩
        intro a ha b hb e
        rw [List.mem_singleton.1 hb] at e
        exact hnt (by rw [← e]; exact ha)
      · intro u hu
        by_cases hut : u = t
        · rw [hut]; simp
        · rw [hth u hut, woken_cw i0] at hu
          exact List.mem_append.2 (.inl (i.susp u hu))
      · intro u pc hu
        by_cases hut : u = t
        · rw [hut, ht] at hu; simp [critOf, crit] at hu
        · rw [(hlike u hut).crit, h.no_crit hcm u hut] at hu; cases hu
      · intro _
        rw [hcv]
        exact ⟨by rw [h1]; simp, h2⟩
    · obtain ⟨sp, r, i⟩ := h.cv k
      refine ⟨sp, ?_, i.congr (by rw [hcv]) (fun u => ?_) fun u => ?_⟩
      · rw [hlog]
        exact CS.run_snoc (sp := sp) (CS.run_snoc r (CS.step_no rfl)) (by simp [CS.step, Ne.symm hkc])
      · by_cases hu : u = t
        · rw [hu, ht]; simp [cw, hpc, Ne.symm hkc]
        · rw [hth u hu, woken_cw i0]
      · by_cases hu : u = t
        · rw [hu, ht]; simp [critOf, crit, hpc, Ne.symm hkc]
        · exact (hlike u hu).crit k
  · refine P_same h hlike p (by rw [hpq]) ?_ ?_ ?_ fun sp r => ?_
    · rw [ht]; rfl
    · rw [ht]; simp [outOf, hpc]
    · rw [ht]; left; rfl
    · rw [hlog]; exact PS.run_snoc (PS.run_snoc r (PS.step_no rfl)) (PS.step_no rfl)

end Rep.Sync
