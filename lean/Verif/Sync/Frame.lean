import Verif.Sync.Inv

/-
What a step of one thread has to keep.
-/

namespace Rep.Sync

variable {f : Nat → Nat} {s s' : St} {t : Tid}

/-- The same thread, or it was suspended and has been woken. -/
def Like (x y : Th) : Prop :=
  y.pc = x.pc ∧ y.stk = x.stk ∧ (y.st = x.st ∨ x.st.isSusp = true ∧ y.st = .ready false)

theorem Like.of_eq {x y : Th} (h : y = x) : Like x y := by subst h; exact ⟨rfl, rfl, .inl rfl⟩

theorem Like.shape {x y : Th} (h : Like x y) (hx : Shape f x) : Shape f y := by
  obtain ⟨a, b, c⟩ := x
  obtain ⟨a', b', c'⟩ := y
  obtain ⟨h1, h2, h3⟩ := h
  simp only at h1 h2
  subst h1; subst h2
  exact hx

theorem Like.own {x y : Th} (h : Like x y) : own f y = own f x := by
  obtain ⟨a, b, c⟩ := x
  obtain ⟨a', b', c'⟩ := y
  obtain ⟨h1, h2, h3⟩ := h
  simp only at h1 h2
  subst h1; subst h2
  rfl

theorem Like.stOk {x y : Th} (h : Like x y) (hx : StOk x) : StOk y := by
  obtain ⟨a, b, c⟩ := x
  obtain ⟨a', b', c'⟩ := y
  obtain ⟨h1, h2, h3⟩ := h
  simp only at h1 h2 h3
  subst h1; subst h2
  cases h3 with
  | inl h3 => subst h3; exact hx
  | inr h3 =>
    obtain ⟨h3, h4⟩ := h3
    subst h4
    cases a' <;> simp_all [StOk, Run.isSusp]

theorem Like.hand {x y : Th} (h : Like x y) (p : Nat) : handOf p y = handOf p x := by
  unfold handOf; rw [h.2.1]

theorem Like.out {x y : Th} (h : Like x y) (p : Nat) : outOf p y = outOf p x := by
  unfold outOf; rw [h.1, h.2.1]

theorem Like.deq {x y : Th} (h : Like x y) (p : Nat) : deqOf p y = deqOf p x := by
  unfold deqOf; rw [h.1]

theorem Like.crit {x y : Th} (h : Like x y) (c : Cv) : critOf c y = critOf c x := by
  unfold critOf; rw [h.1]

/-- Only `t` has changed, but for threads that have been woken, and what the others own they still
own. -/
theorem Inv.upd (h : Inv f s) (hth : ∀ u, u ≠ t → Like (s.th u) (s'.th u))
    (hhead : ∀ m u, u ≠ t → (s.mx m).head? = some u → (s'.mx m).head? = some u)
    (ht : ThOk f s' t)
    (hm : ∀ m, ∃ sp, MS.run m s'.log = some sp ∧ MInv s' m sp)
    (hc : ∀ c, ∃ sp, CS.run c s'.log = some sp ∧ CInv s' c sp)
    (hp : ∀ p, ∃ sp, PS.run p s'.log = some sp ∧ PInv s' p sp) : Inv f s' := by
  refine ⟨fun u => ?_, hm, hc, hp⟩
  by_cases hu : u = t
  · rw [hu]; exact ht
  · have := h.th u
    refine ⟨?_, ?_, ?_⟩
    · exact (hth u hu).shape this.shape
    · exact (hth u hu).stOk this.st
    · intro m hm
      rw [(hth u hu).own] at hm
      exact hhead m u hu (this.own m hm)

/-- A thread at work on a condition variable owns its mutex. -/
theorem crit_own {c : Cv} {x : Th} {pc : Pc} (hs : Shape f x) (h : critOf c x = some pc) :
    own f x = some (cvm f c) := by
  obtain ⟨xpc, xstk, xst⟩ := x
  cases xpc <;> simp_all [critOf, crit, own, Shape, WaitShape]

theorem deq_own {p : Nat} {x : Th} {o : Option Msg} (h : deqOf p x = some o) :
    own f x = some (.port p) := by
  obtain ⟨xpc, xstk, xst⟩ := x
  cases xpc <;> simp_all [deqOf, own]

theorem Inv.no_crit (h : Inv f s) {c : Cv} (ho : (s.mx (cvm f c)).head? = some t) (u : Tid) (hu : u ≠ t) :
    critOf c (s.th u) = none := by
  cases hc : critOf c (s.th u) with
  | none => rfl
  | some pc =>
    have := (h.th u).own _ (crit_own (h.th u).shape hc)
    rw [ho] at this
    exact absurd (Option.some.inj this).symm hu

theorem Inv.no_deq (h : Inv f s) {p : Nat} (ho : (s.mx (.port p)).head? = some t) (u : Tid) (hu : u ≠ t) :
    deqOf p (s.th u) = none := by
  cases hc : deqOf p (s.th u) with
  | none => rfl
  | some pc =>
    have := (h.th u).own _ (deq_own hc)
    rw [ho] at this
    exact absurd (Option.some.inj this).symm hu

/-- A condition variable while `t` owns its mutex -/
def CRel (t : Tid) (l : List Tid) (sp : CS) : Option Pc → Prop
  | some pc => CritRel t l sp pc
  | none => l = sp.q.reverse ∧ sp.busy = none

theorem CInv.rel {c : Cv} {sp : CS} (h : CInv s c sp) (hno : ∀ u, u ≠ t → critOf c (s.th u) = none) :
    CRel t (s.cv c) sp (critOf c (s.th t)) := by
  cases hc : critOf c (s.th t) with
  | some pc => exact h.crit t pc hc
  | none =>
    refine h.dflt fun u => ?_
    by_cases hu : u = t
    · rw [hu]; exact hc
    · exact hno u hu

theorem CInv.move {c : Cv} {sp sp' : CS} (h : CInv s c sp) (hno : ∀ u, u ≠ t → critOf c (s.th u) = none)
    (hth : ∀ u, u ≠ t → s'.th u = s.th u) (hcw : cw c (s'.th t) = cw c (s.th t)) (hq : sp'.q = sp.q)
    (hr : CRel t (s'.cv c) sp' (critOf c (s'.th t))) : CInv s' c sp' := by
  have hcw' : ∀ u, cw c (s'.th u) = cw c (s.th u) := by
    intro u
    by_cases hu : u = t
    · rw [hu]; exact hcw
    · rw [hth u hu]
  refine ⟨?_, ?_, ?_, ?_, ?_⟩
  · intro u hu; rw [hcw']; exact h.wait u (by rw [← hq]; exact hu)
  · rw [hq]; exact h.nd
  · intro u hu; rw [hq]; exact h.susp u (by rw [← hcw']; exact hu)
  · intro u pc hu
    by_cases hut : u = t
    · rw [hut] at hu ⊢; rw [hu] at hr; exact hr
    · rw [hth u hut, hno u hut] at hu; cases hu
  · intro hall
    rw [hall t] at hr; exact hr

/-- The parts that are not concerned -/
theorem M_same (h : Inv f s) (hth : ∀ u, u ≠ t → s'.th u = s.th u) (m : Mx)
    (hmx : s'.mx m = s.mx m) (hv : mv m (s'.th t) = mv m (s.th t))
    (hl : ∀ sp, MS.run m s.log = some sp → MS.run m s'.log = some sp) :
    ∃ sp, MS.run m s'.log = some sp ∧ MInv s' m sp := by
  obtain ⟨sp, h1, h2⟩ := h.mx m
  refine ⟨sp, hl sp h1, h2.congr hmx fun u => ?_⟩
  by_cases hu : u = t
  · rw [hu]; exact hv
  · rw [hth u hu]

theorem C_same (h : Inv f s) (hth : ∀ u, u ≠ t → s'.th u = s.th u) (c : Cv)
    (hcv : s'.cv c = s.cv c) (hv : cw c (s'.th t) = cw c (s.th t))
    (hk : critOf c (s'.th t) = critOf c (s.th t))
    (hl : ∀ sp, CS.run c s.log = some sp → CS.run c s'.log = some sp) :
    ∃ sp, CS.run c s'.log = some sp ∧ CInv s' c sp := by
  obtain ⟨sp, h1, h2⟩ := h.cv c
  refine ⟨sp, hl sp h1, h2.congr hcv (fun u => ?_) fun u => ?_⟩
  · by_cases hu : u = t
    · rw [hu]; exact hv
    · rw [hth u hu]
  · by_cases hu : u = t
    · rw [hu]; exact hk
    · rw [hth u hu]

theorem P_same (h : Inv f s) (hth : ∀ u, u ≠ t → Like (s.th u) (s'.th u)) (p : Nat)
    (hpq : s'.pq p = s.pq p) (hh : handOf p (s'.th t) = handOf p (s.th t))
    (ho : outOf p (s'.th t) = outOf p (s.th t))
    (hd : deqOf p (s'.th t) = none ∨ deqOf p (s'.th t) = deqOf p (s.th t))
    (hl : ∀ sp, PS.run p s.log = some sp → PS.run p s'.log = some sp) :
    ∃ sp, PS.run p s'.log = some sp ∧ PInv s' p sp := by
  obtain ⟨sp, h1, h2⟩ := h.pq p
  refine ⟨sp, hl sp h1, ⟨by rw [hpq]; exact h2.q, fun u => ?_, fun u => ?_, fun u hu => ?_, fun u v hu => ?_⟩⟩
  · by_cases hu : u = t
    · rw [hu, hh]; exact h2.hand t
    · rw [(hth u hu).hand]; exact h2.hand u
  · by_cases hu : u = t
    · rw [hu, ho]; exact h2.out t
    · rw [(hth u hu).out]; exact h2.out u
  · rw [hpq]
    by_cases hut : u = t
    · rw [hut] at hu
      cases hd with
      | inl hd => rw [hd] at hu; cases hu
      | inr hd => rw [hd] at hu; exact h2.deq t hu
    · rw [(hth u hut).deq] at hu; exact h2.deq u hu
  · rw [hpq]
    by_cases hut : u = t
    · rw [hut] at hu
      cases hd with
      | inl hd => rw [hd] at hu; cases hu
      | inr hd => rw [hd] at hu; exact h2.deqW t v hu
    · rw [(hth u hut).deq] at hu; exact h2.deqW u v hu

theorem PInv.move {p : Nat} {sp sp' : PS} (h : PInv s p sp) (hth : ∀ u, u ≠ t → Like (s.th u) (s'.th u))
    (hq : sp'.q = s'.pq p) (hh : ∀ u, u ≠ t → sp'.hand u = sp.hand u) (ho : ∀ u, u ≠ t → sp'.out u = sp.out u)
    (hht : sp'.hand t = handOf p (s'.th t)) (hot : sp'.out t = outOf p (s'.th t))
    (hd : s'.pq p = s.pq p ∨ ∀ u, u ≠ t → deqOf p (s.th u) = none)
    (hdt : deqOf p (s'.th t) = some none → s'.pq p ≠ [])
    (hdw : ∀ v, deqOf p (s'.th t) = some (some v) → (s'.pq p).head? = some v) : PInv s' p sp' := by
  refine ⟨hq, fun u => ?_, fun u => ?_, fun u hu => ?_, fun u v hu => ?_⟩
  · by_cases hu : u = t
    · rw [hu]; exact hht
    · rw [(hth u hu).hand, hh u hu]; exact h.hand u
  · by_cases hu : u = t
    · rw [hu]; exact hot
    · rw [(hth u hu).out, ho u hu]; exact h.out u
  · by_cases hut : u = t
    · rw [hut] at hu; exact hdt hu
    · rw [(hth u hut).deq] at hu
      cases hd with
      | inl hd => rw [hd]; exact h.deq u hu
      | inr hd => rw [hd u hut] at hu; cases hu
  · by_cases hut : u = t
    · rw [hut] at hu; exact hdw v hu
    · rw [(hth u hut).deq] at hu
      cases hd with
      | inl hd => rw [hd]; exact h.deqW u v hu
      | inr hd => rw [hd u hut] at hu; cases hu

/-! ### Steps that change nothing but where the thread is -/

/-- A step that only changes the state of the thread, and not what it says of condition variables
and ports. -/
theorem Inv.quiet (h : Inv f s) (y : Th) (hs : Shape f y) (hst : StOk y)
    (hown : ∀ m, own f y = some m → (s.mx m).head? = some t)
    (hm : ∀ m, mv m y = mv m (s.th t)) (hc : ∀ c, cw c y = cw c (s.th t))
    (hk : ∀ c, critOf c y = critOf c (s.th t)) (hh : ∀ p, handOf p y = handOf p (s.th t))
    (ho : ∀ p, outOf p y = outOf p (s.th t))
    (hd : ∀ p, deqOf p y = none ∨ deqOf p y = deqOf p (s.th t)) : Inv f (s.set t y) := by
  have hth : ∀ u, u ≠ t → (s.set t y).th u = s.th u := fun u hu => by rw [set_th, if_neg hu]
  have ht : (s.set t y).th t = y := by rw [set_th, if_pos rfl]
  refine h.upd (t := t) (fun u hu => .of_eq (hth u hu)) (fun m u _ h => h) ⟨by rw [ht]; exact hs, by rw [ht]; exact hst, by rw [ht]; exact hown⟩
    (fun m => M_same h hth m rfl (by rw [ht]; exact hm m) fun _ h => h)
    (fun c => C_same h hth c rfl (by rw [ht]; exact hc c) (by rw [ht]; exact hk c) fun _ h => h)
    (fun p => P_same h (fun u hu => .of_eq (hth u hu)) p rfl (by rw [ht]; exact hh p) (by rw [ht]; exact ho p) (by rw [ht]; exact hd p)
      fun _ h => h)

/-- A step that moves on inside a function of a condition variable.  `f` is kept. -/
theorem Inv.stepC (h : Inv f s) (y : Th) (c : Cv) (l : List Tid) (hs : Shape f y) (hst : StOk y)
    (hown : ∀ m, own f y = some m → (s.mx m).head? = some t)
    (hcm : (s.mx (cvm f c)).head? = some t)
    (hm : ∀ m, mv m y = mv m (s.th t)) (hc : ∀ c, cw c y = cw c (s.th t))
    (hk : ∀ k, k ≠ c → critOf k y = critOf k (s.th t)) (hh : ∀ p, handOf p y = handOf p (s.th t))
    (ho : ∀ p, outOf p y = outOf p (s.th t))
    (hd : ∀ p, deqOf p y = none ∨ deqOf p y = deqOf p (s.th t))
    (hr : ∀ sp, CRel t (s.cv c) sp (critOf c (s.th t)) → CInv s c sp → CRel t l sp (critOf c y)) :
    Inv f ((s.setCv c l).set t y) := by
  have hth : ∀ u, u ≠ t → ((s.setCv c l).set t y).th u = s.th u := fun u hu => by rw [set_th, if_neg hu]; rfl
  have ht : ((s.setCv c l).set t y).th t = y := by rw [set_th, if_pos rfl]
  refine h.upd (t := t) (fun u hu => .of_eq (hth u hu)) (fun m u _ h => h) ⟨by rw [ht]; exact hs, by rw [ht]; exact hst, by rw [ht]; exact hown⟩
    (fun m => M_same h hth m rfl (by rw [ht]; exact hm m) fun _ h => h)
    (fun k => ?_)
    (fun p => P_same h (fun u hu => .of_eq (hth u hu)) p rfl (by rw [ht]; exact hh p) (by rw [ht]; exact ho p) (by rw [ht]; exact hd p)
      fun _ h => h)
  by_cases hkc : k = c
  · subst hkc
    obtain ⟨sp, h1, h2⟩ := h.cv k
    refine ⟨sp, h1, h2.move (h.no_crit hcm) hth (by rw [ht]; exact hc k) rfl ?_⟩
    rw [ht]
    show CRel t (if k = k then l else s.cv k) sp _
    rw [if_pos rfl]
    exact hr sp (h2.rel (h.no_crit hcm)) h2
  · refine C_same h hth k ?_ (by rw [ht]; exact hc k) (by rw [ht]; exact hk k hkc) fun _ h => h
    show (if k = c then l else s.cv k) = _
    rw [if_neg hkc]

theorem setCv_self (c : Cv) : s.setCv c (s.cv c) = s := by
  unfold St.setCv
  congr 1
  funext k
  split
  · next e => rw [e]
  · rfl

end Rep.Sync
