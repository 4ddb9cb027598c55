import Verif.Sync.Frame

/-
Returning from a function keeps the invariant.
-/

namespace Rep.Sync

variable {f : Nat → Nat} {s s1 : St} {t : Tid}

/-- What a function can return to -/
inductive RetShape (s1 : St) (t : Tid) (b : Bool) : List Fr → Prop where
  | top : RetShape s1 t b []
  | wait (n : Nat) : RetShape s1 t b [.wait (.user n) true]
  | fetchW (p : Nat) (to : Option Nat) (h : (s1.mx (.port p)).head? = some t) :
      RetShape s1 t b [.wait (.port p) true, .fetchW p to]
  | fetch (p : Nat) (to : Option Nat) (h : (s1.mx (.port p)).head? = some t) : RetShape s1 t b [.fetch p to]
  | send (p : Nat) (v : Msg) (h : (s1.mx (.port p)).head? = some t) : RetShape s1 t b [.send p v]
  | query (p : Nat) (h : (s1.mx (.port p)).head? = some t) : RetShape s1 t b [.query p]
  | sendSig (p : Nat) (h : (s1.mx (.port p)).head? = some t) : RetShape s1 t b [.sendSig p]
  | fetchEnd (p : Nat) (v : Msg) : RetShape s1 t b [.fetchEnd p (some v)]
  | sendEnd (p : Nat) : RetShape s1 t b [.sendEnd p]
  | queryEnd (p : Nat) (r : Bool) : RetShape s1 t b [.queryEnd p r]

/-- Add some entries to the log. -/
def St.addL (s : St) (es : List Log) : St := { s with log := s.log ++ es }

theorem ret_core (h : Inv f s) (hth : ∀ u, u ≠ t → Like (s.th u) (s1.th u))
    (hhead : ∀ m u, u ≠ t → (s.mx m).head? = some u → (s1.mx m).head? = some u)
    (hm : ∀ m, ∃ sp, MS.run m s1.log = some sp ∧ MInv (s1.set t {}) m sp)
    (hc : ∀ c, ∃ sp, CS.run c s1.log = some sp ∧ CInv (s1.set t {}) c sp)
    (hpl : ∀ p sp, PS.run p s.log = some sp → PS.run p s1.log = some sp)
    (y : Th) (e : Option Log) (hs : Shape f y) (hst : StOk y)
    (hown : ∀ m, own f y = some m → (s1.mx m).head? = some t)
    (hmv : ∀ m, mv m y = none) (hcw : ∀ c, cw c y = none) (hk : ∀ c, critOf c y = none)
    (heM : ∀ x ∈ e, x.noM = true) (heC : ∀ x ∈ e, x.noC = true)
    (hP : ∀ p sp, PS.run p (s1.log) = some sp → PInv s p sp →
      ∃ sp', PS.run p (s1.log ++ e.toList) = some sp' ∧ PInv ((s1.addL e.toList).set t y) p sp') :
    Inv f ((s1.addL e.toList).set t y) := by
  have hth' : ∀ u, u ≠ t → ((s1.addL e.toList).set t y).th u = s1.th u := fun u hu => by
    rw [set_th, if_neg hu]; rfl
  have ht : ((s1.addL e.toList).set t y).th t = y := by rw [set_th, if_pos rfl]
  have hth0 : ∀ u, u ≠ t → (s1.set t {}).th u = s1.th u := fun u hu => by
    rw [set_th, if_neg hu]
  have ht0 : (s1.set t {}).th t = {} := by rw [set_th, if_pos rfl]
  refine h.upd (t := t) (fun u hu => by rw [hth' u hu]; exact hth u hu) hhead
    ⟨by rw [ht]; exact hs, by rw [ht]; exact hst, by rw [ht]; exact hown⟩ (fun m => ?_) (fun c => ?_) (fun p => ?_)
  · obtain ⟨sp, h1, h2⟩ := hm m
    refine ⟨sp, ?_, h2.congr rfl fun u => ?_⟩
    · cases e with
      | none => show MS.run m (s1.log ++ []) = _; rw [List.append_nil]; exact h1
      | some x => exact MS.run_snoc h1 (MS.step_no (heM x rfl))
    · by_cases hu : u = t
      · rw [hu, ht, ht0, hmv]; rfl
      · rw [hth' u hu, hth0 u hu]
  · obtain ⟨sp, h1, h2⟩ := hc c
    refine ⟨sp, ?_, h2.congr rfl (fun u => ?_) fun u => ?_⟩
    · cases e with
      | none => show CS.run c (s1.log ++ []) = _; rw [List.append_nil]; exact h1
      | some x => exact CS.run_snoc h1 (CS.step_no (heC x rfl))
    · by_cases hu : u = t
      · rw [hu, ht, ht0, hcw]; rfl
      · rw [hth' u hu, hth0 u hu]
    · by_cases hu : u = t
      · rw [hu, ht, ht0, hk]; simp [critOf, crit]
      · rw [hth' u hu, hth0 u hu]
  · obtain ⟨sp, h1, h2⟩ := h.pq p
    exact hP p sp (hpl p sp h1) h2

/-- Returning, when the messages in hand and to be sent stay the same -/
theorem ret_plain (h : Inv f s) (hth : ∀ u, u ≠ t → Like (s.th u) (s1.th u)) (hpq : s1.pq = s.pq)
    (hhead : ∀ m u, u ≠ t → (s.mx m).head? = some u → (s1.mx m).head? = some u)
    (hm : ∀ m, ∃ sp, MS.run m s1.log = some sp ∧ MInv (s1.set t {}) m sp)
    (hc : ∀ c, ∃ sp, CS.run c s1.log = some sp ∧ CInv (s1.set t {}) c sp)
    (hpl : ∀ p sp, PS.run p s.log = some sp → PS.run p s1.log = some sp)
    (y : Th) (e : Option Log) (hs : Shape f y) (hst : StOk y)
    (hown : ∀ m, own f y = some m → (s1.mx m).head? = some t)
    (hmv : ∀ m, mv m y = none) (hcw : ∀ c, cw c y = none) (hk : ∀ c, critOf c y = none)
    (heM : ∀ x ∈ e, x.noM = true) (heC : ∀ x ∈ e, x.noC = true) (heP : ∀ x ∈ e, x.noP = true)
    (hhand : ∀ p, handOf p y = handOf p (s.th t)) (hout : ∀ p, outOf p y = outOf p (s.th t))
    (hdeq : ∀ p, deqOf p y = none) :
    Inv f ((s1.addL e.toList).set t y) := by
  refine ret_core h hth hhead hm hc hpl y e hs hst hown hmv hcw hk heM heC fun p sp h1 h2 => ?_
  refine ⟨sp, ?_, ?_⟩
  · cases e with
    | none => show PS.run p (s1.log ++ []) = _; rw [List.append_nil]; exact h1
    | some x => exact PS.run_snoc h1 (PS.step_no (heP x rfl))
  · have ht : ((s1.addL e.toList).set t y).th t = y := by rw [set_th, if_pos rfl]
    refine h2.move (t := t) (fun u hu => by rw [set_th, if_neg hu]; exact hth u hu) ?_ (fun _ _ => rfl) (fun _ _ => rfl)
      ?_ ?_ (.inl ?_) ?_ ?_
    · show sp.q = s1.pq p; rw [hpq]; exact h2.q
    · rw [ht, hhand]; exact h2.hand t
    · rw [ht, hout]; exact h2.out t
    · show s1.pq p = _; rw [hpq]
    · rw [ht, hdeq]; exact fun h => by cases h
    · rw [ht, hdeq]; exact fun v h => by cases h

theorem addL_none : s.addL (Option.toList (none : Option Log)) = s := by
  show ({ s with log := s.log ++ [] } : St) = s
  rw [List.append_nil]

theorem outOf_K {x : Th} (h : ∀ p v, x.pc ≠ .enq p v) (p : Nat) : outOf p x = outK p x.stk := by
  obtain ⟨a, b, c⟩ := x
  cases a with
  | enq k v => exact absurd rfl (h k v)
  | _ => rfl

theorem Inv.ret (h : Inv f s) (hth : ∀ u, u ≠ t → Like (s.th u) (s1.th u)) (hpq : s1.pq = s.pq)
    (hhead : ∀ m u, u ≠ t → (s.mx m).head? = some u → (s1.mx m).head? = some u)
    (hm : ∀ m, ∃ sp, MS.run m s1.log = some sp ∧ MInv (s1.set t {}) m sp)
    (hc : ∀ c, ∃ sp, CS.run c s1.log = some sp ∧ CInv (s1.set t {}) c sp)
    (hpl : ∀ p sp, PS.run p s.log = some sp → PS.run p s1.log = some sp) (b : Bool) {k : List Fr}
    (hk : (s.th t).stk = k) (hr : RetShape s1 t b k) (hpc : ∀ p v, (s.th t).pc ≠ .enq p v) :
    Inv f (s1.ret t b k) := by
  have hout : ∀ p, outOf p (s.th t) = outK p k := fun p => by rw [outOf_K hpc, hk]
  have hhand : ∀ p, handOf p (s.th t) = handK p k := fun p => by rw [← hk]; rfl
  cases hr with
  | top =>
    have := ret_plain h hth hpq hhead hm hc hpl {} none rfl rfl (by simp [own]) (by simp [mv]) (by simp [cw])
      (by simp [critOf, crit]) (by simp) (by simp) (by simp) (by intro p; rw [hhand]; rfl)
      (by intro p; rw [hout]; rfl) (by simp [deqOf])
    rw [addL_none] at this
    exact this
  | wait n =>
    exact ret_plain h hth hpq hhead hm hc hpl {} (some (.waitRet t (.user n) true)) rfl rfl (by simp [own])
      (by simp [mv]) (by simp [cw])
      (by simp [critOf, crit]) (by simp [Log.noM]) (by simp [Log.noC]) (by simp [Log.noP])
      (by intro p; rw [hhand]; rfl) (by intro p; rw [hout]; rfl) (by simp [deqOf])
  | fetchW p to ho =>
    exact ret_plain h hth hpq hhead hm hc hpl { pc := .emp p to true } (some (.waitRet t (.port p) true))
      (by simp [Shape]) rfl
      (by intro m hm; simp [own] at hm; rw [← hm]; exact ho)
      (by simp [mv]) (by simp [cw])
      (by simp [critOf, crit]) (by simp [Log.noM]) (by simp [Log.noC]) (by simp [Log.noP])
      (by intro p; rw [hhand]; rfl) (by intro p; rw [hout]; rfl) (by simp [deqOf])
  | fetch p to ho =>
    have := ret_plain h hth hpq hhead hm hc hpl { pc := .emp p to true } none
      (by simp [Shape]) rfl
      (by intro m hm; simp [own] at hm; rw [← hm]; exact ho)
      (by simp [mv]) (by simp [cw])
      (by simp [critOf, crit]) (by simp) (by simp) (by simp)
      (by intro p; rw [hhand]; rfl) (by intro p; rw [hout]; rfl) (by simp [deqOf])
    rw [addL_none] at this
    exact this
  | send p v ho =>
    have := ret_plain h hth hpq hhead hm hc hpl { pc := .enq p v } none
      rfl rfl
      (by intro m hm; simp [own] at hm; rw [← hm]; exact ho)
      (by simp [mv]) (by simp [cw])
      (by simp [critOf, crit]) (by simp) (by simp) (by simp)
      (by intro p; rw [hhand]; rfl) (by intro p; rw [hout]; rfl) (by simp [deqOf])
    rw [addL_none] at this
    exact this
  | query p ho =>
    have := ret_plain h hth hpq hhead hm hc hpl { pc := .chk p } none
      rfl rfl
      (by intro m hm; simp [own] at hm; rw [← hm]; exact ho)
      (by simp [mv]) (by simp [cw])
      (by simp [critOf, crit]) (by simp) (by simp) (by simp)
      (by intro p; rw [hhand]; rfl) (by intro p; rw [hout]; rfl) (by simp [deqOf])
    rw [addL_none] at this
    exact this
  | sendSig p ho =>
    have := ret_plain h hth hpq hhead hm hc hpl { pc := .relChk (.port p), stk := [.sendEnd p] } none
      (by simp [Shape, RelShape]) rfl
      (by intro m hm; simp [own] at hm; rw [← hm]; exact ho)
      (by simp [mv]) (by simp [cw])
      (by simp [critOf, crit]) (by simp) (by simp) (by simp)
      (by intro p; rw [hhand]; rfl) (by intro p; rw [hout]; rfl) (by simp [deqOf])
    rw [addL_none] at this
    exact this
  | queryEnd p r =>
    exact ret_plain h hth hpq hhead hm hc hpl {} (some (.query t p r)) rfl rfl (by simp [own])
      (by simp [mv]) (by simp [cw])
      (by simp [critOf, crit]) (by simp [Log.noM]) (by simp [Log.noC]) (by simp [Log.noP])
      (by intro p; rw [hhand]; rfl) (by intro p; rw [hout]; rfl) (by simp [deqOf])
  | sendEnd p =>
    refine ret_core h hth hhead hm hc hpl {} (some (.sendRet t p)) rfl rfl (by simp [own])
      (by simp [mv]) (by simp [cw])
      (by simp [critOf, crit]) (by simp [Log.noM]) (by simp [Log.noC]) fun q sp h1 h2 => ⟨sp, ?_, ?_⟩
    · refine PS.run_snoc h1 ?_
      have : sp.out t = none := by rw [h2.out, hout]; rfl
      simp [PS.step, this]
    · have ht : ((s1.addL [Log.sendRet t p]).set t {}).th t = {} := by rw [set_th, if_pos rfl]
      refine h2.move (t := t) (fun u hu => by rw [set_th, if_neg hu]; exact hth u hu) ?_ (fun _ _ => rfl) (fun _ _ => rfl)
        ?_ ?_ (.inl ?_) ?_ ?_
      · show sp.q = s1.pq q; rw [hpq]; exact h2.q
      · show _ = handOf q (((s1.addL [Log.sendRet t p]).set t {}).th t); rw [ht, h2.hand, hhand]; rfl
      · show _ = outOf q (((s1.addL [Log.sendRet t p]).set t {}).th t); rw [ht, h2.out, hout]; rfl
      · show s1.pq q = _; rw [hpq]
      · show deqOf q (((s1.addL [Log.sendRet t p]).set t {}).th t) = _ → _; rw [ht]; exact fun h => by cases h
      · show ∀ v, deqOf q (((s1.addL [Log.sendRet t p]).set t {}).th t) = _ → _; rw [ht]; exact fun v h => by cases h
  | fetchEnd p v =>
    have ht : ((s1.addL [Log.fetchRet t p (some v)]).set t {}).th t = {} := by rw [set_th, if_pos rfl]
    refine ret_core h hth hhead hm hc hpl {} (some (.fetchRet t p (some v))) rfl rfl (by simp [own])
      (by simp [mv]) (by simp [cw])
      (by simp [critOf, crit]) (by simp [Log.noM]) (by simp [Log.noC]) fun q sp h1 h2 => ?_
    show ∃ sp', PS.run q (s1.log ++ [Log.fetchRet t p (some v)]) = some sp' ∧
      PInv ((s1.addL [Log.fetchRet t p (some v)]).set t {}) q sp'
    by_cases hq : p = q
    · subst hq
      refine ⟨{ sp with hand := fun u => if u = t then none else sp.hand u }, PS.run_snoc h1 ?_, ?_⟩
      · have : sp.hand t = some v := by rw [h2.hand, hhand]; simp [handK]
        simp [PS.step, this]
      · refine h2.move (t := t) (fun u hu => by rw [set_th, if_neg hu]; exact hth u hu) ?_
          (fun u hu => by simp [hu]) (fun _ _ => rfl)
          ?_ ?_ (.inl ?_) ?_ ?_
        · show sp.q = s1.pq p; rw [hpq]; exact h2.q
        · rw [ht]; simp [handOf, handK]
        · rw [ht]; show sp.out t = _; rw [h2.out, hout]; rfl
        · show s1.pq p = _; rw [hpq]
        · rw [ht]; exact fun h => by cases h
        · rw [ht]; exact fun v h => by cases h
    · refine ⟨sp, PS.run_snoc h1 (by simp [PS.step, hq]), ?_⟩
      refine h2.move (t := t) (fun u hu => by rw [set_th, if_neg hu]; exact hth u hu) ?_
          (fun u hu => rfl) (fun _ _ => rfl)
          ?_ ?_ (.inl ?_) ?_ ?_
      · show sp.q = s1.pq q; rw [hpq]; exact h2.q
      · rw [ht, h2.hand, hhand]; simp [handOf, handK, hq]
      · rw [ht]; show sp.out t = _; rw [h2.out, hout]; rfl
      · show s1.pq q = _; rw [hpq]
      · rw [ht]; exact fun h => by cases h
      · rw [ht]; exact fun v h => by cases h

end Rep.Sync
