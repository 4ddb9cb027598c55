/-
C29: the times and the order of the calls, for histories in which the event loop keeps up.
-/
import Verif.Timers.Props

namespace Rep.Timers

/-! ### What timers should do -/

/-- Timers: the delay of each, in milliseconds; the pending ones with the times at which they
are due; those that are due and were not called yet; the calls, with their times; the time. -/
structure Spec where
  delay : Nat → Option Int := fun _ => none
  pending : List (Nat × Int) := []
  ready : List Nat := []
  log : List (Nat × Nat) := []
  now : Nat := 0

/-- A timer with a positive delay becomes pending, after those due at the same time. -/
def Spec.start (sp : Spec) (id : Nat) (d : Int) : Spec :=
  { sp with
    delay := fun j => if j = id then some d else sp.delay j
    pending := if 0 < d then insertDue (id, sp.now + d) sp.pending else sp.pending }

def Spec.cancel (sp : Spec) (id : Nat) : Spec :=
  { sp with
    pending := sp.pending.filter fun p => p.1 ≠ id
    ready := sp.ready.filter fun j => j ≠ id }

def Spec.step (sp : Spec) : Ev → Spec
  | .make id s m => if (sp.delay id).isSome then sp else sp.start id (s * 1000 + m)
  | .set id time => (sp.delay id).elim sp fun d => (sp.cancel id).start id (time.elim d fun p => p.1 * 1000 + p.2)
  | .delete id => sp.cancel id
  | .tick =>
      { sp with
        now := sp.now + 1
        ready := sp.ready ++ (sp.pending.filter fun p => p.2 ≤ (sp.now : Int) + 1).map Prod.fst
        pending := sp.pending.filter fun p => ¬ p.2 ≤ (sp.now : Int) + 1 }
  | .call => { sp with log := sp.log ++ (sp.ready.take 1).map fun id => (sp.now, id), ready := sp.ready.drop 1 }
  | .dispatch | .ret => sp

def Spec.run (sp : Spec) (es : List Ev) : Spec := es.foldl Spec.step sp

/-! ### When the event loop keeps up -/

/-- The interval timer was just set for the first entry. -/
def Fresh (st : St) : Prop :=
  ∀ x, st.chain.head? = some x → x.fired = false → st.alarm = some (st.now + x.ms.toNat)

/-- Time passes only while nothing waits to be called.  A timer is set or deleted only when
no part of the time of the first pending one has passed, or when there is none.  A timer is
not set while it waits to be called.  The handler calls only if there is something to call. -/
def Quiet (st : St) : Ev → Prop
  | .make _ _ _ => Fresh st
  | .set id _ => Fresh st ∧ id ∉ st.batches.flatten
  | .delete _ => Fresh st
  | .tick => st.pipe = 0 ∧ st.batches = []
  | .call => ∃ b bs, st.batches = b :: bs ∧ ∃ id ∈ b, st.dead id = false
  | .dispatch => True
  | .ret => True

/-- Every event of the history is such an event. -/
def QuietRun : St → List Ev → Prop
  | _, [] => True
  | st, e :: es => Forward e ∧ Quiet st e ∧ ∀ st', step st e = some st' → QuietRun st' es

/-! ### The model does what timers should do -/

theorem abs_delete (id : Nat) : ∀ (l : List Entry) (b : Int), (l.map (·.id)).Nodup → abs b (deleteChain id l) = (abs b l).filter fun p => p.1 ≠ id := by
  intro l
  induction l with
  | nil => intro b _; rfl
  | cons x xs ih =>
    intro b hn
    rw [List.map_cons, List.nodup_cons] at hn
    rw [deleteChain, abs]
    by_cases hx : x.id = id
    · rw [if_pos hx, List.filter_cons_of_neg (by simpa using hx)]
      have hall : ∀ p ∈ abs (b + x.ms) xs, p.1 ≠ id := by
        intro p hp hc
        have : p.1 ∈ (abs (b + x.ms) xs).map Prod.fst := List.mem_map_of_mem hp
        rw [abs_ids, hc, ← hx] at this
        exact hn.1 this
      rw [List.filter_eq_self.2 (by intro p hp; simpa using hall p hp)]
      cases xs with
      | nil => rfl
      | cons y ys =>
        rw [addNext, abs, abs, retime_ms, retime_id]
        have : b + ((y.secs + x.secs) * 1000 + (y.msecs + x.msecs)) = b + x.ms + y.ms := by unfold Entry.ms; omega
        rw [this]
    · rw [if_neg hx, List.filter_cons_of_pos (by simpa using hx), abs, ih _ hn.2]

theorem abs_ge {l : List Entry} (hl : ∀ x ∈ l, 0 ≤ x.ms) (c : Int) : ∀ p ∈ abs c l, c ≤ p.2 := by
  induction l generalizing c with
  | nil => intro p hp; cases hp
  | cons x xs ih =>
    intro p hp
    rw [abs, List.mem_cons] at hp
    have hx := hl x (by simp)
    rcases hp with rfl | hp
    · dsimp only; omega
    · have := ih (fun y hy => hl y (by simp [hy])) _ p hp
      omega

theorem abs_gt {l : List Entry} (hl : ∀ x ∈ l, 0 ≤ x.ms) (hh : ∀ x, l.head? = some x → 0 < x.ms) (c : Int) : ∀ p ∈ abs c l, c < p.2 := by
  cases l with
  | nil => intro p hp; cases hp
  | cons x xs =>
    intro p hp
    have hx := hh x rfl
    rw [abs, List.mem_cons] at hp
    rcases hp with rfl | hp
    · dsimp only; omega
    · have := abs_ge (fun y hy => hl y (by simp [hy])) _ p hp
      omega

/-- The entries due at once, and the others. -/
theorem abs_split {l : List Entry} (hl : ∀ x ∈ l, 0 ≤ x.ms) (c : Int) :
    ((abs c l).filter fun p => p.2 ≤ c).map Prod.fst = (Z l).map (·.id) ∧ ((abs c l).filter fun p => ¬ p.2 ≤ c) = abs c (Y l) := by
  induction l with
  | nil => exact ⟨rfl, rfl⟩
  | cons x xs ih =>
    have hx := hl x (by simp)
    by_cases h0 : x.ms = 0
    · obtain ⟨i1, i2⟩ := ih (fun y hy => hl y (by simp [hy]))
      have hz : Z (x :: xs) = x :: Z xs := List.takeWhile_cons_of_pos (by simpa using h0)
      have hy : Y (x :: xs) = Y xs := List.dropWhile_cons_of_pos (by simpa using h0)
      rw [abs, h0, Int.add_zero, List.filter_cons_of_pos (by simp), List.filter_cons_of_neg (by simp), hz, hy, List.map_cons, List.map_cons, i1, i2]
      exact ⟨rfl, rfl⟩
    · have hz : Z (x :: xs) = [] := List.takeWhile_cons_of_neg (by simpa using h0)
      have hy : Y (x :: xs) = x :: xs := List.dropWhile_cons_of_neg (by simpa using h0)
      have hgt := abs_gt hl (by intro y hy; cases hy; omega) c
      rw [hz, hy, List.filter_eq_nil_iff.2 (by intro p hp; have := hgt p hp; simp; omega),
        List.filter_eq_self.2 (by intro p hp; have := hgt p hp; simp; omega)]
      exact ⟨rfl, rfl⟩

/-- The model and what it should do agree. -/
structure Rel (st : St) (sp : Spec) (F U : List Entry) (b : Nat) : Prop where
  wf : Wf st F U b
  base : F ≠ [] ∨ U = [] ∨ 0 < st.pipe → b = st.now
  pending : sp.pending = abs b U
  ready : sp.ready = (st.batches.flatten ++ F.map (·.id)).filter fun j => ¬ st.dead j = true
  one : st.batches.flatten = [] ∨ F = []
  log : sp.log = st.log
  now : sp.now = st.now
  delay : ∀ id, sp.delay id = (st.timers id).map fun t => t.secs * 1000 + t.msecs
  known : ∀ id ∈ st.batches.flatten, (st.timers id).isSome

theorem Wf.toNow {st : St} {F U : List Entry} {b : Nat} (h : Wf st F U b) (hb : F ≠ [] ∨ U = []) : Wf st F U st.now := by
  refine ⟨h.sane, h.chain, h.fired, h.unfired, h.first, h.pipe, h.still, Nat.le_refl _, ?_, h.objs⟩
  intro hF x hx
  rcases hb with hb | hb
  · exact absurd hF hb
  · rw [hb] at hx; cases hx

/-- If the interval timer was just set, then `b` is the present time. -/
theorem Rel.fresh {st : St} {sp : Spec} {F U : List Entry} {b : Nat} (h : Rel st sp F U b) (hf : Fresh st) : b = st.now := by
  by_cases hF : F = []
  · cases hU : U with
    | nil => exact h.base (Or.inr (Or.inl hU))
    | cons x xs =>
      have h1 := h.wf.armed hF x (by rw [hU]; rfl)
      have h2 := hf x (by rw [h.wf.chain, hF, hU]; rfl) (h.wf.unfired x (by rw [hU]; simp)).1
      rw [h1.2.1] at h2
      have := Option.some.inj h2
      omega
  · exact h.base (Or.inl hF)

theorem dead_put (st : St) (id j : Nat) (t : Timer) : (st.put id t).dead j = if j = id then t.deleted else st.dead j := by
  unfold St.dead St.put
  dsimp only
  split <;> rfl

theorem dead_congr {st st' : St} (h : st'.timers = st.timers) : st'.dead = st.dead := by
  funext j; unfold St.dead; rw [h]

theorem chain_known {st : St} {F U : List Entry} {b : Nat} (h : Wf st F U b) {id : Nat} (hid : id ∈ F.map (·.id)) : ∃ t, st.timers id = some t ∧ t.deleted = false := by
  obtain ⟨x, hx, rfl⟩ := List.mem_map.1 hid
  exact h.sane.alive x (by rw [h.chain]; simp [hx])

/-- Starting a timer that is neither in the chain nor with the handler. -/
theorem rel_insert {st : St} {sp : Spec} {F U : List Entry} (h : Rel st sp F U st.now) (id : Nat) (t : Timer) (hid : id ∉ st.chain.map (·.id))
    (hb : id ∉ st.batches.flatten) (ht : 0 ≤ t.secs ∧ 0 ≤ t.msecs ∧ t.msecs < 1000) :
    ∃ U', Rel (insertTimer st id t) (sp.start id (t.secs * 1000 + t.msecs)) F U' (insertTimer st id t).now := by
  obtain ⟨f1, f2, f3, f4⟩ := insertTimer_frame st id t
  have hw := wf_insert h.wf id t hid ht
  have hdead : ∀ j, j ≠ id → (insertTimer st id t).dead j = st.dead j := by
    intro j hj
    unfold St.dead
    rw [insertTimer_timers, if_neg hj]
  have hFid : id ∉ F.map (·.id) := fun hc => hid (by rw [h.wf.chain, List.map_append, List.mem_append]; exact Or.inl hc)
  have hready : sp.ready = ((insertTimer st id t).batches.flatten ++ F.map (·.id)).filter fun j => ¬ (insertTimer st id t).dead j = true := by
    rw [h.ready, f2]
    apply List.filter_congr
    intro j hj
    rw [hdead j]
    rintro rfl
    rw [List.mem_append] at hj
    exact hj.elim hb hFid
  have hdelay : ∀ j, (sp.start id (t.secs * 1000 + t.msecs)).delay j = ((insertTimer st id t).timers j).map fun t => t.secs * 1000 + t.msecs := by
    intro j
    unfold Spec.start
    dsimp only
    rw [insertTimer_timers]
    split
    · split <;> rfl
    · exact h.delay j
  have hknown : ∀ j ∈ (insertTimer st id t).batches.flatten, ((insertTimer st id t).timers j).isSome := by
    intro j hj
    rw [insertTimer_timers]
    split
    · rfl
    · rw [f2] at hj; exact h.known j hj
  split at hw
  · rename_i hpos
    have hw' : Wf (insertTimer st id t) F (insertChain ⟨id, t.secs, t.msecs, false⟩ U) st.now := by rcases hw with hw | hw <;> exact hw
    rw [f4]
    refine ⟨_, hw', ?_, ?_, hready, by rw [f2]; exact h.one, by rw [f3]; exact h.log, by rw [f4]; exact h.now, hdelay, hknown⟩
    · rw [f4]; exact fun _ => rfl
    · unfold Spec.start
      dsimp only
      rw [if_pos hpos, h.pending, abs_insert U ⟨id, t.secs, t.msecs, false⟩ st.now (fun x hx => (h.wf.unfired x hx).2.1) ⟨ht.2.1, ht.2.2⟩, h.now]
      rfl
  · rename_i hpos
    rw [f4]
    refine ⟨_, hw, ?_, ?_, hready, by rw [f2]; exact h.one, by rw [f3]; exact h.log, by rw [f4]; exact h.now, hdelay, hknown⟩
    · rw [f4]; exact fun _ => rfl
    · unfold Spec.start
      dsimp only
      rw [if_neg hpos, h.pending]

theorem eraseP_ids {l : List Entry} (hn : (l.map (·.id)).Nodup) (id : Nat) :
    (l.eraseP fun x => x.id = id).map (·.id) = (l.map (·.id)).filter fun j => j ≠ id := by
  induction l with
  | nil => rfl
  | cons x xs ih =>
    rw [List.map_cons, List.nodup_cons] at hn
    by_cases hx : x.id = id
    · rw [List.eraseP_cons_of_pos (by simpa using hx), List.map_cons, List.filter_cons_of_neg (by simpa using hx)]
      refine (List.filter_eq_self.2 ?_).symm
      intro j hj
      have : j ≠ id := by rintro rfl; rw [hx] at hn; exact hn.1 hj
      simpa using this
    · rw [List.eraseP_cons_of_neg (by simpa using hx), List.map_cons, List.map_cons, List.filter_cons_of_pos (by simpa using hx), ih hn.2]

theorem rel_delete {st : St} {sp : Spec} {F U : List Entry} (h : Rel st sp F U st.now) (id : Nat) (t : Timer) (ht : st.timers id = some t) :
    Rel (deleteTimer st id t) (sp.cancel id) (F.eraseP fun x => x.id = id) (deleteChain id U) (deleteTimer st id t).now := by
  obtain ⟨f1, f2, f3, f4⟩ := deleteTimer_frame st id t
  have hn : ((F ++ U).map (·.id)).Nodup := by rw [← h.wf.chain]; exact h.wf.sane.nodup
  rw [List.map_append, List.nodup_append] at hn
  have hw : Wf (deleteTimer st id t) (F.eraseP fun x => x.id = id) (deleteChain id U) st.now := by
    rcases wf_delete h.wf id t ht with hw | hw <;> exact hw
  have hdead : ∀ j, (deleteTimer st id t).dead j = if j = id then true else st.dead j := by
    intro j
    unfold St.dead
    rw [deleteTimer_timers]
    split <;> rfl
  rw [f4]
  refine ⟨hw, ?_, ?_, ?_, ?_, by rw [f3]; exact h.log, by rw [f4]; exact h.now, ?_, ?_⟩
  · rw [f4]; exact fun _ => rfl
  · unfold Spec.cancel
    dsimp only
    rw [h.pending, abs_delete id U _ hn.2.1]
  · unfold Spec.cancel
    dsimp only
    rw [h.ready, f2, eraseP_ids hn.1, List.filter_filter, List.filter_append, List.filter_append, List.filter_filter]
    congr 1
    · apply List.filter_congr
      intro j _
      rw [hdead]
      by_cases hj : j = id <;> simp [hj]
    · apply List.filter_congr
      intro j _
      rw [hdead]
      by_cases hj : j = id <;> simp [hj]
  · rw [f2]
    rcases h.one with h1 | h1
    · exact Or.inl h1
    · exact Or.inr (by rw [h1]; rfl)
  · intro j
    rw [deleteTimer_timers]
    show sp.delay j = _
    split
    · rename_i hj; rw [h.delay, hj, ht]; rfl
    · exact h.delay j
  · intro j hj
    rw [f2] at hj
    rw [deleteTimer_timers]
    split
    · rfl
    · exact h.known j hj

theorem rel_step {st st' : St} {sp : Spec} {F U : List Entry} {b : Nat} (h : Rel st sp F U b) {e : Ev} (he : Forward e) (hq : Quiet st e) (hs : step st e = some st') :
    ∃ F' U' b', Rel st' (sp.step e) F' U' b' := by
  cases e with
  | make id s m =>
    have hb := h.fresh hq
    subst hb
    have hd := h.delay id
    simp only [step, Option.some.injEq] at hs
    subst hs
    show ∃ F' U' b', Rel _ (if (sp.delay id).isSome then sp else sp.start id (s * 1000 + m)) F' U' b'
    cases ht : st.timers id with
    | some t =>
      rw [ht] at hd
      rw [hd]
      exact ⟨_, _, _, h⟩
    | none =>
      rw [ht] at hd
      rw [hd]
      have hid : id ∉ st.chain.map (·.id) := by
        intro hm
        obtain ⟨x, hx, rfl⟩ := List.mem_map.1 hm
        obtain ⟨t, ht', _⟩ := h.wf.sane.alive x hx
        rw [ht'] at ht; cases ht
      have hbt : id ∉ st.batches.flatten := by
        intro hm
        have := h.known id hm
        rw [ht] at this; cases this
      obtain ⟨U', hr⟩ := rel_insert h id ⟨(fixTime s m).1, (fixTime s m).2, false⟩ hid hbt (fixTime_nonneg he)
      have e1 := (fixTime_spec s m).1
      dsimp only at hr
      rw [e1] at hr
      exact ⟨_, _, _, hr⟩
  | set id time =>
    obtain ⟨hf, hbt⟩ := hq
    have hb := h.fresh hf
    subst hb
    have hd := h.delay id
    simp only [step, Option.some.injEq] at hs
    subst hs
    show ∃ F' U' b', Rel _ ((sp.delay id).elim sp fun d => (sp.cancel id).start id (time.elim d fun p => p.1 * 1000 + p.2)) F' U' b'
    cases ht : st.timers id with
    | none => rw [ht] at hd; rw [hd]; exact ⟨_, _, _, h⟩
    | some t =>
      rw [ht] at hd
      rw [hd]
      have hob := h.wf.objs id t ht
      have h1 := rel_delete h id t ht
      obtain ⟨f1, f2, f3, f4⟩ := deleteTimer_frame st id t
      obtain ⟨U', hr⟩ := rel_insert h1 id ⟨(time.elim t.secs fun p => (fixTime p.1 p.2).1), (time.elim t.msecs fun p => (fixTime p.1 p.2).2), true⟩
        (sane_delete h.wf.sane id t).2 (by rw [f2]; exact hbt)
        (by cases time with
          | none => exact hob
          | some p => exact fixTime_nonneg he)
      have e1 : (time.elim t.secs fun p => (fixTime p.1 p.2).1) * 1000 + (time.elim t.msecs fun p => (fixTime p.1 p.2).2) =
          time.elim (t.secs * 1000 + t.msecs) fun p => p.1 * 1000 + p.2 := by
        cases time with
        | none => rfl
        | some p => exact (fixTime_spec p.1 p.2).1
      dsimp only at hr
      rw [e1] at hr
      exact ⟨_, _, _, hr⟩
  | delete id =>
    have hb := h.fresh hq
    subst hb
    simp only [step, Option.some.injEq] at hs
    subst hs
    cases ht : st.timers id with
    | some t => exact ⟨_, _, _, rel_delete h id t ht⟩
    | none =>
      have : sp.cancel id = sp := by
        unfold Spec.cancel
        have hno : ∀ x ∈ F ++ U, x.id ≠ id := by
          rintro x hx rfl
          obtain ⟨t, ht', _⟩ := h.wf.sane.alive x (by rw [h.wf.chain]; exact hx)
          rw [ht'] at ht; cases ht
        have e1 : (sp.pending.filter fun p => p.1 ≠ id) = sp.pending := by
          apply List.filter_eq_self.2
          intro p hp
          have : p.1 ∈ sp.pending.map Prod.fst := List.mem_map_of_mem hp
          rw [h.pending, abs_ids] at this
          obtain ⟨x, hx, hxp⟩ := List.mem_map.1 this
          have := hno x (by simp [hx])
          simp [← hxp, this]
        have e2 : (sp.ready.filter fun j => j ≠ id) = sp.ready := by
          apply List.filter_eq_self.2
          intro j hj
          rw [h.ready] at hj
          have hj := (List.mem_filter.1 hj).1
          rw [List.mem_append] at hj
          have : j ≠ id := by
            rintro rfl
            rcases hj with hj | hj
            · have := h.known j hj
              rw [ht] at this; cases this
            · obtain ⟨x, hx, hxp⟩ := List.mem_map.1 hj
              exact hno x (by simp [hx]) hxp
          simpa using this
        rw [e1, e2]
      show ∃ F' U' b', Rel _ (sp.cancel id) F' U' b'
      rw [this]
      exact ⟨_, _, _, h⟩
  | tick =>
    obtain ⟨hp, hbt⟩ := hq
    have hF : F = [] := by
      by_contra hF
      have := h.wf.pipe hF
      omega
    obtain ⟨k1, k2, k3, k4, hc⟩ := wf_tick h.wf hs
    have hdead := dead_congr k2
    have hready0 : sp.ready = [] := by rw [h.ready, hbt, hF]; rfl
    rcases hc with hc | ⟨-, rfl, hc⟩ | ⟨-, x, xs, rfl, hlt, hch, hc⟩ | ⟨-, x, xs, rfl, hd, hpi, F', hF', hc⟩
    · exact absurd hF hc.1
    · refine ⟨_, _, _, hc, by rw [k1]; exact fun _ => rfl, ?_, ?_, by rw [k3]; exact Or.inr rfl, ?_, ?_, by rw [k2]; exact h.delay, by rw [k2, k3]; exact h.known⟩
      · show sp.pending.filter _ = _; rw [h.pending]; rfl
      · show sp.ready ++ _ = _
        rw [h.pending, hready0, k3, hbt]; rfl
      · rw [k4]; exact h.log
      · rw [k1]; show sp.now + 1 = _; rw [h.now]
    · have hgt : ∀ p ∈ abs b (x :: xs), ¬ p.2 ≤ (sp.now : Int) + 1 := by
        intro p hp
        rw [abs, List.mem_cons] at hp
        have hn := h.now
        have hx0 := h.wf.first x rfl
        rcases hp with rfl | hp
        · dsimp only; omega
        · have := abs_ge (fun y hy => (h.wf.unfired y (by simp [hy])).2.2) _ p hp
          omega
      refine ⟨_, _, _, hc, ?_, ?_, ?_, by rw [k3]; exact Or.inr rfl, ?_, ?_, by rw [k2]; exact h.delay, by rw [k2, k3]; exact h.known⟩
      · have hpe : st'.pipe = 0 := by
          have ht : tick st = some st' := hs
          unfold tick at ht
          rw [if_neg (by rw [(h.wf.armed hF x rfl).2.1]; simp; omega)] at ht
          cases ht
          exact hp
        rintro (hc | hc | hc)
        · exact absurd rfl hc
        · cases hc
        · omega
      · show sp.pending.filter _ = _
        rw [h.pending]
        exact List.filter_eq_self.2 (by intro p hp; simpa using hgt p hp)
      · show sp.ready ++ _ = _
        rw [h.pending, hready0, k3, hbt, List.filter_eq_nil_iff.2 (by intro p hp; simpa using hgt p hp)]; rfl
      · rw [k4]; exact h.log
      · rw [k1]; show sp.now + 1 = _; rw [h.now]
    · have hx0 := h.wf.first x rfl
      have hnow : (b : Int) + x.ms = (sp.now : Int) + 1 := by have := h.now; omega
      obtain ⟨s1, s2⟩ := abs_split (fun y hy => (h.wf.unfired y (by simp [hy])).2.2 : ∀ y ∈ xs, 0 ≤ y.ms) ((sp.now : Int) + 1)
      refine ⟨_, _, _, hc, by rw [k1]; exact fun _ => rfl, ?_, ?_, by rw [k3, hbt]; exact Or.inl rfl, ?_, ?_, by rw [k2]; exact h.delay, by rw [k2, k3]; exact h.known⟩
      · show sp.pending.filter _ = _
        rw [h.pending, abs, hnow, List.filter_cons_of_neg (by simp), s2, h.now]
        rfl
      · show sp.ready ++ _ = _
        rw [h.pending, hready0, k3, hbt, abs, hnow, List.filter_cons_of_pos (by simp), List.map_cons, s1, ← hF']
        refine (List.filter_eq_self.2 ?_).symm
        intro j hj
        obtain ⟨t, ht, hdel⟩ := chain_known hc (by simpa using hj)
        simp [St.dead, ht, hdel]
      · rw [k4]; exact h.log
      · rw [k1]; show sp.now + 1 = _; rw [h.now]
  | dispatch =>
    simp only [step, Option.some.injEq] at hs
    subst hs
    show ∃ F' U' b', Rel _ sp F' U' b'
    by_cases hp : 0 < st.pipe
    · obtain ⟨d1, d2, d3, d4, d5, d6⟩ := wf_dispatch h.wf hp
      have hb := h.base (Or.inr (Or.inr hp))
      rw [hb] at h
      refine ⟨_, _, _, d6, by rw [d1]; exact fun _ => rfl, h.pending, ?_, Or.inr rfl, by rw [d4]; exact h.log, by rw [d1]; exact h.now, by rw [d2]; exact h.delay, ?_⟩
      · rw [h.ready, d3, dead_congr d2]
        rcases h.one with h1 | h1
        · rw [List.flatten_cons, h1]; simp
        · rw [List.flatten_cons, h1]; simp
      · intro j hj
        rw [d2]
        rw [d3, List.flatten_cons, List.mem_append] at hj
        rcases hj with hj | hj
        · obtain ⟨t, ht, _⟩ := chain_known h.wf hj
          rw [ht]; rfl
        · exact h.known j hj
    · have : dispatch st = st := by unfold dispatch; rw [if_pos (by omega)]
      rw [this]; exact ⟨_, _, _, h⟩
  | call =>
    simp only [step, Option.some.injEq] at hs
    subst hs
    obtain ⟨bt, bs, hbt, id, hid, hdid⟩ := hq
    have hw := h.wf.call
    obtain ⟨c1, c2, c3, c4, c5, c6⟩ := call_frame st
    cases hdw : bt.dropWhile st.dead with
    | nil =>
      have := mem_dropWhile hid hdid
      rw [hdw] at this; cases this
    | cons j b' =>
      have e1 : call st = { st with batches := b' :: bs, log := st.log ++ [(st.now, j)] } := by unfold call; rw [hbt]; dsimp only; rw [hdw]
      have hj : st.dead j = false := by
        have := List.head?_dropWhile_not st.dead bt
        rw [hdw] at this
        simpa using this
      have hsplit : bt.takeWhile st.dead ++ j :: b' = bt := by rw [← hdw, List.takeWhile_append_dropWhile]
      have hF : F = [] := by
        rcases h.one with h1 | h1
        · rw [hbt, List.flatten_cons, List.append_eq_nil_iff] at h1
          rw [h1.1] at hid; cases hid
        · exact h1
      have hr : sp.ready = j :: (b' ++ bs.flatten).filter fun j => ¬ st.dead j = true := by
        rw [h.ready, hbt, hF, ← hsplit]
        simp only [List.flatten_cons, List.append_assoc, List.filter_append, List.cons_append, List.map_nil, List.append_nil]
        rw [List.filter_eq_nil_iff.2 (by intro y hy; have := mem_takeWhile_prop hy; simp [this]), List.nil_append, List.filter_cons_of_pos (by simp [hj]), List.filter_append]
      refine ⟨_, _, _, hw, by rw [c6, c3]; exact h.base, h.pending, ?_, Or.inr hF, ?_, by rw [c6]; exact h.now, by rw [c2]; exact h.delay, ?_⟩
      · show sp.ready.drop 1 = _
        rw [hr, dead_congr c2, e1, hF]
        simp
      · show sp.log ++ _ = _
        rw [hr, e1, h.log, h.now]
        rfl
      · rw [c2]
        intro k hk
        apply h.known
        rw [e1] at hk
        rw [hbt, ← hsplit]
        simp only [List.flatten_cons, List.mem_append, List.mem_cons] at hk ⊢
        tauto
  | ret =>
    simp only [step, Option.some.injEq] at hs
    subst hs
    show ∃ F' U' b', Rel _ sp F' U' b'
    have hw := h.wf.ret
    obtain ⟨c1, c2, c3, c4, c5, c6, c7⟩ := ret_frame st
    have hsub : (ret st).batches.flatten.filter (fun j => ¬ st.dead j = true) = st.batches.flatten.filter (fun j => ¬ st.dead j = true) ∧
        (∀ j ∈ (ret st).batches.flatten, j ∈ st.batches.flatten) := by
      unfold ret
      split
      · exact ⟨rfl, fun _ => id⟩
      · rename_i bt bs hbt
        split
        · rename_i hall
          rw [List.all_eq_true] at hall
          dsimp only
          have hnil : bt.filter (fun j => ¬ st.dead j = true) = [] := List.filter_eq_nil_iff.2 (by intro y hy; simp [hall y hy])
          rw [hbt, List.flatten_cons, List.filter_append, hnil]
          exact ⟨rfl, fun j hj => List.mem_append_right _ hj⟩
        · exact ⟨rfl, fun _ => id⟩
    refine ⟨_, _, _, hw, by rw [c6, c3]; exact h.base, h.pending, ?_, ?_, by rw [c7]; exact h.log, by rw [c6]; exact h.now, by rw [c2]; exact h.delay, ?_⟩
    · rw [h.ready, dead_congr c2, List.filter_append, List.filter_append, hsub.1]
    · rcases h.one with h1 | h1
      · left
        rw [List.eq_nil_iff_forall_not_mem]
        intro j hj
        have := hsub.2 j hj
        rw [h1] at this; cases this
      · exact Or.inr h1
    · rw [c2]; exact fun j hj => h.known j (hsub.2 j hj)

theorem rel_init : Rel {} {} [] [] 0 := ⟨wf_init, by simp, rfl, rfl, by simp, rfl, rfl, fun _ => rfl, by simp⟩

theorem rel_run : ∀ (es : List Ev) (st st' : St) (sp : Spec), (∃ F U b, Rel st sp F U b) → QuietRun st es → run st es = some st' →
    ∃ F U b, Rel st' (sp.run es) F U b := by
  intro es
  induction es with
  | nil => intro st st' sp h _ hr; cases hr; exact h
  | cons e es ih =>
    rintro st st' sp ⟨F, U, b, h⟩ ⟨hf, hq, hrest⟩ hr
    rw [run] at hr
    cases hs : step st e with
    | none => rw [hs] at hr; cases hr
    | some s1 =>
      rw [hs, Option.bind_some] at hr
      exact ih s1 st' (sp.step e) (rel_step h hf hq hs) (hrest s1 hs) hr

/-- C29, in part.  If no delay is negative, and the event loop keeps up and timers are set
and deleted as in `Quiet`, then the calls are those that should be made: each at the time at
which the timer is due, in the order of these times and then of setting.  Missing are the
histories in which a timer is set or deleted while part of the time of the first pending
timer has passed, and those in which the event loop is late. -/
theorem C29_exact_partial {es : List Ev} {st : St} (hq : QuietRun {} es) (h : run {} es = some st) : st.log = ((Spec.run {} es).log) := by
  obtain ⟨F, U, b, hr⟩ := rel_run es {} st {} ⟨_, _, _, rel_init⟩ hq h
  exact hr.log.symm

/-! ### What goes wrong otherwise -/

def log (es : List Ev) : Option (List (Nat × Nat)) := (run {} es).map (·.log)

/-- A round of the event loop, with up to three calls. -/
def round : List Ev := [.tick, .dispatch, .call, .call, .call, .ret]
def wait (n : Nat) : List Ev := (List.replicate n round).flatten

/-- C29 fails: a timer that is set for 4 ms while the first pending timer has used 2 ms of its
3 is called after 2 ms. -/
theorem C29_early_violated :
    log ([.make 0 0 3] ++ wait 2 ++ [.make 1 0 4] ++ wait 6) = some [(3, 0), (4, 1)] ∧
    (Spec.run {} ([.make 0 0 3] ++ wait 2 ++ [.make 1 0 4] ++ wait 6)).log = [(3, 0), (6, 1)] := by
  decide +kernel

/-- C29 fails: if the first pending timer is deleted, then the time that has passed is
forgotten, and the others are called too late. -/
theorem C29_late_violated :
    log ([.make 0 0 5, .make 1 0 6] ++ wait 4 ++ [.delete 0] ++ wait 8) = some [(10, 1)] ∧
    (Spec.run {} ([.make 0 0 5, .make 1 0 6] ++ wait 4 ++ [.delete 0] ++ wait 8)).log = [(6, 1)] := by
  decide +kernel

/-- C29 fails: a timer that waits to be called and is set again is called at once, and again. -/
theorem C29_twice_violated :
    log ([.make 0 0 1, .make 1 0 1, .tick, .dispatch, .call, .set 1 (some (0, 5)), .call, .ret] ++ wait 6) = some [(1, 0), (1, 1), (6, 1)] ∧
    (Spec.run {} ([.make 0 0 1, .make 1 0 1, .tick, .dispatch, .call, .set 1 (some (0, 5)), .call, .ret] ++ wait 6)).log = [(1, 0), (6, 1)] := by
  decide +kernel

/-- C29 fails: a timer with a negative delay and a positive part in milliseconds keeps all
the others from being called. -/
theorem C29_negative_violated :
    log ([.make 0 (-1) 500, .make 1 0 2] ++ wait 20) = some [] ∧
    (Spec.run {} ([.make 0 (-1) 500, .make 1 0 2] ++ wait 20)).log = [(2, 1)] := by
  decide +kernel

/-! ### The hypotheses can be met -/

/-- Timers set together, one deleted by a function, and one set by a function. -/
def sample : List Ev :=
  [.make 0 0 2, .make 1 0 3, .make 2 0 2, .make 3 0 3, .tick, .tick, .dispatch, .call, .delete 1, .set 0 (some (0, 1)), .call, .ret, .tick, .dispatch, .call, .call, .ret]

example : log sample = some [(2, 0), (2, 2), (3, 3), (3, 0)] := by decide +kernel

/-- A decision of `Fresh`. -/
def freshB (st : St) : Bool := st.chain.head?.all fun x => x.fired || (st.alarm == some (st.now + x.ms.toNat))

theorem fresh_of {st : St} (h : freshB st = true) : Fresh st := by
  intro x hx hf
  unfold freshB at h
  rw [hx, Option.all_some, hf, Bool.false_or, beq_iff_eq] at h
  exact h

def quietB (st : St) : Ev → Bool
  | .make _ _ _ => freshB st
  | .set id _ => freshB st && !(st.batches.flatten.contains id)
  | .delete _ => freshB st
  | .tick => st.pipe == 0 && st.batches.isEmpty
  | .call => (st.batches.head?.any fun b => b.any fun id => !(st.dead id))
  | .dispatch => true
  | .ret => true

theorem quiet_of {st : St} {e : Ev} (h : quietB st e = true) : Quiet st e := by
  cases e with
  | make => exact fresh_of h
  | set id =>
    simp only [quietB, Bool.and_eq_true, Bool.not_eq_true', List.contains_eq_mem, decide_eq_false_iff_not] at h
    exact ⟨fresh_of h.1, h.2⟩
  | delete => exact fresh_of h
  | tick =>
    simp only [quietB, Bool.and_eq_true, beq_iff_eq, List.isEmpty_iff] at h
    exact h
  | call =>
    cases hb : st.batches with
    | nil => rw [quietB, hb] at h; cases h
    | cons b bs =>
      rw [quietB, hb] at h
      simp only [List.head?_cons, Option.any_some, List.any_eq_true, Bool.not_eq_true'] at h
      exact ⟨b, bs, hb, h⟩
  | dispatch => trivial
  | ret => trivial

instance (e : Ev) : Decidable (Forward e) := by
  cases e with
  | set id t => cases t <;> unfold Forward <;> infer_instance
  | _ => unfold Forward; infer_instance

def quietRunB : St → List Ev → Bool
  | _, [] => true
  | st, e :: es => decide (Forward e) && quietB st e && (step st e).all fun st => quietRunB st es

theorem quietRun_of : ∀ (es : List Ev) (st : St), quietRunB st es = true → QuietRun st es := by
  intro es
  induction es with
  | nil => intro _ _; trivial
  | cons e es ih =>
    intro st h
    simp only [quietRunB, Bool.and_eq_true, decide_eq_true_eq] at h
    refine ⟨h.1.1, quiet_of h.1.2, ?_⟩
    intro st' hs
    rw [hs, Option.all_some] at h
    exact ih st' h.2

example : QuietRun {} sample := quietRun_of _ _ (by decide +kernel)

example : ∀ e ∈ sample.take 5, Forward e := by decide +kernel
example : (run {} (sample.take 5)).map (fun st => st.chain.map (·.id)) = some [0, 2, 1, 3] := by decide +kernel

end Rep.Timers
