/-
The invariant of the chain for histories without negative delays.
-/
import Verif.Timers.Basic

namespace Rep.Timers

/-- The delays of an event are not negative. -/
def Forward : Ev → Prop
  | .make _ s m => 0 ≤ s * 1000 + m
  | .set _ (some p) => 0 ≤ p.1 * 1000 + p.2
  | _ => True

/-- The chain is made of fired entries `F` that wait for the input handler and of others `U`;
the interval timer was last set at time `b` for the first of `U`. -/
structure Wf (st : St) (F U : List Entry) (b : Nat) : Prop where
  sane : Sane st
  chain : st.chain = F ++ U
  fired : ∀ x ∈ F, x.fired = true ∧ x.secs = 0 ∧ x.msecs = 0
  unfired : ∀ x ∈ U, x.fired = false ∧ x.Normal ∧ 0 ≤ x.ms
  first : ∀ x, U.head? = some x → 0 < x.ms
  pipe : F ≠ [] → 0 < st.pipe
  still : F ≠ [] → st.alarm = none
  past : b ≤ st.now
  armed : F = [] → ∀ x, U.head? = some x → st.handler = true ∧ st.alarm = some (b + x.ms.toNat) ∧ st.now < b + x.ms.toNat
  objs : ∀ id t, st.timers id = some t → 0 ≤ t.secs ∧ 0 ≤ t.msecs ∧ t.msecs < 1000

/-- `setup_next_timer` sets the interval timer for the first entry. -/
theorem setup_first {st : St} {x : Entry} {xs : List Entry} (hc : st.chain = x :: xs) (hn : x.Normal) (hp : 0 < x.ms) :
    (setup st).handler = true ∧ (setup st).alarm = some (st.now + x.ms.toNat) := by
  obtain ⟨h1, h2⟩ := hn
  have hp' : 0 < x.secs * 1000 + x.msecs := hp
  unfold setup
  rw [hc]
  have : (decide (x.secs > 0 ∨ x.msecs > 0)) = true := by simp; omega
  simp only [List.head?_cons, Option.any_some, this, if_true, Option.elim_some]
  rw [if_neg (by omega)]
  exact ⟨trivial, rfl⟩

theorem setup_zero {st : St} {x : Entry} {xs : List Entry} (hc : st.chain = x :: xs) (h : x.secs = 0 ∧ x.msecs = 0) :
    (setup st).alarm = st.alarm := by
  unfold setup
  rw [hc]
  simp [h.1, h.2]

theorem insert_fired {F U : List Entry} {t : Entry} (hF : ∀ x ∈ F, x.secs = 0 ∧ x.msecs = 0) (ht : t.Normal) (hp : 0 < t.ms) :
    insertChain t (F ++ U) = F ++ insertChain t U := by
  induction F with
  | nil => rfl
  | cons x xs ih =>
    obtain ⟨h1, h2⟩ := hF x (by simp)
    obtain ⟨h3, h4⟩ := ht
    have hp' : 0 < t.secs * 1000 + t.msecs := hp
    rw [List.cons_append, insertChain, if_pos (by rw [h1, h2]; omega), h1, h2, Int.sub_zero, Int.sub_zero, retime_self ⟨h3, h4⟩,
      ih (fun y hy => hF y (by simp [hy])), List.cons_append]

theorem delete_fired_in {F U : List Entry} {id : Nat} (hF : ∀ x ∈ F, x.secs = 0 ∧ x.msecs = 0) (hU : ∀ x ∈ U, x.Normal) (h : id ∈ F.map (·.id)) :
    deleteChain id (F ++ U) = F.eraseP (fun x => x.id = id) ++ U := by
  induction F with
  | nil => cases h
  | cons x xs ih =>
    rw [List.cons_append, deleteChain]
    by_cases hx : x.id = id
    · rw [if_pos hx, List.eraseP_cons_of_pos (by simpa using hx)]
      obtain ⟨h1, h2⟩ := hF x (by simp)
      cases hl : xs ++ U with
      | nil => rfl
      | cons y ys =>
        have hy : y.Normal := by
          have : y ∈ xs ++ U := by rw [hl]; simp
          rw [List.mem_append] at this
          rcases this with h | h
          · obtain ⟨e1, e2⟩ := hF y (by simp [h]); exact ⟨by omega, by omega⟩
          · exact hU y h
        rw [addNext, h1, h2, Int.add_zero, Int.add_zero, retime_self hy]
    · rw [if_neg hx, List.eraseP_cons_of_neg (by simpa using hx), List.cons_append,
        ih (fun y hy => hF y (by simp [hy])) (by rw [List.map_cons, List.mem_cons] at h; rcases h with h | h; exact absurd h.symm hx; exact h)]

theorem delete_fired_out {F U : List Entry} {id : Nat} (h : id ∉ F.map (·.id)) : deleteChain id (F ++ U) = F ++ deleteChain id U := by
  induction F with
  | nil => rfl
  | cons x xs ih =>
    rw [List.map_cons, List.mem_cons, not_or] at h
    rw [List.cons_append, deleteChain, if_neg (Ne.symm h.1), ih h.2, List.cons_append]

theorem delete_none {id : Nat} {l : List Entry} (h : id ∉ l.map (·.id)) : deleteChain id l = l := by
  have := delete_fired_out (F := l) (U := []) h
  simpa [deleteChain] using this

theorem insert_unfired {l : List Entry} {t : Entry} (hl : ∀ x ∈ l, x.fired = false ∧ x.Normal ∧ 0 ≤ x.ms) (ht : t.fired = false ∧ t.Normal ∧ 0 ≤ t.ms) :
    ∀ x ∈ insertChain t l, x.fired = false ∧ x.Normal ∧ 0 ≤ x.ms := by
  induction l generalizing t with
  | nil => intro x hx; rw [insertChain, List.mem_singleton] at hx; subst hx; exact ht
  | cons y ys ih =>
    have hy := hl y (by simp)
    intro x hx
    rw [insertChain] at hx
    have hcmp := compare_ms hy.2.1 ht.2.1
    split at hx
    · rename_i h
      have hle := hcmp.1 h
      rw [List.mem_cons] at hx
      rcases hx with rfl | hx
      · exact hy
      · refine ih (t := t.retime (t.secs - y.secs) (t.msecs - y.msecs)) (fun z hz => hl z (by simp [hz])) ⟨ht.1, retime_normal _ _ _, ?_⟩ x hx
        rw [retime_ms]; unfold Entry.ms at hle; omega
    · rename_i h
      have hlt : t.ms < y.ms := by
        by_contra hc
        exact h (hcmp.2 (by omega))
      simp only [List.mem_cons] at hx
      rcases hx with rfl | rfl | hx
      · exact ht
      · refine ⟨hy.1, retime_normal _ _ _, ?_⟩
        rw [retime_ms]; unfold Entry.ms at hlt; omega
      · exact hl x (by simp [hx])

theorem delete_unfired {l : List Entry} {id : Nat} (hl : ∀ x ∈ l, x.fired = false ∧ x.Normal ∧ 0 ≤ x.ms) :
    ∀ x ∈ deleteChain id l, x.fired = false ∧ x.Normal ∧ 0 ≤ x.ms := by
  induction l with
  | nil => intro x hx; cases hx
  | cons y ys ih =>
    intro x hx
    rw [deleteChain] at hx
    split at hx
    · cases ys with
      | nil => cases hx
      | cons z zs =>
        rw [addNext, List.mem_cons] at hx
        rcases hx with rfl | hx
        · refine ⟨(hl z (by simp)).1, retime_normal _ _ _, ?_⟩
          have h1 := (hl z (by simp)).2.2
          have h2 := (hl y (by simp)).2.2
          rw [retime_ms]; unfold Entry.ms at h1 h2; omega
        · exact hl x (by simp [hx])
    · rw [List.mem_cons] at hx
      rcases hx with rfl | hx
      · exact hl x (by simp)
      · exact ih (fun z hz => hl z (by simp [hz])) x hx

/-- The front of a chain after an insertion: the new entry, or the old front. -/
theorem insert_head (t : Entry) (l : List Entry) : (insertChain t l).head? = some t ∨ ((insertChain t l).head? = l.head? ∧ l ≠ []) := by
  cases l with
  | nil => exact Or.inl rfl
  | cons x xs => rw [insertChain]; split
                 · exact Or.inr ⟨rfl, by simp⟩
                 · exact Or.inl rfl

theorem wf_insert {st : St} {F U : List Entry} {b : Nat} (h : Wf st F U b) (id : Nat) (t : Timer) (hid : id ∉ st.chain.map (·.id))
    (ht : 0 ≤ t.secs ∧ 0 ≤ t.msecs ∧ t.msecs < 1000) :
    if 0 < t.secs * 1000 + t.msecs then
      Wf (insertTimer st id t) F (insertChain ⟨id, t.secs, t.msecs, false⟩ U) b ∨ Wf (insertTimer st id t) F (insertChain ⟨id, t.secs, t.msecs, false⟩ U) st.now
    else Wf (insertTimer st id t) F U b := by
  have hs := sane_insert h.sane id t hid
  obtain ⟨f1, f2, f3, f4⟩ := insertTimer_frame st id t
  have hobj : ∀ j u, (insertTimer st id t).timers j = some u → 0 ≤ u.secs ∧ 0 ≤ u.msecs ∧ u.msecs < 1000 := by
    intro j u hu
    rw [insertTimer_timers] at hu
    split at hu
    · cases hu; exact ht
    · exact h.objs j u hu
  split
  · rename_i hpos
    have hpos' : t.secs > 0 ∨ t.msecs > 0 := by omega
    have hnorm : (⟨id, t.secs, t.msecs, false⟩ : Entry).Normal := ⟨ht.2.1, ht.2.2⟩
    have hms : 0 < (⟨id, t.secs, t.msecs, false⟩ : Entry).ms := hpos
    have hch : insertChain ⟨id, t.secs, t.msecs, false⟩ st.chain = F ++ insertChain ⟨id, t.secs, t.msecs, false⟩ U := by
      rw [h.chain]; exact insert_fired (fun x hx => (h.fired x hx).2) hnorm hms
    have hchain : (insertTimer st id t).chain = F ++ insertChain ⟨id, t.secs, t.msecs, false⟩ U := by
      rw [insertTimer_chain, if_pos hpos', hch]
    have hunf := insert_unfired h.unfired (t := ⟨id, t.secs, t.msecs, false⟩) ⟨rfl, hnorm, by omega⟩
    have hfirst : ∀ x, (insertChain ⟨id, t.secs, t.msecs, false⟩ U).head? = some x → 0 < x.ms := by
      intro x hx
      rcases insert_head ⟨id, t.secs, t.msecs, false⟩ U with e | ⟨e, _⟩
      · rw [e] at hx; cases hx; exact hms
      · rw [e] at hx; exact h.first x hx
    have e0 : insertTimer st id t =
        (if ((insertChain ⟨id, t.secs, t.msecs, false⟩ st.chain).head?.map (·.id)) = some id then
          setup { st.put id { t with deleted := false } with chain := insertChain ⟨id, t.secs, t.msecs, false⟩ st.chain }
        else { st.put id { t with deleted := false } with chain := insertChain ⟨id, t.secs, t.msecs, false⟩ st.chain }) := by
      rw [insertTimer, if_pos hpos']
    -- whether the new entry is at the front of the whole chain
    by_cases hfront : F = [] ∧ (insertChain ⟨id, t.secs, t.msecs, false⟩ U).head? = some ⟨id, t.secs, t.msecs, false⟩
    · right
      obtain ⟨rfl, hfr⟩ := hfront
      rw [List.nil_append] at hch
      rw [if_pos (by rw [hch, hfr]; rfl)] at e0
      refine ⟨hs, hchain, h.fired, hunf, hfirst, by simp, by simp, by omega, ?_, hobj⟩
      intro _ x hx
      rw [hfr] at hx
      cases hx
      obtain ⟨xs, hxs⟩ : ∃ xs, insertChain ⟨id, t.secs, t.msecs, false⟩ U = ⟨id, t.secs, t.msecs, false⟩ :: xs := by
        cases hl : insertChain ⟨id, t.secs, t.msecs, false⟩ U with
        | nil => exact absurd hl (insert_ne _ _)
        | cons y ys => rw [hl] at hfr; cases hfr; exact ⟨ys, rfl⟩
      rw [e0]
      have := setup_first (st := { st.put id { t with deleted := false } with chain := insertChain ⟨id, t.secs, t.msecs, false⟩ st.chain })
        (x := ⟨id, t.secs, t.msecs, false⟩) (xs := xs) (by dsimp only; rw [hch, hxs]) hnorm hms
      refine ⟨this.1, this.2, ?_⟩
      rw [setup_now]
      show st.now < st.now + _
      omega
    · left
      have hcond : ((insertChain ⟨id, t.secs, t.msecs, false⟩ st.chain).head?.map (·.id)) ≠ some id := by
        rw [hch]
        cases hF : F with
        | cons y ys =>
          intro hc
          refine hid ?_
          rw [h.chain, hF]
          have : y.id = id := by simpa using hc
          simp [this]
        | nil =>
          rw [hF] at hfront
          rcases insert_head ⟨id, t.secs, t.msecs, false⟩ U with e | ⟨e, _⟩
          · exact absurd ⟨rfl, e⟩ hfront
          · rw [List.nil_append, e]
            intro hc
            cases hU : U with
            | nil => rw [hU] at hc; cases hc
            | cons y ys =>
              rw [hU] at hc
              refine hid ?_
              rw [h.chain, hU]
              have : y.id = id := by simpa using hc
              simp [this]
      rw [if_neg hcond] at e0
      refine ⟨hs, hchain, h.fired, hunf, hfirst, ?_, ?_, by rw [f4]; exact h.past, ?_, hobj⟩
      · rw [f1]; exact h.pipe
      · rw [e0]; exact h.still
      · intro hF x hx
        rcases insert_head ⟨id, t.secs, t.msecs, false⟩ U with e | ⟨e, _⟩
        · exact absurd ⟨hF, e⟩ hfront
        · rw [e] at hx
          rw [e0]
          exact h.armed hF x hx
  · rename_i hpos
    have hpos' : ¬ (t.secs > 0 ∨ t.msecs > 0) := by omega
    have e0 : insertTimer st id t = st.put id t := by rw [insertTimer, if_neg hpos']
    refine ⟨hs, by rw [e0]; exact h.chain, h.fired, h.unfired, h.first, by rw [e0]; exact h.pipe, by rw [e0]; exact h.still, by rw [e0]; exact h.past, by rw [e0]; exact h.armed, hobj⟩

theorem wf_delete {st : St} {F U : List Entry} {b : Nat} (h : Wf st F U b) (id : Nat) (t : Timer) (ht : st.timers id = some t) :
    Wf (deleteTimer st id t) (F.eraseP fun x => x.id = id) (deleteChain id U) b ∨ Wf (deleteTimer st id t) (F.eraseP fun x => x.id = id) (deleteChain id U) st.now := by
  have hs := (sane_delete h.sane id t).1
  obtain ⟨f1, f2, f3, f4⟩ := deleteTimer_frame st id t
  have hn : ((F ++ U).map (·.id)).Nodup := by rw [← h.chain]; exact h.sane.nodup
  rw [List.map_append, List.nodup_append] at hn
  have hch : deleteChain id st.chain = (F.eraseP fun x => x.id = id) ++ deleteChain id U := by
    rw [h.chain]
    by_cases hF : id ∈ F.map (·.id)
    · rw [delete_fired_in (fun x hx => (h.fired x hx).2) (fun x hx => (h.unfired x hx).2.1) hF, delete_none (l := U)]
      exact fun hc => hn.2.2 id hF id hc rfl
    · rw [delete_fired_out hF, List.eraseP_of_forall_not]
      intro a ha hc
      exact hF (List.mem_map.2 ⟨a, ha, by simpa using hc⟩)
  have hchain : (deleteTimer st id t).chain = (F.eraseP fun x => x.id = id) ++ deleteChain id U := by rw [deleteTimer_chain, hch]
  have hobj : ∀ j u, (deleteTimer st id t).timers j = some u → 0 ≤ u.secs ∧ 0 ≤ u.msecs ∧ u.msecs < 1000 := by
    intro j u hu
    rw [deleteTimer_timers] at hu
    split at hu
    · cases hu; exact h.objs id t ht
    · exact h.objs j u hu
  have hfired : ∀ x ∈ F.eraseP (fun x => x.id = id), x.fired = true ∧ x.secs = 0 ∧ x.msecs = 0 := fun x hx => h.fired x (List.mem_of_mem_eraseP hx)
  have hunf := delete_unfired (id := id) h.unfired
  have hfirst : ∀ x, (deleteChain id U).head? = some x → 0 < x.ms := by
    intro x hx
    cases hU : U with
    | nil => rw [hU] at hx; cases hx
    | cons y ys =>
      rw [hU, deleteChain] at hx
      have hy := h.first y (by rw [hU]; rfl)
      split at hx
      · cases ys with
        | nil => cases hx
        | cons z zs =>
          rw [addNext] at hx
          cases hx
          have := (h.unfired z (by rw [hU]; simp)).2.2
          rw [retime_ms]; unfold Entry.ms at hy this; omega
      · cases hx; exact hy
  have e0 : deleteTimer st id t =
      (if (st.chain.head?.map (·.id)) = some id then setup { st.put id { t with deleted := true } with chain := deleteChain id st.chain }
      else { st.put id { t with deleted := true } with chain := deleteChain id st.chain }) := rfl
  have hpipe : F.eraseP (fun x => x.id = id) ≠ [] → F ≠ [] := by rintro h1 rfl; exact h1 rfl
  by_cases hhead : (st.chain.head?.map (·.id)) = some id
  · right
    rw [if_pos hhead] at e0
    refine ⟨hs, hchain, hfired, hunf, hfirst, by rw [f1]; exact fun hF => h.pipe (hpipe hF), ?_, by rw [f4], ?_, hobj⟩
    · intro hF
      rw [e0]
      cases hF' : F.eraseP (fun x => x.id = id) with
      | nil => exact absurd hF' hF
      | cons y ys =>
        rw [setup_zero (x := y) (xs := ys ++ deleteChain id U)]
        · exact h.still (hpipe hF)
        · dsimp only; rw [hch, hF']; rfl
        · exact (hfired y (by rw [hF']; simp)).2
    · intro hF x hx
      obtain ⟨xs, hxs⟩ : ∃ xs, deleteChain id U = x :: xs := by
        cases hl : deleteChain id U with
        | nil => rw [hl] at hx; cases hx
        | cons y ys => rw [hl] at hx; cases hx; exact ⟨ys, rfl⟩
      rw [e0]
      have hx' := hunf x (by rw [hxs]; simp)
      have := setup_first (st := { st.put id { t with deleted := true } with chain := deleteChain id st.chain }) (x := x) (xs := xs)
        (by dsimp only; rw [hch, hF, hxs]; rfl) hx'.2.1 (hfirst x hx)
      refine ⟨this.1, this.2, ?_⟩
      rw [setup_now]
      have := hfirst x hx
      show st.now < st.now + _
      omega
  · left
    rw [if_neg hhead] at e0
    refine ⟨hs, hchain, hfired, hunf, hfirst, by rw [f1]; exact fun hF => h.pipe (hpipe hF), by rw [e0]; exact fun hF => h.still (hpipe hF),
      by rw [f4]; exact h.past, ?_, hobj⟩
    intro hF x hx
    have hF0 : F = [] := by
      cases hF1 : F with
      | nil => rfl
      | cons y ys =>
        have : y.id ≠ id := by rw [h.chain, hF1] at hhead; simpa using hhead
        rw [hF1, List.eraseP_cons_of_neg (by simpa using this)] at hF
        cases hF
    rw [e0]
    refine h.armed hF0 x ?_
    cases hU : U with
    | nil => rw [hU] at hx; cases hx
    | cons y ys =>
      have : y.id ≠ id := by rw [h.chain, hF0, hU] at hhead; simpa using hhead
      rw [hU, deleteChain, if_neg this] at hx
      exact hx

theorem markFired_eq {l : List Entry} (hl : ∀ x ∈ l, x.Normal) :
    markFired l = (l.takeWhile (fun x => x.ms = 0)).map (fun x => { x with fired := true }) ++ l.dropWhile (fun x => x.ms = 0) := by
  induction l with
  | nil => rfl
  | cons x xs ih =>
    obtain ⟨h1, h2⟩ := hl x (by simp)
    have hiff : (x.secs = 0 ∧ x.msecs = 0) ↔ x.ms = 0 := by unfold Entry.ms; omega
    rw [markFired]
    by_cases h : x.ms = 0
    · rw [if_pos (hiff.2 h), ih (fun y hy => hl y (by simp [hy])), List.takeWhile_cons_of_pos (by simpa using h), List.dropWhile_cons_of_pos (by simpa using h)]
      rfl
    · rw [if_neg (fun hc => h (hiff.1 hc)), List.takeWhile_cons_of_neg (by simpa using h), List.dropWhile_cons_of_neg (by simpa using h)]
      rfl

theorem mem_takeWhile_prop {α : Type} {p : α → Bool} {l : List α} {x : α} (h : x ∈ l.takeWhile p) : p x = true := by
  induction l with
  | nil => cases h
  | cons y ys ih =>
    rw [List.takeWhile_cons] at h
    split at h
    · rw [List.mem_cons] at h
      rcases h with rfl | h
      · assumption
      · exact ih h
    · cases h

/-- The entries that fire together with the first one, and the others. -/
def Z (xs : List Entry) : List Entry := xs.takeWhile fun x => x.ms = 0
def Y (xs : List Entry) : List Entry := xs.dropWhile fun x => x.ms = 0

/-- What a millisecond does: nothing, or the first entry fires with those due at the same
time. -/
theorem wf_tick {st st' : St} {F U : List Entry} {b : Nat} (h : Wf st F U b) (ht : tick st = some st') :
    st'.now = st.now + 1 ∧ st'.timers = st.timers ∧ st'.batches = st.batches ∧ st'.log = st.log ∧
    ((F ≠ [] ∧ st'.chain = st.chain ∧ Wf st' F U (st.now + 1)) ∨
     (F = [] ∧ U = [] ∧ Wf st' [] [] (st.now + 1)) ∨
     (F = [] ∧ ∃ x xs, U = x :: xs ∧ st.now + 1 < b + x.ms.toNat ∧ st'.chain = st.chain ∧ Wf st' [] U b) ∨
     (F = [] ∧ ∃ x xs, U = x :: xs ∧ b + x.ms.toNat = st.now + 1 ∧ st'.pipe = st.pipe + 1 ∧
        ∃ F', F'.map (·.id) = x.id :: (Z xs).map (·.id) ∧ Wf st' F' (Y xs) (st.now + 1))) := by
  obtain ⟨st1, hs1, hsane⟩ := sane_step h.sane .tick
  have hst1 : st1 = st' := by
    have : tick st = some st1 := hs1
    rw [ht] at this
    exact (Option.some.inj this).symm
  rw [hst1] at hsane
  clear hs1 hst1 st1
  unfold tick at ht
  by_cases hF : F = []
  · subst hF
    cases hU : U with
    | nil =>
      have hch : st.chain = [] := by rw [h.chain, hU]; rfl
      have hh : ¬ st.handler = true := fun hc => h.sane.caught hc hch
      have key : st'.now = st.now + 1 ∧ st'.timers = st.timers ∧ st'.batches = st.batches ∧ st'.log = st.log ∧ st'.chain = st.chain := by
        split at ht
        · cases ht; exact ⟨rfl, rfl, rfl, rfl, rfl⟩
        · cases ht; exact ⟨rfl, rfl, rfl, rfl, rfl⟩
      obtain ⟨k1, k2, k3, k4, k5⟩ := key
      refine ⟨k1, k2, k3, k4, Or.inr (Or.inl ⟨rfl, rfl, hsane, by rw [k5, hch]; rfl, by simp, by simp, by simp, by simp, by simp, by omega, by simp, ?_⟩)⟩
      rw [k2]; exact h.objs
    | cons x xs =>
      obtain ⟨a1, a2, a3⟩ := h.armed rfl x (by rw [hU]; rfl)
      by_cases hd : b + x.ms.toNat = st.now + 1
      · rw [if_pos (by rw [a2, hd]), if_pos a1] at ht
        unfold signal at ht
        dsimp only at ht
        rw [h.chain, hU, List.nil_append] at ht
        dsimp only at ht
        cases ht
        have hun : ∀ y ∈ xs, y.fired = false ∧ y.Normal ∧ 0 ≤ y.ms := fun y hy => h.unfired y (by rw [hU]; simp [hy])
        have hm : markFired ({ x with secs := 0, msecs := 0 } :: xs) =
            ({ x with secs := 0, msecs := 0, fired := true } :: (Z xs).map (fun x => { x with fired := true })) ++ Y xs := by
          rw [markFired, if_pos ⟨rfl, rfl⟩, markFired_eq (fun y hy => (hun y hy).2.1)]
          rfl
        refine ⟨rfl, rfl, rfl, rfl, Or.inr (Or.inr (Or.inr ⟨rfl, x, xs, rfl, hd, rfl, _, ?_, hsane, hm, ?_, ?_, ?_, ?_, ?_, ?_, ?_, h.objs⟩))⟩
        · simp
        · intro y hy
          rw [List.mem_cons] at hy
          rcases hy with rfl | hy
          · exact ⟨rfl, rfl, rfl⟩
          · obtain ⟨z, hz, rfl⟩ := List.mem_map.1 hy
            have hz0 : z.ms = 0 := by simpa using mem_takeWhile_prop hz
            have hzn := (hun z ((List.takeWhile_sublist _).mem hz)).2.1
            obtain ⟨n1, n2⟩ := hzn
            unfold Entry.ms at hz0
            exact ⟨rfl, by dsimp only; omega, by dsimp only; omega⟩
        · intro y hy
          exact hun y ((List.dropWhile_sublist _).mem hy)
        · intro y hy
          have h0 := (hun y ((List.dropWhile_sublist _).mem (List.mem_of_mem_head? (Option.mem_def.2 hy)))).2.2
          have h1 : ¬ y.ms = 0 := by
            have := List.head?_dropWhile_not (fun x : Entry => decide (x.ms = 0)) xs
            rw [show List.dropWhile (fun x : Entry => decide (x.ms = 0)) xs = Y xs from rfl, hy] at this
            simpa using this
          omega
        · intro _; show 0 < st.pipe + 1; omega
        · intro _; rfl
        · show st.now + 1 ≤ st.now + 1; omega
        · intro hc; cases hc
      · rw [if_neg (by rw [a2]; simpa using hd)] at ht
        cases ht
        refine ⟨rfl, rfl, rfl, rfl, Or.inr (Or.inr (Or.inl ⟨rfl, x, xs, rfl, by omega, rfl, hsane, ?_, by simp, ?_, ?_, by simp, by simp, ?_, ?_, h.objs⟩))⟩
        · rw [← hU]; exact h.chain
        · rw [← hU]; exact h.unfired
        · rw [← hU]; exact h.first
        · have := h.past; show b ≤ st.now + 1; omega
        · intro _ y hy
          cases hy
          exact ⟨a1, a2, by show st.now + 1 < _; omega⟩
  · have hal := h.still hF
    rw [if_neg (by rw [hal]; simp)] at ht
    cases ht
    refine ⟨rfl, rfl, rfl, rfl, Or.inl ⟨hF, rfl, hsane, h.chain, h.fired, h.unfired, h.first, h.pipe, h.still, ?_, fun hc => absurd hc hF, h.objs⟩⟩
    show st.now + 1 ≤ st.now + 1
    omega

theorem takeWhile_fired {F U : List Entry} (hF : ∀ x ∈ F, x.fired = true) (hU : ∀ x ∈ U, x.fired = false) :
    (F ++ U).takeWhile (·.fired) = F ∧ (F ++ U).dropWhile (·.fired) = U := by
  induction F with
  | nil =>
    cases U with
    | nil => exact ⟨rfl, rfl⟩
    | cons x xs =>
      have := hU x (by simp)
      rw [List.nil_append]
      exact ⟨List.takeWhile_cons_of_neg (by simp [this]), List.dropWhile_cons_of_neg (by simp [this])⟩
  | cons x xs ih =>
    obtain ⟨h1, h2⟩ := ih (fun y hy => hF y (by simp [hy]))
    have hx := hF x (by simp)
    rw [List.cons_append, List.takeWhile_cons_of_pos hx, List.dropWhile_cons_of_pos hx, h1, h2]
    exact ⟨rfl, rfl⟩

/-- The input handler takes the fired entries. -/
theorem wf_dispatch {st : St} {F U : List Entry} {b : Nat} (h : Wf st F U b) (hp : 0 < st.pipe) :
    (dispatch st).now = st.now ∧ (dispatch st).timers = st.timers ∧ (dispatch st).batches = F.map (·.id) :: st.batches ∧ (dispatch st).log = st.log ∧
    (dispatch st).pipe = st.pipe - 1 ∧ Wf (dispatch st) [] U st.now := by
  obtain ⟨st1, hs1, hsane⟩ := sane_step h.sane .dispatch
  cases hs1
  obtain ⟨h1, h2⟩ := takeWhile_fired (fun x hx => (h.fired x hx).1) (fun x hx => (h.unfired x hx).1)
  have e0 : dispatch st = setup { st with pipe := st.pipe - 1, batches := F.map (·.id) :: st.batches, chain := U } := by
    unfold dispatch
    rw [if_neg (by omega), h.chain, h1, h2]
  refine ⟨by rw [e0, setup_now], by rw [e0, setup_timers], by rw [e0, setup_batches], by rw [e0, setup_log], by rw [e0, setup_pipe],
    hsane, by rw [e0, setup_chain]; rfl, by simp, h.unfired, h.first, by simp, by simp, by rw [e0, setup_now], ?_, by rw [e0, setup_timers]; exact h.objs⟩
  intro _ x hx
  obtain ⟨xs, hxs⟩ : ∃ xs, U = x :: xs := by
    cases hl : U with
    | nil => rw [hl] at hx; cases hx
    | cons y ys => rw [hl] at hx; cases hx; exact ⟨ys, rfl⟩
  have := setup_first (st := { st with pipe := st.pipe - 1, batches := F.map (·.id) :: st.batches, chain := U }) (x := x) (xs := xs) hxs
    (h.unfired x (by rw [hxs]; simp)).2.1 (h.first x hx)
  rw [e0, setup_now]
  refine ⟨this.1, this.2, ?_⟩
  have := h.first x hx
  show st.now < st.now + _
  omega

/-- Events that do not touch the chain. -/
theorem Wf.congr {st st' : St} {F U : List Entry} {b : Nat} (h : Wf st F U b) (h1 : st'.chain = st.chain) (h2 : st'.timers = st.timers)
    (h3 : st'.pipe = st.pipe) (h4 : st'.alarm = st.alarm) (h5 : st'.handler = st.handler) (h6 : st'.now = st.now) : Wf st' F U b := by
  refine ⟨⟨?_, ?_, ?_⟩, ?_, h.fired, h.unfired, h.first, ?_, ?_, ?_, ?_, ?_⟩
  · rw [h5, h1]; exact h.sane.caught
  · rw [h1]; exact h.sane.nodup
  · rw [h1, h2]; exact h.sane.alive
  · rw [h1]; exact h.chain
  · rw [h3]; exact h.pipe
  · rw [h4]; exact h.still
  · rw [h6]; exact h.past
  · rw [h4, h5, h6]; exact h.armed
  · rw [h2]; exact h.objs

theorem call_frame (st : St) : (call st).chain = st.chain ∧ (call st).timers = st.timers ∧ (call st).pipe = st.pipe ∧ (call st).alarm = st.alarm ∧
    (call st).handler = st.handler ∧ (call st).now = st.now := by
  unfold call
  split
  · simp
  · split <;> simp

theorem ret_frame (st : St) : (ret st).chain = st.chain ∧ (ret st).timers = st.timers ∧ (ret st).pipe = st.pipe ∧ (ret st).alarm = st.alarm ∧
    (ret st).handler = st.handler ∧ (ret st).now = st.now ∧ (ret st).log = st.log := by
  unfold ret
  split
  · simp
  · split <;> simp

theorem Wf.call {st : St} {F U : List Entry} {b : Nat} (h : Wf st F U b) : Wf (call st) F U b := by
  obtain ⟨h1, h2, h3, h4, h5, h6⟩ := call_frame st
  exact h.congr h1 h2 h3 h4 h5 h6

theorem Wf.ret {st : St} {F U : List Entry} {b : Nat} (h : Wf st F U b) : Wf (ret st) F U b := by
  obtain ⟨h1, h2, h3, h4, h5, h6, -⟩ := ret_frame st
  exact h.congr h1 h2 h3 h4 h5 h6

theorem fixTime_nonneg {s m : Int} (h : 0 ≤ s * 1000 + m) : 0 ≤ (fixTime s m).1 ∧ 0 ≤ (fixTime s m).2 ∧ (fixTime s m).2 < 1000 := by
  obtain ⟨h1, h2, h3⟩ := fixTime_spec s m
  exact ⟨by omega, h2, h3⟩

theorem wf_step {st st' : St} {F U : List Entry} {b : Nat} (h : Wf st F U b) {e : Ev} (he : Forward e) (hs : step st e = some st') :
    ∃ F' U' b', Wf st' F' U' b' := by
  cases e with
  | make id s m =>
    cases hs
    split
    · exact ⟨F, U, b, h⟩
    · rename_i hn
      have hid : id ∉ st.chain.map (·.id) := by
        intro hm
        obtain ⟨x, hx, rfl⟩ := List.mem_map.1 hm
        obtain ⟨t, ht, _⟩ := h.sane.alive x hx
        rw [ht] at hn
        exact hn rfl
      have := wf_insert h id ⟨(fixTime s m).1, (fixTime s m).2, false⟩ hid (fixTime_nonneg he)
      split at this
      · rcases this with h | h <;> exact ⟨_, _, _, h⟩
      · exact ⟨_, _, _, this⟩
  | set id time =>
    simp only [step, Option.some.injEq] at hs
    subst hs
    cases ht : st.timers id with
    | none => exact ⟨F, U, b, h⟩
    | some t =>
      rw [Option.elim_some]
      have hd : ∃ b', Wf (deleteTimer st id t) (F.eraseP fun x => x.id = id) (deleteChain id U) b' := by
        rcases wf_delete h id t ht with h | h <;> exact ⟨_, h⟩
      obtain ⟨b', hd⟩ := hd
      have hob := h.objs id t ht
      have := wf_insert hd id ⟨(time.elim t.secs fun p => (fixTime p.1 p.2).1), (time.elim t.msecs fun p => (fixTime p.1 p.2).2), true⟩ (sane_delete h.sane id t).2
        (by
          cases time with
          | none => exact hob
          | some p => exact fixTime_nonneg he)
      split at this
      · rcases this with h | h <;> exact ⟨_, _, _, h⟩
      · exact ⟨_, _, _, this⟩
  | delete id =>
    cases hs
    cases ht : st.timers id with
    | none => exact ⟨F, U, b, h⟩
    | some t => rcases wf_delete h id t ht with h | h <;> exact ⟨_, _, _, h⟩
  | tick =>
    obtain ⟨-, -, -, -, h1 | ⟨_, _, h1⟩ | ⟨_, x, xs, _, _, _, h1⟩ | ⟨_, x, xs, _, _, _, F', _, h1⟩⟩ := wf_tick h hs
    · exact ⟨_, _, _, h1.2.2⟩
    · exact ⟨_, _, _, h1⟩
    · exact ⟨_, _, _, h1⟩
    · exact ⟨_, _, _, h1⟩
  | dispatch =>
    cases hs
    by_cases hp : 0 < st.pipe
    · exact ⟨_, _, _, (wf_dispatch h hp).2.2.2.2.2⟩
    · have : dispatch st = st := by unfold dispatch; rw [if_pos (by omega)]
      rw [this]; exact ⟨F, U, b, h⟩
  | call => cases hs; exact ⟨F, U, b, h.call⟩
  | ret => cases hs; exact ⟨F, U, b, h.ret⟩

theorem wf_init : Wf {} [] [] 0 := ⟨sane_init, rfl, by simp, by simp, by simp, by simp, by simp, by simp, by simp, by simp⟩

theorem wf_run : ∀ (es : List Ev) (st st' : St), (∃ F U b, Wf st F U b) → (∀ e ∈ es, Forward e) → run st es = some st' → ∃ F U b, Wf st' F U b := by
  intro es
  induction es with
  | nil => intro st st' h _ hr; cases hr; exact h
  | cons e es ih =>
    rintro st st' ⟨F, U, b, h⟩ he hr
    rw [run] at hr
    cases hs : step st e with
    | none => rw [hs] at hr; cases hr
    | some s1 =>
      rw [hs, Option.bind_some] at hr
      exact ih _ _ (wf_step h (he e (by simp)) hs) (fun e' h' => he e' (by simp [h'])) hr

end Rep.Timers
