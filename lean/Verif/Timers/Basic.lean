/-
Lemmas about the timers: the chain of relative times and its absolute times, and facts that
hold for every history.
-/
import Verif.Timers.Model
import Mathlib.Tactic.Linarith
import Mathlib.Data.List.Count
import Mathlib.Data.List.Nodup

namespace Rep.Timers

/-! ### `fix_time` -/

theorem fixLow_spec (s m : Int) : (fixLow s m).1 * 1000 + (fixLow s m).2 = s * 1000 + m ∧ 0 ≤ (fixLow s m).2 ∧ (m < 1000 → (fixLow s m).2 < 1000) ∧
    (0 ≤ m → fixLow s m = (s, m)) := by
  induction s, m using fixLow.induct with
  | case1 s m h ih =>
    rw [fixLow, if_pos h]
    obtain ⟨h1, h2, h3, _⟩ := ih
    exact ⟨by omega, h2, fun _ => h3 (by omega), fun h' => by omega⟩
  | case2 s m h =>
    rw [fixLow, if_neg h]
    exact ⟨rfl, by omega, fun h => h, fun _ => rfl⟩

theorem fixHigh_spec (s m : Int) (h0 : 0 ≤ m) : (fixHigh s m).1 * 1000 + (fixHigh s m).2 = s * 1000 + m ∧ 0 ≤ (fixHigh s m).2 ∧ (fixHigh s m).2 < 1000 ∧
    (m < 1000 → fixHigh s m = (s, m)) := by
  induction s, m using fixHigh.induct with
  | case1 s m h ih =>
    rw [fixHigh, if_pos h]
    obtain ⟨h1, h2, h3, _⟩ := ih (by omega)
    exact ⟨by omega, h2, h3, fun h' => by omega⟩
  | case2 s m h =>
    rw [fixHigh, if_neg h]
    exact ⟨rfl, h0, by omega, fun _ => rfl⟩

/-- `fix_time` keeps the time, and makes the milliseconds less than a second. -/
theorem fixTime_spec (s m : Int) : (fixTime s m).1 * 1000 + (fixTime s m).2 = s * 1000 + m ∧ 0 ≤ (fixTime s m).2 ∧ (fixTime s m).2 < 1000 := by
  obtain ⟨h1, h2, -, -⟩ := fixLow_spec s m
  obtain ⟨h3, h4, h5, -⟩ := fixHigh_spec (fixLow s m).1 (fixLow s m).2 h2
  exact ⟨by unfold fixTime; omega, h4, h5⟩

theorem fixTime_id {s m : Int} (h : 0 ≤ m) (h' : m < 1000) : fixTime s m = (s, m) := by
  have h1 := (fixLow_spec s m).2.2.2 h
  unfold fixTime
  rw [h1]
  exact (fixHigh_spec s m h).2.2.2 h'

/-! ### Relative and absolute times -/

/-- The relative time in milliseconds. -/
def Entry.ms (e : Entry) : Int := e.secs * 1000 + e.msecs

/-- The milliseconds are less than a second. -/
def Entry.Normal (e : Entry) : Prop := 0 ≤ e.msecs ∧ e.msecs < 1000

theorem retime_ms (e : Entry) (s m : Int) : (e.retime s m).ms = s * 1000 + m := (fixTime_spec s m).1
theorem retime_normal (e : Entry) (s m : Int) : (e.retime s m).Normal := ⟨(fixTime_spec s m).2.1, (fixTime_spec s m).2.2⟩
theorem retime_id (e : Entry) (s m : Int) : (e.retime s m).id = e.id := rfl
theorem retime_fired (e : Entry) (s m : Int) : (e.retime s m).fired = e.fired := rfl

theorem retime_self {e : Entry} (h : e.Normal) : e.retime e.secs e.msecs = e := by
  unfold Entry.retime
  rw [fixTime_id h.1 h.2]

/-- The times at which the entries are due, if the first relative time counts from `b`. -/
def abs (b : Int) : List Entry → List (Nat × Int)
  | [] => []
  | x :: xs => (x.id, b + x.ms) :: abs (b + x.ms) xs

/-- Insertion in the order of due times, after those with the same time. -/
def insertDue (p : Nat × Int) : List (Nat × Int) → List (Nat × Int)
  | [] => [p]
  | x :: xs => if x.2 ≤ p.2 then x :: insertDue p xs else p :: x :: xs

theorem abs_ids (b : Int) (l : List Entry) : (abs b l).map Prod.fst = l.map (·.id) := by
  induction l generalizing b with
  | nil => rfl
  | cons x xs ih => simp [abs, ih]

/-- The comparison of the code is the comparison of times. -/
theorem compare_ms {x t : Entry} (hx : x.Normal) (ht : t.Normal) : (x.secs < t.secs ∨ (x.secs = t.secs ∧ x.msecs ≤ t.msecs)) ↔ x.ms ≤ t.ms := by
  obtain ⟨h1, h2⟩ := hx
  obtain ⟨h3, h4⟩ := ht
  unfold Entry.ms
  omega

theorem abs_insert : ∀ (l : List Entry) (t : Entry) (b : Int), (∀ x ∈ l, x.Normal) → t.Normal →
    abs b (insertChain t l) = insertDue (t.id, b + t.ms) (abs b l) := by
  intro l
  induction l with
  | nil => intro t b _ _; rfl
  | cons x xs ih =>
    intro t b hl ht
    have hx := hl x (by simp)
    unfold insertChain
    by_cases h : x.ms ≤ t.ms
    · rw [if_pos ((compare_ms hx ht).2 h), abs, ih _ _ (fun y hy => hl y (by simp [hy])) (retime_normal _ _ _)]
      rw [retime_id, retime_ms, abs, insertDue, if_pos (by simpa using h)]
      have : b + x.ms + ((t.secs - x.secs) * 1000 + (t.msecs - x.msecs)) = b + t.ms := by unfold Entry.ms; omega
      rw [this]
    · rw [if_neg (fun hc => h ((compare_ms hx ht).1 hc)), abs, abs, retime_ms, retime_id, abs, insertDue, if_neg (by simpa using h)]
      have : b + t.ms + ((x.secs - t.secs) * 1000 + (x.msecs - t.msecs)) = b + x.ms := by unfold Entry.ms; omega
      rw [this]

/-- Entries of the new chain: the new one, or old ones with other times. -/
theorem insert_mem {l : List Entry} {t x : Entry} (h : x ∈ insertChain t l) : x.id = t.id ∧ x.fired = t.fired ∨ ∃ y ∈ l, x.id = y.id ∧ x.fired = y.fired := by
  induction l generalizing t with
  | nil => rw [insertChain, List.mem_singleton] at h; subst h; exact Or.inl ⟨rfl, rfl⟩
  | cons y ys ih =>
    rw [insertChain] at h
    split at h
    · rw [List.mem_cons] at h
      rcases h with rfl | h
      · exact Or.inr ⟨x, by simp, rfl, rfl⟩
      · rcases ih h with h | ⟨z, hz, h⟩
        · exact Or.inl h
        · exact Or.inr ⟨z, by simp [hz], h⟩
    · simp only [List.mem_cons] at h
      rcases h with rfl | rfl | h
      · exact Or.inl ⟨rfl, rfl⟩
      · exact Or.inr ⟨y, by simp, rfl, rfl⟩
      · exact Or.inr ⟨x, by simp [h], rfl, rfl⟩

theorem insert_perm (t : Entry) (l : List Entry) : ((insertChain t l).map (·.id)).Perm (t.id :: l.map (·.id)) := by
  induction l generalizing t with
  | nil => exact List.Perm.refl _
  | cons y ys ih =>
    unfold insertChain
    split
    · rw [List.map_cons, List.map_cons]
      exact ((ih _).cons _).trans (List.Perm.swap _ _ _)
    · exact List.Perm.refl _

theorem insert_ne (t : Entry) (l : List Entry) : insertChain t l ≠ [] := by
  cases l with
  | nil => simp [insertChain]
  | cons y ys => unfold insertChain; split <;> simp

theorem delete_ids (id : Nat) (l : List Entry) : (deleteChain id l).map (·.id) = (l.map (·.id)).erase id := by
  induction l with
  | nil => rfl
  | cons x xs ih =>
    unfold deleteChain
    by_cases h : x.id = id
    · rw [if_pos h, List.map_cons, h, List.erase_cons_head]
      cases xs with
      | nil => rfl
      | cons y ys => rfl
    · rw [if_neg h, List.map_cons, List.map_cons, ih, List.erase_cons_tail (by simpa using h)]

theorem delete_mem {id : Nat} {l : List Entry} {x : Entry} (h : x ∈ deleteChain id l) : ∃ y ∈ l, x.id = y.id ∧ x.fired = y.fired := by
  induction l with
  | nil => cases h
  | cons y ys ih =>
    unfold deleteChain at h
    split at h
    · cases ys with
      | nil => cases h
      | cons z zs =>
        simp only [addNext, List.mem_cons] at h
        rcases h with rfl | h
        · exact ⟨z, by simp, rfl, rfl⟩
        · exact ⟨x, by simp [h], rfl, rfl⟩
    · rw [List.mem_cons] at h
      rcases h with rfl | h
      · exact ⟨x, by simp, rfl, rfl⟩
      · obtain ⟨z, hz, h⟩ := ih h
        exact ⟨z, by simp [hz], h⟩

theorem markFired_ids (l : List Entry) : (markFired l).map (·.id) = l.map (·.id) := by
  induction l with
  | nil => rfl
  | cons x xs ih => unfold markFired; split <;> simp [ih]

/-! ### What `setup_next_timer` does not change -/

theorem setup_timers (st : St) : (setup st).timers = st.timers := by unfold setup; split <;> rfl
theorem setup_chain (st : St) : (setup st).chain = st.chain := by unfold setup; split <;> rfl
theorem setup_pipe (st : St) : (setup st).pipe = st.pipe := by unfold setup; split <;> rfl
theorem setup_batches (st : St) : (setup st).batches = st.batches := by unfold setup; split <;> rfl
theorem setup_log (st : St) : (setup st).log = st.log := by unfold setup; split <;> rfl
theorem setup_now (st : St) : (setup st).now = st.now := by unfold setup; split <;> rfl

theorem setup_handler (st : St) (h : (setup st).handler = true) : st.chain ≠ [] := by
  unfold setup at h
  split at h
  · rename_i hh
    intro hc
    rw [hc] at hh
    cases hh
  · cases h

/-- Projections of `insert_timer` and `delete_timer`. -/
theorem insertTimer_frame (st : St) (id : Nat) (t : Timer) :
    (insertTimer st id t).pipe = st.pipe ∧ (insertTimer st id t).batches = st.batches ∧ (insertTimer st id t).log = st.log ∧ (insertTimer st id t).now = st.now := by
  unfold insertTimer
  dsimp only
  repeat' split
  all_goals simp [setup_pipe, setup_batches, setup_log, setup_now, St.put]

theorem deleteTimer_frame (st : St) (id : Nat) (t : Timer) :
    (deleteTimer st id t).pipe = st.pipe ∧ (deleteTimer st id t).batches = st.batches ∧ (deleteTimer st id t).log = st.log ∧ (deleteTimer st id t).now = st.now := by
  unfold deleteTimer
  dsimp only
  repeat' split
  all_goals simp [setup_pipe, setup_batches, setup_log, setup_now, St.put]

theorem insertTimer_chain (st : St) (id : Nat) (t : Timer) :
    (insertTimer st id t).chain = if t.secs > 0 ∨ t.msecs > 0 then insertChain ⟨id, t.secs, t.msecs, false⟩ st.chain else st.chain := by
  unfold insertTimer
  dsimp only
  repeat' split
  all_goals simp [setup_chain, St.put]

theorem insertTimer_timers (st : St) (id : Nat) (t : Timer) (j : Nat) :
    (insertTimer st id t).timers j = if j = id then some { t with deleted := if t.secs > 0 ∨ t.msecs > 0 then false else t.deleted } else st.timers j := by
  unfold insertTimer
  dsimp only
  repeat' split
  all_goals simp_all [setup_timers, St.put]

theorem deleteTimer_chain (st : St) (id : Nat) (t : Timer) : (deleteTimer st id t).chain = deleteChain id st.chain := by
  unfold deleteTimer
  dsimp only
  split <;> simp [setup_chain]

theorem deleteTimer_timers (st : St) (id : Nat) (t : Timer) (j : Nat) :
    (deleteTimer st id t).timers j = if j = id then some { t with deleted := true } else st.timers j := by
  unfold deleteTimer
  dsimp only
  split <;> simp [setup_timers, St.put]

/-! ### The invariant of every history -/

/-- What always holds: SIGALRM is caught only if there is an entry, and the entries belong to
different timers that are not marked as deleted. -/
structure Sane (st : St) : Prop where
  caught : st.handler = true → st.chain ≠ []
  nodup : (st.chain.map (·.id)).Nodup
  alive : ∀ x ∈ st.chain, ∃ t, st.timers x.id = some t ∧ t.deleted = false

theorem Sane.setup {st : St} (h1 : (st.chain.map (·.id)).Nodup) (h2 : ∀ x ∈ st.chain, ∃ t, st.timers x.id = some t ∧ t.deleted = false) : Sane (setup st) :=
  ⟨fun h => by rw [setup_chain]; exact setup_handler st h, by rw [setup_chain]; exact h1, by rw [setup_chain, setup_timers]; exact h2⟩

theorem sane_delete {st : St} (h : Sane st) (id : Nat) (t : Timer) : Sane (deleteTimer st id t) ∧ id ∉ (deleteTimer st id t).chain.map (·.id) := by
  have hn : ((deleteChain id st.chain).map (·.id)).Nodup := by rw [delete_ids]; exact h.nodup.erase id
  have hid : id ∉ (deleteChain id st.chain).map (·.id) := by rw [delete_ids]; exact h.nodup.not_mem_erase
  have ha : ∀ x ∈ deleteChain id st.chain, ∃ u, (if x.id = id then some { t with deleted := true } else st.timers x.id) = some u ∧ u.deleted = false := by
    intro x hx
    have hne : x.id ≠ id := fun he => hid (List.mem_map.2 ⟨x, hx, he⟩)
    obtain ⟨y, hy, hxy, _⟩ := delete_mem hx
    rw [if_neg hne, hxy]
    exact h.alive y hy
  refine ⟨?_, by rw [deleteTimer_chain]; exact hid⟩
  unfold deleteTimer
  dsimp only
  split
  · exact Sane.setup hn ha
  · rename_i hh
    refine ⟨fun hc hnil => ?_, hn, ha⟩
    have h1 := h.caught hc
    cases hch : st.chain with
    | nil => exact h1 hch
    | cons x xs =>
      rw [hch] at hh
      have hx : x.id ≠ id := by simpa using hh
      dsimp only at hnil
      rw [hch, deleteChain, if_neg hx] at hnil
      cases hnil

theorem sane_insert {st : St} (h : Sane st) (id : Nat) (t : Timer) (hid : id ∉ st.chain.map (·.id)) : Sane (insertTimer st id t) := by
  have keep : ∀ x ∈ st.chain, ∀ u, ∃ v, (if x.id = id then some u else st.timers x.id) = some v ∧ v.deleted = false := by
    intro x hx u
    have hne : x.id ≠ id := fun he => hid (List.mem_map.2 ⟨x, hx, he⟩)
    rw [if_neg hne]
    exact h.alive x hx
  unfold insertTimer
  split
  · have hn : ((insertChain ⟨id, t.secs, t.msecs, false⟩ st.chain).map (·.id)).Nodup :=
      (insert_perm _ _).nodup_iff.2 (List.nodup_cons.2 ⟨hid, h.nodup⟩)
    have ha : ∀ x ∈ insertChain ⟨id, t.secs, t.msecs, false⟩ st.chain, ∃ v, (if x.id = id then some { t with deleted := false } else st.timers x.id) = some v ∧ v.deleted = false := by
      intro x hx
      rcases insert_mem hx with ⟨h1, _⟩ | ⟨y, hy, h1, _⟩
      · rw [if_pos h1]; exact ⟨_, rfl, rfl⟩
      · rw [h1]; exact keep y hy _
    dsimp only
    split
    · exact Sane.setup hn ha
    · exact ⟨fun _ => insert_ne _ _, hn, ha⟩
  · exact ⟨h.caught, h.nodup, fun x hx => keep x hx _⟩

theorem sane_signal {st : St} (h1 : (st.chain.map (·.id)).Nodup) (h2 : ∀ x ∈ st.chain, ∃ t, st.timers x.id = some t ∧ t.deleted = false) (h3 : st.chain ≠ []) :
    ∃ st', signal st = some st' ∧ Sane st' ∧ st'.chain.map (·.id) = st.chain.map (·.id) ∧ st'.timers = st.timers ∧ st'.batches = st.batches ∧ st'.log = st.log := by
  unfold signal
  cases hc : st.chain with
  | nil => exact absurd hc h3
  | cons x xs =>
    have hids : (markFired ({ x with secs := 0, msecs := 0 } :: xs)).map (·.id) = (x :: xs).map (·.id) := by rw [markFired_ids]; rfl
    refine ⟨_, rfl, ⟨fun _ hn => ?_, ?_, ?_⟩, hids, rfl, rfl, rfl⟩
    · have := congrArg (List.map (·.id)) hn
      simp only [hids] at this
      cases this
    · show ((markFired _).map _).Nodup
      rw [hids, ← hc]; exact h1
    · intro y hy
      have : y.id ∈ (x :: xs).map (·.id) := by rw [← hids]; exact List.mem_map.2 ⟨y, hy, rfl⟩
      rw [← hc, List.mem_map] at this
      obtain ⟨z, hz, he⟩ := this
      show ∃ t, st.timers y.id = some t ∧ _
      rw [← he]
      exact h2 z hz

theorem sane_step {st : St} (h : Sane st) (e : Ev) : ∃ st', step st e = some st' ∧ Sane st' := by
  cases e with
  | make id s m =>
    refine ⟨_, rfl, ?_⟩
    split
    · exact h
    · rename_i hn
      refine sane_insert h id _ ?_
      intro hm
      obtain ⟨x, hx, rfl⟩ := List.mem_map.1 hm
      obtain ⟨t, ht, _⟩ := h.alive x hx
      rw [ht] at hn
      exact hn rfl
  | set id time =>
    refine ⟨_, rfl, ?_⟩
    cases ht : st.timers id with
    | none => exact h
    | some t =>
      have := sane_delete h id t
      exact sane_insert this.1 id _ this.2
  | delete id =>
    refine ⟨_, rfl, ?_⟩
    cases ht : st.timers id with
    | none => exact h
    | some t => exact (sane_delete h id t).1
  | tick =>
    show ∃ st', tick st = some st' ∧ Sane st'
    unfold tick
    split
    · split
      · rename_i hh
        obtain ⟨st', h1, h2, _⟩ := sane_signal (st := { st with now := st.now + 1, alarm := none }) h.nodup h.alive (h.caught hh)
        exact ⟨st', h1, h2⟩
      · exact ⟨_, rfl, h.caught, h.nodup, h.alive⟩
    · exact ⟨_, rfl, h.caught, h.nodup, h.alive⟩
  | dispatch =>
    refine ⟨_, rfl, ?_⟩
    unfold dispatch
    split
    · exact h
    · have hsub : (st.chain.dropWhile (·.fired)).Sublist st.chain := List.dropWhile_sublist _
      exact Sane.setup ((hsub.map _).nodup h.nodup) (fun x hx => h.alive x (hsub.mem hx))
  | call =>
    refine ⟨_, rfl, ?_⟩
    unfold call
    split
    · exact h
    · split <;> exact ⟨h.caught, h.nodup, h.alive⟩
  | ret =>
    refine ⟨_, rfl, ?_⟩
    unfold ret
    split
    · exact h
    · split
      · exact ⟨h.caught, h.nodup, h.alive⟩
      · exact h

theorem sane_run {st : St} (h : Sane st) : ∀ es, ∃ st', run st es = some st' ∧ Sane st' := by
  intro es
  induction es generalizing st with
  | nil => exact ⟨st, rfl, h⟩
  | cons e es ih =>
    obtain ⟨st', h1, h2⟩ := sane_step h e
    obtain ⟨st'', h3, h4⟩ := ih h2
    exact ⟨st'', by rw [run, h1]; exact h3, h4⟩

theorem sane_init : Sane {} := ⟨by simp, by simp, by simp⟩

theorem run_append (st : St) (es fs : List Ev) : run st (es ++ fs) = (run st es).bind fun st => run st fs := by
  induction es generalizing st with
  | nil => rfl
  | cons e es ih =>
    rw [List.cons_append, run, run]
    cases step st e with
    | none => rfl
    | some st' => exact ih st'

/-! ### How often a timer is called -/

/-- The calls of a timer's function so far. -/
def St.calls (st : St) (id : Nat) : Nat := (st.log.filter fun p => p.2 = id).length

/-- Calls made, and entries that may become calls. -/
def St.weight (st : St) (id : Nat) : Nat := st.calls id + st.batches.flatten.count id + (st.chain.map (·.id)).count id

/-- Whether an event starts the timer. -/
def starts (id : Nat) : Ev → Bool
  | .make j _ _ => j == id
  | .set j _ => j == id
  | _ => false

theorem weight_setup (st : St) (id : Nat) : (setup st).weight id = st.weight id := by
  unfold St.weight St.calls; rw [setup_log, setup_batches, setup_chain]

theorem weight_insert (st : St) (id j : Nat) (t : Timer) : (insertTimer st j t).weight id ≤ st.weight id + (if j = id then 1 else 0) := by
  obtain ⟨_, h2, h3, _⟩ := insertTimer_frame st j t
  unfold St.weight St.calls
  rw [h2, h3, insertTimer_chain]
  split
  · rw [(insert_perm _ _).count_eq, List.count_cons]
    by_cases h : j = id <;> simp [h] <;> omega
  · omega

theorem weight_delete (st : St) (id j : Nat) (t : Timer) : (deleteTimer st j t).weight id ≤ st.weight id := by
  obtain ⟨_, h2, h3, _⟩ := deleteTimer_frame st j t
  unfold St.weight St.calls
  rw [h2, h3, deleteTimer_chain, delete_ids]
  have : List.count id ((st.chain.map (·.id)).erase j) ≤ List.count id (st.chain.map (·.id)) := List.Sublist.count_le _ List.erase_sublist
  omega

theorem weight_step {st st' : St} {e : Ev} (id : Nat) (h : step st e = some st') : st'.weight id ≤ st.weight id + (if starts id e then 1 else 0) := by
  cases e with
  | make j s m =>
    cases h
    split
    · omega
    · have := weight_insert st id j ⟨(fixTime s m).1, (fixTime s m).2, false⟩
      simpa [starts] using this
  | set j time =>
    simp only [step, Option.some.injEq] at h
    subst h
    cases ht : st.timers j with
    | none => rw [Option.elim_none]; omega
    | some t =>
      rw [Option.elim_some]
      have h1 := weight_delete st id j t
      refine (weight_insert _ id j _).trans ?_
      simp only [starts, beq_iff_eq]
      omega
  | delete j =>
    cases h
    cases ht : st.timers j with
    | none => rw [Option.elim_none]; omega
    | some t => rw [Option.elim_some]; have := weight_delete st id j t; omega
  | tick =>
    change tick st = some st' at h
    unfold tick at h
    have key : ∀ s : St, signal s = some st' → st'.weight id = s.weight id := by
      intro s hs
      unfold signal at hs
      split at hs
      · cases hs
      · rename_i x xs hc
        cases hs
        unfold St.weight St.calls
        dsimp only
        rw [markFired_ids, hc]
        rfl
    split at h
    · split at h
      · have := key _ h
        have h2 : St.weight { st with now := st.now + 1, alarm := none } id = st.weight id := rfl
        omega
      · cases h
        exact Nat.le_add_right _ _
    · cases h
      exact Nat.le_add_right _ _
  | dispatch =>
    cases h
    unfold dispatch
    split
    · omega
    · rw [weight_setup]
      unfold St.weight St.calls
      dsimp only
      have : st.chain.map (·.id) = (st.chain.takeWhile (·.fired)).map (·.id) ++ (st.chain.dropWhile (·.fired)).map (·.id) := by
        rw [← List.map_append, List.takeWhile_append_dropWhile]
      rw [this, List.count_append, List.flatten_cons, List.count_append]
      simp [starts]
      omega
  | call =>
    cases h
    unfold call
    split
    · omega
    · rename_i b bs hb
      have hd : List.count id (b.dropWhile st.dead) ≤ List.count id b := List.Sublist.count_le _ (List.dropWhile_sublist _)
      split
      · unfold St.weight St.calls
        dsimp only
        rw [hb]
        simp
        omega
      · rename_i j b' hb'
        rw [hb'] at hd
        unfold St.weight St.calls
        dsimp only
        rw [hb, List.filter_append, List.length_append]
        rw [List.count_cons] at hd
        simp only [List.flatten_cons, List.count_append, List.filter_cons, List.filter_nil]
        by_cases h : j = id <;> simp [h, starts] at hd ⊢ <;> omega
  | ret =>
    cases h
    unfold ret
    split
    · omega
    · rename_i b bs hb
      split
      · unfold St.weight St.calls
        dsimp only
        rw [hb]
        simp
        omega
      · omega

theorem weight_run (id : Nat) : ∀ (es : List Ev) (st st' : St), run st es = some st' → st'.weight id ≤ st.weight id + (es.filter (starts id)).length := by
  intro es
  induction es with
  | nil => intro st st' h; cases h; simp
  | cons e es ih =>
    intro st st' h
    rw [run] at h
    cases hs : step st e with
    | none => rw [hs] at h; cases h
    | some s1 =>
      rw [hs, Option.bind_some] at h
      have h1 := ih _ _ h
      have h2 := weight_step id hs
      rw [List.filter_cons]
      split
      · rename_i hst; rw [if_pos hst] at h2; simp; omega
      · rename_i hst; rw [if_neg hst] at h2; omega

/-! ### Deleted timers -/

/-- The timer is marked as deleted, and is not in the chain. -/
def Off (st : St) (id : Nat) : Prop := st.dead id = true ∧ id ∉ st.chain.map (·.id)

theorem off_step {st st' : St} {e : Ev} {id : Nat} (h : Off st id) (he : starts id e = false) (hs : step st e = some st') :
    Off st' id ∧ st'.calls id = st.calls id := by
  obtain ⟨hd, hc⟩ := h
  have hins : ∀ (s : St) (j : Nat) (t : Timer), j ≠ id → Off s id → Off (insertTimer s j t) id ∧ (insertTimer s j t).calls id = s.calls id := by
    intro s j t hj ho
    obtain ⟨_, h2, h3, _⟩ := insertTimer_frame s j t
    refine ⟨⟨?_, ?_⟩, by unfold St.calls; rw [h3]⟩
    · unfold St.dead; rw [insertTimer_timers, if_neg (Ne.symm hj)]; exact ho.1
    · rw [insertTimer_chain]
      split
      · intro hm
        rw [(insert_perm _ _).mem_iff, List.mem_cons] at hm
        rcases hm with h | h
        · exact hj h.symm
        · exact ho.2 h
      · exact ho.2
  have hdel : ∀ (s : St) (j : Nat) (t : Timer), Off s id → Off (deleteTimer s j t) id ∧ (deleteTimer s j t).calls id = s.calls id := by
    intro s j t ho
    obtain ⟨_, h2, h3, _⟩ := deleteTimer_frame s j t
    refine ⟨⟨?_, ?_⟩, by unfold St.calls; rw [h3]⟩
    · unfold St.dead; rw [deleteTimer_timers]
      split
      · rfl
      · exact ho.1
    · rw [deleteTimer_chain, delete_ids]
      exact fun hm => ho.2 (List.mem_of_mem_erase hm)
  cases e with
  | make j s m =>
    cases hs
    split
    · exact ⟨⟨hd, hc⟩, rfl⟩
    · exact hins st j _ (by simpa [starts] using he) ⟨hd, hc⟩
  | set j time =>
    simp only [step, Option.some.injEq] at hs
    subst hs
    cases ht : st.timers j with
    | none => exact ⟨⟨hd, hc⟩, rfl⟩
    | some t =>
      rw [Option.elim_some]
      obtain ⟨h1, h2⟩ := hdel st j t ⟨hd, hc⟩
      obtain ⟨h3, h4⟩ := hins _ j _ (by simpa [starts] using he) h1
      exact ⟨h3, h4.trans h2⟩
  | delete j =>
    cases hs
    cases ht : st.timers j with
    | none => exact ⟨⟨hd, hc⟩, rfl⟩
    | some t => exact hdel st j t ⟨hd, hc⟩
  | tick =>
    change tick st = some st' at hs
    unfold tick at hs
    have key : ∀ s : St, s.chain = st.chain → s.timers = st.timers → s.log = st.log → signal s = some st' → Off st' id ∧ st'.calls id = st.calls id := by
      intro s e1 e2 e3 hh
      unfold signal at hh
      split at hh
      · cases hh
      · rename_i x xs hx
        cases hh
        refine ⟨⟨?_, ?_⟩, ?_⟩
        · unfold St.dead; dsimp only; rw [e2]; exact hd
        · dsimp only; rw [markFired_ids]; rw [← e1, hx] at hc; exact hc
        · unfold St.calls; dsimp only; rw [e3]
    split at hs
    · split at hs
      · exact key { st with now := st.now + 1, alarm := none } rfl rfl rfl hs
      · cases hs; exact ⟨⟨hd, hc⟩, rfl⟩
    · cases hs; exact ⟨⟨hd, hc⟩, rfl⟩
  | dispatch =>
    cases hs
    unfold dispatch
    split
    · exact ⟨⟨hd, hc⟩, rfl⟩
    · refine ⟨⟨?_, ?_⟩, ?_⟩
      · unfold St.dead; rw [setup_timers]; exact hd
      · rw [setup_chain]
        intro hm
        obtain ⟨x, hx, he⟩ := List.mem_map.1 hm
        exact hc (List.mem_map.2 ⟨x, (List.dropWhile_sublist _).mem hx, he⟩)
      · unfold St.calls; rw [setup_log]
  | call =>
    cases hs
    unfold call
    split
    · exact ⟨⟨hd, hc⟩, rfl⟩
    · rename_i b bs hb
      split
      · exact ⟨⟨hd, hc⟩, rfl⟩
      · rename_i j b' hb'
        refine ⟨⟨hd, hc⟩, ?_⟩
        have hj : st.dead j = false := by
          have := List.head?_dropWhile_not st.dead b
          rw [hb'] at this
          simpa using this
        have hne : j ≠ id := by rintro rfl; rw [hd] at hj; cases hj
        unfold St.calls
        simp [List.filter_append, hne]
  | ret =>
    cases hs
    unfold ret
    split
    · exact ⟨⟨hd, hc⟩, rfl⟩
    · split <;> exact ⟨⟨hd, hc⟩, rfl⟩

theorem off_run {id : Nat} : ∀ (es : List Ev) (st st' : St), Off st id → (∀ e ∈ es, starts id e = false) → run st es = some st' →
    Off st' id ∧ st'.calls id = st.calls id := by
  intro es
  induction es with
  | nil => intro st st' h _ hr; cases hr; exact ⟨h, rfl⟩
  | cons e es ih =>
    intro st st' h he hr
    rw [run] at hr
    cases hs : step st e with
    | none => rw [hs] at hr; cases hr
    | some s1 =>
      rw [hs, Option.bind_some] at hr
      obtain ⟨h1, h2⟩ := off_step h (he e (by simp)) hs
      obtain ⟨h3, h4⟩ := ih _ _ h1 (fun e' h' => he e' (by simp [h'])) hr
      exact ⟨h3, h4.trans h2⟩

end Rep.Timers
