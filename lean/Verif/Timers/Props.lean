/-
C29.
-/
import Verif.Timers.Wf

namespace Rep.Timers

/-! ### Every history -/

/-- C29.  The assertion in the signal handler never fails. -/
theorem C29_no_abort (es : List Ev) : ∃ st, run {} es = some st := by
  obtain ⟨st, h, _⟩ := sane_run sane_init es
  exact ⟨st, h⟩

/-- C29.  A timer's function is called at most once for each time that the timer was set. -/
theorem C29_once {es : List Ev} {st : St} (h : run {} es = some st) (id : Nat) : st.calls id ≤ (es.filter (starts id)).length := by
  have := weight_run id es {} st h
  unfold St.weight at this
  simp [St.calls] at this ⊢
  omega

/-- C29.  A deleted timer's function is not called until the timer is set again. -/
theorem C29_deleted {es fs : List Ev} {id : Nat} {st st' : St} (h : run {} (es ++ [.delete id]) = some st) (hk : (st.timers id).isSome)
    (hf : ∀ e ∈ fs, starts id e = false) (h' : run st fs = some st') : st'.calls id = st.calls id := by
  rw [run_append] at h
  obtain ⟨s1, h1, hs⟩ := sane_run sane_init es
  rw [h1, Option.bind_some] at h
  have h2 : step s1 (.delete id) = some st := by
    rw [run] at h
    cases hx : step s1 (.delete id) with
    | none => rw [hx] at h; cases h
    | some s2 => rw [hx, Option.bind_some] at h; cases h; rfl
  simp only [step, Option.some.injEq] at h2
  subst h2
  cases ht : s1.timers id with
  | none => rw [ht, Option.elim_none, ht] at hk; cases hk
  | some t =>
    rw [ht, Option.elim_some] at h'
    rw [Option.elim_some]
    refine (off_run fs _ _ ⟨?_, (sane_delete hs id t).2⟩ hf h').2
    unfold St.dead
    rw [deleteTimer_timers, if_pos rfl]
    rfl

/-! ### Pending timers are called in the end -/

/-- A millisecond passes, and the event loop looks at the pipe. -/
def rounds (n : Nat) : List Ev := (List.replicate n [Ev.tick, Ev.dispatch]).flatten

/-- The handler goes on. -/
def drain (n : Nat) : List Ev := (List.replicate n [Ev.call, Ev.ret]).flatten

def total (l : List Entry) : Nat := (l.map fun x => x.ms.toNat).sum

/-- What remains before every pending timer has been taken by the input handler. -/
def rest (st : St) (F U : List Entry) (b : Nat) : Nat :=
  if F = [] then total U * (st.pipe + 1) + b - st.now else total U * (st.pipe + 1) + 1

theorem total_Z (xs : List Entry) : total (Y xs) = total xs := by
  induction xs with
  | nil => rfl
  | cons x xs ih =>
    unfold Y
    rw [List.dropWhile_cons]
    split
    · rename_i h
      have : x.ms = 0 := by simpa using h
      rw [show List.dropWhile (fun x : Entry => decide (x.ms = 0)) xs = Y xs from rfl, ih]
      simp [total, this]
    · rfl

theorem zy_ids (xs : List Entry) : (Z xs).map (·.id) ++ (Y xs).map (·.id) = xs.map (·.id) := by
  rw [← List.map_append]
  unfold Z Y
  rw [List.takeWhile_append_dropWhile]

theorem total_head {x : Entry} (xs : List Entry) : total (x :: xs) = x.ms.toNat + total xs := by simp [total]

theorem round_step {st : St} {F U : List Entry} {b : Nat} (h : Wf st F U b) :
    ∃ st' F' U' b', run st (rounds 1) = some st' ∧ Wf st' F' U' b' ∧ st'.timers = st.timers ∧
      (∀ id, id ∈ (F ++ U).map (·.id) ∨ id ∈ st.batches.flatten → id ∈ (F' ++ U').map (·.id) ∨ id ∈ st'.batches.flatten) ∧
      (rest st' F' U' b' < rest st F U b ∨ (F' = [] ∧ U' = [])) := by
  obtain ⟨s1, h1, _⟩ := sane_step h.sane .tick
  have hr : run st (rounds 1) = some (dispatch s1) := by
    show (step st .tick).bind _ = _
    rw [h1]
    rfl
  obtain ⟨k1, k2, k3, -, hc | ⟨rfl, rfl, hc⟩ | ⟨rfl, x, xs, rfl, hlt, hch, hc⟩ | ⟨rfl, x, xs, rfl, hd, hp, F', hF', hc⟩⟩ := wf_tick h h1
  · obtain ⟨hF, hch, hw⟩ := hc
    have hp := hw.pipe hF
    obtain ⟨d1, d2, d3, -, d5, d6⟩ := wf_dispatch hw hp
    refine ⟨_, _, _, _, hr, d6, by rw [d2, k2], ?_, Or.inl ?_⟩
    · intro id hid
      rw [d3, k3]
      simp only [List.map_append, List.mem_append, List.nil_append, List.flatten_cons] at hid ⊢
      tauto
    · have hpe : s1.pipe = st.pipe := by
        have : tick st = some s1 := h1
        unfold tick at this
        rw [if_neg (by rw [h.still hF]; simp)] at this
        cases this
        rfl
      unfold rest
      rw [if_pos rfl, if_neg hF, d1, d5, hpe]
      rw [hpe] at hp
      have : total U * (st.pipe - 1 + 1) ≤ total U * (st.pipe + 1) := Nat.mul_le_mul_left _ (by omega)
      omega
  · by_cases hp : 0 < s1.pipe
    · obtain ⟨d1, d2, d3, -, d5, d6⟩ := wf_dispatch hc hp
      refine ⟨_, _, _, _, hr, d6, by rw [d2, k2], ?_, Or.inr ⟨rfl, rfl⟩⟩
      intro id hid
      rw [d3, k3]
      simpa using hid
    · have hd : dispatch s1 = s1 := by unfold dispatch; rw [if_pos (by omega)]
      rw [hd] at hr
      refine ⟨_, _, _, _, hr, hc, k2, ?_, Or.inr ⟨rfl, rfl⟩⟩
      rw [k3]; exact fun _ => id
  · have hx0 := h.first x rfl
    have hpe : s1.pipe = st.pipe := by
      have : tick st = some s1 := h1
      unfold tick at this
      rw [if_neg (by rw [(h.armed rfl x rfl).2.1]; simp; omega)] at this
      cases this
      rfl
    have hpast := h.past
    by_cases hp : 0 < s1.pipe
    · obtain ⟨d1, d2, d3, -, d5, d6⟩ := wf_dispatch hc hp
      refine ⟨_, _, _, _, hr, d6, by rw [d2, k2], ?_, Or.inl ?_⟩
      · intro id hid
        rw [d3, k3]
        simp only [List.map_append, List.mem_append, List.nil_append, List.flatten_cons] at hid ⊢
        simp only [List.map_nil, List.not_mem_nil, false_or] at hid ⊢
        exact hid
      · unfold rest
        rw [if_pos rfl, if_pos rfl, d1, d5, hpe]
        rw [hpe] at hp
        have e1 : st.pipe - 1 + 1 = st.pipe := by omega
        rw [e1, total_head, Nat.mul_add (x.ms.toNat + total xs)]
        omega
    · have hd : dispatch s1 = s1 := by unfold dispatch; rw [if_pos (by omega)]
      rw [hd] at hr
      refine ⟨_, _, _, _, hr, hc, k2, ?_, Or.inl ?_⟩
      · rw [k3]; exact fun _ => id
      · unfold rest
        rw [if_pos rfl, if_pos rfl, k1, hpe]
        have : total (x :: xs) * (st.pipe + 1) ≥ x.ms.toNat := by
          rw [total_head]
          exact Nat.le_trans (Nat.le_add_right _ (total xs)) (Nat.le_mul_of_pos_right _ (by omega))
        omega
  · have hx0 := h.first x rfl
    have hpast := h.past
    obtain ⟨d1, d2, d3, -, d5, d6⟩ := wf_dispatch hc (by omega)
    refine ⟨_, _, _, _, hr, d6, by rw [d2, k2], ?_, Or.inl ?_⟩
    · intro id hid
      rw [d3, k3, hF']
      have hz := zy_ids xs
      simp only [List.nil_append, List.map_cons, List.mem_cons, List.flatten_cons, List.mem_append, ← hz] at hid ⊢
      tauto
    · unfold rest
      rw [if_pos rfl, if_pos rfl, d1, d5, hp, total_Z, total_head, k1, Nat.add_mul]
      have : x.ms.toNat * (st.pipe + 1) ≥ x.ms.toNat := Nat.le_mul_of_pos_right _ (by omega)
      have e1 : st.pipe + 1 - 1 + 1 = st.pipe + 1 := by omega
      rw [e1]
      omega

theorem rounds_succ (n : Nat) : rounds (n + 1) = rounds 1 ++ rounds n := by
  unfold rounds
  rw [List.replicate_succ, List.flatten_cons]
  rfl

theorem drain_succ (n : Nat) : drain (n + 1) = [.call, .ret] ++ drain n := by
  unfold drain
  rw [List.replicate_succ, List.flatten_cons]

theorem rounds_taken (id : Nat) : ∀ (k : Nat) (st : St) (F U : List Entry) (b : Nat), Wf st F U b → rest st F U b ≤ k →
    id ∈ (F ++ U).map (·.id) ∨ id ∈ st.batches.flatten →
    ∀ n, k ≤ n → ∃ st', run st (rounds n) = some st' ∧ st'.timers = st.timers ∧ id ∈ st'.batches.flatten := by
  have empty : ∀ (n : Nat) (st : St) (b : Nat), Wf st [] [] b → id ∈ st.batches.flatten →
      ∃ st', run st (rounds n) = some st' ∧ st'.timers = st.timers ∧ id ∈ st'.batches.flatten := by
    intro n
    induction n with
    | zero => intro st b h hid; exact ⟨st, rfl, rfl, hid⟩
    | succ n ih =>
      intro st b h hid
      obtain ⟨s1, h1, _⟩ := sane_step h.sane .tick
      obtain ⟨k1, k2, k3, -, hc⟩ := wf_tick h h1
      have hw : ∃ b', Wf s1 [] [] b' := by
        rcases hc with hc | ⟨-, -, hc⟩ | ⟨-, x, xs, hx, -⟩ | ⟨-, x, xs, hx, -⟩
        · exact absurd rfl hc.1
        · exact ⟨_, hc⟩
        · cases hx
        · cases hx
      obtain ⟨b', hw⟩ := hw
      have hd : (∃ b'', Wf (dispatch s1) [] [] b'') ∧ (dispatch s1).timers = s1.timers ∧ (dispatch s1).batches.flatten = s1.batches.flatten := by
        by_cases hp : 0 < s1.pipe
        · obtain ⟨d1, d2, d3, -, d5, d6⟩ := wf_dispatch hw hp
          exact ⟨⟨_, d6⟩, d2, by rw [d3]; rfl⟩
        · have hd : dispatch s1 = s1 := by unfold dispatch; rw [if_pos (by omega)]
          rw [hd]; exact ⟨⟨_, hw⟩, rfl, rfl⟩
      obtain ⟨⟨b'', hw2⟩, d2, d3⟩ := hd
      obtain ⟨st', r1, r2, r3⟩ := ih _ _ hw2 (by rw [d3, k3]; exact hid)
      refine ⟨st', ?_, by rw [r2, d2, k2], r3⟩
      rw [rounds_succ, run_append]
      have hr : run st (rounds 1) = some (dispatch s1) := by
        show (step st .tick).bind _ = _
        rw [h1]
        rfl
      rw [hr, Option.bind_some, r1]
  intro k
  induction k with
  | zero =>
    intro st F U b h hk hid n _
    have hF : F = [] := by
      by_contra hF
      unfold rest at hk
      rw [if_neg hF] at hk
      omega
    have hU : U = [] := by
      cases hU : U with
      | nil => rfl
      | cons x xs =>
        have := h.armed hF x (by rw [hU]; rfl)
        have h1 : total U * (st.pipe + 1) ≥ x.ms.toNat := by
          rw [hU, total_head]
          exact Nat.le_trans (Nat.le_add_right _ (total xs)) (Nat.le_mul_of_pos_right _ (by omega))
        unfold rest at hk
        rw [if_pos hF] at hk
        omega
    subst hF hU
    exact empty n st b h (by simpa using hid)
  | succ k ih =>
    intro st F U b h hk hid n hn
    obtain ⟨st1, F', U', b', r1, w1, t1, m1, hc⟩ := round_step h
    obtain ⟨m, rfl⟩ : ∃ m, n = m + 1 := ⟨n - 1, by omega⟩
    rw [rounds_succ, run_append, r1, Option.bind_some]
    rcases hc with hc | ⟨rfl, rfl⟩
    · obtain ⟨st', q1, q2, q3⟩ := ih st1 F' U' b' w1 (by omega) (m1 id hid) m (by omega)
      exact ⟨st', q1, by rw [q2, t1], q3⟩
    · obtain ⟨st', q1, q2, q3⟩ := empty m st1 b' w1 (by simpa using m1 id hid)
      exact ⟨st', q1, by rw [q2, t1], q3⟩

theorem mem_dropWhile {α : Type} {p : α → Bool} {l : List α} {x : α} (h : x ∈ l) (hx : p x = false) : x ∈ l.dropWhile p := by
  induction l with
  | nil => cases h
  | cons y ys ih =>
    rw [List.dropWhile_cons]
    split
    · rename_i hy
      rw [List.mem_cons] at h
      rcases h with rfl | h
      · rw [hx] at hy; cases hy
      · exact ih h
    · exact h

theorem drain_calls (id : Nat) : ∀ (k : Nat) (st : St), st.batches.flatten.length + st.batches.length ≤ k → st.dead id = false →
    id ∈ st.batches.flatten ∨ id ∈ st.log.map Prod.snd → ∀ n, k ≤ n → ∃ st', run st (drain n) = some st' ∧ id ∈ st'.log.map Prod.snd := by
  have keep : ∀ (n : Nat) (st : St), id ∈ st.log.map Prod.snd → ∃ st', run st (drain n) = some st' ∧ id ∈ st'.log.map Prod.snd := by
    intro n
    induction n with
    | zero => intro st h; exact ⟨st, rfl, h⟩
    | succ n ih =>
      intro st h
      rw [drain_succ, run_append]
      have hr : run st [.call, .ret] = some (ret (call st)) := rfl
      rw [hr, Option.bind_some]
      apply ih
      rw [(ret_frame (call st)).2.2.2.2.2.2]
      unfold call
      split
      · exact h
      · split
        · exact h
        · simp only [List.map_append, List.mem_append]; exact Or.inl h
  intro k
  induction k with
  | zero =>
    intro st hk _ hid n _
    rcases hid with hid | hid
    · have : st.batches = [] := List.length_eq_zero_iff.1 (by omega)
      rw [this] at hid; cases hid
    · exact keep n st hid
  | succ k ih =>
    intro st hk hd hid n hn
    rcases hid with hid | hid
    · obtain ⟨m, rfl⟩ : ∃ m, n = m + 1 := ⟨n - 1, by omega⟩
      rw [drain_succ, run_append]
      have hr : run st [.call, .ret] = some (ret (call st)) := rfl
      rw [hr, Option.bind_some]
      cases hb : st.batches with
      | nil => rw [hb] at hid; cases hid
      | cons b bs =>
        rw [hb] at hid hk
        simp only [List.flatten_cons, List.mem_append, List.length_append, List.length_cons] at hid hk
        cases hdw : b.dropWhile st.dead with
        | nil =>
          have e1 : call st = { st with batches := [] :: bs } := by unfold call; rw [hb]; dsimp only; rw [hdw]
          have e2 : ret (call st) = { st with batches := bs } := by rw [e1]; rfl
          rw [e2]
          refine ih { st with batches := bs } (by show bs.flatten.length + bs.length ≤ k; omega) hd (Or.inl ?_) m (by omega)
          rcases hid with hid | hid
          · have := mem_dropWhile hid hd
            rw [hdw] at this; cases this
          · exact hid
        | cons j b' =>
          have e1 : call st = { st with batches := b' :: bs, log := st.log ++ [(st.now, j)] } := by unfold call; rw [hb]; dsimp only; rw [hdw]
          have hlen : b'.length < b.length := by
            have := (List.dropWhile_sublist st.dead (l := b)).length_le
            rw [hdw, List.length_cons] at this
            omega
          have e2 : ret (call st) = (if b'.all st.dead then { st with batches := bs, log := st.log ++ [(st.now, j)] }
              else { st with batches := b' :: bs, log := st.log ++ [(st.now, j)] }) := by rw [e1]; rfl
          rw [e2]
          have hid' : id = j ∨ id ∈ b' ∨ id ∈ bs.flatten := by
            rcases hid with hid | hid
            · have := mem_dropWhile hid hd
              rw [hdw, List.mem_cons] at this
              tauto
            · exact Or.inr (Or.inr hid)
          split
          · rename_i hall
            refine ih { st with batches := bs, log := st.log ++ [(st.now, j)] } (by show bs.flatten.length + bs.length ≤ k; omega) hd ?_ m (by omega)
            rcases hid' with rfl | h | h
            · right; simp
            · rw [List.all_eq_true] at hall; rw [hall id h] at hd; cases hd
            · exact Or.inl h
          · refine ih { st with batches := b' :: bs, log := st.log ++ [(st.now, j)] } (by simp only [List.flatten_cons, List.length_append, List.length_cons]; omega) hd ?_ m (by omega)
            rcases hid' with rfl | h | h
            · right; simp
            · left; simp [h]
            · left; simp [h]
    · exact keep n st hid

/-- C29, in part.  If no delay was negative, then every timer that is pending is called if it
is left alone: after enough milliseconds in which the event loop runs, and enough calls. -/
theorem C29_fires_partial {es : List Ev} {st : St} (hes : ∀ e ∈ es, Forward e) (h : run {} es = some st) {id : Nat} (hid : id ∈ st.chain.map (·.id)) :
    ∃ N, ∀ n ≥ N, ∃ M, ∀ m ≥ M, ∃ st', run st (rounds n ++ drain m) = some st' ∧ id ∈ st'.log.map Prod.snd := by
  obtain ⟨F, U, b, hw⟩ := wf_run es {} st ⟨_, _, _, wf_init⟩ hes h
  refine ⟨rest st F U b, fun n hn => ?_⟩
  obtain ⟨s1, h1, h2, h3⟩ := rounds_taken id _ st F U b hw (Nat.le_refl _) (Or.inl (by rw [← hw.chain]; exact hid)) n hn
  refine ⟨s1.batches.flatten.length + s1.batches.length, fun m hm => ?_⟩
  have hd : s1.dead id = false := by
    obtain ⟨x, hx, rfl⟩ := List.mem_map.1 hid
    obtain ⟨t, ht, ht'⟩ := hw.sane.alive x hx
    unfold St.dead
    rw [h2, ht]
    exact ht'
  obtain ⟨st', r1, r2⟩ := drain_calls id _ s1 (Nat.le_refl _) hd (Or.inl h3) m hm
  exact ⟨st', by rw [run_append, h1, Option.bind_some, r1], r2⟩

end Rep.Timers
