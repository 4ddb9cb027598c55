/-
The event loop: functions are not called without reason.
-/
import Verif.Events.Props

namespace Rep.Events

variable {size : Nat} {garbage : FdSet}

/-! ### Specification -/

/-- The number of the descriptor is not left over from its last use: it is not
marked as pending, and no loop that has it in its report has still to come to it. -/
def NoStale (st : St) (fd : Nat) : Prop :=
  st.pending fd = false ∧
  ∀ l ∈ st.loops, l.phase ≠ .waiting → l.inputs fd = true → fd < l.i

/-- Registrations are made for such descriptors. -/
def Clean (size : Nat) (garbage : FdSet) (evs : List Event) : Prop :=
  ∀ t fd cb, evs[t]? = some (.register fd cb) → NoStale (before size garbage evs t) fd

/-! ### Proof -/

theorem Clean.init {evs : List Event} {e : Event} (h : Clean size garbage (evs ++ [e])) :
    Clean size garbage evs := by
  intro t fd cb ht
  have hlt := (List.getElem?_eq_some_iff.1 ht).1
  have := h t fd cb (by rw [List.getElem?_append_left hlt]; exact ht)
  rwa [before_append (Nat.le_of_lt hlt)] at this

theorem Clean.last {evs : List Event} {fd cb : Nat}
    (h : Clean size garbage (evs ++ [.register fd cb])) : NoStale (run size garbage evs) fd := by
  have := h evs.length fd cb (by simp)
  rwa [before_now] at this

/-- The turns of a loop had a reason. -/
def TurnsFresh (size : Nat) (garbage : FdSet) (evs : List Event) (l : Loop) : Prop :=
  ∀ t ∈ l.turns, t.time < evs.length ∧
    (t.callback ≠ none → (before size garbage evs t.time).fresh t.fd = true)

structure Fr (size : Nat) (garbage : FdSet) (evs : List Event) (st : St) : Prop where
  pend : ∀ fd, (st.actions fd).isSome = true → st.pending fd = true → st.fresh fd = true
  os : ∀ fd, (st.actions fd).isSome = true → st.os fd = true → st.fresh fd = true
  loop : ∀ l ∈ st.loops, l.phase ≠ .waiting → ∀ fd, l.i ≤ fd → l.inputs fd = true →
    (st.actions fd).isSome = true → st.fresh fd = true
  turns : ∀ l ∈ st.loops, TurnsFresh size garbage evs l
  done : ∀ d ∈ st.done, TurnsFresh size garbage evs d.loop

theorem TurnsFresh.append {evs : List Event} {l : Loop} (h : TurnsFresh size garbage evs l)
    (e : Event) : TurnsFresh size garbage (evs ++ [e]) l := by
  intro t ht
  obtain ⟨h1, h2⟩ := h t ht
  refine ⟨by simp; omega, ?_⟩
  rw [before_append (by omega)]
  exact h2

theorem fr_run (evs : List Event) (hc : Clean size garbage evs) :
    Fr size garbage evs (run size garbage evs) := by
  induction evs using List.reverseRecOn with
  | nil =>
    exact ⟨(fun _ h => nomatch h), (fun _ h => nomatch h), (fun _ h => nomatch h),
      (fun _ h => nomatch h), fun _ h => nomatch h⟩
  | append_singleton evs e ih =>
    have ih := ih hc.init
    have hinv := inv_run (size := size) (garbage := garbage) evs
    have hinv2 := inv_run (size := size) (garbage := garbage) (evs ++ [e])
    have hlast : ∀ fd cb, e = .register fd cb → NoStale (run size garbage evs) fd := by
      intro fd cb he; subst he; exact hc.last
    have hnow : before size garbage (evs ++ [e]) evs.length = run size garbage evs := before_now e
    rw [run_snoc] at hinv2 ⊢
    generalize run size garbage evs = st at ih hinv hinv2 hlast hnow ⊢
    cases e with
    | register x cb =>
      have hs := hlast x cb rfl
      by_cases hx : x < size
      · simp only [step, register, if_pos hx]
        refine ⟨?_, ?_, ?_, fun l hl => (ih.turns l hl).append _,
          fun d hd => (ih.done d hd).append _⟩
        · intro fd ha hp
          simp only at ha hp ⊢
          by_cases hfd : fd = x
          · subst hfd; rw [hs.1] at hp; cases hp
          · rw [put_ne _ _ hfd] at ha ⊢; exact ih.pend fd ha hp
        · intro fd ha hp
          simp only at ha hp ⊢
          by_cases hfd : fd = x
          · subst hfd; rw [put_same]; exact hp
          · rw [put_ne _ _ hfd] at ha ⊢; exact ih.os fd ha hp
        · intro l hl hph fd hi hin ha
          simp only at ha ⊢
          by_cases hfd : fd = x
          · subst hfd
            have := hs.2 l hl hph hin
            omega
          · rw [put_ne _ _ hfd] at ha ⊢; exact ih.loop l hl hph fd hi hin ha
      · simp only [step, register, if_neg hx]
        exact ⟨ih.pend, ih.os, ih.loop, fun l hl => (ih.turns l hl).append _,
          fun d hd => (ih.done d hd).append _⟩
    | deregister x =>
      by_cases hx : x < size
      · simp only [step, deregister, if_pos hx]
        have hk : ∀ fd, ((put st.actions x none) fd).isSome = true →
            (st.actions fd).isSome = true := by
          intro fd ha
          by_cases hfd : fd = x
          · subst hfd; rw [put_same] at ha; cases ha
          · rwa [put_ne _ _ hfd] at ha
        exact ⟨fun fd ha => ih.pend fd (hk fd ha), fun fd ha => ih.os fd (hk fd ha),
          fun l hl hph fd hi hin ha => ih.loop l hl hph fd hi hin (hk fd ha),
          fun l hl => (ih.turns l hl).append _, fun d hd => (ih.done d hd).append _⟩
      · simp only [step, deregister, if_neg hx]
        exact ⟨ih.pend, ih.os, ih.loop, fun l hl => (ih.turns l hl).append _,
          fun d hd => (ih.done d hd).append _⟩
    | mark x =>
      by_cases hx : x < size
      · have hk : ∀ fd, (fd = x ∨ st.fresh fd = true) → put st.fresh x true fd = true := by
          rintro fd (rfl | h)
          · exact put_same _ _ _
          · by_cases hfd : fd = x
            · subst hfd; exact put_same _ _ _
            · rw [put_ne _ _ hfd]; exact h
        simp only [step, mark, if_pos hx]
        by_cases hp : st.pending x = true
        · simp only [if_pos hp]
          exact ⟨fun fd ha h => hk fd (Or.inr (ih.pend fd ha h)),
            fun fd ha h => hk fd (Or.inr (ih.os fd ha h)),
            fun l hl hph fd hi hin ha => hk fd (Or.inr (ih.loop l hl hph fd hi hin ha)),
            fun l hl => (ih.turns l hl).append _, fun d hd => (ih.done d hd).append _⟩
        · simp only [if_neg hp]
          refine ⟨fun fd ha h => hk fd ?_,
            fun fd ha h => hk fd (Or.inr (ih.os fd ha h)),
            fun l hl hph fd hi hin ha => hk fd (Or.inr (ih.loop l hl hph fd hi hin ha)),
            fun l hl => (ih.turns l hl).append _, fun d hd => (ih.done d hd).append _⟩
          simp only at ha h
          by_cases hfd : fd = x
          · exact Or.inl hfd
          · rw [put_ne _ _ hfd] at h; exact Or.inr (ih.pend fd ha h)
      · simp only [step, mark, if_neg hx]
        exact ⟨ih.pend, ih.os, ih.loop, fun l hl => (ih.turns l hl).append _,
          fun d hd => (ih.done d hd).append _⟩
    | arrive x =>
      have hk : ∀ fd, (fd = x ∨ st.fresh fd = true) → put st.fresh x true fd = true := by
        rintro fd (rfl | h)
        · exact put_same _ _ _
        · by_cases hfd : fd = x
          · subst hfd; exact put_same _ _ _
          · rw [put_ne _ _ hfd]; exact h
      simp only [step]
      refine ⟨fun fd ha h => hk fd (Or.inr (ih.pend fd ha h)), fun fd ha h => hk fd ?_,
        fun l hl hph fd hi hin ha => hk fd (Or.inr (ih.loop l hl hph fd hi hin ha)),
        fun l hl => (ih.turns l hl).append _, fun d hd => (ih.done d hd).append _⟩
      simp only at ha h
      by_cases hfd : fd = x
      · exact Or.inl hfd
      · rw [put_ne _ _ hfd] at h; exact Or.inr (ih.os fd ha h)
    | consume x =>
      simp only [step]
      refine ⟨ih.pend, fun fd ha h => ih.os fd ha ?_, ih.loop,
        fun l hl => (ih.turns l hl).append _, fun d hd => (ih.done d hd).append _⟩
      simp only at ha h
      by_cases hfd : fd = x
      · subst hfd; rw [put_same] at h; cases h
      · rwa [put_ne _ _ hfd] at h
    | interrupt =>
      exact ⟨ih.pend, ih.os, ih.loop, fun l hl => (ih.turns l hl).append _,
          fun d hd => (ih.done d hd).append _⟩
    | clear =>
      exact ⟨ih.pend, ih.os, ih.loop, fun l hl => (ih.turns l hl).append _,
          fun d hd => (ih.done d hd).append _⟩
    | enter req =>
      have hnew := hinv2.loops
      refine ⟨ih.pend, ih.os, ?_, ?_, fun d hd => (ih.done d hd).append _⟩
      · intro l hl hph fd hi hin ha
        have hl2 := hl
        simp only [step, enter, List.mem_cons] at hl
        rcases hl with hl | hl
        · obtain ⟨_, req', _, hb⟩ := hnew l hl2
          obtain ⟨b1, -⟩ := hb hph
          have hes : l.entered = evs.length ∧ l.seen = evs.length := by
            rw [hl]; exact ⟨hinv.clock, hinv.clock⟩
          rcases b1 with ⟨_, _, h3⟩ | ⟨_, h2, _⟩
          · have := (h3 fd).1 hin
            rw [hes.1, hnow] at this
            exact ih.pend fd ha this.2
          · omega
        · exact ih.loop l hl hph fd hi hin ha
      · intro l hl
        simp only [step, enter, List.mem_cons] at hl
        rcases hl with rfl | hl
        · intro t ht; cases ht
        · exact (ih.turns l hl).append _
    | select id a b =>
      have hrest : ∃ ls, step size garbage st (.select id a b) = { st with loops := ls } := by
        simp only [step]
        rcases stepLoop_rest (st := st) (id := id) (p := .waiting)
          (f := fun st l => selectStep size st l a b) with h | ⟨l, _, _, ls, h⟩
        · exact ⟨st.loops, h⟩
        · exact ⟨ls, by rw [h, selectStep_fst]⟩
      have hmem : ∀ l' ∈ (step size garbage st (.select id a b)).loops, l' ∈ st.loops ∨
          ∃ l ∈ st.loops, l.phase = .waiting ∧ l'.turns = l.turns ∧
            (∀ fd, l'.inputs fd = true → st.os fd = true) := by
        intro l' hl'
        simp only [step] at hl'
        rcases stepLoop_mem (fun l => by rw [selectStep_fst]) hl' with h | ⟨l, h1, h2, h3⟩
        · exact Or.inl h
        · unfold selectStep at h3
          dsimp only at h3
          split at h3
          · cases h3
          split at h3
          · split at h3
            · cases h3
            · cases h3; exact Or.inl h1
          · cases h3
            refine Or.inr ⟨l, h1, h2, rfl, fun fd h => ?_⟩
            simp only [Bool.and_eq_true] at h
            exact h.2
      obtain ⟨ls, hls⟩ := hrest
      rw [hls] at hmem ⊢
      refine ⟨ih.pend, ih.os, ?_, ?_, fun d hd => (ih.done d hd).append _⟩
      · intro l hl hph fd hi hin ha
        rcases hmem l hl with h | ⟨l0, h1, h2, h3, h4⟩
        · exact ih.loop l h hph fd hi hin ha
        · exact ih.os fd ha (h4 fd hin)
      · intro l hl
        rcases hmem l hl with h | ⟨l0, h1, h2, h3, h4⟩
        · exact (ih.turns l h).append _
        · have := (ih.turns l0 h1).append (.select id a b)
          unfold TurnsFresh at this ⊢
          rw [h3]; exact this
    | advance id =>
      have hrest : ∃ (st2 : St), (step size garbage st (.advance id)) = st2 ∧
          st2.actions = st.actions ∧ st2.os = st.os ∧ st2.fresh = st.fresh ∧
          (∀ fd, st2.pending fd = true → st.pending fd = true) ∧
          (∀ d ∈ st2.done, d ∈ st.done ∨ d.loop ∈ st.loops) := by
        refine ⟨_, rfl, ?_⟩
        simp only [step]
        rcases stepLoop_rest (st := st) (id := id) (p := .handling)
          (f := fun st l => advanceStep size st l) with h | ⟨l, hlm, _, ls, h⟩
        · rw [h]; exact ⟨rfl, rfl, rfl, fun _ h => h, fun _ h => Or.inl h⟩
        · rw [h]
          unfold advanceStep
          split
          · split
            · cases hp : st.pending l.i with
              | false =>
                simp only [Bool.false_eq_true, if_false]
                cases st.actions l.i <;>
                  exact ⟨rfl, rfl, rfl, fun _ h => h, fun _ h => Or.inl h⟩
              | true =>
                simp only [if_true]
                have hk : ∀ fd, put st.pending l.i false fd = true → st.pending fd = true := by
                  intro fd h
                  by_cases hfd : fd = l.i
                  · subst hfd; rw [put_same] at h; cases h
                  · rwa [put_ne _ _ hfd] at h
                cases st.actions l.i <;> exact ⟨rfl, rfl, rfl, hk, fun _ h => Or.inl h⟩
            · exact ⟨rfl, rfl, rfl, fun _ h => h, fun _ h => Or.inl h⟩
          · refine ⟨rfl, rfl, rfl, fun _ h => h, fun d h => ?_⟩
            simp only [List.mem_cons] at h
            rcases h with rfl | h
            · exact Or.inr hlm
            · exact Or.inl h
      have hmem : ∀ l' ∈ (step size garbage st (.advance id)).loops, l' ∈ st.loops ∨
          ∃ l ∈ st.loops, l.phase = .handling ∧ l.i ≤ l'.i ∧ l'.inputs = l.inputs ∧
            (l'.turns = l.turns ∨
              (l'.turns = l.turns ++ [⟨l.i, st.clock, st.actions l.i⟩] ∧ l.inputs l.i = true)) := by
        intro l' hl'
        simp only [step] at hl'
        rcases stepLoop_mem (fun l => advance_loops st l) hl' with h | ⟨l, h1, h2, h3⟩
        · exact Or.inl h
        · right
          unfold advanceStep at h3
          split at h3
          · split at h3
            · rename_i hin
              have h5 : l.i ≤ l'.i ∧ l'.inputs = l.inputs ∧
                  l'.turns = l.turns ++ [⟨l.i, st.clock, st.actions l.i⟩] := by
                cases hp : st.pending l.i <;> cases hA : st.actions l.i <;>
                  simp only [hp, hA, Bool.false_eq_true, if_false, if_true,
                    Option.some.injEq] at h3 <;>
                  subst h3 <;> exact ⟨Nat.le_succ _, rfl, rfl⟩
              exact ⟨l, h1, h2, h5.1, h5.2.1, Or.inr ⟨h5.2.2, hin⟩⟩
            · cases h3
              exact ⟨l, h1, h2, Nat.le_succ _, rfl, Or.inl rfl⟩
          · cases h3
      obtain ⟨st2, hst2, e1, e2, e3, e4, e5⟩ := hrest
      rw [hst2] at hmem ⊢
      refine ⟨?_, ?_, ?_, ?_, ?_⟩
      · intro fd ha hp
        simp only [e1, e3] at ha ⊢
        exact ih.pend fd ha (e4 fd hp)
      · intro fd ha hp
        simp only [e1, e2, e3] at ha hp ⊢
        exact ih.os fd ha hp
      · intro l hl hph fd hi hin ha
        simp only [e1, e3] at ha ⊢
        rcases hmem l hl with h | ⟨l0, h1, h2, h3, h4, _⟩
        · exact ih.loop l h hph fd hi hin ha
        · rw [h4] at hin
          exact ih.loop l0 h1 (by rw [h2]; decide) fd (by omega) hin ha
      · intro l hl
        rcases hmem l hl with h | ⟨l0, h1, h2, h3, h4, h5⟩
        · exact (ih.turns l h).append _
        · have hold := (ih.turns l0 h1).append (.advance id)
          unfold TurnsFresh at hold ⊢
          rcases h5 with h5 | ⟨h5, h6⟩
          · rw [h5]; exact hold
          · rw [h5]
            intro t ht
            rcases List.mem_append.1 ht with ht | ht
            · exact hold t ht
            · cases List.mem_singleton.1 ht
              refine ⟨by simp [hinv.clock], fun hne => ?_⟩
              simp only [hinv.clock, hnow]
              refine ih.loop l0 h1 (by rw [h2]; decide) l0.i (Nat.le_refl _) h6 ?_
              cases hA : st.actions l0.i with
              | none => exact absurd hA hne
              | some c => rfl
      · intro d hd
        rcases e5 d hd with h | h
        · exact (ih.done d h).append _
        · exact (ih.turns _ h).append _
    | «return» id =>
      have hrest : ∃ ls, step size garbage st (.return id) = { st with loops := ls } := by
        simp only [step]
        rcases stepLoop_rest (st := st) (id := id) (p := .calling)
          (f := fun st l => (st, some { l with phase := .handling })) with h | ⟨l, _, _, ls, h⟩
        · exact ⟨st.loops, h⟩
        · exact ⟨ls, h⟩
      have hmem : ∀ l' ∈ (step size garbage st (.return id)).loops, l' ∈ st.loops ∨
          ∃ l ∈ st.loops, l.phase = .calling ∧ l' = { l with phase := .handling } := by
        intro l' hl'
        simp only [step] at hl'
        rcases stepLoop_mem (fun l => rfl) hl' with h | ⟨l, h1, h2, h3⟩
        · exact Or.inl h
        · cases h3; exact Or.inr ⟨l, h1, h2, rfl⟩
      obtain ⟨ls, hls⟩ := hrest
      rw [hls] at hmem ⊢
      refine ⟨ih.pend, ih.os, ?_, ?_, fun d hd => (ih.done d hd).append _⟩
      · intro l hl hph fd hi hin ha
        rcases hmem l hl with h | ⟨l0, h1, h2, rfl⟩
        · exact ih.loop l h hph fd hi hin ha
        · exact ih.loop l0 h1 (by rw [h2]; decide) fd hi hin ha
      · intro l hl
        rcases hmem l hl with h | ⟨l0, h1, h2, rfl⟩
        · exact (ih.turns l h).append _
        · exact (ih.turns l0 h1).append (.return id)

/-! ### The theorems -/

/-- Property C77: if descriptors whose number was used before are registered
only when nothing is left over of that use, a function is called for its
descriptor only if, since it was registered, there has been input or a mark. -/
theorem C77_reason_partial (evs : List Event) (hc : Clean size garbage evs) (l : Loop)
    (hl : l ∈ (run size garbage evs).loops ∨ ∃ d ∈ (run size garbage evs).done, d.loop = l)
    (t : Turn) (ht : t ∈ l.turns) (hcall : t.callback ≠ none) :
    (before size garbage evs t.time).fresh t.fd = true := by
  have h := fr_run evs hc
  rcases hl with hl | ⟨d, hd, rfl⟩
  · exact (h.turns l hl t ht).2 hcall
  · exact (h.done d hd t ht).2 hcall

/-- All turns so far, as (descriptor, function, was there a reason, is there input). -/
def turnsOf (size : Nat) (evs : List Event) : List (Nat × Option Nat × Bool × Bool) :=
  let st := run size (fun _ => true) evs
  ((st.done.map Done.loop).reverse ++ st.loops).flatMap fun l => l.turns.map fun t =>
    let s := before size (fun _ => true) evs t.time
    (t.fd, t.callback, s.fresh t.fd, s.os t.fd)

/-- A loop over two descriptors with input, the first of which deregisters
itself; and one in which a marked descriptor is handled. -/
def sampleEvents : List Event :=
  [.register 3 10, .register 5 11, .arrive 5, .arrive 3, .enter .all, .select 0 false false,
   .advance 0, .advance 0, .advance 0, .advance 0, .deregister 3, .return 0,
   .advance 0, .advance 0, .consume 5, .return 0, .advance 0,
   .mark 5, .enter (.callbacks [11]), .advance 1, .advance 1, .advance 1, .advance 1, .advance 1,
   .advance 1, .return 1, .advance 1]

example : turnsOf 8 sampleEvents = [(3, some 10, true, true), (5, some 11, true, true),
    (5, some 11, true, false)] := by
  decide +kernel

example : ((run 8 (fun _ => true) sampleEvents).done.map (·.interrupted)) = [false, false] ∧
    (run 8 (fun _ => true) sampleEvents).loops.length = 0 := by
  decide +kernel

example : Clean 8 (fun _ => true) sampleEvents := by
  intro t fd cb h
  match t with
  | 0 | 1 =>
    cases h
    exact ⟨by decide, by intro l hl; revert l; exact fun l hl => nomatch hl⟩
  | 2 | 3 | 4 | 5 | 6 | 7 | 8 | 9 | 10 | 11 | 12 | 13 | 14 | 15 | 16 | 17 | 18 | 19 | 20 | 21 | 22
  | 23 | 24 | 25 | 26 => cases h
  | n + 27 => cases h

/-! ### Where the property fails -/

/-- The mark of a descriptor that was deregistered is kept, and causes a call of
the function registered for the next descriptor with that number. -/
theorem C77_stale_mark_violated :
    turnsOf 8 [.register 3 10, .mark 3, .deregister 3, .register 3 11, .enter .all,
      .advance 0, .advance 0, .advance 0, .advance 0] = [(3, some 11, false, false)] := by
  decide +kernel

/-- If the function of a descriptor deregisters a later one and registers a new
descriptor with that number, the new function is called though it never had input. -/
theorem C77_stale_report_violated :
    turnsOf 8 [.register 1 10, .register 2 11, .arrive 1, .arrive 2, .enter .all,
      .select 0 false false, .advance 0, .advance 0, .deregister 2, .consume 2, .register 2 12,
      .return 0, .advance 0]
      = [(1, some 10, true, true), (2, some 12, false, false)] := by
  decide +kernel

/-- A function called by the loop lets another loop handle the input of a later
descriptor; that is then called again, with no input left. -/
theorem C77_nested_violated :
    turnsOf 8 [.register 1 10, .register 2 11, .arrive 1, .arrive 2, .enter .all,
      .select 0 false false, .advance 0, .advance 0, .consume 1, .enter .all,
      .select 1 false false, .advance 1, .advance 1, .advance 1, .consume 2, .return 1,
      .advance 1, .return 0, .advance 0]
      = [(2, some 11, true, true), (1, some 10, true, true), (2, some 11, true, false)] := by
  decide +kernel

/-- A descriptor from FD_SETSIZE on is written beyond the set. -/
theorem C77_range_violated (evs : List Event) (fd cb : Nat) (h : size ≤ fd) :
    (run size garbage (evs ++ [.register fd cb])).ub = true := by
  rw [run_snoc]
  simp [step, register, Nat.not_lt.2 h]

/-- The rounds of a loop in which the function of descriptor 0 marks it again. -/
def round (k : Nat) : List Event :=
  [.enter .all, .advance k, .mark 0, .return k, .advance k]

def starving : Nat → List Event
  | 0 => [.register 0 10, .register 1 11, .arrive 1, .mark 0]
  | n + 1 => starving n ++ round n

theorem starving_state (m n : Nat) :
    ∃ st, run (m + 2) garbage (starving n) = st ∧ st.loops = [] ∧ st.ids = n ∧ st.count = 1 ∧
      st.pending 0 = true ∧ st.interrupt = false ∧ st.fdset 0 = true ∧ st.fdset 1 = true ∧
      st.actions 0 = some 10 ∧ st.actions 1 = some 11 ∧ st.os 1 = true ∧ st.done.length = n ∧
      ∀ d ∈ st.done, d.interrupted = false ∧ ∀ t ∈ d.loop.turns, t.fd = 0 := by
  induction n with
  | zero =>
    refine ⟨_, rfl, ?_⟩
    simp [run, starving, step, register, mark, put]
  | succ n ih =>
    obtain ⟨st, h0, h1, h2, h3, h4, h5, h6, h7, h8, h9, h10, h11, h12⟩ := ih
    have hrun : run (m + 2) garbage (starving (n + 1))
        = (round n).foldl (fun st e => { step (m + 2) garbage st e with clock := st.clock + 1 })
            st := by
      rw [← h0]; simp only [run, starving, List.foldl_append]
    rw [hrun]
    refine ⟨_, rfl, ?_⟩
    obtain ⟨fdset, actions, pending, count, interrupt, os, loops, ub, clock, ids, done, fresh⟩ := st
    simp only at h1 h2 h3 h4 h5 h6 h7 h8 h9 h10 h11 h12
    subst h1 h2 h3 h5
    simp [round, step, enter, scan, requested, h4, h6, h7, h8, h9, h10, h11, stepLoop,
      advanceStep, mark, put]
    exact h12

/-- A function that marks its own descriptor starves all others: however often the
loop goes round, descriptor 1, which has input, is never handled. -/
theorem C77_starving_violated (m n : Nat) :
    let st := run (m + 2) garbage (starving n)
    st.done.length = n ∧ st.actions 1 = some 11 ∧ st.os 1 = true ∧
      ∀ d ∈ st.done, d.interrupted = false ∧ ∀ t ∈ d.loop.turns, t.fd ≠ 1 := by
  obtain ⟨st, h0, h1, h2, h3, h4, h5, h6, h7, h8, h9, h10, h11, h12⟩ :=
    starving_state (garbage := garbage) m n
  simp only [h0]
  exact ⟨h11, h9, h10, fun d hd => ⟨(h12 d hd).1, fun t ht => by rw [(h12 d hd).2 t ht]; decide⟩⟩

end Rep.Events
