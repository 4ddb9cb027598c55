/-
Property C74: `macroexpand` keeps expansions, but gives those of other objects never.
-/
import Verif.Macro.Spec

namespace Rep.Macro

open Rep.Macro.Spec

/-! ### What is in the history -/

/-- What is always so, where `log` is what has been returned since the last collection without the history. -/
structure Inv (st : St) (log : List Out) : Prop where
  hist : ∀ i a r, (a, r) ∈ st.history i → i = histHash a ∧ ∃ o p e, st.obj a = some o ∧ st.obj r = some p ∧ ⟨o, e, some p, false⟩ ∈ log
  frames : ∀ f ∈ st.stack, ∃ o p, st.obj f.input = some o ∧ st.obj f.pred = some p
  bound : ∀ a o, st.obj a = some o → o < st.count
  inj : ∀ a b o, st.obj a = some o → st.obj b = some o → a = b

/-- The log after an event. -/
def logAfter (e : Event) (out : Option Out) (log : List Out) : List Out :=
  match e with
  | .gc _ => []
  | _ => match out with
    | some o => if o.cached then log else o :: log
    | none => log

theorem Inv.finish {st : St} {log : List Out} (h : Inv st log) {env : Env} {input form : Addr} {o p : Obj} (hi : st.obj input = some o) (hf : st.obj form = some p) :
    (finish st env input form).2 = some ⟨o, env, some p, false⟩ ∧ Inv (finish st env input form).1 (⟨o, env, some p, false⟩ :: log) := by
  refine ⟨by simp [Macro.finish, hi, hf], ?_, h.frames, h.bound, h.inj⟩
  intro i a r hm
  have hm : (a, r) ∈ if i = histHash input then (input, form) :: st.history i else st.history i := hm
  split at hm
  · rename_i hi'
    rcases List.mem_cons.mp hm with he | hm
    · cases he
      exact ⟨hi', o, p, env, hi, hf, List.mem_cons_self⟩
    · obtain ⟨h1, o', p', e, h2, h3, h4⟩ := h.hist _ _ _ hm
      exact ⟨h1, o', p', e, h2, h3, List.mem_cons_of_mem _ h4⟩
  · obtain ⟨h1, o', p', e, h2, h3, h4⟩ := h.hist _ _ _ hm
    exact ⟨h1, o', p', e, h2, h3, List.mem_cons_of_mem _ h4⟩

theorem Inv.loop {st : St} {log : List Out} (h : Inv st log) {env : Env} {input pred : Addr} {o p : Obj} (hi : st.obj input = some o) (hf : st.obj pred = some p) :
    (Inv (loop st env input pred).1 log ∧ (loop st env input pred).2 = none) ∨
    ((loop st env input pred).2 = some ⟨o, env, some p, false⟩ ∧ Inv (loop st env input pred).1 (⟨o, env, some p, false⟩ :: log)) := by
  unfold Macro.loop
  rw [hf]
  simp only
  cases hm : macroexpand1 st.world p env with
  | same => exact .inr (h.finish hi hf)
  | call f b =>
    refine .inl ⟨⟨h.hist, ?_, h.bound, h.inj⟩, rfl⟩
    intro fr hfr
    rcases List.mem_cons.mp hfr with rfl | hfr
    · exact ⟨o, p, hi, hf⟩
    · exact h.frames fr hfr

theorem search_mem {st : St} {form r : Addr} (h : search st form = some r) : (form, r) ∈ st.history (histHash form) := by
  unfold search at h
  cases hf : (st.history (histHash form)).find? (fun p => decide (p.1 = form)) with
  | none => rw [hf] at h; cases h
  | some p =>
    rw [hf] at h
    simp only [Option.map_some, Option.some.injEq] at h
    have h1 := List.mem_of_find?_eq_some hf
    have h2 := List.find?_some hf
    simp only [decide_eq_true_eq] at h2
    subst h h2
    exact h1

/-- What a step does to the history and what it may return. -/
theorem Inv.step {st st' : St} {log : List Out} (h : Inv st log) {e : Event} {out : Option Out} (hs : step st e = some (st', out)) :
    Inv st' (logAfter e out log) ∧ ∀ o, out = some o → o.cached = true → ∃ p e', o.result = some p ∧ ⟨o.form, e', some p, false⟩ ∈ log := by
  cases e with
  | alloc a =>
    unfold Macro.step at hs
    simp only at hs
    split at hs
    · rename_i ha
      simp only [Option.some.injEq, Prod.mk.injEq] at hs
      obtain ⟨rfl, rfl⟩ := hs
      have keep : ∀ x o, st.obj x = some o → (if x = a then some st.count else st.obj x) = some o := by
        intro x o hx
        rw [if_neg]; exact hx
        rintro rfl; rw [ha] at hx; cases hx
      refine ⟨⟨?_, ?_, ?_, ?_⟩, by simp⟩
      · intro i x r hm
        obtain ⟨h1, o, p, e, h2, h3, h4⟩ := h.hist i x r hm
        exact ⟨h1, o, p, e, keep _ _ h2, keep _ _ h3, h4⟩
      · intro f hf
        obtain ⟨o, p, h1, h2⟩ := h.frames f hf
        exact ⟨o, p, keep _ _ h1, keep _ _ h2⟩
      · intro x o hx
        have hx : (if x = a then some st.count else st.obj x) = some o := hx
        show o < st.count + 1
        split at hx
        · cases hx; exact Nat.lt_succ_self _
        · exact Nat.lt_succ_of_lt (h.bound x o hx)
      · intro x y o hx hy
        have hx : (if x = a then some st.count else st.obj x) = some o := hx
        have hy : (if y = a then some st.count else st.obj y) = some o := hy
        split at hx <;> split at hy
        · rename_i h1 h2; rw [h1, h2]
        · cases hx; exact absurd (h.bound _ _ hy) (Nat.lt_irrefl _)
        · cases hy; exact absurd (h.bound _ _ hx) (Nat.lt_irrefl _)
        · exact h.inj x y o hx hy
    · cases hs
  | gc freed =>
    unfold Macro.step at hs
    simp only at hs
    split at hs
    · rename_i ha
      simp only [Option.some.injEq, Prod.mk.injEq] at hs
      obtain ⟨rfl, rfl⟩ := hs
      have back : ∀ x o, (if freed x then none else st.obj x) = some o → st.obj x = some o := by
        intro x o hx
        split at hx
        · cases hx
        · exact hx
      refine ⟨⟨?_, ?_, ?_, ?_⟩, by simp⟩
      · intro i x r hm; simp at hm
      · intro f hf
        obtain ⟨o, p, h1, h2⟩ := h.frames f hf
        have := List.all_eq_true.mp ha f hf
        simp only [Bool.and_eq_true, Bool.not_eq_true'] at this
        exact ⟨o, p, by simp [this.1, h1], by simp [this.2, h2]⟩
      · intro x o hx; exact h.bound x o (back x o hx)
      · intro x y o hx hy; exact h.inj x y o (back x o hx) (back y o hy)
    · cases hs
  | change w =>
    simp only [Macro.step, Option.some.injEq, Prod.mk.injEq] at hs
    obtain ⟨rfl, rfl⟩ := hs
    exact ⟨⟨h.hist, h.frames, h.bound, h.inj⟩, by simp⟩
  | call form env =>
    unfold Macro.step at hs
    simp only at hs
    split at hs
    · cases hs
    · rename_i hf
      simp only [Option.some.injEq] at hs
      unfold Macro.macroexpand at hs
      cases ho : st.obj form with
      | none => exact absurd ho hf
      | some o =>
        rw [ho] at hs
        simp only at hs
        split at hs
        · simp only [Prod.mk.injEq] at hs
          obtain ⟨rfl, rfl⟩ := hs
          refine ⟨⟨?_, h.frames, h.bound, h.inj⟩, by simp⟩
          intro i x r hm
          obtain ⟨h1, o, p, e, h2, h3, h4⟩ := h.hist i x r hm
          exact ⟨h1, o, p, e, h2, h3, List.mem_cons_of_mem _ h4⟩
        · cases hsr : search st form with
          | some r =>
            rw [hsr] at hs
            simp only [Prod.mk.injEq] at hs
            obtain ⟨rfl, rfl⟩ := hs
            obtain ⟨_, o', p, e, h2, h3, h4⟩ := h.hist _ _ _ (search_mem hsr)
            rw [h3]
            refine ⟨h, ?_⟩
            intro x hx _
            simp only [Option.map_some, Option.some.injEq] at hx
            subst hx
            rw [ho] at h2
            cases h2
            exact ⟨p, e, rfl, h4⟩
          | none =>
            rw [hsr] at hs
            simp only at hs
            have e1 : st' = (Macro.loop st env form form).1 := by rw [hs]
            have e2 : out = (Macro.loop st env form form).2 := by rw [hs]
            subst e1
            rcases h.loop (env := env) ho ho with ⟨h1, h2⟩ | ⟨h1, h2⟩
            · rw [e2, h2]; exact ⟨h1, by simp⟩
            · rw [e2, h1]; exact ⟨h2, by simp⟩
  | result r =>
    unfold Macro.step at hs
    simp only at hs
    cases hst : st.stack with
    | nil => rw [hst] at hs; cases hs
    | cons f fs =>
      rw [hst] at hs
      simp only at hs
      obtain ⟨o, p, h1, h2⟩ := h.frames f (by rw [hst]; exact List.mem_cons_self)
      have h' : Inv { st with stack := fs } log := ⟨h.hist, fun g hg => h.frames g (by rw [hst]; exact List.mem_cons_of_mem _ hg), h.bound, h.inj⟩
      cases r with
      | none =>
        simp only [Option.some.injEq, Prod.mk.injEq] at hs
        obtain ⟨rfl, rfl⟩ := hs
        rw [h1]
        refine ⟨⟨?_, h'.frames, h'.bound, h'.inj⟩, by simp⟩
        intro i x r hm
        obtain ⟨h1, o, p, e, h2, h3, h4⟩ := h'.hist i x r hm
        exact ⟨h1, o, p, e, h2, h3, List.mem_cons_of_mem _ h4⟩
      | some r =>
        simp only at hs
        split at hs
        · cases hs
        · rename_i hr
          cases hq : st.obj r with
          | none => exact absurd hq hr
          | some q =>
            split at hs
            · simp only [Option.some.injEq] at hs
              have := h'.finish (env := f.env) (input := f.input) (form := r) h1 hq
              rw [hs] at this
              simp only at this
              rw [this.1]
              exact ⟨this.2, by simp⟩
            · simp only [Option.some.injEq] at hs
              have := h'.loop (env := f.env) (input := f.input) (pred := r) h1 hq
              rw [hs] at this
              rcases this with ⟨h1, h2⟩ | ⟨h1, h2⟩
              · simp only at h1 h2; rw [h2]; exact ⟨h1, by simp⟩
              · simp only at h1 h2; rw [h1]; exact ⟨h2, by simp⟩

theorem Inv.start (w : World) : Inv { world := w } [] := ⟨by simp, by simp, by simp, by simp⟩

/-- What is returned from the history has been returned before, without the history, for the same object, and the collector has not run since. -/
theorem cached_run : ∀ (es : List Event) {st st' : St} {log : List Out} {outs : List (Option Out)}, Inv st log → run st es = some (st', outs) →
    ∀ (k : Nat) (o : Out), outs[k]? = some (some o) → o.cached = true → ∃ p e', o.result = some p ∧
      ((⟨o.form, e', some p, false⟩ ∈ log ∧ ∀ (m : Nat) (freed : Addr → Bool), m ≤ k → es[m]? ≠ some (Event.gc freed)) ∨
       ∃ j : Nat, j < k ∧ outs[j]? = some (some ⟨o.form, e', some p, false⟩) ∧ ∀ (m : Nat) (freed : Addr → Bool), j ≤ m → m ≤ k → es[m]? ≠ some (Event.gc freed)) := by
  intro es
  induction es with
  | nil =>
    intro st st' log outs _ hr k o ho _
    simp only [run, Option.some.injEq, Prod.mk.injEq] at hr
    rw [← hr.2] at ho
    simp at ho
  | cons e es ih =>
    intro st st' log outs h hr k o ho hc
    unfold run at hr
    cases hs : step st e with
    | none => rw [hs] at hr; cases hr
    | some q =>
      obtain ⟨st1, out⟩ := q
      rw [hs] at hr
      simp only at hr
      cases hr1 : run st1 es with
      | none => rw [hr1] at hr; cases hr
      | some q =>
        obtain ⟨st2, outs1⟩ := q
        rw [hr1] at hr
        simp only [Option.map_some, Option.some.injEq, Prod.mk.injEq] at hr
        obtain ⟨rfl, rfl⟩ := hr
        obtain ⟨h1, h2⟩ := h.step hs
        cases k with
        | zero =>
          simp only [List.getElem?_cons_zero, Option.some.injEq] at ho
          obtain ⟨p, e', hp, hm⟩ := h2 o ho hc
          refine ⟨p, e', hp, .inl ⟨hm, ?_⟩⟩
          intro m freed hm0 he
          obtain rfl : m = 0 := by omega
          simp only [List.getElem?_cons_zero, Option.some.injEq] at he
          subst he
          subst ho
          unfold Macro.step at hs
          simp only at hs
          split at hs <;> cases hs
        | succ k =>
          simp only [List.getElem?_cons_succ] at ho
          obtain ⟨p, e', hp, hh⟩ := ih h1 hr1 k o ho hc
          refine ⟨p, e', hp, ?_⟩
          rcases hh with ⟨hm, hg⟩ | ⟨j, hj, hjo, hg⟩
          · have shift : (∀ freed, e ≠ .gc freed) → ∀ m freed, m ≤ k + 1 → (e :: es)[m]? ≠ some (.gc freed) := by
              intro hne m freed hmk he
              cases m with
              | zero => simp only [List.getElem?_cons_zero, Option.some.injEq] at he; exact hne _ he
              | succ m => simp only [List.getElem?_cons_succ] at he; exact hg m freed (by omega) he
            have inlog : (∀ freed, e ≠ .gc freed) → (⟨o.form, e', some p, false⟩ ∈ match out with | some o => if o.cached then log else o :: log | none => log) := by
              intro hne
              cases e with
              | gc freed => exact absurd rfl (hne freed)
              | _ => exact hm
            by_cases hne : ∀ freed, e ≠ .gc freed
            · have hin := inlog hne
              cases hout : out with
              | none => rw [hout] at hin; exact .inl ⟨hin, shift hne⟩
              | some x =>
                rw [hout] at hin
                simp only at hin
                split at hin
                · exact .inl ⟨hin, shift hne⟩
                · rcases List.mem_cons.mp hin with he | hin
                  · refine .inr ⟨0, by omega, ?_, fun m freed _ hmk => shift hne m freed hmk⟩
                    rw [he]; rfl
                  · exact .inl ⟨hin, shift hne⟩
            · have : ∃ freed, e = .gc freed := by
                cases e with
                | gc freed => exact ⟨freed, rfl⟩
                | _ => exact absurd (fun _ => nofun) hne
              obtain ⟨freed, rfl⟩ := this
              simp [logAfter] at hm
          · refine .inr ⟨j + 1, by omega, by simpa using hjo, ?_⟩
            intro m freed hjm hmk he
            cases m with
            | zero => omega
            | succ m => simp only [List.getElem?_cons_succ] at he; exact hg m freed (by omega) (by omega) he

/-- Whatever happens, what `macroexpand` finds in its history is what it made of that very object before, although addresses are used again. -/
theorem C74_same_object (w : World) (es : List Event) {st : St} {outs : List (Option Out)} (h : run { world := w } es = some (st, outs)) (k : Nat) (o : Out)
    (hk : outs[k]? = some (some o)) (hc : o.cached = true) :
    ∃ (p : Obj) (e' : Env) (j : Nat), o.result = some p ∧ j < k ∧ outs[j]? = some (some ⟨o.form, e', some p, false⟩) ∧ ∀ (m : Nat) (freed : Addr → Bool), j ≤ m → m ≤ k → es[m]? ≠ some (Event.gc freed) := by
  obtain ⟨p, e', hp, hh⟩ := cached_run es (Inv.start w) h k o hk hc
  rcases hh with ⟨hm, _⟩ | ⟨j, hj, hjo, hg⟩
  · simp at hm
  · exact ⟨p, e', j, hp, hj, hjo, hg⟩

/-! ### While nothing changes -/

/-- What is so while nothing changes. -/
structure Good (env : Env) (ex : Nat → Bool → Obj → Obj) (st : St) : Prop where
  hist : ∀ i a r, (a, r) ∈ st.history i → ∃ o p, st.obj a = some o ∧ st.obj r = some p ∧ Expands st.world env ex o p
  frames : ∀ f ∈ st.stack, f.env = env ∧ ∃ o p g b, st.obj f.input = some o ∧ st.obj f.pred = some p ∧ macroexpand1 st.world p env = .call g b ∧
    ∀ q, Expands st.world env ex p q → Expands st.world env ex o q

/-- What may be returned. -/
def OutOk (w : World) (env : Env) (ex : Nat → Bool → Obj → Obj) (out : Option Out) : Prop :=
  ∀ o, out = some o → o.env = env ∧ ∀ p, o.result = some p → Expands w env ex o.form p

theorem Good.finish {env : Env} {ex : Nat → Bool → Obj → Obj} {st : St} (h : Good env ex st) {input form : Addr} {o p : Obj} (hi : st.obj input = some o) (hf : st.obj form = some p)
    (he : Expands st.world env ex o p) : Good env ex (Macro.finish st env input form).1 ∧ OutOk st.world env ex (Macro.finish st env input form).2 := by
  refine ⟨⟨?_, h.frames⟩, ?_⟩
  · intro i a r hm
    have hm : (a, r) ∈ if i = histHash input then (input, form) :: st.history i else st.history i := hm
    split at hm
    · rcases List.mem_cons.mp hm with hx | hm
      · cases hx; exact ⟨o, p, hi, hf, he⟩
      · exact h.hist _ _ _ hm
    · exact h.hist _ _ _ hm
  · intro x hx
    simp only [Macro.finish, hi, hf, Option.some.injEq] at hx
    subst hx
    exact ⟨rfl, fun q hq => by cases hq; exact he⟩

theorem Good.loop {env : Env} {ex : Nat → Bool → Obj → Obj} {st : St} (h : Good env ex st) {input pred : Addr} {o p : Obj} (hi : st.obj input = some o) (hf : st.obj pred = some p)
    (he : ∀ q, Expands st.world env ex p q → Expands st.world env ex o q) : Good env ex (Macro.loop st env input pred).1 ∧ OutOk st.world env ex (Macro.loop st env input pred).2 := by
  unfold Macro.loop
  rw [hf]
  simp only
  cases hm : macroexpand1 st.world p env with
  | same => exact h.finish hi hf (he p (.same hm))
  | call g b =>
    refine ⟨⟨h.hist, ?_⟩, by simp [OutOk]⟩
    intro f hfm
    rcases List.mem_cons.mp hfm with rfl | hfm
    · exact ⟨rfl, o, p, g, b, hi, hf, hm, he⟩
    · exact h.frames f hfm

theorem Good.step {env : Env} {ex : Nat → Bool → Obj → Obj} {st st' : St} {log : List Out} (h : Good env ex st) (hinv : Inv st log) {e : Event} {es : List Event} {out : Option Out}
    (hsteady : Steady env ex st (e :: es)) (hs : step st e = some (st', out)) : Good env ex st' ∧ st'.world = st.world ∧ OutOk st.world env ex out := by
  have hst := hsteady.1
  have wl : ∀ s i p, (Macro.loop s env i p).1.world = s.world := by
    intro s i p; unfold Macro.loop
    split
    · rfl
    · split <;> rfl
  cases e with
  | alloc a =>
    unfold Macro.step at hs
    simp only at hs
    split at hs
    · rename_i ha
      simp only [Option.some.injEq, Prod.mk.injEq] at hs
      obtain ⟨rfl, rfl⟩ := hs
      have keep : ∀ x o, st.obj x = some o → (if x = a then some st.count else st.obj x) = some o := by
        intro x o hx
        rw [if_neg]; exact hx
        rintro rfl; rw [ha] at hx; cases hx
      refine ⟨⟨?_, ?_⟩, rfl, by simp [OutOk]⟩
      · intro i x r hm
        obtain ⟨o, p, h2, h3, h4⟩ := h.hist i x r hm
        exact ⟨o, p, keep _ _ h2, keep _ _ h3, h4⟩
      · intro f hf
        obtain ⟨h0, o, p, g, b, h1, h2, h3⟩ := h.frames f hf
        exact ⟨h0, o, p, g, b, keep _ _ h1, keep _ _ h2, h3⟩
    · cases hs
  | gc freed =>
    unfold Macro.step at hs
    simp only at hs
    split at hs
    · rename_i ha
      simp only [Option.some.injEq, Prod.mk.injEq] at hs
      obtain ⟨rfl, rfl⟩ := hs
      refine ⟨⟨by simp, ?_⟩, rfl, by simp [OutOk]⟩
      intro f hf
      obtain ⟨h0, o, p, g, b, h1, h2, h3⟩ := h.frames f hf
      have := List.all_eq_true.mp ha f hf
      simp only [Bool.and_eq_true, Bool.not_eq_true'] at this
      exact ⟨h0, o, p, g, b, by simp [this.1, h1], by simp [this.2, h2], h3⟩
    · cases hs
  | change w => exact absurd hst (by simp)
  | call form env' =>
    have : env' = env := hst
    subst this
    unfold Macro.step at hs
    simp only at hs
    split at hs
    · cases hs
    · rename_i hf
      simp only [Option.some.injEq] at hs
      unfold Macro.macroexpand at hs
      cases ho : st.obj form with
      | none => exact absurd ho hf
      | some o =>
        rw [ho] at hs
        simp only at hs
        split at hs
        · rename_i hcar
          simp only [Prod.mk.injEq] at hs
          obtain ⟨rfl, rfl⟩ := hs
          refine ⟨h, rfl, ?_⟩
          intro x hx
          cases hx
          refine ⟨rfl, fun p hp => ?_⟩
          cases hp
          exact .same (by simp [macroexpand1, hcar])
        · cases hsr : search st form with
          | some r =>
            rw [hsr] at hs
            simp only [Prod.mk.injEq] at hs
            obtain ⟨rfl, rfl⟩ := hs
            obtain ⟨o', p, h2, h3, h4⟩ := h.hist _ _ _ (search_mem hsr)
            rw [ho] at h2
            cases h2
            refine ⟨h, rfl, ?_⟩
            intro x hx
            rw [h3] at hx
            simp only [Option.map_some, Option.some.injEq] at hx
            subst hx
            exact ⟨rfl, fun q hq => by cases hq; exact h4⟩
          | none =>
            rw [hsr] at hs
            simp only at hs
            have := h.loop ho ho (fun q hq => hq)
            have hw := wl st form form
            rw [hs] at this hw
            exact ⟨this.1, hw, this.2⟩
  | result r =>
    unfold Macro.step at hs
    simp only at hs
    cases hstk : st.stack with
    | nil => rw [hstk] at hs; cases hs
    | cons f fs =>
      rw [hstk] at hs
      simp only at hs
      obtain ⟨h0, o, p, g, b, h1, h2, h3, h4⟩ := h.frames f (by rw [hstk]; exact List.mem_cons_self)
      have h' : Good env ex { st with stack := fs } := ⟨h.hist, fun g hg => h.frames g (by rw [hstk]; exact List.mem_cons_of_mem _ hg)⟩
      cases r with
      | none =>
        simp only [Option.some.injEq, Prod.mk.injEq] at hs
        obtain ⟨rfl, rfl⟩ := hs
        refine ⟨h', rfl, ?_⟩
        intro x hx
        rw [h1] at hx
        cases hx
        exact ⟨h0, nofun⟩
      | some r =>
        simp only at hs
        have hex := hst f fs p g b hstk h2 (by rw [h0]; exact h3)
        rw [hex] at hs
        simp only [reduceCtorEq, if_false] at hs
        split at hs
        · rename_i hrp
          simp only [Option.some.injEq] at hs
          have hpp : ex g b p = p := by rw [hrp, h2] at hex; exact (Option.some.inj hex).symm
          have := h'.finish (input := f.input) (form := r) h1 hex (h4 _ (by rw [hpp]; exact .itself h3 hpp))
          rw [h0] at hs
          have hw : (Macro.finish { st with stack := fs } env f.input r).1.world = st.world := rfl
          rw [hs] at this hw
          exact ⟨this.1, hw, this.2⟩
        · rename_i hrp
          simp only [Option.some.injEq] at hs
          have hne : ex g b p ≠ p := by
            intro he
            rw [he] at hex
            exact hrp (hinv.inj _ _ _ hex h2)
          have := h'.loop (input := f.input) (pred := r) h1 hex (fun q hq => h4 q (.more h3 hne hq))
          have hw := wl { st with stack := fs } f.input r
          rw [h0] at hs
          rw [hs] at this hw
          exact ⟨this.1, hw, this.2⟩

theorem Good.run {env : Env} {ex : Nat → Bool → Obj → Obj} : ∀ (es : List Event) {st st' : St} {log : List Out} {outs : List (Option Out)}, Good env ex st → Inv st log → Steady env ex st es →
    run st es = some (st', outs) → ∀ out ∈ outs, OutOk st.world env ex out := by
  intro es
  induction es with
  | nil =>
    intro st st' log outs _ _ _ hr out ho
    simp only [Macro.run, Option.some.injEq, Prod.mk.injEq] at hr
    rw [← hr.2] at ho
    simp at ho
  | cons e es ih =>
    intro st st' log outs h hinv hsd hr x hx
    unfold Macro.run at hr
    cases hs : Macro.step st e with
    | none => rw [hs] at hr; cases hr
    | some q =>
      obtain ⟨st1, out⟩ := q
      rw [hs] at hr
      simp only at hr
      cases hr1 : Macro.run st1 es with
      | none => rw [hr1] at hr; cases hr
      | some q =>
        obtain ⟨st2, outs1⟩ := q
        rw [hr1] at hr
        simp only [Option.map_some, Option.some.injEq, Prod.mk.injEq] at hr
        obtain ⟨rfl, rfl⟩ := hr
        obtain ⟨h1, h2, h3⟩ := h.step hinv hsd hs
        rcases List.mem_cons.mp hx with rfl | hx
        · exact h3
        · rw [← h2]; exact ih h1 (hinv.step hs).1 (by have := hsd.2; rw [hs] at this; exact this) hr1 x hx

theorem Inv.run : ∀ (es : List Event) {st st' : St} {log : List Out} {outs : List (Option Out)}, Inv st log → Macro.run st es = some (st', outs) → ∃ log', Inv st' log' := by
  intro es
  induction es with
  | nil =>
    intro st st' log outs h hr
    simp only [Macro.run, Option.some.injEq, Prod.mk.injEq] at hr
    rw [← hr.1]; exact ⟨_, h⟩
  | cons e es ih =>
    intro st st' log outs h hr
    unfold Macro.run at hr
    cases hs : Macro.step st e with
    | none => rw [hs] at hr; cases hr
    | some q =>
      rw [hs] at hr
      simp only at hr
      cases hr1 : Macro.run q.1 es with
      | none => rw [hr1] at hr; cases hr
      | some q' =>
        rw [hr1] at hr
        simp only [Option.map_some, Option.some.injEq, Prod.mk.injEq] at hr
        obtain ⟨rfl, rfl⟩ := hr
        exact ih (h.step hs).1 hr1

/-- After a collection that happens while no form is being expanded, and after whatever went before, as long as nothing that expansion depends on
changes and one environment is used, `macroexpand` returns the expansion of its argument. -/
theorem C74_partial (w : World) (before : List Event) (freed : Addr → Bool) (es : List Event) (env : Env) (ex : Nat → Bool → Obj → Obj) {st st1 st' : St} {outs0 outs : List (Option Out)}
    (h0 : run { world := w } before = some (st, outs0)) (hidle : st.stack = []) (hgc : step st (.gc freed) = some (st1, none)) (hs : Steady env ex st1 es) (h : run st1 es = some (st', outs))
    (o : Out) (ho : some o ∈ outs) (p : Obj) (hp : o.result = some p) : o.env = env ∧ Expands st.world env ex o.form p := by
  obtain ⟨log, hinv⟩ := (Inv.start w).run before h0
  have h1 := (hinv.step hgc).1
  unfold Macro.step at hgc
  simp only at hgc
  split at hgc
  · simp only [Option.some.injEq, Prod.mk.injEq] at hgc
    obtain ⟨rfl, _⟩ := hgc
    have hg : Good env ex { st with obj := fun x => if freed x then none else st.obj x, history := fun _ => [] } := by
      refine ⟨by simp, ?_⟩
      intro f hf
      simp only [hidle] at hf
      cases hf
    obtain ⟨h3, h4⟩ := hg.run es h1 hs h _ ho o rfl
    exact ⟨h3, h4 p hp⟩
  · cases hgc

/-- What it expands to is determined. -/
theorem C74_determined {w : World} {env : Env} {ex : Nat → Bool → Obj → Obj} {o p q : Obj} (h : Expands w env ex o p) (h' : Expands w env ex o q) : p = q := by
  induction h with
  | same h1 => cases h' with
    | same => rfl
    | itself _ _ => rfl
    | more h2 _ _ => rw [h1] at h2; cases h2
  | itself h1 he => cases h' with
    | same _ => rfl
    | itself => rfl
    | more h2 hn _ => rw [h1] at h2; cases h2; exact absurd he hn
  | more h1 hn _ ih => cases h' with
    | same h2 => rw [h1] at h2; cases h2
    | itself h2 he => rw [h1] at h2; cases h2; exact absurd he hn
    | more h2 _ hq => rw [h1] at h2; cases h2; exact ih hq

/-! ### Cases -/

/-- `(foo)` is object 0, its head the symbol 0; the macro is F; 1, 2 and 3 are forms that are not macro calls. -/
def world (f : Nat) : World := { car := fun o => if o = 0 then some (.sym 0) else some .other, value := fun _ _ => .mac f, current := 0, isFn := fun _ => true }

/-- What the expanders do: F makes the object F of every form. -/
def expander (f : Nat) (_ : Bool) (_ : Obj) : Obj := f

/-- A form is expanded twice, the second time from the history; its address is used for another form after a collection, which is expanded
itself. -/
example : (run { world := world 1 } [.alloc 16, .alloc 32, .call 16 .nil, .result (some 32), .call 16 .nil, .gc (· == 16), .alloc 16, .call 16 .nil]).map (·.2) =
    some [none, none, none, some ⟨0, .nil, some 1, false⟩, some ⟨0, .nil, some 1, true⟩, none, none, some ⟨2, .nil, some 2, false⟩] := by decide

/-- The hypotheses of `C74_partial` are met. -/
example : Expands (world 1) .nil expander 0 1 := by
  have h := C74_partial (world 1) [.alloc 16, .alloc 32] (fun _ => false) [.call 16 .nil, .result (some 32), .call 16 .nil] .nil expander rfl rfl rfl
    ⟨rfl, ⟨by intro fr fs o f b h1 h2 h3; cases h1; cases h2; cases h3; rfl, ⟨rfl, trivial⟩⟩⟩ rfl ⟨0, .nil, some 1, true⟩ (by decide) 1 rfl
  exact h.2

/-- A macro is defined anew, and the form still expands as before (also when it is evaluated again, src/lisp.c:1882). -/
theorem C74_redefined_violated :
    (run { world := world 1 } [.alloc 16, .alloc 32, .alloc 48, .call 16 .nil, .result (some 32), .change (world 2), .call 16 .nil]).map (·.2) =
      some [none, none, none, none, some ⟨0, .nil, some 1, false⟩, none, some ⟨0, .nil, some 1, true⟩] ∧ Expands (world 2) .nil expander 0 2 ∧ ¬ Expands (world 2) .nil expander 0 1 := by
  have h : Expands (world 2) .nil expander 0 2 := .more (f := 2) (b := false) rfl (by decide) (.same rfl)
  exact ⟨by decide, h, fun h' => absurd (C74_determined h h') (by decide)⟩

/-- A form is expanded by a function given as ENVIRONMENT, and that is what it expands to without it too. -/
theorem C74_environment_violated :
    (run { world := world 2 } [.alloc 16, .alloc 32, .alloc 48, .call 16 (.fn 1), .result (some 32), .result (some 32), .call 16 .nil]).map (·.2) =
      some [none, none, none, none, none, some ⟨0, .fn 1, some 1, false⟩, some ⟨0, .nil, some 1, true⟩] ∧ Expands (world 2) .nil expander 0 2 ∧ ¬ Expands (world 2) .nil expander 0 1 := by
  have h : Expands (world 2) .nil expander 0 2 := .more (f := 2) (b := false) rfl (by decide) (.same rfl)
  exact ⟨by decide, h, fun h' => absurd (C74_determined h h') (by decide)⟩

/-- A form is changed after it was expanded (it is no macro call any more). -/
theorem C74_changed_violated :
    (run { world := world 1 } [.alloc 16, .alloc 32, .call 16 .nil, .result (some 32), .change { world 1 with car := fun _ => some .other }, .call 16 .nil]).map (·.2) =
      some [none, none, none, some ⟨0, .nil, some 1, false⟩, none, some ⟨0, .nil, some 1, true⟩] ∧ ¬ MacroCall { world 1 with car := fun _ => some .other } 0 := by
  refine ⟨by decide, ?_⟩
  rintro ⟨f, _, h | ⟨s, h, _⟩⟩ <;> cases h

/-- A form whose head is a function, such as the value of `(list car 'x)`, is no macro call, but `macroexpand` calls the function. -/
theorem C74_function_violated (w : World) (o : Obj) (f : Nat) (h : w.car o = some (.fn f)) : ¬ MacroCall w o ∧ macroexpand1 w o .nil = .call f false := by
  refine ⟨?_, by simp [macroexpand1, h]⟩
  rintro ⟨g, _, h' | ⟨s, h', _⟩⟩ <;> rw [h] at h' <;> cases h'

/-- Apart from that, what is expanded without ENVIRONMENT are the macro calls. -/
theorem C74_macro_calls (w : World) (o : Obj) (h : ∀ f, w.car o ≠ some (.fn f)) : macroexpand1 w o .nil ≠ .same ↔ MacroCall w o := by
  unfold macroexpand1 MacroCall
  cases hc : w.car o with
  | none => simp
  | some car =>
    cases car with
    | sym s =>
      cases hv : w.value w.current s with
      | mac f => cases hf : w.isFn f <;> simp [hv, hf]
      | _ => simp [hv]
    | mac f => cases hf : w.isFn f <;> simp [hf]
    | fn f => exact absurd hc (h f)
    | other => simp

end Rep.Macro
