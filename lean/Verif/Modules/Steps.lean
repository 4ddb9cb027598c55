import Verif.Modules.Ops4

/-
One step, and histories.
-/

namespace Rep.Mods

theorem layered_acyc {g : St} {v : Nat} (h : Spec.Layered (abs g) v) : Acyc (view g v) := by
  obtain ⟨rank, h⟩ := h
  refine ⟨rank, ?_⟩
  intro s i b hi hr ho hh
  change i ∈ importsOf g s at hi
  change resolve g i = some b at hr
  change lookup g b v = none at ho
  change inhOf g v b = true at hh
  unfold importsOf at hi
  cases hm : g.mods s with
  | none => rw [hm] at hi; simp at hi
  | some m =>
    rw [hm] at hi
    have hlive := resolve_live hr
    cases hmb : g.mods b with
    | none => simp [hmb] at hlive
    | some mb =>
      rw [lookup_eq hmb] at ho
      unfold inhOf at hh
      rw [hmb] at hh
      exact h s _ i b _ (abs_mods hm) hi (by rw [resolve_abs]; exact hr) (abs_mods hmb)
        (binds_of_none ho) hh

/-- What the allocator, the garbage collector and the type checks of C callers guarantee: new
addresses are free, freed structures cannot be reached, and names are given to structures that
exist. -/
def Safe (g : St) : Op → Prop
  | .mk _ _ _ a n => g.mods a = none ∧ g.nodes n = none
  | .nameIt _ _ n => g.nodes n = none
  | .define s _ x n => g.nodes n = none ∧ ValOK g s x
  | .set s _ x n => g.nodes n = none ∧ ValOK g s x
  | .addSubr s _ x _ n => g.nodes n = none ∧ ValOK g s x
  | .sweep X => Dead g X
  | _ => True

/-- When the cache stays right. -/
def Coherent (g : St) : Op → Prop
  | .endHeader _ => NoMeta g
  | .ref _ v => Spec.Layered (abs g) v
  | .boundP _ v => Spec.Layered (abs g) v
  | .immutableP _ v => Spec.Layered (abs g) v
  | .external _ _ v => Spec.Layered (abs g) v
  | .define s _ _ _ => s ≠ g.names
  | .set s _ _ _ => s ≠ g.names
  | .addSubr s v _ e _ =>
    s ≠ g.names ∧ ∀ n r, lookup g s v = some n → g.nodes n = some r → r.exported = e
  | .exportsAll s _ => NotOpened g s
  | _ => True

theorem of_some {q : St × Out} {g' : St} {o : Out} (h : some q = some (g', o)) : q.1 = g' ∧ q.2 = o := by
  cases h
  exact ⟨rfl, rfl⟩

/-- The tables do what they should, whatever is in the cache. -/
theorem step_core {g g' : St} {op : Op} {o : Out} (hb : Base g) (hs : Safe g op)
    (h : step g op = some (g', o)) : Base g' ∧ abs g' = (Spec.step (abs g) op).1 := by
  have core : ∀ {q : St}, SameCore g q → Base q ∧ abs q = abs g :=
    fun hc => ⟨hc.base hb, hc.abs⟩
  have ask : ∀ (s : Sid) (f : Spec.SMod → Out), (Spec.ask (abs g) s f).1 = abs g := by
    intro s f
    unfold Spec.ask
    split <;> rfl
  cases op with
  | mk sig nm hdr a n =>
    have := mk_ok hb hs.1 hs.2 h
    exact ⟨this.1, by rw [this.2.2]⟩
  | endHeader s =>
    obtain ⟨rfl, rfl⟩ := of_some h
    have := endHeader_ok (s := s) hb
    exact ⟨this.1, by rw [this.2.2]⟩
  | nameIt s nm n =>
    by_cases hl : (g.mods s).isSome
    · have := name_ok hb hs h hl
      exact ⟨this.1.toBase, by rw [this.2.1]⟩
    · have hm : g.mods s = none := by simpa using hl
      change nameStructure g s nm n = _ at h
      unfold nameStructure at h
      rw [hm] at h
      cases h
      refine ⟨hb, ?_⟩
      simp only [Spec.step]
      unfold Spec.nameStructure
      rw [abs_none hm]
  | ref s v => obtain ⟨rfl, rfl⟩ := of_some h; exact (ask s _).symm ▸ core (ref_core g s v)
  | boundP s v => obtain ⟨rfl, rfl⟩ := of_some h; exact (ask s _).symm ▸ core (boundP_core g s v)
  | immutableP s v => obtain ⟨rfl, rfl⟩ := of_some h; exact (ask s _).symm ▸ core (immutableP_core g s v)
  | external c x v => obtain ⟨rfl, rfl⟩ := of_some h; exact core (external_core g c x v)
  | exportsP s v => cases h; exact ⟨hb, (ask s _).symm⟩
  | define s v x n =>
    have := define_ok hb hs.1 hs.2 h
    exact ⟨this.1, by simp only [Spec.step]; rw [← this.2.2]⟩
  | set s v x n =>
    have := setVar_ok hb hs.1 hs.2 h
    exact ⟨this.1, by simp only [Spec.step]; rw [← this.2.2]⟩
  | setInterface s sig =>
    obtain ⟨rfl, rfl⟩ := of_some h
    have := setInterface_ok (s := s) (sig := sig) hb
    exact ⟨this.1, by rw [this.2.2]⟩
  | openS s l =>
    obtain ⟨rfl, rfl⟩ := of_some h
    have := open_ok (s := s) (l := l) hb
    exact ⟨this.1, by rw [this.2.2]⟩
  | access s l =>
    obtain ⟨rfl, rfl⟩ := of_some h
    have := access_ok (s := s) (l := l) hb
    exact ⟨this.1, by rw [this.2.2]⟩
  | exportB s v =>
    obtain ⟨rfl, rfl⟩ := of_some h
    have := exportBinding_ok (s := s) (v := v) hb
    exact ⟨this.1, by rw [this.2.2]⟩
  | exportsAll s x =>
    obtain ⟨rfl, rfl⟩ := of_some h
    have := exportsAll_ok (s := s) (x := x) hb
    exact ⟨this.1, by rw [this.2.2]⟩
  | setBinds s x =>
    obtain ⟨rfl, rfl⟩ := of_some h
    have := setBinds_ok (s := s) (x := x) hb
    exact ⟨this.1, by rw [this.2.2]⟩
  | makeImmutable s v =>
    obtain ⟨rfl, rfl⟩ := of_some h
    have := makeImmutable_ok (s := s) (v := v) hb
    exact ⟨this.1, by rw [this.2.2]⟩
  | addSubr s v x e n =>
    obtain ⟨rfl, rfl⟩ := of_some h
    have := addSubr_ok (s := s) (v := v) (x := x) (e := e) hb hs.1 hs.2
    exact ⟨this.1, by rw [this.2.2]⟩
  | sweep X =>
    obtain ⟨rfl, rfl⟩ := of_some h
    have := sweep_ok hb hs
    exact ⟨this.1, by rw [this.2.2]⟩

/-- With a cache that is right, a step does what the specification says. -/
theorem step_full {g g' : St} {op : Op} {o : Out} (hi : Inv g) (hs : Safe g op) (hc : Coherent g op)
    (h : step g op = some (g', o)) : Inv g' ∧ Spec.step (abs g) op = (abs g', o) := by
  have hb := hi.toBase
  cases op with
  | mk sig nm hdr a n =>
    have := mk_ok hb hs.1 hs.2 h
    exact ⟨{ toBase := this.1, cache := this.2.1 hi.cache }, this.2.2⟩
  | endHeader s =>
    obtain ⟨rfl, rfl⟩ := of_some h
    have := endHeader_ok (s := s) hb
    exact ⟨{ toBase := this.1, cache := this.2.1 hi.cache hc }, this.2.2⟩
  | nameIt s nm n =>
    by_cases hl : (g.mods s).isSome
    · have := name_ok hb hs h hl
      exact ⟨this.1, this.2.1⟩
    · have hm : g.mods s = none := by simpa using hl
      change nameStructure g s nm n = _ at h
      unfold nameStructure at h
      rw [hm] at h
      cases h
      refine ⟨hi, ?_⟩
      simp only [Spec.step]
      unfold Spec.nameStructure
      rw [abs_none hm]
  | ref s v => obtain ⟨rfl, rfl⟩ := of_some h; exact ref_ok hi (layered_acyc hc)
  | boundP s v => obtain ⟨rfl, rfl⟩ := of_some h; exact boundP_ok hi (layered_acyc hc)
  | immutableP s v => obtain ⟨rfl, rfl⟩ := of_some h; exact immutableP_ok hi (layered_acyc hc)
  | external c x v => obtain ⟨rfl, rfl⟩ := of_some h; exact external_ok hi (layered_acyc hc)
  | exportsP s v => cases h; exact ⟨hi, exportsP_ok hb⟩
  | define s v x n =>
    have := define_ok hb hs.1 hs.2 h
    exact ⟨this.2.1 hi hc, this.2.2.symm⟩
  | set s v x n =>
    have := setVar_ok hb hs.1 hs.2 h
    exact ⟨this.2.1 hi hc, this.2.2.symm⟩
  | setInterface s sig =>
    obtain ⟨rfl, rfl⟩ := of_some h
    have := setInterface_ok (s := s) (sig := sig) hb
    exact ⟨{ toBase := this.1, cache := this.2.1 hi.cache }, this.2.2⟩
  | openS s l =>
    obtain ⟨rfl, rfl⟩ := of_some h
    have := open_ok (s := s) (l := l) hb
    exact ⟨{ toBase := this.1, cache := this.2.1 hi.cache }, this.2.2⟩
  | access s l =>
    obtain ⟨rfl, rfl⟩ := of_some h
    have := access_ok (s := s) (l := l) hb
    exact ⟨{ toBase := this.1, cache := this.2.1 hi.cache }, this.2.2⟩
  | exportB s v =>
    obtain ⟨rfl, rfl⟩ := of_some h
    have := exportBinding_ok (s := s) (v := v) hb
    exact ⟨{ toBase := this.1, cache := this.2.1 hi.cache }, this.2.2⟩
  | exportsAll s x =>
    obtain ⟨rfl, rfl⟩ := of_some h
    have := exportsAll_ok (s := s) (x := x) hb
    exact ⟨{ toBase := this.1, cache := this.2.1 hi.cache hc }, this.2.2⟩
  | setBinds s x =>
    obtain ⟨rfl, rfl⟩ := of_some h
    have := setBinds_ok (s := s) (x := x) hb
    exact ⟨{ toBase := this.1, cache := this.2.1 hi.cache }, this.2.2⟩
  | makeImmutable s v =>
    obtain ⟨rfl, rfl⟩ := of_some h
    have := makeImmutable_ok (s := s) (v := v) hb
    exact ⟨{ toBase := this.1, cache := this.2.1 hi.cache }, this.2.2⟩
  | addSubr s v x e n =>
    obtain ⟨rfl, rfl⟩ := of_some h
    have := addSubr_ok (s := s) (v := v) (x := x) (e := e) hb hs.1 hs.2
    exact ⟨{ toBase := this.1, cache := this.2.1 hi.cache hc.1 hc.2 }, this.2.2⟩
  | sweep X =>
    obtain ⟨rfl, rfl⟩ := of_some h
    have := sweep_ok hb hs
    exact ⟨{ toBase := this.1, cache := this.2.1 hi.cache }, this.2.2⟩

/-! ### Histories -/

/-- A list of calls; `none` if freed memory is read. -/
def run (g : St) : List Op → Option (St × List Out)
  | [] => some (g, [])
  | op :: l =>
    match step g op with
    | none => none
    | some (g1, o) => (run g1 l).map fun r => (r.1, o :: r.2)

/-- Every call of the history meets the condition. -/
def Along (P : St → Op → Prop) (g : St) : List Op → Prop
  | [] => True
  | op :: l =>
    P g op ∧
      match step g op with
      | none => True
      | some q => Along P q.1 l

theorem Along.next {P : St → Op → Prop} {g g1 : St} {op : Op} {l : List Op} {o : Out}
    (h : Along P g (op :: l)) (hs : step g op = some (g1, o)) : Along P g1 l := by
  have := h.2
  rw [hs] at this
  exact this

theorem init_base (mn : Nat) : Base (init mn) := by
  have hm : ∀ s m, (init mn).mods s = some m → s = 0 ∧ m = ⟨none, [], [], [], [], 0, false, false⟩ := by
    intro s m h
    simp only [init] at h
    split at h
    · exact ⟨by assumption, (Option.some.inj h).symm⟩
    · cases h
  refine ⟨?_, ?_, ?_, rfl, ?_, ?_⟩
  · intro s m h
    rw [(hm s m h).2]
    exact tabOK_replicate _ 0
  · intro s s' m m' n h h' _ _
    rw [(hm s m h).1, (hm s' m' h').1]
  · intro s h
    obtain ⟨m, h⟩ := Option.isSome_iff_exists.1 h
    rw [(hm s m h).1]
    exact Nat.zero_lt_one
  · intro t m a h ha
    rw [(hm t m h).2] at ha
    simp at ha
  · intro x n r a _ hr
    cases hr

theorem init_inv (mn : Nat) : Inv (init mn) := by
  refine { toBase := init_base mn, cache := ?_ }
  intro k l hl
  simp [init, emptySets] at hl

theorem init_abs (mn : Nat) : abs (init mn) = Spec.init mn := by
  ext1
  · funext s
    simp only [abs, init, Spec.init]
    split
    · simp only [Option.map_some, absMod, Option.some.injEq, Spec.SMod.mk.injEq, true_and, and_true]
      funext v
      simp [bindOf, lookupM]
    · rfl
  · rfl
  · rfl
  · rfl

theorem run_full : ∀ {ops : List Op} {g g' : St} {os : List Out}, Inv g → Along Safe g ops →
    Along Coherent g ops → run g ops = some (g', os) → Inv g' ∧ os = Spec.outs (abs g) ops := by
  intro ops
  induction ops with
  | nil =>
    intro g g' os hi _ _ h
    cases h
    exact ⟨hi, rfl⟩
  | cons op l ih =>
    intro g g' os hi hs hc h
    simp only [run] at h
    cases hstep : step g op with
    | none => rw [hstep] at h; cases h
    | some q =>
      obtain ⟨g1, o⟩ := q
      rw [hstep] at h
      dsimp only at h
      cases hr : run g1 l with
      | none => rw [hr] at h; cases h
      | some r =>
        rw [hr] at h
        cases h
        have h1 := step_full hi hs.1 hc.1 hstep
        have h2 := ih h1.1 (hs.next hstep) (hc.next hstep) (g' := r.1) (os := r.2) hr
        refine ⟨h2.1, ?_⟩
        simp only [Spec.outs]
        rw [h1.2, h2.2]

/-- Histories for which the tables are right; the cache may hold anything. -/
theorem run_core {P : Spec.SSt → List Op → Prop}
    (hP : ∀ G ops op, (∀ sig nm hdr a n, op = .mk sig nm hdr a n → G.mods a = none) → P G ops →
      P (Spec.step G op).1 (ops ++ [op])) :
    ∀ {ops : List Op} {g g' : St} {os : List Out} (done : List Op), Base g → Along Safe g ops →
      P (abs g) done → run g ops = some (g', os) → Base g' ∧ P (abs g') (done ++ ops) := by
  intro ops
  induction ops with
  | nil =>
    intro g g' os done hb _ hp h
    cases h
    exact ⟨hb, by simpa using hp⟩
  | cons op l ih =>
    intro g g' os done hb hs hp h
    simp only [run] at h
    cases hstep : step g op with
    | none => rw [hstep] at h; cases h
    | some q =>
      obtain ⟨g1, o⟩ := q
      rw [hstep] at h
      dsimp only at h
      cases hr : run g1 l with
      | none => rw [hr] at h; cases h
      | some r =>
        rw [hr] at h
        cases h
        have h1 := step_core hb hs.1 hstep
        have h2 := ih (done ++ [op]) h1.1 (hs.next hstep) (by
          rw [h1.2]
          refine hP _ _ _ ?_ hp
          rintro sig nm hdr a n rfl
          exact abs_none hs.1.1)
          (g' := r.1) (os := r.2) hr
        exact ⟨h2.1, by simpa using h2.2⟩

end Rep.Mods
