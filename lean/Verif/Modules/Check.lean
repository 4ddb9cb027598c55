import Verif.Modules.Steps

/-
The conditions on histories can be checked for concrete histories.
-/

namespace Rep.Mods

/-- `Dead`, checked by looking at all structures. -/
def deadB (g : St) (X : List Sid) : Bool :=
  !X.contains g.names &&
    (List.range g.top).all (fun t => X.contains t || (importsOf g t).all fun i =>
      match i with
      | .obj a => !X.contains a
      | .name _ => true) &&
    ((g.mods g.names).all fun m => m.buckets.flatten.all fun n =>
      match (g.nodes n).bind (·.val.sid) with
      | some a => !X.contains a
      | none => true)

theorem deadB_ok {g : St} {X : List Sid} (hb : Base g) (h : deadB g X = true) : Dead g X := by
  simp only [deadB, Bool.and_eq_true, Bool.not_eq_true', List.all_eq_true, List.mem_range,
    Bool.or_eq_true] at h
  obtain ⟨⟨h1, h2⟩, h3⟩ := h
  refine ⟨by simpa using h1, ?_, ?_⟩
  · intro t m a hm ht ha
    have := h2 t (hb.lt t (by simp [hm]))
    rcases this with h' | h'
    · exact absurd (by simpa using h') ht
    · have := h' (.obj a) (by simpa [importsOf, hm] using ha)
      simpa using this
  · intro x n r a hl hr hv
    obtain ⟨m, hm⟩ := Option.isSome_iff_exists.1 hb.nam
    rw [hm] at h3
    rw [lookup_eq hm] at hl
    simp only [Option.all_some, List.all_eq_true] at h3
    have := h3 n (lookupM_mem hl)
    simpa [hr, hv, Val.sid] using this

def valB (g : St) (s : Sid) (x : Val) : Bool :=
  s ≠ g.names || match x.sid with
    | some a => (g.mods a).isSome
    | none => true

theorem valB_ok {g : St} {s : Sid} {x : Val} (h : valB g s x = true) : ValOK g s x := by
  simp only [valB, Bool.or_eq_true, decide_eq_true_eq] at h
  rcases h with h | h
  · exact .inl h
  · refine .inr ?_
    rintro a rfl
    simpa [Val.sid] using h

def safeB (g : St) : Op → Bool
  | .mk _ _ _ a n => (g.mods a).isNone && (g.nodes n).isNone
  | .nameIt _ _ n => (g.nodes n).isNone
  | .define s _ x n => (g.nodes n).isNone && valB g s x
  | .set s _ x n => (g.nodes n).isNone && valB g s x
  | .addSubr s _ x _ n => (g.nodes n).isNone && valB g s x
  | .sweep X => deadB g X
  | _ => true

theorem safeB_ok {g : St} {op : Op} (hb : Base g) (h : safeB g op = true) : Safe g op := by
  cases op <;> simp only [safeB, Bool.and_eq_true, Option.isNone_iff_eq_none] at h <;>
    simp only [Safe]
  case mk => exact h
  case nameIt => exact h
  case define => exact ⟨h.1, valB_ok h.2⟩
  case set => exact ⟨h.1, valB_ok h.2⟩
  case addSubr => exact ⟨h.1, valB_ok h.2⟩
  case sweep => exact deadB_ok hb h

/-- `Layered`, for a given ranking. -/
def layeredB (rank : Sid → Nat) (g : St) (v : Nat) : Bool :=
  (List.range g.top).all fun t => (importsOf g t).all fun i =>
    match resolve g i with
    | none => true
    | some b => (lookup g b v).isSome || !inhOf g v b || decide (rank b < rank t)

theorem layeredB_ok {rank : Sid → Nat} {g : St} {v : Nat} (hb : Base g) (h : layeredB rank g v = true) :
    Spec.Layered (abs g) v := by
  refine ⟨rank, ?_⟩
  intro s m i b mb hm hi hr hmb ho hh
  simp only [abs] at hm hmb
  obtain ⟨m', hm', rfl⟩ := Option.map_eq_some_iff.1 hm
  obtain ⟨mb', hmb', rfl⟩ := Option.map_eq_some_iff.1 hmb
  rw [resolve_abs] at hr
  simp only [layeredB, List.all_eq_true, List.mem_range] at h
  have := h s (hb.lt s (by simp [hm'])) i (by simpa [importsOf, hm', absMod] using hi)
  rw [hr] at this
  simp only [Bool.or_eq_true, Bool.not_eq_true', decide_eq_true_eq] at this
  rcases this with (h1 | h1) | h1
  · rw [lookup_eq hmb'] at h1
    obtain ⟨n, hn⟩ := Option.isSome_iff_exists.1 h1
    obtain ⟨r, hr'⟩ := hb.live hmb' (lookupM_mem hn)
    rw [binds_of_lookup hn hr'] at ho
    cases ho
  · have : inhOf g v b = true := by
      simp only [inhOf, hmb']
      exact hh
    rw [this] at h1
    cases h1
  · exact h1

/-- The cache is empty. -/
def emptyB (g : St) : Bool := (List.range 128).all fun k => (g.cache.sets k).all (·.isNone)

theorem emptyB_ok {g : St} (hi : Inv g) (h : emptyB g = true) : NoMeta g := by
  intro k l v K hl
  obtain ⟨w, _, hk, _⟩ := hi.cache k l hl
  simp only [emptyB, List.all_eq_true, List.mem_range] at h
  have := h k (by rw [← hk]; exact Nat.mod_lt _ (by decide)) (some l) hl
  simp at this

def notOpenedB (g : St) (s : Sid) : Bool :=
  (List.range g.top).all fun t => (importsOf g t).all fun i => decide (resolve g i ≠ some s)

theorem notOpenedB_ok {g : St} {s : Sid} (hb : Base g) (h : notOpenedB g s = true) : NotOpened g s := by
  intro t m i hm hi
  simp only [notOpenedB, List.all_eq_true, List.mem_range, decide_eq_true_eq] at h
  exact h t (hb.lt t (by simp [hm])) i (by simpa [importsOf, hm] using hi)

def coherentB (rank : Sid → Nat) (g : St) : Op → Bool
  | .endHeader _ => emptyB g
  | .ref _ v => layeredB rank g v
  | .boundP _ v => layeredB rank g v
  | .immutableP _ v => layeredB rank g v
  | .external _ _ v => layeredB rank g v
  | .define s _ _ _ => s ≠ g.names
  | .set s _ _ _ => s ≠ g.names
  | .addSubr s v _ e _ =>
    s ≠ g.names && match (lookup g s v).bind g.nodes with
      | none => true
      | some r => r.exported == e
  | .exportsAll s _ => notOpenedB g s
  | _ => true

theorem coherentB_ok {rank : Sid → Nat} {g : St} {op : Op} (hi : Inv g)
    (h : coherentB rank g op = true) : Coherent g op := by
  cases op <;> simp only [coherentB, decide_eq_true_eq, Bool.and_eq_true] at h <;>
    simp only [Coherent]
  case endHeader => exact emptyB_ok hi h
  case ref => exact layeredB_ok hi.toBase h
  case boundP => exact layeredB_ok hi.toBase h
  case immutableP => exact layeredB_ok hi.toBase h
  case external => exact layeredB_ok hi.toBase h
  case define => exact h
  case set => exact h
  case addSubr =>
    refine ⟨h.1, ?_⟩
    intro n r hl hr
    have := h.2
    rw [hl, Option.bind_some, hr] at this
    simpa using this
  case exportsAll => exact notOpenedB_ok hi.toBase h

def alongB (c : St → Op → Bool) (g : St) : List Op → Bool
  | [] => true
  | op :: l =>
    c g op &&
      match step g op with
      | none => true
      | some q => alongB c q.1 l

theorem safe_run {g : St} (hb : Base g) {ops : List Op} (h : alongB safeB g ops = true) :
    Along Safe g ops := by
  induction ops generalizing g with
  | nil => trivial
  | cons op l ih =>
    simp only [alongB, Bool.and_eq_true] at h
    refine ⟨safeB_ok hb h.1, ?_⟩
    cases hs : step g op with
    | none => trivial
    | some q =>
      have h2 := h.2
      rw [hs] at h2
      exact ih (step_core hb (safeB_ok hb h.1) (g' := q.1) (o := q.2) hs).1 h2

theorem coherent_run {rank : Sid → Nat} {g : St} (hi : Inv g) {ops : List Op}
    (hs : alongB safeB g ops = true) (h : alongB (coherentB rank) g ops = true) :
    Along Coherent g ops := by
  induction ops generalizing g with
  | nil => trivial
  | cons op l ih =>
    simp only [alongB, Bool.and_eq_true] at h hs
    refine ⟨coherentB_ok hi h.1, ?_⟩
    cases hst : step g op with
    | none => trivial
    | some q =>
      have h2 := h.2
      have hs2 := hs.2
      rw [hst] at h2 hs2
      exact ih (step_full hi (safeB_ok hi.toBase hs.1) (coherentB_ok hi h.1) (g' := q.1) (o := q.2) hst).1
        hs2 h2

end Rep.Mods
