import Verif.Modules.Ops

/-
The operations that change the lists and flags of a structure, that make structures, and that
free them.
-/

namespace Rep.Mods

/-! ### Changing a structure, but not its bindings -/

section SetMod

variable {g : St} {s : Sid} {m m' : Mod}

theorem setMod_mods (t : Sid) : (g.setMod s m').mods t = if t = s then some m' else g.mods t := rfl

theorem setMod_live (hm : g.mods s = some m) (t : Sid) :
    ((g.setMod s m').mods t).isSome = (g.mods t).isSome := by
  rw [setMod_mods]
  split
  · rename_i e; simp [e, hm]
  · rfl

theorem lookupM_buckets (h : m'.buckets = m.buckets) (v : Nat) : lookupM g m' v = lookupM g m v := by
  simp only [lookupM, h]

theorem setMod_lookup (hm : g.mods s = some m) (h : m'.buckets = m.buckets) (t : Sid) (v : Nat) :
    lookup (g.setMod s m') t v = lookup g t v := by
  unfold lookup
  rw [setMod_mods]
  by_cases e : t = s
  · rw [if_pos e, e, hm]
    exact (lookupM_congr (g := g) (g' := g.setMod s m') (fun _ _ => rfl) v).trans (lookupM_buckets h v)
  · rw [if_neg e]
    cases g.mods t with
    | none => rfl
    | some mt => exact lookupM_congr (g := g) (g' := g.setMod s m') (fun _ _ => rfl) v

theorem setMod_base (hb : Base g) (hm : g.mods s = some m) (h : m'.buckets = m.buckets)
    (hi : ∀ a, Imp.obj a ∈ m'.imports → (g.mods a).isSome) : Base (g.setMod s m') := by
  refine ⟨?_, ?_, ?_, ?_, ?_, ?_⟩
  · intro t mt hmt
    rw [setMod_mods] at hmt
    split at hmt
    · cases hmt
      rw [h]
      exact (hb.tab s m hm).congr fun _ _ => rfl
    · exact (hb.tab t mt hmt).congr fun _ _ => rfl
  · have key : ∀ t mt x, (g.setMod s m').mods t = some mt → x ∈ mt.buckets.flatten →
        ∃ m0, g.mods t = some m0 ∧ x ∈ m0.buckets.flatten := by
      intro t mt x hmt hx
      rw [setMod_mods] at hmt
      split at hmt
      · rename_i e
        cases hmt
        exact ⟨m, by rw [e, hm], h ▸ hx⟩
      · exact ⟨mt, hmt, hx⟩
    intro t t' mt mt' x hmt hmt' hx hx'
    obtain ⟨m1, h1, h2⟩ := key t mt x hmt hx
    obtain ⟨m1', h1', h2'⟩ := key t' mt' x hmt' hx'
    exact hb.dis t t' m1 m1' x h1 h1' h2 h2'
  · intro t ht
    rw [setMod_live hm] at ht
    exact hb.lt t ht
  · rw [setMod_live hm]; exact hb.nam
  · intro t mt a hmt ha
    rw [setMod_live hm]
    rw [setMod_mods] at hmt
    split at hmt
    · cases hmt; exact hi a ha
    · exact hb.imp t mt a hmt ha
  · intro x y q a hlk hq hv
    rw [setMod_live hm]
    rw [setMod_lookup hm h] at hlk
    exact hb.ref x y q a hlk hq hv

theorem setMod_abs (g : St) (s : Sid) (m' : Mod) :
    abs (g.setMod s m') = (abs g).setMod s (absMod g m') := by
  rw [abs_upd (g := g) (g' := g.setMod s m') (s := s) (m' := m') rfl rfl rfl rfl
    (fun _ _ _ _ _ _ => rfl)]
  rw [absMod_congr (g := g) (g' := g.setMod s m') fun _ _ => rfl]

theorem setMod_veq (hm : g.mods s = some m) (h : m'.buckets = m.buckets) {w : Nat}
    (hinh : m'.exportsInherited w = m.exportsInherited w) (himp : m'.imports = m.imports) :
    VEq (view g w) (view (g.setMod s m') w) := by
  refine ⟨fun t => setMod_lookup hm h t w, fun _ _ _ => rfl, ?_, ?_, ?_⟩
  · intro t
    show inhOf _ w t = inhOf g w t
    unfold inhOf
    rw [setMod_mods]
    by_cases e : t = s
    · rw [if_pos e, e, hm]; exact hinh
    · rw [if_neg e]
  · intro t
    show importsOf _ t = importsOf g t
    unfold importsOf
    rw [setMod_mods]
    by_cases e : t = s
    · rw [if_pos e, e, hm]; exact himp
    · rw [if_neg e]
  · exact resolve_congr (setMod_live hm) rfl (fun x => setMod_lookup hm h _ x) (fun _ _ _ => rfl)

end SetMod

theorem absMod_eq {g : St} {m m' : Mod} (h : m'.buckets = m.buckets) :
    absMod g m' = ⟨m'.name, (absMod g m).binds, m'.inherited, m'.imports, m'.accessible, m'.exportAll,
      m'.setBinds⟩ := by
  have : bindOf g m' = bindOf g m := by
    funext v
    simp only [bindOf, lookupM_buckets h]
  simp [absMod, this]

/-- An operation that changes a structure and flushes the cache. -/
theorem setMod_flush {g : St} {s : Sid} {m m' : Mod} (hb : Base g) (hm : g.mods s = some m)
    (h : m'.buckets = m.buckets) (hi : ∀ a, Imp.obj a ∈ m'.imports → (g.mods a).isSome) :
    Inv (flush (g.setMod s m')) ∧ abs (flush (g.setMod s m')) = (abs g).setMod s (absMod g m') := by
  have hsc : SameCore (g.setMod s m') (flush (g.setMod s m')) := sameCore_cache _ _
  exact ⟨{ toBase := hsc.base (setMod_base hb hm h hi), cache := cacheOK_flush _ _ },
    by rw [hsc.abs]; exact setMod_abs g s m'⟩

/-! ### `open-structures` and `access-structures` -/

theorem openAll_abs (g : St) : ∀ l acc, Spec.openAll (abs g) l acc = openAll g l acc := by
  intro l
  induction l with
  | nil => intro acc; rfl
  | cons i l ih =>
    intro acc
    simp only [Spec.openAll, openAll, resolve_abs]
    split
    · exact ih acc
    · cases resolve g i with
      | none => simp
      | some a => simp [ih]

theorem accessAll_abs (g : St) : ∀ l acc, Spec.accessAll (abs g) l acc = accessAll g l acc := by
  intro l
  induction l with
  | nil => intro acc; rfl
  | cons i l ih =>
    intro acc
    simp only [Spec.accessAll, accessAll, resolve_abs]
    split
    · exact ih acc
    · cases resolve g (.name i) with
      | none => simp
      | some a => simp [ih]

theorem openAll_live {g : St} : ∀ {l acc : List Imp}, (∀ a, Imp.obj a ∈ acc → (g.mods a).isSome) →
    ∀ a, Imp.obj a ∈ (openAll g l acc).1 → (g.mods a).isSome := by
  intro l
  induction l with
  | nil => intro acc h; exact h
  | cons i l ih =>
    intro acc h
    simp only [openAll]
    split
    · exact ih h
    · cases hr : resolve g i with
      | none => exact h
      | some b =>
        refine ih ?_
        intro a ha
        rcases List.mem_cons.1 ha with e | ha
        · subst e
          have h1 := resolve_live hr
          simp only [resolve] at hr
          split at hr
          · assumption
          · cases hr
        · exact h a ha

theorem open_ok {g : St} {s : Sid} {l : List Imp} (hi : Base g) :
    Base (openStructures g s l).1 ∧
      (CacheOK g g.cache → CacheOK (openStructures g s l).1 (openStructures g s l).1.cache) ∧
      Spec.step (abs g) (.openS s l) = (abs (openStructures g s l).1, (openStructures g s l).2) := by
  unfold openStructures
  simp only [Spec.step]
  cases hm : g.mods s with
  | none =>
    have : (abs g).mods s = none := by simp [abs, hm]
    rw [this]
    exact ⟨hi, id, rfl⟩
  | some m =>
    rw [abs_mods hm]
    dsimp only
    have h := setMod_flush (m' := { m with imports := (openAll g l m.imports).1 }) hi hm rfl
      (openAll_live fun a ha => hi.imp s m a hm ha)
    refine ⟨h.1.toBase, fun _ => h.1.cache, ?_⟩
    rw [h.2]
    rw [absMod_eq (m := m) (m' := { m with imports := (openAll g l m.imports).1 }) rfl]
    dsimp only
    rw [← openAll_abs]
    rfl

theorem access_ok {g : St} {s : Sid} {l : List Nat} (hi : Base g) :
    Base (accessStructures g s l).1 ∧
      (CacheOK g g.cache → CacheOK (accessStructures g s l).1 (accessStructures g s l).1.cache) ∧
      Spec.step (abs g) (.access s l) = (abs (accessStructures g s l).1, (accessStructures g s l).2) := by
  unfold accessStructures
  simp only [Spec.step]
  cases hm : g.mods s with
  | none =>
    have : (abs g).mods s = none := by simp [abs, hm]
    rw [this]
    exact ⟨hi, id, rfl⟩
  | some m =>
    rw [abs_mods hm]
    dsimp only
    have h := setMod_flush (m' := { m with accessible := (accessAll g l m.accessible).1 }) hi hm rfl
      (fun a ha => hi.imp s m a hm ha)
    refine ⟨h.1.toBase, fun _ => h.1.cache, ?_⟩
    rw [h.2]
    rw [absMod_eq (m := m) (m' := { m with accessible := (accessAll g l m.accessible).1 }) rfl]
    dsimp only
    rw [← accessAll_abs]
    rfl

/-! ### Flags -/

theorem setBinds_ok {g : St} {s : Sid} {x : Val} (hi : Base g) :
    Base (setBindsOp g s x).1 ∧
      (CacheOK g g.cache → CacheOK (setBindsOp g s x).1 (setBindsOp g s x).1.cache) ∧
      Spec.step (abs g) (.setBinds s x) = (abs (setBindsOp g s x).1, (setBindsOp g s x).2) := by
  unfold setBindsOp
  simp only [Spec.step, Spec.update]
  cases hm : g.mods s with
  | none =>
    have : (abs g).mods s = none := by simp [abs, hm]
    rw [this]
    exact ⟨hi, id, rfl⟩
  | some m =>
    rw [abs_mods hm]
    dsimp only
    refine ⟨setMod_base hi hm rfl (fun a ha => hi.imp s m a hm ha), fun hc => ?_, ?_⟩
    · exact cacheOK_same hc rfl (fun _ _ _ => rfl) (fun t ht => (setMod_live hm t).trans ht)
        (fun w _ => setMod_veq (m' := { m with setBinds := true }) hm rfl rfl rfl)
    · rw [setMod_abs, absMod_eq (m := m) rfl]
      rfl

/-- No structure has opened `s`. -/
def NotOpened (g : St) (s : Sid) : Prop :=
  ∀ t m i, g.mods t = some m → i ∈ m.imports → resolve g i ≠ some s

theorem setMod_res {g : St} {s : Sid} {m m' : Mod} (hm : g.mods s = some m)
    (h : m'.buckets = m.buckets) (i : Imp) : resolve (g.setMod s m') i = resolve g i :=
  resolve_congr (setMod_live hm) rfl (fun x => setMod_lookup hm h _ x) (fun _ _ _ => rfl) i

theorem exportsAll_ok {g : St} {s : Sid} {x : Val} (hi : Base g) :
    Base (exportsAll g s x).1 ∧
      (CacheOK g g.cache → NotOpened g s → CacheOK (exportsAll g s x).1 (exportsAll g s x).1.cache) ∧
      Spec.step (abs g) (.exportsAll s x) = (abs (exportsAll g s x).1, (exportsAll g s x).2) := by
  unfold exportsAll
  simp only [Spec.step, Spec.update]
  cases hm : g.mods s with
  | none =>
    have : (abs g).mods s = none := by simp [abs, hm]
    rw [this]
    exact ⟨hi, fun hc _ => hc, rfl⟩
  | some m =>
    rw [abs_mods hm]
    dsimp only
    refine ⟨setMod_base hi hm rfl (fun a ha => hi.imp s m a hm ha), fun hc ho => ?_, ?_⟩
    · intro k l hl
      obtain ⟨w, hw, hk, hlv, he⟩ := hc k l hl
      refine ⟨w, hw, hk, (setMod_live hm _).trans hlv, ?_⟩
      refine ev_congr (fun _ => True) ?_ trivial he
      intro t _
      refine ⟨?_, ?_⟩
      · show importsOf _ t = importsOf g t
        unfold importsOf
        rw [setMod_mods]
        by_cases e : t = s
        · rw [if_pos e, e, hm]
        · rw [if_neg e]
      · intro i hii
        refine ⟨setMod_res (m' := { m with exportAll := true }) hm rfl i, ?_⟩
        intro b hb
        refine ⟨trivial, setMod_lookup (m' := { m with exportAll := true }) hm rfl b w, ?_, fun _ _ => rfl⟩
        have hbs : b ≠ s := by
          rintro rfl
          change i ∈ importsOf g t at hii
          unfold importsOf at hii
          cases hmt : g.mods t with
          | none => rw [hmt] at hii; simp at hii
          | some mt =>
            rw [hmt] at hii
            exact ho t mt i hmt hii hb
        show inhOf _ w b = inhOf g w b
        unfold inhOf
        rw [setMod_mods, if_neg hbs]
    · rw [setMod_abs, absMod_eq (m := m) rfl]
      rfl

/-! ### `make-binding-immutable` -/

theorem makeImmutable_ok {g : St} {s : Sid} {v : Nat} (hi : Base g) :
    Base (makeImmutable g s v).1 ∧
      (CacheOK g g.cache → CacheOK (makeImmutable g s v).1 (makeImmutable g s v).1.cache) ∧
      Spec.step (abs g) (.makeImmutable s v) = (abs (makeImmutable g s v).1, (makeImmutable g s v).2) := by
  unfold makeImmutable
  simp only [Spec.step, own_abs]
  cases hl : lookup g s v with
  | none => exact ⟨hi, id, rfl⟩
  | some n =>
    cases hm : g.mods s with
    | none => simp [lookup, hm] at hl
    | some m =>
      rw [lookup_eq hm] at hl
      obtain ⟨r, hr⟩ := hi.live hm (lookupM_mem hl)
      simp only [Option.bind_some, hr, Option.map_some, Spec.update]
      rw [abs_mods hm]
      refine ⟨setNode_base hi hr rfl (.inl rfl), fun hc => ?_, ?_⟩
      · exact cacheOK_same hc rfl
          (fun k l _ => setNode_symOf (r' := { r with const := true }) hr rfl l.n) (fun t ht => ht)
          (fun w _ => setNode_veq (r' := { r with const := true }) hr rfl (.inl rfl) (.inl rfl))
      · rw [setNode_abs (r' := { r with const := true }) hi hr rfl hm hl]
        rfl

/-! ### `export-binding` -/

theorem exportBinding_ok {g : St} {s : Sid} {v : Nat} (hi : Base g) :
    Base (exportBinding g s v).1 ∧
      (CacheOK g g.cache → CacheOK (exportBinding g s v).1 (exportBinding g s v).1.cache) ∧
      Spec.step (abs g) (.exportB s v) = (abs (exportBinding g s v).1, (exportBinding g s v).2) := by
  unfold exportBinding
  simp only [Spec.step, Spec.update]
  cases hm : g.mods s with
  | none =>
    have : (abs g).mods s = none := by simp [abs, hm]
    rw [this]
    exact ⟨hi, id, rfl⟩
  | some m =>
    rw [abs_mods hm]
    dsimp only
    unfold Spec.exportOne
    cases hl : lookupM g m v with
    | some n =>
      obtain ⟨r, hr⟩ := hi.live hm (lookupM_mem hl)
      rw [binds_of_lookup hl hr]
      simp only [hr]
      have hsym : r.sym = v := by
        have := lookup_sym (g := g) (a := s) (by rw [lookup_eq hm]; exact hl)
        simpa [symOf, hr] using this
      cases he : r.exported with
      | true =>
        refine ⟨hi, id, ?_⟩
        have : { absNode r with exported := true } = absNode r := by simp [absNode, he]
        rw [this]
        have hp : (absMod g m).put v (some (absNode r)) = absMod g m := by
          unfold Spec.SMod.put
          have : (fun x => if x = v then some (absNode r) else (absMod g m).binds x) = (absMod g m).binds := by
            funext x
            split
            · rename_i e; rw [e, binds_of_lookup hl hr]
            · rfl
          rw [this]
        rw [hp, setMod_self (abs_mods hm)]
        rfl
      | false =>
        have hsc : SameCore (g.setNode n (some { r with exported := true }))
          (invalSym v (g.setNode n (some { r with exported := true }))) := sameCore_cache _ _
        refine ⟨?_, fun hc => ?_, ?_⟩
        · exact hsc.base (setNode_base hi hr rfl (.inl rfl))
        · refine cacheOK_inval hc rfl
            (fun k l _ => setNode_symOf (r' := { r with exported := true }) hr rfl l.n) (fun t ht => ht) ?_
          intro w hw
          exact setNode_veq (r' := { r with exported := true }) hr rfl (.inr (by rw [hsym]; exact hw)) (.inl rfl)
        · simp only [Bool.false_eq_true, if_false]
          rw [hsc.abs, setNode_abs (r' := { r with exported := true }) hi hr rfl hm hl]
          rfl
    | none =>
      rw [binds_of_none hl]
      dsimp only
      change _ ∧ _ ∧ (Spec.SSt.setMod _ s (if m.exportsInherited v then _ else _), _) = _
      cases he : m.exportsInherited v with
      | true =>
        refine ⟨hi, id, ?_⟩
        simp only [if_true]
        rw [setMod_self (abs_mods hm)]
      | false =>
        simp only [Bool.false_eq_true, if_false]
        have hsc : SameCore (g.setMod s { m with inherited := v :: m.inherited })
          (invalSym v (g.setMod s { m with inherited := v :: m.inherited })) := sameCore_cache _ _
        refine ⟨?_, fun hc => ?_, ?_⟩
        · exact hsc.base (setMod_base hi hm rfl (fun a ha => hi.imp s m a hm ha))
        · refine cacheOK_inval hc rfl (fun _ _ _ => rfl) (fun t ht => (setMod_live hm t).trans ht) ?_
          intro w hw
          refine setMod_veq (m' := { m with inherited := v :: m.inherited }) hm rfl ?_ rfl
          show (m.exportAll || (v :: m.inherited).contains w) = (m.exportAll || m.inherited.contains w)
          rw [List.contains_cons]
          have : (w == v) = false := by simpa using hw
          rw [this, Bool.false_or]
        · rw [hsc.abs, setMod_abs, absMod_eq (m := m) rfl]
          rfl

end Rep.Mods
