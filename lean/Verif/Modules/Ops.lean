import Verif.Modules.Inv

/-
Each operation keeps the invariant and does what the specification says.
-/

namespace Rep.Mods

/-! ### Changing a node -/

section SetNode

variable {g : St} {n : Nid} {r r' : Node}

theorem setNode_symOf (hn : g.nodes n = some r) (hs : r'.sym = r.sym) (x : Nid) :
    symOf (g.setNode n (some r')) x = symOf g x := by
  unfold symOf St.setNode
  dsimp only
  split
  · rename_i e; subst e; simp [hn, hs]
  · rfl

theorem setNode_lookup (hn : g.nodes n = some r) (hs : r'.sym = r.sym) (s : Sid) (v : Nat) :
    lookup (g.setNode n (some r')) s v = lookup g s v := by
  unfold lookup
  change (match g.mods s with | none => _ | some m => _) = _
  cases g.mods s with
  | none => rfl
  | some m => exact lookupM_congr (fun x _ => setNode_symOf hn hs x) v

/-- Storing this value does not put dead structures among the names. -/
def NameOK (g : St) (n : Nid) (r r' : Node) : Prop :=
  r'.val = r.val ∨ (∀ x, lookup g g.names x ≠ some n) ∨
    ∀ a, r'.val = .struct a → (g.mods a).isSome

theorem setNode_base (hb : Base g) (hn : g.nodes n = some r) (hs : r'.sym = r.sym)
    (ho : NameOK g n r r') : Base (g.setNode n (some r')) := by
  refine ⟨?_, hb.dis, hb.lt, hb.nam, hb.imp, ?_⟩
  · exact fun s m hm => (hb.tab s m hm).congr fun x _ => setNode_symOf hn hs x
  · intro x y q a hl hq hv
    rw [setNode_lookup hn hs] at hl
    simp only [St.setNode] at hq
    split at hq
    · rename_i e
      subst e
      cases hq
      rcases ho with ho | ho | ho
      · exact hb.ref x y r a hl hn (ho ▸ hv)
      · exact absurd hl (ho x)
      · exact ho a hv
    · exact hb.ref x y q a hl hq hv

theorem setNode_abs (hb : Base g) (hn : g.nodes n = some r) (hs : r'.sym = r.sym) {s : Sid} {m : Mod}
    {v : Nat} (hm : g.mods s = some m) (hl : lookupM g m v = some n) :
    abs (g.setNode n (some r')) = (abs g).setMod s ((absMod g m).put v (some (absNode r'))) := by
  have hmem := lookupM_mem hl
  have h := abs_upd (g := g) (g' := g.setNode n (some r')) (s := s) (m' := m)
    (by
      funext x
      change g.mods x = _
      split
      · rename_i e; rw [e, hm]
      · rfl) rfl rfl rfl
    (by
      intro t m' ht hm' x hx
      simp only [St.setNode]
      split
      · rename_i e
        subst e
        exact absurd (hb.dis t s m' m x hm' hm hx hmem) ht
      · rfl)
  rw [h]
  congr 1
  unfold absMod Spec.SMod.put
  simp only [Spec.SMod.mk.injEq, true_and, and_true]
  funext v'
  unfold bindOf
  rw [lookupM_congr (fun x _ => setNode_symOf hn hs x)]
  by_cases e : v' = v
  · subst e
    simp [hl, St.setNode]
  · simp only [if_neg e]
    cases hl' : lookupM g m v' with
    | none => rfl
    | some x =>
      have : x ≠ n := by
        rintro rfl
        have h1 := lookup_sym (g := g) (a := s) (by rw [lookup_eq hm]; exact hl)
        have h2 := lookup_sym (g := g) (a := s) (by rw [lookup_eq hm]; exact hl')
        rw [h1] at h2
        exact e (Option.some.inj h2).symm
      simp [St.setNode, this]

theorem setNode_veq (hn : g.nodes n = some r) (hs : r'.sym = r.sym) {w : Nat}
    (he : r'.exported = r.exported ∨ w ≠ r.sym)
    (ho : r'.val = r.val ∨ ∀ x, lookup g g.names x ≠ some n) :
    VEq (view g w) (view (g.setNode n (some r')) w) := by
  refine ⟨fun t => setNode_lookup hn hs t w, ?_, fun _ => rfl, fun _ => rfl, ?_⟩
  · intro t x hx
    have hsym := lookup_sym hx
    show exportedN _ x = exportedN g x
    unfold exportedN St.setNode
    dsimp only
    split
    · rename_i e
      subst e
      rcases he with he | he
      · simp [hn, he]
      · simp [symOf, hn] at hsym
        exact absurd hsym.symm he
    · rfl
  · refine resolve_congr (fun _ => rfl) rfl (fun x => setNode_lookup hn hs _ x) ?_
    intro x y hy
    simp only [St.setNode]
    split
    · rename_i e
      subst e
      rcases ho with ho | ho
      · simp [hn, ho]
      · exact absurd hy (ho x)
    · rfl

/-- A node of a structure other than the structure of names is not a name. -/
theorem not_name (hb : Base g) {s : Sid} {m : Mod} {v : Nat} (hs : s ≠ g.names)
    (hm : g.mods s = some m) (hl : lookupM g m v = some n) : ∀ x, lookup g g.names x ≠ some n := by
  intro x hx
  obtain ⟨m', hm'⟩ := Option.isSome_iff_exists.1 hb.nam
  rw [lookup_eq hm'] at hx
  exact hs (hb.dis s g.names m m' n hm hm' (lookupM_mem hl) (lookupM_mem hx))

end SetNode

/-! ### `lookup_or_add` -/

/-- The contents of the structure after a new binding has been added. -/
def addedMod (g : St) (m : Mod) (v : Nat) (new : Nid) : Mod :=
  { m with
    buckets := push (grow g m) (structHash v (grow g m).length) new
    count := m.count + 1
    inherited := if m.exportsInherited v then delq v m.inherited else m.inherited }

/-- The state after a new binding has been added, before the cache is repaired. -/
def addedSt (g : St) (s : Sid) (m : Mod) (v : Nat) (new : Nid) : St :=
  (g.setNode new (some ⟨v, .void, false, m.exportsInherited v⟩)).setMod s (addedMod g m v new)

theorem lookupOrAdd_new {g : St} {s : Sid} {m : Mod} {v : Nat} {new : Nid}
    (h : lookupM g m v = none) : lookupOrAdd g s m v new = (new, invalSym v (addedSt g s m v new)) := by
  simp [lookupOrAdd, h, addedSt, addedMod]

section Added

variable {g : St} {s : Sid} {m : Mod} {v : Nat} {new : Nid}

theorem added_nodes (x : Nid) : (addedSt g s m v new).nodes x =
    if x = new then some ⟨v, .void, false, m.exportsInherited v⟩ else g.nodes x := rfl

theorem added_symOf {x : Nid} (h : x ≠ new) : symOf (addedSt g s m v new) x = symOf g x := by
  simp [symOf, added_nodes, h]

theorem added_symOf_new : symOf (addedSt g s m v new) new = some v := by
  simp [symOf, added_nodes]

theorem added_mem (hb : Base g) (hm : g.mods s = some m) (x : Nid) :
    x ∈ (addedMod g m v new).buckets.flatten ↔ x = new ∨ x ∈ m.buckets.flatten := by
  have hg := grow_ok (hb.tab s m hm)
  show x ∈ (push _ _ _).flatten ↔ _
  rw [mem_push (structHash_lt v hg.2.1), hg.2.2]

theorem added_tab (hb : Base g) (hm : g.mods s = some m) (hn : g.nodes new = none)
    (hl : lookupM g m v = none) : TabOK (addedSt g s m v new) (addedMod g m v new).buckets := by
  have hg := grow_ok (hb.tab s m hm)
  have hf := hb.fresh hm hn
  refine TabOK.push (hg.1.congr fun x hx => added_symOf ?_) hg.2.1 added_symOf_new ?_
  · rintro rfl
    exact hf ((hg.2.2 x).1 hx)
  · intro x hx
    have hx' := (hg.2.2 x).1 hx
    rw [added_symOf (by rintro rfl; exact hf hx')]
    exact (lookupM_none (hb.tab s m hm)).1 hl x hx'

theorem added_mods (t : Sid) : (addedSt g s m v new).mods t =
    if t = s then some (addedMod g m v new) else g.mods t := rfl

theorem added_lookup_ne (hb : Base g) (hm : g.mods s = some m) (hn : g.nodes new = none)
    (hl : lookupM g m v = none) {t : Sid} {w : Nat} (h : t ≠ s ∨ w ≠ v) :
    lookup (addedSt g s m v new) t w = lookup g t w := by
  by_cases e : t = s
  · subst e
    have hw : w ≠ v := h.resolve_left (fun hh => hh rfl)
    have e1 : (addedSt g t m v new).mods t = some (addedMod g m v new) := by simp [added_mods]
    rw [lookup_eq e1, lookup_eq hm]
    apply Option.ext
    intro x
    rw [lookupM_iff (added_tab hb hm hn hl), lookupM_iff (hb.tab t m hm), added_mem hb hm]
    constructor
    · rintro ⟨h1, h2⟩
      rcases h1 with rfl | h1
      · rw [added_symOf_new] at h2
        exact absurd (Option.some.inj h2).symm hw
      · have : x ≠ new := by rintro rfl; exact hb.fresh hm hn h1
        rw [added_symOf this] at h2
        exact ⟨h1, h2⟩
    · rintro ⟨h1, h2⟩
      have : x ≠ new := by rintro rfl; exact hb.fresh hm hn h1
      rw [added_symOf this]
      exact ⟨.inr h1, h2⟩
  · unfold lookup
    rw [added_mods, if_neg e]
    cases hmt : g.mods t with
    | none => rfl
    | some mt =>
      exact lookupM_congr (fun x hx => added_symOf (by rintro rfl; exact hb.fresh hmt hn hx)) w

theorem added_lookup (hb : Base g) (hm : g.mods s = some m) (hn : g.nodes new = none)
    (hl : lookupM g m v = none) : lookupM (addedSt g s m v new) (addedMod g m v new) v = some new :=
  (lookupM_iff (added_tab hb hm hn hl)).2 ⟨(added_mem hb hm new).2 (.inl rfl), added_symOf_new⟩

theorem added_live (hm : g.mods s = some m) (t : Sid) :
    ((addedSt g s m v new).mods t).isSome = (g.mods t).isSome := by
  rw [added_mods]
  split
  · rename_i e; simp [e, hm]
  · rfl

theorem added_base (hb : Base g) (hm : g.mods s = some m) (hn : g.nodes new = none)
    (hl : lookupM g m v = none) : Base (addedSt g s m v new) := by
  refine ⟨?_, ?_, ?_, ?_, ?_, ?_⟩
  · intro t mt hmt
    rw [added_mods] at hmt
    split at hmt
    · cases hmt
      exact added_tab hb hm hn hl
    · exact (hb.tab t mt hmt).congr fun x hx => added_symOf (by rintro rfl; exact hb.fresh hmt hn hx)
  · intro t t' mt mt' x hmt hmt' hx hx'
    rw [added_mods] at hmt hmt'
    split at hmt
    · rename_i e
      split at hmt'
      · rename_i e'; rw [e, e']
      · cases hmt
        rcases (added_mem hb hm x).1 hx with rfl | hx
        · exact absurd hx' (hb.fresh hmt' hn)
        · rw [e]; exact hb.dis s t' m mt' x hm hmt' hx hx'
    · split at hmt'
      · rename_i e'
        cases hmt'
        rcases (added_mem hb hm x).1 hx' with rfl | hx'
        · exact absurd hx (hb.fresh hmt hn)
        · rw [e']; exact hb.dis t s mt m x hmt hm hx hx'
      · exact hb.dis t t' mt mt' x hmt hmt' hx hx'
  · intro t ht
    rw [added_live hm] at ht
    exact hb.lt t ht
  · rw [added_live hm]; exact hb.nam
  · intro t mt a hmt ha
    rw [added_live hm]
    rw [added_mods] at hmt
    split at hmt
    · cases hmt
      exact hb.imp s m a hm ha
    · exact hb.imp t mt a hmt ha
  · intro x y q a hlk hq hv
    rw [added_live hm]
    rw [added_nodes] at hq
    split at hq
    · cases hq
      cases hv
    · rename_i hne
      by_cases e : g.names ≠ s ∨ x ≠ v
      · change lookup (addedSt g s m v new) g.names x = some y at hlk
        rw [added_lookup_ne hb hm hn hl e] at hlk
        exact hb.ref x y q a hlk hq hv
      · have e1 : g.names = s := by
          apply Classical.byContradiction
          intro h; exact e (.inl h)
        have e2 : x = v := by
          apply Classical.byContradiction
          intro h; exact e (.inr h)
        change lookup (addedSt g s m v new) g.names x = some y at hlk
        rw [e1, e2, lookup_eq (show (addedSt g s m v new).mods s = some (addedMod g m v new) by
          simp [added_mods]), added_lookup hb hm hn hl] at hlk
        exact absurd (Option.some.inj hlk).symm hne

theorem added_absMod (hb : Base g) (hm : g.mods s = some m) (hn : g.nodes new = none)
    (hl : lookupM g m v = none) :
    absMod (addedSt g s m v new) (addedMod g m v new) = (absMod g m).add v .void := by
  unfold absMod Spec.SMod.add Spec.SMod.put
  have : m.exportsInherited v = Spec.SMod.exportsInherited
    ⟨m.name, bindOf g m, m.inherited, m.imports, m.accessible, m.exportAll, m.setBinds⟩ v := rfl
  simp only [Spec.SMod.mk.injEq, true_and, and_true, addedMod, ← this]
  funext w
  unfold bindOf
  by_cases e : w = v
  · subst e
    have := added_lookup (s := s) hb hm hn hl
    unfold addedMod at this
    rw [if_pos rfl, this]
    simp [added_nodes, absNode]
  · rw [if_neg e]
    have := added_lookup_ne hb hm hn hl (t := s) (w := w) (.inr e)
    rw [lookup_eq hm, lookup_eq (show (addedSt g s m v new).mods s = some (addedMod g m v new) by
      simp [added_mods])] at this
    unfold addedMod at this
    rw [this]
    cases hlw : lookupM g m w with
    | none => rfl
    | some x =>
      have hx : x ≠ new := by
        rintro rfl
        exact hb.fresh hm hn (lookupM_mem hlw)
      simp [added_nodes, hx]

theorem added_abs (hb : Base g) (hm : g.mods s = some m) (hn : g.nodes new = none)
    (hl : lookupM g m v = none) :
    abs (addedSt g s m v new) = (abs g).setMod s ((absMod g m).add v .void) := by
  have h := abs_upd (g := g) (g' := addedSt g s m v new) (s := s) (m' := addedMod g m v new)
    (by funext x; exact added_mods x) rfl rfl rfl
    (by
      intro t mt _ hmt x hx
      rw [added_nodes, if_neg]
      rintro rfl
      exact hb.fresh hmt hn hx)
  rw [h, added_absMod hb hm hn hl]

theorem added_veq (hb : Base g) (hm : g.mods s = some m) (hn : g.nodes new = none)
    (hl : lookupM g m v = none) (hs : s ≠ g.names) {w : Nat} (hw : w ≠ v) :
    VEq (view g w) (view (addedSt g s m v new) w) := by
  have hnew : ∀ t x, lookup g t w = some x → x ≠ new := by
    rintro t x hx rfl
    have := lookup_sym hx
    simp [symOf, hn] at this
  refine ⟨fun t => added_lookup_ne hb hm hn hl (.inr hw), ?_, ?_, ?_, ?_⟩
  · intro t x hx
    show exportedN _ x = exportedN g x
    simp [exportedN, added_nodes, hnew t x hx]
  · intro t
    show inhOf _ w t = inhOf g w t
    unfold inhOf
    rw [added_mods]
    by_cases e : t = s
    · rw [if_pos e, e, hm]
      have : ((delq v m.inherited).contains w) = m.inherited.contains w := by
        rw [Bool.eq_iff_iff]
        simp [delq, hw]
      show (m.exportAll || (if m.exportsInherited v then delq v m.inherited else m.inherited).contains w) =
        (m.exportAll || m.inherited.contains w)
      by_cases hc : m.exportsInherited v = true
      · rw [if_pos hc, this]
      · rw [if_neg hc]
    · rw [if_neg e]
  · intro t
    show importsOf _ t = importsOf g t
    unfold importsOf
    rw [added_mods]
    by_cases e : t = s
    · rw [if_pos e, e, hm]; rfl
    · rw [if_neg e]
  · intro i
    refine resolve_congr (added_live hm) rfl
      (fun x => added_lookup_ne hb hm hn hl (.inl (fun h => hs h.symm))) ?_ i
    intro x y hy
    have : y ≠ new := by
      rintro rfl
      have := lookup_sym hy
      simp [symOf, hn] at this
    rw [added_nodes, if_neg this]

theorem added_cache (hi : Inv g) (hm : g.mods s = some m) (hn : g.nodes new = none)
    (hl : lookupM g m v = none) (hs : s ≠ g.names) :
    CacheOK (invalSym v (addedSt g s m v new)) (invalSym v (addedSt g s m v new)).cache := by
  refine cacheOK_inval hi.cache rfl ?_ (fun t ht => by rw [added_live hm]; exact ht)
    (fun w hw => added_veq hi.toBase hm hn hl hs hw)
  intro k l hl'
  refine added_symOf ?_
  rintro e
  obtain ⟨w, hw, _⟩ := hi.cache k l hl'
  rw [e] at hw
  simp [symOf, hn] at hw

end Added

/-- What `lookup_or_add` gives. -/
theorem lookupOrAdd_ok {g : St} {s : Sid} {m : Mod} (v : Nat) {new : Nid} (hb : Base g)
    (hm : g.mods s = some m) (hn : g.nodes new = none) :
    ∃ n g2 m2 y, lookupOrAdd g s m v new = (n, g2) ∧ Base g2 ∧ g2.mods s = some m2 ∧
      lookupM g2 m2 v = some n ∧ g2.nodes n = some y ∧ y.sym = v ∧ g2.names = g.names ∧
      (∀ t, (g2.mods t).isSome = (g.mods t).isSome) ∧ (Inv g → s ≠ g.names → Inv g2) ∧
      ((lookupM g m v = some n ∧ g2 = g) ∨
        (lookupM g m v = none ∧ y = ⟨v, .void, false, m.exportsInherited v⟩ ∧
          abs g2 = (abs g).setMod s ((absMod g m).add v .void) ∧
          absMod g2 m2 = (absMod g m).add v .void)) := by
  cases hl : lookupM g m v with
  | some n =>
    obtain ⟨y, hy⟩ := hb.live hm (lookupM_mem hl)
    refine ⟨n, g, m, y, by simp [lookupOrAdd, hl], hb, hm, hl, hy, ?_, rfl, fun _ => rfl,
      fun h _ => h, .inl ⟨rfl, rfl⟩⟩
    have := lookup_sym (g := g) (a := s) (by rw [lookup_eq hm]; exact hl)
    simpa [symOf, hy] using this
  | none =>
    have hsc : SameCore (addedSt g s m v new) (invalSym v (addedSt g s m v new)) := sameCore_cache _ _
    refine ⟨new, _, addedMod g m v new, ⟨v, .void, false, m.exportsInherited v⟩, lookupOrAdd_new hl,
      hsc.base (added_base hb hm hn hl), ?_, ?_, ?_, rfl, rfl, ?_, ?_, .inr ⟨rfl, rfl, ?_, ?_⟩⟩
    · rw [hsc.mods]; simp [added_mods]
    · rw [hsc.lookupM]; exact added_lookup hb hm hn hl
    · rw [hsc.nodes]; simp [added_nodes]
    · intro t; rw [hsc.mods]; exact added_live hm t
    · exact fun hi hs =>
        { toBase := hsc.base (added_base hb hm hn hl), cache := added_cache hi hm hn hl hs }
    · rw [hsc.abs]; exact added_abs hb hm hn hl
    · rw [← added_absMod (s := s) hb hm hn hl]
      exact absMod_congr fun x _ => by rw [hsc.nodes]

/-! ### Storing a value -/

theorem setMod_setMod (g : Spec.SSt) (s : Sid) (m m' : Spec.SMod) :
    (g.setMod s m).setMod s m' = g.setMod s m' := by
  unfold Spec.SSt.setMod
  congr 1
  funext x
  dsimp only
  split <;> rfl

theorem setMod_self {g : Spec.SSt} {s : Sid} {m : Spec.SMod} (h : g.mods s = some m) :
    g.setMod s m = g := by
  ext1
  · funext x
    simp only [Spec.SSt.setMod]
    split
    · rename_i e; rw [e, h]
    · rfl
  · rfl
  · rfl
  · rfl

theorem put_put (m : Spec.SMod) (v : Nat) (b b' : Option Spec.Bind) :
    (m.put v b).put v b' = m.put v b' := by
  unfold Spec.SMod.put
  congr 1
  funext x
  dsimp only
  split <;> rfl

theorem add_put (m : Spec.SMod) (v : Nat) (x : Val) :
    (m.add v .void).put v (some ⟨x, false, m.exportsInherited v⟩) = m.add v x := by
  unfold Spec.SMod.add Spec.SMod.put
  congr 1
  funext x
  dsimp only
  split <;> rfl

theorem abs_mods {g : St} {s : Sid} {m : Mod} (hm : g.mods s = some m) :
    (abs g).mods s = some (absMod g m) := by
  simp [abs, hm]

theorem binds_of_lookup {g : St} {m : Mod} {v : Nat} {n : Nid} {r : Node} (h : lookupM g m v = some n)
    (hr : g.nodes n = some r) : (absMod g m).binds v = some (absNode r) := by
  simp [absMod, bindOf, h, hr]

theorem binds_of_none {g : St} {m : Mod} {v : Nat} (h : lookupM g m v = none) :
    (absMod g m).binds v = none := by
  simp [absMod, bindOf, h]

/-- A stored value is allowed: names may only be given to structures that exist. -/
def ValOK (g : St) (s : Sid) (x : Val) : Prop := s ≠ g.names ∨ ∀ a, x = .struct a → (g.mods a).isSome

theorem setVal_inv {g : St} {s : Sid} {m : Mod} {v : Nat} {n : Nid} {r : Node} (hb : Base g)
    (hm : g.mods s = some m) (hl : lookupM g m v = some n) (hr : g.nodes n = some r) (x : Val)
    (hx : ValOK g s x) :
    Base (g.setNode n (some { r with val := x })) ∧
      (Inv g → s ≠ g.names → Inv (g.setNode n (some { r with val := x }))) := by
  have hB : Base (g.setNode n (some { r with val := x })) := by
    refine setNode_base hb hr rfl ?_
    rcases hx with hx | hx
    · exact .inr (.inl (not_name hb hx hm hl))
    · exact .inr (.inr hx)
  refine ⟨hB, fun hi hs => { toBase := hB, cache := ?_ }⟩
  refine cacheOK_same hi.cache rfl (fun k l _ => setNode_symOf (r' := { r with val := x }) hr rfl l.n)
    (fun t ht => ht) ?_
  exact fun w _ => setNode_veq (r' := { r with val := x }) hr rfl (.inl rfl) (.inr (not_name hb hs hm hl))

theorem storeVal_ok {g : St} {s : Sid} {m : Mod} {v : Nat} {n : Nid} (hb : Base g)
    (hm : g.mods s = some m) (hl : lookupM g m v = some n) (x : Val) (hx : ValOK g s x) :
    Base (storeVal g n x).1 ∧ (Inv g → s ≠ g.names → Inv (storeVal g n x).1) ∧
      (abs (storeVal g n x).1, (storeVal g n x).2) = Spec.put (abs g) s (absMod g m) v x := by
  obtain ⟨r, hr⟩ := hb.live hm (lookupM_mem hl)
  unfold storeVal Spec.put
  rw [hr, binds_of_lookup hl hr]
  dsimp only
  cases hc : r.const with
  | true => simp [absNode, hc]; exact ⟨hb, fun h _ => h⟩
  | false =>
    have hs := setVal_inv hb hm hl hr x hx
    simp only [absNode, hc, Bool.false_eq_true, if_false]
    refine ⟨by simpa [hc] using hs.1, by simpa [hc] using hs.2, ?_⟩
    have := setNode_abs (r' := { r with val := x }) hb hr rfl hm hl
    simp only [absNode, hc] at this
    rw [this]

theorem store_ok {g : St} {s : Sid} {m : Mod} (v : Nat) {new : Nid} (hb : Base g)
    (hm : g.mods s = some m) (hn : g.nodes new = none) (x : Val) (hx : ValOK g s x) {q : St × Out}
    (hq : q = storeVal (lookupOrAdd g s m v new).2 (lookupOrAdd g s m v new).1 x) :
    Base q.1 ∧ (Inv g → s ≠ g.names → Inv q.1) ∧
      (abs q.1, q.2) = Spec.put (abs g) s (absMod g m) v x := by
  obtain ⟨n, g2, m2, y, he, hb2, hm2, hl2, hy, hsy, hnm, hlv, hi2, hcase⟩ :=
    lookupOrAdd_ok v hb hm hn
  rw [he] at hq
  dsimp only at hq
  have hx2 : ValOK g2 s x := by
    unfold ValOK
    rw [hnm]
    rcases hx with hx | hx
    · exact .inl hx
    · exact .inr fun a ha => by rw [hlv]; exact hx a ha
  have hso := storeVal_ok hb2 hm2 hl2 x hx2
  rw [← hq] at hso
  refine ⟨hso.1, fun hi hs => hso.2.1 (hi2 hi hs) (by rw [hnm]; exact hs), ?_⟩
  rw [hso.2.2]
  rcases hcase with ⟨h1, h2⟩ | ⟨h1, h2, h3, h4⟩
  · subst h2
    rw [hm] at hm2
    cases hm2
    rfl
  · unfold Spec.put
    rw [binds_of_none h1, h4]
    have : ((absMod g m).add v .void).binds v = some ⟨.void, false, m.exportsInherited v⟩ := by
      simp [Spec.SMod.add, Spec.SMod.put, Spec.SMod.exportsInherited, absMod, Mod.exportsInherited]
    rw [this]
    dsimp only
    rw [if_neg (by decide), h3, setMod_setMod]
    have := add_put (absMod g m) v x
    rw [show (absMod g m).exportsInherited v = m.exportsInherited v from rfl] at this
    rw [this]

/-! ### Removing a binding -/

theorem put_none {m : Spec.SMod} {v : Nat} (h : m.binds v = none) : m.put v none = m := by
  unfold Spec.SMod.put
  have : (fun x => if x = v then none else m.binds x) = m.binds := by
    funext x
    split
    · rename_i e; rw [e, h]
    · rfl
  rw [this]

/-- The structure after the node has been taken out of its chain. -/
def cutMod (m : Mod) (v : Nat) (n : Nid) : Mod :=
  { m with
    buckets := m.buckets.set (structHash v m.buckets.length)
      ((m.buckets.getD (structHash v m.buckets.length) []).erase n) }

section Cut

variable {g : St} {s : Sid} {m : Mod} {v : Nat} {n : Nid}

def cutSt (g : St) (s : Sid) (m : Mod) (v : Nat) (n : Nid) : St := (g.setNode n none).setMod s (cutMod m v n)

theorem buckets_pos (hl : lookupM g m v = some n) : m.buckets.length ≠ 0 := by
  intro h
  simp [lookupM, h] at hl

theorem cut_mem (hb : Base g) (hm : g.mods s = some m) (hl : lookupM g m v = some n) (x : Nid) :
    x ∈ (cutMod m v n).buckets.flatten ↔ x ∈ m.buckets.flatten ∧ x ≠ n :=
  (hb.tab s m hm).mem_erase (buckets_pos hl) ((lookupM_iff (hb.tab s m hm)).1 hl).2 x

theorem cut_nodes (x : Nid) : (cutSt g s m v n).nodes x = if x = n then none else g.nodes x := rfl

theorem cut_mods (t : Sid) : (cutSt g s m v n).mods t = if t = s then some (cutMod m v n) else g.mods t :=
  rfl

theorem cut_symOf {x : Nid} (h : x ≠ n) : symOf (cutSt g s m v n) x = symOf g x := by
  simp [symOf, cut_nodes, h]

theorem cut_live (hm : g.mods s = some m) (t : Sid) :
    ((cutSt g s m v n).mods t).isSome = (g.mods t).isSome := by
  rw [cut_mods]
  split
  · rename_i e; simp [e, hm]
  · rfl

theorem cut_other (hb : Base g) (hm : g.mods s = some m) (hl : lookupM g m v = some n) {t : Sid}
    {mt : Mod} (ht : t ≠ s) (hmt : g.mods t = some mt) {x : Nid} (hx : x ∈ mt.buckets.flatten) : x ≠ n := by
  rintro rfl
  exact ht (hb.dis t s mt m x hmt hm hx (lookupM_mem hl))

theorem cut_tab (hb : Base g) (hm : g.mods s = some m) (hl : lookupM g m v = some n) :
    TabOK (cutSt g s m v n) (cutMod m v n).buckets := by
  have h := (hb.tab s m hm).erase (buckets_pos hl) ((lookupM_iff (hb.tab s m hm)).1 hl).2
  refine TabOK.congr h fun x hx => cut_symOf ?_
  exact ((cut_mem hb hm hl x).1 hx).2

theorem cut_lookup (hb : Base g) (hm : g.mods s = some m) (hl : lookupM g m v = some n) (t : Sid)
    (w : Nat) : lookup (cutSt g s m v n) t w = if t = s ∧ w = v then none else lookup g t w := by
  by_cases e : t = s
  · subst e
    rw [lookup_eq (show (cutSt g t m v n).mods t = some (cutMod m v n) by simp [cut_mods]), lookup_eq hm]
    apply Option.ext
    intro x
    rw [lookupM_iff (cut_tab hb hm hl), cut_mem hb hm hl]
    by_cases hw : w = v
    · subst hw
      simp only [true_and, if_true]
      constructor
      · rintro ⟨⟨h1, h2⟩, h3⟩
        rw [cut_symOf h2] at h3
        exact absurd ((hb.tab t m hm).inj x n h1 (lookupM_mem hl)
          (by rw [h3, ((lookupM_iff (hb.tab t m hm)).1 hl).2])) h2
      · intro h; cases h
    · simp only [hw, and_false, if_false]
      rw [lookupM_iff (hb.tab t m hm)]
      constructor
      · rintro ⟨⟨h1, h2⟩, h3⟩
        rw [cut_symOf h2] at h3
        exact ⟨h1, h3⟩
      · rintro ⟨h1, h2⟩
        have hne : x ≠ n := by
          rintro rfl
          rw [((lookupM_iff (hb.tab t m hm)).1 hl).2] at h2
          exact hw (Option.some.inj h2).symm
        exact ⟨⟨h1, hne⟩, by rw [cut_symOf hne]; exact h2⟩
  · simp only [e, false_and, if_false]
    unfold lookup
    rw [cut_mods, if_neg e]
    cases hmt : g.mods t with
    | none => rfl
    | some mt => exact lookupM_congr (fun x hx => cut_symOf (cut_other hb hm hl e hmt hx)) w

theorem cut_base (hb : Base g) (hm : g.mods s = some m) (hl : lookupM g m v = some n) :
    Base (cutSt g s m v n) := by
  refine ⟨?_, ?_, ?_, ?_, ?_, ?_⟩
  · intro t mt hmt
    rw [cut_mods] at hmt
    split at hmt
    · cases hmt; exact cut_tab hb hm hl
    · rename_i e
      exact (hb.tab t mt hmt).congr fun x hx => cut_symOf (cut_other hb hm hl e hmt hx)
  · have key : ∀ t mt x, (cutSt g s m v n).mods t = some mt → x ∈ mt.buckets.flatten →
        ∃ m0, g.mods t = some m0 ∧ x ∈ m0.buckets.flatten := by
      intro t mt x hmt hx
      rw [cut_mods] at hmt
      split at hmt
      · rename_i e
        cases hmt
        exact ⟨m, by rw [e, hm], ((cut_mem hb hm hl x).1 hx).1⟩
      · exact ⟨mt, hmt, hx⟩
    intro t t' mt mt' x hmt hmt' hx hx'
    obtain ⟨m1, h1, h2⟩ := key t mt x hmt hx
    obtain ⟨m1', h1', h2'⟩ := key t' mt' x hmt' hx'
    exact hb.dis t t' m1 m1' x h1 h1' h2 h2'
  · intro t ht
    rw [cut_live hm] at ht
    exact hb.lt t ht
  · rw [cut_live hm]; exact hb.nam
  · intro t mt a hmt ha
    rw [cut_live hm]
    rw [cut_mods] at hmt
    split at hmt
    · cases hmt; exact hb.imp s m a hm ha
    · exact hb.imp t mt a hmt ha
  · intro x y q a hlk hq hv
    rw [cut_live hm]
    rw [cut_nodes] at hq
    split at hq
    · cases hq
    · rw [cut_lookup hb hm hl] at hlk
      split at hlk
      · cases hlk
      · exact hb.ref x y q a hlk hq hv

theorem cut_abs (hb : Base g) (hm : g.mods s = some m) (hl : lookupM g m v = some n) :
    abs (cutSt g s m v n) = (abs g).setMod s ((absMod g m).put v none) := by
  have h := abs_upd (g := g) (g' := cutSt g s m v n) (s := s) (m' := cutMod m v n)
    (by funext x; exact cut_mods x) rfl rfl rfl
    (by
      intro t mt ht hmt x hx
      rw [cut_nodes, if_neg (cut_other hb hm hl ht hmt hx)])
  rw [h]
  congr 1
  unfold absMod Spec.SMod.put
  simp only [Spec.SMod.mk.injEq, true_and, and_true]
  refine ⟨rfl, ?_, rfl, rfl, rfl, rfl, rfl⟩
  funext w
  have hlk := cut_lookup hb hm hl s w
  rw [lookup_eq (show (cutSt g s m v n).mods s = some (cutMod m v n) by simp [cut_mods]),
    lookup_eq hm] at hlk
  unfold bindOf
  rw [hlk]
  by_cases e : w = v
  · simp [e]
  · simp only [e, and_false, if_false]
    cases hlw : lookupM g m w with
    | none => rfl
    | some x =>
      have : x ≠ n := by
        rintro rfl
        rw [lookupM_iff (hb.tab s m hm)] at hl hlw
        rw [hl.2] at hlw
        exact e (Option.some.inj hlw.2).symm
      simp [cut_nodes, this]

theorem cut_veq (hb : Base g) (hm : g.mods s = some m) (hl : lookupM g m v = some n)
    (hs : s ≠ g.names) {w : Nat} (hw : w ≠ v) : VEq (view g w) (view (cutSt g s m v n) w) := by
  have hsn : symOf g n = some v := ((lookupM_iff (hb.tab s m hm)).1 hl).2
  refine ⟨?_, ?_, ?_, ?_, ?_⟩
  · intro t
    show lookup _ t w = lookup g t w
    rw [cut_lookup hb hm hl, if_neg (fun h => hw h.2)]
  · intro t x hx
    have := lookup_sym hx
    have hne : x ≠ n := by
      rintro rfl
      rw [hsn] at this
      exact hw (Option.some.inj this).symm
    show exportedN _ x = exportedN g x
    simp [exportedN, cut_nodes, hne]
  · intro t
    show inhOf _ w t = inhOf g w t
    unfold inhOf
    rw [cut_mods]
    by_cases e : t = s
    · rw [if_pos e, e, hm]; rfl
    · rw [if_neg e]
  · intro t
    show importsOf _ t = importsOf g t
    unfold importsOf
    rw [cut_mods]
    by_cases e : t = s
    · rw [if_pos e, e, hm]; rfl
    · rw [if_neg e]
  · intro i
    refine resolve_congr (cut_live hm) rfl ?_ ?_ i
    · intro x
      rw [cut_lookup hb hm hl, if_neg (fun h => hs h.1.symm)]
    · intro x y hy
      rw [cut_nodes, if_neg]
      rintro rfl
      exact not_name hb hs hm hl x hy

end Cut

theorem removeBinding_ok {g g' : St} {s : Sid} {m : Mod} {v : Nat} (hb : Base g)
    (hm : g.mods s = some m) (h : removeBinding g s m v = some g') :
    Base g' ∧ (Inv g → s ≠ g.names → Inv g') ∧
      abs g' = (abs g).setMod s ((absMod g m).put v none) := by
  unfold removeBinding at h
  cases hl : lookupM g m v with
  | none =>
    rw [hl] at h
    cases h
    refine ⟨hb, fun h _ => h, ?_⟩
    rw [put_none (binds_of_none hl), setMod_self (abs_mods hm)]
  | some n =>
    rw [hl] at h
    dsimp only at h
    split at h
    · cases h
    · rename_i hc
      cases h
      have hsc : SameCore (cutSt g s m v n) (invalSym v (cutSt g s m v n)) := sameCore_cache _ _
      have hB := hsc.base (cut_base hb hm hl)
      refine ⟨hB, fun hi hs => { toBase := hB, cache := ?_ }, ?_⟩
      · refine cacheOK_inval hi.cache rfl ?_
          (fun t ht => (cut_live (v := v) (n := n) hm t).trans ht) (fun w hw => cut_veq hb hm hl hs hw)
        intro k l hl'
        refine cut_symOf ?_
        intro e
        apply hc
        obtain ⟨w, hw, hk, _⟩ := hi.cache k l hl'
        have hsn : symOf g n = some v := ((lookupM_iff (hb.tab s m hm)).1 hl).2
        rw [e, hsn] at hw
        cases hw
        subst hk
        unfold cached
        rw [List.any_eq_true]
        exact ⟨some l, hl', by simp [e]⟩
      · rw [← cut_abs hb hm hl]
        exact hsc.abs

/-! ### `structure-define` and `structure-set` -/

theorem define_ok {g : St} {s : Sid} {v : Nat} {x : Val} {new : Nid} {q : St × Out} (hb : Base g)
    (hn : g.nodes new = none) (hx : ValOK g s x) (h : define g s v x new = some q) :
    Base q.1 ∧ (Inv g → s ≠ g.names → Inv q.1) ∧ (abs q.1, q.2) = Spec.define (abs g) s v x := by
  unfold define at h
  unfold Spec.define
  cases hm : g.mods s with
  | none =>
    rw [hm] at h
    cases h
    have : (abs g).mods s = none := by simp [abs, hm]
    rw [this]
    exact ⟨hb, fun h _ => h, rfl⟩
  | some m =>
    rw [hm] at h
    rw [abs_mods hm]
    dsimp only at h ⊢
    split at h
    · rename_i hv
      rw [if_pos hv]
      cases hr : removeBinding g s m v with
      | none => rw [hr] at h; cases h
      | some g' =>
        rw [hr] at h
        cases h
        have := removeBinding_ok hb hm hr
        exact ⟨this.1, this.2.1, by rw [this.2.2]⟩
    · rename_i hv
      rw [if_neg hv]
      cases h
      exact store_ok v hb hm hn x hx rfl

theorem setVar_ok {g : St} {s : Sid} {v : Nat} {x : Val} {new : Nid} {q : St × Out} (hb : Base g)
    (hn : g.nodes new = none) (hx : ValOK g s x) (h : setVar g s v x new = some q) :
    Base q.1 ∧ (Inv g → s ≠ g.names → Inv q.1) ∧ (abs q.1, q.2) = Spec.setVar (abs g) s v x := by
  unfold setVar at h
  unfold Spec.setVar
  cases hm : g.mods s with
  | none =>
    rw [hm] at h
    cases h
    have : (abs g).mods s = none := by simp [abs, hm]
    rw [this]
    exact ⟨hb, fun h _ => h, rfl⟩
  | some m =>
    rw [hm] at h
    rw [abs_mods hm]
    dsimp only at h ⊢
    split at h
    · rename_i hv
      rw [if_pos hv]
      cases hr : removeBinding g s m v with
      | none => rw [hr] at h; cases h
      | some g' =>
        rw [hr] at h
        cases h
        have := removeBinding_ok hb hm hr
        exact ⟨this.1, this.2.1, by rw [this.2.2]⟩
    · rename_i hv
      rw [if_neg hv]
      split at h
      · rename_i hsb
        cases h
        rw [if_pos (by simp [absMod, hsb])]
        exact store_ok v hb hm hn x hx rfl
      · rename_i hsb
        cases hl : lookupM g m v with
        | none =>
          rw [hl] at h
          cases h
          rw [if_neg]
          · exact ⟨hb, fun h _ => h, rfl⟩
          · rw [binds_of_none hl]
            simp [absMod, hsb]
        | some n =>
          rw [hl] at h
          cases h
          obtain ⟨r, hr⟩ := hb.live hm (lookupM_mem hl)
          rw [if_pos (by rw [binds_of_lookup hl hr]; simp)]
          exact storeVal_ok hb hm hl x hx

end Rep.Mods
