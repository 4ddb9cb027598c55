import Verif.Modules.Search

/-
The invariant of the module system, and the map from states of the model to states of the
specification.
-/

namespace Rep.Mods

attribute [ext] Spec.SSt Spec.SMod View

def absNode (r : Node) : Spec.Bind := ⟨r.val, r.const, r.exported⟩

def bindOf (g : St) (m : Mod) (v : Nat) : Option Spec.Bind :=
  ((lookupM g m v).bind g.nodes).map absNode

def absMod (g : St) (m : Mod) : Spec.SMod :=
  ⟨m.name, bindOf g m, m.inherited, m.imports, m.accessible, m.exportAll, m.setBinds⟩

/-- What a state means. -/
def abs (g : St) : Spec.SSt := ⟨fun s => (g.mods s).map (absMod g), g.top, g.names, g.metaName⟩

/-- The invariant, without the cache. -/
structure Base (g : St) : Prop where
  tab : ∀ s m, g.mods s = some m → TabOK g m.buckets
  dis : ∀ s s' m m' n, g.mods s = some m → g.mods s' = some m' → n ∈ m.buckets.flatten →
    n ∈ m'.buckets.flatten → s = s'
  lt : ∀ s, (g.mods s).isSome → s < g.top
  nam : (g.mods g.names).isSome
  imp : ∀ t m a, g.mods t = some m → Imp.obj a ∈ m.imports → (g.mods a).isSome
  ref : ∀ x n r a, lookup g g.names x = some n → g.nodes n = some r → r.val = .struct a →
    (g.mods a).isSome

structure Inv (g : St) : Prop extends Base g where
  cache : CacheOK g g.cache

/-! ### Reading -/

theorem Base.live {g : St} (hb : Base g) {s : Sid} {m : Mod} (hm : g.mods s = some m) {n : Nid}
    (hn : n ∈ m.buckets.flatten) : ∃ r, g.nodes n = some r := by
  obtain ⟨k, hk⟩ := mem_flatten_getD.1 hn
  obtain ⟨v, hv, _⟩ := (hb.tab s m hm).loc k n hk
  cases hr : g.nodes n with
  | none => simp [symOf, hr] at hv
  | some r => exact ⟨r, rfl⟩

theorem Base.fresh {g : St} (hb : Base g) {s : Sid} {m : Mod} (hm : g.mods s = some m) {n : Nid}
    (hn : g.nodes n = none) : n ∉ m.buckets.flatten := by
  intro h
  obtain ⟨r, hr⟩ := hb.live hm h
  rw [hn] at hr
  cases hr

theorem chainFind_congr {g g' : St} {v : Nat} : ∀ {l : List Nid},
    (∀ n ∈ l, symOf g' n = symOf g n) → chainFind g' v l = chainFind g v l := by
  intro l
  induction l with
  | nil => intro _; rfl
  | cons a l ih =>
    intro h
    simp only [chainFind]
    rw [h a (List.mem_cons_self ..), ih (fun n hn => h n (List.mem_cons_of_mem _ hn))]

theorem lookupM_congr {g g' : St} {m : Mod}
    (h : ∀ n ∈ m.buckets.flatten, symOf g' n = symOf g n) (v : Nat) :
    lookupM g' m v = lookupM g m v := by
  unfold lookupM
  split
  · rfl
  · exact chainFind_congr fun n hn => h n (mem_flatten_getD.2 ⟨_, hn⟩)

theorem symOf_congr {g g' : St} {n : Nid} (h : g'.nodes n = g.nodes n) : symOf g' n = symOf g n := by
  simp [symOf, h]

theorem lookupM_mem {g : St} {m : Mod} {v : Nat} {n : Nid} (h : lookupM g m v = some n) :
    n ∈ m.buckets.flatten := by
  unfold lookupM at h
  split at h
  · cases h
  · exact mem_flatten_getD.2 ⟨_, (chainFind_some h).1⟩

theorem absMod_congr {g g' : St} {m : Mod}
    (h : ∀ n ∈ m.buckets.flatten, g'.nodes n = g.nodes n) : absMod g' m = absMod g m := by
  have : bindOf g' m = bindOf g m := by
    funext v
    unfold bindOf
    rw [lookupM_congr (fun n hn => symOf_congr (h n hn))]
    cases hl : lookupM g m v with
    | none => rfl
    | some n => simp [h n (lookupM_mem hl)]
  simp [absMod, this]

/-- A change of one structure and its nodes. -/
theorem abs_upd {g g' : St} {s : Sid} {m' : Mod}
    (hm : g'.mods = fun x => if x = s then some m' else g.mods x) (ht : g'.top = g.top)
    (hn : g'.names = g.names) (hme : g'.metaName = g.metaName)
    (h : ∀ t m, t ≠ s → g.mods t = some m → ∀ n ∈ m.buckets.flatten, g'.nodes n = g.nodes n) :
    abs g' = (abs g).setMod s (absMod g' m') := by
  ext1
  · funext t
    simp only [abs, Spec.SSt.setMod, hm]
    by_cases e : t = s
    · simp [e]
    · simp only [if_neg e]
      cases hgt : g.mods t with
      | none => rfl
      | some m => simp [absMod_congr (h t m e hgt)]
  · exact ht
  · exact hn
  · exact hme

/-- The same state, up to the cache. -/
structure SameCore (g g' : St) : Prop where
  mods : g'.mods = g.mods
  nodes : g'.nodes = g.nodes
  top : g'.top = g.top
  names : g'.names = g.names
  metaName : g'.metaName = g.metaName

theorem sameCore_cache (g : St) (c : Cache) : SameCore g { g with cache := c } :=
  ⟨rfl, rfl, rfl, rfl, rfl⟩

theorem SameCore.symOf {g g' : St} (h : SameCore g g') (n : Nid) : symOf g' n = symOf g n := by
  simp [Mods.symOf, h.nodes]

theorem SameCore.lookupM {g g' : St} (h : SameCore g g') (m : Mod) (v : Nat) :
    lookupM g' m v = lookupM g m v := lookupM_congr (fun n _ => h.symOf n) v

theorem SameCore.lookup {g g' : St} (h : SameCore g g') (s : Sid) (v : Nat) :
    lookup g' s v = lookup g s v := by
  unfold Mods.lookup
  rw [h.mods]
  cases g.mods s with
  | none => rfl
  | some m => exact h.lookupM m v

theorem SameCore.abs {g g' : St} (h : SameCore g g') : abs g' = abs g := by
  ext1
  · funext s
    simp only [Mods.abs, h.mods]
    cases g.mods s with
    | none => rfl
    | some m => simp [absMod_congr (m := m) (g := g) (g' := g') (fun n _ => by rw [h.nodes])]
  · exact h.top
  · exact h.names
  · exact h.metaName

theorem SameCore.resolve {g g' : St} (h : SameCore g g') (i : Imp) : resolve g' i = resolve g i := by
  cases i with
  | obj s => simp only [Mods.resolve, h.mods]
  | name x => simp only [Mods.resolve, getStructure, h.mods, h.names, h.lookup, h.nodes]

theorem SameCore.view {g g' : St} (h : SameCore g g') (v : Nat) : view g' v = view g v := by
  ext1
  · funext s; exact h.lookup s v
  · funext n; simp only [Mods.view, exportedN, h.nodes]
  · funext s; simp only [Mods.view, inhOf, h.mods]
  · funext s; simp only [Mods.view, importsOf, h.mods]
  · funext i; exact h.resolve i

theorem SameCore.base {g g' : St} (h : SameCore g g') (hb : Base g) : Base g' := by
  refine ⟨?_, ?_, ?_, ?_, ?_, ?_⟩
  · rw [h.mods]
    exact fun s m hm => (hb.tab s m hm).congr fun n _ => h.symOf n
  · rw [h.mods]; exact hb.dis
  · rw [h.mods, h.top]; exact hb.lt
  · rw [h.mods, h.names]; exact hb.nam
  · rw [h.mods]; exact hb.imp
  · rw [h.mods, h.names, h.nodes]
    intro x n r a hl
    rw [h.lookup] at hl
    exact hb.ref x n r a hl

theorem SameCore.cacheOK {g g' : St} (h : SameCore g g') {c : Cache} (hc : CacheOK g c) :
    CacheOK g' c := by
  intro k l hl
  obtain ⟨v, h1, h2, h3, h4⟩ := hc k l hl
  exact ⟨v, by rw [h.symOf]; exact h1, h2, by rw [h.mods]; exact h3, by rw [h.view]; exact h4⟩

theorem lookup_eq {g : St} {s : Sid} {m : Mod} (hm : g.mods s = some m) (v : Nat) :
    lookup g s v = lookupM g m v := by
  simp [lookup, hm]

theorem own_abs (g : St) (s : Sid) (v : Nat) :
    Spec.own (abs g) s v = ((lookup g s v).bind g.nodes).map absNode := by
  unfold Spec.own lookup abs
  dsimp only
  cases g.mods s with
  | none => rfl
  | some m => rfl

theorem resolve_abs (g : St) (i : Imp) : Spec.resolve (abs g) i = resolve g i := by
  have hs : ∀ s, ((abs g).mods s).isSome = (g.mods s).isSome := by
    intro s
    simp [abs]
  cases i with
  | obj s => simp only [Spec.resolve, resolve, hs]
  | name x =>
    simp only [Spec.resolve, resolve, hs, own_abs, getStructure]
    change (((((lookup g g.names x).bind g.nodes).map absNode).bind fun b => b.val.sid).bind _) = _
    congr 1
    cases lookup g g.names x with
    | none => rfl
    | some n =>
      simp only [Option.bind_some]
      cases g.nodes n with
      | none => rfl
      | some r => rfl

theorem provider_abs (g : St) (v : Nat) : ∀ (k : Nat) (i : Imp),
    Spec.provider (abs g) v k i = ((prov (view g v) k i).bind g.nodes).map absNode := by
  intro k
  induction k with
  | zero => intro i; rfl
  | succ k ih =>
    intro i
    simp only [Spec.provider, prov, resolve_abs]
    change (match (resolve g i).bind (abs g).mods with | none => none | some m => _) =
      ((match resolve g i with | none => none | some a => _).bind g.nodes).map absNode
    cases hr : resolve g i with
    | none => rfl
    | some a =>
      simp only [Option.bind_some]
      have hlive := resolve_live hr
      cases hm : g.mods a with
      | none => simp [hm] at hlive
      | some m =>
        have h1 : (abs g).mods a = some (absMod g m) := by simp [abs, hm]
        rw [h1]
        have h2 : (view g v).own a = lookupM g m v := lookup_eq hm v
        have h3 : (view g v).inh a = m.exportsInherited v := by
          show inhOf g v a = _
          simp [inhOf, hm]
        have h4 : (view g v).imps a = m.imports := by
          show importsOf g a = _
          simp [importsOf, hm]
        simp only [h2, h3, h4, Spec.offered]
        change (match bindOf g m v with | some b => _ | none => _) = _
        unfold bindOf
        cases hl : lookupM g m v with
        | some n =>
          have hsym : symOf g n = some v := lookup_sym (by rw [lookup_eq hm]; exact hl)
          cases hn : g.nodes n with
          | none => simp [symOf, hn] at hsym
          | some r =>
            have he : (view g v).exp n = r.exported := by
              show exportedN g n = _
              simp [exportedN, hn]
            simp only [Option.bind_some, hn, Option.map_some, he]
            cases hx : r.exported <;> simp [absNode, hx, hn]
        | none =>
          simp only [Option.bind_none, Option.map_none]
          change (if m.exportsInherited v = true then m.imports.findSome? _ else none) = _
          split
          · clear h1 h2 h3 h4
            induction m.imports with
            | nil => rfl
            | cons j l ihl =>
              rw [List.findSome?_cons, List.findSome?_cons, ih j]
              cases hp : prov (view g v) k j with
              | none => simp only [Option.bind_none, Option.map_none]; exact ihl
              | some n =>
                have hsym := prov_sym hp
                cases hn : g.nodes n with
                | none => simp [symOf, hn] at hsym
                | some r => simp [hn]
          · rfl

theorem find_ok {g : St} (hi : Inv g) {s : Sid} {v : Nat} (hs : (g.mods s).isSome)
    (ha : Acyc (view g v)) :
    (((find g s v).1.bind g.nodes).map absNode) = Spec.visible (abs g) s v ∧
      Inv (find g s v).2 ∧ abs (find g s v).2 = abs g := by
  unfold find Spec.visible
  cases hm : g.mods s with
  | none => simp [hm] at hs
  | some m =>
    have h1 : (abs g).mods s = some (absMod g m) := by simp [abs, hm]
    rw [h1]
    dsimp only
    change _ = (match bindOf g m v with | some b => _ | none => _) ∧ _
    unfold bindOf
    rw [lookup_eq hm]
    cases hl : lookupM g m v with
    | some n =>
      have hsym : symOf g n = some v := lookup_sym (by rw [lookup_eq hm]; exact hl)
      cases hn : g.nodes n with
      | none => simp [symOf, hn] at hsym
      | some r => exact ⟨by simp [hn], hi, rfl⟩
    | none =>
      simp only [Option.bind_none, Option.map_none]
      have hso := search_ok ha hi.lt hs hi.cache
      refine ⟨?_, ?_, ?_⟩
      · rw [hso.1]
        have : importsOf g s = m.imports := by simp [importsOf, hm]
        rw [this]
        change _ = m.imports.findSome? (Spec.provider (abs g) v (g.top + 1))
        induction m.imports with
        | nil => rfl
        | cons j l ihl =>
          rw [List.findSome?_cons, List.findSome?_cons, provider_abs]
          cases hp : prov (view g v) (g.top + 1) j with
          | none => simp only [Option.bind_none, Option.map_none]; exact ihl
          | some n =>
            have hsym := prov_sym hp
            cases hn : g.nodes n with
            | none => simp [symOf, hn] at hsym
            | some r => simp [hn]
      · have hsc : SameCore g (search g s v).2 := sameCore_cache g _
        exact { toBase := hsc.base hi.toBase, cache := hsc.cacheOK hso.2 }
      · exact (sameCore_cache g _).abs

/-! ### Keeping the cache right -/

/-- The search from structures in `A` does not notice the difference between `w` and `w'`. -/
theorem prov_congr {w w' : View} (A : Sid → Prop)
    (h : ∀ t, A t → w'.imps t = w.imps t ∧ ∀ i ∈ w.imps t, w'.res i = w.res i ∧
      ∀ b, w.res i = some b → A b ∧ w'.own b = w.own b ∧ w'.inh b = w.inh b ∧
        ∀ n, w.own b = some n → w'.exp n = w.exp n) :
    ∀ k t, A t → ∀ i ∈ w.imps t, prov w' k i = prov w k i := by
  intro k
  induction k with
  | zero => intros; rfl
  | succ k ih =>
    intro t ht i hi
    obtain ⟨_, h2⟩ := h t ht
    obtain ⟨hr, hb⟩ := h2 i hi
    simp only [prov, hr]
    cases ha : w.res i with
    | none => rfl
    | some a =>
      obtain ⟨hA, ho, hh, he⟩ := hb a ha
      dsimp only
      rw [ho, hh]
      cases hoa : w.own a with
      | some n => dsimp only; rw [he n hoa]
      | none =>
        dsimp only
        split
        · rw [(h a hA).1]
          exact findSome_congr fun j hj => ih a hA j hj
        · rfl

theorem ev_congr {w w' : View} (A : Sid → Prop)
    (h : ∀ t, A t → w'.imps t = w.imps t ∧ ∀ i ∈ w.imps t, w'.res i = w.res i ∧
      ∀ b, w.res i = some b → A b ∧ w'.own b = w.own b ∧ w'.inh b = w.inh b ∧
        ∀ n, w.own b = some n → w'.exp n = w.exp n)
    {s : Sid} {n : Nid} (hs : A s) (he : Ev w s n) : Ev w' s n := by
  obtain ⟨K, hK⟩ := he
  refine ⟨K, fun k hk => ?_⟩
  rw [(h s hs).1, findSome_congr (prov_congr A h k s hs)]
  exact hK k hk

/-- Two views in which every search gives the same. -/
structure VEq (w w' : View) : Prop where
  own : ∀ t, w'.own t = w.own t
  exp : ∀ t n, w.own t = some n → w'.exp n = w.exp n
  inh : ∀ t, w'.inh t = w.inh t
  imps : ∀ t, w'.imps t = w.imps t
  res : ∀ i, w'.res i = w.res i

theorem VEq.ev {w w' : View} (h : VEq w w') {s : Sid} {n : Nid} (he : Ev w s n) : Ev w' s n :=
  ev_congr (fun _ => True)
    (fun t _ => ⟨h.imps t, fun i _ => ⟨h.res i, fun b _ =>
      ⟨trivial, h.own b, h.inh b, h.exp b⟩⟩⟩) trivial he

theorem resolve_congr {g g' : St} (hs : ∀ s, (g'.mods s).isSome = (g.mods s).isSome)
    (hn : g'.names = g.names) (hl : ∀ x, lookup g' g.names x = lookup g g.names x)
    (hv : ∀ x n, lookup g g.names x = some n → (g'.nodes n).map (·.val) = (g.nodes n).map (·.val))
    (i : Imp) : resolve g' i = resolve g i := by
  cases i with
  | obj s => simp only [resolve, hs]
  | name x =>
    simp only [resolve, hs, getStructure, hn, hl]
    cases h : lookup g g.names x with
    | none => rfl
    | some n => simp only [hv x n h]

/-- What is left in the cache after `cache_invalidate_symbol`. -/
theorem invalSym_mem {g : St} {v k : Nat} {l : Line} (h : some l ∈ (invalSym v g).cache.sets k) :
    some l ∈ g.cache.sets k ∧ (k = cacheHash v → symOf g l.n ≠ some v) := by
  simp only [invalSym] at h
  split at h
  · rename_i e
    obtain ⟨x, hx, he⟩ := List.mem_map.1 h
    cases x with
    | none => cases he
    | some y =>
      simp only [Option.bind_some] at he
      split at he
      · cases he
      · cases he
        exact ⟨hx, fun _ => by assumption⟩
  · exact ⟨h, fun e => absurd e (by assumption)⟩

/-- Invalidating a symbol repairs the cache, if nothing changed for the other symbols. -/
theorem cacheOK_inval {g g1 : St} {v : Nat} (hc : CacheOK g g.cache) (hcache : g1.cache = g.cache)
    (hsame : ∀ k l, some l ∈ g.cache.sets k → symOf g1 l.n = symOf g l.n)
    (hlive : ∀ s, (g.mods s).isSome → (g1.mods s).isSome)
    (hv : ∀ w, w ≠ v → VEq (view g w) (view g1 w)) : CacheOK (invalSym v g1) (invalSym v g1).cache := by
  refine (sameCore_cache g1 _).cacheOK ?_
  intro k l hl
  obtain ⟨h1, h2⟩ := invalSym_mem hl
  rw [hcache] at h1
  obtain ⟨w, hw, hk, hlv, he⟩ := hc k l h1
  have hs := hsame k l h1
  have hne : w ≠ v := by
    rintro rfl
    exact h2 hk.symm (by rw [hs, hw])
  exact ⟨w, by rw [hs, hw], hk, hlive _ hlv, (hv w hne).ev he⟩

/-- A change nobody notices keeps the cache right. -/
theorem cacheOK_same {g g1 : St} (hc : CacheOK g g.cache) (hcache : g1.cache = g.cache)
    (hsame : ∀ k l, some l ∈ g.cache.sets k → symOf g1 l.n = symOf g l.n)
    (hlive : ∀ s, (g.mods s).isSome → (g1.mods s).isSome)
    (hv : ∀ w, (∃ k l, some l ∈ g.cache.sets k ∧ symOf g l.n = some w) → VEq (view g w) (view g1 w)) :
    CacheOK g1 g1.cache := by
  intro k l hl
  rw [hcache] at hl
  obtain ⟨w, hw, hk, hlv, he⟩ := hc k l hl
  exact ⟨w, by rw [hsame k l hl, hw], hk, hlive _ hlv, (hv w ⟨k, l, hl, hw⟩).ev he⟩

theorem cacheOK_flush (g g1 : St) : CacheOK g1 (flush g).cache := by
  intro k l hl
  simp [flush, emptySets] at hl

end Rep.Mods
