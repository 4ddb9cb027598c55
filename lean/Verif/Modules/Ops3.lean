import Verif.Modules.Ops2

/-
Interfaces, names, new structures, references and the garbage collector.
-/

namespace Rep.Mods

/-! ### Questions -/

theorem abs_none {g : St} {s : Sid} (hm : g.mods s = none) : (abs g).mods s = none := by
  simp [abs, hm]

theorem valOf_abs (g : St) (n : Option Nid) :
    Spec.valOf ((n.bind g.nodes).map absNode) = nodeVal g n := by
  cases n with
  | none => rfl
  | some n =>
    simp only [Option.bind_some, nodeVal]
    cases g.nodes n with
    | none => rfl
    | some r => rfl

theorem ref_ok {g : St} {s : Sid} {v : Nat} (hi : Inv g) (ha : Acyc (view g v)) :
    Inv (ref g s v).1 ∧ Spec.step (abs g) (.ref s v) = (abs (ref g s v).1, (ref g s v).2) := by
  unfold ref
  simp only [Spec.step, Spec.ask]
  cases hm : g.mods s with
  | none => rw [abs_none hm]; exact ⟨hi, rfl⟩
  | some m =>
    rw [abs_mods hm]
    dsimp only
    obtain ⟨h1, h2, h3⟩ := find_ok hi (s := s) (v := v) (by simp [hm]) ha
    refine ⟨h2, ?_⟩
    rw [h3, ← h1, valOf_abs]

theorem boundP_ok {g : St} {s : Sid} {v : Nat} (hi : Inv g) (ha : Acyc (view g v)) :
    Inv (boundP g s v).1 ∧
      Spec.step (abs g) (.boundP s v) = (abs (boundP g s v).1, (boundP g s v).2) := by
  unfold boundP
  simp only [Spec.step, Spec.ask]
  cases hm : g.mods s with
  | none => rw [abs_none hm]; exact ⟨hi, rfl⟩
  | some m =>
    rw [abs_mods hm]
    dsimp only
    obtain ⟨h1, h2, h3⟩ := find_ok hi (s := s) (v := v) (by simp [hm]) ha
    refine ⟨h2, ?_⟩
    rw [h3, ← h1, valOf_abs]

theorem immutableP_ok {g : St} {s : Sid} {v : Nat} (hi : Inv g) (ha : Acyc (view g v)) :
    Inv (immutableP g s v).1 ∧
      Spec.step (abs g) (.immutableP s v) = (abs (immutableP g s v).1, (immutableP g s v).2) := by
  unfold immutableP
  simp only [Spec.step, Spec.ask]
  cases hm : g.mods s with
  | none => rw [abs_none hm]; exact ⟨hi, rfl⟩
  | some m =>
    rw [abs_mods hm]
    dsimp only
    obtain ⟨h1, h2, h3⟩ := find_ok hi (s := s) (v := v) (by simp [hm]) ha
    refine ⟨h2, ?_⟩
    rw [h3, ← h1]
    cases (find g s v).1.bind g.nodes with
    | none => rfl
    | some r => rfl

theorem external_ok {g : St} {c : Sid} {x v : Nat} (hi : Inv g) (ha : Acyc (view g v)) :
    Inv (externalRef g c x v).1 ∧
      Spec.step (abs g) (.external c x v) = (abs (externalRef g c x v).1, (externalRef g c x v).2) := by
  unfold externalRef
  simp only [Spec.step, Spec.externalRef]
  cases hm : g.mods c with
  | none => rw [abs_none hm]; exact ⟨hi, rfl⟩
  | some m =>
    rw [abs_mods hm]
    dsimp only
    change _ ∧ (_, if m.accessible.contains x || m.imports.contains (.name x) then _ else _) = _
    split
    · obtain ⟨rank, hr⟩ := ha
      have h1 := lookupRec_ok hr hi.lt (g.top + 1) [] (.name x) g.cache (way_nil g v rank _) hi.cache
      have h2 := prov_way hr hi.lt (g.top + 1) [] (.name x) (way_nil g v rank _)
      rw [← h2] at h1
      refine ⟨{ toBase := (sameCore_cache g _).base hi.toBase, cache := ?_ }, ?_⟩
      · exact (sameCore_cache g _).cacheOK h1.2
      · change (_, if Spec.valOf (Spec.provider (abs g) v (g.top + 1) (.name x)) = .void then _ else
          Out.val (Spec.valOf (Spec.provider (abs g) v (g.top + 1) (.name x)))) = _
        rw [provider_abs, valOf_abs, h1.1]
        exact congrArg (·, _) (sameCore_cache g _).abs.symm
    · exact ⟨hi, rfl⟩

theorem exportsP_ok {g : St} {s : Sid} {v : Nat} (hi : Base g) :
    Spec.step (abs g) (.exportsP s v) = (abs g, exportsP g s v) := by
  unfold exportsP
  simp only [Spec.step, Spec.ask]
  cases hm : g.mods s with
  | none => rw [abs_none hm]
  | some m =>
    rw [abs_mods hm]
    dsimp only
    unfold Spec.exportsP
    cases hl : lookupM g m v with
    | none => rw [binds_of_none hl]; rfl
    | some n =>
      obtain ⟨r, hr⟩ := hi.live hm (lookupM_mem hl)
      rw [binds_of_lookup hl hr]
      simp only [exportedN, hr, Option.map_some, Option.getD_some]
      rfl

/-- A reference changes nothing but the cache. -/
theorem find_core (g : St) (s : Sid) (v : Nat) : SameCore g (find g s v).2 := by
  unfold find
  split
  · exact ⟨rfl, rfl, rfl, rfl, rfl⟩
  · exact sameCore_cache g _

theorem ref_core (g : St) (s : Sid) (v : Nat) : SameCore g (ref g s v).1 := by
  unfold ref
  split
  · exact ⟨rfl, rfl, rfl, rfl, rfl⟩
  · exact find_core g s v

theorem boundP_core (g : St) (s : Sid) (v : Nat) : SameCore g (boundP g s v).1 := by
  unfold boundP
  split
  · exact ⟨rfl, rfl, rfl, rfl, rfl⟩
  · exact find_core g s v

theorem immutableP_core (g : St) (s : Sid) (v : Nat) : SameCore g (immutableP g s v).1 := by
  unfold immutableP
  split
  · exact ⟨rfl, rfl, rfl, rfl, rfl⟩
  · exact find_core g s v

theorem external_core (g : St) (c : Sid) (x v : Nat) : SameCore g (externalRef g c x v).1 := by
  unfold externalRef
  split
  · exact ⟨rfl, rfl, rfl, rfl, rfl⟩
  · split
    · exact sameCore_cache g _
    · exact ⟨rfl, rfl, rfl, rfl, rfl⟩

/-! ### `set-interface` -/

theorem setFlags_apply (sig : List Nat) : ∀ (l : List Nid) (nodes : Nid → Option Node) (x : Nid),
    setFlags sig l nodes x =
      if x ∈ l then (nodes x).map fun r => { r with exported := sig.contains r.sym } else nodes x := by
  intro l
  induction l with
  | nil => intro nodes x; simp [setFlags]
  | cons a l ih =>
    intro nodes x
    simp only [setFlags]
    rw [ih]
    by_cases e : x = a
    · subst e
      simp only [if_true, List.mem_cons, true_or]
      split
      · cases nodes x <;> rfl
      · rfl
    · simp [e]

theorem restSig_eq (g : St) (sig : List Nat) : ∀ l : List Nid,
    restSig g sig l = sig.filter fun v => l.all fun n => decide ((symOf g n).getD 0 ≠ v) := by
  intro l
  induction l with
  | nil => exact (List.filter_eq_self.2 fun _ _ => rfl).symm
  | cons a l ih =>
    simp only [restSig, ih, delq, List.filter_filter, List.all_cons]
    congr 1
    funext v
    congr 1
    by_cases h : v = (symOf g a).getD 0
    · simp [h]
    · simp [h, Ne.symm h]

theorem setInterface_ok {g : St} {s : Sid} {sig : List Nat} (hi : Base g) :
    Base (setInterface g s sig).1 ∧
      (CacheOK g g.cache → CacheOK (setInterface g s sig).1 (setInterface g s sig).1.cache) ∧
      Spec.step (abs g) (.setInterface s sig) = (abs (setInterface g s sig).1, (setInterface g s sig).2) := by
  unfold setInterface
  simp only [Spec.step, Spec.update]
  cases hm : g.mods s with
  | none => rw [abs_none hm]; exact ⟨hi, id, rfl⟩
  | some m =>
    rw [abs_mods hm]
    dsimp only
    generalize hm' : ({ m with
      exportAll := false
      inherited := restSig g sig m.buckets.flatten } : Mod) = m'
    have hbk : m'.buckets = m.buckets := by rw [← hm']
    have himp : m'.imports = m.imports := by rw [← hm']
    generalize hg1 : ({ g.setMod s m' with
      nodes := setFlags sig m.buckets.flatten g.nodes } : St) = g1
    have hsc : SameCore g1 (flush g1) := sameCore_cache _ _
    have hnod : ∀ x, g1.nodes x = if x ∈ m.buckets.flatten then
        (g.nodes x).map fun r => { r with exported := sig.contains r.sym } else g.nodes x := by
      intro x
      rw [← hg1]
      exact setFlags_apply sig _ _ x
    have hsym : ∀ x, symOf g1 x = symOf g x := by
      intro x
      simp only [symOf, hnod]
      split
      · cases g.nodes x <;> rfl
      · rfl
    have hval : ∀ x, (g1.nodes x).map (·.val) = (g.nodes x).map (·.val) := by
      intro x
      rw [hnod]
      split
      · cases g.nodes x <;> rfl
      · rfl
    have hmods : ∀ t, g1.mods t = (g.setMod s m').mods t := by intro t; rw [← hg1]
    have hlk : ∀ t v, lookup g1 t v = lookup g t v := by
      intro t v
      rw [← setMod_lookup (m' := m') hm hbk t v]
      unfold lookup
      rw [hmods]
      cases (g.setMod s m').mods t with
      | none => rfl
      | some mt => exact lookupM_congr (g := g.setMod s m') (fun x _ => hsym x) v
    have hb0 := setMod_base (m' := m') hi hm hbk
      (fun a ha => hi.imp s m a hm (himp ▸ ha))
    have hB : Base g1 := by
      refine ⟨?_, ?_, ?_, ?_, ?_, ?_⟩
      · intro t mt hmt
        rw [hmods] at hmt
        exact (hb0.tab t mt hmt).congr fun x _ => hsym x
      · intro t t' mt mt' x h1 h2
        rw [hmods] at h1 h2
        exact hb0.dis t t' mt mt' x h1 h2
      · intro t ht
        rw [hmods] at ht
        rw [← hg1]
        exact hb0.lt t ht
      · rw [hmods, ← hg1]; exact hb0.nam
      · intro t mt a h1 h2
        rw [hmods] at h1 ⊢
        exact hb0.imp t mt a h1 h2
      · intro x y q a h1 h2 h3
        rw [hmods, setMod_live hm]
        have hn : g1.names = g.names := by rw [← hg1]; rfl
        rw [hn, hlk] at h1
        have := hval y
        rw [h2] at this
        cases hy : g.nodes y with
        | none => simp [hy] at this
        | some q' =>
          simp only [hy, Option.map_some] at this
          exact hi.ref x y q' a h1 hy (by rw [← Option.some.inj this]; exact h3)
    refine ⟨hsc.base hB, fun _ => cacheOK_flush _ _, ?_⟩
    rw [hsc.abs]
    have h := abs_upd (g := g) (g' := g1) (s := s) (m' := m') (by funext t; rw [hmods]; rfl)
      (by rw [← hg1]; rfl) (by rw [← hg1]; rfl) (by rw [← hg1]; rfl)
      (by
        intro t mt ht hmt x hx
        rw [hnod, if_neg]
        intro hx'
        exact ht (hi.dis t s mt m x hmt hm hx hx'))
    rw [h]
    congr 2
    have hbinds : ∀ v, (absMod g1 m').binds v =
        ((absMod g m).binds v).map fun b => { b with exported := sig.contains v } := by
      intro v
      show bindOf g1 m' v = (bindOf g m v).map _
      unfold bindOf
      rw [lookupM_buckets hbk, lookupM_congr (fun x _ => hsym x)]
      cases hl : lookupM g m v with
      | none => rfl
      | some n =>
        obtain ⟨r, hr⟩ := hi.live hm (lookupM_mem hl)
        have hs := lookup_sym (g := g) (a := s) (by rw [lookup_eq hm]; exact hl)
        have hs' : r.sym = v := by simpa [symOf, hr] using hs
        simp [hnod, lookupM_mem hl, hr, absNode, hs']
    ext1
    · rw [← hm']; rfl
    · funext v; rw [hbinds]; rfl
    · show sig.filter _ = m'.inherited
      rw [← hm']
      show _ = restSig g sig m.buckets.flatten
      rw [restSig_eq]
      congr 1
      funext v
      have h1 : (absMod g m).binds v = bindOf g m v := rfl
      cases hl : lookupM g m v with
      | none =>
        rw [binds_of_none hl]
        symm
        simp only [Option.isNone_none, List.all_eq_true, decide_eq_true_eq]
        intro n hn e
        obtain ⟨r, hr⟩ := hi.live hm hn
        have := (lookupM_none (hi.tab s m hm)).1 hl n hn
        simp [symOf, hr] at this e
        exact this e
      | some n =>
        obtain ⟨r, hr⟩ := hi.live hm (lookupM_mem hl)
        rw [binds_of_lookup hl hr]
        symm
        simp only [Option.isNone_some, List.all_eq_false]
        refine ⟨n, lookupM_mem hl, ?_⟩
        have hs := lookup_sym (g := g) (a := s) (by rw [lookup_eq hm]; exact hl)
        simp [hs]
    · rw [← hm']; rfl
    · rw [← hm']; rfl
    · rw [← hm']; rfl
    · rw [← hm']; rfl

/-! ### `rep_add_subr` -/

theorem addSubr_ok {g : St} {s : Sid} {v : Nat} {x : Val} {e : Bool} {new : Nid} (hi : Base g)
    (hn : g.nodes new = none) (hx : ValOK g s x) :
    Base (addSubr g s v x e new).1 ∧
      (CacheOK g g.cache → s ≠ g.names →
        (∀ n r, lookup g s v = some n → g.nodes n = some r → r.exported = e) →
        CacheOK (addSubr g s v x e new).1 (addSubr g s v x e new).1.cache) ∧
      Spec.step (abs g) (.addSubr s v x e new) =
        (abs (addSubr g s v x e new).1, (addSubr g s v x e new).2) := by
  unfold addSubr
  simp only [Spec.step, Spec.update]
  cases hm : g.mods s with
  | none => rw [abs_none hm]; exact ⟨hi, fun hc _ _ => hc, rfl⟩
  | some m =>
    rw [abs_mods hm]
    dsimp only
    have hcache : ∀ k l, lookupM g m v = none → some l ∈ (lookupOrAdd g s m v new).2.cache.sets k →
        k = cacheHash v → symOf (lookupOrAdd g s m v new).2 l.n ≠ some v := by
      intro k l hl hmem hk
      rw [lookupOrAdd_new hl] at hmem ⊢
      have := (invalSym_mem hmem).2 hk
      intro h
      exact this (((sameCore_cache (addedSt g s m v new) _).symOf l.n).symm.trans h)
    obtain ⟨n, g2, m2, y, hoa, hb2, hm2, hl2, hy, hsy, hnm, hlv, hi2, hcase⟩ :=
      lookupOrAdd_ok v hi hm hn
    rw [hoa] at hcache
    rw [hoa]
    simp only [hy]
    have hNO : NameOK g2 n y { y with val := x, exported := e } := by
      rcases hx with hx | hx
      · exact .inr (.inl (not_name hb2 (by rw [hnm]; exact hx) hm2 hl2))
      · exact .inr (.inr fun a ha => by rw [hlv]; exact hx a ha)
    refine ⟨setNode_base hb2 hy rfl hNO, fun hc hs he => ?_, ?_⟩
    · have hi2 := hi2 { toBase := hi, cache := hc } hs
      have hnn := not_name hb2 (by rw [hnm]; exact hs) hm2 hl2
      refine cacheOK_same hi2.cache rfl
        (fun k l _ => setNode_symOf (r' := { y with val := x, exported := e }) hy rfl l.n)
        (fun t ht => ht) ?_
      rintro w ⟨k, l, hl, hw⟩
      refine setNode_veq (r' := { y with val := x, exported := e }) hy rfl ?_ (.inr hnn)
      rcases hcase with ⟨h1, h2⟩ | ⟨h1, _⟩
      · left
        subst h2
        exact (he n y (by rw [lookup_eq hm]; exact h1) hy).symm
      · right
        rw [hsy]
        rintro rfl
        obtain ⟨w', hw', hk, _⟩ := hi2.cache k l hl
        rw [hw] at hw'
        cases hw'
        exact hcache k l h1 hl hk.symm hw
    · rw [setNode_abs (r' := { y with val := x, exported := e }) hb2 hy rfl hm2 hl2]
      unfold Spec.addSubr
      rcases hcase with ⟨h1, h2⟩ | ⟨h1, h2, h3, h4⟩
      · subst h2
        rw [hm] at hm2
        cases hm2
        rw [binds_of_lookup h1 hy]
        rfl
      · rw [binds_of_none h1, h3, h4, setMod_setMod]
        rw [h2]
        dsimp only
        congr 2
        unfold Spec.SMod.add Spec.SMod.put
        congr 1
        funext z
        dsimp only
        split <;> rfl

end Rep.Mods
