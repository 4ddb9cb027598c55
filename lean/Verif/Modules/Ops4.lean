import Verif.Modules.Ops3

/-
Making, naming and freeing structures.
-/

namespace Rep.Mods

/-! ### `name-structure` -/

theorem inv_flush {g : St} (hb : Base g) : Inv (flush g) :=
  { toBase := (sameCore_cache g _).base hb, cache := cacheOK_flush _ _ }

theorem abs_flush (g : St) : abs (flush g) = abs g := (sameCore_cache g _).abs

theorem name_ok {g : St} {s : Sid} {nm : Option Nat} {new : Nid} {q : St × Out} (hi : Base g)
    (hn : g.nodes new = none) (h : nameStructure g s nm new = some q) (hs : (g.mods s).isSome) :
    Inv q.1 ∧ Spec.step (abs g) (.nameIt s nm new) = (abs q.1, q.2) ∧ q.1.cache.sets = emptySets := by
  unfold nameStructure at h
  simp only [Spec.step]
  unfold Spec.nameStructure
  cases hm : g.mods s with
  | none => simp [hm] at hs
  | some m =>
    rw [abs_mods hm]
    rw [hm] at h
    cases nm with
    | some x =>
      dsimp only at h ⊢
      cases hd : define g g.names x (.struct s) new with
      | none => rw [hd] at h; cases h
      | some r =>
        rw [hd] at h
        obtain ⟨hb, _, ha⟩ := define_ok hi hn (.inr (by
          intro a e
          cases e
          simp [hm])) hd
        have ha' : (Spec.define (abs g) (abs g).names x (.struct s)).1 = abs r.1 := by
          rw [show (abs g).names = g.names from rfl, ← ha]
        rw [ha']
        unfold Spec.setName
        simp only [Option.map_some, Option.some.injEq] at h
        cases hm' : r.1.mods s with
        | none =>
          rw [hm'] at h
          cases h
          rw [abs_none hm']
          exact ⟨inv_flush hb, by rw [abs_flush], rfl⟩
        | some m' =>
          rw [hm'] at h
          cases h
          rw [abs_mods hm']
          dsimp only
          by_cases e : m'.name = none
          · rw [if_pos e, if_pos (show (absMod r.1 m').name = none from e)]
            refine ⟨inv_flush (setMod_base hb hm' rfl fun a ha => hb.imp s m' a hm' ha), ?_, rfl⟩
            rw [abs_flush, setMod_abs, absMod_eq (m := m') rfl]
            rfl
          · rw [if_neg e, if_neg (show ¬ (absMod r.1 m').name = none from e)]
            exact ⟨inv_flush hb, by rw [abs_flush], rfl⟩
    | none =>
      dsimp only at h ⊢
      change _ ∧ (match m.name with | none => _ | some x => _) = _ ∧ _
      cases hnm : m.name with
      | none =>
        rw [hnm] at h
        cases h
        exact ⟨inv_flush hi, by rw [abs_flush], rfl⟩
      | some x =>
        rw [hnm] at h
        dsimp only at h ⊢
        cases hd : define g g.names x .nil new with
        | none => rw [hd] at h; cases h
        | some r =>
          rw [hd] at h
          cases h
          obtain ⟨hb, _, ha⟩ := define_ok hi hn (.inr (by intro a e; cases e)) hd
          have ha' : (Spec.define (abs g) (abs g).names x .nil).1 = abs r.1 := by
            rw [show (abs g).names = g.names from rfl, ← ha]
          rw [ha']
          exact ⟨inv_flush hb, by rw [abs_flush], rfl⟩

/-! ### `make-structure` -/

/-- A new structure that has opened the structures with the names `L`. -/
def newSt (g : St) (sig : List Nat) (nm : Option Nat) (L : List Imp) (a : Sid) : St :=
  { g.setMod a ⟨nm, sig, L, [], [], 0, false, false⟩ with top := max g.top (a + 1) }

section New

variable {g : St} {sig : List Nat} {nm : Option Nat} {L : List Imp} {a : Sid}

theorem new_mods (t : Sid) : (newSt g sig nm L a).mods t =
    if t = a then some ⟨nm, sig, L, [], [], 0, false, false⟩ else g.mods t := rfl

theorem new_lookup (hf : g.mods a = none) (t : Sid) (v : Nat) :
    lookup (newSt g sig nm L a) t v = lookup g t v := by
  unfold lookup
  rw [new_mods]
  by_cases e : t = a
  · rw [if_pos e, e, hf]
    simp [lookupM]
  · rw [if_neg e]
    cases g.mods t with
    | none => rfl
    | some m => exact lookupM_congr (g := g) (g' := newSt g sig nm L a) (fun _ _ => rfl) v

theorem new_live (t : Sid) (ht : (g.mods t).isSome) : ((newSt g sig nm L a).mods t).isSome := by
  rw [new_mods]
  split
  · rfl
  · exact ht

theorem new_base (hb : Base g) (hf : g.mods a = none) (hL : ∀ b, Imp.obj b ∉ L) :
    Base (newSt g sig nm L a) := by
  refine ⟨?_, ?_, ?_, ?_, ?_, ?_⟩
  · intro t m hm
    rw [new_mods] at hm
    split at hm
    · cases hm
      exact tabOK_replicate _ 0
    · exact (hb.tab t m hm).congr fun _ _ => rfl
  · have key : ∀ t m x, (newSt g sig nm L a).mods t = some m → x ∈ m.buckets.flatten →
        g.mods t = some m := by
      intro t m x hm hx
      rw [new_mods] at hm
      split at hm
      · cases hm; simp at hx
      · exact hm
    intro t t' m m' x hm hm' hx hx'
    exact hb.dis t t' m m' x (key t m x hm hx) (key t' m' x hm' hx') hx hx'
  · intro t ht
    show t < max g.top (a + 1)
    rw [new_mods] at ht
    split at ht
    · rename_i e
      rw [e]
      exact Nat.lt_of_lt_of_le (Nat.lt_succ_self a) (Nat.le_max_right ..)
    · have := hb.lt t ht
      omega
  · exact new_live _ hb.nam
  · intro t m b hm hx
    rw [new_mods] at hm
    split at hm
    · cases hm
      exact absurd hx (hL b)
    · exact new_live _ (hb.imp t m b hm hx)
  · intro x n r b hl hr hv
    change lookup (newSt g sig nm L a) g.names x = some n at hl
    rw [new_lookup hf] at hl
    exact new_live _ (hb.ref x n r b hl hr hv)

theorem new_abs (g : St) (sig : List Nat) (nm : Option Nat) (L : List Imp) (a : Sid) :
    abs (newSt g sig nm L a) =
      { (abs g).setMod a ⟨nm, fun _ => none, sig, L, [], false, false⟩ with top := max g.top (a + 1) } := by
  ext1
  · funext t
    simp only [abs, new_mods, Spec.SSt.setMod]
    split
    · simp only [Option.map_some, absMod, Option.some.injEq, Spec.SMod.mk.injEq, true_and, and_true]
      funext v
      simp [bindOf, lookupM]
    · cases g.mods t with
      | none => rfl
      | some m =>
        simp only [Option.map_some]
        rw [absMod_congr (g := g) (g' := newSt g sig nm L a) fun _ _ => rfl]
  · rfl
  · rfl
  · rfl

theorem new_cache (hi : Inv g) (hf : g.mods a = none) : CacheOK (newSt g sig nm L a) g.cache := by
  intro k l hl
  obtain ⟨v, hv, hk, hlv, he⟩ := hi.cache k l hl
  refine ⟨v, hv, hk, new_live _ hlv, ?_⟩
  refine ev_congr (fun t => (g.mods t).isSome) ?_ hlv he
  intro t ht
  have hta : t ≠ a := by
    rintro rfl
    simp [hf] at ht
  have hii : (view (newSt g sig nm L a) v).imps t = (view g v).imps t := by
    show importsOf _ t = importsOf g t
    unfold importsOf
    rw [new_mods, if_neg hta]
  refine ⟨hii, ?_⟩
  intro i hi'
  have hres : resolve (newSt g sig nm L a) i = resolve g i := by
    cases i with
    | obj b =>
      have hb : (g.mods b).isSome := by
        change Imp.obj b ∈ importsOf g t at hi'
        unfold importsOf at hi'
        cases hmt : g.mods t with
        | none => rw [hmt] at hi'; simp at hi'
        | some m => rw [hmt] at hi'; exact hi.imp t m b hmt hi'
      simp only [resolve, hb, new_live b hb]
    | name x =>
      simp only [resolve, getStructure]
      change ((Val.sid (match lookup (newSt g sig nm L a) g.names x with
        | none => .nil | some n => ((g.nodes n).map (·.val)).getD .nil)).bind _) = _
      rw [new_lookup hf]
      cases hl : lookup g g.names x with
      | none => rfl
      | some n =>
        dsimp only
        cases hn : g.nodes n with
        | none => rfl
        | some r =>
          simp only [Option.map_some, Option.getD_some]
          cases hr : r.val with
          | struct b =>
            have := hi.ref x n r b hl hn hr
            simp [Val.sid, this, new_live b this]
          | nil => rfl
          | void => rfl
          | obj _ => rfl
  refine ⟨hres, ?_⟩
  intro b hb
  have hlb : (g.mods b).isSome := resolve_live hb
  have hba : b ≠ a := by
    rintro rfl
    simp [hf] at hlb
  refine ⟨hlb, new_lookup hf b v, ?_, fun _ _ => rfl⟩
  show inhOf _ v b = inhOf g v b
  unfold inhOf
  rw [new_mods, if_neg hba]

end New

theorem setMod_newSt (g : St) (sig : List Nat) (nm : Option Nat) (L L' : List Imp) (a : Sid) :
    (newSt g sig nm L a).setMod a ⟨nm, sig, L', [], [], 0, false, false⟩ = newSt g sig nm L' a := by
  unfold newSt St.setMod
  congr 1
  funext x
  dsimp only
  split <;> rfl

theorem mk_ok {g : St} {sig : List Nat} {nm : Option Nat} {hdr : Bool} {a : Sid} {new : Nid}
    {q : St × Out} (hi : Base g) (hf : g.mods a = none) (hn : g.nodes new = none)
    (h : mk g sig nm hdr a new = some q) :
    Base q.1 ∧ (CacheOK g g.cache → CacheOK q.1 q.1.cache) ∧
      Spec.step (abs g) (.mk sig nm hdr a new) = (abs q.1, q.2) := by
  unfold mk at h
  simp only [Spec.step]
  unfold Spec.mk
  have hnew : newMod g sig nm a = newSt g sig nm [] a := rfl
  have habs : Spec.newMod (abs g) sig nm a = abs (newSt g sig nm [] a) := by
    rw [new_abs]; rfl
  rw [hnew] at h
  rw [habs]
  have hB := new_base (sig := sig) (nm := nm) (L := []) hi hf (by simp)
  cases nm with
  | none =>
    simp only [Option.map_some, Option.some.injEq] at h
    simp only [if_true]
    rw [show (newSt g sig none [] a).mods a = some ⟨none, sig, [], [], [], 0, false, false⟩ by
      simp [new_mods]] at h
    cases hdr with
    | false =>
      cases h
      exact ⟨hB, fun hc => new_cache { toBase := hi, cache := hc } hf, rfl⟩
    | true =>
      cases h
      dsimp only
      rw [setMod_newSt]
      refine ⟨new_base hi hf (by simp), fun hc => new_cache { toBase := hi, cache := hc } hf, ?_⟩
      simp only [if_true]
      unfold Spec.addMeta
      rw [abs_mods (show (newSt g sig none [] a).mods a = some ⟨none, sig, [], [], [], 0, false, false⟩ by
        simp [new_mods])]
      dsimp only
      rw [← setMod_newSt g sig none [] [.name g.metaName] a, setMod_abs]
      rfl
  | some x =>
    dsimp only at h
    cases hq : nameStructure (newSt g sig (some x) [] a) a (some x) new with
    | none => rw [hq] at h; cases h
    | some r =>
      rw [hq] at h
      have hno := name_ok hB hn hq (by simp [new_mods])
      simp only [Option.map_some, Option.some.injEq] at h
      have hst : (Spec.nameStructure (abs (newSt g sig (some x) [] a)) a (some x)).1 = abs r.1 := by
        have := hno.2.1
        simp only [Spec.step] at this
        rw [this]
      simp only [reduceCtorEq, if_false]
      rw [hst]
      cases hdr with
      | false =>
        cases h
        exact ⟨hno.1.toBase, fun _ => hno.1.cache, rfl⟩
      | true =>
        simp only [if_true]
        cases hm : r.1.mods a with
        | none =>
          rw [hm] at h
          cases h
          unfold Spec.addMeta
          rw [abs_none hm]
          exact ⟨hno.1.toBase, fun _ => hno.1.cache, rfl⟩
        | some m =>
          rw [hm] at h
          cases h
          unfold Spec.addMeta
          rw [abs_mods hm]
          dsimp only
          refine ⟨setMod_base hno.1.toBase hm rfl ?_, fun _ => ?_, ?_⟩
          · intro b hb
            rcases List.mem_cons.1 hb with e | hb
            · cases e
            · exact hno.1.imp a m b hm hb
          · intro k l hl
            change some l ∈ r.1.cache.sets k at hl
            rw [hno.2.2] at hl
            simp [emptySets] at hl
          · have hmeta : (abs r.1).metaName = g.metaName := by
              rw [← hst]
              have : ∀ G : Spec.SSt, (Spec.nameStructure G a (some x)).1.metaName = G.metaName := by
                intro G
                unfold Spec.nameStructure
                split
                · rfl
                · dsimp only
                  have h1 : (Spec.define G G.names x (.struct a)).1.metaName = G.metaName := by
                    unfold Spec.define
                    split
                    · rfl
                    · split
                      · rfl
                      · unfold Spec.put
                        split
                        · split <;> rfl
                        · rfl
                  rw [← h1]
                  unfold Spec.setName
                  split
                  · rfl
                  · split <;> rfl
              rw [this]
              rfl
            rw [setMod_abs, absMod_eq (m := m) rfl, hmeta]
            rfl

/-! ### The end of the header -/

theorem findSome_filter {f f' : Imp → Option Nid} {i0 : Imp} : ∀ {l : List Imp},
    (∀ i ∈ l, f i = none → f' i = none) →
    (l.findSome? f = none → (l.findSome? f' = none ∧ (delq i0 l).findSome? f' = none)) ∧
      ∀ n, (∀ i ∈ l, f i = some n → f' i = some n) → f i0 ≠ some n → l.findSome? f = some n →
        (l.findSome? f' = some n ∧ (delq i0 l).findSome? f' = some n) := by
  intro l
  induction l with
  | nil => intro _; exact ⟨fun _ => ⟨rfl, rfl⟩, fun n _ _ h => by cases h⟩
  | cons j l ih =>
    intro h0
    have hh := ih (fun i hi => h0 i (List.mem_cons_of_mem _ hi))
    have hd : delq i0 (j :: l) = if j = i0 then delq i0 l else j :: delq i0 l := by
      unfold delq
      rw [List.filter_cons]
      by_cases e : j = i0 <;> simp [e]
    rw [hd]
    constructor
    · intro h
      rw [List.findSome?_cons] at h
      cases hj : f j with
      | some n => rw [hj] at h; cases h
      | none =>
        rw [hj] at h
        have hj' := h0 j (List.mem_cons_self ..) hj
        have := hh.1 h
        refine ⟨by rw [List.findSome?_cons, hj']; exact this.1, ?_⟩
        split
        · exact this.2
        · rw [List.findSome?_cons, hj']; exact this.2
    · intro n h1 hn h
      rw [List.findSome?_cons] at h
      cases hj : f j with
      | some n' =>
        rw [hj] at h
        cases h
        have hj' := h1 j (List.mem_cons_self ..) hj
        have hne : j ≠ i0 := by
          rintro rfl
          exact hn hj
        rw [if_neg hne]
        exact ⟨by rw [List.findSome?_cons, hj'], by rw [List.findSome?_cons, hj']⟩
      | none =>
        rw [hj] at h
        have hj' := h0 j (List.mem_cons_self ..) hj
        have := hh.2 n (fun i hi => h1 i (List.mem_cons_of_mem _ hi)) hn h
        refine ⟨by rw [List.findSome?_cons, hj']; exact this.1, ?_⟩
        split
        · exact this.2
        · rw [List.findSome?_cons, hj']; exact this.2

/-- A search that does not end in what the removed import provides does not change. -/
theorem prov_delq {w w' : View} {i0 : Imp} (ho : ∀ t, w'.own t = w.own t) (he : ∀ n, w'.exp n = w.exp n)
    (hh : ∀ t, w'.inh t = w.inh t) (hr : ∀ i, w'.res i = w.res i)
    (hi : ∀ t, w'.imps t = w.imps t ∨ w'.imps t = delq i0 (w.imps t)) :
    ∀ k i, (prov w k i = none → prov w' k i = none) ∧
      ∀ n, (∀ K, prov w K i0 ≠ some n) → prov w k i = some n → prov w' k i = some n := by
  intro k
  induction k with
  | zero => intro i; exact ⟨fun _ => rfl, fun n _ h => by cases h⟩
  | succ k ih =>
    intro i
    simp only [prov, hr]
    cases w.res i with
    | none => exact ⟨fun _ => rfl, fun n _ h => by cases h⟩
    | some a =>
      dsimp only
      rw [ho, hh]
      cases w.own a with
      | some n => dsimp only; rw [he]; exact ⟨id, fun _ _ h => h⟩
      | none =>
        dsimp only
        cases w.inh a with
        | false => exact ⟨id, fun _ _ h => h⟩
        | true =>
          simp only [if_true]
          have hf := findSome_filter (f := prov w k) (f' := prov w' k) (i0 := i0) (l := w.imps a)
            (fun j _ => (ih j).1)
          constructor
          · intro h
            rcases hi a with e | e <;> rw [e]
            · exact (hf.1 h).1
            · exact (hf.1 h).2
          · intro n hn h
            have := hf.2 n (fun j _ => (ih j).2 n hn) (hn k) h
            rcases hi a with e | e <;> rw [e]
            · exact this.1
            · exact this.2

/-- No cached binding is one that the structure named `%meta` provides. -/
def NoMeta (g : St) : Prop :=
  ∀ k l v K, some l ∈ g.cache.sets k → prov (view g v) K (.name g.metaName) ≠ some l.n

theorem endHeader_ok {g : St} {s : Sid} (hi : Base g) :
    Base (endHeader g s).1 ∧
      (CacheOK g g.cache → NoMeta g → CacheOK (endHeader g s).1 (endHeader g s).1.cache) ∧
      Spec.step (abs g) (.endHeader s) = (abs (endHeader g s).1, (endHeader g s).2) := by
  unfold endHeader
  simp only [Spec.step, Spec.update]
  cases hm : g.mods s with
  | none => rw [abs_none hm]; exact ⟨hi, fun hc _ => hc, rfl⟩
  | some m =>
    rw [abs_mods hm]
    dsimp only
    generalize hm' : ({ m with imports := delq (.name g.metaName) m.imports } : Mod) = m'
    have hbk : m'.buckets = m.buckets := by rw [← hm']
    have himp : m'.imports = delq (.name g.metaName) m.imports := by rw [← hm']
    refine ⟨setMod_base hi hm hbk ?_, fun hc hno => ?_, ?_⟩
    · intro a ha
      rw [himp] at ha
      exact hi.imp s m a hm (List.mem_filter.1 ha).1
    · intro k l hl
      obtain ⟨v, hv, hk, hlv, he⟩ := hc k l hl
      refine ⟨v, hv, hk, (setMod_live hm _).trans hlv, ?_⟩
      have hII : ∀ t, (view (g.setMod s m') v).imps t = (view g v).imps t ∨
          (view (g.setMod s m') v).imps t = delq (.name g.metaName) ((view g v).imps t) := by
        intro t
        change importsOf _ t = importsOf g t ∨ importsOf _ t = delq _ (importsOf g t)
        unfold importsOf
        rw [setMod_mods]
        by_cases e : t = s
        · right; rw [if_pos e, e, hm]; exact himp
        · left; rw [if_neg e]
      have hp := prov_delq (w := view g v) (w' := view (g.setMod s m') v) (i0 := .name g.metaName)
        (fun t => setMod_lookup hm hbk t v) (fun _ => rfl)
        (by
          intro t
          show inhOf _ v t = inhOf g v t
          unfold inhOf
          rw [setMod_mods]
          by_cases e : t = s
          · rw [if_pos e, e, hm, ← hm']; rfl
          · rw [if_neg e])
        (fun i => setMod_res hm hbk i) hII
      have hN : ∀ K, prov (view g v) K (.name g.metaName) ≠ some l.n := fun K => hno k l v K hl
      obtain ⟨K, hK⟩ := he
      refine ⟨K, fun k' hk' => ?_⟩
      have hf := findSome_filter (f := prov (view g v) k') (f' := prov (view (g.setMod s m') v) k')
        (i0 := .name g.metaName) (l := (view g v).imps l.s) (fun j _ => (hp k' j).1)
      have := hf.2 l.n (fun j _ => (hp k' j).2 l.n hN) (hN k') (hK k' hk')
      rcases hII l.s with e | e <;> rw [e]
      · exact this.1
      · exact this.2
    · rw [setMod_abs, absMod_eq hbk, ← hm']
      rfl

/-! ### The garbage collector -/

/-- What is left after the structures in `X` have been freed. -/
structure Swept (g g' : St) (X : List Sid) : Prop where
  mods : ∀ t, g'.mods t = if t ∈ X then none else g.mods t
  kept : ∀ n, (∀ s ∈ X, ∀ m, g.mods s = some m → n ∉ m.buckets.flatten) → g'.nodes n = g.nodes n
  lines : ∀ k l, some l ∈ g'.cache.sets k → some l ∈ g.cache.sets k ∧ (l.s ∈ X → g.mods l.s = none)
  top : g'.top = g.top
  names : g'.names = g.names
  metaName : g'.metaName = g.metaName

theorem invalStruct_mem {g : St} {s k : Nat} {l : Line} (h : some l ∈ (invalStruct s g).cache.sets k) :
    some l ∈ g.cache.sets k ∧ l.s ≠ s := by
  simp only [invalStruct] at h
  obtain ⟨x, hx, he⟩ := List.mem_map.1 h
  cases x with
  | none => cases he
  | some y =>
    simp only [Option.bind_some] at he
    split at he
    · cases he
    · cases he
      exact ⟨hx, by assumption⟩

theorem freeMod_swept (g : St) (s : Sid) : Swept g (freeMod g s) [s] := by
  unfold freeMod
  cases hm : g.mods s with
  | none =>
    dsimp only
    refine ⟨?_, fun _ _ => rfl, ?_, rfl, rfl, rfl⟩
    · intro t
      split
      · rename_i e; rw [List.mem_singleton.1 e, hm]
      · rfl
    · intro k l hl
      exact ⟨hl, fun e => by rw [List.mem_singleton.1 e, hm]⟩
  | some m =>
    dsimp only
    refine ⟨?_, ?_, ?_, rfl, rfl, rfl⟩
    · intro t
      simp only [List.mem_singleton]
    · intro n hn
      have : n ∉ m.buckets.flatten := hn s (by simp) m hm
      simp only [freeNodes, this, if_false]
      rfl
    · intro k l hl
      have := invalStruct_mem (g := g) (s := s) (k := k) (l := l) hl
      exact ⟨this.1, fun e => absurd (List.mem_singleton.1 e) this.2⟩

theorem sweep_swept : ∀ (X : List Sid) (g : St), Swept g (sweep g X) X := by
  intro X
  induction X with
  | nil => intro g; exact ⟨fun t => by simp [sweep], fun _ _ => rfl, fun k l h => ⟨h, by simp⟩, rfl, rfl, rfl⟩
  | cons s X ih =>
    intro g
    have h1 := freeMod_swept g s
    have h2 := ih (freeMod g s)
    simp only [sweep]
    refine ⟨?_, ?_, ?_, h2.top.trans h1.top, h2.names.trans h1.names, h2.metaName.trans h1.metaName⟩
    · intro t
      rw [h2.mods, h1.mods]
      by_cases e : t = s
      · simp [e]
      · by_cases e' : t ∈ X <;> simp [e, e']
    · intro n hn
      rw [h2.kept n, h1.kept n]
      · intro t ht m hm
        exact hn t (by rw [List.mem_singleton.1 ht]; exact List.mem_cons_self ..) m hm
      · intro t ht m hm
        rw [h1.mods] at hm
        split at hm
        · cases hm
        · exact hn t (List.mem_cons_of_mem _ ht) m hm
    · intro k l hl
      obtain ⟨ha, hb⟩ := h2.lines k l hl
      obtain ⟨hc, hd⟩ := h1.lines k l ha
      refine ⟨hc, fun hx => ?_⟩
      rcases List.mem_cons.1 hx with e | hx
      · exact hd (by rw [e]; exact List.mem_singleton.2 rfl)
      · have := hb hx
        rw [h1.mods] at this
        split at this
        · rename_i e; exact hd e
        · exact this

/-- The structures in `X` can no longer be reached: the structure of names stays, no structure
that stays has opened one of them, and none of them has a name. -/
structure Dead (g : St) (X : List Sid) : Prop where
  names : g.names ∉ X
  opened : ∀ t m a, g.mods t = some m → t ∉ X → Imp.obj a ∈ m.imports → a ∉ X
  named : ∀ x n r a, lookup g g.names x = some n → g.nodes n = some r → r.val = .struct a → a ∉ X

theorem prov_reach {w : View} (A : Sid → Prop)
    (h : ∀ t, A t → ∀ i ∈ w.imps t, ∀ b, w.res i = some b → A b) :
    ∀ k t, A t → ∀ i ∈ w.imps t, ∀ n, prov w k i = some n → ∃ b, A b ∧ w.own b = some n := by
  intro k
  induction k with
  | zero => intro t _ i _ n hn; cases hn
  | succ k ih =>
    intro t ht i hi n hn
    simp only [prov] at hn
    cases hr : w.res i with
    | none => rw [hr] at hn; cases hn
    | some a =>
      have hA := h t ht i hi a hr
      rw [hr] at hn
      dsimp only at hn
      cases ho : w.own a with
      | some n' =>
        rw [ho] at hn
        dsimp only at hn
        split at hn
        · cases hn; exact ⟨a, hA, ho⟩
        · cases hn
      | none =>
        rw [ho] at hn
        dsimp only at hn
        split at hn
        · obtain ⟨j, hj, hjn⟩ := List.exists_of_findSome?_eq_some hn
          exact ih a hA j hj n hjn
        · cases hn

theorem sweep_ok {g : St} {X : List Sid} (hi : Base g) (hd : Dead g X) :
    Base (sweep g X) ∧ (CacheOK g g.cache → CacheOK (sweep g X) (sweep g X).cache) ∧
      Spec.step (abs g) (.sweep X) = (abs (sweep g X), .done) := by
  have hw := sweep_swept X g
  generalize sweep g X = g' at hw
  have hkeep : ∀ t m n, g.mods t = some m → t ∉ X → n ∈ m.buckets.flatten → g'.nodes n = g.nodes n := by
    intro t m n hm ht hn
    refine hw.kept n ?_
    intro s hs ms hms hns
    have := hi.dis t s m ms n hm hms hn hns
    exact ht (by rw [this]; exact hs)
  have hmods : ∀ t m, g'.mods t = some m → t ∉ X ∧ g.mods t = some m := by
    intro t m hm
    rw [hw.mods] at hm
    split at hm
    · cases hm
    · exact ⟨by assumption, hm⟩
  have hmods' : ∀ t, t ∉ X → g'.mods t = g.mods t := by
    intro t ht
    rw [hw.mods, if_neg ht]
  have hlk : ∀ t v, t ∉ X → lookup g' t v = lookup g t v := by
    intro t v ht
    unfold lookup
    rw [hmods' t ht]
    cases hm : g.mods t with
    | none => rfl
    | some m => exact lookupM_congr (fun n hn => symOf_congr (hkeep t m n hm ht hn)) v
  have hlive : ∀ t, t ∉ X → (g'.mods t).isSome = (g.mods t).isSome := by
    intro t ht; rw [hmods' t ht]
  have hB : Base g' := by
    refine ⟨?_, ?_, ?_, ?_, ?_, ?_⟩
    · intro t m hm
      obtain ⟨ht, hm⟩ := hmods t m hm
      exact (hi.tab t m hm).congr fun n hn => symOf_congr (hkeep t m n hm ht hn)
    · intro t t' m m' n hm hm'
      exact hi.dis t t' m m' n (hmods t m hm).2 (hmods t' m' hm').2
    · intro t ht
      rw [hw.top]
      obtain ⟨m, hm⟩ := Option.isSome_iff_exists.1 ht
      exact hi.lt t (by rw [(hmods t m hm).2]; rfl)
    · rw [hw.names, hlive _ hd.names]; exact hi.nam
    · intro t m a hm ha
      obtain ⟨ht, hm⟩ := hmods t m hm
      rw [hlive a (hd.opened t m a hm ht ha)]
      exact hi.imp t m a hm ha
    · intro x n r a hl hr hv
      rw [hw.names, hlk _ _ hd.names] at hl
      obtain ⟨mn, hmn⟩ := Option.isSome_iff_exists.1 hi.nam
      have : g'.nodes n = g.nodes n := by
        rw [lookup_eq hmn] at hl
        exact hkeep g.names mn n hmn hd.names (lookupM_mem hl)
      rw [this] at hr
      rw [hlive a (hd.named x n r a hl hr hv)]
      exact hi.ref x n r a hl hr hv
  refine ⟨hB, fun hc => ?_, ?_⟩
  · intro k l hl
    obtain ⟨h1, h2⟩ := hw.lines k l hl
    obtain ⟨v, hv, hk, hlv, he⟩ := hc k l h1
    have hlX : l.s ∉ X := by
      intro hx
      rw [h2 hx] at hlv
      cases hlv
    have hreach : ∀ t, t ∉ X → ∀ i ∈ (view g v).imps t, ∀ b, (view g v).res i = some b → b ∉ X := by
      intro t ht i hii b hb
      cases i with
      | obj a =>
        change resolve g (.obj a) = some b at hb
        simp only [resolve] at hb
        split at hb
        · cases hb
          change Imp.obj b ∈ importsOf g t at hii
          unfold importsOf at hii
          cases hmt : g.mods t with
          | none => rw [hmt] at hii; simp at hii
          | some m => rw [hmt] at hii; exact hd.opened t m b hmt ht hii
        · cases hb
      | name x =>
        change resolve g (.name x) = some b at hb
        simp only [resolve, getStructure] at hb
        cases hl : lookup g g.names x with
        | none => rw [hl] at hb; simp [Val.sid] at hb
        | some n =>
          rw [hl] at hb
          cases hn : g.nodes n with
          | none => simp [hn, Val.sid] at hb
          | some r =>
            simp only [hn, Option.map_some, Option.getD_some] at hb
            cases hr : r.val with
            | struct a =>
              rw [hr] at hb
              simp only [Val.sid, Option.bind_some] at hb
              split at hb
              · cases hb; exact hd.named x n r _ hl hn hr
              · cases hb
            | nil => rw [hr] at hb; simp [Val.sid] at hb
            | void => rw [hr] at hb; simp [Val.sid] at hb
            | obj _ => rw [hr] at hb; simp [Val.sid] at hb
    have hsym : symOf g' l.n = some v := by
      obtain ⟨K, hK⟩ := he
      obtain ⟨i, hii, hin⟩ := List.exists_of_findSome?_eq_some (hK K (Nat.le_refl _))
      obtain ⟨b, hb, hob⟩ := prov_reach (fun t => t ∉ X) hreach K l.s hlX i hii l.n hin
      change lookup g b v = some l.n at hob
      cases hmb : g.mods b with
      | none => simp [lookup, hmb] at hob
      | some m =>
        rw [lookup_eq hmb] at hob
        rw [symOf_congr (hkeep b m l.n hmb hb (lookupM_mem hob))]
        exact hv
    refine ⟨v, hsym, hk, by rw [hlive _ hlX]; exact hlv, ?_⟩
    refine ev_congr (fun t => t ∉ X) ?_ hlX he
    intro t ht
    refine ⟨?_, ?_⟩
    · show importsOf g' t = importsOf g t
      unfold importsOf
      rw [hmods' t ht]
    · intro i hii
      have hres : resolve g' i = resolve g i := by
        cases i with
        | obj a =>
          have : a ∉ X := by
            change Imp.obj a ∈ importsOf g t at hii
            unfold importsOf at hii
            cases hmt : g.mods t with
            | none => rw [hmt] at hii; simp at hii
            | some m => rw [hmt] at hii; exact hd.opened t m a hmt ht hii
          simp only [resolve, hlive a this]
        | name x =>
          simp only [resolve, getStructure, hw.names, hlk _ _ hd.names]
          cases hl : lookup g g.names x with
          | none => rfl
          | some n =>
            obtain ⟨mn, hmn⟩ := Option.isSome_iff_exists.1 hi.nam
            have hnn : g'.nodes n = g.nodes n := by
              have hl' := hl
              rw [lookup_eq hmn] at hl'
              exact hkeep g.names mn n hmn hd.names (lookupM_mem hl')
            simp only [hnn]
            cases hn : g.nodes n with
            | none => rfl
            | some r =>
              simp only [Option.map_some, Option.getD_some]
              cases hr : r.val with
              | struct a => simp only [Val.sid, Option.bind_some, hlive a (hd.named x n r a hl hn hr)]
              | nil => rfl
              | void => rfl
              | obj _ => rfl
      refine ⟨hres, ?_⟩
      intro b hb
      have hbX := hreach t ht i hii b hb
      refine ⟨hbX, hlk b v hbX, ?_, ?_⟩
      · show inhOf g' v b = inhOf g v b
        unfold inhOf
        rw [hmods' b hbX]
      · intro n hn
        change lookup g b v = some n at hn
        show exportedN g' n = exportedN g n
        cases hmb : g.mods b with
        | none => simp [lookup, hmb] at hn
        | some m =>
          rw [lookup_eq hmb] at hn
          simp only [exportedN, hkeep b m n hmb hbX (lookupM_mem hn)]
  · simp only [Spec.step]
    congr 1
    ext1
    · funext t
      show (if t ∈ X then none else (abs g).mods t) = (g'.mods t).map (absMod g')
      rw [hw.mods]
      split
      · rfl
      · rename_i ht
        simp only [abs]
        cases hm : g.mods t with
        | none => rfl
        | some m =>
          simp only [Option.map_some]
          rw [absMod_congr fun n hn => hkeep t m n hm ht hn]
    · exact hw.top.symm
    · exact hw.names.symm
    · exact hw.metaName.symm

end Rep.Mods
