import Verif.Modules.Table

/-
The search through the opened structures: with the cache it finds what it would find without.
-/

namespace Rep.Mods

/-- What the search for one symbol looks at. -/
structure View where
  own : Sid → Option Nid
  exp : Nid → Bool
  inh : Sid → Bool
  imps : Sid → List Imp
  res : Imp → Option Sid

def view (g : St) (v : Nat) : View :=
  ⟨fun s => lookup g s v, exportedN g, inhOf g v, importsOf g, resolve g⟩

/-- The search without cache and without exclusion, to depth `k`. -/
def prov (w : View) : Nat → Imp → Option Nid
  | 0, _ => none
  | k + 1, i =>
    match w.res i with
    | none => none
    | some a =>
      match w.own a with
      | some n => if w.exp n then some n else none
      | none => if w.inh a then (w.imps a).findSome? (prov w k) else none

/-- A search from `s` through its imports gives `n`, however deep we look from some depth on. -/
def Ev (w : View) (s : Sid) (n : Nid) : Prop :=
  ∃ K, ∀ k, K ≤ k → (w.imps s).findSome? (prov w k) = some n

/-- The structures that pass the symbol on do not open each other in a circle. -/
def Ranked (w : View) (rank : Sid → Nat) : Prop :=
  ∀ s i b, i ∈ w.imps s → w.res i = some b → w.own b = none → w.inh b = true → rank b < rank s

def Acyc (w : View) : Prop := ∃ rank, Ranked w rank

theorem prov_stable {w : View} {rank : Sid → Nat} (hr : Ranked w rank) : ∀ (r : Nat) (i : Imp),
    (∀ b, w.res i = some b → w.own b = none → w.inh b = true → rank b < r) →
    ∀ k k', r + 1 ≤ k → r + 1 ≤ k' → prov w k i = prov w k' i := by
  intro r
  induction r with
  | zero =>
    intro i hi k k' hk hk'
    obtain ⟨k, rfl⟩ : ∃ j, k = j + 1 := ⟨k - 1, by omega⟩
    obtain ⟨k', rfl⟩ : ∃ j, k' = j + 1 := ⟨k' - 1, by omega⟩
    simp only [prov]
    cases ha : w.res i with
    | none => rfl
    | some a =>
      dsimp only
      cases ho : w.own a with
      | some n => rfl
      | none =>
        dsimp only
        cases hh : w.inh a with
        | false => rfl
        | true => exact absurd (hi a ha ho hh) (Nat.not_lt_zero _)
  | succ r ih =>
    intro i hi k k' hk hk'
    obtain ⟨k, rfl⟩ : ∃ j, k = j + 1 := ⟨k - 1, by omega⟩
    obtain ⟨k', rfl⟩ : ∃ j, k' = j + 1 := ⟨k' - 1, by omega⟩
    simp only [prov]
    cases ha : w.res i with
    | none => rfl
    | some a =>
      dsimp only
      cases ho : w.own a with
      | some n => rfl
      | none =>
        dsimp only
        cases hh : w.inh a with
        | false => rfl
        | true =>
          have hlt := hi a ha ho hh
          simp only [if_true]
          have : ∀ l : List Imp, (∀ j ∈ l, j ∈ w.imps a) →
              l.findSome? (prov w k) = l.findSome? (prov w k') := by
            intro l
            induction l with
            | nil => intro _; rfl
            | cons j l ihl =>
              intro hl
              have hj := ih j (fun b hb h1 h2 => by
                have := hr a j b (hl j (List.mem_cons_self ..)) hb h1 h2
                omega) k k' (by omega) (by omega)
              rw [List.findSome?_cons, List.findSome?_cons, hj,
                ihl (fun x hx => hl x (List.mem_cons_of_mem _ hx))]
          exact this _ (fun _ h => h)

theorem findSome_congr {α β : Type} {f g : α → Option β} {l : List α} (h : ∀ x ∈ l, f x = g x) :
    l.findSome? f = l.findSome? g := by
  induction l with
  | nil => rfl
  | cons a l ih =>
    rw [List.findSome?_cons, List.findSome?_cons, h a (List.mem_cons_self ..),
      ih (fun x hx => h x (List.mem_cons_of_mem _ hx))]

/-- The depth at which the search for `i` is complete. -/
def depth (w : View) (rank : Sid → Nat) (i : Imp) : Nat :=
  match w.res i with
  | none => 1
  | some b => rank b + 2

/-- What import `i` provides. -/
def P (w : View) (rank : Sid → Nat) (i : Imp) : Option Nid := prov w (depth w rank i) i

theorem prov_eq_P {w : View} {rank : Sid → Nat} (hr : Ranked w rank) {i : Imp} {k : Nat} (r : Nat)
    (hi : ∀ b, w.res i = some b → w.own b = none → w.inh b = true → rank b < r) (hk : r + 1 ≤ k) :
    prov w k i = P w rank i := by
  unfold P depth
  cases ha : w.res i with
  | none =>
    obtain ⟨k, rfl⟩ : ∃ j, k = j + 1 := ⟨k - 1, by omega⟩
    simp [prov, ha]
  | some a =>
    dsimp only
    rw [prov_stable hr r i hi k (max k (rank a + 2)) hk (by omega)]
    refine prov_stable hr (rank a + 1) i ?_ _ _ (by omega) (by omega)
    intro b hb _ _
    rw [ha] at hb
    cases hb
    omega

theorem imps_P {w : View} {rank : Sid → Nat} (hr : Ranked w rank) {s : Sid} {k : Nat}
    (hk : rank s + 1 ≤ k) : (w.imps s).findSome? (prov w k) = (w.imps s).findSome? (P w rank) :=
  findSome_congr fun i hi => prov_eq_P hr (rank s) (fun b hb h1 h2 => hr s i b hi hb h1 h2) hk

theorem ev_iff {w : View} {rank : Sid → Nat} (hr : Ranked w rank) {s : Sid} {n : Nid} :
    Ev w s n ↔ (w.imps s).findSome? (P w rank) = some n := by
  constructor
  · rintro ⟨K, hK⟩
    rw [← imps_P hr (k := max K (rank s + 1)) (by omega)]
    exact hK _ (by omega)
  · intro h
    exact ⟨rank s + 1, fun k hk => by rw [imps_P hr hk]; exact h⟩

theorem P_eq {w : View} {rank : Sid → Nat} (hr : Ranked w rank) (i : Imp) :
    P w rank i =
      match w.res i with
      | none => none
      | some a =>
        match w.own a with
        | some n => if w.exp n then some n else none
        | none => if w.inh a then (w.imps a).findSome? (P w rank) else none := by
  cases ha : w.res i with
  | none => simp [P, depth, prov, ha]
  | some a =>
    have hd : P w rank i = prov w (rank a + 1 + 1) i := by simp [P, depth, ha]
    rw [hd, prov, ha]
    dsimp only
    rw [imps_P hr (Nat.le_refl _)]

/-! ### The cache -/

/-- Every line holds a live node of the symbol of its set, and it is what a search would find. -/
def CacheOK (g : St) (c : Cache) : Prop :=
  ∀ k l, some l ∈ c.sets k → ∃ v, symOf g l.n = some v ∧ cacheHash v = k ∧
    (g.mods l.s).isSome ∧ Ev (view g v) l.s l.n

theorem scanSet_some {g : St} {s : Sid} {v : Nat} {L : List (Option Line)} {n : Nid}
    (h : (scanSet g s v L).1 = some n) :
    ∃ l, some l ∈ L ∧ l.s = s ∧ l.n = n ∧ symOf g n = some v := by
  induction L with
  | nil => simp [scanSet] at h
  | cons a L ih =>
    cases a with
    | none =>
      simp only [scanSet] at h
      obtain ⟨l, h1, h2⟩ := ih h
      exact ⟨l, List.mem_cons_of_mem _ h1, h2⟩
    | some l =>
      simp only [scanSet] at h
      split at h
      · rename_i hh
        simp only [hits, Bool.and_eq_true, decide_eq_true_eq] at hh
        cases h
        exact ⟨l, List.mem_cons_self .., hh.1, rfl, hh.2⟩
      · obtain ⟨l', h1, h2⟩ := ih h
        exact ⟨l', List.mem_cons_of_mem _ h1, h2⟩

theorem scanSet_mem {g : St} {s : Sid} {v : Nat} {L : List (Option Line)} {l : Line}
    (h : some l ∈ (scanSet g s v L).2) : ∃ l', some l' ∈ L ∧ l'.s = l.s ∧ l'.n = l.n := by
  induction L with
  | nil => simp [scanSet] at h
  | cons a L ih =>
    cases a with
    | none =>
      simp only [scanSet] at h
      rcases List.mem_cons.1 h with h | h
      · cases h
      · obtain ⟨l', h1, h2⟩ := ih h
        exact ⟨l', List.mem_cons_of_mem _ h1, h2⟩
    | some x =>
      simp only [scanSet] at h
      split at h
      · rcases List.mem_cons.1 h with h | h
        · cases h
          exact ⟨x, List.mem_cons_self .., rfl, rfl⟩
        · exact ⟨l, List.mem_cons_of_mem _ h, rfl, rfl⟩
      · rcases List.mem_cons.1 h with h | h
        · cases h
          exact ⟨l, List.mem_cons_self .., rfl, rfl⟩
        · obtain ⟨l', h1, h2⟩ := ih h
          exact ⟨l', List.mem_cons_of_mem _ h1, h2⟩

theorem CacheOK.lookup {g : St} {s : Sid} {v : Nat} {c : Cache} (h : CacheOK g c) :
    CacheOK g (lookupCache g s v c).2 := by
  intro k l hl
  simp only [lookupCache] at hl
  split at hl
  · rename_i e
    subst e
    obtain ⟨l', h1, h2, h3⟩ := scanSet_mem hl
    obtain ⟨w, hw⟩ := h _ l' h1
    rw [h2, h3] at hw
    exact ⟨w, hw⟩
  · exact h k l hl

theorem CacheOK.hit {g : St} {s : Sid} {v : Nat} {c : Cache} (h : CacheOK g c) {n : Nid}
    (hn : (lookupCache g s v c).1 = some n) : symOf g n = some v ∧ Ev (view g v) s n := by
  obtain ⟨l, h1, h2, h3, h4⟩ := scanSet_some (show (scanSet g s v (c.sets (cacheHash v))).1 = some n from hn)
  obtain ⟨w, hw, _, _, he⟩ := h _ l h1
  rw [h3, h4] at hw
  cases hw
  rw [h2, h3] at he
  exact ⟨h4, he⟩

theorem CacheOK.enter {g : St} {s : Sid} {v : Nat} {c : Cache} (h : CacheOK g c) {n : Nid}
    (hv : symOf g n = some v) (hs : (g.mods s).isSome) (he : Ev (view g v) s n) :
    CacheOK g (enterCache v s n c) := by
  intro k l hl
  simp only [enterCache] at hl
  split at hl
  · rename_i e
    rcases List.mem_or_eq_of_mem_set hl with h1 | h1
    · subst e
      exact h _ l h1
    · cases h1
      exact ⟨v, hv, e.symm, hs, he⟩
  · exact h k l hl

theorem lookup_sym {g : St} {a : Sid} {v : Nat} {n : Nid} (h : lookup g a v = some n) :
    symOf g n = some v := by
  unfold lookup at h
  split at h
  · cases h
  · unfold lookupM at h
    split at h
    · cases h
    · exact (chainFind_some h).2

theorem prov_sym {g : St} {v : Nat} : ∀ {k : Nat} {i : Imp} {n : Nid},
    prov (view g v) k i = some n → symOf g n = some v := by
  intro k
  induction k with
  | zero => intro i n h; cases h
  | succ k ih =>
    intro i n h
    simp only [prov] at h
    split at h
    · cases h
    · split at h
      · rename_i n' hn'
        split at h
        · cases h; exact lookup_sym hn'
        · cases h
      · split at h
        · obtain ⟨j, _, hj⟩ := List.exists_of_findSome?_eq_some h
          exact ih hj
        · cases h

theorem nodup_bound {top : Nat} : ∀ {l : List Nat}, l.Nodup → (∀ x ∈ l, x < top) → l.length ≤ top := by
  induction top with
  | zero =>
    intro l _ h
    cases l with
    | nil => simp
    | cons a l => exact absurd (h a (List.mem_cons_self ..)) (Nat.not_lt_zero _)
  | succ t ih =>
    intro l hl h
    have h1 := ih (hl.erase t) (fun x hx => by
      have := h x (List.mem_of_mem_erase hx)
      have hne : x ≠ t := ((hl.mem_erase_iff).1 hx).1
      omega)
    have := List.length_erase (a := t) (l := l)
    split at this <;> omega

/-- The structures on the way down: different ones, all of which pass the symbol on, with
falling rank. -/
structure Way (g : St) (v : Nat) (rank : Sid → Nat) (f : Nat) (ex : List Sid) (i : Imp) : Prop where
  nd : ex.Nodup
  lt : ∀ x ∈ ex, x < g.top
  fuel : f + ex.length = g.top + 1
  desc : ∀ b, resolve g i = some b → lookup g b v = none → inhOf g v b = true →
    ∀ x ∈ ex, rank b < rank x
  pass : ∀ x ∈ ex, lookup g x v = none ∧ inhOf g v x = true

theorem Way.down {g : St} {v : Nat} {rank : Sid → Nat} (hr : Ranked (view g v) rank)
    (hlt : ∀ s, (g.mods s).isSome → s < g.top) {f : Nat} {ex : List Sid} {i : Imp}
    (hw : Way g v rank (f + 1) ex i) {a : Sid} (ha : resolve g i = some a)
    (hm : (g.mods a).isSome) (ho : lookup g a v = none) (hh : inhOf g v a = true) {j : Imp}
    (hj : j ∈ importsOf g a) : a ∉ ex ∧ Way g v rank f (a :: ex) j := by
  have hd := hw.desc a ha ho hh
  have hna : a ∉ ex := fun h => absurd (hd a h) (Nat.lt_irrefl _)
  refine ⟨hna, ⟨List.nodup_cons.2 ⟨hna, hw.nd⟩, ?_, ?_, ?_, ?_⟩⟩
  · intro x hx
    rcases List.mem_cons.1 hx with rfl | hx
    · exact hlt x hm
    · exact hw.lt x hx
  · have := hw.fuel
    simp only [List.length_cons]
    omega
  · intro b hb h1 h2 x hx
    have := hr a j b hj hb h1 h2
    rcases List.mem_cons.1 hx with rfl | hx
    · exact this
    · exact Nat.lt_trans this (hd x hx)
  · intro x hx
    rcases List.mem_cons.1 hx with rfl | hx
    · exact ⟨ho, hh⟩
    · exact hw.pass x hx

theorem Way.fuel_pos {g : St} {v : Nat} {rank : Sid → Nat} {f : Nat} {ex : List Sid} {i : Imp}
    (hw : Way g v rank f ex i) : f ≠ 0 := by
  intro h
  have := nodup_bound hw.nd hw.lt
  have := hw.fuel
  omega

theorem resolve_live {g : St} {i : Imp} {a : Sid} (h : resolve g i = some a) : (g.mods a).isSome := by
  cases i with
  | obj s =>
    simp only [resolve] at h
    split at h
    · cases h; assumption
    · cases h
  | name x =>
    simp only [resolve] at h
    obtain ⟨s, _, h⟩ := Option.bind_eq_some_iff.1 h
    split at h
    · cases h; assumption
    · cases h

theorem firstOf_ok {f : Imp → Cache → Option Nid × Cache} {Q : Imp → Option Nid}
    {I : Cache → Prop} : ∀ (l : List Imp) (c : Cache), I c →
    (∀ i ∈ l, ∀ c, I c → (f i c).1 = Q i ∧ I (f i c).2) →
    (firstOf f l c).1 = l.findSome? Q ∧ I (firstOf f l c).2 := by
  intro l
  induction l with
  | nil => intro c hc _; exact ⟨rfl, hc⟩
  | cons i l ih =>
    intro c hc h
    obtain ⟨h1, h2⟩ := h i (List.mem_cons_self ..) c hc
    simp only [firstOf]
    rw [List.findSome?_cons, ← h1]
    cases hf : f i c with
    | mk r c' =>
      rw [hf] at h2
      cases r with
      | some n => exact ⟨rfl, h2⟩
      | none => exact ih c' h2 (fun x hx => h x (List.mem_cons_of_mem _ hx))

/-- The search with the cache finds what the search without it finds, and leaves the cache
right. -/
theorem lookupRec_ok {g : St} {v : Nat} {rank : Sid → Nat} (hr : Ranked (view g v) rank)
    (hlt : ∀ s, (g.mods s).isSome → s < g.top) : ∀ (f : Nat) (ex : List Sid) (i : Imp) (c : Cache),
    Way g v rank f ex i → CacheOK g c →
    (lookupRec g v f ex i c).1 = P (view g v) rank i ∧ CacheOK g (lookupRec g v f ex i c).2 := by
  intro f
  induction f with
  | zero => intro ex i c hw; exact absurd rfl hw.fuel_pos
  | succ f ih =>
    intro ex i c hw hc
    rw [P_eq hr]
    simp only [lookupRec]
    change _ = (match resolve g i with | none => _ | some a => _) ∧ _
    cases ha : resolve g i with
    | none => exact ⟨rfl, hc⟩
    | some a =>
      have hm := resolve_live ha
      dsimp only
      change _ = (match lookup g a v with | some n => _ | none => _) ∧ _
      have hres : (lookupIn g v (lookupRec g v f (a :: ex)) a c).1 =
          (match lookup g a v with
            | some n => if (view g v).exp n then some n else none
            | none => if (view g v).inh a then ((view g v).imps a).findSome? (P (view g v) rank) else none)
          ∧ CacheOK g (lookupIn g v (lookupRec g v f (a :: ex)) a c).2 := by
        unfold lookupIn
        cases ho : lookup g a v with
        | some n =>
          dsimp only
          have e : (view g v).exp n = exportedN g n := rfl
          rw [e]
          split <;> exact ⟨rfl, hc⟩
        | none =>
          dsimp only
          have e : (view g v).inh a = inhOf g v a := rfl
          rw [e]
          split
          · rename_i hh
            unfold searchImports
            have hcl := hc.lookup (s := a) (v := v)
            cases hlc : lookupCache g a v c with
            | mk r c' =>
              rw [hlc] at hcl
              cases r with
              | some n =>
                have := hc.hit (s := a) (v := v) (n := n) (by rw [hlc])
                exact ⟨((ev_iff hr).1 this.2).symm, hcl⟩
              | none =>
                dsimp only
                have hfo := firstOf_ok (I := CacheOK g) (Q := P (view g v) rank)
                  (f := lookupRec g v f (a :: ex)) (importsOf g a) c' hcl
                  (fun j hj c hc => ih (a :: ex) j c (hw.down hr hlt ha hm ho hh hj).2 hc)
                cases hf : firstOf (lookupRec g v f (a :: ex)) (importsOf g a) c' with
                | mk r c'' =>
                  rw [hf] at hfo
                  cases r with
                  | none => exact hfo
                  | some n =>
                    have he : Ev (view g v) a n := (ev_iff hr).2 hfo.1.symm
                    refine ⟨hfo.1, hfo.2.enter ?_ hm he⟩
                    obtain ⟨K, hK⟩ := he
                    obtain ⟨j, _, hj⟩ := List.exists_of_findSome?_eq_some (hK K (Nat.le_refl _))
                    exact prov_sym hj
          · exact ⟨rfl, hc⟩
      by_cases hin : a ∈ ex
      · have hp := hw.pass a hin
        exact absurd (hw.desc a ha hp.1 hp.2 a hin) (Nat.lt_irrefl _)
      · rw [if_neg hin]
        exact hres

/-- Depth `top + 1` is enough for the search without cache. -/
theorem prov_way {g : St} {v : Nat} {rank : Sid → Nat} (hr : Ranked (view g v) rank)
    (hlt : ∀ s, (g.mods s).isSome → s < g.top) : ∀ (f : Nat) (ex : List Sid) (i : Imp),
    Way g v rank f ex i → prov (view g v) f i = P (view g v) rank i := by
  intro f
  induction f with
  | zero => intro ex i hw; exact absurd rfl hw.fuel_pos
  | succ f ih =>
    intro ex i hw
    rw [P_eq hr]
    simp only [prov]
    cases ha : (view g v).res i with
    | none => rfl
    | some a =>
      dsimp only
      cases ho : (view g v).own a with
      | some n => rfl
      | none =>
        dsimp only
        split
        · rename_i hh
          exact findSome_congr fun j hj =>
            ih (a :: ex) j (hw.down hr hlt ha (resolve_live ha) ho hh hj).2
        · rfl

theorem way_nil (g : St) (v : Nat) (rank : Sid → Nat) (i : Imp) :
    Way g v rank (g.top + 1) [] i :=
  ⟨List.nodup_nil, by simp, by simp, by simp, by simp⟩

/-- `rep_search_imports` finds what the plain search finds. -/
theorem search_ok {g : St} {v : Nat} (ha : Acyc (view g v))
    (hlt : ∀ s, (g.mods s).isSome → s < g.top) {s : Sid} (hs : (g.mods s).isSome)
    (hc : CacheOK g g.cache) :
    (search g s v).1 = (importsOf g s).findSome? (prov (view g v) (g.top + 1)) ∧
      CacheOK g (search g s v).2.cache := by
  obtain ⟨rank, hr⟩ := ha
  have hP : (importsOf g s).findSome? (prov (view g v) (g.top + 1)) =
      (importsOf g s).findSome? (P (view g v) rank) :=
    findSome_congr fun i _ => prov_way hr hlt _ _ i (way_nil g v rank i)
  rw [hP]
  unfold search searchImports
  dsimp only
  have hcl := hc.lookup (s := s) (v := v)
  cases hlc : lookupCache g s v g.cache with
  | mk r c' =>
    rw [hlc] at hcl
    cases r with
    | some n =>
      have := hc.hit (s := s) (v := v) (n := n) (by rw [hlc])
      exact ⟨((ev_iff hr).1 this.2).symm, hcl⟩
    | none =>
      dsimp only
      have hfo := firstOf_ok (I := CacheOK g) (Q := P (view g v) rank)
        (f := lookupRec g v (g.top + 1) []) (importsOf g s) c' hcl
        (fun j _ c hc => lookupRec_ok hr hlt _ _ j c (way_nil g v rank j) hc)
      cases hf : firstOf (lookupRec g v (g.top + 1) []) (importsOf g s) c' with
      | mk r c'' =>
        rw [hf] at hfo
        cases r with
        | none => exact hfo
        | some n =>
          have he : Ev (view g v) s n := (ev_iff hr).2 hfo.1.symm
          refine ⟨hfo.1, hfo.2.enter ?_ hs he⟩
          obtain ⟨K, hK⟩ := he
          obtain ⟨j, _, hj⟩ := List.exists_of_findSome?_eq_some (hK K (Nat.le_refl _))
          exact prov_sym hj

end Rep.Mods
