/-
The logical effects of the operations on pages: removing and adding a pair, and splitting
a page.
-/
import Verif.Sdbm.DbInv
import Verif.Sdbm.MapSpec

namespace Rep.Sdbm

/-- One page changed. -/
def setPage (pg : Nat → List Pair) (b : Nat) (l : List Pair) : Nat → List Pair := fun i => if i = b then l else pg i

theorem lookup_isNone {l : List Pair} {k : Bytes} : lookup l k = none ↔ ∀ kv ∈ l, kv.1 ≠ k := by
  unfold lookup
  rw [Option.map_eq_none_iff, List.find?_eq_none]
  constructor <;> intro h x hx <;> simpa using h x hx

theorem lookup_any {l : List Pair} {k : Bytes} : (l.any fun kv => kv.1 == k) = true ↔ lookup l k ≠ none := by
  rw [Ne, lookup_isNone, List.any_eq_true]
  push Not
  constructor
  · rintro ⟨x, hx, e⟩; exact ⟨x, hx, by simpa using e⟩
  · rintro ⟨x, hx, e⟩; exact ⟨x, hx, by simpa using e⟩

theorem lookup_cons (kv : Pair) (l : List Pair) (k : Bytes) :
    lookup (kv :: l) k = if kv.1 = k then some kv.2 else lookup l k := by
  unfold lookup
  rw [List.find?_cons]
  by_cases e : kv.1 = k
  · simp [e]
  · have : (kv.1 == k) = false := by simpa using e
    simp [this, e]

theorem lookup_put {l : List Pair} {k v : Bytes} (hno : lookup l k = none) (k' : Bytes) :
    lookup (l ++ [(k, v)]) k' = if k' = k then some v else lookup l k' := by
  rw [lookup_isNone] at hno
  induction l with
  | nil => rw [List.nil_append, lookup_cons]; simp only [eq_comm]
  | cons kv l ih =>
    rw [List.cons_append, lookup_cons, lookup_cons, ih (fun x hx => hno x (List.mem_cons_of_mem _ hx))]
    have := hno kv (by simp)
    by_cases e : kv.1 = k'
    · rw [if_pos e, if_pos e, if_neg]; rintro rfl; exact this e
    · rw [if_neg e, if_neg e]

theorem lookup_erase {l : List Pair} (hn : (l.map Prod.fst).Nodup) (k k' : Bytes) :
    lookup (l.eraseP fun kv => kv.1 == k) k' = if k' = k then none else lookup l k' := by
  induction l with
  | nil => simp [lookup]
  | cons kv l ih =>
    rw [List.map_cons, List.nodup_cons] at hn
    rw [List.eraseP_cons]
    by_cases e : kv.1 = k
    · simp only [e, beq_self_eq_true, cond_true]
      rw [lookup_cons]
      by_cases e' : k' = k
      · subst e'
        rw [if_pos rfl, lookup_isNone]
        intro x hx hxe
        exact hn.1 (by rw [e, ← hxe]; exact List.mem_map_of_mem hx)
      · rw [if_neg e', if_neg (by rw [e]; exact fun h => e' h.symm)]
    · have : (kv.1 == k) = false := by simpa using e
      simp only [this, cond_false]
      rw [lookup_cons, lookup_cons, ih hn.2]
      by_cases e' : kv.1 = k'
      · rw [if_pos e', if_pos e', if_neg]; rintro rfl; exact e e'
      · rw [if_neg e', if_neg e']

theorem lookup_filter (l : List Pair) (q : Bytes → Bool) (k : Bytes) (hq : q k = true) :
    lookup (l.filter fun kv => q kv.1) k = lookup l k := by
  induction l with
  | nil => rfl
  | cons kv l ih =>
    rw [List.filter_cons]
    by_cases e : q kv.1 = true
    · rw [if_pos e, lookup_cons, lookup_cons, ih]
    · rw [if_neg e, lookup_cons, if_neg, ih]
      rintro rfl; exact e hq

theorem lookup_mem {l : List Pair} {k v : Bytes} (h : lookup l k = some v) : (k, v) ∈ l := by
  induction l with
  | nil => simp [lookup] at h
  | cons kv l ih =>
    rw [lookup_cons] at h
    split at h
    · rename_i e
      cases h
      subst e
      simp
    · exact List.mem_cons_of_mem _ (ih h)

theorem mem_lookup {l : List Pair} (hn : (l.map Prod.fst).Nodup) {kv : Pair} (h : kv ∈ l) : lookup l kv.1 = some kv.2 := by
  induction l with
  | nil => simp at h
  | cons x l ih =>
    rw [List.map_cons, List.nodup_cons] at hn
    rw [lookup_cons]
    rcases List.mem_cons.mp h with rfl | h
    · simp
    · rw [if_neg, ih hn.2 h]
      intro e
      exact hn.1 (by rw [e]; exact List.mem_map_of_mem h)

theorem room_erase (l : List Pair) (q : Pair → Bool) : room (l.eraseP q) ≤ room l := by
  have hb : ∀ m : List Pair, (body (m.eraseP q)).length ≤ (body m).length := by
    intro m
    induction m with
    | nil => simp
    | cons kv m ih =>
      rw [List.eraseP_cons]
      cases q kv
      · simp only [cond_false, body, List.length_append]; omega
      · simp only [cond_true, body, List.length_append]; omega
  have := hb l
  have hl : (l.eraseP q).length ≤ l.length := List.length_eraseP_le
  unfold room
  omega

theorem room_filter (l : List Pair) (q : Pair → Bool) : room (l.filter q) ≤ room l := by
  have hb : ∀ m : List Pair, (body (m.filter q)).length ≤ (body m).length := by
    intro m
    induction m with
    | nil => simp
    | cons kv m ih =>
      rw [List.filter_cons]
      split
      · simp only [body, List.length_append]; omega
      · simp only [body, List.length_append]; omega
  have := hb l
  have hl : (l.filter q).length ≤ l.length := List.length_filter_le _ _
  unfold room
  omega

variable {pg : Nat → List Pair} {D : Nat → Prop} {M : Bytes → Option Bytes}

theorem core_erase (hc : Core pg D) (b : Nat) (k : Bytes) :
    Core (setPage pg b ((pg b).eraseP fun kv => kv.1 == k)) D where
  closed := hc.closed
  bound := hc.bound
  home i kv hkv := by
    unfold setPage at hkv
    split at hkv
    · rename_i e; subst e; exact hc.home _ kv (List.mem_of_mem_eraseP hkv)
    · exact hc.home i kv hkv
  nodup i := by
    unfold setPage
    split
    · exact (hc.nodup b).sublist (List.eraseP_sublist.map _)
    · exact hc.nodup i
  keys i kv hkv := by
    unfold setPage at hkv
    split at hkv
    · rename_i e; subst e; exact hc.keys _ kv (List.mem_of_mem_eraseP hkv)
    · exact hc.keys i kv hkv
  room i := by
    unfold setPage
    split
    · exact Nat.le_trans (room_erase _ _) (hc.room b)
    · exact hc.room i

theorem abs_erase (hc : Core pg D) (ha : Abs pg D M) {k : Bytes} {d : Nat} (hL : Leaf D (hash k) d) :
    Abs (setPage pg (hash k % 2 ^ d) ((pg (hash k % 2 ^ d)).eraseP fun kv => kv.1 == k)) D (upd M k none) := by
  intro k' d' hL'
  unfold upd setPage
  have := ha k' d' hL'
  by_cases e : hash k' % 2 ^ d' = hash k % 2 ^ d
  · rw [if_pos e, lookup_erase (hc.nodup _), ← e, this]
  · rw [if_neg e, this, if_neg]
    rintro rfl
    exact e (by rw [hL.unique hL'])

theorem core_put (hc : Core pg D) {k v : Bytes} {d : Nat} (hL : Leaf D (hash k) d) (hk : k ≠ [])
    (hno : lookup (pg (hash k % 2 ^ d)) k = none) (hr : room (pg (hash k % 2 ^ d) ++ [(k, v)]) ≤ 1024) :
    Core (setPage pg (hash k % 2 ^ d) (pg (hash k % 2 ^ d) ++ [(k, v)])) D where
  closed := hc.closed
  bound := hc.bound
  home i kv hkv := by
    unfold setPage at hkv
    split at hkv
    · rename_i e
      subst e
      rcases List.mem_append.mp hkv with h | h
      · exact hc.home _ kv h
      · rw [List.mem_singleton] at h; subst h; exact ⟨d, hL, rfl⟩
    · exact hc.home i kv hkv
  nodup i := by
    unfold setPage
    split
    · rw [List.map_append, List.nodup_append]
      refine ⟨hc.nodup _, by simp, ?_⟩
      rintro x hx y hy rfl
      rw [lookup_isNone] at hno
      rw [List.mem_map] at hx
      obtain ⟨kv, hkv, rfl⟩ := hx
      simp at hy
      exact hno kv hkv hy
    · exact hc.nodup i
  keys i kv hkv := by
    unfold setPage at hkv
    split at hkv
    · rename_i e
      rcases List.mem_append.mp hkv with h | h
      · exact hc.keys _ kv h
      · rw [List.mem_singleton] at h; subst h; exact hk
    · exact hc.keys i kv hkv
  room i := by
    unfold setPage
    split
    · exact hr
    · exact hc.room i

theorem abs_put (ha : Abs pg D M) {k v : Bytes} {d : Nat} (hL : Leaf D (hash k) d)
    (hno : lookup (pg (hash k % 2 ^ d)) k = none) :
    Abs (setPage pg (hash k % 2 ^ d) (pg (hash k % 2 ^ d) ++ [(k, v)])) D (upd M k (some v)) := by
  intro k' d' hL'
  unfold upd setPage
  have := ha k' d' hL'
  by_cases e : hash k' % 2 ^ d' = hash k % 2 ^ d
  · rw [if_pos e, lookup_put hno, ← e, this]
  · rw [if_neg e, this, if_neg]
    rintro rfl
    exact e (by rw [hL.unique hL'])

/-! ### Splitting -/

/-- The directory with one more bit. -/
def addBit (D : Nat → Prop) (n : Nat) : Nat → Prop := fun m => D m ∨ m = n

/-- The pages after splitting page `b` by bit `d` of the hashes. -/
def splitPages (pg : Nat → List Pair) (b d : Nat) : Nat → List Pair :=
  setPage (setPage pg b ((pg b).filter fun kv => hash kv.1 &&& 2 ^ d == 0)) (b + 2 ^ d)
    ((pg b).filter fun kv => hash kv.1 &&& 2 ^ d != 0)

theorem mod_succ (h d : Nat) : h % 2 ^ (d + 1) = h % 2 ^ d + if h.testBit d then 2 ^ d else 0 := by
  rw [Nat.pow_succ, Nat.mod_mul, Nat.testBit_eq_decide_div_mod_eq]
  have : h / 2 ^ d % 2 = 0 ∨ h / 2 ^ d % 2 = 1 := by omega
  rcases this with e | e <;> simp [e]

/-- The leaves of the directory with one more bit. -/
theorem leaf_addBit (hcl : ∀ h e, D (node h (e + 1)) → D (node h e)) {h d : Nat} (hL : Leaf D h d) {h' d' : Nat} :
    Leaf (addBit D (node h d)) h' d' ↔
      if h' % 2 ^ d = h % 2 ^ d then d' = d + 1 else Leaf D h' d' := by
  have below : ∀ (x e : Nat), ¬D (node x e) → ∀ j, ¬D (node x (e + j)) := by
    intro x e hx j
    induction j with
    | zero => exact hx
    | succ j ih => exact fun hd => ih (hcl _ _ hd)
  split
  · rename_i e
    have hL' : Leaf D h' d := hL.congr e.symm
    have hn : node h' d = node h d := node_congr e d (Nat.le_refl _)
    have good : Leaf (addBit D (node h d)) h' (d + 1) := by
      refine ⟨fun x hx => ?_, ?_⟩
      · by_cases hxd : x = d
        · subst hxd; exact Or.inr hn
        · exact Or.inl (hL'.1 x (by omega))
      · rintro (hd | hd)
        · exact below h' d hL'.2 1 hd
        · have := (node_inj _ _ _ _ hd).1; omega
    constructor
    · intro h1; exact h1.unique good
    · rintro rfl; exact good
  · rename_i e
    have hne : ∀ x, node h' x = node h d → False := by
      intro x hx
      obtain ⟨rfl, hm⟩ := node_inj _ _ _ _ hx
      exact e hm
    constructor
    · intro h1
      refine ⟨fun x hx => ?_, fun hd => h1.2 (Or.inl hd)⟩
      rcases h1.1 x hx with hd | hd
      · exact hd
      · exact absurd hd (hne x)
    · intro h1
      refine ⟨fun x hx => Or.inl (h1.1 x hx), ?_⟩
      rintro (hd | hd)
      · exact h1.2 hd
      · exact hne _ hd

theorem leaf_mod_ne {h d h' d' : Nat} (hL : Leaf D h d) (hL' : Leaf D h' d') (hne : h' % 2 ^ d ≠ h % 2 ^ d) :
    h' % 2 ^ d' ≠ h % 2 ^ d ∧ h' % 2 ^ d' ≠ h % 2 ^ d + 2 ^ d := by
  constructor
  · intro e
    have := hL'.page hL e
    subst this
    exact hne e
  · intro e
    apply hne
    have hlt : h % 2 ^ d < 2 ^ d := Nat.mod_lt _ (Nat.two_pow_pos d)
    have hlt' : h' % 2 ^ d' < 2 ^ d' := Nat.mod_lt _ (Nat.two_pow_pos d')
    have hdd : d ≤ d' := by
      by_contra hc
      have := Nat.pow_le_pow_right (n := 2) (by omega) (show d' ≤ d by omega)
      omega
    have : h' % 2 ^ d' % 2 ^ d = (h % 2 ^ d + 2 ^ d) % 2 ^ d := by rw [e]
    rw [Nat.mod_mod_of_dvd _ (Nat.pow_dvd_pow 2 hdd), Nat.add_mod_right, Nat.mod_mod] at this
    exact this

theorem core_split (hc : Core pg D) {h d : Nat} (hL : Leaf D h d) (hb : node h d < 32768) :
    Core (splitPages pg (h % 2 ^ d) d) (addBit D (node h d)) where
  closed x e hd := by
    rcases hd with hd | hd
    · exact Or.inl (hc.closed x e hd)
    · obtain ⟨rfl, hm⟩ := node_inj _ _ _ _ hd
      have := node_congr hm e (by omega)
      rw [this]
      exact Or.inl (hL.1 e (by omega))
  bound n hn := by
    rcases hn with hn | rfl
    · exact hc.bound n hn
    · exact hb
  home i kv hkv := by
    have hlt : h % 2 ^ d < 2 ^ d := Nat.mod_lt _ (Nat.two_pow_pos d)
    -- a pair of the split page
    have old : kv ∈ pg (h % 2 ^ d) → hash kv.1 % 2 ^ d = h % 2 ^ d := by
      intro hm
      obtain ⟨d', hL', e⟩ := hc.home _ kv hm
      have := hL.page hL' e
      subst this
      exact e.symm
    unfold splitPages setPage at hkv
    split at hkv
    · rename_i e
      obtain ⟨hm, hbit⟩ := List.mem_filter.mp hkv
      have hbit : (hash kv.1).testBit d = true := by
        rw [← and_pow_ne]; simpa using hbit
      have hmod := old hm
      refine ⟨d + 1, ?_, ?_⟩
      · rw [leaf_addBit hc.closed hL, if_pos hmod]
      · rw [mod_succ, hbit, hmod, e]; simp
    · split at hkv
      · rename_i e
        obtain ⟨hm, hbit⟩ := List.mem_filter.mp hkv
        have hbit : (hash kv.1).testBit d = false := by
          cases ht : (hash kv.1).testBit d
          · rfl
          · have := (and_pow_ne (hash kv.1) d).mpr ht
            simp at hbit; exact absurd hbit this
        have hmod := old hm
        refine ⟨d + 1, ?_, ?_⟩
        · rw [leaf_addBit hc.closed hL, if_pos hmod]
        · rw [mod_succ, hbit, hmod, e]; simp
      · rename_i e1 e2
        obtain ⟨d', hL', e⟩ := hc.home i kv hkv
        refine ⟨d', ?_, e⟩
        rw [leaf_addBit hc.closed hL, if_neg]
        · exact hL'
        · intro hmod
          have := hL'.unique (hL.congr hmod.symm)
          subst this
          exact e2 (by rw [e, hmod])
  nodup i := by
    unfold splitPages setPage
    split
    · exact (hc.nodup _).sublist (List.filter_sublist.map _)
    · split
      · exact (hc.nodup _).sublist (List.filter_sublist.map _)
      · exact hc.nodup i
  keys i kv hkv := by
    unfold splitPages setPage at hkv
    split at hkv
    · exact hc.keys _ kv (List.mem_filter.mp hkv).1
    · split at hkv
      · exact hc.keys _ kv (List.mem_filter.mp hkv).1
      · exact hc.keys i kv hkv
  room i := by
    unfold splitPages setPage
    split
    · exact Nat.le_trans (room_filter _ _) (hc.room _)
    · split
      · exact Nat.le_trans (room_filter _ _) (hc.room _)
      · exact hc.room i

theorem abs_split (hc : Core pg D) (ha : Abs pg D M) {h d : Nat} (hL : Leaf D h d) :
    Abs (splitPages pg (h % 2 ^ d) d) (addBit D (node h d)) M := by
  intro k d' hL'
  have hlt : h % 2 ^ d < 2 ^ d := Nat.mod_lt _ (Nat.two_pow_pos d)
  rw [leaf_addBit hc.closed hL] at hL'
  unfold splitPages setPage
  split at hL'
  · rename_i e
    subst hL'
    have hold := ha k d (hL.congr e.symm)
    rw [mod_succ, e]
    cases ht : (hash k).testBit d
    · have hz : hash k &&& 2 ^ d = 0 := by
        by_contra hc
        rw [(and_pow_ne _ _).mp hc] at ht; simp at ht
      rw [if_neg (by simp only [Bool.false_eq_true, if_false]; omega), if_pos (by simp)]
      rw [lookup_filter _ (fun k => hash k &&& 2 ^ d == 0) k (by simpa using hz), ← e, hold]
    · have hz := (and_pow_ne (hash k) d).mpr ht
      rw [if_pos (by simp)]
      rw [lookup_filter _ (fun k => hash k &&& 2 ^ d != 0) k (by simpa using hz), ← e, hold]
  · rename_i e
    obtain ⟨h1, h2⟩ := leaf_mod_ne hL hL' e
    rw [if_neg h2, if_neg h1]
    exact ha k d' hL'

end Rep.Sdbm
