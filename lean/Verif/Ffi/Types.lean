import Verif.Ffi.Walk

/-
The table of types.
-/

namespace Rep.Ffi

/-- A type with number `i`: it refers to older ones, its size is that of the loop. -/
def Good (T : Table) (i : Nat) : Entry → Prop
  | .prim _ => True
  | .struct ids s a => (∀ j ∈ ids, j < i) ∧ (s, a) = layout (sizes T ids) 0 0
  | .named b _ s a _ _ _ => b < i ∧ ∃ e, T[b]? = some e ∧ s = e.size ∧ a = e.align

def Inv (T : Table) : Prop := ∀ i e, T[i]? = some e → Good T i e

theorem sizes_append {T : Table} (e : Entry) {ids : List Nat} (h : ∀ j ∈ ids, j < T.length) :
    sizes (T ++ [e]) ids = sizes T ids := by
  unfold sizes
  apply List.map_congr_left
  intro j hj
  rw [List.getElem?_append_left (h j hj)]

theorem inv_append {T : Table} (h : Inv T) (e : Entry)
    (he : Good T T.length e) : Inv (T ++ [e]) := by
  intro i e' hi
  rcases lt_trichotomy i T.length with hl | rfl | hl
  · rw [List.getElem?_append_left hl] at hi
    have := h i e' hi
    cases e' with
    | prim p => trivial
    | struct ids s a =>
      refine ⟨this.1, ?_⟩
      rw [sizes_append e fun j hj => lt_trans (this.1 j hj) hl]
      exact this.2
    | named b _ _ _ _ _ _ =>
      obtain ⟨h1, e', h2, h3⟩ := this
      exact ⟨h1, e', by rw [List.getElem?_append_left (List.getElem?_eq_some_iff.1 h2).1, h2], h3⟩
  · rw [List.getElem?_append_right (Nat.le_refl _)] at hi
    simp only [Nat.sub_self, List.getElem?_cons_zero, Option.some.injEq] at hi
    subst hi
    cases e with
    | prim p => trivial
    | struct ids s a => exact ⟨he.1, by rw [sizes_append _ he.1]; exact he.2⟩
    | named b _ _ _ _ _ _ =>
      obtain ⟨h1, e', h2, h3⟩ := he
      exact ⟨h1, e', by rw [List.getElem?_append_left h1, h2], h3⟩
  · rw [List.getElem?_eq_none (by simp; omega)] at hi
    cases hi

theorem inv_init : Inv initTable := by
  intro i e h
  have : ∀ e ∈ initTable, ∃ p, e = .prim p := by
    intro e he
    simp only [initTable, List.mem_cons, List.not_mem_nil, or_false] at he
    rcases he with h | h | h | h | h | h | h | h | h | h | h | h | h <;> exact ⟨_, h⟩
  obtain ⟨p, rfl⟩ := this e (List.mem_of_getElem? h)
  trivial

theorem allocType_cases (T : Table) (e : Entry) :
    (∃ j, findEqual T.length e 0 T = some j ∧ allocType T e = (T, j)) ∨
    (findEqual T.length e 0 T = none ∧ allocType T e = (T ++ [e], T.length)) := by
  unfold allocType
  cases h : findEqual T.length e 0 T with
  | some j => exact Or.inl ⟨j, rfl, rfl⟩
  | none => exact Or.inr ⟨rfl, rfl⟩

theorem struct_cases {T T' : Table} {ids : List Nat} {id : Nat} (h : ffiStruct T ids = .ok (T', id)) :
    ∃ s a, (s, a) = layout (sizes T ids) 0 0 ∧ (∀ j ∈ ids, j < T.length) ∧
      ((findEqual T.length (.struct ids s a) 0 T = some id ∧ T' = T) ∨
       (findEqual T.length (.struct ids s a) 0 T = none ∧ T' = T ++ [.struct ids s a] ∧ id = T.length)) := by
  unfold ffiStruct at h
  split at h
  · next hv =>
    refine ⟨_, _, rfl, hv, ?_⟩
    simp only [Out.ok.injEq] at h
    rcases allocType_cases T (.struct ids (layout (sizes T ids) 0 0).1 (layout (sizes T ids) 0 0).2) with
      ⟨j, h1, h2⟩ | ⟨h1, h2⟩
    · rw [h2] at h; cases h; exact Or.inl ⟨h1, rfl⟩
    · rw [h2] at h; cases h; exact Or.inr ⟨h1, rfl, rfl⟩
  · cases h

theorem reachable_inv {T : Table} (h : Reachable T) : Inv T := by
  induction h with
  | init => exact inv_init
  | struct _ hs ih =>
    obtain ⟨s, a, h1, h2, ⟨-, rfl⟩ | ⟨-, rfl, -⟩⟩ := struct_cases hs
    · exact ih
    · exact inv_append ih _ ⟨h2, h1⟩
  | @named T T' b p i o id _ hs ih =>
    unfold ffiType at hs
    cases hb : T[b]? with
    | none => rw [hb] at hs; cases hs
    | some e =>
      rw [hb] at hs
      simp only [Out.ok.injEq] at hs
      have hl : b < T.length := (List.getElem?_eq_some_iff.1 hb).1
      rcases allocType_cases T (.named b (e.type b) e.size e.align p i o) with ⟨j, h1, h2⟩ | ⟨h1, h2⟩
      · rw [h2] at hs; cases hs; exact ih
      · rw [h2] at hs; cases hs; exact inv_append ih _ ⟨hl, e, hb, rfl, rfl⟩

/-! ### what a number means -/

mutual
theorem den_append {T : Table} (T2 : Table) : ∀ (t : CType) (id : Nat), Den T id t → Den (T ++ T2) id t
  | .prim p, id, h => by
    have h : T[id]? = some (.prim p) := h
    show (T ++ T2)[id]? = _
    rw [List.getElem?_append_left (List.getElem?_eq_some_iff.1 h).1, h]
  | .struct ts, id, ⟨ids, s, a, h, hs⟩ =>
    ⟨ids, s, a, by rw [List.getElem?_append_left (List.getElem?_eq_some_iff.1 h).1, h], dens_append T2 ts ids hs⟩
theorem dens_append {T : Table} (T2 : Table) : ∀ (ts : List CType) (ids : List Nat), Dens T ids ts → Dens (T ++ T2) ids ts
  | [], _, h => h
  | t :: ts, _, ⟨i, is, e, h1, h2⟩ => ⟨i, is, e, den_append T2 t i h1, dens_append T2 ts is h2⟩
end

mutual
theorem den_depth {T : Table} (hT : Inv T) : ∀ (t : CType) (id : Nat), Den T id t → depth t ≤ id + 1
  | .prim p, id, _ => by simp [depth]
  | .struct ts, id, ⟨ids, s, a, h, hs⟩ => by
    have h1 := (hT id _ h).1
    have := dens_depth hT ts ids id h1 hs
    simp only [depth]; omega
theorem dens_depth {T : Table} (hT : Inv T) : ∀ (ts : List CType) (ids : List Nat) (n : Nat), (∀ j ∈ ids, j < n) →
    Dens T ids ts → depths ts ≤ n
  | [], _, _, _, _ => Nat.zero_le _
  | t :: ts, _, n, hn, ⟨i, is, e, h1, h2⟩ => by
    subst e
    have k1 := den_depth hT t i h1
    have k2 := hn i List.mem_cons_self
    have k3 := dens_depth hT ts is n (fun j hj => hn j (List.mem_cons_of_mem _ hj)) h2
    simp only [depths]; omega
end

theorem den_lt {T : Table} {id : Nat} {t : CType} (h : Den T id t) : id < T.length := by
  cases t with
  | prim p => exact (List.getElem?_eq_some_iff.1 (show T[id]? = some (.prim p) from h)).1
  | struct ts =>
    obtain ⟨ids, s, a, h, -⟩ := h
    exact (List.getElem?_eq_some_iff.1 h).1

theorem den_fuel {T : Table} (hT : Inv T) {id : Nat} {t : CType} (h : Den T id t) : depth t ≤ T.length :=
  Nat.le_trans (den_depth hT t id h) (den_lt h)

mutual
theorem den_size {T : Table} (hT : Inv T) : ∀ (t : CType) (id : Nat), Den T id t → Proper t →
    ∃ e, T[id]? = some e ∧ e.size = bare t ∧ e.align = calign t
  | .prim p, id, h, _ => ⟨.prim p, h, rfl, rfl⟩
  | .struct ts, id, ⟨ids, s, a, h, hs⟩, hp => by
    refine ⟨_, h, ?_⟩
    have h1 := (hT id _ h).2
    have h2 := dens_layout hT ts ids 0 0 hs hp.2
    rw [h2] at h1
    simp only [Prod.mk.injEq] at h1
    refine ⟨h1.1, h1.2.trans ?_⟩
    rw [if_neg hp.1]
    exact Nat.zero_max _
theorem dens_layout {T : Table} (hT : Inv T) : ∀ (ts : List CType) (ids : List Nat) (n al : Nat), Dens T ids ts → Propers ts →
    layout (sizes T ids) n al = (bares ts n, if ts = [] then al else max al (caligns ts))
  | [], ids, n, al, h, _ => by
    have h : ids = [] := h
    subst h; rfl
  | t :: ts, ids, n, al, ⟨i, is, e, h1, h2⟩, hp => by
    subst e
    obtain ⟨e, he, hs, ha⟩ := den_size hT t i h1 hp.1
    have hz : sizes T (i :: is) = (e.size, e.align) :: sizes T is := by simp [sizes, he]
    rw [hz, layout, dens_layout hT ts is _ _ h2 hp.2, hs, ha, alignUp_eq _ _ (calign_pos t)]
    simp only [bares, Prod.mk.injEq, true_and]
    rw [if_neg (List.cons_ne_nil t ts)]
    have k1 := calign_pos t
    split
    · next h0 => subst h0; simp only [caligns]; omega
    · simp only [caligns]; omega
end

/-! ### equal structures -/

/-- The first structure with these fields. -/
def firstStruct (ids : List Nat) : Nat → Table → Option Nat
  | _, [] => none
  | j, .struct is _ _ :: bs => if ids = is then some j else firstStruct ids (j + 1) bs
  | j, _ :: bs => firstStruct ids (j + 1) bs

theorem findEqual_struct (n : Nat) (ids : List Nat) (s a : Nat) :
    ∀ (T : Table) (j : Nat), j + T.length ≤ n → findEqual n (.struct ids s a) j T = firstStruct ids j T := by
  intro T
  induction T with
  | nil => intro j _; rfl
  | cons b bs ih =>
    intro j hj
    simp only [List.length_cons] at hj
    cases b with
    | prim p => rw [findEqual, firstStruct]; simp only [equalP]; exact ih _ (by omega); intro _ _ _ h; cases h
    | named => rw [findEqual, firstStruct]; simp only [equalP]; exact ih _ (by omega); intro _ _ _ h; cases h
    | struct is s' a' =>
      rw [findEqual, firstStruct, ih _ (by omega)]
      have : Ptr.own n ≠ Ptr.own j := by simp; omega
      simp [equalP, Entry.type, this]

theorem firstStruct_some {ids : List Nat} : ∀ {T : Table} {j k : Nat}, firstStruct ids j T = some k →
    ∃ s a, j ≤ k ∧ T[k - j]? = some (.struct ids s a) := by
  intro T
  induction T with
  | nil => intro j k h; cases h
  | cons b bs ih =>
    intro j k h
    have step : firstStruct ids (j + 1) bs = some k → ∃ s a, j ≤ k ∧ (b :: bs)[k - j]? = some (.struct ids s a) := by
      intro h
      obtain ⟨s, a, h1, h2⟩ := ih h
      refine ⟨s, a, by omega, ?_⟩
      rw [show k - j = (k - (j + 1)) + 1 by omega, List.getElem?_cons_succ, h2]
    cases b with
    | prim p => exact step h
    | named => exact step h
    | struct is s a =>
      simp only [firstStruct] at h
      split at h
      · next e => cases h; subst e; exact ⟨s, a, Nat.le_refl _, by simp⟩
      · exact step h

theorem firstStruct_append {ids : List Nat} (T2 : Table) : ∀ {T : Table} {j k : Nat}, firstStruct ids j T = some k →
    firstStruct ids j (T ++ T2) = some k := by
  intro T
  induction T with
  | nil => intro j k h; cases h
  | cons b bs ih =>
    intro j k h
    cases b with
    | prim p => exact ih h
    | named => exact ih h
    | struct is s a =>
      simp only [firstStruct, List.cons_append] at h ⊢
      split
      · next e => rw [if_pos e] at h; exact h
      · next e => rw [if_neg e] at h; exact ih h

theorem firstStruct_new {ids : List Nat} {s a : Nat} : ∀ {T : Table} {j : Nat}, firstStruct ids j T = none →
    firstStruct ids j (T ++ [.struct ids s a]) = some (j + T.length) := by
  intro T
  induction T with
  | nil => intro j _; simp [firstStruct]
  | cons b bs ih =>
    intro j h
    have e : j + (b :: bs).length = (j + 1) + bs.length := by simp; omega
    rw [e]
    cases b with
    | prim p => exact ih h
    | named => exact ih h
    | struct is s a =>
      simp only [firstStruct, List.cons_append] at h ⊢
      split
      · next e => rw [if_pos e] at h; cases h
      · next e => rw [if_neg e] at h; exact ih h

theorem struct_first {T T' : Table} {ids : List Nat} {id : Nat} (h : ffiStruct T ids = .ok (T', id)) :
    firstStruct ids 0 T' = some id ∧ ∃ T2, T' = T ++ T2 := by
  obtain ⟨s, a, -, -, ⟨h1, rfl⟩ | ⟨h1, rfl, rfl⟩⟩ := struct_cases h
  · rw [findEqual_struct _ _ _ _ _ _ (by omega)] at h1
    exact ⟨h1, [], by simp⟩
  · rw [findEqual_struct _ _ _ _ _ _ (by omega)] at h1
    exact ⟨by simpa using firstStruct_new h1, _, rfl⟩

/-! ### the number of steps does not matter -/

theorem marshalFields_congr {f g : Nat → Value → Mem → Nat → Out (Mem × Nat)} {ids : List Nat}
    (h : ∀ j ∈ ids, f j = g j) : ∀ v i m p, marshalFields f ids v i m p = marshalFields g ids v i m p := by
  induction ids with
  | nil => intro v i m p; rfl
  | cons j js ih =>
    intro v i m p
    have ih := ih fun k hk => h k (List.mem_cons_of_mem _ hk)
    have hj := h j List.mem_cons_self
    cases v with
    | vec l => simp only [marshalFields, hj, ih]
    | cons a b => simp only [marshalFields, hj, ih]
    | _ => rfl

theorem marshal_fuel (E : Env) {T : Table} (hT : Inv T) : ∀ (id f g : Nat), id < f → id < g →
    marshal E T f id = marshal E T g id := by
  intro id
  induction id using Nat.strongRecOn with
  | _ id ih =>
    intro f g hf hg
    obtain ⟨f, rfl⟩ : ∃ k, f = k + 1 := ⟨f - 1, by omega⟩
    obtain ⟨g, rfl⟩ : ∃ k, g = k + 1 := ⟨g - 1, by omega⟩
    funext v m p
    simp only [marshal]
    cases he : T[id]? with
    | none => rfl
    | some e =>
      have := hT id e he
      cases e with
      | prim q => rfl
      | struct ids s a =>
        exact marshalFields_congr (fun j hj => ih j (this.1 j hj) f g (by have := this.1 j hj; omega)
          (by have := this.1 j hj; omega)) _ _ _ _
      | named b _ _ _ _ ci _ =>
        have hb : b < id := this.1
        simp only
        cases E.call ci v with
        | none => rfl
        | some v' => simp only [ih b hb f g (by omega) (by omega)]

end Rep.Ffi
