import Verif.Ffi.Lemmas

/-
Values in memory as the interface stores them: the basic types one after the other.
-/

namespace Rep.Ffi

mutual
/-- The memory at `a` holds the value without padding. -/
def At (E : Env) (m : Mem) : CType → Nat → Value → Prop
  | .prim p, a, w => readAs E (2 ^ 63) p w = some w ∧ ∃ bs, cbytes E p w = some bs ∧ load m a bs.length = bs
  | .struct ts, a, w => ∃ ws, w = .vec ws ∧ AtAll E m ts a ws
def AtAll (E : Env) (m : Mem) : List CType → Nat → List Value → Prop
  | [], _, ws => ws = []
  | t :: ts, a, ws => ∃ w ws', ws = w :: ws' ∧ At E m t a w ∧ AtAll E m ts (a + packed t) ws'
end

mutual
theorem at_congr {E : Env} {m m' : Mem} : ∀ (t : CType) (a : Nat) (w : Value),
    (∀ x, a ≤ x → x < a + packed t → m x = m' x) → At E m t a w → At E m' t a w
  | .prim p, a, w, h, ⟨hr, bs, hb, hl⟩ => by
    refine ⟨hr, bs, hb, ?_⟩
    have : load m a bs.length = load m' a bs.length :=
      load_congr fun x h1 h2 => h x h1 (by rw [cbytes_length hb] at h2; exact h2)
    rw [← this, hl]
  | .struct ts, a, w, h, ⟨ws, e, hw⟩ => ⟨ws, e, atAll_congr ts a ws (by simpa [packed] using h) hw⟩
theorem atAll_congr {E : Env} {m m' : Mem} : ∀ (ts : List CType) (a : Nat) (ws : List Value),
    (∀ x, a ≤ x → x < a + packeds ts → m x = m' x) → AtAll E m ts a ws → AtAll E m' ts a ws
  | [], _, _, _, hw => hw
  | t :: ts, a, ws, h, ⟨w, ws', e, h1, h2⟩ => by
    simp only [packeds] at h
    exact ⟨w, ws', e, at_congr t a w (fun x h1 h2 => h x h1 (by omega)) h1,
      atAll_congr ts _ ws' (fun x h1 h2 => h x (by omega) (by omega)) h2⟩
end

mutual
/-- The depth of a type. -/
def depth : CType → Nat
  | .prim _ => 1
  | .struct ts => depths ts + 1
def depths : List CType → Nat
  | [] => 0
  | t :: ts => max (depth t) (depths ts)
end

/-- The elements from number `i` on. -/
def rest (v : Value) (i : Nat) : List Value :=
  match v with
  | .vec l => l.drop i
  | v => elems v

theorem elems_cons (a b : Value) (v : Value) (l : List Value) (h : elems (.cons a b) = v :: l) :
    v = a ∧ (l = [] ∨ ∀ i, rest b i = l) := by
  cases b with
  | vec _ => simp only [elems, List.cons.injEq] at h; exact ⟨h.1.symm, Or.inl h.2.symm⟩
  | _ => simp only [elems, List.cons.injEq] at h; exact ⟨h.1.symm, Or.inr fun i => h.2⟩

mutual
/-- What storing a value does. -/
theorem marshal_at {E : Env} (hE : EnvOk E) {T : Table} : ∀ (t : CType) (id fuel : Nat) (v w : Value) (m : Mem) (p : Nat),
    Den T id t → depth t ≤ fuel → canon E (2 ^ 63) t v = some w →
    ∃ m', marshal E T fuel id v m p = .ok (m', p + packed t) ∧ At E m' t p w ∧
      ∀ x, x < p ∨ p + packed t ≤ x → m' x = m x
  | .prim q, id, fuel, v, w, m, p, hd, hf, hc => by
    obtain ⟨fuel, rfl⟩ : ∃ f, fuel = f + 1 := ⟨fuel - 1, by simp [depth] at hf; omega⟩
    have hd : T[id]? = some (.prim q) := hd
    have hc : readAs E (2 ^ 63) q v = some w := hc
    obtain ⟨h1, h2⟩ := cbytes_of_readAs hE hc
    refine ⟨store m p (primBytes E v q), ?_, ⟨h2, _, h1, load_store _ _ _⟩, ?_⟩
    · simp only [marshal, hd, primBytes_length]
    · intro x hx
      exact store_outside _ _ _ _ (by rw [primBytes_length]; exact hx)
  | .struct ts, id, fuel, v, w, m, p, ⟨ids, s, a, hd, hds⟩, hf, hc => by
    obtain ⟨fuel, rfl⟩ : ∃ f, fuel = f + 1 := ⟨fuel - 1, by simp [depth] at hf; omega⟩
    simp only [canon, Option.map_eq_some_iff] at hc
    obtain ⟨ws, hc, rfl⟩ := hc
    have hr : rest v 0 = elems v := by cases v <;> rfl
    rw [← hr] at hc
    obtain ⟨m', h1, h2, h3⟩ := marshalFields_at hE ts ids fuel v 0 ws m p hds (by simp [depth] at hf; omega) hc
    exact ⟨m', by simp only [marshal, hd, packed, h1], ⟨ws, rfl, h2⟩, by simpa [packed] using h3⟩
theorem marshalFields_at {E : Env} (hE : EnvOk E) {T : Table} : ∀ (ts : List CType) (ids : List Nat) (fuel : Nat)
    (v : Value) (i : Nat) (ws : List Value) (m : Mem) (p : Nat),
    Dens T ids ts → depths ts ≤ fuel → canons E (2 ^ 63) ts (rest v i) = some ws →
    ∃ m', marshalFields (marshal E T fuel) ids v i m p = .ok (m', p + packeds ts) ∧ AtAll E m' ts p ws ∧
      ∀ x, x < p ∨ p + packeds ts ≤ x → m' x = m x
  | [], ids, fuel, v, i, ws, m, p, hd, _, hc => by
    have hd : ids = [] := hd
    subst hd
    simp only [canons] at hc
    split at hc
    · cases hc
      exact ⟨m, rfl, rfl, fun _ _ => rfl⟩
    · cases hc
  | t :: ts, ids, fuel, v, i, ws, m, p, ⟨j, js, e, hd, hds⟩, hf, hc => by
    subst e
    simp only [depths] at hf
    cases hr : rest v i with
    | nil => rw [hr] at hc; simp [canons] at hc
    | cons u us =>
      rw [hr] at hc
      simp only [canons, Option.bind_eq_some_iff, Option.map_eq_some_iff] at hc
      obtain ⟨w, hw, ws', hws, rfl⟩ := hc
      obtain ⟨m1, h1, h2, h3⟩ := marshal_at hE t j fuel u w m p hd (by omega) hw
      have key : ∀ v' i', canons E (2 ^ 63) ts (rest v' i') = some ws' →
          ∃ m', marshalFields (marshal E T fuel) js v' i' m1 (p + packed t) = .ok (m', p + packeds (t :: ts)) ∧
            AtAll E m' (t :: ts) p (w :: ws') ∧ ∀ x, x < p ∨ p + packeds (t :: ts) ≤ x → m' x = m x := by
        intro v' i' hc'
        obtain ⟨m2, h4, h5, h6⟩ := marshalFields_at hE ts js fuel v' i' ws' m1 (p + packed t) hds (by omega) hc'
        refine ⟨m2, ?_, ⟨w, ws', rfl, ?_, h5⟩, ?_⟩
        · rw [h4, packeds, Nat.add_assoc]
        · exact at_congr t p w (fun x hx1 hx2 => (h6 x (Or.inl hx2)).symm) h2
        · intro x hx
          simp only [packeds] at hx
          rw [h6 x (by omega), h3 x (by omega)]
      have key0 : ts = [] → ∀ v' i', ∃ m', marshalFields (marshal E T fuel) js v' i' m1 (p + packed t) = .ok (m', p + packeds (t :: ts)) ∧
            AtAll E m' (t :: ts) p (w :: ws') ∧ ∀ x, x < p ∨ p + packeds (t :: ts) ≤ x → m' x = m x := by
        intro e v' i'
        subst e
        have hds : js = [] := hds
        subst hds
        simp only [canons] at hws
        split at hws
        · cases hws
          exact ⟨m1, by simp [marshalFields, packeds], ⟨w, [], rfl, h2, rfl⟩, by simpa [packeds] using h3⟩
        · cases hws
      cases v with
      | vec l =>
        have hr : l.drop i = u :: us := hr
        have hi : l[i]? = some u := by
          have := congrArg (fun l => l[0]?) hr
          simpa using this
        have hr' : rest (.vec l) (i + 1) = us := by
          show l.drop (i + 1) = us
          rw [← List.drop_drop, hr]; rfl
        obtain ⟨m', k1, k2, k3⟩ := key (.vec l) (i + 1) (by rw [hr']; exact hws)
        exact ⟨m', by simp only [marshalFields, hi, h1, Out.bind, k1], k2, k3⟩
      | cons a b =>
        obtain ⟨rfl, h | h⟩ := elems_cons a b u us hr
        · subst h
          have : ts = [] := by
            cases ts with
            | nil => rfl
            | cons _ _ => simp [canons] at hws
          obtain ⟨m', k1, k2, k3⟩ := key0 this b (i + 1)
          exact ⟨m', by simp only [marshalFields, h1, Out.bind, k1], k2, k3⟩
        · obtain ⟨m', k1, k2, k3⟩ := key b (i + 1) (by rw [h]; exact hws)
          exact ⟨m', by simp only [marshalFields, h1, Out.bind, k1], k2, k3⟩
      | _ => simp [rest, elems] at hr
end

mutual
/-- What reading a value gives. -/
theorem demarshal_at {E : Env} (hE : EnvOk E) {T : Table} : ∀ (t : CType) (id fuel : Nat) (w : Value) (m : Mem) (p : Nat)
    (old : Option Value), Den T id t → depth t ≤ fuel → At E m t p w →
    demarshal E T fuel id m p old = .ok (w, m, p + packed t)
  | .prim q, id, fuel, w, m, p, old, hd, hf, ⟨hr, bs, hb, hl⟩ => by
    obtain ⟨fuel, rfl⟩ : ∃ f, fuel = f + 1 := ⟨fuel - 1, by simp [depth] at hf; omega⟩
    have hd : T[id]? = some (.prim q) := hd
    simp only [demarshal, hd, primValue_of_cbytes hE hb hr hl]
  | .struct ts, id, fuel, w, m, p, old, ⟨ids, s, a, hd, hds⟩, hf, ⟨ws, e, hw⟩ => by
    obtain ⟨fuel, rfl⟩ : ∃ f, fuel = f + 1 := ⟨fuel - 1, by simp [depth] at hf; omega⟩
    subst e
    simp only [demarshal, hd, packed]
    rw [demarshalFields_at hE ts ids fuel [] ws m p hds (by simp [depth] at hf; omega) hw, List.nil_append]
theorem demarshalFields_at {E : Env} (hE : EnvOk E) {T : Table} : ∀ (ts : List CType) (ids : List Nat) (fuel : Nat)
    (done ws : List Value) (m : Mem) (p : Nat), Dens T ids ts → depths ts ≤ fuel → AtAll E m ts p ws →
    demarshalFields (demarshal E T fuel) ids done m p = .ok (.vec (done ++ ws), m, p + packeds ts)
  | [], ids, fuel, done, ws, m, p, hd, _, hw => by
    have hd : ids = [] := hd
    have hw : ws = [] := hw
    subst hd; subst hw
    simp [demarshalFields, packeds]
  | t :: ts, ids, fuel, done, ws, m, p, ⟨j, js, e, hd, hds⟩, hf, ⟨w, ws', e', h1, h2⟩ => by
    subst e; subst e'
    simp only [depths] at hf
    rw [demarshalFields, demarshal_at hE t j fuel w m p none hd (by omega) h1]
    simp only [Out.bind]
    rw [demarshalFields_at hE ts js fuel (done ++ [w]) ws' m _ hds (by omega) h2]
    simp [packeds, Nat.add_assoc]
end

/-! ### layout -/

theorem primSize_pos (p : Prim) : 0 < primSize p := by cases p <;> decide

mutual
theorem calign_pos : ∀ t : CType, 0 < calign t
  | .prim p => primSize_pos p
  | .struct ts => caligns_pos ts
theorem caligns_pos : ∀ ts : List CType, 0 < caligns ts
  | [] => Nat.one_pos
  | t :: ts => lt_of_lt_of_le (calign_pos t) (Nat.le_max_left _ _)
end

theorem roundUp_le (v a : Nat) : v ≤ roundUp v a := by
  unfold roundUp; split <;> omega

theorem roundUp_mono {v w : Nat} (a : Nat) (h : 0 < a) (hv : v ≤ w) : roundUp v a ≤ roundUp w a := by
  have e : ∀ u, roundUp u a = (u + a - 1) / a * a := by
    intro u
    unfold roundUp
    obtain ⟨q, r, hr, rfl⟩ : ∃ q r, r < a ∧ u = a * q + r := ⟨u / a, u % a, Nat.mod_lt _ h, (Nat.div_add_mod u a).symm⟩
    rw [Nat.mul_add_mod, Nat.mod_eq_of_lt hr]
    split
    · next h0 =>
      subst h0
      have : (a * q + 0 + a - 1) / a = q := by
        rw [show a * q + 0 + a - 1 = (a - 1) + a * q by omega, Nat.add_mul_div_left _ _ h, Nat.div_eq_of_lt (by omega)]
        omega
      rw [this]; ring_nf
    · next h0 =>
      have : (a * q + r + a - 1) / a = q + 1 := by
        rw [show a * q + r + a - 1 = (r - 1) + a * (q + 1) by rw [Nat.mul_add]; omega, Nat.add_mul_div_left _ _ h,
          Nat.div_eq_of_lt (by omega)]
        omega
      rw [this, Nat.add_mul, Nat.one_mul, Nat.mul_comm q]; omega
  rw [e, e]
  exact Nat.mul_le_mul_right _ (Nat.div_le_div_right (by omega))

theorem alignUp_eq (v a : Nat) (h : 0 < a) : alignUp v a = roundUp v a := by
  unfold alignUp roundUp
  obtain ⟨q, r, hr, rfl⟩ : ∃ q r, r < a ∧ v = a * q + r := ⟨v / a, v % a, Nat.mod_lt _ h, (Nat.div_add_mod v a).symm⟩
  rw [Nat.mul_add_mod, Nat.mod_eq_of_lt hr]
  split
  · next h0 =>
    subst h0
    have : (a * q + 0 + a - 1) / a = q := by
      rw [show a * q + 0 + a - 1 = (a - 1) + a * q by omega, Nat.add_mul_div_left _ _ h, Nat.div_eq_of_lt (by omega)]
      omega
    rw [this]; ring_nf
  · next h0 =>
    have : (a * q + r + a - 1) / a = q + 1 := by
      rw [show a * q + r + a - 1 = (r - 1) + a * (q + 1) by rw [Nat.mul_add]; omega, Nat.add_mul_div_left _ _ h,
        Nat.div_eq_of_lt (by omega)]
      omega
    rw [this, Nat.add_mul, Nat.one_mul, Nat.mul_comm q]; omega

theorem roundUp_dvd {v a : Nat} (h : a ∣ v) : roundUp v a = v := by
  unfold roundUp
  rw [if_pos (Nat.mod_eq_zero_of_dvd h)]

mutual
theorem packed_le_bare : ∀ t : CType, packed t ≤ bare t
  | .prim p => by cases p <;> simp [packed, bare]
  | .struct ts => by
    have := packeds_le_bares ts 0
    simp only [packed, bare]; omega
theorem packeds_le_bares : ∀ (ts : List CType) (n : Nat), n + packeds ts ≤ bares ts n
  | [], n => Nat.le_refl _
  | t :: ts, n => by
    have h1 := packed_le_bare t
    have h2 := packeds_le_bares ts (roundUp n (calign t) + bare t)
    have h3 := roundUp_le n (calign t)
    simp only [packeds, bares]; omega
end

mutual
theorem bare_le_csize : ∀ t : CType, bare t ≤ csize t
  | .prim p => Nat.le_refl _
  | .struct ts => by
    have h1 := bares_le_cend ts 0 0 (Nat.le_refl _)
    have h2 := roundUp_le (cend ts 0) (caligns ts)
    simp only [bare, csize]; omega
theorem bares_le_cend : ∀ (ts : List CType) (n k : Nat), n ≤ k → bares ts n ≤ cend ts k
  | [], n, k, h => h
  | t :: ts, n, k, h => by
    have h1 := bare_le_csize t
    have h2 := roundUp_mono (calign t) (calign_pos t) h
    simp only [bares, cend]
    exact bares_le_cend ts _ _ (by omega)
end

theorem packeds_le_cend (ts : List CType) (n : Nat) : n + packeds ts ≤ cend ts n :=
  Nat.le_trans (packeds_le_bares ts n) (bares_le_cend ts n n (Nat.le_refl _))

mutual
/-- Without padding the two ways are the same. -/
theorem holds_of_at {E : Env} {m : Mem} : ∀ (t : CType) (a : Nat) (w : Value), packed t = csize t →
    At E m t a w → Holds E m a t w
  | .prim _, _, _, _, ⟨_, h⟩ => h
  | .struct ts, a, w, hp, ⟨ws, e, h⟩ => by
    simp only [packed, csize] at hp
    have h1 := roundUp_le (cend ts 0) (caligns ts)
    exact ⟨ws, e, holdsAll_of_at ts a 0 ws (by omega) h⟩
theorem holdsAll_of_at {E : Env} {m : Mem} : ∀ (ts : List CType) (a off : Nat) (ws : List Value),
    cend ts off ≤ off + packeds ts → AtAll E m ts (a + off) ws → HoldsAll E m a ts off ws
  | [], _, _, _, _, h => h
  | t :: ts, a, off, ws, hp, ⟨w, ws', e, h1, h2⟩ => by
    simp only [cend, packeds] at hp
    have k1 := packeds_le_cend ts (roundUp off (calign t) + csize t)
    have k2 := roundUp_le off (calign t)
    have k3 := packed_le_bare t
    have k4 := bare_le_csize t
    have e1 : roundUp off (calign t) = off := by omega
    have e2 : packed t = csize t := by omega
    refine ⟨w, ws', e, ?_, ?_⟩
    · rw [e1]; exact holds_of_at t _ w e2 h1
    · rw [e1, ← e2]
      exact holdsAll_of_at ts a _ ws' (by rw [e1, ← e2] at hp; omega) (by rw [← Nat.add_assoc]; exact h2)
end

mutual
theorem at_of_holds {E : Env} {m : Mem} : ∀ (t : CType) (a : Nat) (w : Value), packed t = csize t →
    canon E (2 ^ 63) t w = some w → Holds E m a t w → At E m t a w
  | .prim _, _, _, _, hc, h => ⟨hc, h⟩
  | .struct ts, a, w, hp, hc, ⟨ws, e, h⟩ => by
    simp only [packed, csize] at hp
    have h1 := roundUp_le (cend ts 0) (caligns ts)
    subst e
    simp only [canon, elems, Option.map_eq_some_iff, Value.vec.injEq, exists_eq_right] at hc
    exact ⟨ws, rfl, atAll_of_holds ts a 0 ws (by omega) hc h⟩
theorem atAll_of_holds {E : Env} {m : Mem} : ∀ (ts : List CType) (a off : Nat) (ws : List Value),
    cend ts off ≤ off + packeds ts → canons E (2 ^ 63) ts ws = some ws → HoldsAll E m a ts off ws →
    AtAll E m ts (a + off) ws
  | [], _, _, _, _, _, h => h
  | t :: ts, a, off, ws, hp, hc, ⟨w, ws', e, h1, h2⟩ => by
    simp only [cend, packeds] at hp
    have k1 := packeds_le_cend ts (roundUp off (calign t) + csize t)
    have k2 := roundUp_le off (calign t)
    have k3 := packed_le_bare t
    have k4 := bare_le_csize t
    have e1 : roundUp off (calign t) = off := by omega
    have e2 : packed t = csize t := by omega
    subst e
    simp only [canons, Option.bind_eq_some_iff, Option.map_eq_some_iff, List.cons.injEq] at hc
    obtain ⟨w1, c1, ws1, c2, rfl, rfl⟩ := hc
    rw [e1] at h1 h2
    refine ⟨w1, ws1, rfl, at_of_holds t _ w1 e2 c1 h1, ?_⟩
    rw [Nat.add_assoc, e2]
    exact atAll_of_holds ts a _ ws1 (by rw [e1] at hp; omega) c2 h2
end

end Rep.Ffi
