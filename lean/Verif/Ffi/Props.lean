import Verif.Ffi.Types

/-
C101: the foreign function interface.  Values stored in C variables are read back, other memory is
not changed, C functions find their arguments as C lays them out.
-/

namespace Rep.Ffi

/-- Later tables: more types are made. -/
inductive Later : Table → Table → Prop where
  | refl (T) : Later T T
  | struct {T T1 T2 ids id} : Later T T1 → ffiStruct T1 ids = .ok (T2, id) → Later T T2
  | named {T T1 T2 b p i o id} : Later T T1 → ffiType T1 b p i o = .ok (T2, id) → Later T T2

theorem Later.append {T T2 : Table} (h : Later T T2) : ∃ X, T2 = T ++ X := by
  induction h with
  | refl => exact ⟨[], by simp⟩
  | struct _ hs ih =>
    obtain ⟨X, rfl⟩ := ih
    obtain ⟨-, Y, rfl⟩ := struct_first hs
    exact ⟨X ++ Y, by simp⟩
  | @named T1 T2 b p i o id _ hs ih =>
    obtain ⟨X, rfl⟩ := ih
    unfold ffiType at hs
    split at hs
    · next e _ =>
      simp only [Out.ok.injEq] at hs
      rcases allocType_cases (T ++ X) (.named b (e.type b) e.size e.align p i o) with ⟨j, h1, h2⟩ | ⟨h1, h2⟩
      · rw [h2] at hs; cases hs; exact ⟨X, rfl⟩
      · rw [h2] at hs; cases hs; exact ⟨X ++ _, by rw [List.append_assoc]⟩
    · cases hs

/-- A structure gets a number that means it from then on, whatever types are made later.  The same
structure has the same number again, other structures have other numbers. -/
theorem C101_types {T T' : Table} {ids : List Nat} {id : Nat} {ts : List CType} (h : ffiStruct T ids = .ok (T', id))
    (hd : Dens T ids ts) :
    (∀ j t, Den T j t → Den T' j t) ∧
    ∀ T2, Later T' T2 → Den T2 id (.struct ts) ∧
      ∀ ids' T3 k, ffiStruct T2 ids' = .ok (T3, k) → (k = id ↔ ids' = ids) := by
  obtain ⟨h1, X, rfl⟩ := struct_first h
  refine ⟨fun j t => den_append X t j, ?_⟩
  intro T2 hl
  obtain ⟨Y, rfl⟩ := hl.append
  have h2 := firstStruct_append Y h1
  obtain ⟨s, a, -, h3⟩ := firstStruct_some h2
  simp only [Nat.sub_zero] at h3
  refine ⟨⟨ids, s, a, h3, dens_append Y ts ids (dens_append X ts ids hd)⟩, ?_⟩
  intro ids' T3 k hk
  obtain ⟨k1, Z, rfl⟩ := struct_first hk
  constructor
  · rintro rfl
    obtain ⟨s', a', -, k2⟩ := firstStruct_some k1
    simp only [Nat.sub_zero] at k2
    rw [List.getElem?_append_left (List.getElem?_eq_some_iff.1 h3).1, h3] at k2
    simp only [Option.some.injEq, Entry.struct.injEq] at k2
    exact k2.1.symm
  · rintro rfl
    have := firstStruct_append Z h2
    rw [k1] at this
    cases this; rfl

/-- What is stored with `ffi-set!` is read by `ffi-get`; only the bytes of the variable change.
Partial: types without conversion functions, unsigned integers of 64 bits below 2^63. -/
theorem C101_roundtrip_partial {E : Env} (hE : EnvOk E) {T : Table} (hT : Reachable T) {id a : Nat} {t : CType}
    (hd : Den T id t) (hp : Proper t) (ha : calign t ∣ a) (m : Mem) {v w : Value}
    (hv : canon E (2 ^ 63) t v = some w) :
    ∃ m', ffiSet E T m id a v = .ok m' ∧ ffiGet E T m' id a = .ok (w, m') ∧
      (∀ x, x < a ∨ a + bare t ≤ x → m' x = m x) ∧ bare t ≤ csize t := by
  have hI := reachable_inv hT
  obtain ⟨e, he, -, hal⟩ := den_size hI t id hd hp
  obtain ⟨m', h1, h2, h3⟩ := marshal_at hE t id T.length v w m a hd (den_fuel hI hd) hv
  have hau : alignUp a e.align = a := by rw [hal, alignUp_eq _ _ (calign_pos t), roundUp_dvd ha]
  refine ⟨m', ?_, ?_, ?_, bare_le_csize t⟩
  · simp only [ffiSet, he, hau, h1, Out.bind]
  · simp only [ffiGet, he, hau, demarshal_at hE t id T.length w m' a none hd (den_fuel hI hd) h2, Out.bind]
  · intro x hx
    exact h3 x (by have := packed_le_bare t; omega)

/-- C finds what `ffi-set!` stores, and `ffi-get` reads what C stores.  Partial: types without
padding. -/
theorem C101_layout_partial {E : Env} (hE : EnvOk E) {T : Table} (hT : Reachable T) {id a : Nat} {t : CType}
    (hd : Den T id t) (hp : Proper t) (hn : NoPadding t) (ha : calign t ∣ a) (m : Mem) :
    (∀ v w, canon E (2 ^ 63) t v = some w → ∃ m', ffiSet E T m id a v = .ok m' ∧ Holds E m' a t w) ∧
    ∀ w, canon E (2 ^ 63) t w = some w → Holds E m a t w → ffiGet E T m id a = .ok (w, m) := by
  have hI := reachable_inv hT
  obtain ⟨e, he, -, hal⟩ := den_size hI t id hd hp
  have hau : alignUp a e.align = a := by rw [hal, alignUp_eq _ _ (calign_pos t), roundUp_dvd ha]
  constructor
  · intro v w hv
    obtain ⟨m', h1, h2, h3⟩ := marshal_at hE t id T.length v w m a hd (den_fuel hI hd) hv
    exact ⟨m', by simp only [ffiSet, he, hau, h1, Out.bind], holds_of_at t a w hn h2⟩
  · intro w hw hh
    have := at_of_holds t a w hn hw hh
    simp only [ffiGet, he, hau, demarshal_at hE t id T.length w m a none hd (den_fuel hI hd) this, Out.bind]

theorem addressLoop_eq {s al : Nat} (hs : al ∣ s) (hal : 0 < al) : ∀ (i p : Nat), al ∣ p → addressLoop s al i p = p + i * s := by
  intro i
  induction i with
  | zero => intro p _; simp [addressLoop]
  | succ i ih =>
    intro p hp
    rw [addressLoop, alignUp_eq _ _ hal, roundUp_dvd hp, ih _ (Nat.dvd_add hp hs), Nat.add_mul, Nat.one_mul]
    omega

/-- The elements of a block made by `ffi-new` lie in it and do not touch each other.  Partial:
types that need no padding at the end. -/
theorem C101_array_partial {E : Env} (hE : EnvOk E) {T : Table} (hT : Reachable T) {id a count n : Nat} {t : CType}
    (hd : Den T id t) (hp : Proper t) (ha : calign t ∣ a) (hs : calign t ∣ bare t) (hn : newSize T id count = .ok n)
    {i j : Nat} (hi : i < count) (hj : j < count) (hij : i ≠ j) (m : Mem) {v w v2 w2 : Value}
    (hv : canon E (2 ^ 63) t v = some w) (hv2 : canon E (2 ^ 63) t v2 = some w2) :
    ∃ ai aj m1 m2, addressOf T id a i = .ok ai ∧ addressOf T id a j = .ok aj ∧
      ffiSet E T m id ai v = .ok m1 ∧ ffiSet E T m1 id aj v2 = .ok m2 ∧ ffiGet E T m2 id ai = .ok (w, m2) ∧
      ∀ x, x < a ∨ a + n ≤ x → m2 x = m x := by
  have hI := reachable_inv hT
  obtain ⟨e, he, hsz, hal⟩ := den_size hI t id hd hp
  have hn : e.size * count = n := by simpa [newSize, he] using hn
  rw [hsz] at hn
  have hai : calign t ∣ a + i * bare t := Nat.dvd_add ha (Dvd.dvd.mul_left hs _)
  have haj : calign t ∣ a + j * bare t := Nat.dvd_add ha (Dvd.dvd.mul_left hs _)
  have hau : ∀ p, calign t ∣ p → alignUp p e.align = p := fun p h => by
    rw [hal, alignUp_eq _ _ (calign_pos t), roundUp_dvd h]
  obtain ⟨m1, h1, h2, h3⟩ := marshal_at hE t id T.length v w m (a + i * bare t) hd (den_fuel hI hd) hv
  obtain ⟨m2, k1, k2, k3⟩ := marshal_at hE t id T.length v2 w2 m1 (a + j * bare t) hd (den_fuel hI hd) hv2
  have hpb := packed_le_bare t
  have bound : ∀ k, k < count → k * bare t + bare t ≤ n := by
    intro k hk
    rw [← hn, ← Nat.succ_mul, Nat.mul_comm (bare t)]
    exact Nat.mul_le_mul_right _ hk
  have sep : i * bare t + bare t ≤ j * bare t ∨ j * bare t + bare t ≤ i * bare t := by
    rcases lt_or_gt_of_ne hij with h | h
    · left; rw [← Nat.succ_mul]; exact Nat.mul_le_mul_right _ h
    · right; rw [← Nat.succ_mul]; exact Nat.mul_le_mul_right _ h
  have hat : At E m2 t (a + i * bare t) w :=
    at_congr t _ w (fun x hx1 hx2 => (k3 x (by omega)).symm) h2
  refine ⟨a + i * bare t, a + j * bare t, m1, m2, ?_, ?_, ?_, ?_, ?_, ?_⟩
  · simp only [addressOf, he, hsz, hal]
    rw [addressLoop_eq hs (calign_pos t) i a ha]
  · simp only [addressOf, he, hsz, hal]
    rw [addressLoop_eq hs (calign_pos t) j a ha]
  · simp only [ffiSet, he, hau _ hai, h1, Out.bind]
  · simp only [ffiSet, he, hau _ haj, k1, Out.bind]
  · simp only [ffiGet, he, hau _ hai, demarshal_at hE t id T.length w m2 _ none hd (den_fuel hI hd) hat, Out.bind]
  · intro x hx
    have b1 := bound i hi
    have b2 := bound j hj
    rw [k3 x (by omega), h3 x (by omega)]

/-! ### calls -/

/-- The addresses hold the arguments as C lays them out. -/
def ArgsHeld (E : Env) (m : Mem) : List Nat → List CType → List Value → Prop
  | [], [], [] => True
  | a :: as, t :: ts, w :: ws => Holds E m a t w ∧ ArgsHeld E m as ts ws
  | _, _, _ => False

/-- The same without padding. -/
def ArgsAt (E : Env) (m : Mem) : List CType → Nat → List Nat → List Value → Prop
  | [], _, as, ws => as = [] ∧ ws = []
  | t :: ts, p, as, ws => ∃ as' w ws', as = p :: as' ∧ ws = w :: ws' ∧ At E m t p w ∧ ArgsAt E m ts (p + packed t) as' ws'

theorem argsHeld_of {E : Env} {m : Mem} : ∀ (ts : List CType) (p : Nat) (as : List Nat) (ws : List Value),
    (∀ t ∈ ts, NoPadding t) → ArgsAt E m ts p as ws → ArgsHeld E m as ts ws
  | [], _, _, _, _, ⟨rfl, rfl⟩ => trivial
  | t :: ts, p, _, _, hn, ⟨as', w, ws', rfl, rfl, h1, h2⟩ =>
    ⟨holds_of_at t p w (hn t List.mem_cons_self) h1,
     argsHeld_of ts _ as' ws' (fun t ht => hn t (List.mem_cons_of_mem _ ht)) h2⟩

theorem applyArgs_at {E : Env} (hE : EnvOk E) {T : Table} (hT : Inv T) : ∀ (ts : List CType) (ids : List Nat)
    (vs ws : List Value) (m : Mem) (p : Nat), Dens T ids ts → canons E (2 ^ 63) ts vs = some ws →
    ∃ as m', applyArgs E T ids (listOf vs) m p = .ok (as, m', p + packeds ts) ∧ ArgsAt E m' ts p as ws ∧
      ∀ x, x < p ∨ p + packeds ts ≤ x → m' x = m x := by
  intro ts
  induction ts with
  | nil =>
    intro ids vs ws m p hd hc
    have hd : ids = [] := hd
    subst hd
    simp only [canons] at hc
    split at hc
    · cases hc
      exact ⟨[], m, rfl, ⟨rfl, rfl⟩, fun _ _ => rfl⟩
    · cases hc
  | cons t ts ih =>
    rintro ids vs ws m p ⟨i, is, rfl, hd, hds⟩ hc
    cases vs with
    | nil => simp [canons] at hc
    | cons v vs =>
      simp only [canons, Option.bind_eq_some_iff, Option.map_eq_some_iff] at hc
      obtain ⟨w, hw, ws', hws, rfl⟩ := hc
      obtain ⟨m1, h1, h2, h3⟩ := marshal_at hE t i T.length v w m p hd (den_fuel hT hd) hw
      obtain ⟨as, m2, k1, k2, k3⟩ := ih is vs ws' m1 (p + packed t) hds hws
      refine ⟨p :: as, m2, ?_, ⟨as, w, ws', rfl, rfl, ?_, k2⟩, ?_⟩
      · simp only [listOf, applyArgs, h1, Out.bind, k1, packeds, Nat.add_assoc]
      · exact at_congr t p w (fun x hx1 hx2 => (k3 x (Or.inl hx2)).symm) h2
      · intro x hx
        simp only [packeds] at hx
        rw [k3 x (by omega), h3 x (by omega)]

theorem argsSize_ge {T : Table} (hT : Inv T) : ∀ (ts : List CType) (ids : List Nat) (n : Nat), Dens T ids ts → Propers ts →
    n + packeds ts ≤ argsSize T ids n := by
  intro ts
  induction ts with
  | nil =>
    intro ids n hd _
    have hd : ids = [] := hd
    subst hd; exact Nat.le_refl _
  | cons t ts ih =>
    rintro ids n ⟨i, is, rfl, hd, hds⟩ hp
    obtain ⟨e, he, hsz, hal⟩ := den_size hT t i hd hp.1
    have h1 := packed_le_bare t
    simp only [argsSize, he, packeds]
    have h2 : n ≤ if e.align > 1 then alignUp n e.align else n := by
      split
      · rw [hal, alignUp_eq _ _ (calign_pos t)]; exact roundUp_le _ _
      · exact Nat.le_refl _
    have := ih is ((if e.align > 1 then alignUp n e.align else n) + e.size) hds hp.2
    omega

mutual
theorem bare_pos : ∀ t : CType, Proper t → 0 < bare t
  | .prim p, _ => primSize_pos p
  | .struct ts, h => bares_pos ts h.1 h.2
theorem bares_pos : ∀ ts : List CType, ts ≠ [] → Propers ts → 0 < bares ts 0
  | [], h, _ => absurd rfl h
  | t :: ts, _, hp => by
    have h1 := bare_pos t hp.1
    have h2 := packeds_le_bares ts (roundUp 0 (calign t) + bare t)
    simp only [bares]; omega
end

/-- A C function finds its arguments, the array for them is not overrun, and its result is
returned.  Partial: types without padding. -/
theorem C101_call_partial {E : Env} (hE : EnvOk E) {T : Table} (hT : Reachable T) {r : Nat} {args : List Nat}
    {iface : Iface} (hi : ffiInterface T (some r) args = .ok iface) {tr : CType} {ts : List CType} (hr : Den T r tr)
    (ha : Dens T args ts) (hpr : Proper tr) (hpa : Propers ts) (hnr : NoPadding tr ∨ tr = .prim .void)
    (hna : ∀ t ∈ ts, NoPadding t)
    {vs ws : List Value} (hc : canons E (2 ^ 63) ts vs = some ws) (m : Mem) (base ret : Nat) :
    ∃ as m1, ArgsHeld E m1 as ts ws ∧ (∀ x, x < base ∨ base + iface.argsSize ≤ x → m1 x = m x) ∧
      ∀ callee w, canon E (2 ^ 63) tr w = some w → Holds E (callee m1 as) ret tr w →
        ffiApply E T iface m base ret callee (listOf vs) = .ok (w, callee m1 as) := by
  have hI := reachable_inv hT
  unfold ffiInterface at hi
  split at hi
  · next hv =>
    cases hi
    obtain ⟨as, m1, h1, h2, h3⟩ := applyArgs_at hE hI ts args vs ws m base ha hc
    refine ⟨as, m1, argsHeld_of ts base as ws hna h2, ?_, ?_⟩
    · intro x hx
      have := argsSize_ge hI ts args 0 ha hpa
      simp only at hx
      exact h3 x (by omega)
    · intro callee w hw hh
      obtain ⟨e, he, hsz, hal⟩ := den_size hI tr r hr hpr
      have hat : At E (callee m1 as) tr ret w := by
        rcases hnr with hn | rfl
        · exact at_of_holds tr ret w hn hw hh
        · exact ⟨hw, hh⟩
      have hpos : e.size ≠ 0 := by
        rw [hsz]
        exact Nat.pos_iff_ne_zero.1 (bare_pos tr hpr)
      simp only [ffiApply, h1, Out.bind, Option.getD_some, he]
      rw [if_pos hpos]
      simp only [demarshal_at hE tr r T.length w _ ret _ hr (den_fuel hI hr) hat, Out.bind]
  · cases hi

/-! ### conversion functions -/

theorem findEqual_some {n : Nat} {e : Entry} : ∀ {T : Table} {j k : Nat}, findEqual n e j T = some k →
    ∃ b, j ≤ k ∧ T[k - j]? = some b ∧ equalP n e k b = true := by
  intro T
  induction T with
  | nil => intro j k h; cases h
  | cons b bs ih =>
    intro j k h
    simp only [findEqual] at h
    split at h
    · next hb => cases h; exact ⟨b, Nat.le_refl _, by simp, hb⟩
    · obtain ⟨c, h1, h2, h3⟩ := ih h
      refine ⟨c, by omega, ?_, h3⟩
      rw [show k - j = (k - (j + 1)) + 1 by omega, List.getElem?_cons_succ, h2]

/-- A type with conversion functions: `ffi-set!` stores the converted value.  Partial: no other type
over the same C type has been made before, and only storing. -/
theorem C101_named_partial {E : Env} {T T' : Table} (hT : Reachable T) {b p i o id : Nat} {e : Entry}
    (hb : T[b]? = some e) (h : ffiType T b p i o = .ok (T', id))
    (hg : ∀ b' ty s a p' i' o', Entry.named b' ty s a p' i' o' ∈ T → ty = e.type b → b' = b ∧ p' = p ∧ i' = i ∧ o' = o)
    (m : Mem) (a : Nat) (v : Value) :
    ffiSet E T' m id a v = match E.call i v with
      | some v' => ffiSet E T' m b a v'
      | none => .err := by
  have hT' : Reachable T' := Reachable.named hT h
  have hI := reachable_inv hT'
  have key : ∃ ty, T'[id]? = some (.named b ty e.size e.align p i o) ∧ T'[b]? = some e := by
    unfold ffiType at h
    rw [hb] at h
    simp only [Out.ok.injEq] at h
    rcases allocType_cases T (.named b (e.type b) e.size e.align p i o) with ⟨j, h1, h2⟩ | ⟨h1, h2⟩
    · rw [h2] at h; cases h
      obtain ⟨c, -, h3, h4⟩ := findEqual_some h1
      simp only [Nat.sub_zero] at h3
      cases c with
      | prim q => simp [equalP] at h4
      | struct is s al => simp [equalP] at h4
      | named b' ty s al p' i' o' =>
        have : b' = b ∧ p' = p ∧ i' = i ∧ o' = o := by
          simp only [equalP, Bool.or_eq_true, decide_eq_true_eq, Bool.and_eq_true] at h4
          rcases h4 with h4 | ⟨⟨⟨h4, h5⟩, h6⟩, h7⟩
          · exact hg _ _ _ _ _ _ _ (List.mem_of_getElem? h3) h4.symm
          · exact ⟨h4.symm, h5.symm, h6.symm, h7.symm⟩
        obtain ⟨rfl, rfl, rfl, rfl⟩ := this
        obtain ⟨-, e', k1, k2, k3⟩ := hI _ _ h3
        rw [hb] at k1
        cases k1
        subst k2; subst k3
        exact ⟨ty, h3, hb⟩
    · rw [h2] at h; cases h
      exact ⟨e.type b, by simp, by rw [List.getElem?_append_left (List.getElem?_eq_some_iff.1 hb).1, hb]⟩
  obtain ⟨ty, h1, h2⟩ := key
  have hlt : b < id := (hI _ _ h1).1
  have hlen : id < T'.length := (List.getElem?_eq_some_iff.1 h1).1
  obtain ⟨f, hf⟩ : ∃ f, T'.length = f + 1 := ⟨T'.length - 1, by omega⟩
  have hal : (Entry.named b ty e.size e.align p i o).align = e.align := rfl
  simp only [ffiSet, h1, h2]
  rw [hf, hal]
  have e1 : marshal E T' (f + 1) id v m (alignUp a e.align) = match E.call i v with
      | some v' => marshal E T' f b v' m (alignUp a e.align)
      | none => .err := by
    simp only [marshal, h1]
    cases E.call i v <;> rfl
  rw [e1]
  cases E.call i v with
  | none => rfl
  | some v' => simp only [marshal_fuel E hI b f (f + 1) (by omega) (by omega), Out.bind]

/-! ### examples, and where the claims fail -/

/-- Floats that are only their bits; function 1 adds one, function 2 takes one away, function 3 adds
two, no other numbers are functions. -/
def someEnv : Env where
  toLong b := b
  ofInt z := z.toNat % 2 ^ 64
  narrow b := b % 2 ^ 32
  widen b := b
  extend b := b % 2 ^ 64
  reduce b := b
  call f v := match f, v with
    | 1, .int z => some (.int (z + 1))
    | 2, .int z => some (.int (z - 1))
    | 3, .int z => some (.int (z + 2))
    | _, _ => none

theorem someEnv_ok : EnvOk someEnv where
  narrow b := Nat.mod_lt _ (by decide)
  ofInt z := Nat.mod_lt _ (by decide)
  extend b := lt_trans (Nat.mod_lt b (show 0 < 2 ^ 64 by decide)) (by decide)
  reduce b h := Nat.mod_eq_of_lt h

/-- `struct { int a; short b; short c; }`, one without padding, and `struct { char a; int b; }`. -/
def flat : CType := .struct [.prim .s32, .prim .s16, .prim .u16]
def holed : CType := .struct [.prim .u8, .prim .u32]
def tailed : CType := .struct [.prim .u32, .prim .u8]
def nested : CType := .struct [flat, .prim .pointer]

def table1 : Table := initTable ++ [.struct [6, 4, 3] 8 4]
def table2 : Table := table1 ++ [.struct [1, 5] 8 4]
def table3 : Table := table2 ++ [.struct [5, 1] 5 4]
def table4 : Table := table3 ++ [.struct [13, 12] 16 8]

theorem table4_reachable : Reachable table4 :=
  .struct (T := table3) (ids := [13, 12]) (id := 16) (.struct (T := table2) (ids := [5, 1]) (id := 15)
    (.struct (T := table1) (ids := [1, 5]) (id := 14)
      (.struct (T := initTable) (ids := [6, 4, 3]) (id := 13) .init rfl) rfl) rfl) rfl

theorem flat_den : Den table4 13 flat := ⟨[6, 4, 3], 8, 4, rfl, 6, [4, 3], rfl, rfl, 4, [3], rfl, rfl, 3, [], rfl, rfl, rfl⟩
theorem holed_den : Den table4 14 holed := ⟨[1, 5], 8, 4, rfl, 1, [5], rfl, rfl, 5, [], rfl, rfl, rfl⟩
theorem tailed_den : Den table4 15 tailed := ⟨[5, 1], 5, 4, rfl, 5, [1], rfl, rfl, 1, [], rfl, rfl, rfl⟩
theorem nested_den : Den table4 16 nested := ⟨[13, 12], 16, 8, rfl, 13, [12], rfl, flat_den, 12, [], rfl, rfl, rfl⟩

def noMem : Mem := fun _ => 0

/-- A list with a vector in it. -/
def someValue : Value := .cons (.vec [.int (-5), .int (-32768), .int 65535]) (.cons (.str 4096) .nil)
def someRead : Value := .vec [.vec [.int (-5), .int (-32768), .int 65535], .int 4096]

example : canon someEnv (2 ^ 63) nested someValue = some someRead := rfl
example : NoPadding nested ∧ Proper nested ∧ calign nested ∣ 4096 ∧ calign nested ∣ bare nested := by
  refine ⟨rfl, ?_, ?_, ?_⟩
  · simp [Proper, Propers, nested, flat]
  · exact ⟨512, rfl⟩
  · exact ⟨2, rfl⟩
example : canon someEnv (2 ^ 63) holed (.vec [.int 1, .int 2]) = some (.vec [.int 1, .int 2]) := rfl
example : ∃ x, ffiStruct initTable [6, 4, 3] = .ok (table1, x) := ⟨_, rfl⟩
example : Dens initTable [6, 4, 3] [.prim .s32, .prim .s16, .prim .u16] :=
  ⟨6, [4, 3], rfl, rfl, 4, [3], rfl, rfl, 3, [], rfl, rfl, rfl⟩
example : newSize table4 16 3 = .ok 48 := rfl
example : ∃ i, ffiInterface table4 (some 13) [1, 16] = .ok i := ⟨_, rfl⟩
example : canons someEnv (2 ^ 63) [.prim .u8, nested] [.int 200, someValue] = some [.int 200, someRead] := rfl
example : ∀ b' ty s a p' i' o', Entry.named b' ty s a p' i' o' ∉ table4 := by
  intro b' ty s a p' i' o' h
  simp [table4, table3, table2, table1, initTable] at h

/-- A structure with padding is not stored as C expects it: the fields are put one after the other. -/
theorem C101_padding_violated :
    ∃ (T : Table) (id : Nat) (t : CType) (v w : Value) (m' : Mem), Reachable T ∧ Den T id t ∧ Proper t ∧
      canon someEnv (2 ^ 63) t v = some w ∧ ffiSet someEnv T noMem id 4096 v = .ok m' ∧ ¬ Holds someEnv m' 4096 t w := by
  refine ⟨table4, 14, holed, .vec [.int 1, .int 2], .vec [.int 1, .int 2], _, table4_reachable, holed_den,
    by simp [Proper, Propers, holed], rfl, rfl, ?_⟩
  rintro ⟨ws, h, h2⟩
  simp only [Value.vec.injEq] at h
  subst h
  obtain ⟨w, ws', e, -, h3⟩ := h2
  cases e
  obtain ⟨w, ws', e, ⟨bs, h4, h5⟩, -⟩ := h3
  cases e
  have h4 : some (le 4 2) = some bs := h4
  cases h4
  exact absurd h5 (by decide)

/-- A block for two structures that need padding at the end is too small for the second. -/
theorem C101_block_violated :
    ∃ (T : Table) (id n a2 : Nat) (t : CType) (v w : Value) (m' : Mem) (x : Nat), Reachable T ∧ Den T id t ∧ Proper t ∧
      canon someEnv (2 ^ 63) t v = some w ∧ newSize T id 2 = .ok n ∧ addressOf T id 4096 1 = .ok a2 ∧
      ffiSet someEnv T noMem id a2 v = .ok m' ∧ 4096 + n ≤ x ∧ m' x ≠ noMem x := by
  refine ⟨table4, 15, 10, 4101, tailed, .vec [.int (2 ^ 32 - 1), .int 1], .vec [.int (2 ^ 32 - 1), .int 1], _, 4106,
    table4_reachable, tailed_den, by simp [Proper, Propers, tailed], rfl, rfl, rfl, rfl, by decide, by decide⟩

/-- Unsigned integers of 64 bits from 2^63 on lose their highest bit when they are stored, and are
negative when they are read. -/
theorem C101_u64_violated :
    (∃ v m', canon someEnv (2 ^ 64) (.prim .u64) v = some v ∧ ffiSet someEnv initTable noMem 7 4096 v = .ok m' ∧
      ffiGet someEnv initTable m' 7 4096 = .ok (.int 0, m') ∧ v = .int (2 ^ 63)) ∧
    ∃ m, Holds someEnv m 4096 (.prim .u64) (.int (2 ^ 64 - 1)) ∧
      ffiGet someEnv initTable m 7 4096 = .ok (.int (-1), m) := by
  have hb : primBytes someEnv (.int (2 ^ 63)) .u64 = [0, 0, 0, 0, 0, 0, 0, 0] := by decide
  refine ⟨⟨.int (2 ^ 63), store noMem 4096 [0, 0, 0, 0, 0, 0, 0, 0], rfl, ?_, rfl, rfl⟩, fun _ => 255, ⟨_, rfl, ?_⟩, rfl⟩
  · show Out.ok (store noMem 4096 (primBytes someEnv (.int (2 ^ 63)) .u64)) = _
    rw [hb]
  · decide

/-- Values out of range and values that are not numbers are stored without an error. -/
theorem C101_range_violated :
    (∃ m', ffiSet someEnv initTable noMem 1 4096 (.int 300) = .ok m' ∧
      ffiGet someEnv initTable m' 1 4096 = .ok (.int 44, m')) ∧
    ∃ m', ffiSet someEnv initTable noMem 1 4096 .nil = .ok m' ∧
      ffiGet someEnv initTable m' 1 4096 = .ok (.int 0, m') :=
  ⟨⟨_, rfl, rfl⟩, _, rfl, rfl⟩

/-- A vector that is too short is read beyond its end. -/
theorem C101_short_violated : ffiSet someEnv table4 noMem 14 4096 (.vec [.int 1]) = .ub := rfl

/-- The second type with conversion functions over a C type is the first one: its own functions are
never used. -/
theorem C101_conversions_violated :
    ∃ (T1 T2 : Table) (id id2 : Nat) (m' : Mem), ffiType initTable 6 0 1 2 = .ok (T1, id) ∧
      ffiType T1 6 0 3 2 = .ok (T2, id2) ∧ ffiSet someEnv T2 noMem id2 4096 (.int 5) = .ok m' ∧
      someEnv.call 3 (.int 5) = some (.int 7) ∧ ffiGet someEnv T2 m' 6 4096 = .ok (.int 6, m') :=
  ⟨_, _, _, _, _, rfl, rfl, rfl, rfl, rfl⟩

/-- Reading through a type with conversion functions uses a value that was never set; as the
result of a call it overwrites what the function returned and converts the undefined value. -/
theorem C101_get_violated :
    ∃ (T : Table) (id : Nat), ffiType initTable 6 0 1 2 = .ok (T, id) ∧
      (∀ m a, ffiGet someEnv T m id a = .ub) ∧
      ∀ iface, ffiInterface T (some id) [] = .ok iface →
        ffiApply someEnv T iface noMem 0 4096 (fun m _ => store m 4096 (le 4 7)) .nil = .err := by
  refine ⟨_, _, rfl, fun m a => rfl, ?_⟩
  intro iface h
  cases h
  rfl

/-- A type made without conversion functions can never be used: `nil` is called. -/
theorem C101_nil_violated (E : Env) (nilFn : Nat) (hn : ∀ v, E.call nilFn v = none) :
    ∃ (T : Table) (id : Nat), ffiType initTable 6 nilFn nilFn nilFn = .ok (T, id) ∧
      ∀ m a v, ffiSet E T m id a v = .err := by
  refine ⟨_, _, rfl, ?_⟩
  intro m a v
  have h := C101_named_partial (E := E) (T := initTable) .init (b := 6) (p := nilFn) (i := nilFn) (o := nilFn) rfl rfl
    (by intro b' ty s a p' i' o' h; simp [initTable] at h) m a v
  rw [hn] at h
  exact h

/-- An empty structure makes the size of the structure around it too small. -/
theorem C101_empty_violated :
    ∃ (T1 T2 : Table) (e id : Nat), ffiStruct initTable [] = .ok (T1, e) ∧ ffiStruct T1 [5, e] = .ok (T2, id) ∧
      newSize T2 id 1 = .ok 0 :=
  ⟨_, _, _, _, rfl, rfl, rfl⟩

end Rep.Ffi
