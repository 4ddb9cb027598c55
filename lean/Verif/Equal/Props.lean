/-
Properties C09 (`equal`) and C10 (hash functions).
-/
import Verif.Equal.Model
import Verif.Num.Lemmas2
import Verif.Tables.Props

namespace Rep.Equal

open Rep.Number (Num toCInt value Canonical)

/-! ### Specification -/

/-- The structure of an object: numbers by value, strings by their bytes.  `f` tells
what is retained of a symbol's identity. -/
inductive Shape where
  | num (q : Rat)
  | str (s : List Nat)
  | sym (id : Nat) (name : List Nat)
  | cons (car cdr : Shape)
  | vec (compiled : Bool) (xs : List Shape)
  | datum (id : Nat) (value : Shape)
  | other (type id : Nat)

mutual
def shape (f : Nat → Nat) : Obj → Shape
  | .num n => .num (value n)
  | .str s => .str s
  | .sym i s => .sym (f i) s
  | .cons a d => .cons (shape f a) (shape f d)
  | .vec c xs => .vec c (shapes f xs)
  | .datum i v => .datum i (shape f v)
  | .other t i => .other t i
def shapes (f : Nat → Nat) : List Obj → List Shape
  | [] => []
  | x :: xs => shape f x :: shapes f xs
end

/-- The parts of an object, including itself. -/
inductive Part : Obj → Obj → Prop
  | self (a : Obj) : Part a a
  | car {x a d : Obj} : Part x a → Part x (.cons a d)
  | cdr {x a d : Obj} : Part x d → Part x (.cons a d)
  | datum {x v : Obj} {i : Nat} : Part x v → Part x (.datum i v)
  | elt {x y : Obj} {c : Bool} {xs : List Obj} : y ∈ xs → Part x y → Part x (.vec c xs)

/-- No two different fixnums of the objects are a multiple of 2^32 apart, and no two
strings or symbol names have lengths a multiple of 2^32 apart. -/
structure NoWrap (a b : Obj) : Prop where
  fix : ∀ w w', Part (.num (.fix w)) a → Part (.num (.fix w')) b → (2 ^ 32 : Int) ∣ w - w' → w = w'
  str : ∀ s s', Part (.str s) a → Part (.str s') b → (2 ^ 32 : Int) ∣ (s.length : Int) - s'.length → s.length = s'.length
  sym : ∀ i j s s', Part (.sym i s) a → Part (.sym j s') b →
    (2 ^ 32 : Int) ∣ (s.length : Int) - s'.length → s.length = s'.length

/-- A symbol has one name. -/
def Names (a b : Obj) : Prop :=
  ∀ i s s', Part (.sym i s) a → Part (.sym i s') b → s = s'

/-- Different symbols have different names. -/
def UniqueNames (a b : Obj) : Prop :=
  ∀ i j s, Part (.sym i s) a → Part (.sym j s) b → i = j

/-! ### Proofs -/

theorem NoWrap.mono {a b a' b' : Obj} (h : NoWrap a b) (ha : ∀ x, Part x a' → Part x a) (hb : ∀ x, Part x b' → Part x b) :
    NoWrap a' b' :=
  ⟨fun w w' x y => h.fix w w' (ha _ x) (hb _ y), fun s s' x y => h.str s s' (ha _ x) (hb _ y),
    fun i j s s' x y => h.sym i j s s' (ha _ x) (hb _ y)⟩

theorem Names.mono {a b a' b' : Obj} (h : Names a b) (ha : ∀ x, Part x a' → Part x a) (hb : ∀ x, Part x b' → Part x b) :
    Names a' b' := fun i s s' x y => h i s s' (ha _ x) (hb _ y)

theorem toCInt_zero {x : Int} : toCInt x = 0 ↔ (2 ^ 32 : Int) ∣ x := by
  unfold toCInt
  rw [Int.bmod_def]
  constructor
  · intro h
    have := Int.emod_nonneg x (b := ((2 ^ 32 : Nat) : Int)) (by decide)
    have := Int.emod_lt_of_pos x (b := ((2 ^ 32 : Nat) : Int)) (by decide)
    split at h
    · exact Int.dvd_of_emod_eq_zero (by simpa using h)
    · omega
  · intro h
    have : x % ((2 ^ 32 : Nat) : Int) = 0 := Int.emod_eq_zero_of_dvd (by simpa using h)
    rw [this]; rfl

theorem memcmp_zero : ∀ {s t : List Nat}, s.length = t.length → (memcmp s t = 0 ↔ s = t)
  | [], [], _ => by simp [memcmp]
  | a :: as, b :: bs, h => by
    have ih := memcmp_zero (s := as) (t := bs) (by simpa using h)
    unfold memcmp
    split
    · constructor
      · intro h; simp at h
      · intro h; simp at h; omega
    · split
      · constructor
        · intro h; simp at h
        · intro h; simp at h; omega
      · rw [ih]
        have : a = b := by omega
        simp [this]

theorem memcmp_self : ∀ (s : List Nat), memcmp s s = 0
  | [] => rfl
  | a :: as => by simp [memcmp, memcmp_self as]

theorem stringCmp_zero {s t : List Nat} (h : (2 ^ 32 : Int) ∣ (s.length : Int) - t.length → s.length = t.length) :
    stringCmp s t = 0 ↔ s = t := by
  unfold stringCmp
  constructor
  · intro h0
    simp only at h0
    split at h0
    · rename_i hne; exact absurd h0 hne
    · rename_i hz
      rw [toCInt_zero] at h0
      exact (memcmp_zero (h h0)).mp (by simpa using hz)
  · rintro rfl
    simp [memcmp_self, toCInt]

theorem compare_zero {a b : Num} (h : ∀ w w', a = .fix w → b = .fix w' → (2 ^ 32 : Int) ∣ w - w' → w = w') :
    Rep.Number.compare a b = 0 ↔ value a = value b := by
  by_cases hf : ∃ w w', a = .fix w ∧ b = .fix w'
  · obtain ⟨w, w', rfl, rfl⟩ := hf
    have : Rep.Number.compare (.fix w) (.fix w') = toCInt (w - w') := rfl
    rw [this, toCInt_zero]
    simp only [value]
    constructor
    · intro hd; exact_mod_cast h w w' rfl rfl hd
    · intro he
      have : w = w' := by exact_mod_cast he
      simp [this]
  · refine (Rep.Number.compare_spec ?_).2
    intro w w' h1 h2
    exact absurd ⟨w, w', h1, h2⟩ hf

theorem shapes_length (f : Nat → Nat) : ∀ xs, (shapes f xs).length = xs.length
  | [] => rfl
  | x :: xs => by simp [shapes, shapes_length f xs]

mutual
theorem valueCmp_zero {same : Obj → Obj → Bool} (hs : ∀ a b, same a b = true → a = b) :
    ∀ (a b : Obj), NoWrap a b → Names a b →
      (valueCmp same a b = 0 ↔ shape (fun _ => 0) a = shape (fun _ => 0) b)
  | .num a, .num b, h, _ => by
    unfold valueCmp
    split
    · rename_i he; rw [hs _ _ he]; simp
    · rw [compare_zero (fun w w' h1 h2 => h.fix w w' (h1 ▸ .self _) (h2 ▸ .self _))]
      simp [shape]
  | .str a, .str b, h, _ => by
    unfold valueCmp
    split
    · rename_i he; rw [hs _ _ he]; simp
    · rw [stringCmp_zero (h.str a b (.self _) (.self _))]; simp [shape]
  | .sym i a, .sym j b, h, hn => by
    unfold valueCmp
    split
    · rename_i he; rw [hs _ _ he]; simp
    · split
      · rename_i hij; subst hij
        simp [shape, hn i a b (.self _) (.self _)]
      · rw [stringCmp_zero (h.sym i j a b (.self _) (.self _))]; simp [shape]
  | .cons a d, .cons a' d', h, hn => by
    have ih1 := valueCmp_zero hs a a' (h.mono (fun _ => .car) (fun _ => .car)) (hn.mono (fun _ => .car) (fun _ => .car))
    have ih2 := valueCmp_zero hs d d' (h.mono (fun _ => .cdr) (fun _ => .cdr)) (hn.mono (fun _ => .cdr) (fun _ => .cdr))
    unfold valueCmp
    split
    · rename_i he; rw [hs _ _ he]; simp
    · simp only [shape, Shape.cons.injEq]
      rw [← ih1, ← ih2]
      split
      · rename_i h0; simp [h0]
      · rename_i h0; simp [h0]
  | .vec c xs, .vec c' ys, h, hn => by
    unfold valueCmp
    split
    · rename_i he; rw [hs _ _ he]; simp
    · simp only [shape, Shape.vec.injEq]
      split
      · rename_i hc
        rw [listCmp_zero hs xs ys hc.2 (fun x hx y hy => h.mono (fun _ => .elt hx) (fun _ => .elt hy))
          (fun x hx y hy => hn.mono (fun _ => .elt hx) (fun _ => .elt hy))]
        simp [hc.1]
      · rename_i hc
        constructor
        · intro h1; simp at h1
        · rintro ⟨h1, h2⟩
          have := congrArg List.length h2
          rw [shapes_length, shapes_length] at this
          exact absurd ⟨h1, this⟩ hc
  | .datum i v, .datum j w, h, hn => by
    have ih := valueCmp_zero hs v w (h.mono (fun _ => .datum) (fun _ => .datum)) (hn.mono (fun _ => .datum) (fun _ => .datum))
    unfold valueCmp
    split
    · rename_i he; rw [hs _ _ he]; simp
    · simp only [shape, Shape.datum.injEq]
      split
      · rename_i hij; rw [ih]; simp [hij]
      · rename_i hij; simp [hij]
  | .other t i, .other t' j, _, _ => by simp [valueCmp, shape]
  | .num _, .datum _ _, _, _ => by simp [valueCmp, shape]
  | .datum _ _, .num _, _, _ => by simp [valueCmp, shape]
  | .str _, .datum _ _, _, _ => by simp [valueCmp, shape]
  | .datum _ _, .str _, _, _ => by simp [valueCmp, shape]
  | .sym _ _, .datum _ _, _, _ => by simp [valueCmp, shape]
  | .datum _ _, .sym _ _, _, _ => by simp [valueCmp, shape]
  | .cons _ _, .datum _ _, _, _ => by simp [valueCmp, shape]
  | .datum _ _, .cons _ _, _, _ => by simp [valueCmp, shape]
  | .vec _ _, .datum _ _, _, _ => by simp [valueCmp, shape]
  | .datum _ _, .vec _ _, _, _ => by simp [valueCmp, shape]
  | .other _ _, .datum _ _, _, _ => by simp [valueCmp, shape]
  | .datum _ _, .other _ _, _, _ => by simp [valueCmp, shape]
  | .num _, .str _, _, _ => by simp [valueCmp, shape]
  | .num _, .sym _ _, _, _ => by simp [valueCmp, shape]
  | .num _, .cons _ _, _, _ => by simp [valueCmp, shape]
  | .num _, .vec _ _, _, _ => by simp [valueCmp, shape]
  | .num _, .other _ _, _, _ => by simp [valueCmp, shape]
  | .str _, .num _, _, _ => by simp [valueCmp, shape]
  | .str _, .sym _ _, _, _ => by simp [valueCmp, shape]
  | .str _, .cons _ _, _, _ => by simp [valueCmp, shape]
  | .str _, .vec _ _, _, _ => by simp [valueCmp, shape]
  | .str _, .other _ _, _, _ => by simp [valueCmp, shape]
  | .sym _ _, .num _, _, _ => by simp [valueCmp, shape]
  | .sym _ _, .str _, _, _ => by simp [valueCmp, shape]
  | .sym _ _, .cons _ _, _, _ => by simp [valueCmp, shape]
  | .sym _ _, .vec _ _, _, _ => by simp [valueCmp, shape]
  | .sym _ _, .other _ _, _, _ => by simp [valueCmp, shape]
  | .cons _ _, .num _, _, _ => by simp [valueCmp, shape]
  | .cons _ _, .str _, _, _ => by simp [valueCmp, shape]
  | .cons _ _, .sym _ _, _, _ => by simp [valueCmp, shape]
  | .cons _ _, .vec _ _, _, _ => by simp [valueCmp, shape]
  | .cons _ _, .other _ _, _, _ => by simp [valueCmp, shape]
  | .vec _ _, .num _, _, _ => by simp [valueCmp, shape]
  | .vec _ _, .str _, _, _ => by simp [valueCmp, shape]
  | .vec _ _, .sym _ _, _, _ => by simp [valueCmp, shape]
  | .vec _ _, .cons _ _, _, _ => by simp [valueCmp, shape]
  | .vec _ _, .other _ _, _, _ => by simp [valueCmp, shape]
  | .other _ _, .num _, _, _ => by simp [valueCmp, shape]
  | .other _ _, .str _, _, _ => by simp [valueCmp, shape]
  | .other _ _, .sym _ _, _, _ => by simp [valueCmp, shape]
  | .other _ _, .cons _ _, _, _ => by simp [valueCmp, shape]
  | .other _ _, .vec _ _, _, _ => by simp [valueCmp, shape]
theorem listCmp_zero {same : Obj → Obj → Bool} (hs : ∀ a b, same a b = true → a = b) :
    ∀ (xs ys : List Obj), xs.length = ys.length → (∀ x ∈ xs, ∀ y ∈ ys, NoWrap x y) → (∀ x ∈ xs, ∀ y ∈ ys, Names x y) →
      (listCmp same xs ys = 0 ↔ shapes (fun _ => 0) xs = shapes (fun _ => 0) ys)
  | [], [], _, _, _ => by simp [listCmp, shapes]
  | x :: xs, y :: ys, hl, h, hn => by
    have ih1 := valueCmp_zero hs x y (h x (by simp) y (by simp)) (hn x (by simp) y (by simp))
    have ih2 := listCmp_zero hs xs ys (by simpa using hl)
      (fun x hx y hy => h x (by simp [hx]) y (by simp [hy])) (fun x hx y hy => hn x (by simp [hx]) y (by simp [hy]))
    unfold listCmp
    simp only [shapes, List.cons.injEq]
    rw [← ih1, ← ih2]
    split
    · rename_i h0; simp [h0]
    · rename_i h0; simp [h0]
  | [], _ :: _, hl, _, _ => by simp at hl
  | _ :: _, [], hl, _, _ => by simp at hl
end

mutual
theorem shape_ids : ∀ (a b : Obj), UniqueNames a b →
    (shape (fun _ => 0) a = shape (fun _ => 0) b ↔ shape id a = shape id b)
  | .num _, b, _ => by cases b <;> simp [shape]
  | .str _, b, _ => by cases b <;> simp [shape]
  | .sym i s, .sym j s', h => by
    simp only [shape, Shape.sym.injEq, true_and, id]
    constructor
    · rintro rfl; exact ⟨h i j s (.self _) (.self _), rfl⟩
    · exact fun h => h.2
  | .cons a d, .cons a' d', h => by
    simp only [shape, Shape.cons.injEq]
    rw [shape_ids a a' (fun i j s x y => h i j s (.car x) (.car y)),
      shape_ids d d' (fun i j s x y => h i j s (.cdr x) (.cdr y))]
  | .vec c xs, .vec c' ys, h => by
    simp only [shape, Shape.vec.injEq]
    rw [shapes_ids xs ys (fun x hx y hy i j s p q => h i j s (.elt hx p) (.elt hy q))]
  | .datum i v, .datum j w, h => by
    simp only [shape, Shape.datum.injEq]
    rw [shape_ids v w (fun i j s x y => h i j s (.datum x) (.datum y))]
  | .other _ _, b, _ => by cases b <;> simp [shape]
  | .datum _ _, .num _, _ => by simp [shape]
  | .datum _ _, .str _, _ => by simp [shape]
  | .datum _ _, .sym _ _, _ => by simp [shape]
  | .datum _ _, .cons _ _, _ => by simp [shape]
  | .datum _ _, .vec _ _, _ => by simp [shape]
  | .datum _ _, .other _ _, _ => by simp [shape]
  | .sym _ _, .datum _ _, _ => by simp [shape]
  | .cons _ _, .datum _ _, _ => by simp [shape]
  | .vec _ _, .datum _ _, _ => by simp [shape]
  | .sym _ _, .num _, _ => by simp [shape]
  | .sym _ _, .str _, _ => by simp [shape]
  | .sym _ _, .cons _ _, _ => by simp [shape]
  | .sym _ _, .vec _ _, _ => by simp [shape]
  | .sym _ _, .other _ _, _ => by simp [shape]
  | .cons _ _, .num _, _ => by simp [shape]
  | .cons _ _, .str _, _ => by simp [shape]
  | .cons _ _, .sym _ _, _ => by simp [shape]
  | .cons _ _, .vec _ _, _ => by simp [shape]
  | .cons _ _, .other _ _, _ => by simp [shape]
  | .vec _ _, .num _, _ => by simp [shape]
  | .vec _ _, .str _, _ => by simp [shape]
  | .vec _ _, .sym _ _, _ => by simp [shape]
  | .vec _ _, .cons _ _, _ => by simp [shape]
  | .vec _ _, .other _ _, _ => by simp [shape]
theorem shapes_ids : ∀ (xs ys : List Obj), (∀ x ∈ xs, ∀ y ∈ ys, UniqueNames x y) →
    (shapes (fun _ => 0) xs = shapes (fun _ => 0) ys ↔ shapes id xs = shapes id ys)
  | [], [], _ => by simp [shapes]
  | [], _ :: _, _ => by simp [shapes]
  | _ :: _, [], _ => by simp [shapes]
  | x :: xs, y :: ys, h => by
    simp only [shapes, List.cons.injEq]
    rw [shape_ids x y (h x (by simp) y (by simp)),
      shapes_ids xs ys (fun x hx y hy => h x (by simp [hx]) y (by simp [hy]))]
end

/-- **C09** (partial: no fixnums, and no lengths of strings, a multiple of 2^32 apart;
no two symbols of the same name): `equal` is true exactly for objects of the same
structure, with numbers compared by value, strings by their bytes, datums by the
identity of their type and by value, symbols and other objects by identity. -/
theorem C09_equal_partial (same : Obj → Obj → Bool) (hs : ∀ a b, same a b = true → a = b) (a b : Obj)
    (h : NoWrap a b) (hn : Names a b) (hu : UniqueNames a b) :
    equal same a b = true ↔ shape id a = shape id b := by
  rw [equal, beq_iff_eq, valueCmp_zero hs a b h hn, shape_ids a b hu]

/-- **C09** (partial, as above without the restriction on symbols): symbols are
compared by name. -/
theorem C09_equal_names_partial (same : Obj → Obj → Bool) (hs : ∀ a b, same a b = true → a = b) (a b : Obj)
    (h : NoWrap a b) (hn : Names a b) :
    equal same a b = true ↔ shape (fun _ => 0) a = shape (fun _ => 0) b := by
  rw [equal, beq_iff_eq, valueCmp_zero hs a b h hn]

/-- **C09** (partial): `equal` is an equivalence relation on such data. -/
theorem C09_equivalence_partial (same : Obj → Obj → Bool) (hs : ∀ a b, same a b = true → a = b) (S : Obj → Prop)
    (h : ∀ a b, S a → S b → NoWrap a b ∧ Names a b) :
    (∀ a, S a → equal same a a = true) ∧
    (∀ a b, S a → S b → equal same a b = true → equal same b a = true) ∧
    (∀ a b c, S a → S b → S c → equal same a b = true → equal same b c = true → equal same a c = true) := by
  have key : ∀ a b, S a → S b → (equal same a b = true ↔ shape (fun _ => 0) a = shape (fun _ => 0) b) :=
    fun a b ha hb => C09_equal_names_partial same hs a b (h a b ha hb).1 (h a b ha hb).2
  refine ⟨fun a ha => (key a a ha ha).mpr rfl, fun a b ha hb e => (key b a hb ha).mpr ((key a b ha hb).mp e).symm,
    fun a b c ha hb hc e1 e2 => (key a c ha hc).mpr (((key a b ha hb).mp e1).trans ((key b c hb hc).mp e2))⟩

/-- `(equal '(1 . "a") '(1 . "a"))` with different cells: the hypotheses hold. -/
example : let a := Obj.cons (.num (.fix 1)) (.str [97])
    NoWrap a a ∧ Names a a ∧ UniqueNames a a ∧ equal (fun _ _ => false) a a = true := by
  refine ⟨⟨?_, ?_, ?_⟩, ?_, ?_, by decide⟩
  · intro w w' h1 h2 _
    cases h1 with
    | car h1 => cases h1; cases h2 with
      | car h2 => cases h2; rfl
      | cdr h2 => cases h2
    | cdr h1 => cases h1
  · intro s s' h1 h2 _
    cases h1 with
    | car h1 => cases h1
    | cdr h1 => cases h1; cases h2 with
      | car h2 => cases h2
      | cdr h2 => cases h2; rfl
  · intro i j s s' h1
    cases h1 with
    | car h1 => cases h1
    | cdr h1 => cases h1
  · intro i s s' h1
    cases h1 with
    | car h1 => cases h1
    | cdr h1 => cases h1
  · intro i j s h1
    cases h1 with
    | car h1 => cases h1
    | cdr h1 => cases h1

/-- **C09 is false of the code for fixnums a multiple of 2^32 apart**, and for an
uninterned symbol with the name of another symbol; and with a bignum object for a
small integer (see C05) it is not transitive. -/
theorem C09_equal_violated (same : Obj → Obj → Bool) (hs : ∀ a b, same a b = true → a = b) :
    equal same (.num (.fix 0)) (.num (.fix (2 ^ 32))) = true ∧
    equal same (.sym 1 [97]) (.sym 2 [97]) = true ∧
    (equal same (.num (.fix (2 ^ 32))) (.num (.big (2 ^ 32))) = true ∧
      equal same (.num (.fix 0)) (.num (.big (2 ^ 32))) = false) := by
  have h1 : same (.num (.fix 0)) (.num (.fix (2 ^ 32))) = false := by
    by_contra h; have := hs _ _ (by simpa using h); simp at this
  have h2 : same (.sym 1 [97]) (.sym 2 [97]) = false := by
    by_contra h; have := hs _ _ (by simpa using h); simp at this
  have h3 : same (.num (.fix (2 ^ 32))) (.num (.big (2 ^ 32))) = false := by
    by_contra h; have := hs _ _ (by simpa using h); simp at this
  have h4 : same (.num (.fix 0)) (.num (.big (2 ^ 32))) = false := by
    by_contra h; have := hs _ _ (by simpa using h); simp at this
  simp only [equal, valueCmp, h1, h2, h3, h4]
  decide

/-! ### C10 -/

/-- All numbers of the object are canonical (no bignum object for a small integer). -/
def AllCanonical (a : Obj) : Prop := ∀ n, Part (.num n) a → Canonical n

theorem canonical_unique {a b : Num} (ha : Canonical a) (hb : Canonical b) (h : value a = value b) : a = b := by
  cases a <;> cases b <;> simp only [value] at h
  · simp; exact_mod_cast h
  · rename_i w z
    have : w = z := by exact_mod_cast h
    subst this; exact absurd ha hb
  · rename_i w q; rw [← h] at hb; simp [Canonical] at hb
  · rename_i z w
    have : z = w := by exact_mod_cast h
    subst this; exact absurd hb ha
  · simp; exact_mod_cast h
  · rename_i w q; rw [← h] at hb; simp [Canonical] at hb
  · rename_i q w; rw [h] at ha; simp [Canonical] at ha
  · rename_i q w; rw [h] at ha; simp [Canonical] at ha
  · simp [h]

mutual
theorem hash_congr (rh : Rat → Int) (dt : Nat) : ∀ (a b : Obj) (n : Int), AllCanonical a → AllCanonical b →
    shape (fun _ => 0) a = shape (fun _ => 0) b → equalHash rh dt a n = equalHash rh dt b n
  | .num a, .num b, n, ha, hb, h => by
    simp only [shape, Shape.num.injEq] at h
    rw [canonical_unique (ha a (.self _)) (hb b (.self _)) h]
  | .str a, .str b, n, _, _, h => by simp only [shape, Shape.str.injEq] at h; rw [h]
  | .sym i a, .sym j b, n, _, _, h => by
    simp only [shape, Shape.sym.injEq] at h; simp [equalHash, h.2]
  | .cons a d, .cons a' d', n, ha, hb, h => by
    simp only [shape, Shape.cons.injEq] at h
    unfold equalHash
    rw [hash_congr rh dt a a' _ (fun n p => ha n (.car p)) (fun n p => hb n (.car p)) h.1,
      hash_congr rh dt d d' _ (fun n p => ha n (.cdr p)) (fun n p => hb n (.cdr p)) h.2]
  | .vec c xs, .vec c' ys, n, ha, hb, h => by
    simp only [shape, Shape.vec.injEq] at h
    unfold equalHash
    rw [vecHash_congr rh dt xs ys n n (fun x hx n p => ha n (.elt hx p)) (fun x hx n p => hb n (.elt hx p)) h.2]
  | .datum i v, .datum j w, n, _, _, h => by simp [equalHash]
  | .other t i, .other t' j, n, _, _, h => by simp only [shape, Shape.other.injEq] at h; simp [equalHash, h.1]
  | .num _, .datum _ _, _, _, _, h => by simp [shape] at h
  | .datum _ _, .num _, _, _, _, h => by simp [shape] at h
  | .str _, .datum _ _, _, _, _, h => by simp [shape] at h
  | .datum _ _, .str _, _, _, _, h => by simp [shape] at h
  | .sym _ _, .datum _ _, _, _, _, h => by simp [shape] at h
  | .datum _ _, .sym _ _, _, _, _, h => by simp [shape] at h
  | .cons _ _, .datum _ _, _, _, _, h => by simp [shape] at h
  | .datum _ _, .cons _ _, _, _, _, h => by simp [shape] at h
  | .vec _ _, .datum _ _, _, _, _, h => by simp [shape] at h
  | .datum _ _, .vec _ _, _, _, _, h => by simp [shape] at h
  | .other _ _, .datum _ _, _, _, _, h => by simp [shape] at h
  | .datum _ _, .other _ _, _, _, _, h => by simp [shape] at h
  | .num _, .str _, _, _, _, h => by simp [shape] at h
  | .num _, .sym _ _, _, _, _, h => by simp [shape] at h
  | .num _, .cons _ _, _, _, _, h => by simp [shape] at h
  | .num _, .vec _ _, _, _, _, h => by simp [shape] at h
  | .num _, .other _ _, _, _, _, h => by simp [shape] at h
  | .str _, .num _, _, _, _, h => by simp [shape] at h
  | .str _, .sym _ _, _, _, _, h => by simp [shape] at h
  | .str _, .cons _ _, _, _, _, h => by simp [shape] at h
  | .str _, .vec _ _, _, _, _, h => by simp [shape] at h
  | .str _, .other _ _, _, _, _, h => by simp [shape] at h
  | .sym _ _, .num _, _, _, _, h => by simp [shape] at h
  | .sym _ _, .str _, _, _, _, h => by simp [shape] at h
  | .sym _ _, .cons _ _, _, _, _, h => by simp [shape] at h
  | .sym _ _, .vec _ _, _, _, _, h => by simp [shape] at h
  | .sym _ _, .other _ _, _, _, _, h => by simp [shape] at h
  | .cons _ _, .num _, _, _, _, h => by simp [shape] at h
  | .cons _ _, .str _, _, _, _, h => by simp [shape] at h
  | .cons _ _, .sym _ _, _, _, _, h => by simp [shape] at h
  | .cons _ _, .vec _ _, _, _, _, h => by simp [shape] at h
  | .cons _ _, .other _ _, _, _, _, h => by simp [shape] at h
  | .vec _ _, .num _, _, _, _, h => by simp [shape] at h
  | .vec _ _, .str _, _, _, _, h => by simp [shape] at h
  | .vec _ _, .sym _ _, _, _, _, h => by simp [shape] at h
  | .vec _ _, .cons _ _, _, _, _, h => by simp [shape] at h
  | .vec _ _, .other _ _, _, _, _, h => by simp [shape] at h
  | .other _ _, .num _, _, _, _, h => by simp [shape] at h
  | .other _ _, .str _, _, _, _, h => by simp [shape] at h
  | .other _ _, .sym _ _, _, _, _, h => by simp [shape] at h
  | .other _ _, .cons _ _, _, _, _, h => by simp [shape] at h
  | .other _ _, .vec _ _, _, _, _, h => by simp [shape] at h
theorem vecHash_congr (rh : Rat → Int) (dt : Nat) : ∀ (xs ys : List Obj) (n k : Int), (∀ x ∈ xs, AllCanonical x) →
    (∀ y ∈ ys, AllCanonical y) → shapes (fun _ => 0) xs = shapes (fun _ => 0) ys →
    vecHash rh dt xs n k = vecHash rh dt ys n k
  | [], [], _, _, _, _, _ => rfl
  | [], _ :: _, _, _, _, _, h => by simp [shapes] at h
  | _ :: _, [], _, _, _, _, h => by simp [shapes] at h
  | x :: xs, y :: ys, n, k, hx, hy, h => by
    simp only [shapes, List.cons.injEq] at h
    unfold vecHash
    rw [hash_congr rh dt x y _ (hx x (by simp)) (hy y (by simp)) h.1,
      vecHash_congr rh dt xs ys n (k - 1) (fun z hz => hx z (by simp [hz])) (fun z hz => hy z (by simp [hz])) h.2]
end

/-- **C10** (partial: canonical numbers; no fixnums or lengths a multiple of 2^32
apart): equal objects have equal hashes, for every depth. -/
theorem C10_hash_partial (same : Obj → Obj → Bool) (hs : ∀ a b, same a b = true → a = b) (rh : Rat → Int) (dt : Nat)
    (a b : Obj) (n : Int) (h : NoWrap a b) (hn : Names a b) (ha : AllCanonical a) (hb : AllCanonical b)
    (he : equal same a b = true) : equalHash rh dt a n = equalHash rh dt b n :=
  hash_congr rh dt a b n ha hb ((C09_equal_names_partial same hs a b h hn).mp he)

/-- **C10** (partial: except for conses): hashes are non-negative fixnums. -/
theorem C10_nonneg_partial (rh : Rat → Int) (dt : Nat) (a : Obj) (n : Int) (hc : ∀ x y, a ≠ .cons x y)
    (ht : ∀ t i, a = .other t i → t < 2 ^ 32) (hd : dt < 2 ^ 32) :
    0 ≤ equalHash rh dt a n ∧ equalHash rh dt a n < 2 ^ 61 := by
  have key : ∀ x, 0 ≤ mkInt (trunc x) ∧ mkInt (trunc x) < 2 ^ 61 := by
    intro x
    have h1 : 0 ≤ trunc x := Int.emod_nonneg _ (by decide)
    have h2 : trunc x < 2 ^ 61 := Int.emod_lt_of_pos _ (by decide)
    unfold mkInt
    rw [Int.bmod_eq_of_le (by omega) (by omega)]
    exact ⟨h1, h2⟩
  cases a with
  | num v => exact key _
  | str s => exact key _
  | sym i s => exact key _
  | vec c xs => unfold equalHash; exact key _
  | other t i =>
    have := ht t i rfl
    simp only [equalHash, mkInt]
    rw [Int.bmod_eq_of_le (by omega) (by omega)]
    omega
  | datum i v =>
    simp only [equalHash, mkInt]
    rw [Int.bmod_eq_of_le (by omega) (by omega)]
    omega
  | cons x y => exact absurd rfl (hc x y)

/-- **C10**: the hash of any object is a fixnum. -/
theorem C10_fixnum (rh : Rat → Int) (dt : Nat) (a : Obj) (n : Int) :
    -(2 ^ 61) ≤ equalHash rh dt a n ∧ equalHash rh dt a n < 2 ^ 61 := by
  have key : ∀ x, -(2 ^ 61) ≤ mkInt x ∧ mkInt x < 2 ^ 61 := by
    intro x
    unfold mkInt
    have h1 := Int.le_bmod (x := x) (m := 2 ^ 62) (by decide)
    have h2 := Int.bmod_lt (x := x) (m := 2 ^ 62) (by decide)
    constructor <;> omega
  cases a with
  | cons x y => unfold equalHash; split <;> exact key _
  | vec c xs => unfold equalHash; exact key _
  | num v => exact key _
  | str s => exact key _
  | sym i s => exact key _
  | datum i v => exact key _
  | other t i => exact key _

/-- **C10**: strings with the same bytes have the same hash, and so do equal strings
under `equal-hash`; the hash depends on the bytes before the first zero byte only. -/
theorem C10_string (s t : List Nat) (h : s.takeWhile (· ≠ 0) = t.takeWhile (· ≠ 0)) : hashString s = hashString t := by
  unfold hashString; rw [h]

example : AllCanonical (.cons (.num (.fix 1)) (.str [97])) := by
  intro n p
  cases p with
  | car p => cases p; simp [Canonical]
  | cdr p => cases p

/-- **C10 is false of the code**: 0 and 2^32 are `equal` with different hashes, so are
-1 and a bignum object for -1; and the hash of a cons can be negative. -/
theorem C10_hash_violated (same : Obj → Obj → Bool) (hs : ∀ a b, same a b = true → a = b) (rh : Rat → Int) (dt : Nat) :
    (equal same (.num (.fix 0)) (.num (.fix (2 ^ 32))) = true ∧
      equalHash rh dt (.num (.fix 0)) 32 ≠ equalHash rh dt (.num (.fix (2 ^ 32))) 32) ∧
    (equal same (.num (.fix (-1))) (.num (.big (-1))) = true ∧
      equalHash rh dt (.num (.fix (-1))) 32 ≠ equalHash rh dt (.num (.big (-1))) 32) ∧
    equalHash rh dt (.cons (.num (.fix (2 ^ 60))) (.num (.fix 0))) 32 < 0 := by
  refine ⟨⟨(C09_equal_violated same hs).1, ?_⟩, ⟨?_, ?_⟩, ?_⟩
  · simp only [equalHash, numHash]; decide
  · have h1 : same (.num (.fix (-1))) (.num (.big (-1))) = false := by
      by_contra h; have := hs _ _ (by simpa using h); simp at this
    simp only [equal, valueCmp, h1]; decide
  · simp only [equalHash, numHash]; decide
  · simp only [equalHash, numHash]; decide

/-- **C11** for tables made with `equal-hash` and `equal` (partial, as C09 and C10):
on keys for which those work, such a table is a finite map. -/
theorem C11_equal_table_partial (V : Type) (same : Obj → Obj → Bool) (hs : ∀ a b, same a b = true → a = b)
    (rh : Rat → Int) (dt : Nat) (S : Obj → Prop) (h : ∀ a b, S a → S b → NoWrap a b ∧ Names a b)
    (hcan : ∀ a, S a → AllCanonical a) (ops : List (Tables.Op {o // S o} V)) (k : {o // S o}) :
    let hash : {o // S o} → Nat := fun o => (equalHash rh dt o.1 32 % 2 ^ 64).toNat
    let eqv : {o // S o} → {o // S o} → Bool := fun a b => equal same a.1 b.1
    Tables.ref hash eqv (Tables.run hash eqv Tables.make ops) k = Tables.bindingOf eqv k ops := by
  obtain ⟨h1, h2, h3⟩ := C09_equivalence_partial same hs S h
  refine (Tables.C11_ref _ _ ⟨fun (a : {o // S o}) => h1 _ a.2, fun (a b : {o // S o}) => h2 _ _ a.2 b.2, fun (a b c : {o // S o}) => h3 _ _ _ a.2 b.2 c.2, ?_⟩ ops k).1
  intro a b he
  show (equalHash rh dt a.1 32 % 2 ^ 64).toNat = (equalHash rh dt b.1 32 % 2 ^ 64).toNat
  rw [C10_hash_partial same hs rh dt a.1 b.1 32 (h _ _ a.2 b.2).1 (h _ _ a.2 b.2).2 (hcan _ a.2) (hcan _ b.2) he]

/-- The set of all strings of fewer than 2^32 bytes meets the hypotheses. -/
example : (∀ a b, (∃ s : List Nat, s.length < 2 ^ 32 ∧ a = .str s) → (∃ s : List Nat, s.length < 2 ^ 32 ∧ b = .str s) →
      NoWrap a b ∧ Names a b) ∧
    (∀ a, (∃ s : List Nat, s.length < 2 ^ 32 ∧ a = .str s) → AllCanonical a) := by
  constructor
  · rintro _ _ ⟨s, hs, rfl⟩ ⟨t, ht, rfl⟩
    refine ⟨⟨?_, ?_, ?_⟩, ?_⟩
    · intro w w' h1; cases h1
    · intro s s' h1 h2 hd; cases h1; cases h2; omega
    · intro w w' _ _ h1; cases h1
    · intro w w' _ h1; cases h1
  · rintro _ ⟨s, hs, rfl⟩ n h; cases h

end Rep.Equal
