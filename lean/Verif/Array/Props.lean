import Verif.Array.Spec
import Mathlib.Data.List.Nodup
import Mathlib.Data.List.Range
import Mathlib.Data.List.Perm.Subperm
import Mathlib.Tactic.ByContra

namespace Rep.Arr

theorem Chain.unique {h v l} (c : Chain h v l) : ∀ {l'}, Chain h v l' → l = l' := by
  induction c with
  | nil n => intro l' c'; cases c' with
    | nil _ => rfl
    | cons e _ => exact absurd e (n _ _)
  | cons e _ ih => intro l' c'; cases c' with
    | nil n => exact absurd e (n _ _)
    | cons e' c' => rw [e] at e'; cases e'; rw [ih c']

theorem obj_lt {h : Heap} {v o} (e : obj h v = some o) : ∃ a, v = .ref a ∧ a < h.length := by
  cases v with
  | ref a => exact ⟨a, rfl, by
      rcases Nat.lt_or_ge a h.length with g | g
      · exact g
      · simp [obj, List.getElem?_eq_none g] at e⟩
  | int z => cases e
  | sym n => cases e

theorem Chain.addresses {h v l} (c : Chain h v l) :
    ∃ as : List Nat, as.length = l.length ∧ as.Nodup ∧
      ∀ a ∈ as, a < h.length ∧ ∃ l', Chain h (.ref a) l' ∧ l'.length ≤ l.length := by
  induction c with
  | nil n => exact ⟨[], rfl, List.nodup_nil, by simp⟩
  | @cons v x d l e c ih =>
    obtain ⟨as, h1, h2, h3⟩ := ih
    obtain ⟨a, rfl, g⟩ := obj_lt e
    refine ⟨a :: as, by simp [h1], List.nodup_cons.2 ⟨fun m => ?_, h2⟩, ?_⟩
    · obtain ⟨_, l', c', k⟩ := h3 a m
      have := c'.unique (Chain.cons e c)
      subst this
      simp only [List.length_cons] at k
      omega
    · intro b mb
      rcases List.mem_cons.1 mb with rfl | mb
      · exact ⟨g, _, Chain.cons e c, Nat.le_refl _⟩
      · obtain ⟨g', l', c', k⟩ := h3 b mb
        exact ⟨g', l', c', Nat.le_trans k (by simp)⟩

theorem Chain.length_le {h v l} (c : Chain h v l) : l.length ≤ h.length := by
  obtain ⟨as, h1, h2, h3⟩ := c.addresses
  have : as ⊆ List.range h.length := fun a m => List.mem_range.2 (h3 a m).1
  have := (List.subperm_of_subset h2 this).length_le
  simpa [h1] using this

theorem listOf_of_chain {h v l} (c : Chain h v l) : ∀ {n}, l.length < n → listOf h n v = some l := by
  induction c with
  | nil k => intro n g; cases n with
    | zero => simp at g
    | succ n =>
      simp only [listOf]
  | cons e _ ih => intro n g; cases n with
    | zero => simp at g
    | succ n =>
      simp only [listOf, e]
      rw [ih (by simpa using g)]; rfl

theorem chain_of_listOf {h : Heap} : ∀ {n v l}, listOf h n v = some l → Chain h v l
  | 0, _, _, e => by cases e
  | n + 1, v, l, e => by
    simp only [listOf] at e
    split at e
    · rename_i a d o
      rcases g : listOf h n d with _ | l'
      · simp [g] at e
      · rw [g] at e; cases e
        exact .cons o (chain_of_listOf g)
    · rename_i o; cases e
      exact .nil fun a d k => o a d k

theorem elements_iff {h v l} : elements h v = some l ↔ Chain h v l :=
  ⟨chain_of_listOf, fun c => listOf_of_chain c (Nat.lt_succ_of_le c.length_le)⟩

theorem elements_none {h v} (n : ¬ ∃ l, Chain h v l) : elements h v = none := by
  rcases e : elements h v with _ | l
  · rfl
  · exact absurd ⟨l, elements_iff.1 e⟩ n

/-! ### Reading and writing -/

theorem good_vec {h v n es c k} (g : Good h) (e : obj h v = some (.vec n es c k)) :
    n = es.length ∧ n < 2 ^ 23 := by
  cases v with
  | ref a => exact g n es c k (List.mem_of_getElem? e)
  | int z => cases e
  | sym z => cases e

/-- C83 (`aref`): the item at an index in range, an error about the index otherwise;
an error about the first argument if it is no array. -/
theorem C83_aref {h : Heap} (g : Good h) (arr : Val) (z : Int) (nn : 0 ≤ z) :
    aref h arr (.int z) =
      (match items h arr with
       | none => .err 1
       | some l => match l[z.toNat]? with | some v => .ok v | none => .err 2, h) := by
  have nz : ¬ z < 0 := by omega
  simp only [aref, nz, if_false, items]
  rcases o : obj h arr with _ | (⟨bs, c⟩ | ⟨n, es, c, k⟩ | ⟨a, d⟩ | _) <;> simp only
  · rw [List.getElem?_map]
    rcases bs[z.toNat]? with _ | b <;> rfl
  · have := (good_vec g o).1
    subst this
    by_cases q : z.toNat < es.length
    · simp [q]
    · simp [q]

/-- C83: a negative index or one that is no integer is an error. -/
theorem C83_aref_index (h : Heap) (arr i : Val) (n : ∀ z, i = .int z → z < 0) :
    aref h arr i = (.err 2, h) := by
  cases i with
  | int z => simp [aref, n z rfl]
  | ref a => rfl
  | sym a => rfl

/-- An object that may be stored to. -/
def writable (h : Heap) (v : Val) : Bool :=
  match obj h v with
  | some (.str _ c) => !c
  | some (.vec _ _ c _) => !c
  | _ => false

/-- What is stored for a value: strings hold the low eight bits of integers. -/
def stored (h : Heap) (arr v : Val) : Option Val :=
  match obj h arr, v with
  | some (.str _ _), .int z => some (.int (z % 256))
  | some (.str _ _), _ => none
  | _, v => some v

theorem byte_toNat (z : Int) : ((byte z).toNat : Int) = z % 256 := by
  have h1 : 0 ≤ z % 256 := Int.emod_nonneg _ (by decide)
  have h2 : z % 256 < 256 := Int.emod_lt_of_pos _ (by decide)
  have : (z % 256).toNat < 256 := by omega
  simp only [byte, UInt8.toNat_ofNat']
  rw [Nat.mod_eq_of_lt (by simpa using this)]
  omega

theorem obj_set {h : Heap} {a o} (g : a < h.length) : obj (h.set a o) (.ref a) = some o := by
  simp [obj, g]

theorem obj_set_ne {h : Heap} {a o v} (n : v ≠ .ref a) : obj (h.set a o) v = obj h v := by
  cases v with
  | ref b =>
    have : a ≠ b := fun e => n (by rw [e])
    simp [obj, List.getElem?_set_ne this]
  | int z => rfl
  | sym z => rfl

theorem good_set {h : Heap} {a o} (g : Good h)
    (k : ∀ n es c k, o = .vec n es c k → n = es.length ∧ n < 2 ^ 23) : Good (h.set a o) := by
  intro n es c k' m
  rcases List.mem_or_eq_of_mem_set m with m | e
  · exact g _ _ _ _ m
  · exact k _ _ _ _ e.symm

/-- C83 (`aset`): a call that returns, returns the new value; the item at that index
is what was stored, the other items are what they were, every other object is what it
was. -/
theorem C83_aset {h : Heap} (g : Good h) {arr i new w : Val} {h' : Heap}
    (e : aset h arr i new = (.ok w, h')) :
    w = new ∧ Good h' ∧ h'.length = h.length ∧ (∀ v, v ≠ arr → obj h' v = obj h v) ∧
    ∃ l n s, items h arr = some l ∧ i = .int (n : Nat) ∧ n < l.length ∧
      stored h arr new = some s ∧ items h' arr = some (l.set n s) := by
  cases i with
  | ref a => cases e
  | sym a => cases e
  | int z =>
    simp only [aset] at e
    by_cases nz : z < 0
    · simp [nz] at e
    · simp only [nz, if_false] at e
      have ez : ((z.toNat : Nat) : Int) = z := by omega
      cases arr with
      | int y => simp [obj] at e
      | sym y => simp [obj] at e
      | ref a =>
        rcases o : obj h (.ref a) with _ | (⟨bs, c⟩ | ⟨n, es, c, k⟩ | ⟨x, d⟩ | _)
        · simp [o] at e
        · simp only [o] at e
          obtain ⟨a', ea, ga⟩ := obj_lt o
          cases ea
          cases c
          · simp only [Bool.false_eq_true, if_false] at e
            by_cases r : z.toNat < bs.length
            · simp only [r, if_true] at e
              cases new with
              | int y =>
                simp only [Prod.mk.injEq, Out.ok.injEq] at e
                obtain ⟨rfl, rfl⟩ := e
                refine ⟨rfl, good_set g (fun _ _ _ _ k => nomatch k), by simp,
                  fun v n => obj_set_ne n, bs.map fun b => .int b.toNat, z.toNat,
                  .int (y % 256), by simp [items, o], by rw [ez], by simpa using r,
                  by simp [stored, o], ?_⟩
                simp only [items, obj_set ga, List.map_set, byte_toNat]
              | ref y => simp at e
              | sym y => simp at e
            · simp [r] at e
          · simp at e
        · simp only [o] at e
          obtain ⟨a', ea, ga⟩ := obj_lt o
          cases ea
          have gv := good_vec g o
          cases c
          · simp only [Bool.false_eq_true, if_false] at e
            by_cases r : z.toNat < n
            · have r' : z.toNat < es.length := gv.1 ▸ r
              simp only [r, r', if_true, Prod.mk.injEq, Out.ok.injEq] at e
              obtain ⟨rfl, rfl⟩ := e
              refine ⟨rfl, good_set g ?_, by simp,
                fun v n => obj_set_ne n, es, z.toNat, new, by simp [items, o], by rw [ez],
                r', by simp [stored, o], by simp [items, obj_set ga]⟩
              intro n' es' c' k' q
              cases q
              simpa using gv
            · simp [r] at e
          · simp at e
        · simp [o] at e
        · simp [o] at e

/-- C83 (`aset` returns): exactly for an index in range of an array that is no
constant and, for strings, an integer to store. -/
theorem C83_aset_returns {h : Heap} (g : Good h) (arr i new : Val) :
    (∃ w h', aset h arr i new = (.ok w, h')) ↔
      writable h arr = true ∧ (∃ s, stored h arr new = some s) ∧
      ∃ l n, items h arr = some l ∧ i = .int (n : Nat) ∧ n < l.length := by
  constructor
  · rintro ⟨w, h', e⟩
    obtain ⟨_, _, _, _, l, n, s, e1, e2, e3, e4, _⟩ := C83_aset g e
    refine ⟨?_, ⟨s, e4⟩, l, n, e1, e2, e3⟩
    subst e2
    have nz : ¬ ((n : Int) < 0) := by omega
    simp only [aset, nz, if_false] at e
    simp only [writable]
    cases arr with
    | int y => simp [obj] at e
    | sym y => simp [obj] at e
    | ref a =>
      rcases o : obj h (.ref a) with _ | (⟨bs, c⟩ | ⟨m, es, c, k⟩ | ⟨x, d⟩ | _)
      · simp [o] at e
      · cases c
        · simp
        · simp [o] at e
      · cases c
        · simp
        · simp [o] at e
      · simp [o] at e
      · simp [o] at e
  · rintro ⟨w, ⟨s, es⟩, l, n, e1, rfl, e3⟩
    have nz : ¬ ((n : Int) < 0) := by omega
    simp only [aset, nz, if_false]
    simp only [writable] at w
    cases arr with
    | int y => simp [obj] at w
    | sym y => simp [obj] at w
    | ref a =>
      rcases o : obj h (.ref a) with _ | (⟨bs, c⟩ | ⟨m, es', c, k⟩ | ⟨x, d⟩ | _) <;>
        rw [o] at w
      · simp at w
      · cases c
        · simp only [items, o, Option.some.injEq] at e1
          subst e1
          simp only [List.length_map] at e3
          cases new with
          | int y => simp [e3]
          | ref y => simp [stored, o] at es
          | sym y => simp [stored, o] at es
        · simp at w
      · cases c
        · simp only [items, o, Option.some.injEq] at e1
          subst e1
          have := (good_vec g o).1
          subst this
          simp [e3]
        · simp at w
      · simp at w
      · simp at w

/-- C83: when `aset` signals an error nothing is changed. -/
theorem C83_aset_error (h : Heap) (arr i new : Val) {o h'} (e : aset h arr i new = (o, h'))
    (n : ∀ w, o ≠ .ok w) : h' = h := by
  unfold aset at e
  repeat' split at e
  all_goals first
    | (simp only [Prod.mk.injEq] at e; exact e.2.symm)
    | (simp only [Prod.mk.injEq] at e; exact absurd e.1.symm (n _))

/-- C83 (`length`): the number of items of an array, of elements of a list; a circular
list is not counted to an end. -/
theorem C83_length {h : Heap} (g : Good h) (v : Val) :
    (∀ l, items h v = some l → length h v = (.ok (.int l.length), h)) ∧
    (∀ a d l, obj h v = some (.cons a d) → Chain h v l →
      length h v = (.ok (.int l.length), h)) ∧
    (∀ a d, obj h v = some (.cons a d) → (¬ ∃ l, Chain h v l) →
      length h v = (.forever, h)) := by
  refine ⟨fun l e => ?_, fun a d l o c => ?_, fun a d o c => ?_⟩
  · have ns : v ≠ .sym 0 := fun k => by subst k; simp [items, obj] at e
    simp only [length, ns, if_false]
    rcases o : obj h v with _ | (⟨bs, c⟩ | ⟨n, es, c, k⟩ | ⟨a, d⟩ | _) <;>
      simp only [items, o, Option.some.injEq] at e
    · cases e
    · subst e; simp
    · subst e; simp [(good_vec g o).1]
    · cases e
    · cases e
  · have ns : v ≠ .sym 0 := fun k => by subst k; simp [obj] at o
    simp only [length, ns, if_false, o, elements_iff.2 c]
  · have ns : v ≠ .sym 0 := fun k => by subst k; simp [obj] at o
    simp only [length, ns, if_false, o, elements_none c]

/-! ### New arrays -/

theorem obj_new (h : Heap) (o : Obj) : obj (h ++ [o]) (.ref h.length) = some o := by
  simp [obj]

theorem obj_append {h : Heap} {os v o} (e : obj h v = some o) : obj (h ++ os) v = some o := by
  obtain ⟨a, rfl, g⟩ := obj_lt e
  simpa [obj, List.getElem?_append_left g] using e

theorem good_append {h : Heap} {os} (g : Good h)
    (k : ∀ n es c k, Obj.vec n es c k ∈ os → n = es.length ∧ n < 2 ^ 23) : Good (h ++ os) := by
  intro n es c k' m
  rcases List.mem_append.1 m with m | m
  · exact g _ _ _ _ m
  · exact k _ _ _ _ m

theorem int32_id {z : Int} (h1 : -2 ^ 31 ≤ z) (h2 : z < 2 ^ 31) : int32 z = z := by
  unfold int32
  rw [Int.bmod_def]
  split <;> omega

theorem makeVector_ok (h : Heap) (es : List Val) (c k) (n : es.length < 2 ^ 23) :
    makeVector h es c k = (.ok (.ref h.length), h ++ [.vec es.length es c k]) := by
  have h1 : vectBytes es.length = 8 * ((es.length : Int) - 1) + 24 := int32_id (by omega) (by omega)
  have h2 : vectLen es.length = es.length := by
    unfold vectLen
    rw [int32_id (by omega) (by omega)]
    omega
  simp [makeVector, h1, h2, alloc]

/-- C83 (`make-vector`, for sizes below 2^23): a new vector of that many items, all of
them the given one; nothing else changes. -/
theorem C83_make_vector_partial (h : Heap) (n : Nat) (init : Val) (small : n < 2 ^ 23) :
    ∃ h', makeVectorOf h (.int n) init = (.ok (.ref h.length), h') ∧
      items h' (.ref h.length) = some (List.replicate n init) ∧
      writable h' (.ref h.length) = true ∧
      ∃ o, h' = h ++ [o] := by
  have e1 : ¬ ((n : Int) < 0) := by omega
  have e2 : int32 (n : Int) = n := int32_id (by omega) (by omega)
  refine ⟨h ++ [.vec n (List.replicate n init) false false], ?_, ?_, ?_, _, rfl⟩
  · simp only [makeVectorOf, e2, e1, if_false, Int.toNat_natCast]
    rw [makeVector_ok _ _ _ _ (by simpa using small)]
    simp
  · simp [items, obj_new]
  · simp [writable, obj_new]

theorem makeVectorOf_nat (h : Heap) (n L : Nat) (init : Val) (small : n < 2 ^ 31)
    (hb : vectBytes n = 8 * ((n : Int) - 1) + 24) (hl : vectLen n = L) :
    makeVectorOf h (.int n) init =
      (.ok (.ref h.length), h ++ [.vec L (List.replicate n init) false false]) := by
  have e1 : ¬ ((n : Int) < 0) := by omega
  have e2 : int32 (n : Int) = n := int32_id (by omega) (by omega)
  simp only [makeVectorOf, makeVector, e2, e1, if_false, Int.toNat_natCast,
    List.length_replicate, hb, if_true, hl, alloc]

theorem makeVectorOf_ub (h : Heap) (n : Nat) (init : Val) (small : n < 2 ^ 31)
    (hb : vectBytes n ≠ 8 * ((n : Int) - 1) + 24) :
    makeVectorOf h (.int n) init = (.ub, h) := by
  have e1 : ¬ ((n : Int) < 0) := by omega
  have e2 : int32 (n : Int) = n := int32_id (by omega) (by omega)
  simp only [makeVectorOf, makeVector, e2, e1, if_false, Int.toNat_natCast,
    List.length_replicate, hb]

theorem length_new (h : Heap) (n : Nat) (es : List Val) (c k : Bool) :
    length (h ++ [.vec n es c k]) (.ref h.length) = (.ok (.int n), h ++ [.vec n es c k]) := by
  simp only [length, obj_new]
  simp

theorem aref_beyond (h : Heap) (n L : Nat) (init : Val) (c k : Bool) (lt : n < L) :
    aref (h ++ [.vec L (List.replicate n init) c k]) (.ref h.length) (.int n) =
      (.ub, h ++ [.vec L (List.replicate n init) c k]) := by
  have e1 : ¬ ((n : Int) < 0) := by omega
  simp only [aref, e1, if_false, obj_new, Int.toNat_natCast, lt, if_true]
  rw [List.getElem?_eq_none (by simp)]

/-- C83 is violated for large sizes: a vector of 2^24 elements has, according to
`length`, none, one of 2^23 has more than 2^55, and there is no vector of 2^28. -/
theorem C83_large_vector_violated (h : Heap) (init : Val) :
    (∃ h', makeVectorOf h (.int (2 ^ 24 : Nat)) init = (.ok (.ref h.length), h') ∧
      length h' (.ref h.length) = (.ok (.int (0 : Nat)), h')) ∧
    (∃ h', makeVectorOf h (.int (2 ^ 23 : Nat)) init = (.ok (.ref h.length), h') ∧
      length h' (.ref h.length) = (.ok (.int (2 ^ 56 - 2 ^ 23 : Nat)), h') ∧
      aref h' (.ref h.length) (.int (2 ^ 23 : Nat)) = (.ub, h')) ∧
    makeVectorOf h (.int (2 ^ 28 : Nat)) init = (.ub, h) :=
  ⟨⟨_, makeVectorOf_nat h (2 ^ 24) 0 init (by decide) (by decide) (by decide),
      length_new _ _ _ _ _⟩,
   ⟨_, makeVectorOf_nat h (2 ^ 23) (2 ^ 56 - 2 ^ 23) init (by decide) (by decide) (by decide),
      length_new _ _ _ _ _, aref_beyond _ _ _ _ _ _ (by decide)⟩,
   makeVectorOf_ub h (2 ^ 28) init (by decide) (by decide)⟩

/-- C83 (`vector`, fewer than 2^23 arguments). -/
theorem C83_vector_partial (h : Heap) (args : List Val) (small : args.length < 2 ^ 23) :
    ∃ h', vector h args = (.ok (.ref h.length), h') ∧
      items h' (.ref h.length) = some args ∧ writable h' (.ref h.length) = true ∧
      ∃ o, h' = h ++ [o] :=
  ⟨_, makeVector_ok h args false false small, by simp [items, obj_new],
    by simp [writable, obj_new], _, rfl⟩

/-- C83 (`make-string`). -/
theorem C83_make_string (h : Heap) (n : Nat) (z : Int) (small : n < 2 ^ 56) :
    (∃ h', makeString h (.int n) (.int z) = (.ok (.ref h.length), h') ∧
      items h' (.ref h.length) = some (List.replicate n (.int (z % 256))) ∧
      writable h' (.ref h.length) = true ∧ ∃ o, h' = h ++ [o]) ∧
    (∃ h', makeString h (.int n) (.sym 0) = (.ok (.ref h.length), h') ∧
      items h' (.ref h.length) = some (List.replicate n (.int 32))) := by
  have e1 : ¬ ((n : Int) < 0) := by omega
  have e2 : ¬ ((n : Int) > 2 ^ 56 - 1) := by omega
  refine ⟨⟨h ++ [.str (List.replicate n (byte z)) false], ?_, ?_, ?_, _, rfl⟩,
    ⟨h ++ [.str (List.replicate n 32) false], ?_, ?_⟩⟩
  · simp only [makeString, e1, e2, if_false, Int.toNat_natCast, dupn, alloc]
  · simp [items, obj_new, byte_toNat]
  · simp [writable, obj_new]
  · simp only [makeString, e1, e2, if_false, Int.toNat_natCast, dupn, alloc]
  · simp [items, obj_new]

/-- C83 (`substring`, of strings shorter than 2^31): the bytes from START up to END,
in a new string; indices out of order or out of range are errors. -/
theorem C83_substring_partial {h : Heap} {v : Val} {bs : List UInt8} {c : Bool}
    (o : obj h v = some (.str bs c)) (small : bs.length < 2 ^ 31) (s e : Int) :
    (0 ≤ s → s ≤ e → e ≤ bs.length → substring h v (.int s) (.int e) =
      (.ok (.ref h.length), h ++ [.str ((bs.drop s.toNat).take (e.toNat - s.toNat)) false])) ∧
    (0 ≤ s → s ≤ bs.length → substring h v (.int s) (.sym 0) =
      (.ok (.ref h.length), h ++ [.str (bs.drop s.toNat) false])) ∧
    (s < 0 ∨ s > bs.length → substring h v (.int s) (.int e) = (.err 2, h) ∧
      substring h v (.int s) (.sym 0) = (.err 2, h)) ∧
    (0 ≤ s → s ≤ bs.length → e < s ∨ e > bs.length →
      substring h v (.int s) (.int e) = (.err 3, h)) := by
  have el : int32 (bs.length : Int) = bs.length := int32_id (by omega) (by omega)
  refine ⟨fun a b d => ?_, fun a b => ?_, fun a => ⟨?_, ?_⟩, fun a b d => ?_⟩
  · have n1 : ¬ (s > bs.length ∨ s < 0) := by omega
    have n2 : ¬ (e > bs.length ∨ e < s) := by omega
    have n3 : (e - s).toNat = e.toNat - s.toNat := by omega
    simp only [substring, o, el, n1, n2, if_false, dupn, alloc, n3]
  · have n1 : ¬ (s > bs.length ∨ s < 0) := by omega
    simp only [substring, o, el, n1, if_false, dupn, alloc]
    rw [List.take_of_length_le (by simp; omega)]
  · simp only [substring, o, el, a.symm, if_true]
  · simp only [substring, o, el, a.symm, if_true]
  · have n1 : ¬ (s > bs.length ∨ s < 0) := by omega
    simp only [substring, o, el, n1, d.symm, if_true, if_false]

/-! ### `concat` -/

theorem byte_ofNat (b : UInt8) : byte b.toNat = b := by
  apply UInt8.toNat_inj.1
  have := byte_toNat b.toNat
  have h2 := b.toNat_lt
  omega

theorem chars_bytes (bs : List UInt8) : chars (bs.map fun b => .int b.toNat) = bs := by
  induction bs with
  | nil => rfl
  | cons b bs ih =>
    simp only [chars, List.map_cons, List.filterMap_cons, byte_ofNat] at ih ⊢
    rw [ih]

theorem part_of_text {h v bs} (g : Good h) (t : Text h v bs) : part h v = some (bs.length, bs) := by
  cases t with
  | char => simp [part, byte_ofNat]
  | str o => cases v <;> simp_all [part, obj]
  | list o c a =>
    have := a; unfold AreBytes at this; subst this
    cases v with
    | int z => cases o
    | sym z => cases o
    | ref z => simp only [part, o, elements_iff.2 c, Option.map_some, List.length_map, chars_bytes]
  | vec o a =>
    have := a; unfold AreBytes at this; subst this
    cases v with
    | int z => cases o
    | sym z => cases o
    | ref z =>
      have := (good_vec g o).1
      subst this
      simp only [part, o, List.length_map, chars_bytes]
  | nil => simp [part, obj]

theorem parts_of_text {h : Heap} (g : Good h) {args : List Val} {ts : List (List UInt8)}
    (t : List.Forall₂ (Text h) args ts) :
    parts h args = some (ts.map fun b => (b.length, b)) := by
  induction t with
  | nil => rfl
  | cons a _ ih => simp [parts, part_of_text g a, ih]

/-- C83 (`concat`, of texts with a total length below 2^32 - 1): the bytes of the
arguments one after the other, in a new string unless there are none. -/
theorem C83_concat_partial {h : Heap} (g : Good h) {args : List Val} {ts : List (List UInt8)}
    (t : List.Forall₂ (Text h) args ts) (small : ts.flatten.length < 2 ^ 32 - 1) :
    (ts.flatten ≠ [] → concat h args =
      (.ok (.ref h.length), h ++ [.str ts.flatten false])) ∧
    (ts.flatten = [] → concat h args = (.ok (.ref 0), h)) := by
  have e1 : ((ts.map fun b => (b.length, b)).map Prod.fst).sum = ts.flatten.length := by
    simp only [List.map_map, List.length_flatten]; rfl
  have e2 : ((ts.map fun b => (b.length, b)).map Prod.snd).flatten = ts.flatten := by
    simp [List.map_map, Function.comp_def]
  have e3 : ts.flatten.length % 2 ^ 32 = ts.flatten.length := Nat.mod_eq_of_lt (by omega)
  constructor
  · intro ne
    have n0 : ts.flatten.length ≠ 0 := fun k => ne (List.length_eq_zero_iff.1 k)
    have n1 : ¬ (ts.flatten.length = 2 ^ 32 - 1 ∨ ts.flatten.length > ts.flatten.length) := by
      omega
    simp only [concat, parts_of_text g t, e1, e2, e3, n0, n1, if_false, dupn, alloc]
  · intro em
    have n0 : ts.flatten.length = 0 := by rw [em]; rfl
    simp only [concat, parts_of_text g t, e1, e2, e3, n0, if_true]

/-- C83: the parts of a string put together are the string. -/
theorem C83_concat_substrings {h : Heap} (g : Good h) {v : Val} {bs : List UInt8} {c : Bool}
    (o : obj h v = some (.str bs c)) (small : bs.length < 2 ^ 31) (ne : bs ≠ [])
    (k : Nat) (kl : k ≤ bs.length) :
    ∃ h1 h2 h3 a b r, substring h v (.int 0) (.int k) = (.ok a, h1) ∧
      substring h1 v (.int k) (.sym 0) = (.ok b, h2) ∧
      concat h2 [a, b] = (.ok r, h3) ∧ obj h3 r = some (.str bs false) := by
  have p1 := (C83_substring_partial o small 0 k).1 (Int.le_refl _) (by omega) (by omega)
  have o1 : obj (h ++ [.str ((bs.drop 0).take k) false]) v = some (.str bs c) := obj_append o
  have p2 := (C83_substring_partial o1 small k 0).2.1 (by omega) (by omega)
  simp only [Int.toNat_natCast, Int.toNat_zero, Nat.sub_zero] at p1 p2
  refine ⟨_, _, _, _, _, _, p1, p2, (C83_concat_partial (ts := [bs.take k, bs.drop k]) ?_ ?_ ?_).1 ?_, ?_⟩
  · refine good_append (good_append g ?_) ?_ <;> simp
  · refine .cons (.str (c := false) ?_) (.cons (.str (c := false) ?_) .nil)
    · exact obj_append (by simpa using obj_new h (.str (bs.take k) false))
    · exact obj_new _ _
  · simp; omega
  · simpa using ne
  · rw [obj_new]; simp

/-- C83 is violated: lists and vectors may contain items that are no characters; they
are left out without an error, and so are symbols. -/
theorem C83_concat_ignores_violated :
    concat [.str [] true, .cons (.sym 1) (.sym 0)] [.ref 1, .int 65, .sym 7] =
      (.ok (.ref 2), [.str [] true, .cons (.sym 1) (.sym 0), .str [65] false]) := by
  decide

/-- C83 is violated: the strings `concat` returns are new and can be stored to, except
the empty one, which is the same constant for all callers. -/
theorem C83_concat_empty_violated (h : Heap) :
    concat h [] = (.ok (.ref 0), h) ∧ ∃ h', substring (.str [65] false :: h) (.ref 0)
      (.int 0) (.int 0) = (.ok (.ref (h.length + 1)), h') := by
  refine ⟨rfl, _, rfl⟩

/-! ### `copy-sequence` -/

theorem cells_length : ∀ (a : Nat) (es : List Val), (cells a es).length = es.length
  | _, [] => rfl
  | _, [_] => rfl
  | a, x :: y :: xs => by
    simp only [cells, List.length_cons]
    rw [cells_length (a + 1) (y :: xs)]; rfl

theorem cells_chain : ∀ (es : List Val) (h : Heap), es ≠ [] →
    Chain (h ++ cells h.length es) (.ref h.length) es
  | [], _, n => absurd rfl n
  | [x], h, _ => by
    refine .cons (d := .sym 0) ?_ (.nil ?_)
    · simp [cells, obj]
    · simp [obj]
  | x :: y :: xs, h, _ => by
    have e : h ++ cells h.length (x :: y :: xs) =
        (h ++ [.cons x (.ref (h.length + 1))]) ++ cells (h.length + 1) (y :: xs) := by
      simp [cells]
    have ih := cells_chain (y :: xs) (h ++ [.cons x (.ref (h.length + 1))]) (by simp)
    rw [e]
    refine .cons (d := .ref (h.length + 1)) (obj_append (obj_new _ _)) ?_
    simpa using ih

/-- C83 (`copy-sequence`): an object of its own with the same elements; strings and
lists, and vectors that are not constant, can be stored to. -/
theorem C83_copy {h : Heap} (g : Good h) (v : Val) :
    (∀ l, items h v = some l → ∃ o, copySequence h v = (.ok (.ref h.length), h ++ [o]) ∧
      items (h ++ [o]) (.ref h.length) = some l ∧
      (writable h v = true → writable (h ++ [o]) (.ref h.length) = true)) ∧
    (∀ a d l, obj h v = some (.cons a d) → Chain h v l →
      ∃ os, copySequence h v = (.ok (.ref h.length), h ++ os) ∧
        Chain (h ++ os) (.ref h.length) l) ∧
    (∀ bs c, obj h v = some (.str bs c) → ∃ o,
      copySequence h v = (.ok (.ref h.length), h ++ [o]) ∧
      writable (h ++ [o]) (.ref h.length) = true) := by
  refine ⟨fun l e => ?_, fun a d l o c => ?_, fun bs c o => ?_⟩
  · have ns : v ≠ .sym 0 := fun k => by subst k; simp [items, obj] at e
    rcases o : obj h v with _ | (⟨bs, c⟩ | ⟨n, es, c, k⟩ | ⟨a, d⟩ | _) <;>
      simp only [items, o, Option.some.injEq] at e
    · cases e
    · subst e
      refine ⟨.str bs false, ?_, ?_, fun _ => ?_⟩
      · simp only [copySequence, ns, if_false, o, dupn, alloc]
      · simp [items, obj_new]
      · simp [writable, obj_new]
    · subst e
      obtain ⟨rfl, sm⟩ := good_vec g o
      refine ⟨.vec es.length es c k, ?_, ?_, fun w => ?_⟩
      · simp only [copySequence, ns, if_false, o]
        exact makeVector_ok _ _ _ _ sm
      · simp [items, obj_new]
      · simpa [writable, obj_new, o] using w
    · cases e
    · cases e
  · have ns : v ≠ .sym 0 := fun k => by subst k; simp [obj] at o
    refine ⟨cells h.length l, ?_, cells_chain l h ?_⟩
    · simp only [copySequence, ns, if_false, o, elements_iff.2 c]
    · intro k
      subst k
      cases c with
      | nil n => exact n _ _ o
  · have ns : v ≠ .sym 0 := fun k => by subst k; simp [obj] at o
    refine ⟨.str bs false, ?_, ?_⟩
    · simp only [copySequence, ns, if_false, o, dupn, alloc]
    · simp [writable, obj_new]

/-- C83 is violated: the copy of a constant vector is a constant, the copy of a
constant string is not; the copy of a dotted list has no tail. -/
theorem C83_copy_constant_violated :
    (∃ h', copySequence [.str [] true, .vec 1 [.int 5] true false] (.ref 1) = (.ok (.ref 2), h') ∧
      aset h' (.ref 2) (.int 0) (.int 6) = (.err 0, h')) ∧
    (∃ h', copySequence [.str [65] true] (.ref 0) = (.ok (.ref 1), h') ∧
      (aset h' (.ref 1) (.int 0) (.int 6)).1 = .ok (.int 6)) ∧
    copySequence [.cons (.int 1) (.int 2)] (.ref 0) =
      (.ok (.ref 1), [.cons (.int 1) (.int 2), .cons (.int 1) (.sym 0)]) := by
  refine ⟨⟨_, rfl, by decide⟩, ⟨_, rfl, by decide⟩, by decide⟩

/-! ### Histories -/

theorem cells_no_vec : ∀ (a : Nat) (es : List Val) n l c k, Obj.vec n l c k ∉ cells a es
  | _, [], _, _, _, _ => by simp [cells]
  | _, [_], _, _, _, _ => by simp [cells]
  | a, x :: y :: xs, n, l, c, k => by
    simp only [cells, List.mem_cons, not_or]
    exact ⟨(fun h => nomatch h), cells_no_vec (a + 1) (y :: xs) n l c k⟩

theorem chars_length (es : List Val) : (chars es).length ≤ es.length :=
  List.length_filterMap_le _ _

theorem part_le {h v p} (g : Good h) (e : part h v = some p) : p.2.length ≤ p.1 := by
  unfold part at e
  split at e
  · cases e; simp
  · split at e
    · rcases q : elements h v with _ | es
      · simp [q] at e
      · rw [q] at e; cases e; exact chars_length _
    · cases e; exact Nat.le_refl _
    · rename_i o; cases e
      simp only [(good_vec g o).1]
      exact chars_length _
    · cases e; exact Nat.le_refl _

theorem parts_le {h : Heap} (g : Good h) : ∀ {args ps}, parts h args = some ps →
    (ps.map Prod.snd).flatten.length ≤ (ps.map Prod.fst).sum
  | [], ps, e => by cases e; simp
  | v :: vs, ps, e => by
    simp only [parts] at e
    rcases q : part h v with _ | p
    · simp [q] at e
    · rcases r : parts h vs with _ | qs
      · simp [q, r] at e
      · simp only [q, r, Option.map_some, Option.bind_some, Option.some.injEq] at e
        subst e
        have := part_le g q
        have := parts_le g r
        simp only [List.map_cons, List.flatten_cons, List.length_append, List.sum_cons]
        omega

/-- C83 (one call): no access outside of an object; the heap stays well-formed; every
object is what it was, except the one `aset` stores to. -/
theorem C83_step_partial {h : Heap} (g : Good h) (op : Op) (f : Fits h op) :
    (exec h op).1 ≠ .ub ∧ Good (exec h op).2 ∧
    (∀ v o, obj h v = some o → (∀ i x, op ≠ .aset v i x) → obj (exec h op).2 v = some o) := by
  have keep : ∀ o, (o ≠ Out.ub) → o ≠ .ub ∧ Good h ∧
      (∀ v o, obj h v = some o → (∀ i x, op ≠ .aset v i x) → obj h v = some o) :=
    fun o n => ⟨n, g, fun _ _ e _ => e⟩
  have add : ∀ (w : Val) (os : List Obj),
      (∀ n es c k, Obj.vec n es c k ∈ os → n = es.length ∧ n < 2 ^ 23) →
      Out.ok w ≠ .ub ∧ Good (h ++ os) ∧
      (∀ v o, obj h v = some o → (∀ i x, op ≠ .aset v i x) → obj (h ++ os) v = some o) :=
    fun w os k => ⟨(fun h => nomatch h), good_append g k, fun _ _ e _ => obj_append e⟩
  have addVec : ∀ (es : List Val) (c k : Bool), es.length < 2 ^ 23 →
      (makeVector h es c k).1 ≠ .ub ∧ Good (makeVector h es c k).2 ∧
      (∀ v o, obj h v = some o → (∀ i x, op ≠ .aset v i x) →
        obj (makeVector h es c k).2 v = some o) := by
    intro es c k n
    rw [makeVector_ok h es c k n]
    refine add _ _ ?_
    intro n' es' c' k' m
    simp only [List.mem_singleton, Obj.vec.injEq] at m
    obtain ⟨rfl, rfl, _, _⟩ := m
    exact ⟨rfl, n⟩
  have addStr : ∀ bs : List UInt8, (dupn h bs).1 ≠ .ub ∧ Good (dupn h bs).2 ∧
      (∀ v o, obj h v = some o → (∀ i x, op ≠ .aset v i x) → obj (dupn h bs).2 v = some o) :=
    fun bs => add _ _ (by simp)
  cases op with
  | aref a i =>
    cases i with
    | int z =>
      by_cases nz : z < 0
      · simp only [exec]
        rw [C83_aref_index h a (.int z) (fun y e => by cases e; exact nz)]
        exact keep _ (fun h => nomatch h)
      · simp only [exec]
        rw [C83_aref g a z (by omega)]
        split
        · exact keep _ (fun h => nomatch h)
        · split <;> exact keep _ (fun h => nomatch h)
    | ref z => exact keep _ (fun h => nomatch h)
    | sym z => exact keep _ (fun h => nomatch h)
  | aset a i x =>
    rcases e : Arr.aset h a i x with ⟨o, h'⟩
    have ee : exec h (.aset a i x) = (o, h') := e
    rw [ee]
    by_cases q : ∃ w, o = .ok w
    · obtain ⟨w, rfl⟩ := q
      obtain ⟨_, k1, _, k2, _⟩ := C83_aset g e
      refine ⟨(fun h => nomatch h), k1, fun v o' e' n => ?_⟩
      have : v ≠ a := fun k => n i x (by rw [k])
      show obj h' v = some o'
      rw [k2 v this]; exact e'
    · have : h' = h := C83_aset_error h a i x e (fun w k => q ⟨w, k⟩)
      subst this
      refine keep _ ?_
      rintro rfl
      unfold Arr.aset at e
      repeat' split at e
      all_goals first
        | (cases e; done)
        | skip
      rename_i o _ r1 r2
      have := (good_vec g o).1
      omega
  | length v =>
    simp only [exec]
    unfold Arr.length
    repeat' split
    all_goals exact keep _ (fun h => nomatch h)
  | makeVector n i =>
    simp only [exec]
    cases n with
    | int z =>
      by_cases nz : z < 0
      · simp only [makeVectorOf, nz, if_true]
        exact keep _ (fun h => nomatch h)
      · have f' : z < 2 ^ 23 := f
        have e2 : int32 z = z := int32_id (by omega) (by omega)
        simp only [makeVectorOf, e2, nz, if_false]
        exact addVec _ _ _ (by simp; omega)
    | ref z => exact keep _ (fun h => nomatch h)
    | sym z => exact keep _ (fun h => nomatch h)
  | vector args => exact addVec args false false f
  | makeString n i =>
    simp only [exec]
    unfold Arr.makeString
    repeat' split
    all_goals first
      | exact keep _ (fun h => nomatch h)
      | exact addStr _
  | substring s b e =>
    simp only [exec]
    unfold Arr.substring
    repeat' split
    all_goals first
      | exact keep _ (fun h => nomatch h)
      | exact addStr _
  | concat args =>
    simp only [exec]
    unfold Arr.concat
    split
    · exact keep _ (fun h => nomatch h)
    · rename_i ps e
      have s := f ps e
      have l := parts_le g e
      have m : (ps.map Prod.fst).sum % 2 ^ 32 = (ps.map Prod.fst).sum :=
        Nat.mod_eq_of_lt (by omega)
      simp only [m]
      split
      · exact keep _ (fun h => nomatch h)
      · split
        · omega
        · exact addStr _
  | copy v =>
    simp only [exec]
    unfold copySequence
    split
    · exact keep _ (fun h => nomatch h)
    · split
      · split
        · exact add _ _ (fun n es c k m => absurd m (cells_no_vec _ _ _ _ _ _))
        · exact keep _ (fun h => nomatch h)
      · rename_i n es c k o
        have := good_vec g o
        exact addVec _ _ _ (this.1 ▸ this.2)
      · exact addStr _
      · exact keep _ (fun h => nomatch h)

/-- C83 (histories, vectors and texts of moderate size): whatever calls a program
makes, with whatever arguments, none accesses memory outside of an object. -/
theorem C83_memory_safe_partial : ∀ (ops : List Op) {h : Heap}, Good h → FitsAll h ops →
    .ub ∉ runs h ops
  | [], _, _, _ => by simp [runs]
  | op :: ops, h, g, f => by
    obtain ⟨n, g', _⟩ := C83_step_partial g op f.1
    simp only [runs, List.mem_cons, not_or]
    exact ⟨fun e => n e.symm, C83_memory_safe_partial ops g' f.2⟩

/-- C83: a fresh array shares nothing: storing to a copy leaves the original's items. -/
theorem C83_copy_independent {h : Heap} (g : Good h) {v : Val} {l : List Val}
    (e : items h v = some l) {c : Val} {h1 : Heap} (k : copySequence h v = (.ok c, h1))
    (i x w : Val) {h2 : Heap} (s : aset h1 c i x = (.ok w, h2)) : items h2 v = some l := by
  obtain ⟨o, k1, k2, _⟩ := (C83_copy g v).1 l e
  rw [k1] at k
  cases k
  obtain ⟨ov, eo⟩ : ∃ ov, obj h v = some ov := by
    rcases q : obj h v with _ | ov
    · simp [items, q] at e
    · exact ⟨ov, rfl⟩
  obtain ⟨a, rfl, lt⟩ := obj_lt eo
  have ne : Val.ref a ≠ .ref h.length := by simp; omega
  have st := C83_step_partial g (.copy (.ref a)) trivial
  have ex : exec h (.copy (.ref a)) = (.ok (.ref h.length), h ++ [o]) := k1
  rw [ex] at st
  obtain ⟨_, _, _, k3, _⟩ := C83_aset st.2.1 s
  have : obj h2 (.ref a) = some ov := by rw [k3 _ ne]; exact obj_append eo
  simp only [items, this]
  simpa [items, eo] using e

/-! ### Instances -/

/-- A heap with a string, a vector, a list and a circular list. -/
def demo : Heap :=
  [.str [] true, .str [104, 105] false, .vec 2 [.int 1, .sym 3] false false,
   .cons (.int 33) (.ref 4), .cons (.int 34) (.sym 0), .cons (.int 1) (.ref 5)]

theorem demo_good : Good demo := by
  intro n es c k m
  simp only [demo, List.mem_cons, Obj.vec.injEq, List.not_mem_nil, or_false, reduceCtorEq, false_or] at m
  obtain ⟨rfl, rfl, _, _⟩ := m
  decide

example : aref demo (.ref 1) (.int 1) = (.ok (.int 105), demo) := by decide
example : (aset demo (.ref 1) (.int 0) (.int 352)).1 = .ok (.int 352) := by decide
example : length demo (.ref 5) = (.forever, demo) := by decide
example : concat demo [.ref 1, .int 32, .ref 3] =
    (.ok (.ref 6), demo ++ [.str [104, 105, 32, 33, 34] false]) := by decide

/-- The hypotheses of `C83_concat_partial` for that call. -/
example : List.Forall₂ (Text demo) [.ref 1, .int 32, .ref 3] [[104, 105], [32], [33, 34]] :=
  .cons (.str (c := false) rfl) (.cons (.char (b := 32)) (.cons
    (.list (es := [.int 33, .int 34]) rfl
      (.cons rfl (.cons rfl (.nil fun _ _ h => nomatch h))) rfl) .nil))

example : FitsAll demo [.makeVector (.int 3) (.sym 0), .aset (.ref 6) (.int 2) (.ref 1),
    .copy (.ref 6), .substring (.ref 1) (.int 1) (.sym 0), .aref (.ref 7) (.int 2)] :=
  ⟨(by decide : (3 : Int) < 2 ^ 23), trivial, trivial, trivial, trivial, trivial⟩
example : runs demo [.makeVector (.int 3) (.sym 0), .aset (.ref 6) (.int 2) (.ref 1),
    .copy (.ref 6), .substring (.ref 1) (.int 1) (.sym 0), .aref (.ref 7) (.int 2)] =
    [.ok (.ref 6), .ok (.ref 1), .ok (.ref 7), .ok (.ref 8), .ok (.ref 1)] := by decide

end Rep.Arr
