/-
What a page holds, and the page functions on it (property C34).
-/
import Verif.Sdbm.Page
import Mathlib.Tactic.Ring
import Mathlib.Tactic.Linarith

namespace Rep.Sdbm

/-! ### Specification -/

/-- A key and its value. -/
abbrev Pair := Bytes × Bytes

/-- The pairs as they lie at the end of a page: the first pair last, each value before
its key. -/
def body : List Pair → Bytes
  | [] => []
  | kv :: rest => body rest ++ kv.2 ++ kv.1

/-- The offsets of keys and values, for pairs that lie before `off`. -/
def offsets (off : Int) : List Pair → List Int
  | [] => []
  | kv :: rest => (off - kv.1.length) :: (off - kv.1.length - kv.2.length) :: offsets (off - kv.1.length - kv.2.length) rest

/-- The array at the beginning of a page. -/
def index (l : List Pair) : List Int := (2 * l.length : Int) :: offsets 1024 l

/-- 16-bit integers in memory. -/
def enc (xs : List Int) : Bytes := xs.flatMap le16

/-- The page holds the pairs, in this order: the index, a gap with any contents, and
the pairs. -/
def Holds (p : Page) (l : List Pair) : Prop := ∃ gap, p = enc (index l) ++ (gap ++ body l) ∧ p.length = 1024

/-- The bytes a list of pairs takes in a page, with their offsets. -/
def room (l : List Pair) : Nat := 2 + 4 * l.length + (body l).length

/-! ### Lists in memory -/

theorem le16_length (v : Int) : (le16 v).length = 2 := rfl

theorem enc_length (xs : List Int) : (enc xs).length = 2 * xs.length := by
  induction xs with
  | nil => rfl
  | cons x xs ih => simp only [enc, List.flatMap_cons, List.length_append, le16_length, List.length_cons] at *; omega

theorem enc_append (xs ys : List Int) : enc (xs ++ ys) = enc xs ++ enc ys := by simp [enc]

theorem enc_split (xs : List Int) (i : Nat) (hi : i < xs.length) :
    enc xs = enc (xs.take i) ++ (le16 xs[i] ++ enc (xs.drop (i + 1))) := by
  have : xs = xs.take i ++ xs[i] :: xs.drop (i + 1) := by simp
  conv_lhs => rw [this]
  rw [enc_append]; rfl

/-- A value that fits in a short. -/
def Short (v : Int) : Prop := 0 ≤ v ∧ v < 32768

theorem ino_eq {xs : List Int} {rest : Bytes} {i : Nat} (hi : i < xs.length) (hv : Short xs[i]) :
    ino (enc xs ++ rest) i = xs[i] := by
  rw [enc_split xs i hi]
  have hl : (enc (xs.take i)).length = 2 * i := by rw [enc_length, List.length_take]; omega
  have g : ∀ j, j < 2 → (enc (xs.take i) ++ (le16 xs[i] ++ enc (xs.drop (i + 1))) ++ rest).getD (2 * i + j) 0 =
      (le16 xs[i]).getD j 0 := by
    intro j hj
    simp only [List.getD_eq_getElem?_getD, List.append_assoc]
    rw [List.getElem?_append_right (by omega), hl, Nat.add_sub_cancel_left, List.getElem?_append_left (by rw [le16_length]; exact hj)]
  unfold ino
  have g0 : _ = _ := g 0 (by omega)
  have g1 := g 1 (by omega)
  change List.getD _ (2 * i) 0 = _ at g0
  rw [g0, g1]
  obtain ⟨h0, h1⟩ := hv
  generalize xs[i] = v at *
  obtain ⟨n, rfl⟩ : ∃ n : Nat, v = n := ⟨v.toNat, by omega⟩
  simp only [le16, List.getD_cons_zero, List.getD_cons_succ]
  have e : ((n : Int) % 65536).toNat = n := by omega
  rw [e]
  have e1 : (UInt8.ofNat (n % 256)).toNat = n % 256 := by simp
  have e2 : (UInt8.ofNat (n / 256)).toNat = n / 256 := by simp; omega
  rw [e1, e2]
  have : n % 256 + 256 * (n / 256) = n := by omega
  rw [this, if_pos (by omega)]

theorem splice_eq (a b c b' : Bytes) (h : b'.length = b.length) : splice (a ++ (b ++ c)) a.length b' = a ++ (b' ++ c) := by
  unfold splice
  rw [List.take_left, h, ← List.length_append, ← List.append_assoc a b c, List.drop_left, List.append_assoc]

theorem write_eq (a b c b' : Bytes) (off : Int) (ho : off = a.length) (h : b'.length = b.length)
    (hl : (a ++ (b ++ c)).length = 1024) : write (a ++ (b ++ c)) off b' = some (a ++ (b' ++ c)) := by
  simp only [List.length_append] at hl
  unfold write
  rw [if_pos (by omega), ho]
  have : ((a.length : Int)).toNat = a.length := by omega
  rw [this, splice_eq a b c b' h]

theorem slice_eq (a b c : Bytes) (off len : Int) (ho : off = a.length) (hl : len = b.length) :
    slice (a ++ (b ++ c)) off len = b := by
  unfold slice
  subst ho hl
  simp

theorem setIno_eq {xs : List Int} {rest : Bytes} {i : Nat} (hi : i < xs.length) (v : Int)
    (hl : (enc xs ++ rest).length = 1024) : setIno (enc xs ++ rest) i v = some (enc (xs.set i v) ++ rest) := by
  unfold setIno
  rw [enc_split xs i hi, enc_split (xs.set i v) i (by simpa using hi)]
  rw [enc_split xs i hi] at hl
  have e1 : (xs.set i v).take i = xs.take i := List.take_set_of_le (Nat.le_refl i)
  have e2 : (xs.set i v).drop (i + 1) = xs.drop (i + 1) := List.drop_set_of_lt (Nat.lt_succ_self i)
  have e3 : (xs.set i v)[i]'(by simpa using hi) = v := by simp
  rw [e1, e2, e3]
  simp only [List.append_assoc] at hl ⊢
  have hlen : ((2 * i : Nat) : Int) = (enc (xs.take i)).length := by rw [enc_length, List.length_take]; omega
  rw [write_eq _ (le16 xs[i]) _ (le16 v) (2 * i) (by push_cast at hlen; omega) rfl hl]

/-! ### Properties of the layout -/

theorem body_append (l1 l2 : List Pair) : body (l1 ++ l2) = body l2 ++ body l1 := by
  induction l1 with
  | nil => simp [body]
  | cons kv rest ih => simp only [List.cons_append, body, ih, List.append_assoc]

theorem offsets_append (off : Int) (l1 l2 : List Pair) :
    offsets off (l1 ++ l2) = offsets off l1 ++ offsets (off - (body l1).length) l2 := by
  induction l1 generalizing off with
  | nil => simp [offsets, body]
  | cons kv rest ih =>
    simp only [List.cons_append, offsets, ih, body, List.length_append]
    congr 4
    push_cast; omega

theorem offsets_length (off : Int) (l : List Pair) : (offsets off l).length = 2 * l.length := by
  induction l generalizing off with
  | nil => rfl
  | cons kv rest ih => simp only [offsets, List.length_cons, ih]; omega

theorem offsets_shift (off d : Int) (l : List Pair) : offsets (off + d) l = (offsets off l).map (· + d) := by
  induction l generalizing off with
  | nil => rfl
  | cons kv rest ih =>
    simp only [offsets, List.map_cons]
    rw [show off + d - kv.1.length - kv.2.length = (off - kv.1.length - kv.2.length) + d by omega, ih]
    congr 1; omega

theorem index_length (l : List Pair) : (index l).length = 2 * l.length + 1 := by
  simp [index, offsets_length]

theorem offsets_bounds (l : List Pair) : ∀ (off : Int), ∀ x ∈ offsets off l, off - (body l).length ≤ x ∧ x ≤ off := by
  induction l with
  | nil => intro off x hx; simp [offsets] at hx
  | cons kv rest ih =>
    intro off x hx
    simp only [offsets, List.mem_cons] at hx
    simp only [body, List.length_append]
    rcases hx with rfl | rfl | hx
    · constructor <;> push_cast <;> omega
    · constructor <;> push_cast <;> omega
    · have := ih _ x hx
      push_cast; omega

variable {p : Page} {l : List Pair}

theorem Holds.room (h : Holds p l) : room l ≤ 1024 := by
  obtain ⟨gap, rfl, hl⟩ := h
  simp only [List.length_append, enc_length, index_length] at hl
  unfold Sdbm.room; omega

theorem Holds.short (h : Holds p l) : ∀ x ∈ index l, Short x := by
  have hr := h.room
  unfold Sdbm.room at hr
  intro x hx
  unfold index at hx
  rcases List.mem_cons.mp hx with rfl | hx
  · constructor <;> omega
  · have := offsets_bounds l 1024 x hx
    constructor <;> omega

theorem Holds.ino (h : Holds p l) {i : Nat} (hi : i < (index l).length) : ino p i = (index l)[i] := by
  have hs := h.short
  obtain ⟨gap, rfl, hl⟩ := h
  exact ino_eq hi (hs _ (List.getElem_mem hi))

theorem Holds.count (h : Holds p l) : Sdbm.ino p 0 = 2 * l.length := by
  rw [h.ino (by rw [index_length]; omega)]; rfl

/-- The index entries of the pair between `l1` and `l2`. -/
theorem index_at (l1 l2 : List Pair) (kv : Pair) :
    (index (l1 ++ kv :: l2))[2 * l1.length + 1]? = some ((1024 : Int) - (body l1).length - kv.1.length) ∧
    (index (l1 ++ kv :: l2))[2 * l1.length + 2]? = some ((1024 : Int) - (body l1).length - kv.1.length - kv.2.length) := by
  unfold index
  rw [offsets_append]
  have hl := offsets_length 1024 l1
  constructor
  · rw [List.getElem?_cons_succ, List.getElem?_append_right (by omega), hl, Nat.sub_self]; rfl
  · rw [List.getElem?_cons_succ, List.getElem?_append_right (by omega), hl, show 2 * l1.length + 1 - 2 * l1.length = 1 by omega]; rfl

theorem Holds.inoKey {l1 l2 : List Pair} {kv : Pair} (h : Holds p (l1 ++ kv :: l2)) :
    Sdbm.ino p (2 * l1.length + 1) = 1024 - (body l1).length - kv.1.length := by
  obtain ⟨h1, e⟩ := List.getElem?_eq_some_iff.mp (index_at l1 l2 kv).1
  rw [h.ino h1, e]

theorem Holds.inoVal {l1 l2 : List Pair} {kv : Pair} (h : Holds p (l1 ++ kv :: l2)) :
    Sdbm.ino p (2 * l1.length + 2) = 1024 - (body l1).length - kv.1.length - kv.2.length := by
  obtain ⟨h1, e⟩ := List.getElem?_eq_some_iff.mp (index_at l1 l2 kv).2
  rw [h.ino h1, e]

/-- The page around the pair between `l1` and `l2`. -/
theorem Holds.layout {l1 l2 : List Pair} {kv : Pair} (h : Holds p (l1 ++ kv :: l2)) :
    ∃ a, p = a ++ (kv.2 ++ (kv.1 ++ body l1)) ∧
      (a.length : Int) = 1024 - (body l1).length - kv.1.length - kv.2.length := by
  obtain ⟨gap, e, hl⟩ := h
  refine ⟨enc (index (l1 ++ kv :: l2)) ++ (gap ++ body l2), ?_, ?_⟩
  · rw [e, body_append]; simp [body]
  · rw [e, body_append] at hl
    simp only [body, List.length_append] at hl ⊢
    push_cast
    omega

theorem Holds.key {l1 l2 : List Pair} {kv : Pair} (h : Holds p (l1 ++ kv :: l2)) (len : Int) (hlen : len = kv.1.length) :
    slice p (Sdbm.ino p (2 * l1.length + 1)) len = kv.1 := by
  rw [h.inoKey]
  obtain ⟨a, e, hl⟩ := h.layout
  rw [e, ← List.append_assoc]
  exact slice_eq _ _ _ _ _ (by simp; omega) hlen

theorem Holds.val {l1 l2 : List Pair} {kv : Pair} (h : Holds p (l1 ++ kv :: l2)) (len : Int) (hlen : len = kv.2.length) :
    slice p (Sdbm.ino p (2 * l1.length + 2)) len = kv.2 := by
  rw [h.inoVal]
  obtain ⟨a, e, hl⟩ := h.layout
  rw [e]
  exact slice_eq _ _ _ _ _ (by omega) hlen

theorem Holds.freeEnd (h : Holds p l) : freeEnd p = 1024 - (body l).length := by
  unfold Sdbm.freeEnd
  rw [h.count]
  rcases List.eq_nil_or_concat l with rfl | ⟨l1, kv, rfl⟩
  · simp [body]
  · simp only [List.concat_eq_append] at *
    rw [if_pos (by simp)]
    have : (2 * ((l1 ++ [kv]).length : Int)).toNat = 2 * l1.length + 2 := by simp; omega
    rw [this, h.inoVal, body_append]
    simp [body]; omega

/-! ### The functions -/

theorem holds_zero : Holds zeroPage [] := ⟨List.replicate 1022 0, by decide +kernel, by decide +kernel⟩

/-- `fitpair` tests whether the pair, with its two offsets, fits. -/
theorem fitpair_iff (h : Holds p l) (kv : Pair) :
    fitpair p (kv.1.length + kv.2.length) = true ↔ room (l ++ [kv]) ≤ 1024 := by
  unfold fitpair
  rw [h.freeEnd, h.count]
  unfold room
  rw [body_append]
  simp only [body, List.nil_append, List.length_append, List.length_singleton, decide_eq_true_eq]
  omega

theorem exists_split {α : Type} (g : List α) (n : Nat) (h : n ≤ g.length) : ∃ x y, g = x ++ y ∧ x.length = n ∧ y.length = g.length - n :=
  ⟨g.take n, g.drop n, by simp, by simp [h], by simp⟩

theorem exists_le16 (a : Bytes) (h : a.length = 2) : ∃ x, a = le16 x := by
  match a, h with
  | [x, y], _ =>
    refine ⟨(x.toNat + 256 * y.toNat : Nat), ?_⟩
    have hx := x.toNat_lt
    have hy := y.toNat_lt
    unfold le16
    have e : (((x.toNat + 256 * y.toNat : Nat) : Int) % 65536).toNat = x.toNat + 256 * y.toNat := by omega
    rw [e]
    have e1 : (x.toNat + 256 * y.toNat) % 256 = x.toNat := by omega
    have e2 : (x.toNat + 256 * y.toNat) / 256 = y.toNat := by omega
    rw [e1, e2]
    simp

/-- `putpair` adds the pair at the end. -/
theorem putpair_spec (h : Holds p l) (kv : Pair) (hr : room (l ++ [kv]) ≤ 1024) :
    ∃ p', putpair p kv.1 kv.2 = some p' ∧ Holds p' (l ++ [kv]) := by
  have hfe := h.freeEnd
  have hc := h.count
  have hsh := h.short
  obtain ⟨gap, e, hl⟩ := h
  obtain ⟨k, v⟩ := kv
  -- the gap: four bytes for the offsets, the rest, the value and the key
  have hroom := hr
  unfold room at hroom
  rw [body_append] at hroom
  simp only [body, List.nil_append, List.length_append, List.length_singleton] at hroom
  have hgap : gap.length = 1024 - (enc (index l)).length - (body l).length := by
    rw [e] at hl; simp only [List.length_append] at hl; omega
  rw [enc_length, index_length] at hgap
  obtain ⟨a1, g1, rfl, h1, hg1⟩ := exists_split gap 2 (by omega)
  obtain ⟨a2, g2, rfl, h2, hg2⟩ := exists_split g1 2 (by omega)
  obtain ⟨gb, g3, rfl, h3, hg3⟩ := exists_split g2 (g2.length - v.length - k.length) (by omega)
  obtain ⟨gv, gk, rfl, h4, hg4⟩ := exists_split g3 v.length (by omega)
  simp only [List.length_append] at hgap hg1 hg2 hg3 h3 hg4
  have f1 : gk.length = k.length := by omega
  have f2 : gb.length + 2 * (2 * l.length + 3) + v.length + k.length + (body l).length = 1024 := by omega
  clear hg1 hg2 hg3 h3 hg4 hgap
  obtain ⟨x1, rfl⟩ := exists_le16 a1 h1
  obtain ⟨x2, rfl⟩ := exists_le16 a2 h2
  have hn : (ino p 0).toNat = 2 * l.length := by omega
  have hil := index_length l
  have e0 : p = (enc (index l ++ [x1, x2]) ++ (gb ++ gv)) ++ (gk ++ body l) := by
    rw [e, enc_append]; simp [enc]
  have w1 : write p (1024 - (body l).length - k.length) k = some (enc (index l ++ [x1, x2]) ++ (gb ++ (gv ++ (k ++ body l)))) := by
    rw [e0, write_eq _ gk _ k _ ?_ (by omega) (by rw [← e0]; exact hl)]
    · simp
    · simp only [List.length_append, enc_length, index_length, List.length_cons, List.length_nil]
      push_cast
      omega
  have l1 : (enc (index l ++ [x1, x2]) ++ (gb ++ (gv ++ (k ++ body l)))).length = 1024 := by
    rw [e0] at hl
    simp only [List.length_append] at hl ⊢
    omega
  have w2 := setIno_eq (i := 2 * l.length + 1) (by simp; omega) ((1024 : Int) - (body l).length - k.length) l1
  have x2' : (index l ++ [x1, x2]).set (2 * l.length + 1) ((1024 : Int) - (body l).length - k.length) =
      index l ++ [(1024 : Int) - (body l).length - k.length, x2] := by
    rw [List.set_append_right _ _ (by omega), hil, Nat.sub_self]; rfl
  rw [x2'] at w2
  have l2 : ((enc (index l ++ [(1024 : Int) - (body l).length - k.length, x2]) ++ gb) ++ (gv ++ (k ++ body l))).length = 1024 := by
    simp only [List.length_append, enc_length, List.length_cons, List.length_nil] at l1 ⊢
    omega
  have w3 : write (enc (index l ++ [(1024 : Int) - (body l).length - k.length, x2]) ++ (gb ++ (gv ++ (k ++ body l))))
      (1024 - (body l).length - k.length - v.length) v =
      some (enc (index l ++ [(1024 : Int) - (body l).length - k.length, x2]) ++ (gb ++ (v ++ (k ++ body l)))) := by
    rw [← List.append_assoc, write_eq _ gv _ v _ ?_ (by omega) l2, List.append_assoc]
    simp only [List.length_append, enc_length, index_length, List.length_cons, List.length_nil]
    push_cast
    omega
  have l3 : (enc (index l ++ [(1024 : Int) - (body l).length - k.length, x2]) ++ (gb ++ (v ++ (k ++ body l)))).length = 1024 := by
    simp only [List.length_append] at l2 ⊢
    omega
  have w4 := setIno_eq (i := 2 * l.length + 2) (by simp; omega) ((1024 : Int) - (body l).length - k.length - v.length) l3
  have x3 : (index l ++ [(1024 : Int) - (body l).length - k.length, x2]).set (2 * l.length + 2)
        ((1024 : Int) - (body l).length - k.length - v.length) =
      index l ++ [(1024 : Int) - (body l).length - k.length, (1024 : Int) - (body l).length - k.length - v.length] := by
    rw [List.set_append_right _ _ (by omega), hil, show 2 * l.length + 2 - (2 * l.length + 1) = 1 by omega]; rfl
  rw [x3] at w4
  have l4 : (enc (index l ++ [(1024 : Int) - (body l).length - k.length, (1024 : Int) - (body l).length - k.length - v.length]) ++
      (gb ++ (v ++ (k ++ body l)))).length = 1024 := by
    simp only [List.length_append, enc_length, List.length_cons, List.length_nil] at l3 ⊢
    omega
  have i0 : ino (enc (index l ++ [(1024 : Int) - (body l).length - k.length, (1024 : Int) - (body l).length - k.length - v.length]) ++
      (gb ++ (v ++ (k ++ body l)))) 0 = 2 * l.length := by
    rw [ino_eq (by simp) ?_]
    · rfl
    · exact hsh _ (by simp [index])
  have w5 := setIno_eq (i := 0) (by simp) ((2 * l.length : Int) + 2) l4
  have x4 : (index l ++ [(1024 : Int) - (body l).length - k.length, (1024 : Int) - (body l).length - k.length - v.length]).set 0
      ((2 * l.length : Int) + 2) = index (l ++ [(k, v)]) := by
    unfold index
    rw [offsets_append]
    simp [offsets]; omega
  rw [x4] at w5
  refine ⟨enc (index (l ++ [(k, v)])) ++ (gb ++ (v ++ (k ++ body l))), ?_, gb, ?_, ?_⟩
  · unfold putpair
    rw [hn, hfe]
    simp only [w1, w2, w3, w4, i0, w5, Option.bind_eq_bind, Option.bind_some]
  · rw [body_append]; simp [body]
  · rw [← x4]
    simp only [List.length_append, enc_length, List.length_set] at l4 ⊢
    exact l4

/-- The value of a key in a list of pairs. -/
def lookup (l : List Pair) (key : Bytes) : Option Bytes := (l.find? fun kv => kv.1 == key).map Prod.snd

theorem seepairLoop_test {l1 l2 : List Pair} {kv : Pair} (h : Holds p (l1 ++ kv :: l2)) (key : Bytes) :
    ((key.length : Int) = 1024 - (body l1).length - ino p (2 * l1.length + 1) ∧
      key = slice p (ino p (2 * l1.length + 1)) key.length) ↔ kv.1 = key := by
  constructor
  · rintro ⟨h1, h2⟩
    rw [h.inoKey] at h1
    rw [h2, h.key _ (by omega)]
  · intro e
    refine ⟨?_, ?_⟩
    · rw [h.inoKey, e]; omega
    · rw [h.key _ (by rw [e]), e]

theorem seepairLoop_none (key : Bytes) : ∀ (l2 l1 : List Pair) (fuel : Nat), Holds p (l1 ++ l2) → (∀ kv ∈ l2, kv.1 ≠ key) →
    seepairLoop p (2 * ((l1 ++ l2).length : Int)) key fuel (2 * l1.length + 1) (1024 - (body l1).length) = 0 := by
  intro l2
  induction l2 with
  | nil =>
    intro l1 fuel h _
    cases fuel with
    | zero => rfl
    | succ fuel =>
      unfold seepairLoop
      rw [if_neg (by simp)]
  | cons kv rest ih =>
    intro l1 fuel h hno
    cases fuel with
    | zero => rfl
    | succ fuel =>
      unfold seepairLoop
      rw [if_pos (by simp; omega), if_neg (fun ht => hno kv (by simp) ((seepairLoop_test h key).mp ht))]
      have h' : Holds p ((l1 ++ [kv]) ++ rest) := by simpa using h
      have := ih (l1 ++ [kv]) fuel h' (fun x hx => hno x (List.mem_cons_of_mem _ hx))
      rw [body_append] at this
      simp only [body, List.nil_append, List.append_assoc, List.singleton_append, List.length_append, List.length_singleton] at this
      rw [h.inoVal]
      simp only [List.length_append, List.length_cons] at this ⊢
      rw [show 2 * l1.length + 1 + 2 = 2 * (l1.length + 1) + 1 by omega]
      rw [← this]
      congr 1
      push_cast; omega

theorem seepairLoop_found (key v : Bytes) : ∀ (m l1 l2 : List Pair) (fuel : Nat), Holds p (l1 ++ (m ++ (key, v) :: l2)) →
    (∀ kv ∈ m, kv.1 ≠ key) → m.length < fuel →
    seepairLoop p (2 * ((l1 ++ (m ++ (key, v) :: l2)).length : Int)) key fuel (2 * l1.length + 1) (1024 - (body l1).length) =
      2 * (l1.length + m.length) + 1 := by
  intro m
  induction m with
  | nil =>
    intro l1 l2 fuel h _ hf
    cases fuel with
    | zero => simp at hf
    | succ fuel =>
      unfold seepairLoop
      rw [if_pos (by simp; omega), if_pos ((seepairLoop_test h key).mpr rfl)]
      simp
  | cons kv rest ih =>
    intro l1 l2 fuel h hno hf
    cases fuel with
    | zero => simp at hf
    | succ fuel =>
      unfold seepairLoop
      rw [if_pos (by simp; omega), if_neg (fun ht => hno kv (by simp) ((seepairLoop_test h key).mp ht))]
      have h' : Holds p ((l1 ++ [kv]) ++ (rest ++ (key, v) :: l2)) := by simpa using h
      have := ih (l1 ++ [kv]) l2 fuel h' (fun x hx => hno x (List.mem_cons_of_mem _ hx)) (by simp at hf; omega)
      rw [body_append] at this
      simp only [body, List.nil_append, List.append_assoc, List.singleton_append, List.length_append, List.length_singleton] at this
      rw [h.inoVal]
      simp only [List.length_append, List.length_cons, List.cons_append] at this ⊢
      rw [show 2 * l1.length + 1 + 2 = 2 * (l1.length + 1) + 1 by omega]
      rw [show 2 * (l1.length + (rest.length + 1)) + 1 = 2 * (l1.length + 1 + rest.length) + 1 by omega, ← this]
      congr 1
      push_cast; omega

theorem seepair_none (h : Holds p l) (key : Bytes) (hno : ∀ kv ∈ l, kv.1 ≠ key) : seepair p (2 * l.length) key = 0 := by
  have := seepairLoop_none key l [] ((2 * (l.length : Int)).toNat + 1) h hno
  simpa [body, seepair] using this

theorem seepair_found {l1 l2 : List Pair} {key v : Bytes} (h : Holds p (l1 ++ (key, v) :: l2)) (hno : ∀ kv ∈ l1, kv.1 ≠ key) :
    seepair p (2 * ((l1 ++ (key, v) :: l2).length : Int)) key = 2 * l1.length + 1 := by
  have := seepairLoop_found key v l1 [] l2 ((2 * ((l1 ++ (key, v) :: l2).length : Int)).toNat + 1) h hno
    (by simp only [List.length_append, List.length_cons]; omega)
  simpa [body, seepair] using this

/-- Either the key is absent, or the list splits at its first occurrence. -/
theorem first_or_none (l : List Pair) (key : Bytes) :
    (∀ kv ∈ l, kv.1 ≠ key) ∨ ∃ l1 v l2, l = l1 ++ (key, v) :: l2 ∧ ∀ kv ∈ l1, kv.1 ≠ key := by
  induction l with
  | nil => exact Or.inl (by simp)
  | cons kv rest ih =>
    by_cases e : kv.1 = key
    · subst e; exact Or.inr ⟨[], kv.2, rest, rfl, by simp⟩
    · rcases ih with h | ⟨l1, v, l2, rfl, h⟩
      · exact Or.inl (by simpa [e] using h)
      · exact Or.inr ⟨kv :: l1, v, l2, rfl, by simpa [e] using h⟩

theorem lookup_none {key : Bytes} (hno : ∀ kv ∈ l, kv.1 ≠ key) : lookup l key = none := by
  unfold lookup
  rw [Option.map_eq_none_iff, List.find?_eq_none]
  intro x hx; simpa using hno x hx

theorem lookup_found {l1 l2 : List Pair} {key v : Bytes} (hno : ∀ kv ∈ l1, kv.1 ≠ key) :
    lookup (l1 ++ (key, v) :: l2) key = some v := by
  have : l1.find? (fun kv => kv.1 == key) = none := by
    rw [List.find?_eq_none]; intro x hx; simpa using hno x hx
  unfold lookup
  rw [List.find?_append, this]; simp

/-- `getpair` finds the value of the key. -/
theorem getpair_spec (h : Holds p l) (key : Bytes) : getpair p key = lookup l key := by
  unfold getpair
  rw [h.count]
  dsimp only
  rcases first_or_none l key with hno | ⟨l1, v, l2, rfl, hno⟩
  · rw [seepair_none h key hno, lookup_none hno]; simp
  · rw [seepair_found h hno, lookup_found hno, if_neg (by simp; omega), if_neg (by omega)]
    congr 1
    exact h.val _ (by rw [h.inoKey, h.inoVal]; simp)

theorem duppair_spec (h : Holds p l) (key : Bytes) : duppair p key = l.any fun kv => kv.1 == key := by
  unfold duppair
  rw [h.count]
  rcases first_or_none l key with hno | ⟨l1, v, l2, rfl, hno⟩
  · rw [seepair_none h key hno]
    have : (l.any fun kv => kv.1 == key) = false := by rw [List.any_eq_false]; intro x hx; simpa using hno x hx
    simp [this]
  · rw [seepair_found h hno]
    simp
    omega

/-- `getnkey` counts from 1. -/
theorem getnkey_spec (h : Holds p l) (j : Nat) : getnkey p (j + 1) = (l[j]?).map Prod.fst := by
  unfold getnkey
  rw [h.count]
  by_cases hj : j < l.length
  · have hs : l = l.take j ++ l[j] :: l.drop (j + 1) := by simp
    have hlen : (l.take j).length = j := by simp; omega
    have h' : Holds p (l.take j ++ l[j] :: l.drop (j + 1)) := by rw [← hs]; exact h
    have k1 := h'.inoKey
    have k2 := h'.key
    rw [hlen] at k1 k2
    have e1 : (((j + 1 : Nat) : Int) * 2 - 1).toNat = 2 * j + 1 := by omega
    rw [if_neg (by push_cast; omega), e1]
    simp only [List.getElem?_eq_getElem hj, Option.map_some, Option.some.injEq]
    apply k2
    rw [k1]
    rcases Nat.eq_zero_or_pos j with rfl | hpos
    · simp [body]
    · rw [if_pos (by push_cast; omega)]
      obtain ⟨j', rfl⟩ : ∃ j', j = j' + 1 := ⟨j - 1, by omega⟩
      have e2 : (((j' + 1 + 1 : Nat) : Int) * 2 - 1 - 1).toNat = 2 * j' + 2 := by omega
      rw [e2]
      have hj' : j' < l.length := by omega
      have hs2 : l = l.take j' ++ l[j'] :: l.drop (j' + 1) := by simp
      have h2 : Holds p (l.take j' ++ l[j'] :: l.drop (j' + 1)) := by rw [← hs2]; exact h
      have k3 := h2.inoVal
      rw [show (l.take j').length = j' by simp; omega] at k3
      rw [k3]
      have : l.take (j' + 1) = l.take j' ++ [l[j']] := by simp
      rw [this, body_append]
      simp [body]
      omega
  · rw [List.getElem?_eq_none (by omega)]
    rw [if_pos (by push_cast; omega)]
    rfl

theorem shiftLoop_spec (n : Nat) (zoo : Int) (rest : Bytes) : ∀ (mid pre : List Int) (a b : Int) (fuel : Nat),
    n - 1 = pre.length + mid.length → mid.length < fuel → (∀ x ∈ mid, Short x) →
    (enc (pre ++ a :: b :: mid) ++ rest).length = 1024 →
    ∃ y z, shiftLoop n zoo fuel pre.length (enc (pre ++ a :: b :: mid) ++ rest) =
      some (enc (pre ++ (mid.map (· + zoo) ++ [y, z])) ++ rest) := by
  intro mid
  induction mid with
  | nil =>
    intro pre a b fuel hn hf _ _
    refine ⟨a, b, ?_⟩
    simp only [List.length_nil, Nat.add_zero] at hn
    have e0 : ¬pre.length < n - 1 := by omega
    cases fuel with
    | zero => rfl
    | succ fuel => simp only [shiftLoop, if_neg e0, List.map_nil, List.nil_append]
  | cons c mid ih =>
    intro pre a b fuel hn hf hsh hl
    simp only [List.length_cons] at hn
    have e0 : pre.length < n - 1 := by omega
    cases fuel with
    | zero => simp at hf
    | succ fuel =>
      simp only [shiftLoop, if_pos e0]
      have hi : ino (enc (pre ++ a :: b :: c :: mid) ++ rest) (pre.length + 2) = c := by
        have e : (pre ++ a :: b :: c :: mid)[pre.length + 2]? = some c := by
          rw [List.getElem?_append_right (by omega)]; simp
        obtain ⟨h1, e⟩ := List.getElem?_eq_some_iff.mp e
        rw [ino_eq h1 (by rw [e]; exact hsh c (by simp)), e]
      rw [hi, setIno_eq (by simp) _ hl]
      have e : (pre ++ a :: b :: c :: mid).set pre.length (c + zoo) = (pre ++ [c + zoo]) ++ b :: c :: mid := by
        rw [List.set_append_right _ _ (Nat.le_refl _), Nat.sub_self]; simp
      rw [e, Option.bind_some]
      have hl' : (enc ((pre ++ [c + zoo]) ++ b :: c :: mid) ++ rest).length = 1024 := by
        rw [← e]
        simp only [List.length_append, enc_length, List.length_set] at hl ⊢
        exact hl
      obtain ⟨y, z, h⟩ := ih (pre ++ [c + zoo]) b c fuel (by rw [List.length_append, List.length_singleton]; clear * - hn; omega) (by simp at hf; omega)
        (fun x hx => hsh x (List.mem_cons_of_mem _ hx)) hl'
      refine ⟨y, z, ?_⟩
      rw [show pre.length + 1 = (pre ++ [c + zoo]).length by simp, h]
      simp

/-- `delpair` removes the first pair with the key. -/
theorem delpair_spec (h : Holds p l) (key : Bytes) :
    ∃ p', delpair p key = some (p', l.any fun kv => kv.1 == key) ∧ Holds p' (l.eraseP fun kv => kv.1 == key) := by
  rcases first_or_none l key with hno | ⟨l1, v, l2, rfl, hno⟩
  · have e1 : (l.any fun kv => kv.1 == key) = false := by rw [List.any_eq_false]; intro x hx; simpa using hno x hx
    have e2 : (l.eraseP fun kv => kv.1 == key) = l := List.eraseP_of_forall_not (by intro x hx; simpa using hno x hx)
    refine ⟨p, ?_, by rw [e2]; exact h⟩
    unfold delpair
    rw [h.count, seepair_none h key hno, e1]
    simp
  · have e1 : ((l1 ++ (key, v) :: l2).any fun kv => kv.1 == key) = true := by simp
    have e2 : ((l1 ++ (key, v) :: l2).eraseP fun kv => kv.1 == key) = l1 ++ l2 := by
      rw [List.eraseP_append_right _ (by intro x hx; simpa using hno x hx)]; simp
    rw [e1, e2]
    have hsee := seepair_found h hno
    have hcnt := h.count
    have hik := h.inoKey
    have hiv := h.inoVal
    have hsh := h.short
    have hfe := h.freeEnd
    -- the end of the free area is the last offset
    have hfe' : freeEnd p = ino p (2 * (l1 ++ (key, v) :: l2).length) := by
      unfold freeEnd
      rw [hcnt, if_pos (by simp; omega)]
      congr 1
    rw [hfe'] at hfe
    have hdst : (if 2 * l1.length + 1 = 1 then (1024 : Int) else ino p (2 * l1.length + 1 - 1)) = 1024 - (body l1).length := by
      rcases List.eq_nil_or_concat l1 with rfl | ⟨l0, kv, rfl⟩
      · simp [body]
      · simp only [List.concat_eq_append] at *
        rw [if_neg (by simp)]
        have h' : Holds p (l0 ++ kv :: (key, v) :: l2) := by simpa using h
        have := h'.inoVal
        rw [show 2 * (l0 ++ [kv]).length + 1 - 1 = 2 * l0.length + 2 by simp; omega, this, body_append]
        simp [body]; omega
    have hroom := h.room
    unfold room at hroom
    rw [body_append] at hroom
    obtain ⟨gap, e, hl⟩ := h
    -- the index
    have hidx : index (l1 ++ (key, v) :: l2) = ((2 * (l1 ++ (key, v) :: l2).length : Int) :: offsets 1024 l1) ++
        ((1024 : Int) - (body l1).length - key.length) :: ((1024 : Int) - (body l1).length - key.length - v.length) ::
          offsets ((1024 : Int) - (body l1).length - key.length - v.length) l2 := by
      unfold index
      rw [offsets_append]
      simp [offsets]
    have hpre : ((2 * (l1 ++ (key, v) :: l2).length : Int) :: offsets 1024 l1).length = 2 * l1.length + 1 := by
      simp [offsets_length]
    -- the last step: the number of entries
    have last : ∀ (y z : Int) (rest : Bytes),
        (enc (((2 * (l1 ++ (key, v) :: l2).length : Int) :: offsets 1024 l1) ++
          ((offsets ((1024 : Int) - (body l1).length - key.length - v.length) l2).map (· + ((key.length : Int) + v.length)) ++ [y, z])) ++
          (rest ++ body (l1 ++ l2))).length = 1024 →
        ∃ p', setIno (enc (((2 * (l1 ++ (key, v) :: l2).length : Int) :: offsets 1024 l1) ++
          ((offsets ((1024 : Int) - (body l1).length - key.length - v.length) l2).map (· + ((key.length : Int) + v.length)) ++ [y, z])) ++
          (rest ++ body (l1 ++ l2))) 0 (ino (enc (((2 * (l1 ++ (key, v) :: l2).length : Int) :: offsets 1024 l1) ++
          ((offsets ((1024 : Int) - (body l1).length - key.length - v.length) l2).map (· + ((key.length : Int) + v.length)) ++ [y, z])) ++
          (rest ++ body (l1 ++ l2))) 0 - 2) = some p' ∧ Holds p' (l1 ++ l2) := by
      intro y z rest hlen
      rw [ino_eq (by simp) (hsh _ (by simp [index])), setIno_eq (by simp) _ hlen]
      refine ⟨_, rfl, le16 y ++ le16 z ++ rest, ?_, ?_⟩
      · have : index (l1 ++ l2) = (2 * ((l1 ++ (key, v) :: l2).length : Int) - 2) :: (offsets 1024 l1 ++
            (offsets ((1024 : Int) - (body l1).length - key.length - v.length) l2).map (· + ((key.length : Int) + v.length))) := by
          unfold index
          rw [offsets_append, ← offsets_shift]
          congr 1
          · simp; omega
          · congr 2; omega
        rw [this]
        simp [enc]
      · simp only [List.length_append, enc_length, List.length_set] at hlen ⊢
        exact hlen
    unfold delpair
    rw [hcnt, hsee]
    rw [if_neg (by simp; omega), if_neg (by omega)]
    have hn : (2 * ((l1 ++ (key, v) :: l2).length : Int)).toNat = 2 * (l1.length + l2.length + 1) := by simp; omega
    rw [hn]
    have hn' : 2 * (l1 ++ (key, v) :: l2).length = 2 * (l1.length + l2.length + 1) := by simp; omega
    rw [hn'] at hfe
    by_cases hl2 : l2 = []
    · subst hl2
      rw [if_neg (by simp only [List.length_nil]; omega)]
      obtain ⟨p', hp', hh⟩ := last ((1024 : Int) - (body l1).length - key.length) ((1024 : Int) - (body l1).length - key.length - v.length)
        (gap ++ v ++ key) (by
          rw [e, hidx, body_append] at hl
          simpa [offsets, body] using hl)
      refine ⟨p', ?_, hh⟩
      have : p = enc (((2 * (l1 ++ [(key, v)]).length : Int) :: offsets 1024 l1) ++
          ((offsets ((1024 : Int) - (body l1).length - key.length - v.length) []).map (· + ((key.length : Int) + v.length)) ++
            [(1024 : Int) - (body l1).length - key.length, (1024 : Int) - (body l1).length - key.length - v.length])) ++
          ((gap ++ v ++ key) ++ body (l1 ++ [])) := by
        rw [e, hidx, body_append]; simp [offsets, body]
      rw [← this, hcnt] at hp'
      rw [hp']; rfl
    · have hlen2 : 0 < l2.length := List.length_pos_iff.mpr hl2
      rw [if_pos (by omega)]
      have hbl : (body (l1 ++ (key, v) :: l2)).length = (body l2).length + v.length + key.length + (body l1).length := by
        rw [body_append]; simp only [body, List.length_append]
      rw [hbl] at hfe
      have hm : ino p (2 * l1.length + 1 + 1) - ino p (2 * (l1.length + l2.length + 1)) = (body l2).length := by
        rw [hiv, hfe]; push_cast; omega
      have hzoo : ((1024 : Int) - (body l1).length) - ino p (2 * l1.length + 1 + 1) = (key.length : Int) + v.length := by
        rw [hiv]; simp only; omega
      dsimp only
      rw [hdst, hm, hzoo]
      -- moving the data
      obtain ⟨x, y0, exy, hx, -⟩ := exists_split (body l2 ++ (v ++ key)) (v.length + key.length) (by simp only [List.length_append]; omega)
      have hy : y0.length = (body l2).length := by
        have := congrArg List.length exy
        simp only [List.length_append] at this
        omega
      have hpage : p = (enc (index (l1 ++ (key, v) :: l2)) ++ gap) ++ (body l2 ++ ((v ++ key) ++ body l1)) := by
        rw [e, body_append]; simp [body]
      have hpage2 : p = (enc (index (l1 ++ (key, v) :: l2)) ++ gap ++ x) ++ (y0 ++ body l1) := by
        rw [hpage]
        have := congrArg (fun t => enc (index (l1 ++ (key, v) :: l2)) ++ gap ++ (t ++ body l1)) exy
        simpa using this
      have hA : (enc (index (l1 ++ (key, v) :: l2)) ++ gap).length + (body l2).length + v.length + key.length + (body l1).length = 1024 := by
        have := hl
        rw [hpage] at this
        simp only [List.length_append] at this ⊢
        omega
      have hmove : (if ((body l2).length : Int) > 0 then
          write p ((1024 : Int) - (body l1).length - (body l2).length)
            (slice p (ino p (2 * l1.length + 1 + 1) - (body l2).length) (body l2).length)
          else some p) = some (enc (index (l1 ++ (key, v) :: l2)) ++ ((gap ++ x) ++ body (l1 ++ l2))) := by
        by_cases hz : (body l2).length = 0
        · have hb : body l2 = [] := List.eq_nil_of_length_eq_zero hz
          have hyn : y0 = [] := List.eq_nil_of_length_eq_zero (by omega)
          rw [if_neg (by omega), body_append, hb]
          rw [hyn] at hpage2
          simpa using hpage2
        · rw [if_pos (by omega)]
          have hs : slice p (ino p (2 * l1.length + 1 + 1) - (body l2).length) (body l2).length = body l2 := by
            rw [hiv]
            rw [hpage]
            apply slice_eq
            · simp only at *; omega
            · rfl
          rw [hs]
          have hw : write p ((1024 : Int) - (body l1).length - (body l2).length) (body l2) =
              some ((enc (index (l1 ++ (key, v) :: l2)) ++ gap ++ x) ++ (body l2 ++ body l1)) := by
            rw [hpage2]
            apply write_eq
            · rw [List.length_append, hx]; omega
            · omega
            · rw [← hpage2]; exact hl
          rw [hw, body_append]; simp
      rw [hmove]
      rw [Option.bind_some]
      have hl' : (enc (((2 * (l1 ++ (key, v) :: l2).length : Int) :: offsets 1024 l1) ++
        ((1024 : Int) - (body l1).length - key.length) :: ((1024 : Int) - (body l1).length - key.length - v.length) ::
          offsets ((1024 : Int) - (body l1).length - key.length - v.length) l2) ++ ((gap ++ x) ++ body (l1 ++ l2))).length = 1024 := by
        rw [← hidx, body_append]
        simp only [List.length_append] at hA ⊢
        omega
      obtain ⟨y, z, hsl⟩ := shiftLoop_spec (2 * (l1.length + l2.length + 1)) ((key.length : Int) + v.length)
        ((gap ++ x) ++ body (l1 ++ l2)) (offsets ((1024 : Int) - (body l1).length - key.length - v.length) l2)
        ((2 * (l1 ++ (key, v) :: l2).length : Int) :: offsets 1024 l1)
        ((1024 : Int) - (body l1).length - key.length) ((1024 : Int) - (body l1).length - key.length - v.length)
        (2 * (l1.length + l2.length + 1)) (by rw [hpre, offsets_length]; omega) (by rw [offsets_length]; omega)
        (fun w hw => hsh w (by rw [hidx]; simp [hw])) hl'
      rw [hpre] at hsl
      rw [hidx, hsl]
      have hl3 : (enc (((2 * (l1 ++ (key, v) :: l2).length : Int) :: offsets 1024 l1) ++
          ((offsets ((1024 : Int) - (body l1).length - key.length - v.length) l2).map (· + ((key.length : Int) + v.length)) ++ [y, z])) ++
          ((gap ++ x) ++ body (l1 ++ l2))).length = 1024 := by
        rw [← hl']
        simp only [List.length_append, enc_length, List.length_cons, List.length_map, List.length_nil]
      obtain ⟨p', hp', hh⟩ := last y z (gap ++ x) hl3
      refine ⟨p', ?_, hh⟩
      rw [Option.bind_some, hp']
      rfl

theorem splpageLoop_spec (hash : Bytes → Nat) (sbit : Nat) : ∀ (l2 l1 q r : List Pair) (pag new : Page),
    Holds p (l1 ++ l2) → Holds pag q → Holds new r →
    room q + 4 * l2.length + (body l2).length ≤ 1024 → room r + 4 * l2.length + (body l2).length ≤ 1024 →
    ∃ a b, splpageLoop hash p sbit l2.length (2 * l1.length + 1) (1024 - (body l1).length) pag new = some (a, b) ∧
      Holds a (q ++ l2.filter fun kv => hash kv.1 &&& sbit == 0) ∧ Holds b (r ++ l2.filter fun kv => hash kv.1 &&& sbit != 0) := by
  intro l2
  induction l2 with
  | nil => intro l1 q r pag new _ hq hr _ _; exact ⟨pag, new, rfl, by simpa using hq, by simpa using hr⟩
  | cons kv l2 ih =>
    intro l1 q r pag new h hq hr h1 h2
    have h' : Holds p ((l1 ++ [kv]) ++ l2) := by simpa using h
    have hk : slice p (ino p (2 * l1.length + 1)) (1024 - (body l1).length - ino p (2 * l1.length + 1)) = kv.1 :=
      h.key _ (by rw [h.inoKey]; omega)
    have hv : slice p (ino p (2 * l1.length + 1 + 1)) (ino p (2 * l1.length + 1) - ino p (2 * l1.length + 1 + 1)) = kv.2 :=
      h.val _ (by rw [h.inoKey, h.inoVal]; omega)
    have hoff : ino p (2 * l1.length + 1 + 1) = 1024 - ((body (l1 ++ [kv])).length : Int) := by
      rw [h.inoVal, body_append]; simp only [body, List.length_append, List.length_nil]; push_cast; omega
    have hi : 2 * l1.length + 1 + 2 = 2 * (l1 ++ [kv]).length + 1 := by simp; omega
    simp only [List.length_cons, body, List.length_append] at h1 h2
    rw [List.length_cons, splpageLoop, hk, hv, hoff, hi]
    have hroom : ∀ (s : List Pair), room (s ++ [kv]) = room s + 4 + kv.1.length + kv.2.length := by
      intro s
      unfold room
      rw [body_append]
      simp only [body, List.length_append, List.length_nil, List.length_cons]; omega
    by_cases hb : hash kv.1 &&& sbit = 0
    · rw [if_neg (by simpa using hb)]
      obtain ⟨p1, e1, hp1⟩ := putpair_spec hq kv (by rw [hroom]; omega)
      obtain ⟨a, b, e, ha, hb'⟩ := ih (l1 ++ [kv]) (q ++ [kv]) r p1 new h' hp1 hr (by rw [hroom]; omega) (by omega)
      refine ⟨a, b, by rw [e1, Option.bind_some, e], ?_, ?_⟩
      · simpa [List.filter_cons, hb] using ha
      · simpa [List.filter_cons, hb] using hb'
    · rw [if_pos hb]
      obtain ⟨p1, e1, hp1⟩ := putpair_spec hr kv (by rw [hroom]; omega)
      obtain ⟨a, b, e, ha, hb'⟩ := ih (l1 ++ [kv]) q (r ++ [kv]) pag p1 h' hq hp1 (by omega) (by rw [hroom]; omega)
      refine ⟨a, b, by rw [e1, Option.bind_some, e], ?_, ?_⟩
      · simpa [List.filter_cons, hb] using ha
      · simpa [List.filter_cons, hb] using hb'

/-- `splpage` divides the pairs by one bit of the hash. -/
theorem splpage_spec (hash : Bytes → Nat) (sbit : Nat) (h : Holds p l) :
    ∃ a b, splpage hash p sbit = some (a, b) ∧
      Holds a (l.filter fun kv => hash kv.1 &&& sbit == 0) ∧ Holds b (l.filter fun kv => hash kv.1 &&& sbit != 0) := by
  have hr := h.room
  have e : ((ino p 0).toNat + 1) / 2 = l.length := by rw [h.count]; omega
  have := splpageLoop_spec hash sbit l [] [] [] zeroPage zeroPage h holds_zero holds_zero
    (by unfold room at *; simpa [body] using hr) (by unfold room at *; simpa [body] using hr)
  unfold splpage
  rw [e]
  simpa [body] using this

theorem chkpageLoop_spec : ∀ (l2 l1 : List Pair), Holds p (l1 ++ l2) →
    chkpageLoop p l2.length (2 * l1.length + 1) (1024 - (body l1).length) = true := by
  intro l2
  induction l2 with
  | nil => intro l1 _; rfl
  | cons kv l2 ih =>
    intro l1 h
    have h' : Holds p ((l1 ++ [kv]) ++ l2) := by simpa using h
    have hoff : ino p (2 * l1.length + 1 + 1) = 1024 - ((body (l1 ++ [kv])).length : Int) := by
      rw [h.inoVal, body_append]; simp only [body, List.length_append, List.length_nil]; push_cast; omega
    have hi : 2 * l1.length + 1 + 2 = 2 * (l1 ++ [kv]).length + 1 := by simp; omega
    have := ih _ h'
    rw [List.length_cons, chkpageLoop, if_neg, hoff, hi, this]
    rw [h.inoKey, h.inoVal]
    omega

/-- A page that holds pairs passes the check made when it is read. -/
theorem chkpage_spec (h : Holds p l) : chkpage p = true := by
  unfold chkpage
  have hr := h.room
  unfold room at hr
  have := chkpageLoop_spec l [] h
  rw [h.count]
  dsimp only
  rw [if_neg (by omega), show ((2 * (l.length : Int)).toNat + 1) / 2 = l.length by omega]
  simpa [body] using this

end Rep.Sdbm
