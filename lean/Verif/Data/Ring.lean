/-
Ring buffers (lisp/rep/data/ring.jl) and property C17.
-/
import Mathlib.Data.List.Basic
import Mathlib.Data.Nat.ModEq

namespace Rep.Ring

/-! ### Model -/

/-- lisp/rep/data/ring.jl:53-77: the vector of a ring: slot 0 is `size`, slot 1 is
`pos`, the other slots are `slots`.  The datum wrapper is in `Verif/Datum`; the
numbers are small and modelled as `Nat`. -/
structure Ring (α : Type) where
  slots : List α
  size : Nat
  pos : Nat

variable {α : Type}

/-- ring.jl:57 `ring-capacity`. -/
def capacity (r : Ring α) : Nat := r.slots.length

/-- ring.jl:80 `make-ring`; `nil` is the initial content of a vector. -/
def make (nil : α) (n : Nat) : Ring α := ⟨List.replicate n nil, 0, 0⟩

/-- ring.jl:89 `ring-append`; `none` is the argument error of `aset` (when the
capacity is zero). -/
def append (r : Ring α) (x : α) : Option (Ring α) :=
  if r.pos < r.slots.length then
    some { slots := r.slots.set r.pos x
           size := if r.size = capacity r then r.size else r.size + 1
           pos := (r.pos + 1) % capacity r }
  else none

/-- ring.jl:98 `ring-ref`; `none` is an error. -/
def ref (nil : α) (r : Ring α) (depth : Int) : Option α :=
  if depth ≥ capacity r then some nil
  else if capacity r = 0 then none
  else r.slots[((r.pos - (depth + 1)) % (capacity r : Int)).toNat]?

/-- ring.jl:109 `ring-replace`. -/
def replace (r : Ring α) (x : α) : Option (Ring α) :=
  if r.size = 0 then append r x
  else some { r with slots := r.slots.set (((r.pos : Int) - 1) % (capacity r : Int)).toNat x }

/-- ring.jl:116 `ring->list`: the `do` loop from `i`, `n` steps to go. -/
def toList.loop (nil : α) (r : Ring α) (contents : List α) (i : Nat) : Nat → Option (List α)
  | 0 => some contents.reverse
  | n + 1 => do
      let x ← ref nil r i
      toList.loop nil r (x :: contents) (i + 1) n

/-- ring.jl:116 `ring->list`. -/
def toList (nil : α) (r : Ring α) : Option (List α) := toList.loop nil r [] 0 r.size

/-- ring.jl:126 `get-from-ring`. -/
def getFrom (nil : α) (r : Ring α) (depth : Option Int) : Option α :=
  ref nil r (match depth with | some d => d - 1 | none => 0)

/-! ### Specification -/

/-- `add-to-ring`/`ring-append` or `set-ring-head`/`ring-replace`. -/
inductive Op (α : Type) where
  | add (x : α)
  | setHead (x : α)

/-- All elements ever added, newest first. -/
def history : List (Op α) → List α
  | [] => []
  | ops => ops.foldl (fun xs op => match op, xs with
      | .add x, xs => x :: xs
      | .setHead x, [] => [x]
      | .setHead x, _ :: xs => x :: xs) []

/-- The code's effect of one operation. -/
def Op.run (r : Ring α) : Op α → Option (Ring α)
  | .add x => append r x
  | .setHead x => replace r x

/-! ### Proofs -/

structure Inv (nil : α) (c : Nat) (r : Ring α) (xs : List α) : Prop where
  len : r.slots.length = c
  size : r.size = min xs.length c
  pos : r.pos = xs.length % c
  item : ∀ k, k < min xs.length c → r.slots[(xs.length - 1 - k) % c]? = xs[k]?
  empty : ∀ i, xs.length ≤ i → i < c → r.slots[i]? = some nil

theorem mod_sub_ne {n k c : Nat} (hk : k < n) (hc : k + 1 < c) : (n - 1 - k) % c ≠ n % c := by
  intro h
  have h1 := Nat.sub_mod_eq_zero_of_mod_eq h.symm
  have h2 : n - (n - 1 - k) = k + 1 := by omega
  rw [h2, Nat.mod_eq_of_lt hc] at h1
  omega

theorem inv_make (nil : α) (c : Nat) : Inv nil c (make nil c) [] := by
  refine ⟨by simp [make], by simp [make], by simp [make], by simp, ?_⟩
  intro i _ hi
  simp [make, hi]

theorem inv_append {nil : α} {c : Nat} {r : Ring α} {xs : List α} (hc : 0 < c) (h : Inv nil c r xs) (x : α) :
    ∃ r', append r x = some r' ∧ Inv nil c r' (x :: xs) := by
  have hp : r.pos < r.slots.length := by rw [h.pos, h.len]; exact Nat.mod_lt _ hc
  refine ⟨_, by rw [append, if_pos hp], ?_⟩
  refine ⟨by simp [h.len], ?_, ?_, ?_, ?_⟩
  · simp only [capacity, h.len, h.size, List.length_cons]
    split <;> omega
  · simp only [capacity, h.len, h.pos, List.length_cons]
    simp
  · intro k hk
    simp only [List.length_cons] at *
    cases k with
    | zero =>
      have : (xs.length + 1 - 1 - 0) % c = r.pos := by rw [h.pos]; rfl
      rw [this, List.getElem?_set_self hp]; rfl
    | succ k =>
      have e : xs.length + 1 - 1 - (k + 1) = xs.length - 1 - k := by omega
      rw [e, List.getElem?_cons_succ, ← h.item k (by omega), List.getElem?_set_ne]
      rw [h.pos]
      exact (mod_sub_ne (by omega) (by omega)).symm
  · intro i hi hic
    simp only [List.length_cons] at hi
    rw [List.getElem?_set_ne, h.empty i (by omega) hic]
    rw [h.pos, Nat.mod_eq_of_lt (by omega)]
    omega

theorem ref_index {n c k : Nat} (hc : 0 < c) (hk : k < c) :
    (((n % c : Nat) : Int) - ((k : Int) + 1)) % (c : Int) =
      (((if k < n then (n - 1 - k) % c else c + n - 1 - k) : Nat) : Int) := by
  by_cases h : k < n
  · rw [if_pos h]
    have e : ((n - 1 - k : Nat) : Int) = (n : Int) - ((k : Int) + 1) := by omega
    rw [Int.natCast_mod, Int.natCast_mod, e, Int.emod_sub_emod]
  · rw [if_neg h]
    have hn : n % c = n := Nat.mod_eq_of_lt (by omega)
    rw [hn]
    have e : ((c + n - 1 - k : Nat) : Int) = (n : Int) - ((k : Int) + 1) + c := by omega
    rw [e, ← Int.add_emod_right]
    exact Int.emod_eq_of_lt (by omega) (by omega)

theorem ref_spec {nil : α} {c : Nat} {r : Ring α} {xs : List α} (hc : 0 < c) (h : Inv nil c r xs) (k : Nat) :
    ref nil r k = some ((xs.take c)[k]?.getD nil) := by
  unfold ref
  simp only [capacity, h.len]
  by_cases hk : (k : Int) ≥ c
  · rw [if_pos hk]
    have : (xs.take c)[k]? = none := by
      rw [List.getElem?_eq_none]
      simp only [List.length_take]; omega
    rw [this]; rfl
  · rw [if_neg hk, if_neg (by omega), h.pos, ref_index hc (by omega), Int.toNat_natCast]
    by_cases hn : k < xs.length
    · rw [if_pos hn, h.item k (by omega), List.getElem?_take_of_lt (by omega), List.getElem?_eq_getElem hn]
      rfl
    · rw [if_neg hn, h.empty _ (by omega) (by omega)]
      have : (xs.take c)[k]? = none := by
        rw [List.getElem?_eq_none]
        simp only [List.length_take]; omega
      rw [this]; rfl

theorem inv_replace {nil : α} {c : Nat} {r : Ring α} {y : α} {xs : List α} (hc : 0 < c)
    (h : Inv nil c r (y :: xs)) (x : α) :
    ∃ r', replace r x = some r' ∧ Inv nil c r' (x :: xs) := by
  have hs : r.size ≠ 0 := by rw [h.size]; simp only [List.length_cons]; omega
  have hidx : (((r.pos : Int) - 1) % (capacity r : Int)).toNat = xs.length % c := by
    have := ref_index (n := xs.length + 1) (k := 0) hc hc
    rw [if_pos (by omega)] at this
    simp only [capacity, h.len, h.pos, List.length_cons]
    have e0 : (((0 : Nat) : Int) + 1) = 1 := rfl
    rw [e0] at this
    rw [this, Int.toNat_natCast]
    simp
  refine ⟨_, by rw [replace, if_neg hs], ?_⟩
  rw [hidx]
  have hlt : xs.length % c < r.slots.length := by rw [h.len]; exact Nat.mod_lt _ hc
  refine ⟨by simp [h.len], by simpa using h.size, by simpa using h.pos, ?_, ?_⟩
  · intro k hk
    simp only [List.length_cons] at *
    cases k with
    | zero =>
      have : (xs.length + 1 - 1 - 0) % c = xs.length % c := rfl
      rw [this, List.getElem?_set_self hlt]; rfl
    | succ k =>
      have hi := h.item (k + 1) (by simpa using hk)
      simp only [List.length_cons, List.getElem?_cons_succ] at hi ⊢
      have e : xs.length + 1 - 1 - (k + 1) = xs.length - 1 - k := by omega
      rw [e] at hi ⊢
      rw [← hi, List.getElem?_set_ne]
      exact (mod_sub_ne (by omega) (by omega)).symm
  · intro i hi hic
    simp only [List.length_cons] at hi
    rw [List.getElem?_set_ne, h.empty i (by simpa using hi) hic]
    rw [Nat.mod_eq_of_lt (by omega)]
    omega

theorem toList_loop_spec {nil : α} {r : Ring α} {ys : List α}
    (href : ∀ k : Nat, ref nil r k = some (ys[k]?.getD nil)) :
    ∀ (n i : Nat) (acc : List α), i + n = ys.length →
      toList.loop nil r acc i n = some (acc.reverse ++ ys.drop i) := by
  intro n
  induction n with
  | zero => intro i acc h; simp [toList.loop, List.drop_of_length_le (show ys.length ≤ i by omega)]
  | succ n ih =>
    intro i acc h
    have hi : i < ys.length := by omega
    rw [toList.loop, href i]
    simp only [Option.bind_eq_bind, Option.bind_some]
    rw [ih (i + 1) _ (by omega), List.drop_eq_getElem_cons hi]
    simp [hi]

/-! ## C17  rings keep the newest elements -/

/-- Runs a history of operations. -/
def runAll (r : Ring α) : List (Op α) → Option (Ring α)
  | [] => some r
  | op :: ops => do runAll (← op.run r) ops

/-- After any history on a new ring of any capacity `c > 0`: the depth `k` element
(counting from 0) is the `k`-th newest of the last `c` elements, nil if there are
fewer; `get-from-ring` counts from 1; the size and the list of the contents agree. -/
theorem C17_ring (nil : α) (c : Nat) (hc : 0 < c) (ops : List (Op α)) :
    ∃ r, runAll (make nil c) ops = some r ∧
      capacity r = c ∧
      r.size = ((history ops).take c).length ∧
      (∀ k : Nat, ref nil r k = some (((history ops).take c)[k]?.getD nil)) ∧
      (∀ k : Nat, getFrom nil r (some (k + 1)) = some (((history ops).take c)[k]?.getD nil)) ∧
      getFrom nil r none = some (((history ops).take c)[0]?.getD nil) ∧
      toList nil r = some ((history ops).take c) := by
  let step : List α → Op α → List α := fun xs op => match op, xs with
      | .add x, xs => x :: xs
      | .setHead x, [] => [x]
      | .setHead x, _ :: xs => x :: xs
  have gen : ∀ (ops : List (Op α)) (r : Ring α) (xs : List α), Inv nil c r xs →
      ∃ r', runAll r ops = some r' ∧ Inv nil c r' (ops.foldl step xs) := by
    intro ops
    induction ops with
    | nil => intro r xs h; exact ⟨r, rfl, h⟩
    | cons op ops ih =>
      intro r xs h
      have : ∃ r1, op.run r = some r1 ∧ Inv nil c r1 (step xs op) := by
        cases op with
        | add x => exact inv_append hc h x
        | setHead x =>
          cases xs with
          | nil =>
            obtain ⟨r1, e, h1⟩ := inv_append hc h x
            refine ⟨r1, ?_, h1⟩
            have : r.size = 0 := by rw [h.size]; simp
            simp only [Op.run, replace, this, if_true, e]
          | cons y xs => exact inv_replace hc h x
      obtain ⟨r1, e1, h1⟩ := this
      obtain ⟨r2, e2, h2⟩ := ih r1 _ h1
      exact ⟨r2, by simp [runAll, e1, e2], h2⟩
  obtain ⟨r, e, h⟩ := gen ops _ _ (inv_make nil c)
  have hh : ops.foldl step [] = history ops := by cases ops <;> rfl
  rw [hh] at h
  have href := fun k => ref_spec hc h k
  refine ⟨r, e, h.len, ?_, href, ?_, ?_, ?_⟩
  · rw [h.size, List.length_take]; omega
  · intro k
    have : ((k : Int) + 1 - 1) = k := by omega
    simp only [getFrom, this]; exact href k
  · exact href 0
  · have hsz : r.size = ((history ops).take c).length := by rw [h.size, List.length_take]; omega
    have := toList_loop_spec href r.size 0 [] (by omega)
    simpa [toList] using this

example : history [Op.add 1, .add 2, .setHead 3, .add 4, .add 5] = [5, 4, 3, 1] := by decide

/-- Adding to a ring of capacity zero is an error; reading it gives nil. -/
theorem C17_zero_capacity (nil x : α) :
    append (make nil 0) x = none ∧ ref nil (make nil 0) 0 = some nil := by
  simp [append, make, ref, capacity]

end Rep.Ring
