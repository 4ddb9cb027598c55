import Verif.TailCall.Spec

/-
Memory.
-/

namespace Rep.TailCall

variable {V : Type}

/-- The number of elements of a block. -/
def cap (m : Mem V) (p : Option Nat) : Nat :=
  match p with
  | none => 0
  | some b => match m[b]? with
    | some l => l.length
    | none => 0

def Valid (m : Mem V) (p : Option Nat) : Prop := ∀ b, p = some b → b < m.length

theorem cap_valid {m : Mem V} {p : Option Nat} (h : 0 < cap m p) : Valid m p ∧ p ≠ none := by
  cases p with
  | none => simp [cap] at h
  | some b =>
    refine ⟨fun c hc => ?_, by simp⟩
    cases hc
    rcases Nat.lt_or_ge b m.length with hb | hb
    · exact hb
    · rw [cap, List.getElem?_eq_none hb] at h
      simp at h

theorem poke_ok {m : Mem V} {p : Option Nat} {i : Nat} (x : V) (h : i < cap m p) :
    ∃ m', poke m p i x = some m' ∧ m'.length = m.length ∧ (∀ q, cap m' q = cap m q) ∧
      ∀ q j, peek m' q j = if q = p ∧ j = i then some x else peek m q j := by
  obtain ⟨hv, hn⟩ := cap_valid (Nat.lt_of_le_of_lt (Nat.zero_le _) h)
  cases p with
  | none => exact absurd rfl hn
  | some b =>
    have hb := hv b rfl
    have hl : m[b]? = some m[b] := List.getElem?_eq_getElem hb
    simp only [cap, hl] at h
    refine ⟨m.set b (m[b].set i (some x)), by simp [poke, hl, h], by simp, fun q => ?_, fun q j => ?_⟩
    · cases q with
      | none => rfl
      | some c =>
        by_cases hc : c = b
        · subst hc
          simp [cap, hl, hb]
        · simp [cap, List.getElem?_set_ne (Ne.symm hc)]
    · cases q with
      | none => simp [peek]
      | some c =>
        by_cases hc : c = b
        · subst hc
          by_cases hj : j = i
          · subst hj
            simp [peek, hl, hb, h]
          · simp [peek, hl, hb, hj, List.getElem?_set_ne (Ne.symm hj)]
        · simp [peek, hc, List.getElem?_set_ne (Ne.symm hc)]

theorem pokes_ok {m : Mem V} {p : Option Nat} {i : Nat} (xs : List V)
    (h : xs = [] ∨ i + xs.length ≤ cap m p) :
    ∃ m', pokes m p i xs = some m' ∧ m'.length = m.length ∧ (∀ q, cap m' q = cap m q) ∧
      (∀ q j, q ≠ p → peek m' q j = peek m q j) ∧ (∀ j, j < i → peek m' p j = peek m p j) ∧
      ∀ j, j < xs.length → peek m' p (i + j) = xs[j]? := by
  induction xs generalizing m i with
  | nil => exact ⟨m, rfl, rfl, fun _ => rfl, fun _ _ _ => rfl, fun _ _ => rfl, fun j hj => by simp at hj⟩
  | cons x xs ih =>
    have h : i + (xs.length + 1) ≤ cap m p := by simpa using h
    obtain ⟨m1, e1, l1, c1, p1⟩ := poke_ok x (show i < cap m p by omega)
    obtain ⟨m2, e2, l2, c2, p2, q2, r2⟩ := ih (m := m1) (i := i + 1) (.inr (by rw [c1]; omega))
    refine ⟨m2, by simp [pokes, e1, e2], by omega, fun q => by rw [c2, c1], ?_, ?_, ?_⟩
    · intro q j hq
      rw [p2 q j hq, p1, if_neg (fun hh => hq hh.1)]
    · intro j hj
      rw [q2 j (by omega), p1, if_neg (by omega)]
    · intro j hj
      cases j with
      | zero =>
        rw [Nat.add_zero, q2 i (by omega), p1]
        simp
      | succ j =>
        have := r2 j (by simpa using hj)
        rw [show i + (j + 1) = i + 1 + j by omega, this]
        simp

theorem cap_alloca {m : Mem V} {q : Option Nat} (n : Nat) (h : Valid m q) :
    cap (m ++ [List.replicate n none]) q = cap m q := by
  cases q with
  | none => rfl
  | some b => simp [cap, List.getElem?_append_left (h b rfl)]

theorem peek_alloca {m : Mem V} {q : Option Nat} (n j : Nat) (h : Valid m q) :
    peek (m ++ [List.replicate n none]) q j = peek m q j := by
  cases q with
  | none => rfl
  | some b => simp [peek, List.getElem?_append_left (h b rfl)]

theorem cap_fresh (m : Mem V) (n : Nat) :
    cap (m ++ [List.replicate n none]) (some m.length) = n := by
  simp [cap]

theorem Valid.alloca {m : Mem V} {q : Option Nat} (n : Nat) (h : Valid m q) :
    Valid (m ++ [List.replicate n none]) q := fun b hb => by
  have := h b hb
  simp
  omega

theorem Valid.fresh (m : Mem V) (n : Nat) :
    Valid (m ++ [List.replicate n none]) (some m.length) := fun b hb => by
  cases hb
  simp

theorem Valid.ne {m : Mem V} {q : Option Nat} (h : Valid m q) : q ≠ some m.length := fun hq => by
  have := h _ hq
  omega

theorem Valid.len {m m' : Mem V} {q : Option Nat} (h : Valid m q) (hl : m'.length = m.length) :
    Valid m' q := fun b hb => by
  have := h b hb
  omega

theorem peeks_ok {m : Mem V} {p : Option Nat} {i : Nat} (xs : List V)
    (h : ∀ j, j < xs.length → peek m p (i + j) = xs[j]?) : peeks m p i xs.length = some xs := by
  induction xs generalizing i with
  | nil => rfl
  | cons x xs ih =>
    have h0 := h 0 (by simp)
    simp only [List.length_cons, peeks]
    rw [Nat.add_zero] at h0
    rw [h0, ih (i := i + 1) fun j hj => ?_]
    · rfl
    · have := h (j + 1) (by simpa using hj)
      rw [show i + 1 + j = i + (j + 1) by omega, this]
      simp

end Rep.TailCall
