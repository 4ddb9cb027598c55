import Verif.DebugBuf.Model

/-
C106: a debug buffer shows the end of what was printed into it.
-/

namespace Rep.DebugBuf

/-- The last `n` elements. -/
def lastN (n : Nat) (l : List Nat) : List Nat := l.drop (l.length - n)

/-- What the buffer holds is the end of `all`. -/
structure Inv (b : Buf) (all : List Nat) : Prop where
  len : b.data.length = b.size
  ptr : b.ptr ≤ b.size
  shown : spew b = lastN b.size all
  open_ : b.wrapped = false → b.ptr = all.length
  full : b.wrapped = true → b.size ≤ all.length

theorem spew_open {b : Buf} (h : b.wrapped = false) : spew b = b.data.take b.ptr := by
  unfold spew
  simp only [h, Bool.false_or, Bool.false_eq_true, if_false]
  split
  · rfl
  · next hp => rw [show b.ptr = 0 by simpa using hp]; rfl

theorem spew_wrapped {b : Buf} (h : b.wrapped = true) (hl : b.data.length = b.size) : spew b = b.data.drop b.ptr ++ b.data.take b.ptr := by
  unfold spew
  simp only [h, Bool.true_or, if_true]
  rw [List.take_of_length_le (by simp [hl])]

theorem lastN_append {n : Nat} {a m : List Nat} (h : m.length ≤ n) : lastN n (a ++ m) = lastN (n - m.length) a ++ m := by
  unfold lastN
  by_cases hn : n ≤ (a ++ m).length
  · rw [List.drop_append_of_le_length (by simp at hn ⊢; omega)]
    congr 2
    simp at hn ⊢
    omega
  · simp at hn
    rw [Nat.sub_eq_zero_of_le (by simp; omega), Nat.sub_eq_zero_of_le (by omega)]
    rfl

theorem lastN_lastN {k n : Nat} (l : List Nat) (h : k ≤ n) : lastN k l = (lastN n l).drop ((lastN n l).length - k) := by
  unfold lastN
  rw [List.drop_drop, List.length_drop]
  congr 1
  omega

theorem printf_inv {b : Buf} {all : List Nat} (h : Inv b all) (m : List Nat) (hm : m.length ≤ b.size) (h255 : m.length ≤ 255) :
    ∃ b', printf b m = some b' ∧ b'.size = b.size ∧ Inv b' (all ++ m) := by
  have hbuf : m.take 255 = m := List.take_of_length_le h255
  unfold printf
  simp only [hbuf]
  have hlen := h.len
  have hptr := h.ptr
  split
  · next hc =>
    have e1 : min (m.length - (b.size - b.ptr)) (b.size - (b.size - b.ptr)) = m.length - (b.size - b.ptr) := by omega
    rw [e1]
    have c1 : copy b.data b.ptr m (b.size - b.ptr) = some (b.data.take b.ptr ++ m.take (b.size - b.ptr)) := by
      unfold copy
      rw [if_pos (by omega), List.drop_of_length_le (by omega)]
      simp
    have c2 : copy (b.data.take b.ptr ++ m.take (b.size - b.ptr)) 0 (m.drop (b.size - b.ptr)) (m.length - (b.size - b.ptr)) =
        some (m.drop (b.size - b.ptr) ++ (b.data.take b.ptr ++ m.take (b.size - b.ptr)).drop (m.length - (b.size - b.ptr))) := by
      unfold copy
      rw [if_pos (by simp; omega), List.take_of_length_le (l := m.drop _) (by simp)]
      simp
    rw [c1, Option.bind_some, c2, Option.map_some]
    refine ⟨_, rfl, rfl, ?_⟩
    -- the new contents
    have hD : (m.drop (b.size - b.ptr) ++ (b.data.take b.ptr ++ m.take (b.size - b.ptr)).drop (m.length - (b.size - b.ptr))).length = b.size := by
      simp; omega
    refine ⟨hD, (by simp only; omega), ?_, (fun e => nomatch e), fun _ => ?_⟩
    · rw [spew_wrapped rfl hD]
      simp only
      rw [List.drop_append_of_le_length (l₁ := m.drop _) (by simp), List.drop_of_length_le (l := m.drop _) (by simp), List.nil_append,
        List.take_append_of_le_length (l₁ := m.drop _) (by simp), List.take_of_length_le (l := m.drop _) (by simp),
        List.drop_append_of_le_length (l₁ := b.data.take _) (by simp; omega), List.append_assoc, List.take_append_drop,
        lastN_append hm, lastN_lastN all (by omega : b.size - m.length ≤ b.size), ← h.shown]
      congr 1
      cases hw : b.wrapped with
      | false =>
        rw [spew_open hw]
        congr 1
        simp; omega
      | true =>
        rw [spew_wrapped hw hlen]
        have e2 : (b.data.drop b.ptr ++ b.data.take b.ptr).length - (b.size - m.length) = (b.data.drop b.ptr).length + (m.length - (b.size - b.ptr)) := by
          simp; omega
        rw [e2, List.drop_append, List.drop_of_length_le (l := b.data.drop b.ptr) (by omega), List.nil_append]
        congr 1
        omega
    · show b.size ≤ (all ++ m).length
      cases hw : b.wrapped with
      | false => have := h.open_ hw; simp; omega
      | true => have := h.full hw; simp; omega
  · next hc =>
    have c1 : copy b.data b.ptr m m.length = some (b.data.take b.ptr ++ m ++ b.data.drop (b.ptr + m.length)) := by
      unfold copy
      rw [if_pos (by omega)]
      simp
    rw [c1, Option.map_some]
    refine ⟨_, rfl, rfl, ?_⟩
    have hD : (b.data.take b.ptr ++ m ++ b.data.drop (b.ptr + m.length)).length = b.size := by simp; omega
    refine ⟨hD, (by simp only; omega), ?_, fun e => ?_, fun e => ?_⟩
    · have e1 : (b.data.take b.ptr ++ m ++ b.data.drop (b.ptr + m.length)).take (b.ptr + m.length) = b.data.take b.ptr ++ m := by
        rw [List.take_append_of_le_length (by simp; omega), List.take_of_length_le (by simp; omega)]
      cases hw : b.wrapped with
      | false =>
        rw [spew_open rfl]
        simp only
        rw [e1, lastN_append hm, ← spew_open hw, h.shown]
        congr 1
        unfold lastN
        have := h.open_ hw
        congr 1
        omega
      | true =>
        rw [spew_wrapped rfl hD]
        simp only
        rw [e1, List.drop_append, List.drop_of_length_le (by simp; omega), List.nil_append, lastN_append hm,
          lastN_lastN all (by omega : b.size - m.length ≤ b.size), ← h.shown, spew_wrapped hw hlen, ← List.append_assoc]
        congr 1
        simp only [List.length_append, List.length_take, List.length_drop]
        rw [List.drop_append, List.drop_drop]
        rw [show b.ptr + m.length - (min b.ptr b.data.length + m.length) = 0 by omega, Nat.add_zero,
          show b.data.length - b.ptr + min b.ptr b.data.length - (b.size - m.length) = m.length by omega,
          show m.length - (b.data.drop b.ptr).length = 0 by simp; omega, List.drop_zero, List.drop_drop]
    · have := h.open_ e
      simp; omega
    · have := h.full e
      simp; omega

/-- However many messages are printed, what is written out at the end is the last bytes of all of them
together, as many as there is room for, and no byte outside the buffer is touched.  Partial: no message
is longer than the buffer, or than 255 bytes. -/
theorem C106_last_partial (size : Nat) (junk : List Nat) (hj : junk.length = size) (ms : List (List Nat))
    (h : ∀ m ∈ ms, m.length ≤ size ∧ m.length ≤ 255) :
    ∃ b, printAll (alloc size junk) ms = some b ∧ spew b = lastN size ms.flatten := by
  have key : ∀ (ms : List (List Nat)) (b : Buf) (all : List Nat), Inv b all → b.size = size →
      (∀ m ∈ ms, m.length ≤ size ∧ m.length ≤ 255) → ∃ b', printAll b ms = some b' ∧ b'.size = size ∧ Inv b' (all ++ ms.flatten) := by
    intro ms
    induction ms with
    | nil => intro b all hi hs _; exact ⟨b, rfl, hs, by simpa using hi⟩
    | cons m ms ih =>
      intro b all hi hs hm
      obtain ⟨b1, e1, s1, i1⟩ := printf_inv hi m (by rw [hs]; exact (hm m (by simp)).1) (hm m (by simp)).2
      obtain ⟨b2, e2, s2, i2⟩ := ih b1 (all ++ m) i1 (by rw [s1, hs]) (fun x hx => hm x (List.mem_cons_of_mem _ hx))
      exact ⟨b2, by rw [printAll, e1]; exact e2, s2, by simpa using i2⟩
  have i0 : Inv (alloc size junk) [] :=
    ⟨hj, Nat.zero_le _, by simp [spew, alloc, lastN], fun _ => rfl, fun e => by cases e⟩
  obtain ⟨b, e, s, i⟩ := key ms _ [] i0 rfl h
  exact ⟨b, e, by rw [i.shown, s]; rfl⟩

example : (printAll (alloc 5 [0, 0, 0, 0, 0]) [[1, 2, 3], [4, 5, 6], [7]]).map spew = some [3, 4, 5, 6, 7] := by decide

/-- Of a message that is longer than the buffer the beginning is kept, not the end. -/
theorem C106_long_violated :
    (printAll (alloc 3 [0, 0, 0]) [[1], [2, 3, 4, 5, 6]]).map spew = some [2, 3, 4] ∧
    lastN 3 [[1], [2, 3, 4, 5, 6]].flatten = [4, 5, 6] := by decide

/-- A message that is longer than 255 bytes is cut, however large the buffer is. -/
theorem C106_cut_violated (size : Nat) (junk : List Nat) (hj : junk.length = size) (hs : 1000 ≤ size) (m : List Nat) (hm : m.length = 1000) :
    (printAll (alloc size junk) [m]).map spew = some (m.take 255) := by
  have hl : (m.take 255).length = 255 := by simp; omega
  simp only [printAll, printf, alloc, hl]
  rw [if_neg (by omega)]
  unfold copy
  rw [if_pos (by omega)]
  simp only [Option.map_some, Option.bind_some, List.take_zero, List.nil_append, Nat.zero_add, Option.some.injEq]
  rw [spew_open rfl]
  simp only
  rw [List.take_append_of_le_length (by simp; omega), List.take_of_length_le (by simp; omega), List.take_of_length_le (by simp; omega)]

/-- A buffer that was freed is not written out, the others are, in the same order. -/
theorem C106_free (c : Chain) (a : Nat) (hn : (c.map Prod.fst).Nodup) :
    kill (free c a) = (c.filter fun x => x.1 != a).map fun x => spew x.2 := by
  unfold kill free
  congr 1
  induction c with
  | nil => rfl
  | cons x c ih =>
    simp only [List.map_cons, List.nodup_cons] at hn
    by_cases h : x.1 = a
    · subst h
      have : c.filter (fun y => y.1 != x.1) = c := by
        rw [List.filter_eq_self]
        intro y hy
        simp only [bne_iff_ne, ne_eq]
        intro e
        exact hn.1 (List.mem_map.2 ⟨y, hy, e⟩)
      simp [this]
    · have e : (x.1 == a) = false := by simpa using h
      simp [e, h, ih hn.2]

example : ([(1, alloc 2 [0, 0]), (2, alloc 3 [0, 0, 0])].map Prod.fst : List Nat).Nodup := by decide

end Rep.DebugBuf
