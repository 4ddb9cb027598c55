import Verif.Stream.Spec
import Mathlib.Data.List.Forall2

/-
Strings as output streams.
-/

namespace Rep.Stream

/-- The string holds these bytes, and a zero after them. -/
def HasText (st : Str) (bs : List Byte) : Prop :=
  st.len = bs.length ∧ st.mem.take (bs.length + 1) = bs.map some ++ [some 0]

structure Inv (h : Heap) (s : OStream) (p : List Byte) : Prop where
  get : ∃ st, h[s.str]? = some st ∧ HasText st p ∧ (st.mem.length : Int) = s.cap + 1
  low : (p.length : Int) ≤ s.cap
  high : s.cap ≤ 2147483646

/-- All strings other than the buffer are as before, and are not the buffer now. -/
def Keeps (h : Heap) (s : OStream) (h' : Heap) (s' : OStream) : Prop :=
  h.length ≤ h'.length ∧ ∀ k, k < h.length → k ≠ s.str → h'[k]? = h[k]? ∧ k ≠ s'.str

theorem Keeps.trans {h s h1 s1 h2 s2} (a : Keeps h s h1 s1) (b : Keeps h1 s1 h2 s2) : Keeps h s h2 s2 := by
  refine ⟨Nat.le_trans a.1 b.1, fun k hk hs => ?_⟩
  obtain ⟨e, n⟩ := a.2 k hk hs
  obtain ⟨e', n'⟩ := b.2 k (Nat.lt_of_lt_of_le hk a.1) n
  exact ⟨e'.trans e, n'⟩

theorem Keeps.refl (h s) : Keeps h s h s := ⟨Nat.le_refl _, fun _ _ n => ⟨rfl, n⟩⟩

theorem int_ok {z : Int} (h1 : -2147483648 ≤ z) (h2 : z < 2147483648) : int z = some z := if_pos (by omega)

theorem toInt_ok {z : Int} (h1 : -2147483648 ≤ z) (h2 : z < 2147483648) : toInt z = z := by
  unfold toInt
  split <;> omega

theorem double_ok {c : Int} (h0 : 0 ≤ c) (h : c < 1073741824) : double c = some (if c < 16 then 32 else c * 2) := by
  unfold double
  split
  · rfl
  · exact int_ok (by omega) (by omega)

theorem store_ok {m : List (Option Byte)} {off : Nat} {bs} (h : off + bs.length ≤ m.length) :
    store m off bs = some (m.take off ++ bs ++ m.drop (off + bs.length)) :=
  if_pos ⟨Int.natCast_nonneg _, h⟩

theorem load_ok {α : Type} {m : List α} {n : Nat} (h : n ≤ m.length) : load m n = some (m.take n) :=
  if_pos ⟨Int.natCast_nonneg _, h⟩

/-- After `putcRoom`/`putsRoom`: a buffer with room, holding the old bytes. -/
structure Room (h : Heap) (s : OStream) (p : List Byte) (need : Nat) (h' : Heap) (s' : OStream) (m : List (Option Byte)) :
    Prop where
  cap : (m.length : Int) = s'.cap + 1
  fit : (p.length + need : Int) ≤ s'.cap
  high : s'.cap ≤ 2147483646
  pre : m.take p.length = p.map some
  idx : s'.str < h'.length
  len : h.length ≤ h'.length
  old : ∀ k, k < h.length → h'[k]? = h[k]?
  new : s'.str = s.str ∨ h.length ≤ s'.str

theorem HasText.take {st : Str} {p : List Byte} (t : HasText st p) : st.mem.take p.length = p.map some := by
  have := congrArg (List.take p.length) t.2
  rw [List.take_take, Nat.min_eq_left (by omega), List.take_append_of_le_length (by simp)] at this
  rw [this, List.take_of_length_le (by simp)]

theorem HasText.long {st : Str} {p : List Byte} (t : HasText st p) : p.length + 1 ≤ st.mem.length := by
  have := congrArg List.length t.2
  simp at this
  omega

theorem enlarge_ok {h : Heap} {s : OStream} {p : List Byte} {st : Str} (t : HasText st p) {newlen : Int} {need : Nat}
    (hn : (p.length + need : Int) ≤ newlen) (hh : newlen ≤ 2147483646) :
    ∃ h' s' m, enlarge h st p.length newlen = some (h', s', m) ∧ Room h s p need h' s' m := by
  obtain ⟨n, rfl⟩ : ∃ n : Nat, newlen = n := ⟨newlen.toNat, by omega⟩
  simp only [enlarge]
  rw [int_ok (by omega) (by omega)]
  simp only [makeString]
  rw [load_ok (by have := t.long; omega)]
  simp only
  have e : ((n : Int) + 1).toNat = n + 1 := by omega
  rw [e, show (0 : Int) = ((0 : Nat) : Int) from rfl, store_ok (by simp; have := t.long; omega)]
  have hl := t.long
  refine ⟨_, _, _, rfl, ⟨?_, ?_, ?_, ?_, ?_, ?_, ?_, ?_⟩⟩
  · simp [List.length_take]; omega
  · exact hn
  · exact hh
  · rw [t.take]
    simp
  · simp
  · simp
  · intro k hk
    exact List.getElem?_append_left hk
  · exact Or.inr (Nat.le_refl _)

theorem putcRoom_ok {h : Heap} {s : OStream} {p : List Byte} (i : Inv h s p) (hp : p.length + 1 ≤ 1073741822) {st}
    (g : h[s.str]? = some st) (t : HasText st p) (hm : (st.mem.length : Int) = s.cap + 1) :
    ∃ h' s' m, putcRoom h s st p.length = some (h', s', m) ∧ Room h s p 1 h' s' m := by
  have h1 := i.low
  have h2 := i.high
  simp only [putcRoom]
  rw [int_ok (by omega) (by omega), toInt_ok (by omega) (by omega)]
  simp only
  split
  · rename_i hc
    rw [double_ok (by omega) (by omega)]
    simp only
    apply enlarge_ok t <;> split <;> omega
  · rename_i hc
    refine ⟨_, _, _, rfl, ⟨hm, by omega, h2, t.take, ?_, Nat.le_refl _, fun _ _ => rfl, Or.inl rfl⟩⟩
    exact (List.getElem?_eq_some_iff.1 g).1

theorem putsRoom_ok {h : Heap} {s : OStream} {p : List Byte} (i : Inv h s p) {n : Nat} (hp : p.length + n ≤ 1073741822) {st}
    (g : h[s.str]? = some st) (t : HasText st p) (hm : (st.mem.length : Int) = s.cap + 1) :
    ∃ h' s' m, putsRoom h s st p.length n = some (h', s', m) ∧ Room h s p n h' s' m := by
  have h1 := i.low
  have h2 := i.high
  simp only [putsRoom]
  rw [int_ok (by omega) (by omega), toInt_ok (by omega) (by omega)]
  simp only
  split
  · rename_i hc
    rw [double_ok (by omega) (by omega)]
    simp only
    apply enlarge_ok t <;> split <;> (try split) <;> omega
  · rename_i hc
    refine ⟨_, _, _, rfl, ⟨hm, by omega, h2, t.take, ?_, Nat.le_refl _, fun _ _ => rfl, Or.inl rfl⟩⟩
    exact (List.getElem?_eq_some_iff.1 g).1

/-- The bytes stored after those which are there. -/
theorem Room.write {h : Heap} {s : OStream} {p bs : List Byte} {h' s' m} (r : Room h s p bs.length h' s' m) :
    ∃ m', store m p.length (bs.map some ++ [some 0]) = some m' ∧
      Inv (h'.set s'.str ⟨m', p.length + bs.length⟩) s' (p ++ bs) ∧
      Keeps h s (h'.set s'.str ⟨m', p.length + bs.length⟩) s' := by
  have h1 := r.cap
  have h2 := r.fit
  refine ⟨_, store_ok (by simp; omega), ⟨⟨_, List.getElem?_set_self r.idx, ⟨by simp, ?_⟩, ?_⟩, ?_, r.high⟩, ?_, ?_⟩
  · simp only
    rw [r.pre, List.take_append_of_le_length (by simp; omega), List.take_of_length_le (by simp; omega)]
    simp
  · simp only [List.length_append, List.length_take, List.length_drop, List.length_map, List.length_cons, List.length_nil]
    omega
  · simp
    omega
  · simpa using r.len
  · intro k hk hs
    have : k ≠ s'.str := by
      rcases r.new with e | e
      · rw [e]; exact hs
      · omega
    refine ⟨?_, this⟩
    rw [List.getElem?_set_ne (Ne.symm this)]
    exact r.old k hk

theorem Inv.putc {h : Heap} {s : OStream} {p : List Byte} (i : Inv h s p) (c : Int) (hp : p.length + 1 ≤ 1073741822) :
    ∃ h' s', putc h s c = some (h', s') ∧ Inv h' s' (p ++ [BitVec.ofInt 8 c]) ∧ Keeps h s h' s' := by
  obtain ⟨st, g, t, hm⟩ := i.get
  obtain ⟨h1, s1, m, e, r⟩ := putcRoom_ok i hp g t hm
  obtain ⟨m', e', i', k⟩ := Room.write (bs := [BitVec.ofInt 8 c]) r
  simp only [Stream.putc]
  rw [g]
  simp only
  rw [t.1, toInt_ok (by omega) (by omega), e]
  simp only
  simp only [List.map_cons, List.map_nil, List.cons_append, List.nil_append] at e'
  rw [e']
  have e2 : ((p.length : Int) + 1).toNat = p.length + 1 := by omega
  simp only [e2]
  exact ⟨_, _, rfl, i', k⟩

theorem Inv.puts {h : Heap} {s : OStream} {p : List Byte} (i : Inv h s p) (src : List Byte) (n : Nat) (v : Bool) (hn : n ≤ src.length)
    (hp : p.length + n ≤ 1073741822) :
    ∃ h' s', puts h s src n v = some (h', s') ∧ Inv h' s' (p ++ src.take n) ∧ Keeps h s h' s' := by
  obtain ⟨st, g, t, hm⟩ := i.get
  obtain ⟨h1, s1, m, e, r⟩ := putsRoom_ok i hp g t hm
  have hl : (src.take n).length = n := by simp; omega
  rw [← hl] at r
  obtain ⟨m', e', i', k⟩ := Room.write (bs := src.take n) r
  simp only [Stream.puts]
  rw [g]
  simp only
  have en : putsLen src n v = n := if_neg (by omega)
  rw [t.1, toInt_ok (by omega) (by omega), en, e]
  simp only
  rw [load_ok hn]
  simp only
  rw [e']
  have e2 : ((p.length : Int) + n).toNat = p.length + (src.take n).length := by rw [hl]; omega
  simp only [e2]
  exact ⟨_, _, rfl, i', k⟩

theorem dupn_ok (h : Heap) {src : List (Option Byte)} {bs : List Byte} (t : src.take bs.length = bs.map some) :
    ∃ st, dupn h src bs.length = some (h ++ [st], h.length) ∧ HasText st bs ∧ st.mem.length = bs.length + 1 := by
  have hl : bs.length ≤ src.length := by
    have := congrArg List.length t
    simp at this
    omega
  unfold dupn
  rw [load_ok hl, t]
  simp only [makeString]
  rw [show (0 : Int) = ((0 : Nat) : Int) from rfl, store_ok (by simp)]
  simp only
  refine ⟨_, by rw [List.set_append_right _ _ (Nat.le_refl _), Nat.sub_self]; rfl, ⟨rfl, ?_⟩, ?_⟩
  · simp [List.take_of_length_le]
  · simp

theorem toUnsigned_ok {z : Int} (h1 : 0 ≤ z) (h2 : z < 18446744073709551616) : (toUnsigned z : Int) = z := by
  unfold toUnsigned
  omega

theorem toUnsigned_neg {z : Int} (h1 : z < 0) (h2 : -9223372036854775808 ≤ z) : (toUnsigned z : Int) = z + 18446744073709551616 := by
  unfold toUnsigned
  omega

theorem inv_fresh (h : Heap) : ∃ st, dupn h [] 0 = some (h ++ [st], h.length) ∧ Inv (h ++ [st]) ⟨h.length, 0⟩ [] := by
  obtain ⟨st, e, t, l⟩ := dupn_ok h (src := []) (bs := []) rfl
  exact ⟨st, e, ⟨st, by simp, t, by simp [l]⟩, by simp, by simp⟩

theorem Inv.getString {h : Heap} {s : OStream} {p : List Byte} (i : Inv h s p) :
    ∃ h' s' k st, getString h s = some (h', s', k) ∧ Inv h' s' [] ∧ Keeps h s h' s' ∧ k < h'.length ∧ k ≠ s'.str ∧
      h'[k]? = some st ∧ HasText st p := by
  obtain ⟨st, g, t, hm⟩ := i.get
  have hs := (List.getElem?_eq_some_iff.1 g).1
  unfold Stream.getString
  rw [g]
  simp only
  by_cases hc : st.len ≠ toUnsigned s.cap
  · obtain ⟨st', e, t', l⟩ := dupn_ok h t.take
    obtain ⟨st'', e', i'⟩ := inv_fresh (h ++ [st'])
    rw [if_pos hc, t.1, e]
    simp only
    rw [e']
    refine ⟨_, _, _, st', rfl, i', ⟨by simp, fun k hk _ => ⟨?_, ?_⟩⟩, by simp, by simp, by simp, t'⟩
    · rw [List.getElem?_append_left (by simp; omega), List.getElem?_append_left hk]
    · simp
      omega
  · obtain ⟨st'', e', i'⟩ := inv_fresh h
    rw [if_neg hc]
    simp only
    rw [e']
    refine ⟨_, _, _, st, rfl, i', ⟨by simp, fun k hk _ => ⟨?_, ?_⟩⟩, by simp; omega, by simp; omega, ?_, t⟩
    · rw [List.getElem?_append_left hk]
    · simp
      omega
    · rw [List.getElem?_append_left hs, g]

/-- An answer is the one specified; a string is looked up in the heap. -/
def Agrees (h : Heap) : Res → Spec.Reply → Prop
  | .wrote n, .wrote m => n = m
  | .refused, .refused => True
  | .string k, .text bs => ∃ st, h[k]? = some st ∧ HasText st bs
  | _, _ => False

theorem Inv.step {h : Heap} {s : OStream} {p : List Byte} (i : Inv h s p) (o : Op) (ho : Spec.Op.sane o)
    (hp : (Spec.step p o).1.length ≤ 1073741822) :
    ∃ h' s' r, step h s o = some (h', s', r) ∧ Inv h' s' (Spec.step p o).1 ∧ Keeps h s h' s' ∧ Agrees h' r (Spec.step p o).2 ∧
      ∀ k, r = .string k → k < h'.length ∧ k ≠ s'.str := by
  cases o with
  | char c =>
    simp only [Spec.step, List.length_append, List.length_singleton] at hp
    obtain ⟨h', s', e, i', k⟩ := i.putc c hp
    exact ⟨h', s', .wrote 1, by simp [Stream.step, e], i', k, rfl, by simp⟩
  | string bs n =>
    cases n with
    | none =>
      simp only [Spec.step, List.length_append] at hp
      obtain ⟨h', s', e, i', k⟩ := i.puts bs bs.length true (Nat.le_refl _) hp
      have et : toInt (bs.length : Int) = bs.length := toInt_ok (by omega) (by omega)
      exact ⟨h', s', .wrote bs.length, by simp [Stream.step, et, e], by simpa [Spec.step] using i', k, rfl, by simp⟩
    | some n =>
      simp only [Spec.Op.sane] at ho
      simp only [Spec.step] at hp ⊢
      unfold Stream.step
      simp only
      rw [toInt_ok ho.1 ho.2.1]
      by_cases hn : 0 ≤ n
      · have hu := toUnsigned_ok hn (by omega)
        by_cases hb : n ≤ bs.length
        · rw [if_pos (show 0 ≤ n ∧ n ≤ (bs.length : Int) from ⟨hn, hb⟩)] at hp ⊢
          rw [if_neg (show ¬ toUnsigned n > bs.length by omega)]
          obtain ⟨n, rfl⟩ : ∃ k : Nat, n = k := ⟨n.toNat, by omega⟩
          simp only [Int.toNat_natCast, List.length_append, List.length_take] at hp ⊢
          obtain ⟨h', s', e, i', k⟩ := i.puts bs n (toUnsigned (n : Int) == bs.length) (by omega) (by omega)
          refine ⟨h', s', .wrote n, ?_, i', k, rfl, by simp⟩
          rw [e]
          have : putsLen bs n (toUnsigned (n : Int) == bs.length) = n := if_neg (by omega)
          simp [this]
        · rw [if_pos (show toUnsigned n > bs.length by omega), if_neg (show ¬ (0 ≤ n ∧ n ≤ (bs.length : Int)) by omega)]
          exact ⟨h, s, .refused, rfl, i, Keeps.refl _ _, trivial, by simp⟩
      · have hu := toUnsigned_neg (by omega : n < 0) (by omega)
        rw [if_pos (show toUnsigned n > bs.length by omega), if_neg (show ¬ (0 ≤ n ∧ n ≤ (bs.length : Int)) by omega)]
        exact ⟨h, s, .refused, rfl, i, Keeps.refl _ _, trivial, by simp⟩
  | take =>
    obtain ⟨h', s', k, st, e, i', kp, hk, hs, g, t⟩ := i.getString
    exact ⟨h', s', .string k, by simp [Stream.step, e], i', kp, ⟨st, g, t⟩, by rintro k' ⟨⟩; exact ⟨hk, hs⟩⟩

theorem Inv.run {h : Heap} {s : OStream} {p : List Byte} (i : Inv h s p) (os : List Op) (hs : Spec.Small p os) :
    ∃ h' s' rs, run h s os = some (h', s', rs) ∧ Inv h' s' (Spec.run p os).1 ∧ Keeps h s h' s' ∧
      List.Forall₂ (Agrees h') rs (Spec.run p os).2 := by
  induction os generalizing h s p with
  | nil => exact ⟨h, s, [], rfl, i, Keeps.refl _ _, .nil⟩
  | cons o os ih =>
    obtain ⟨h1, h2, h3⟩ := hs
    obtain ⟨ha, sa, r, e, ia, ka, aa, na⟩ := i.step o h1 h2
    obtain ⟨hb, sb, rs, e', ib, kb, ab⟩ := ih ia h3
    refine ⟨hb, sb, r :: rs, ?_, ib, ka.trans kb, .cons ?_ ab⟩
    · simp only [Stream.run, e, e']
    · cases r with
      | wrote n => revert aa; cases (Spec.step p o).2 <;> exact id
      | refused => revert aa; cases (Spec.step p o).2 <;> exact id
      | string k =>
        obtain ⟨hk, hn⟩ := na k rfl
        have := (kb.2 k hk hn).1
        revert aa
        cases (Spec.step p o).2 <;> intro aa
        · exact aa
        · exact aa
        · obtain ⟨st, g, t⟩ := aa
          exact ⟨st, this.trans g, t⟩

end Rep.Stream
