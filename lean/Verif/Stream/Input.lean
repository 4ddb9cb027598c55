import Verif.Stream.Output

/-
Reading from strings and files.
-/

namespace Rep.Stream

open Spec (rest line orNil)

/-- The position of a stream is one a program can give: a small integer; the string is one which can exist. -/
def Src.Sane : Src → Prop
  | .str pos bs => -2305843009213693952 ≤ pos ∧ pos < 2305843009213693952 ∧ bs.length < 72057594037927936
  | .file _ => True

def Src.isFile : Src → Bool
  | .str _ _ => false
  | .file _ => true

theorem getc_spec {s : Src} (hs : s.Sane) :
    (getc s).1 = (rest s).head? ∧ rest (getc s).2 = (rest s).tail ∧ (getc s).2.Sane ∧ (getc s).2.size ≤ s.size ∧
      (getc s).2.isFile = s.isFile := by
  cases s with
  | file bs => cases bs <;> simp [getc, rest, Src.Sane, Src.size, Src.isFile]
  | str pos bs =>
    obtain ⟨h1, h2, h3⟩ := hs
    simp only [getc]
    by_cases hp : 0 ≤ pos
    · have hu := toUnsigned_ok hp (by omega)
      split
      · rename_i hl
        have e : toUnsigned pos = pos.toNat := by omega
        have hl' : pos.toNat < bs.length := by omega
        refine ⟨?_, ?_, ⟨by omega, ?_, h3⟩, Nat.le_refl _, rfl⟩
        · simp [rest, hp, e]
        · have e2 : (pos + 1).toNat = pos.toNat + 1 := by omega
          simp [rest, hp, e2, show 0 ≤ pos + 1 by omega]
        · omega
      · rename_i hl
        have : bs.drop pos.toNat = [] := List.drop_eq_nil_of_le (by omega)
        refine ⟨?_, ?_, ⟨h1, h2, h3⟩, Nat.le_refl _, rfl⟩ <;> simp [rest, hp, this]
    · have hu := toUnsigned_neg (by omega : pos < 0) (by omega)
      rw [if_neg (by omega)]
      refine ⟨?_, ?_, ⟨h1, h2, h3⟩, Nat.le_refl _, rfl⟩ <;> simp [rest, hp]

theorem rest_le_size (s : Src) : (rest s).length ≤ s.size := by
  cases s with
  | file bs => exact Nat.le_refl _
  | str pos bs =>
    simp only [rest, Src.size]
    split <;> simp

theorem peek_spec {s : Src} (hs : s.Sane) :
    (peekChar s).1 = (rest s).head? ∧ rest (peekChar s).2 = rest s ∧ (peekChar s).2.Sane ∧ (peekChar s).2.isFile = s.isFile := by
  have h := getc_spec hs
  cases s with
  | file bs => cases bs <;> simp [peekChar, getc, rest, Src.Sane, ungetc, Src.isFile]
  | str pos bs =>
    unfold peekChar
    simp only [getc] at h ⊢
    split at h
    · rename_i hl
      rw [if_pos hl]
      rw [List.getElem?_eq_getElem hl] at h ⊢
      refine ⟨h.1, ?_, ?_, rfl⟩
      · simp [ungetc, rest]
      · simpa [ungetc, Src.Sane] using hs
    · rename_i hl
      rw [if_neg hl]
      exact ⟨h.1, rfl, hs, rfl⟩

theorem charsLoop_spec (n : Nat) {s : Src} (hs : s.Sane) :
    (charsLoop n s).1 = (rest s).take n ∧ rest (charsLoop n s).2 = (rest s).drop n ∧ (charsLoop n s).2.Sane ∧
      (charsLoop n s).2.isFile = s.isFile := by
  induction n generalizing s with
  | zero => exact ⟨by simp [charsLoop], by simp [charsLoop], hs, rfl⟩
  | succ n ih =>
    obtain ⟨g1, g2, g3, _, g4⟩ := getc_spec hs
    unfold charsLoop
    cases hg : getc s with
    | mk c s' =>
      rw [hg] at g1 g2 g3 g4
      simp only at g1 g2 g3 g4
      cases c with
      | none =>
        have : rest s = [] := List.head?_eq_none_iff.1 g1.symm
        refine ⟨by simp [this], by simp [g2, this], g3, g4⟩
      | some c =>
        obtain ⟨i1, i2, i3, i4⟩ := ih g3
        have e : rest s = c :: (rest s).tail := (List.cons_head?_tail g1.symm).symm
        refine ⟨?_, ?_, i3, i4.trans g4⟩
        · simp only [i1, g2]
          rw [e]
          simp
        · simp only [i2, g2]
          rw [e]
          simp

theorem orNil_eq (t : List Byte) : (if t.length > 0 then some t else none) = orNil t := by
  cases t <;> simp [orNil]

theorem readChars_spec {room : Nat} {n : Int} (h0 : 0 ≤ n) (h1 : n ≤ room) {s : Src} (hs : s.Sane) :
    ∃ s', readChars room s n = some (orNil ((rest s).take n.toNat), s') ∧ rest s' = (rest s).drop n.toNat ∧ s'.Sane ∧
      s'.isFile = s.isFile := by
  unfold readChars
  rw [if_pos ⟨h0, h1⟩]
  cases s with
  | file bs => exact ⟨.file (bs.drop n.toNat), by simp only [orNil_eq]; rfl, rfl, trivial, rfl⟩
  | str pos bs =>
    obtain ⟨i1, i2, i3, i4⟩ := charsLoop_spec n.toNat hs
    refine ⟨_, ?_, i2, i3, i4⟩
    simp only [orNil_eq, i1]

theorem line_nil : line [] = [] := rfl

theorem line_cons_ne {b : Byte} (h : ¬ b = 10) (bs : List Byte) : line (b :: bs) = b :: line bs := by
  unfold line
  rw [List.takeWhile_cons_of_pos (by simpa using h), List.dropWhile_cons_of_pos (by simpa using h)]
  rfl

theorem line_cons_newline (bs : List Byte) : line (10 :: bs) = [10] := by simp [line]

/-- `fill` reads the line, or as much of it as asked for. -/
theorem fill_spec (n : Nat) {s : Src} (hs : s.Sane) :
    (fill n s).1 = (line (rest s)).take n ∧ rest (fill n s).2 = (rest s).drop (min n (line (rest s)).length) ∧
      (fill n s).2.Sane ∧ (fill n s).2.isFile = s.isFile := by
  induction n generalizing s with
  | zero => exact ⟨by simp [fill], by simp [fill], hs, rfl⟩
  | succ n ih =>
    obtain ⟨g1, g2, g3, _, g4⟩ := getc_spec hs
    unfold fill
    cases hg : getc s with
    | mk c s' =>
      rw [hg] at g1 g2 g3 g4
      simp only at g1 g2 g3 g4
      cases c with
      | none =>
        have : rest s = [] := List.head?_eq_none_iff.1 g1.symm
        refine ⟨by simp [this, line], by simp [g2, this], g3, g4⟩
      | some c =>
        have e : rest s = c :: (rest s).tail := (List.cons_head?_tail g1.symm).symm
        simp only
        split
        · rename_i hc
          subst hc
          refine ⟨?_, ?_, g3, g4⟩
          · rw [e]; simp [line]
          · rw [e] at g2 ⊢
            simp [line, g2]
        · rename_i hc
          obtain ⟨i1, i2, i3, i4⟩ := ih g3
          have el : line (rest s) = c :: line (rest s') := by
            rw [g2, e]
            exact line_cons_ne hc _
          refine ⟨?_, ?_, i3, i4.trans g4⟩
          · simp only [i1, el, List.take_succ_cons]
          · simp only [i2, el, List.length_cons]
            rw [Nat.add_min_add_right, e, List.drop_succ_cons, g2]

theorem line_nil_iff (bs : List Byte) : line bs = [] ↔ bs = [] := by
  cases bs with
  | nil => simp [line]
  | cons b bs =>
    by_cases h : b = 10
    · subst h; rw [line_cons_newline]; simp
    · simp [line_cons_ne h]

theorem line_prefix (bs : List Byte) : bs = line bs ++ bs.drop (line bs).length := by
  induction bs with
  | nil => simp [line]
  | cons b bs ih =>
    by_cases h : b = 10
    · simp [line, h]
    · have : line (b :: bs) = b :: line bs := line_cons_ne h bs
      rw [this]
      simpa using ih

/-- A line cut short without a newline goes on with the line of the remainder. -/
theorem line_split (bs : List Byte) (n : Nat) (hn : n ≤ (line bs).length) (h : ((line bs).take n).getLast? ≠ some 10) :
    line bs = (line bs).take n ++ line (bs.drop n) := by
  induction bs generalizing n with
  | nil => simp [line]
  | cons b bs ih =>
    cases n with
    | zero => simp
    | succ n =>
      by_cases hb : b = 10
      · subst hb
        have : line (10 :: bs) = [10] := by simp [line]
        rw [this] at h
        simp at h
      · have e : line (b :: bs) = b :: line bs := line_cons_ne hb bs
        rw [e] at hn h ⊢
        simp only [List.length_cons, List.take_succ_cons, List.drop_succ_cons, List.cons_append] at hn h ⊢
        rw [← ih n (by omega)]
        intro hx
        apply h
        cases hl : (line bs).take n with
        | nil => rw [hl] at hx; simp at hx
        | cons x xs => rw [hl] at hx; simpa using hx

/-- What `read-line` takes for the bytes read is what was read, for a string or if the file has no zero. -/
def Whole (s : Src) : Prop := s.isFile = true → ∀ b ∈ line (rest s), b ≠ 0

theorem seen_eq {s : Src} {got : List Byte} (h : s.isFile = true → ∀ b ∈ got, b ≠ 0) : seen s got = got := by
  cases s with
  | str _ _ => rfl
  | file bs =>
    simp only [seen]
    have h' : ∀ b ∈ got, b ≠ 0 := h rfl
    clear h
    induction got with
    | nil => rfl
    | cons b got ih =>
      rw [List.takeWhile_cons_of_pos (by simpa using h' b (by simp)), ih fun x hx => h' x (by simp [hx])]

theorem last_newline {l : List Byte} {n : Nat} {bs : List Byte} (hl : l = (line bs).take n) (h : l.getLast? = some 10) : l = line bs := by
  subst hl
  induction bs generalizing n with
  | nil => simp [line] at h
  | cons b bs ih =>
    cases n with
    | zero => simp at h
    | succ n =>
      by_cases hb : b = 10
      · simp [line, hb]
      · have e : line (b :: bs) = b :: line bs := line_cons_ne hb bs
        rw [e] at h ⊢
        simp only [List.take_succ_cons] at h ⊢
        congr 1
        apply ih
        cases hx : (line bs).take n with
        | nil => rw [hx] at h; simp at h; exact absurd h hb
        | cons x xs => rw [hx] at h; simpa using h

theorem lineLoop_spec (fuel : Nat) {s : Src} (hs : s.Sane) (hw : Whole s) (acc : List Byte) (bufsize : Nat)
    (hb : acc.length + 2 ≤ bufsize) (hf : (line (rest s)).length < fuel)
    (hbig : bufsize ≤ 2097152000) (hpow : ∃ k, bufsize = 500 * 2 ^ k) (hlen : acc.length + (line (rest s)).length < 2097151999) :
    ∃ s', lineLoop fuel s bufsize acc = some (orNil (acc ++ line (rest s)), s') ∧ rest s' = (rest s).drop (line (rest s)).length ∧
      s'.Sane ∧ s'.isFile = s.isFile := by
  induction fuel generalizing s acc bufsize with
  | zero => omega
  | succ fuel ih =>
    have em : ((bufsize : Int) - acc.length - 1).toNat = bufsize - acc.length - 1 := by omega
    obtain ⟨f1, f2, f3, f4⟩ := fill_spec (bufsize - acc.length - 1) hs
    have es : seen s (fill (bufsize - acc.length - 1) s).1 = (fill (bufsize - acc.length - 1) s).1 := by
      apply seen_eq
      intro hfile b hb'
      rw [f1] at hb'
      exact hw hfile b (List.mem_of_mem_take hb')
    simp only [lineLoop, em, es]
    have eo : ∀ t : List Byte, (if t.length ≠ 0 then some t else none) = orNil t := by
      intro t; cases t <;> simp [orNil]
    split
    · rename_i hc
      have e : (fill (bufsize - acc.length - 1) s).1 = line (rest s) := by
        rcases hc with hc | hc
        · rw [f1] at hc ⊢
          rw [List.length_take] at hc
          exact List.take_of_length_le (by omega)
        · exact last_newline f1 hc
      have el : min (bufsize - acc.length - 1) (line (rest s)).length = (line (rest s)).length := by
        have := congrArg List.length (e.symm.trans f1)
        rw [List.length_take] at this
        omega
      refine ⟨_, by rw [e, eo], ?_, f3, f4⟩
      rw [f2, el]
    · rename_i hc
      rw [not_or] at hc
      obtain ⟨c1, c2⟩ := hc
      have hl : (fill (bufsize - acc.length - 1) s).1.length = bufsize - acc.length - 1 := by
        rw [f1, List.length_take] at c1 ⊢
        omega
      have hm : bufsize - acc.length - 1 ≤ (line (rest s)).length := by
        rw [f1, List.length_take] at hl
        omega
      rw [f1] at c2
      have sp := line_split (rest s) _ hm c2
      have er : rest (fill (bufsize - acc.length - 1) s).2 = (rest s).drop (bufsize - acc.length - 1) := by
        rw [f2, Nat.min_eq_left hm]
      have hsl := congrArg List.length sp
      rw [List.length_append, List.length_take, Nat.min_eq_left hm] at hsl
      obtain ⟨k, hk⟩ := hpow
      have hk22 : k < 22 := by
        by_contra hk'
        have : 2 ^ 22 ≤ 2 ^ k := Nat.pow_le_pow_right (by decide) (by omega)
        have h22 : (2 : Nat) ^ 22 = 4194304 := by decide
        omega
      have h21 : (2 : Nat) ^ k ≤ 2097152 := by
        have : 2 ^ k ≤ 2 ^ 21 := Nat.pow_le_pow_right (by decide) (by omega)
        simpa using this
      have hb2 : bufsize * 2 ≤ 2097152000 := by omega
      rw [int_ok (by omega) (by omega)]
      simp only
      rw [f1]
      have := ih (s := (fill (bufsize - acc.length - 1) s).2) f3 ?_ (acc ++ (line (rest s)).take (bufsize - acc.length - 1)) (bufsize * 2)
        ?_ ?_ hb2 ⟨k + 1, by rw [hk, Nat.pow_succ]; omega⟩ ?_
      · obtain ⟨s', e, r, sn, sf⟩ := this
        rw [er] at e r
        refine ⟨s', ?_, ?_, sn, sf.trans f4⟩
        · rw [show ((bufsize : Int) * 2) = ((bufsize * 2 : Nat) : Int) by omega, e, List.append_assoc, ← sp]
        · rw [r, List.drop_drop, hsl]
      · intro hfile b hb'
        rw [er] at hb'
        refine hw (by rw [← f4]; exact hfile) b ?_
        rw [sp]
        exact List.mem_append_right _ hb'
      · rw [List.length_append, List.length_take, Nat.min_eq_left hm]
        omega
      · rw [er]
        omega
      · rw [er, List.length_append, List.length_take, Nat.min_eq_left hm]
        omega

theorem readLine_spec {s : Src} (hs : s.Sane) (hw : Whole s) (hl : (line (rest s)).length < 2097151999) :
    ∃ s', readLine s = some (orNil (line (rest s)), s') ∧ rest s' = (rest s).drop (line (rest s)).length ∧
      s'.Sane ∧ s'.isFile = s.isFile := by
  have h1 : (line (rest s)).length ≤ (rest s).length := by
    have := congrArg List.length (line_prefix (rest s))
    rw [List.length_append] at this
    omega
  have h2 := rest_le_size s
  exact lineLoop_spec (s.size + 2) hs hw [] 500 (by decide) (by omega) (by omega) ⟨0, rfl⟩ (by simpa using hl)

theorem copyLoop_spec (fuel : Nat) {s : Src} (hs : s.Sane) {h : Heap} {d : OStream} {p : List Byte} (i : Inv h d p) (buf : List Byte)
    (hb : buf.length ≤ 8192) (hf : (rest s).length < fuel) (len : Nat) (hlen : len + (rest s).length ≤ 1073741822)
    (hp : p.length + buf.length + (rest s).length ≤ 1073741822) :
    ∃ h' d' s' buf' p', copyLoop fuel s h d buf len = some (h', d', s', buf', ((len + (rest s).length : Nat) : Int)) ∧ Inv h' d' p' ∧
      p' ++ buf' = p ++ buf ++ rest s ∧ rest s' = [] ∧ Keeps h d h' d' := by
  induction fuel generalizing s h d p buf len with
  | zero => omega
  | succ fuel ih =>
    obtain ⟨g1, g2, g3, _, _⟩ := getc_spec hs
    cases hg : getc s with
    | mk c s' =>
      rw [hg] at g1 g2 g3
      simp only at g1 g2 g3
      cases c with
      | none =>
        have : rest s = [] := List.head?_eq_none_iff.1 g1.symm
        refine ⟨h, d, s', buf, p, ?_, i, ?_, ?_, Keeps.refl _ _⟩
        · simp [copyLoop, hg, this]
        · simp [this]
        · simp [g2, this]
      | some c =>
        have e : rest s = c :: rest s' := by rw [g2]; exact (List.cons_head?_tail g1.symm).symm
        rw [e, List.length_cons] at hf hlen hp
        simp only [copyLoop, hg]
        rw [int_ok (by omega) (by omega)]
        simp only
        by_cases hbuf : buf.length = 8192
        · rw [if_pos hbuf]
          obtain ⟨h1, d1, e1, i1, k1⟩ := i.puts buf 8192 false (by omega) (by omega)
          have e1' : puts h d buf 8192 false = some (h1, d1) := e1
          rw [e1']
          simp only
          rw [List.take_of_length_le (by omega)] at i1
          obtain ⟨h2, d2, s2, b2, p2, e2, i2, q2, r2, k2⟩ :=
            ih g3 i1 [c] (by simp) (by omega) (len + 1) (by omega) (by simp; omega)
          refine ⟨h2, d2, s2, b2, p2, ?_, i2, ?_, r2, k1.trans k2⟩
          · rw [show (len : Int) + 1 = ((len + 1 : Nat) : Int) by omega, e2, e]
            simp
            omega
          · rw [q2, e]; simp
        · rw [if_neg hbuf]
          obtain ⟨h2, d2, s2, b2, p2, e2, i2, q2, r2, k2⟩ :=
            ih g3 i (buf ++ [c]) (by simp; omega) (by omega) (len + 1) (by omega) (by simp; omega)
          refine ⟨h2, d2, s2, b2, p2, ?_, i2, ?_, r2, k2⟩
          · rw [show (len : Int) + 1 = ((len + 1 : Nat) : Int) by omega, e2, e]
            simp
            omega
          · rw [q2, e]; simp

theorem copyStream_spec {s : Src} (hs : s.Sane) {h : Heap} {d : OStream} {p : List Byte} (i : Inv h d p)
    (hp : p.length + (rest s).length ≤ 1073741822) :
    ∃ h' d' s', copyStream s h d = some (h', d', s', ((rest s).length : Int)) ∧ Inv h' d' (p ++ rest s) ∧ rest s' = [] ∧ Keeps h d h' d' := by
  obtain ⟨h1, d1, s1, b1, p1, e1, i1, q1, r1, k1⟩ :=
    copyLoop_spec (s.size + 2) hs i [] (by simp) (by have := rest_le_size s; omega) 0 (by omega) (by simp; omega)
  have e1' : copyLoop (s.size + 2) s h d [] 0 = some (h1, d1, s1, b1, ((rest s).length : Int)) := by simpa using e1
  simp only [copyStream, e1']
  simp only [List.append_nil] at q1
  by_cases hb : b1.length = 0
  · rw [if_neg (by omega)]
    have : b1 = [] := List.length_eq_zero_iff.1 hb
    subst this
    rw [List.append_nil] at q1
    subst q1
    exact ⟨h1, d1, s1, rfl, i1, r1, k1⟩
  · rw [if_pos hb]
    have hq := congrArg List.length q1
    rw [List.length_append, List.length_append] at hq
    obtain ⟨h2, d2, e2, i2, k2⟩ := i1.puts b1 b1.length false (Nat.le_refl _) (by omega)
    rw [e2]
    simp only
    rw [List.take_length, q1] at i2
    exact ⟨h2, d2, s1, rfl, i2, r1, k1.trans k2⟩

end Rep.Stream
