/-
Property C45: the reader always ends.
-/
import Verif.Reader.Model

namespace Rep.Reader

open Rep.Number Rep.NumText

theorem skipLine_length (s : List Char) : (skipLine s).length ≤ s.length := by
  induction s with
  | nil => simp [skipLine]
  | cons c s ih => unfold skipLine; split <;> simp <;> omega

theorem readComment_length (term : Char) : ∀ (n : Nat) (s : List Char) (d : Nat) (r : List Char), s.length ≤ n →
    readComment term s d = some r → r.length ≤ s.length := by
  intro n
  induction n with
  | zero =>
    intro s d r hs h
    cases s with
    | nil => simp [readComment] at h
    | cons c s => simp at hs
  | succ n ih =>
    intro s d r hs h
    cases s with
    | nil => simp [readComment] at h
    | cons c s =>
      have hs' : s.length ≤ n := by simpa using hs
      rw [readComment.eq_def] at h
      dsimp only at h
      split at h
      · split at h
        · simp at h
        · rename_i c' s'
          split at h
          · cases h; simp; omega
          · have := ih (c' :: s') _ r hs' h
            simp at this ⊢; omega
      · split at h
        · split at h
          · simp at h
          · rename_i c' s'
            split at h
            · have := ih s' _ r (by simp at hs'; omega) h
              simp at this ⊢; omega
            · have := ih (c' :: s') _ r hs' h
              simp at this ⊢; omega
        · have := ih s _ r hs' h
          simp at this ⊢; omega

theorem push_length {t t' : Tok} {c : Char} (h : t.push c = some t') : t'.buf.length = t.buf.length + 1 ∧ t'.auto = t.auto ∧ t'.mode = t.mode
    ∧ t'.moved = t.moved ∧ t'.buflen = t.buflen := by
  unfold Tok.push at h
  split at h
  · cases h
  · cases h; simp

theorem grow_buf (t : Tok) : t.grow.buf = t.buf := by unfold Tok.grow; split <;> rfl

theorem symLoop_length : ∀ (s : List Char) (t t' : Tok) (rest : List Char), symLoop s t = .done t' rest →
    t'.buf.length + rest.length ≤ t.buf.length + s.length := by
  intro s
  induction s with
  | nil =>
    intro t t' rest h
    unfold symLoop at h
    split at h <;> cases h
    simp
  | cons c s ih =>
    intro t t' rest h
    unfold symLoop at h
    split at h
    · cases hp : t.push c with
      | none => rw [hp] at h; cases h
      | some t1 =>
        rw [hp, Option.elim_some] at h
        have := ih _ _ _ h
        have h2 := (push_length hp).1
        simp at this ⊢; omega
    · split at h
      · split at h
        · cases hp : t.push c with
          | none => rw [hp] at h; cases h
          | some t1 =>
            rw [hp, Option.elim_some] at h
            have := ih _ _ _ h
            have h2 := (push_length hp).1
            simp at this ⊢; omega
        · have := ih _ _ _ h
          simp at this ⊢; omega
      · dsimp only at h
        split at h
        · cases h; simp [grow_buf]
        · split at h
          · have := ih _ _ _ h
            simp [grow_buf] at this ⊢; omega
          · split at h
            · have := ih _ _ _ h
              simp [grow_buf] at this ⊢; omega
            · cases hp : t.grow.push c with
              | none => rw [hp] at h; cases h
              | some t1 =>
                rw [hp, Option.elim_some] at h
                have := ih _ _ _ h
                have h2 := (push_length hp).1
                rw [grow_buf] at h2
                split at this <;> simp at this ⊢ <;> omega

/-- A result is not `fuel`, and if it is a value then less than `k` characters are left. -/
def Good {α : Type} (k : Nat) (r : Res α) : Prop := r ≠ .fuel ∧ ∀ v rest bl, r = .ok v rest bl → rest.length < k

theorem Good.ok {α : Type} {k : Nat} {v : α} {rest : List Char} {bl : Nat} (h : rest.length < k) : Good k (.ok v rest bl) :=
  ⟨by simp, by rintro _ _ _ ⟨⟩; exact h⟩

theorem Good.err {α : Type} {k : Nat} {e : Err} : Good k (.err e : Res α) := ⟨by simp, by simp⟩
theorem Good.ub {α : Type} {k : Nat} : Good k (.ub : Res α) := ⟨by simp, by simp⟩
theorem Good.unmodelled {α : Type} {k : Nat} : Good k (.unmodelled : Res α) := ⟨by simp, by simp⟩

theorem Good.mono {α : Type} {k k' : Nat} {r : Res α} (h : Good k r) (hk : k ≤ k') : Good k' r :=
  ⟨h.1, fun v rest bl e => Nat.lt_of_lt_of_le (h.2 v rest bl e) hk⟩

theorem Good.bind {α β : Type} {k k' : Nat} {r : Res α} {f : α → List Char → Nat → Res β} (h : Good k r)
    (hf : ∀ v rest bl, rest.length < k → Good k' (f v rest bl)) : Good k' (r.bind f) := by
  cases r with
  | ok v rest bl => exact hf v rest bl (h.2 v rest bl rfl)
  | err e => exact Good.err
  | ub => exact Good.ub
  | unmodelled => exact Good.unmodelled
  | fuel => exact absurd rfl h.1

theorem Good.map {α β : Type} {k : Nat} {r : Res α} {f : α → β} (h : Good k r) : Good k (r.map f) :=
  h.bind fun _ _ _ hr => Good.ok hr

theorem intern_good {t : Tok} {kw : Bool} {rest : List Char} {k : Nat} (h : rest.length < k) : Good k (t.intern kw rest) := by
  unfold Tok.intern; split
  · exact Good.ub
  · exact Good.ok h

theorem finish_good {t : Tok} {kw : Bool} {rest : List Char} {k : Nat} (h : t.buf.length + rest.length ≤ k) : Good k (t.finish kw rest) := by
  unfold Tok.finish
  by_cases h0 : t.buf.length = 0
  · rw [if_pos h0]; exact Good.err
  · rw [if_neg h0]
    have h' : rest.length < k := by omega
    dsimp only
    repeat' split
    all_goals first | exact Good.ok h' | exact Good.ub | exact Good.unmodelled | exact intern_good h'

theorem readSymbol_good (kw : Bool) (s : List Char) (bl : Nat) : Good s.length (readSymbol kw s bl) := by
  unfold readSymbol
  split
  · rename_i t rest h
    exact finish_good (by simpa using symLoop_length _ _ _ _ h)
  · exact Good.err
  · exact Good.ub

theorem readIdent_good (s : List Char) (bl : Nat) : Good s.length (readIdent s bl) := by
  unfold readIdent
  refine (readSymbol_good false s bl).bind fun v rest bl' h => ?_
  split
  · exact (readSymbol_good false _ _).map.mono (by simp at h; omega)
  · exact Good.ok h

theorem readHex_length (s : List Char) : ∀ v, (readHex s v).2.length ≤ s.length := by
  induction s with
  | nil => intro v; simp [readHex]
  | cons c s ih =>
    intro v
    unfold readHex
    split
    · have := ih ((v * 16 + hexDigit c) % 256); simp; omega
    · simp

theorem readEsc_length (s : List Char) : (readEsc s).2.length ≤ s.length - 1 := by
  cases s with
  | nil => simp [readEsc]
  | cons c s =>
    have := readHex_length s 0
    rw [readEsc.eq_def]
    simp only [List.length_cons, Nat.add_sub_cancel]
    repeat' split
    all_goals simp_all
    all_goals omega

theorem readStr_good : ∀ (n : Nat) (s buf : List Char) (bl : Nat), s.length < n → Good (s.length + 1) (readStr n s buf bl) := by
  intro n
  induction n with
  | zero => intro s buf bl h; omega
  | succ n ih =>
    intro s buf bl h
    cases s with
    | nil => exact Good.err
    | cons c s =>
      simp only [List.length_cons] at h
      unfold readStr
      split
      · exact Good.ok (by simp; omega)
      · split
        · split
          · have : s.tail.length ≤ s.length := by simp
            exact (ih _ _ _ (by omega)).mono (by simp; omega)
          · have := readEsc_length s
            exact (ih _ _ _ (by omega)).mono (by simp; omega)
        · exact (ih _ _ _ (by omega)).mono (by simp)

theorem skipChars_good (ret : Obj) (bl : Nat) : ∀ (p s : List Char), Good (s.length + 1) (skipChars ret bl p s) := by
  intro p
  induction p with
  | nil =>
    intro s
    cases s with
    | nil => exact Good.ok (by simp)
    | cons c s => unfold skipChars; split
                  · exact Good.ok (by simp)
                  · exact Good.err
  | cons p ps ih =>
    intro s
    cases s with
    | nil => exact Good.err
    | cons c s => unfold skipChars; split
                  · exact (ih s).mono (by simp)
                  · exact Good.err

theorem readName_good (v bl : Nat) : ∀ (p s : List Char), Good (s.length + 1) (readName v bl p s) := by
  intro p
  induction p with
  | nil => intro s; unfold readName; exact Good.ok (by simp)
  | cons p ps ih =>
    intro s
    cases s with
    | nil => exact Good.err
    | cons c s => unfold readName; split
                  · exact (ih s).mono (by simp)
                  · exact Good.err

theorem readChar_good (bl : Nat) (s : List Char) : Good (s.length + 1) (readChar bl s) := by
  unfold readChar
  repeat' split
  all_goals first | exact Good.err | exact Good.ok (by simp; try omega) | exact (readName_good _ _ _ _).mono (by simp; try omega)

theorem readQuestion_good (bl : Nat) (s : List Char) : Good (s.length + 1) (readQuestion bl s) := by
  unfold readQuestion
  repeat' split
  all_goals first | exact Good.err | skip
  · rename_i s _ _ ; have := readEsc_length s; exact Good.ok (by simp; omega)
  · exact Good.ok (by simp; omega)

set_option maxHeartbeats 2000000 in
theorem total_aux : ∀ (n : Nat),
    (∀ eof s bl, 2 * s.length + 1 ≤ n → Good s.length (readl n eof s bl)) ∧
    (∀ name s bl, 2 * s.length + 2 ≤ n → Good s.length (readQuoted n name s bl)) ∧
    (∀ eof s bl, 2 * s.length + 1 ≤ n → Good (s.length + 1) (readHash n eof s bl)) ∧
    (∀ s bl acc tail, 2 * s.length + 2 ≤ n → Good (s.length + 1) (readList n s bl acc tail)) := by
  intro n
  induction n with
  | zero => refine ⟨?_, ?_, ?_, ?_⟩ <;> (intros; omega)
  | succ n ih =>
    obtain ⟨ih1, ih2, ih3, ih4⟩ := ih
    refine ⟨?_, ?_, ?_, ?_⟩
    · intro eof s bl h
      cases s with
      | nil => unfold readl; exact Good.err
      | cons c s =>
        simp only [List.length_cons] at h ⊢
        have hsk := skipLine_length s
        have q : ∀ name s', s'.length ≤ s.length → Good (s.length + 1) (readQuoted n name s' bl) :=
          fun name s' hs => (ih2 name s' bl (by omega)).mono (by omega)
        have l : Good (s.length + 1) (readList n s bl [] .nil) := ih4 s bl [] .nil (by omega)
        unfold readl
        repeat' split
        · exact (ih1 eof s bl (by omega)).mono (by omega)
        · exact (ih1 eof (skipLine s) bl (by omega)).mono (by omega)
        · exact l
        · exact q _ s (by omega)
        · exact q _ s (by omega)
        · exact q _ s.tail (by simp)
        · exact q _ s (by omega)
        · exact l.map
        · exact readStr_good _ _ _ _ (by omega)
        · exact readQuestion_good bl s
        · exact ih3 eof s bl (by omega)
        · exact readIdent_good (c :: s) bl
    · intro name s bl h
      unfold readQuoted
      split
      · exact Good.err
      · exact (ih1 .premature s bl (by omega)).map
    · intro eof s bl h
      cases s with
      | nil => unfold readHash; exact Good.err
      | cons c s =>
        simp only [List.length_cons] at h ⊢
        have l : Good (s.length + 1 + 1) (readList n s bl [] .nil) := (ih4 s bl [] .nil (by omega)).mono (by omega)
        unfold readHash
        repeat' split
        · exact (ih2 _ s bl (by omega)).mono (by omega)
        · refine l.bind fun v rest bl h => ?_
          split
          · exact Good.ok h
          · exact Good.err
        · exact l.map
        · cases hc : readComment '|' s 1 with
          | none => exact Good.err
          | some r =>
            have := readComment_length '|' _ s 1 r (Nat.le_refl _) hc
            exact (ih1 eof r bl (by omega)).mono (by omega)
        · exact (readChar_good bl s).mono (by omega)
        · exact (skipChars_good _ bl _ _).mono (by simp; omega)
        · exact (skipChars_good _ bl _ _).mono (by simp; omega)
        · exact (skipChars_good _ bl _ _).mono (by simp; omega)
        · exact Good.err
        · exact readSymbol_good true _ bl
        · exact Good.ok (by omega)
        · exact Good.ok (by omega)
        · exact readIdent_good _ bl
        · exact (skipChars_good _ bl _ _).mono (by omega)
        · exact Good.err
    · intro s bl acc tail h
      cases s with
      | nil => unfold readList; exact Good.err
      | cons c s =>
        simp only [List.length_cons] at h ⊢
        have hsk := skipLine_length s
        unfold readList
        repeat' split
        · exact (ih4 s bl acc tail (by omega)).mono (by omega)
        · exact (ih4 (skipLine s) bl acc tail (by omega)).mono (by omega)
        · exact Good.ok (by omega)
        · exact Good.err
        · exact Good.err
        · refine (ih1 .premature s bl (by omega)).bind fun v rest bl h => ?_
          exact (ih4 rest bl acc v (by omega)).mono (by omega)
        · exact Good.ok (by simp)
        · cases hc : readComment '|' s.tail 1 with
          | none => exact Good.err
          | some r =>
            have := readComment_length '|' _ s.tail 1 r (Nat.le_refl _) hc
            have h2 : s.tail.length ≤ s.length := by simp
            exact (ih4 r bl acc tail (by omega)).mono (by omega)
        · refine (ih1 .premature (c :: s) bl (by simp; omega)).bind fun v rest bl h => ?_
          simp only [List.length_cons] at h
          exact (ih4 rest bl (v :: acc) .nil (by omega)).mono (by omega)

/-- **C45**: `read` always ends, whatever the text and whatever has been read before; if it
returns an object then it has consumed at least one character. -/
theorem C45_total (s : List Char) (bl : Nat) :
    read s bl ≠ .fuel ∧ ∀ v rest bl', read s bl = .ok v rest bl' → rest.length < s.length :=
  (total_aux _).1 _ _ _ (by omega)

end Rep.Reader
