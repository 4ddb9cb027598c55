/-
Property C45: reading a short text has no undefined behaviour.
-/
import Verif.Reader.Violated

namespace Rep.Reader

open Rep.Number Rep.NumText

/-! ### Numbers -/

theorem cDigit_lt {r : Nat} {c : Char} {d : Nat} (h : cDigit r c = some d) : d < r := by
  unfold cDigit at h
  split at h
  · rename_i h10
    split at h
    · cases h
    · cases h; omega
  · split at h
    · cases h
    · split at h
      · cases h
      · split at h
        · cases h
        · cases h; omega

theorem shortLoop_defined (r : Nat) (hr : 0 < r) : ∀ (s : List Char) (v : Nat), (v + 1) * r ^ s.length ≤ 2 ^ 63 → ∀ z : Int, z = v → shortLoop r s z ≠ .ub := by
  intro s
  induction s with
  | nil => intro v _ z _; simp [shortLoop]
  | cons c s ih =>
    intro v h z hz
    unfold shortLoop
    cases hd : cDigit r c with
    | none => simp
    | some d =>
      have hlt := cDigit_lt hd
      rw [Option.elim_some]
      rw [List.length_cons, pow_succ] at h
      have h1 : (v * r + d + 1) * r ^ s.length ≤ (v + 1) * (r ^ s.length * r) := by
        calc (v * r + d + 1) * r ^ s.length ≤ ((v + 1) * r) * r ^ s.length := Nat.mul_le_mul_right _ (by rw [Nat.add_mul]; omega)
          _ = (v + 1) * (r ^ s.length * r) := by ring
      have h2 : (v * r + d + 1) * 1 ≤ (v * r + d + 1) * r ^ s.length := Nat.mul_le_mul_left _ (Nat.pow_pos hr)
      have h3 : v * r + d + 1 ≤ 2 ^ 63 := by omega
      have hl : longStep z r d = some ((v * r + d : Nat) : Int) := by
        subst hz
        unfold longStep
        rw [if_pos]
        · push_cast; rfl
        · have : ((v : Int) * r) = ((v * r : Nat) : Int) := by push_cast; rfl
          rw [this]
          omega
      rw [hl, Option.elim_some]
      exact ih _ (by omega) _ rfl

theorem parseInt_defined {s : List Char} (hs : s.length < 240) {r : Nat} (hr : r = 2 ∨ r = 8 ∨ r = 10 ∨ r = 16) (neg : Bool) :
    parseInt s r neg ≠ .ub ∧ parseInt s r neg ≠ .abort := by
  unfold parseInt
  dsimp only
  have hlen : s.length % 2 ^ 32 = s.length := Nat.mod_eq_of_lt (by omega)
  rw [hlen]
  have key : ∀ b, bits r s.length = some b → b < 62 → shortLoop r s 0 ≠ .ub := by
    intro b hb hlt
    refine shortLoop_defined r (by omega) s 0 ?_ 0 rfl
    rcases hr with rfl | rfl | rfl | rfl
    · simp only [bits, Option.some.injEq] at hb
      calc (0 + 1) * 2 ^ s.length ≤ (0 + 1) * 2 ^ 61 := Nat.mul_le_mul_left _ (Nat.pow_le_pow_right (by omega) (by omega))
        _ ≤ 2 ^ 63 := by norm_num
    · simp only [bits, Option.some.injEq] at hb
      rw [Nat.mod_eq_of_lt (by omega)] at hb
      calc (0 + 1) * 8 ^ s.length ≤ (0 + 1) * 8 ^ 20 := Nat.mul_le_mul_left _ (Nat.pow_le_pow_right (by omega) (by omega))
        _ ≤ 2 ^ 63 := by norm_num
    · simp only [bits, Option.some.injEq] at hb
      rw [Nat.mod_eq_of_lt (by omega)] at hb
      calc (0 + 1) * 10 ^ s.length ≤ (0 + 1) * 10 ^ 18 := Nat.mul_le_mul_left _ (Nat.pow_le_pow_right (by omega) (by omega))
        _ ≤ 2 ^ 63 := by norm_num
    · simp only [bits, Option.some.injEq] at hb
      rw [Nat.mod_eq_of_lt (by omega)] at hb
      calc (0 + 1) * 16 ^ s.length ≤ (0 + 1) * 16 ^ 15 := Nat.mul_le_mul_left _ (Nat.pow_le_pow_right (by omega) (by omega))
        _ ≤ 2 ^ 63 := by norm_num
  have hb : ∃ b, bits r s.length = some b := by
    rcases hr with rfl | rfl | rfl | rfl <;> exact ⟨_, rfl⟩
  obtain ⟨b, hb⟩ := hb
  rw [hb, List.take_length]
  split
  · simp
  · dsimp only
    split
    · have := key b hb (by assumption)
      cases hl : shortLoop r s 0 with
      | value v => simp
      | bad => simp
      | ub => exact absurd hl this
    · split <;> simp

theorem parseRat_defined (s : List Char) (r : Nat) (neg : Bool) : parseRat s r neg ≠ .ub ∧ parseRat s r neg ≠ .abort := by
  unfold parseRat
  split
  · simp
  · split
    · split <;> simp
    · simp

/-! ### Tokens -/

/-- The bases that occur. -/
def Base (r : Int) : Prop := r = -1 ∨ r = 0 ∨ r = 1 ∨ r = 2 ∨ r = 8 ∨ r = 10 ∨ r = 16

theorem digit_base {a : Auto} {c : Char} (h : Base a.radix) : Base (a.digit c).radix := by
  unfold Auto.digit; repeat' split
  all_goals first | exact h | simp [Base]

theorem speculate_base {a : Auto} {c : Char} (h : Base a.radix) : Base (a.speculate c).radix := by
  unfold Auto.speculate; repeat' split
  all_goals first | exact h | exact digit_base h | simp [Base]

theorem step_base {a : Auto} {i : Nat} {c : Char} (h : Base a.radix) : Base (a.step i c).radix := by
  unfold Auto.step
  dsimp only
  repeat' split
  all_goals first | exact h | exact speculate_base h | simp [Base]

/-- A token that fits into the buffer, with room for `k` more characters. -/
def Fits (t : Tok) (k : Nat) : Prop := t.buf.length + k < 240 ∧ t.buflen = 240 ∧ t.moved = false ∧ Base t.auto.radix

theorem push_fits {t : Tok} {k : Nat} (h : Fits t (k + 1)) (c : Char) : t.push c = some { t with buf := t.buf ++ [c] } := by
  unfold Tok.push
  rw [if_neg]
  obtain ⟨h1, _⟩ := h
  omega

theorem grow_fits {t : Tok} {k : Nat} (h : Fits t k) : t.grow = t := by
  unfold Tok.grow
  rw [if_neg]
  obtain ⟨h1, h2, _⟩ := h
  omega

/-- The end of the loop, if all is well. -/
def End.Defined : End → Prop
  | .done t rest => Fits t rest.length
  | .eof => True
  | .ub => False

theorem symLoop_defined : ∀ (s : List Char) (t : Tok), Fits t s.length → (symLoop s t).Defined := by
  intro s
  induction s with
  | nil => intro t h; unfold symLoop; split
           · exact h
           · trivial
  | cons c s ih =>
    intro t h
    rw [List.length_cons] at h
    have hpush : ∀ m a, Base a.radix → Fits { t with buf := t.buf ++ [c], mode := m, auto := a } s.length := by
      intro m a ha
      obtain ⟨h1, h2, h3, h4⟩ := h
      exact ⟨by simp; omega, h2, h3, ha⟩
    have hskip : ∀ m a, Base a.radix → Fits { t with mode := m, auto := a } s.length := by
      intro m a ha
      obtain ⟨h1, h2, h3, h4⟩ := h
      exact ⟨by simp; omega, h2, h3, ha⟩
    have h4 : Base t.auto.radix := h.2.2.2
    unfold symLoop
    split
    · rw [push_fits h, Option.elim_some]; exact ih _ (hpush _ _ h4)
    · split
      · split
        · rw [push_fits h, Option.elim_some]; exact ih _ (hpush _ _ h4)
        · exact ih _ (hskip _ _ h4)
      · dsimp only
        rw [grow_fits h]
        split
        · exact h
        · split
          · exact ih _ (hskip _ _ (by simp [Base]))
          · split
            · exact ih _ (hskip _ _ (by simp [Base]))
            · rw [push_fits h, Option.elim_some]
              split
              · exact ih _ (hpush _ _ h4)
              · exact ih _ (hpush _ _ (step_base h4))

/-- A result is defined, and if it is a value then the rest is short and the buffer has its
first length. -/
def Def {α : Type} (r : Res α) : Prop := r ≠ .ub ∧ ∀ v rest bl, r = .ok v rest bl → rest.length < 240 ∧ bl = 240

theorem Def.ok {α : Type} {v : α} {rest : List Char} (h : rest.length < 240) : Def (.ok v rest 240) :=
  ⟨by simp, by rintro _ _ _ ⟨⟩; exact ⟨h, rfl⟩⟩
theorem Def.err {α : Type} {e : Err} : Def (.err e : Res α) := ⟨by simp, by simp⟩
theorem Def.unmodelled {α : Type} : Def (.unmodelled : Res α) := ⟨by simp, by simp⟩
theorem Def.fuel {α : Type} : Def (.fuel : Res α) := ⟨by simp, by simp⟩

theorem Def.bind {α β : Type} {r : Res α} {f : α → List Char → Nat → Res β} (h : Def r)
    (hf : ∀ v rest, rest.length < 240 → Def (f v rest 240)) : Def (r.bind f) := by
  cases r with
  | ok v rest bl => obtain ⟨h1, rfl⟩ := h.2 v rest bl rfl; exact hf v rest h1
  | err e => exact Def.err
  | ub => exact absurd rfl h.1
  | unmodelled => exact Def.unmodelled
  | fuel => exact Def.fuel

theorem Def.map {α β : Type} {r : Res α} {f : α → β} (h : Def r) : Def (r.map f) := h.bind fun _ _ hr => Def.ok hr

theorem intern_defined {t : Tok} {kw : Bool} {rest : List Char} (h : Fits t rest.length) : Def (t.intern kw rest) := by
  unfold Tok.intern
  obtain ⟨h1, h2, h3, _⟩ := h
  rw [h3, h2]
  exact Def.ok (by omega)

theorem finish_defined {t : Tok} {kw : Bool} {rest : List Char} (h : Fits t rest.length) : Def (t.finish kw rest) := by
  have hin := intern_defined (kw := kw) h
  obtain ⟨h1, h2, h3, h4⟩ := h
  unfold Tok.finish
  rw [h2]
  have hlen : (t.buf.drop t.auto.nfirst).length < 240 := by rw [List.length_drop]; omega
  split
  · exact Def.err
  · split
    · rename_i hr
      dsimp only
      split
      · split
        · exact Def.unmodelled
        · exact Def.ok (by omega)
      · rename_i hr1
        split
        · split
          · split
            · exact Def.unmodelled
            · exact Def.ok (by omega)
          · exact hin
        · have hb : t.auto.radix.toNat = 2 ∨ t.auto.radix.toNat = 8 ∨ t.auto.radix.toNat = 10 ∨ t.auto.radix.toNat = 16 := by
            rcases h4 with h | h | h | h | h | h | h <;> omega
          have hp := parseInt_defined hlen hb t.auto.neg
          have hq := parseRat_defined (t.buf.drop t.auto.nfirst) t.auto.radix.toNat t.auto.neg
          split
          · split
            · exact Def.unmodelled
            · exact Def.ok (by omega)
          · exact hin
          · exact Def.unmodelled
          · rename_i heq; split at heq
            · exact absurd heq hq.2
            · exact absurd heq hp.2
          · rename_i heq; split at heq
            · exact absurd heq hq.1
            · exact absurd heq hp.1
    · exact hin

theorem readSymbol_defined (kw : Bool) {s : List Char} (h : s.length < 240) : Def (readSymbol kw s 240) := by
  unfold readSymbol
  have := symLoop_defined s { buflen := 240 } ⟨by simpa using h, rfl, rfl, Or.inl rfl⟩
  split
  · rename_i heq; rw [heq] at this; exact finish_defined this
  · exact Def.err
  · rename_i heq; rw [heq] at this; exact absurd this (by simp [End.Defined])

theorem readIdent_defined {s : List Char} (h : s.length < 240) : Def (readIdent s 240) := by
  unfold readIdent
  refine (readSymbol_defined false h).bind fun v rest h => ?_
  split
  · exact (readSymbol_defined false (by simp at h; omega)).map
  · exact Def.ok h

/-- Functions that leave `buflen` alone. -/
theorem Def.of_good {α : Type} {k : Nat} {r : Res α} (hg : Good k r) (hk : k ≤ 240) (hu : r ≠ .ub) (hb : ∀ v rest bl, r = .ok v rest bl → bl = 240) : Def r :=
  ⟨hu, fun v rest bl h => ⟨Nat.lt_of_lt_of_le (hg.2 v rest bl h) hk, hb v rest bl h⟩⟩

theorem readStr_defined : ∀ (n : Nat) (s buf : List Char), s.length < 240 → Def (readStr n s buf 240) := by
  intro n
  induction n with
  | zero => intro s buf _; exact Def.fuel
  | succ n ih =>
    intro s buf h
    cases s with
    | nil => exact Def.err
    | cons c s =>
      simp only [List.length_cons] at h
      unfold readStr
      split
      · exact Def.ok (by omega)
      · split
        · split
          · exact ih _ _ (by simp; omega)
          · have := readEsc_length s
            exact ih _ _ (by omega)
        · exact ih _ _ (by omega)

theorem skipChars_defined (ret : Obj) : ∀ (p s : List Char), s.length < 240 → Def (skipChars ret 240 p s) := by
  intro p
  induction p with
  | nil =>
    intro s h
    cases s with
    | nil => exact Def.ok (by simp)
    | cons c s => unfold skipChars; split
                  · exact Def.ok h
                  · exact Def.err
  | cons p ps ih =>
    intro s h
    cases s with
    | nil => exact Def.err
    | cons c s => unfold skipChars; split
                  · exact ih s (by simp at h; omega)
                  · exact Def.err

theorem readName_defined (v : Nat) : ∀ (p s : List Char), s.length < 240 → Def (readName v 240 p s) := by
  intro p
  induction p with
  | nil => intro s h; unfold readName; exact Def.ok h
  | cons p ps ih =>
    intro s h
    cases s with
    | nil => exact Def.err
    | cons c s => unfold readName; split
                  · exact ih s (by simp at h; omega)
                  · exact Def.err

theorem readChar_defined {s : List Char} (h : s.length < 240) : Def (readChar 240 s) := by
  unfold readChar
  repeat' split
  all_goals first | exact Def.err | exact Def.ok (by simp at h ⊢; try omega) | exact readName_defined _ _ _ (by simp at h; omega)

theorem readQuestion_defined {s : List Char} (h : s.length < 240) : Def (readQuestion 240 s) := by
  unfold readQuestion
  repeat' split
  all_goals first | exact Def.err | skip
  · rename_i s _ _; have := readEsc_length s; exact Def.ok (by simp at h; omega)
  · exact Def.ok (by simp at h; omega)

set_option maxHeartbeats 2000000 in
theorem defined_aux : ∀ (n : Nat),
    (∀ eof s, s.length < 240 → Def (readl n eof s 240)) ∧
    (∀ name s, s.length < 240 → Def (readQuoted n name s 240)) ∧
    (∀ eof s, s.length + 1 < 240 → Def (readHash n eof s 240)) ∧
    (∀ s acc tail, s.length < 240 → Def (readList n s 240 acc tail)) := by
  intro n
  induction n with
  | zero => refine ⟨?_, ?_, ?_, ?_⟩ <;> (intros; exact Def.fuel)
  | succ n ih =>
    obtain ⟨ih1, ih2, ih3, ih4⟩ := ih
    refine ⟨?_, ?_, ?_, ?_⟩
    · intro eof s h
      cases s with
      | nil => unfold readl; exact Def.err
      | cons c s =>
        simp only [List.length_cons] at h
        have hsk := skipLine_length s
        have l := ih4 s [] .nil (by omega)
        unfold readl
        repeat' split
        · exact ih1 eof s (by omega)
        · exact ih1 eof (skipLine s) (by omega)
        · exact l
        · exact ih2 _ s (by omega)
        · exact ih2 _ s (by omega)
        · exact ih2 _ s.tail (by simp; omega)
        · exact ih2 _ s (by omega)
        · exact l.map
        · exact readStr_defined _ _ _ (by omega)
        · exact readQuestion_defined (by omega)
        · exact ih3 eof s (by omega)
        · exact readIdent_defined (by simpa using h)
    · intro name s h
      unfold readQuoted
      split
      · exact Def.err
      · exact (ih1 .premature s h).map
    · intro eof s h
      cases s with
      | nil => unfold readHash; exact Def.err
      | cons c s =>
        simp only [List.length_cons] at h
        have l := ih4 s [] .nil (by omega)
        have ht : s.tail.length < 240 := by simp; omega
        unfold readHash
        repeat' split
        · exact ih2 _ s (by omega)
        · refine l.bind fun v rest h => ?_
          split
          · exact Def.ok h
          · exact Def.err
        · exact l.map
        · cases hc : readComment '|' s 1 with
          | none => exact Def.err
          | some r =>
            have := readComment_length '|' _ s 1 r (Nat.le_refl _) hc
            exact ih1 eof r (by omega)
        · exact readChar_defined (by omega)
        · exact skipChars_defined _ _ _ ht
        · exact skipChars_defined _ _ _ ht
        · exact skipChars_defined _ _ _ ht
        · exact Def.err
        · exact readSymbol_defined true (by simpa using h)
        · exact Def.ok (by omega)
        · exact Def.ok (by omega)
        · exact readIdent_defined (by simpa using h)
        · exact skipChars_defined _ _ _ (by omega)
        · exact Def.err
    · intro s acc tail h
      cases s with
      | nil => unfold readList; exact Def.err
      | cons c s =>
        simp only [List.length_cons] at h
        have hsk := skipLine_length s
        unfold readList
        repeat' split
        · exact ih4 s acc tail (by omega)
        · exact ih4 (skipLine s) acc tail (by omega)
        · exact Def.ok (by omega)
        · exact Def.err
        · exact Def.err
        · exact (ih1 .premature s (by omega)).bind fun v rest h => ih4 rest acc v h
        · exact Def.ok (by simp)
        · cases hc : readComment '|' s.tail 1 with
          | none => exact Def.err
          | some r =>
            have := readComment_length '|' _ s.tail 1 r (Nat.le_refl _) hc
            have h2 : s.tail.length ≤ s.length := by simp
            exact ih4 r acc tail (by omega)
        · exact (ih1 .premature (c :: s) (by simpa using h)).bind fun v rest h => ih4 rest (v :: acc) .nil h

/-- The token fits into the static buffer, or has been moved to an allocated one. -/
def Inside (t : Tok) : Prop := t.moved = true ∨ (t.buflen = 240 ∧ t.buf.length ≤ 240 ∧ (t.mode = .escaped → t.buf.length < 240))

theorem push_inside {t : Tok} (h : t.moved = true ∨ (t.buflen = 240 ∧ t.buf.length < 240)) (c : Char) : t.push c = some { t with buf := t.buf ++ [c] } := by
  unfold Tok.push
  rw [if_neg]
  rintro ⟨h1, h2⟩
  rcases h with h | h
  · exact h1 h
  · omega

theorem symLoop_inside : ∀ (s : List Char) (t : Tok), Inside t → symLoop s t ≠ .ub := by
  intro s
  induction s with
  | nil => intro t _; rw [symLoop]; split <;> simp
  | cons c s ih =>
    intro t h
    rw [symLoop]
    by_cases hm : t.mode = .escaped
    · rw [if_pos hm, push_inside (by rcases h with h | h; exact Or.inl h; exact Or.inr ⟨h.1, h.2.2 hm⟩), Option.elim_some]
      apply ih
      rcases h with h | h
      · exact Or.inl h
      · have := h.2.2 hm
        refine Or.inr ⟨h.1, ?_, by simp⟩
        simp only [List.length_append, List.length_cons, List.length_nil]
        omega
    · rw [if_neg hm]
      split
      · rename_i hb
        split
        · rename_i hc
          rw [push_inside (by rcases h with h | h; exact Or.inl h; exact Or.inr ⟨h.1, by omega⟩), Option.elim_some]
          apply ih
          rcases h with h | h
          · exact Or.inl h
          · refine Or.inr ⟨h.1, ?_, by simp [hb]⟩
            simp only [List.length_append, List.length_cons, List.length_nil]
            omega
        · apply ih
          rcases h with h | h
          · exact Or.inl h
          · exact Or.inr ⟨h.1, h.2.1, by simp⟩
      · -- plain: there is room now
        have hg : t.grow.moved = true ∨ (t.grow.buflen = 240 ∧ t.grow.buf.length < 240) := by
          unfold Tok.grow
          split
          · exact Or.inl rfl
          · rename_i hne
            rcases h with h | h
            · exact Or.inl h
            · exact Or.inr ⟨h.1, by omega⟩
        dsimp only
        split
        · simp
        · split
          · apply ih
            rcases hg with h | h
            · exact Or.inl h
            · exact Or.inr ⟨h.1, by show t.grow.buf.length ≤ 240; omega, fun _ => h.2⟩
          · split
            · apply ih
              rcases hg with h | h
              · exact Or.inl h
              · exact Or.inr ⟨h.1, by show t.grow.buf.length ≤ 240; omega, by simp⟩
            · rw [push_inside hg, Option.elim_some]
              apply ih
              have hmode : t.grow.mode ≠ .escaped := by unfold Tok.grow; split <;> exact hm
              have hlen : (t.grow.buf ++ [c]).length = t.grow.buf.length + 1 := by simp
              split
              · rcases hg with h | h
                · exact Or.inl h
                · exact Or.inr ⟨h.1, by show (t.grow.buf ++ [c]).length ≤ 240; omega, fun hc => absurd hc hmode⟩
              · rcases hg with h | h
                · exact Or.inl h
                · exact Or.inr ⟨h.1, by show (t.grow.buf ++ [c]).length ≤ 240; omega, fun hc => absurd hc hmode⟩

/-- **C45** (partial): a token of any length, the first long one of a session, is collected
without a write outside its buffer.  Missing: the second long token, see
`C44_long_symbol_violated`. -/
theorem C45_token_partial (s : List Char) : symLoop s { buflen := 240 } ≠ .ub :=
  symLoop_inside s _ (Or.inr ⟨rfl, by simp, by simp⟩)

/-- **C45** (partial): reading a text of fewer than 240 characters has no undefined behaviour,
and leaves the reader as it was.  (For longer texts see `C44_long_symbol_violated` and
`C44_long_number_violated`.) -/
theorem C45_defined_partial (s : List Char) (h : s.length < 240) :
    read s 240 ≠ .ub ∧ ∀ v rest bl, read s 240 = .ok v rest bl → bl = 240 :=
  ⟨((defined_aux _).1 _ _ h).1, fun v rest bl hr => (((defined_aux _).1 _ _ h).2 v rest bl hr).2⟩

example : read "(a . #[\"x\" [] 3])".toList 240 ≠ .ub := (C45_defined_partial _ (by decide)).1

end Rep.Reader
