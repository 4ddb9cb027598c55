/-
Property C44: the cases in which what is printed is not read back, and examples.
-/
import Verif.Reader.RoundTrip

namespace Rep.Reader

open Rep.Number Rep.NumText

/-- A fixnum that was read. -/
def Res.fix : Res Obj → Option (Int × List Char × Nat)
  | .ok (.num (.fix w)) rest bl => some (w, rest, bl)
  | _ => none

theorem Res.eq_fix {r : Res Obj} {w : Int} {rest : List Char} {bl : Nat} (h : r.fix = some (w, rest, bl)) : r = .ok (.num (.fix w)) rest bl := by
  unfold Res.fix at h
  split at h
  · injection h with h; injection h with h1 h; injection h with h2 h3; subst h1 h2 h3; rfl
  · cases h

/-- **C44** is false of symbols whose names look like numbers in a way that the printer does
not know: a base sixteen number, a number with an exponent, several signs.  They are printed
without a backslash and read back as numbers. -/
theorem C44_number_violated (e : Escape) :
    (prin e (.sym "0x1f".toList) = "0x1f".toList ∧ read "0x1f".toList 240 = .ok (.num (.fix 31)) [] 240) ∧
    (prin e (.sym "1e5".toList) = "1e5".toList ∧ read "1e5".toList 240 = .ok (.float false "1e5".toList) [] 240) ∧
    (prin e (.sym "--1".toList) = "--1".toList ∧ read "--1".toList 240 = .ok (.num (.fix (-1))) [] 240) ∧
    (prin e (.sym "0x-5".toList) = "0x-5".toList ∧ read "0x-5".toList 240 = .ok (.num (.fix (-5))) [] 240) := by
  refine ⟨⟨?_, Res.eq_fix (by decide +kernel)⟩, ⟨?_, rfl⟩, ⟨?_, Res.eq_fix (by decide +kernel)⟩, ?_, Res.eq_fix (by decide +kernel)⟩ <;> rw [prin] <;> decide

/-- **C44** is false of symbols whose names begin with a question mark: they are printed bare
and read back as characters, whatever follows. -/
theorem C44_question_violated (e : Escape) :
    prin e (.sym "?ab".toList) = "?ab".toList ∧ read "?ab".toList 240 = .ok (.num (.fix 97)) ['b'] 240 := by
  refine ⟨?_, rfl⟩
  rw [prin]; decide

/-- **C44** is false of the symbol whose name is a single point, as the second or a later
element of a list: `(a .)` signals an error, and `(a . b)` is a pair. -/
theorem C44_dot_violated (e : Escape) :
    prin e (.cons (.sym ['a']) (.cons (.sym ['.']) (.cons (.sym ['b']) .nil))) = "(a . b)".toList ∧
    read "(a . b)".toList 240 = .ok (.cons (.sym ['a']) (.sym ['b'])) [] 240 := by
  refine ⟨?_, rfl⟩
  simp only [prin, prinCdr]
  decide

/-- **C44** is false of the symbol without a name: nothing is printed. -/
theorem C44_empty_violated (e : Escape) : prin e (.sym []) = [] ∧ read [] 240 = .err .endOfStream := by
  refine ⟨?_, rfl⟩
  rw [prin]; decide

/-- Undefined behaviour. -/
def Res.isUb {α : Type} : Res α → Bool
  | .ub => true
  | _ => false

/-- The value, the rest and `buflen`, if there are any. -/
def Res.state {α : Type} : Res α → Option (List Char × Nat)
  | .ok _ rest bl => some (rest, bl)
  | _ => none

theorem Res.eq_ub {α : Type} {r : Res α} (h : r.isUb = true) : r = .ub := by
  cases r <;> first | rfl | cases h

/-- **C44** is false of symbols with a name of more than 240 characters: the buffer is moved,
but the name is looked up in the old one, which has no terminating NUL. -/
theorem C44_long_symbol_violated (e : Escape) :
    prin e (.sym (List.replicate 241 'a')) = List.replicate 241 'a' ∧ read (List.replicate 241 'a') 240 = .ub := by
  refine ⟨?_, Res.eq_ub (by decide +kernel)⟩
  rw [prin]; decide +kernel

/-- **C44** is false of long numbers, if one has been read before: the first one doubles the
length that `read_symbol` remembers (in a static variable), but not the static buffer; the
second one overruns the buffer. -/
theorem C44_long_number_violated : ∃ v rest,
    read (List.replicate 241 '1' ++ ' ' :: List.replicate 243 '1') 240 = .ok v rest 480 ∧ rest = ' ' :: List.replicate 243 '1' ∧
    read rest 480 = .ub := by
  have h : (read (List.replicate 241 '1' ++ ' ' :: List.replicate 243 '1') 240).state = some (' ' :: List.replicate 243 '1', 480) := by
    decide +kernel
  cases hr : read (List.replicate 241 '1' ++ ' ' :: List.replicate 243 '1') 240 with
  | ok v rest bl =>
    rw [hr] at h
    injection h with h
    injection h with h1 h2
    subst h1 h2
    exact ⟨v, _, rfl, rfl, Res.eq_ub (by decide +kernel)⟩
  | err _ => rw [hr] at h; cases h
  | ub => rw [hr] at h; cases h
  | unmodelled => rw [hr] at h; cases h
  | fuel => rw [hr] at h; cases h

/-! ### Examples -/

/-- An object of every readable kind. -/
def sample : Obj :=
  .cons (.sym "a(b".toList) (.cons (.num (.fix (-12))) (.cons (.str "x\"\n\\y".toList)
    (.cons (.vec [.lit .t, .kw "#:key".toList, .nil]) (.num (.rat (mkRat 1 3))))))

theorem sample_readable (e : Escape) : Readable e sample := by
  refine .cons _ _ ?_ (.cons _ _ ?_ (.cons _ _ ?_ (.cons _ _ ?_ ?_)))
  · refine .sym _ (by decide) (by decide) (by decide) (by decide) (by decide) (Or.inl ?_)
    rw [prin]; decide
  · refine .num _ (by simp [Canonical]) ?_
    rw [prin]; simp [numberToString, intDigits, natDigits]
  · exact .str _ (by decide)
  · refine .vec _ ?_
    intro x hx
    simp only [List.mem_cons, List.not_mem_nil, or_false] at hx
    rcases hx with rfl | rfl | rfl
    · exact .lit _
    · exact .kw "key".toList (by decide) (by decide)
    · exact .nil
  · refine .num _ (by simp [Canonical]; decide) ?_
    rw [prin]; decide +kernel

example : prin .none sample = "(a\\(b -12 \"x\\\"\n\\\\y\" [#t #:key ()] . 1/3)".toList := by
  simp only [sample, prin, prinCdr, prinElems]
  decide +kernel

example : read (prin .all sample ++ " more".toList) 240 = .ok sample " more".toList 240 :=
  C44_partial .all sample (sample_readable _) _ (Or.inr ⟨' ', "more".toList, rfl, by decide⟩)

/-- A symbol that does not look like a number is readable, if it begins with a letter. -/
example (e : Escape) : Readable e (.sym ['x', '1']) := by
  refine .sym _ (by decide) (by decide) (by decide) (by decide) (by decide) (Or.inr ?_)
  rintro ⟨signs, t, h, hs, hu⟩
  cases signs with
  | cons c _ =>
    injection h with h _
    subst h
    rcases hs 'x' (by simp) with h | h <;> exact absurd h (by decide)
  | nil =>
    rw [List.nil_append] at h
    subst h
    rcases hu with ⟨n, ⟨h1, h2⟩, h | ⟨m, _, h⟩⟩ | ⟨x, sg, t, h, _⟩ | h
    · subst h; exact absurd (h2 'x' (by simp)) (by unfold IsDec; decide)
    · cases n with
      | nil => exact h1 rfl
      | cons c n => injection h with h _; subst h; exact absurd (h2 'x' (by simp)) (by unfold IsDec; decide)
    · injection h with h _; exact absurd h (by decide)
    · exact absurd h (by decide)

end Rep.Reader
