/-
Property C44: what is printed can be read back.
-/
import Verif.Reader.Total
import Verif.NumText.Props

namespace Rep.Reader

open Rep.Number Rep.NumText

/-! ### Specification -/

/-- A decimal digit. -/
def IsDec (c : Char) : Prop := '0' ≤ c ∧ c ≤ '9'

/-- A hexadecimal digit. -/
def IsHex (c : Char) : Prop := IsDec c ∨ ('a' ≤ c ∧ c ≤ 'f') ∨ ('A' ≤ c ∧ c ≤ 'F')

/-- A digit sequence, perhaps with a slash and another one. -/
def Ratio (d : Char → Prop) (s : List Char) : Prop :=
  ∃ n, (n ≠ [] ∧ ∀ c ∈ n, d c) ∧ (s = n ∨ ∃ m, (∀ c ∈ m, d c) ∧ s = n ++ '/' :: m)

/-- Signs. -/
def Signs (s : List Char) : Prop := ∀ c ∈ s, c = '-' ∨ c = '+'

/-- The syntax of numbers without a sign: integers and fractions, in base ten or with the
prefix `0x` (and perhaps signs after it) in base sixteen, and decimal numbers with a point or
an exponent. -/
def Unsigned (s : List Char) : Prop :=
  Ratio IsDec s ∨
  (∃ x signs t, s = '0' :: x :: (signs ++ t) ∧ (x = 'x' ∨ x = 'X') ∧ Signs signs ∧ Ratio IsHex t) ∨
  strtodAll s = true

/-- A text that looks like a number: any number of signs, then a number. -/
def Numeral (s : List Char) : Prop := ∃ signs t, s = signs ++ t ∧ Signs signs ∧ Unsigned t

/-- The objects that are printed in a way that can be read back.  The exceptions are explained
by the theorems `C44_…_violated`. -/
inductive Readable (e : Escape) : Obj → Prop where
  /-- an integer or fraction, if it has fewer than 240 digits -/
  | num (n : Num) : Canonical n → (prin e (.num n)).length < 240 → Readable e (.num n)
  /-- any string of bytes -/
  | str (s : List Char) : (∀ c ∈ s, c.toNat < 256) → Readable e (.str s)
  /-- a symbol whose name is not empty, has fewer than 240 characters, none of them NUL, is
  not a single point, does not begin with a question mark, and does not look like a number
  (or contains a character that is written with a backslash) -/
  | sym (name : List Char) : name ≠ [] → name.length < 240 → '\x00' ∉ name → name ≠ ['.'] → name.head? ≠ some '?' →
      ('\\' ∈ prin e (.sym name) ∨ ¬ Numeral name) → Readable e (.sym name)
  /-- a keyword -/
  | kw (s : List Char) : s.length < 238 → '\x00' ∉ s → Readable e (.kw ('#' :: ':' :: s))
  | lit (l : Lit) : Readable e (.lit l)
  | nil : Readable e .nil
  | cons (a d : Obj) : Readable e a → Readable e d → Readable e (.cons a d)
  | vec (l : List Obj) : (∀ x ∈ l, Readable e x) → Readable e (.vec l)
  /-- byte code: the first elements are a string, a vector and a fixnum -/
  | code (s : List Char) (v : List Obj) (w : Int) (l : List Obj) : (∀ x ∈ .str s :: .vec v :: .num (.fix w) :: l, Readable e x) →
      Readable e (.code (.str s :: .vec v :: .num (.fix w) :: l))

/-- The text ends here, or a delimiter follows. -/
def Delimited (rest : List Char) : Prop := rest = [] ∨ ∃ c s, rest = c :: s ∧ isTerm c = true

/-! ### Strings -/

theorem octal_char : ∀ k, k < 8 → isOctal (Char.ofNat (48 + k)) = true ∧ digit (Char.ofNat (48 + k)) = k := by decide

theorem octal_ne : ∀ k, k < 8 → Char.ofNat (48 + k) ≠ 'n' ∧ Char.ofNat (48 + k) ≠ 'r' ∧ Char.ofNat (48 + k) ≠ 'f' ∧ Char.ofNat (48 + k) ≠ 't' ∧
    Char.ofNat (48 + k) ≠ 'v' ∧ Char.ofNat (48 + k) ≠ 'a' ∧ Char.ofNat (48 + k) ≠ '^' ∧ Char.ofNat (48 + k) ≠ '\n' := by decide

theorem readEsc_octal (n : Nat) (h : n < 256) (rest : List Char) :
    readEsc (Char.ofNat (48 + n / 64) :: Char.ofNat (48 + n % 64 / 8) :: Char.ofNat (48 + n % 8) :: rest) = (n, rest) := by
  have h1 := octal_char (n / 64) (by omega)
  have h2 := octal_char (n % 64 / 8) (by omega)
  have h3 := octal_char (n % 8) (by omega)
  have h4 := octal_ne (n / 64) (by omega)
  rw [readEsc.eq_def]
  dsimp only
  simp only [h4, h1, h2, h3, if_false, if_true]
  congr 1
  omega

theorem char_ofNat_toNat (c : Char) : Char.ofNat c.toNat = c := Char.ofNat_toNat c

theorem readStr_esc (n : Nat) (c : Char) (s buf : List Char) (bl : Nat) (h : c ≠ '\n') :
    readStr (n + 1) ('\\' :: c :: s) buf bl = readStr n (readEsc (c :: s)).2 (buf ++ [Char.ofNat (readEsc (c :: s)).1]) bl := by
  rw [readStr, if_neg (by decide), if_pos rfl, if_neg (by simpa using h)]

theorem readStr_char (e : Escape) (c : Char) (hc : c.toNat < 256) (n : Nat) (s buf : List Char) (bl : Nat) :
    readStr (n + 1) (stringChar e c ++ s) buf bl = readStr n s (buf ++ [c]) bl := by
  unfold stringChar
  split
  · have h4 := octal_ne (c.toNat / 64) (by omega)
    simp only [List.cons_append, List.nil_append]
    rw [readStr_esc _ _ _ _ _ h4.2.2.2.2.2.2.2, readEsc_octal _ hc, char_ofNat_toNat]
  · split
    · rename_i h
      split
      · simp only [List.cons_append, List.nil_append]
        rw [readStr, if_neg, if_neg]
        · rcases h with rfl | rfl | rfl | rfl <;> decide
        · rcases h with rfl | rfl | rfl | rfl <;> decide
      · simp only [List.cons_append, List.nil_append]
        rcases h with rfl | rfl | rfl | rfl
        · rw [readStr_esc _ _ _ _ _ (by decide)]; rfl
        · rw [readStr_esc _ _ _ _ _ (by decide)]; rfl
        · rw [readStr_esc _ _ _ _ _ (by decide)]; rfl
        · rw [readStr_esc _ _ _ _ _ (by decide)]; rfl
    · split
      · rename_i h; subst h
        simp only [List.cons_append, List.nil_append]
        rw [readStr_esc _ _ _ _ _ (by decide)]; rfl
      · split
        · rename_i h; subst h
          simp only [List.cons_append, List.nil_append]
          rw [readStr_esc _ _ _ _ _ (by decide)]; rfl
        · rename_i h1 h2
          simp only [List.cons_append, List.nil_append]
          rw [readStr, if_neg h2, if_neg h1]

theorem stringChar_length (e : Escape) (c : Char) : 1 ≤ (stringChar e c).length := by
  unfold stringChar; repeat' split
  all_goals simp

theorem readStr_prin (e : Escape) (rest : List Char) (bl : Nat) : ∀ (s buf : List Char) (n : Nat), (∀ c ∈ s, c.toNat < 256) →
    s.length + 1 ≤ n → readStr n (s.flatMap (stringChar e) ++ '"' :: rest) buf bl = .ok (.str (buf ++ s)) rest bl := by
  intro s
  induction s with
  | nil =>
    intro buf n _ hn
    obtain ⟨n, rfl⟩ : ∃ m, n = m + 1 := ⟨n - 1, by omega⟩
    simp [readStr]
  | cons c s ih =>
    intro buf n h hn
    obtain ⟨n, rfl⟩ : ∃ m, n = m + 1 := ⟨n - 1, by omega⟩
    rw [List.flatMap_cons, List.append_assoc, readStr_char e c (h c (by simp)), ih _ _ (fun x hx => h x (by simp [hx])) (by simp at hn; omega)]
    simp

theorem flatMap_length (e : Escape) (s : List Char) : s.length ≤ (s.flatMap (stringChar e)).length := by
  induction s with
  | nil => simp
  | cons c s ih => have := stringChar_length e c; simp only [List.flatMap_cons, List.length_append, List.length_cons]; omega

/-! ### Symbols -/

/-- How the variables of the number automaton change while a name is read as it is printed. -/
def autoName : Auto → Nat → List Char → Auto
  | a, _, [] => a
  | a, i, c :: s => autoName (if symEsc false c then { a with radix := 0 } else if a.radix = 0 then a else a.step i c) (i + 1) s

theorem symEsc_not {c : Char} (h : symEsc false c = false) : isTerm c = false ∧ c ≠ '#' ∧ c ≠ '\\' ∧ c ≠ '|' := by
  unfold symEsc at h
  split at h
  · cases h
  · rename_i h1
    split at h
    · simp at h
    · rename_i h2
      simp only [not_or] at h1
      refine ⟨?_, h2, h1.2.2.2.2.2.2.2.2.2.2.2.1, h1.2.2.2.2.2.2.2.2.2.2.2.2.1⟩
      have hr : c ≠ '\r' := by rintro rfl; simp [iscntrl] at h
      unfold isTerm isWhite
      simp [h1, hr]

theorem grow_id {t : Tok} (h : t.buf.length < t.buflen) : t.grow = t := by
  unfold Tok.grow; rw [if_neg (by omega)]

theorem push_some {t : Tok} (c : Char) (h : t.buf.length < 240) : t.push c = some { t with buf := t.buf ++ [c] } := by
  unfold Tok.push; rw [if_neg (by omega)]

theorem auto_radix {a : Auto} (h : a.radix = 0) : { a with radix := 0 } = a := by
  cases a; simp only at h; subst h; rfl

/-- A name as it is printed is read into the buffer. -/
theorem symLoop_name (rest : List Char) : ∀ (s : List Char) (t : Tok), t.mode = .plain → t.buflen = 240 →
    t.buf.length + s.length < 240 →
    symLoop (s.flatMap (symChar false) ++ rest) t = symLoop rest { t with buf := t.buf ++ s, auto := autoName t.auto t.buf.length s } := by
  intro s
  induction s with
  | nil => intro t _ _ _; simp [autoName]
  | cons c s ih =>
    intro t hm hb hl
    simp only [List.length_cons] at hl
    rw [List.flatMap_cons, List.append_assoc]
    by_cases hc : symEsc false c = true
    · have e1 : symChar false c = ['\\', c] := by unfold symChar; rw [if_pos hc]
      rw [e1, List.cons_append, List.cons_append, List.nil_append, symLoop]
      rw [if_neg (by rw [hm]; decide), if_neg (by rw [hm]; decide)]
      dsimp only
      rw [grow_id (by omega), if_neg (by simp [isTerm, isWhite]), if_pos rfl, symLoop, if_pos rfl, push_some _ (by show t.buf.length < 240; omega), Option.elim_some]
      refine (ih _ ?_ ?_ ?_).trans ?_
      · rfl
      · exact hb
      · simp; omega
      · simp [autoName, hc, hm]
    · simp only [Bool.not_eq_true] at hc
      obtain ⟨h1, h2, h3, h4⟩ := symEsc_not hc
      have e1 : symChar false c = [c] := by unfold symChar; rw [if_neg (by simp [hc])]
      rw [e1, List.cons_append, List.nil_append, symLoop]
      rw [if_neg (by rw [hm]; decide), if_neg (by rw [hm]; decide)]
      dsimp only
      rw [grow_id (by omega), if_neg (by simp [h1, h2]), if_neg h3, if_neg h4, push_some _ (by omega), Option.elim_some]
      by_cases hr : t.auto.radix = 0
      · rw [if_pos hr]
        refine (ih _ ?_ ?_ ?_).trans ?_
        · exact hm
        · exact hb
        · simp; omega
        · simp [autoName, hc, hr]
      · rw [if_neg hr]
        refine (ih _ ?_ ?_ ?_).trans ?_
        · exact hm
        · exact hb
        · simp; omega
        · simp [autoName, hc, hr]

theorem symLoop_end {rest : List Char} {t : Tok} (hd : Delimited rest) (hm : t.mode = .plain) (hl : t.buf.length < t.buflen) : symLoop rest t = .done t rest := by
  rcases hd with rfl | ⟨c, s, rfl, hc⟩
  · rw [symLoop, if_pos hm]
  · rw [symLoop, if_neg (by rw [hm]; decide), if_neg (by rw [hm]; decide)]
    dsimp only
    rw [grow_id hl, if_pos (Or.inl hc)]

theorem autoName_zero : ∀ (s : List Char) (a : Auto) (i : Nat), a.radix = 0 → (autoName a i s).radix = 0 := by
  intro s
  induction s with
  | nil => intro a i h; exact h
  | cons c s ih =>
    intro a i h
    rw [autoName]
    apply ih
    split
    · rfl
    · exact h

theorem autoName_esc : ∀ (s : List Char) (a : Auto) (i : Nat), (∃ c ∈ s, symEsc false c = true) → (autoName a i s).radix = 0 := by
  intro s
  induction s with
  | nil => intro a i h; simp at h
  | cons c s ih =>
    intro a i h
    rw [autoName]
    by_cases hc : symEsc false c = true
    · rw [if_pos hc]; exact autoName_zero _ _ _ rfl
    · apply ih
      obtain ⟨x, hx, he⟩ := h
      rcases List.mem_cons.mp hx with rfl | hx
      · exact absurd he hc
      · exact ⟨x, hx, he⟩

theorem cString_id {s : List Char} (h : '\x00' ∉ s) : cString s = s := by
  apply takeWhile_all
  intro x hx
  simp only [decide_eq_true_eq]
  rintro rfl
  exact h hx

theorem finish_zero {t : Tok} (kw : Bool) (rest : List Char) (h0 : t.buf ≠ []) (hr : t.auto.radix = 0) (hm : t.moved = false) (hn : '\x00' ∉ t.buf) :
    t.finish kw rest = .ok (if kw then .kw t.buf else .sym t.buf) rest t.buflen := by
  unfold Tok.finish
  rw [if_neg (by simpa using h0), if_neg (by omega)]
  unfold Tok.intern
  rw [hm, cString_id hn]
  simp

/-! ### What looks like a number -/

theorem isDec_iff {c : Char} : IsDec c ↔ isdigit c = true := by
  unfold IsDec isdigit
  simp only [toNat_le, Bool.and_eq_true, decide_eq_true_eq]
  exact Iff.rfl

theorem isHex_iff {c : Char} : IsHex c ↔ isxdigit c = true := by
  unfold IsHex IsDec isxdigit
  simp only [toNat_le, Bool.and_eq_true, Bool.or_eq_true, decide_eq_true_eq]
  show ((48 ≤ c.toNat ∧ c.toNat ≤ 57) ∨ (97 ≤ c.toNat ∧ c.toNat ≤ 102) ∨ (65 ≤ c.toNat ∧ c.toNat ≤ 70)) ↔ _
  omega

/-- An unfinished `Ratio`. -/
def PreRatio (d : Char → Prop) (rational : Bool) (s : List Char) : Prop :=
  if rational then ∃ n m, (∀ c ∈ n, d c) ∧ (∀ c ∈ m, d c) ∧ s = n ++ '/' :: m else ∀ c ∈ s, d c

/-- What the automaton knows about the characters it has seen. -/
def Inv (a : Auto) (s : List Char) : Prop :=
  a.prefixed = false ∧ a.force = 0 ∧
  ∃ signs t, s = signs ++ t ∧ Signs signs ∧
    ((a.radix = -1 ∧ t = [] ∧ a.nfirst = signs.length ∧ a.exact = true ∧ a.rational = false ∧ a.exponent = false) ∨
     a.radix = 0 ∨
     (a.radix = 1 ∧ t = ['0'] ∧ a.nfirst = signs.length ∧ a.exact = true ∧ a.rational = false ∧ a.exponent = false) ∨
     (a.radix = 8 ∧ a.exact = true ∧ a.exponent = false ∧ ∃ t', t = '0' :: t' ∧ t' ≠ [] ∧ t'.head? ≠ some '/' ∧ a.nfirst = signs.length + 1 ∧ PreRatio IsDec a.rational t') ∨
     (a.radix = 10 ∧ a.exact = true ∧ a.exponent = false ∧ t ≠ [] ∧ t.head? ≠ some '/' ∧ a.nfirst = signs.length ∧ PreRatio IsDec a.rational t) ∨
     (a.radix = 10 ∧ a.exact = false ∧ t ≠ [] ∧ a.nfirst = signs.length) ∨
     (a.radix = 16 ∧ a.exact = true ∧ a.exponent = false ∧ ∃ x sg t', t = '0' :: x :: (sg ++ t') ∧ (x = 'x' ∨ x = 'X') ∧ Signs sg ∧
        a.nfirst = signs.length + 2 + sg.length ∧ PreRatio IsHex a.rational t'))

theorem preRatio_snoc {d : Char → Prop} {r : Bool} {s : List Char} {c : Char} (h : PreRatio d r s) (hc : d c) : PreRatio d r (s ++ [c]) := by
  unfold PreRatio at *
  split at h
  · rename_i hr
    rw [if_pos hr]
    obtain ⟨n, m, h1, h2, rfl⟩ := h
    refine ⟨n, m ++ [c], h1, ?_, by simp⟩
    intro x hx
    rcases List.mem_append.mp hx with hx | hx
    · exact h2 x hx
    · simp at hx; subst hx; exact hc
  · rename_i hr
    rw [if_neg hr]
    intro x hx
    rcases List.mem_append.mp hx with hx | hx
    · exact h x hx
    · simp at hx; subst hx; exact hc

theorem preRatio_slash {d : Char → Prop} {s : List Char} (h : PreRatio d false s) : PreRatio d true (s ++ ['/']) := by
  unfold PreRatio at *
  simp only [Bool.false_eq_true, if_false, if_true] at *
  exact ⟨s, [], h, by simp, rfl⟩

theorem head_snoc {s : List Char} (c d : Char) (h0 : s ≠ []) (h : s.head? ≠ some d) : (s ++ [c]).head? ≠ some d := by
  cases s with
  | nil => exact absurd rfl h0
  | cons a s => simpa using h

/-- A step of the automaton keeps what it knows. -/
theorem inv_step {a : Auto} {s : List Char} {c : Char} (h : Inv a s) (hc : c ≠ '#') :
    Inv (if a.radix = 0 then a else a.step s.length c) (s ++ [c]) := by
  obtain ⟨hp, hf, signs, t, rfl, hs, h⟩ := h
  by_cases h0 : a.radix = 0
  · rw [if_pos h0]
    exact ⟨hp, hf, [], signs ++ t ++ [c], rfl, by intro x hx; simp at hx, Or.inr (Or.inl h0)⟩
  rw [if_neg h0]
  have zero : ∀ b : Auto, b.prefixed = false → b.force = 0 → b.radix = 0 → Inv b (signs ++ t ++ [c]) := fun b h1 h2 h3 =>
    ⟨h1, h2, [], signs ++ t ++ [c], rfl, by intro x hx; simp at hx, Or.inr (Or.inl h3)⟩
  unfold Auto.step
  rw [if_neg (by simp [hp])]
  rcases h with ⟨hr, rfl, hn, he, hra, hex⟩ | hr | ⟨hr, rfl, hn, he, hra, hex⟩ | ⟨hr, he, hex, t', rfl, ht0, hth, hn, hpr⟩ | ⟨hr, he, hex, ht0, hth, hn, hpr⟩ |
    ⟨hr, he, ht0, hn⟩ | ⟨hr, he, hex, x, sg, t', rfl, hx, hsg, hn, hpr⟩
  · -- radix -1
    by_cases hsg : c = '-' ∨ c = '+'
    · rw [if_pos ⟨by simp [hn], by tauto⟩, if_neg hc]
      refine ⟨hp, hf, signs ++ [c], [], by simp, ?_, Or.inl ⟨hr, rfl, by simp, he, hra, hex⟩⟩
      intro x hx
      rcases List.mem_append.mp hx with hx | hx
      · exact hs x hx
      · simp at hx; subst hx; exact hsg
    · rw [if_neg (by tauto), if_pos hr]
      split
      · refine ⟨hp, hf, signs, [c], by simp, hs, ?_⟩
        exact Or.inr (Or.inr (Or.inr (Or.inr (Or.inr (Or.inl ⟨rfl, rfl, by simp, hn⟩)))))
      · split
        · exact zero _ hp hf rfl
        · rename_i hd1 hd
          simp only [Bool.not_eq_true, Bool.not_eq_false] at hd
          split
          · rename_i hz; subst hz
            refine ⟨hp, hf, signs, ['0'], by simp, hs, ?_⟩
            exact Or.inr (Or.inr (Or.inl ⟨rfl, rfl, hn, he, hra, hex⟩))
          · refine ⟨hp, hf, signs, [c], by simp, hs, ?_⟩
            refine Or.inr (Or.inr (Or.inr (Or.inr (Or.inl ⟨rfl, he, hex, by simp, ?_, hn, ?_⟩))))
            · intro hcs
              simp at hcs; subst hcs
              simp [isdigit] at hd
            · unfold PreRatio; simp only [hra, Bool.false_eq_true, if_false]
              intro x hx; simp at hx; subst hx; exact isDec_iff.mpr hd
  · exact absurd hr h0
  · -- radix 1
    have hlen : ¬ ((signs ++ ['0']).length = a.nfirst ∧ (c = '-' ∨ c = '+' ∨ c = '#')) := by simp [hn]
    rw [if_neg hlen, if_neg (by omega), if_pos hr]
    split
    · rename_i hx
      refine ⟨hp, hf, signs, ['0', c], by simp, hs, ?_⟩
      refine Or.inr (Or.inr (Or.inr (Or.inr (Or.inr (Or.inr ⟨rfl, he, hex, c, [], [], rfl, hx, by intro x hx; simp at hx, by simp, ?_⟩)))))
      unfold PreRatio; simp [hra]
    · split
      · rename_i ho
        refine ⟨hp, hf, signs, ['0', c], by simp, hs, ?_⟩
        refine Or.inr (Or.inr (Or.inr (Or.inl ⟨rfl, he, hex, [c], rfl, by simp, ?_, by simp, ?_⟩)))
        · intro hcs
          simp at hcs; subst hcs
          simp at ho
        · unfold PreRatio; simp only [hra, Bool.false_eq_true, if_false]
          intro x hx; simp at hx; subst hx; rw [isDec_iff]; unfold isdigit; simp; omega
      · split
        · refine ⟨hp, hf, signs, ['0', c], by simp, hs, ?_⟩
          exact Or.inr (Or.inr (Or.inr (Or.inr (Or.inr (Or.inl ⟨rfl, rfl, by simp, hn⟩)))))
        · split
          · rename_i hsl; subst hsl
            refine ⟨hp, hf, signs, ['0', '/'], by simp, hs, ?_⟩
            refine Or.inr (Or.inr (Or.inr (Or.inr (Or.inl ⟨rfl, he, hex, by simp, by simp, hn, ?_⟩))))
            unfold PreRatio; simp only [if_true]
            exact ⟨['0'], [], by intro x hx; simp at hx; subst hx; exact isDec_iff.mpr (by decide), by simp, rfl⟩
          · exact zero _ hp hf rfl
  · -- radix 8
    rw [if_neg (by simp [hn]; intro h; exact absurd h ht0), if_neg (by omega), if_neg (by omega)]
    have hdig : Inv (a.digit c) (signs ++ '0' :: t' ++ [c]) := by
      unfold Auto.digit
      split
      · exact zero _ hp hf rfl
      · rename_i hd
        rw [if_neg (by omega)]
        refine ⟨hp, hf, signs, '0' :: (t' ++ [c]), by simp, hs, ?_⟩
        refine Or.inr (Or.inr (Or.inr (Or.inl ⟨hr, he, hex, t' ++ [c], rfl, by simp, head_snoc _ _ ht0 hth, hn, ?_⟩)))
        refine preRatio_snoc hpr (isDec_iff.mpr ?_)
        unfold isdigit; simp; omega
    unfold Auto.speculate
    split
    · rw [if_neg (by omega)]; exact zero _ hp hf rfl
    · split
      · rename_i hsl; subst hsl
        split
        · rename_i hq
          refine ⟨hp, hf, signs, '0' :: (t' ++ ['/']), by simp, hs, ?_⟩
          refine Or.inr (Or.inr (Or.inr (Or.inl ⟨hr, he, hex, t' ++ ['/'], rfl, by simp, head_snoc _ _ ht0 hth, hn, ?_⟩)))
          have : a.rational = false := by simpa using hq.2
          rw [this] at hpr
          exact preRatio_slash hpr
        · exact zero _ hp hf rfl
      · split
        · rw [if_pos (by simp [hex])]; exact hdig
        · rw [if_neg (by omega)]; exact hdig
  · -- radix 10, exact
    rw [if_neg (by simp [hn]; intro h; exact absurd h ht0), if_neg (by omega), if_neg (by omega)]
    have inexact : ∀ b : Auto, b.prefixed = false → b.force = 0 → b.radix = 10 → b.exact = false → b.nfirst = signs.length → Inv b (signs ++ t ++ [c]) := by
      intro b h1 h2 h3 h4 h5
      refine ⟨h1, h2, signs, t ++ [c], by simp, hs, ?_⟩
      exact Or.inr (Or.inr (Or.inr (Or.inr (Or.inr (Or.inl ⟨h3, h4, by simp, h5⟩)))))
    have hdig : Inv (a.digit c) (signs ++ t ++ [c]) := by
      unfold Auto.digit
      split
      · exact zero _ hp hf rfl
      · rename_i hd
        rw [if_neg (by omega)]
        refine ⟨hp, hf, signs, t ++ [c], by simp, hs, ?_⟩
        refine Or.inr (Or.inr (Or.inr (Or.inr (Or.inl ⟨hr, he, hex, by simp, head_snoc _ _ ht0 hth, hn, ?_⟩))))
        refine preRatio_snoc hpr (isDec_iff.mpr ?_)
        unfold isdigit; simp; omega
    unfold Auto.speculate
    split
    · split
      · exact inexact _ hp hf hr rfl hn
      · exact zero _ hp hf rfl
    · split
      · rename_i hsl; subst hsl
        split
        · rename_i hq
          refine ⟨hp, hf, signs, t ++ ['/'], by simp, hs, ?_⟩
          refine Or.inr (Or.inr (Or.inr (Or.inr (Or.inl ⟨hr, he, hex, by simp, head_snoc _ _ ht0 hth, hn, ?_⟩))))
          have : a.rational = false := by simpa using hq.2
          rw [this] at hpr
          exact preRatio_slash hpr
        · exact zero _ hp hf rfl
      · split
        · rw [if_pos (by simp [hex])]; exact hdig
        · split
          · split
            · exact inexact _ hp hf hr rfl hn
            · exact zero _ hp hf rfl
          · exact hdig
  · -- radix 10, inexact
    rw [if_neg (by simp [hn]; intro h; exact absurd h ht0), if_neg (by omega), if_neg (by omega)]
    have inexact : ∀ b : Auto, b.prefixed = false → b.force = 0 → b.radix = 10 → b.exact = false → b.nfirst = signs.length → Inv b (signs ++ t ++ [c]) := by
      intro b h1 h2 h3 h4 h5
      refine ⟨h1, h2, signs, t ++ [c], by simp, hs, ?_⟩
      exact Or.inr (Or.inr (Or.inr (Or.inr (Or.inr (Or.inl ⟨h3, h4, by simp, h5⟩)))))
    have hdig : Inv (a.digit c) (signs ++ t ++ [c]) := by
      unfold Auto.digit
      split
      · exact zero _ hp hf rfl
      · rw [if_neg (by omega)]; exact inexact _ hp hf hr he hn
    unfold Auto.speculate
    simp only [he, Bool.false_eq_true, false_and, if_false]
    split
    · exact zero _ hp hf rfl
    · split
      · exact zero _ hp hf rfl
      · split
        · split
          · exact hdig
          · exact inexact _ hp hf hr he hn
        · split
          · split
            · exact inexact _ hp hf hr rfl hn
            · exact zero _ hp hf rfl
          · exact hdig
  · -- radix 16
    by_cases hz : t' = [] ∧ (c = '-' ∨ c = '+')
    · obtain ⟨rfl, hsc⟩ := hz
      rw [if_pos ⟨by simp [hn]; omega, by tauto⟩, if_neg hc]
      refine ⟨hp, hf, signs, '0' :: x :: (sg ++ [c]), by simp, hs, ?_⟩
      refine Or.inr (Or.inr (Or.inr (Or.inr (Or.inr (Or.inr ⟨hr, he, hex, x, sg ++ [c], [], by simp, hx, ?_, by simp; omega, hpr⟩)))))
      intro y hy
      rcases List.mem_append.mp hy with hy | hy
      · exact hsg y hy
      · simp at hy; subst hy; exact hsc
    · have hlen : ¬ ((signs ++ '0' :: x :: (sg ++ t')).length = a.nfirst ∧ (c = '-' ∨ c = '+' ∨ c = '#')) := by
        rintro ⟨h1, h2⟩
        apply hz
        refine ⟨?_, by tauto⟩
        simp [hn] at h1
        have : t'.length = 0 := by omega
        simpa using this
      rw [if_neg hlen, if_neg (by omega), if_neg (by omega)]
      have hdig : Inv (a.digit c) (signs ++ '0' :: x :: (sg ++ t') ++ [c]) := by
        unfold Auto.digit
        rw [if_neg (by omega)]
        split
        · exact zero _ hp hf rfl
        · rename_i hd
          refine ⟨hp, hf, signs, '0' :: x :: (sg ++ (t' ++ [c])), by simp, hs, ?_⟩
          refine Or.inr (Or.inr (Or.inr (Or.inr (Or.inr (Or.inr ⟨hr, he, hex, x, sg, t' ++ [c], rfl, hx, hsg, hn, ?_⟩)))))
          refine preRatio_snoc hpr (isHex_iff.mpr ?_)
          simp only [hr, true_and, Bool.not_eq_true, Bool.not_eq_false] at hd
          exact hd
      unfold Auto.speculate
      split
      · rw [if_neg (by omega)]; exact zero _ hp hf rfl
      · split
        · rename_i hsl; subst hsl
          split
          · rename_i hq
            refine ⟨hp, hf, signs, '0' :: x :: (sg ++ (t' ++ ['/'])), by simp, hs, ?_⟩
            refine Or.inr (Or.inr (Or.inr (Or.inr (Or.inr (Or.inr ⟨hr, he, hex, x, sg, t' ++ ['/'], rfl, hx, hsg, hn, ?_⟩)))))
            have : a.rational = false := by simpa using hq.2
            rw [this] at hpr
            exact preRatio_slash hpr
          · exact zero _ hp hf rfl
        · split
          · rw [if_pos (by simp [hex])]; exact hdig
          · rw [if_neg (by omega)]; exact hdig

/-- While a name without special characters is read. -/
theorem inv_name : ∀ (s : List Char) (a : Auto) (p : List Char), (∀ c ∈ s, symEsc false c = false) → Inv a p →
    Inv (autoName a p.length s) (p ++ s) := by
  intro s
  induction s with
  | nil => intro a p _ h; simpa [autoName] using h
  | cons c s ih =>
    intro a p hs h
    have hc := hs c (by simp)
    rw [autoName, if_neg (by simp [hc])]
    have := ih _ (p ++ [c]) (fun x hx => hs x (by simp [hx])) (inv_step h (symEsc_not hc).2.1)
    simpa using this

theorem ratio_of_pre {d : Char → Prop} {r : Bool} {s : List Char} (h : PreRatio d r s) (h0 : s ≠ []) (hs : s.head? ≠ some '/') : Ratio d s := by
  unfold PreRatio at h
  split at h
  · obtain ⟨n, m, h1, h2, rfl⟩ := h
    refine ⟨n, ⟨?_, h1⟩, Or.inr ⟨m, h2, rfl⟩⟩
    rintro rfl
    exact hs rfl
  · exact ⟨s, ⟨h0, h⟩, Or.inl rfl⟩

theorem mpzSetStr_nil (r : Nat) : mpzSetStr r [] = none := rfl

/-- What does not look like a number is read as a symbol. -/
theorem finish_symbol {t : Tok} {rest : List Char} (h0 : t.buf ≠ []) (hm : t.moved = false) (hn : '\x00' ∉ t.buf)
    (hi : Inv t.auto t.buf) (hnum : ¬ Numeral t.buf) : t.finish false rest = .ok (.sym t.buf) rest t.buflen := by
  have hint : t.intern false rest = .ok (.sym t.buf) rest t.buflen := by
    unfold Tok.intern; rw [hm, cString_id hn]; simp
  obtain ⟨hp, hf, signs, u, hu, hs, h⟩ := hi
  unfold Tok.finish
  rw [if_neg (by simpa using h0)]
  by_cases hc : 0 < t.auto.radix ∧ t.auto.nfirst < t.buf.length
  swap
  · rw [if_neg hc]; exact hint
  rw [if_pos hc]
  dsimp only
  have num : Unsigned u → False := fun h => hnum ⟨signs, u, hu, hs, h⟩
  have drop : t.auto.nfirst = signs.length → t.buf.drop t.auto.nfirst = u := by
    intro h; rw [h, hu]; simp
  rcases h with ⟨hr, -⟩ | hr | ⟨hr, rfl, -⟩ | ⟨hr, he, hex, t', rfl, ht0, hth, hfst, hpr⟩ | ⟨hr, he, hex, ht0, hth, hfst, hpr⟩ |
    ⟨hr, he, ht0, hfst⟩ | ⟨hr, he, hex, x, sg, t', rfl, hx, hsg, hfst, hpr⟩
  · omega
  · omega
  · exact (num (Or.inl ⟨['0'], ⟨by simp, by intro x hx; simp at hx; subst hx; exact isDec_iff.mpr (by decide)⟩, Or.inl rfl⟩)).elim
  · refine (num (Or.inl ?_)).elim
    obtain ⟨n, ⟨h1, h2⟩, h3⟩ := ratio_of_pre hpr ht0 hth
    have hz : IsDec '0' := isDec_iff.mpr (by decide)
    refine ⟨'0' :: n, ⟨by simp, ?_⟩, ?_⟩
    · intro x hx
      rcases List.mem_cons.mp hx with rfl | hx
      · exact hz
      · exact h2 x hx
    · rcases h3 with rfl | ⟨m, hm, rfl⟩
      · exact Or.inl rfl
      · exact Or.inr ⟨m, hm, rfl⟩
  · exact (num (Or.inl (ratio_of_pre hpr ht0 hth))).elim
  · rw [if_neg (by omega), if_pos (by simp [he]), drop hfst, if_neg]
    · exact hint
    · intro h; exact num (Or.inr (Or.inr h))
  · have hd : t.buf.drop t.auto.nfirst = t' := by
      rw [hfst, hu, show signs ++ '0' :: x :: (sg ++ t') = (signs ++ ('0' :: x :: sg)) ++ t' by simp]
      rw [List.drop_append_of_le_length (by simp; omega), List.drop_of_length_le (by simp; omega)]; simp
    have hlen : t' ≠ [] := by
      rintro rfl
      rw [hu, hfst] at hc
      simp at hc; omega
    by_cases hsl : t'.head? = some '/'
    · obtain ⟨m, rfl⟩ : ∃ m, t' = '/' :: m := by
        cases t' with
        | nil => simp at hsl
        | cons a m => simp at hsl; subst hsl; exact ⟨m, rfl⟩
      have hrat : t.auto.rational = true := by
        by_contra hcon
        simp only [Bool.not_eq_true] at hcon
        unfold PreRatio at hpr
        simp only [hcon, Bool.false_eq_true, if_false] at hpr
        have := isHex_iff.mp (hpr '/' (by simp))
        revert this; decide
      rw [if_neg (by omega), if_neg (by simp [he]), hrat, if_pos rfl, hd]
      have : parseRat ('/' :: m) t.auto.radix.toNat t.auto.neg = .nil := by
        unfold parseRat
        split
        · rfl
        · rw [show List.takeWhile (· ≠ '/') ('/' :: m) = [] by simp, mpzSetStr_nil]
      rw [this]
      exact hint
    · refine (num (Or.inr (Or.inl ⟨x, sg, t', rfl, hx, hsg, ?_⟩))).elim
      exact ratio_of_pre hpr hlen hsl

theorem flatMap_plain {s : List Char} (h : ∀ c ∈ s, symEsc false c = false) : s.flatMap (symChar false) = s := by
  induction s with
  | nil => rfl
  | cons c s ih =>
    rw [List.flatMap_cons, ih fun x hx => h x (by simp [hx])]
    unfold symChar; rw [if_neg (by simp [h c (by simp)])]; rfl

theorem prinSym_eq (name : List Char) : prinSym false name = (if numberLike name then ['\\'] else []) ++ name.flatMap (symChar false) := by
  cases name <;> simp [prinSym]

theorem numberLike_head {c : Char} {s : List Char} (h : numberLike (c :: s) = true) : isdigit c = true ∨ c = '-' ∨ c = '+' ∨ c = '.' := by
  rw [numberLike] at h
  split at h
  · exact Or.inl (by assumption)
  · split at h
    · exact Or.inr (by assumption)
    · simp at h

theorem symEsc_number {c : Char} (h : isdigit c = true ∨ c = '-' ∨ c = '+' ∨ c = '.') : symEsc false c = false := by
  rcases h with h | rfl | rfl | rfl
  · unfold isdigit at h
    simp only [Bool.and_eq_true, decide_eq_true_eq] at h
    have ne : ∀ d : Char, (d.toNat < 48 ∨ 57 < d.toNat) → c ≠ d := by rintro d hd rfl; omega
    unfold symEsc
    rw [if_neg, if_neg (ne _ (by decide))]
    · unfold iscntrl; simp; omega
    · simp only [not_or]
      refine ⟨?_, ?_, ?_, ?_, ?_, ?_, ?_, ?_, ?_, ?_, ?_, ?_, ?_, ?_, ?_⟩ <;> exact ne _ (by decide)
  · decide
  · decide
  · decide

/-- A symbol is read back. -/
theorem readSymbol_sym {name rest : List Char} (h0 : name ≠ []) (hl : name.length < 240) (hn : '\x00' ∉ name)
    (hnum : '\\' ∈ prinSym false name ∨ ¬ Numeral name) (hd : Delimited rest) :
    readSymbol false (prinSym false name ++ rest) 240 = .ok (.sym name) rest 240 := by
  rw [prinSym_eq]
  by_cases hk : numberLike name = true
  · rw [if_pos hk]
    cases name with
    | nil => exact absurd rfl h0
    | cons c s =>
      have hc : symEsc false c = false := symEsc_number (numberLike_head hk)
      have e1 : symChar false c = [c] := by unfold symChar; rw [if_neg (by simp [hc])]
      simp only [List.length_cons] at hl
      have hloop : symLoop ('\\' :: c :: (s.flatMap (symChar false) ++ rest)) { buflen := 240 } =
          .done { buf := c :: s, buflen := 240, auto := autoName { radix := 0 } 1 s } rest := by
        rw [symLoop, if_neg (by decide), if_neg (by decide)]
        dsimp only
        rw [grow_id (by simp), if_neg (by simp [isTerm, isWhite]), if_pos rfl, symLoop, if_pos rfl, push_some _ (by simp), Option.elim_some]
        refine (symLoop_name rest s _ ?_ ?_ ?_).trans ?_
        · rfl
        · rfl
        · simp; omega
        · refine (symLoop_end hd ?_ ?_).trans ?_
          · rfl
          · simp; omega
          · simp
      unfold readSymbol
      rw [List.flatMap_cons, e1]
      simp only [List.cons_append, List.nil_append]
      rw [hloop]
      exact finish_zero false rest (by simp) (autoName_zero _ _ _ rfl) rfl hn
  · rw [if_neg hk, List.nil_append]
    have hloop : symLoop (name.flatMap (symChar false) ++ rest) { buflen := 240 } =
        .done { buf := name, buflen := 240, auto := autoName {} 0 name } rest := by
      refine (symLoop_name rest name _ ?_ ?_ ?_).trans ?_
      · rfl
      · rfl
      · simpa using hl
      · refine (symLoop_end hd ?_ ?_).trans ?_
        · rfl
        · simpa using hl
        · simp
    unfold readSymbol
    rw [hloop]
    by_cases he : ∃ c ∈ name, symEsc false c = true
    · exact finish_zero false rest h0 (autoName_esc _ _ _ he) rfl hn
    · have he' : ∀ c ∈ name, symEsc false c = false := fun c hc => by
        by_contra h
        exact he ⟨c, hc, by simpa using h⟩
      have hnum' : ¬ Numeral name := by
        rcases hnum with h | h
        · rw [prinSym_eq, if_neg hk, List.nil_append, flatMap_plain he'] at h
          exact absurd (he' _ h) (by decide)
        · exact h
      refine finish_symbol h0 rfl hn ?_ hnum'
      have := inv_name name {} [] he' ⟨rfl, rfl, [], [], rfl, by intro x hx; simp at hx, Or.inl ⟨rfl, rfl, rfl, rfl, rfl, rfl⟩⟩
      simpa using this

/-- A keyword is read back. -/
theorem readSymbol_kw {s rest : List Char} (hl : s.length < 238) (hn : '\x00' ∉ s) (hd : Delimited rest) :
    readSymbol true ('#' :: ':' :: (s.flatMap (symChar false) ++ rest)) 240 = .ok (.kw ('#' :: ':' :: s)) rest 240 := by
  have hloop : symLoop ('#' :: ':' :: (s.flatMap (symChar false) ++ rest)) { buflen := 240 } =
      .done { buf := '#' :: ':' :: s, buflen := 240, auto := autoName { radix := 0, nfirst := 2 } 2 s } rest := by
    rw [symLoop, if_neg (by decide), if_neg (by decide)]
    dsimp only
    rw [grow_id (by simp), if_neg (by simp [isTerm, isWhite]), if_neg (by decide), if_neg (by decide), push_some _ (by simp), Option.elim_some, if_neg (by decide)]
    rw [symLoop, if_neg (by simp), if_neg (by simp)]
    dsimp only
    rw [grow_id (by simp), if_neg (by simp [isTerm, isWhite]), if_neg (by decide), if_neg (by decide), push_some _ (by simp), Option.elim_some, if_neg (by decide)]
    refine (symLoop_name rest s _ ?_ ?_ ?_).trans ?_
    · rfl
    · rfl
    · simp; omega
    · refine (symLoop_end hd ?_ ?_).trans ?_
      · rfl
      · simp; omega
      · simp [Auto.step]
  unfold readSymbol
  rw [hloop]
  exact finish_zero true rest (by simp) (autoName_zero _ _ _ rfl) rfl (by simp [hn])

/-! ### Numbers -/

theorem natDigits_head (n : Nat) : (n = 0 ∧ natDigits 10 n = ['0']) ∨ (∃ c s, natDigits 10 n = c :: s ∧ c ≠ '0') := by
  induction n using Nat.strongRecOn with
  | ind n ih =>
    by_cases h : 2 ≤ 10 ∧ 10 ≤ n
    · right
      rw [natDigits, dif_pos h]
      rcases ih (n / 10) (by omega) with ⟨h0, _⟩ | ⟨c, s, h1, h2⟩
      · omega
      · rw [h1]; exact ⟨c, s ++ [digitChar (n % 10)], rfl, h2⟩
    · rw [natDigits, dif_neg h]
      have hn : n < 10 := by omega
      by_cases h0 : n = 0
      · left; subst h0; exact ⟨rfl, rfl⟩
      · right
        refine ⟨_, [], rfl, ?_⟩
        have : ∀ k, k < 10 → k ≠ 0 → digitChar k ≠ '0' := by decide
        exact this n hn h0

theorem isDigit_dec {c : Char} (h : IsDigit 10 c) : isdigit c = true := by
  obtain ⟨d, h1, h2⟩ := h
  unfold digitValue at h1
  split at h1
  · exact isDec_iff.mp (by assumption)
  · split at h1
    · cases h1; omega
    · split at h1
      · cases h1; omega
      · cases h1

theorem isdigit_ne {c : Char} (h : isdigit c = true) (d : Char) (hd : d.toNat < 48 ∨ 57 < d.toNat) : c ≠ d := by
  rintro rfl
  unfold isdigit at h; simp at h; omega

/-- The automaton is not changed by digits, in base ten. -/
theorem autoName_digits : ∀ (s : List Char) (a : Auto) (i : Nat), (∀ c ∈ s, isdigit c = true) → a.radix = 10 → a.prefixed = false → autoName a i s = a := by
  intro s
  induction s with
  | nil => intro a i _ _ _; rfl
  | cons c s ih =>
    intro a i h hr hp
    have hc := h c (by simp)
    have ne := isdigit_ne hc
    rw [autoName, if_neg (by simp [symEsc_number (Or.inl hc)]), if_neg (by omega)]
    have : a.step i c = a := by
      unfold Auto.step
      rw [if_neg (by simp [hp]), if_neg, if_neg (by omega), if_neg (by omega)]
      · unfold Auto.speculate
        rw [if_neg (ne _ (by decide)), if_neg (ne _ (by decide)), if_neg, if_neg]
        · unfold Auto.digit
          rw [if_neg, if_neg (by omega)]
          unfold isdigit at hc; simp at hc; omega
        · rintro ⟨h | h, _⟩ <;> exact ne _ (by decide) h
        · rintro (h | h) <;> exact ne _ (by decide) h
      · rintro ⟨_, h | h | h⟩ <;> exact ne _ (by decide) h
    rw [this]
    exact ih a (i + 1) (fun x hx => h x (by simp [hx])) hr hp

theorem autoName_append : ∀ (s t : List Char) (a : Auto) (i : Nat), autoName a i (s ++ t) = autoName (autoName a i s) (i + s.length) t := by
  intro s
  induction s with
  | nil => intro t a i; simp [autoName]
  | cons c s ih => intro t a i; rw [List.cons_append, autoName, ih, autoName]; congr 1; simp; omega

/-- The sign. -/
def signAuto (neg : Bool) : Auto := if neg then { neg := true, hadSign := true, nfirst := 1 } else {}

theorem autoName_sign (neg : Bool) (s : List Char) : autoName {} 0 (signed neg s) = autoName (signAuto neg) (if neg then 1 else 0) s := by
  cases neg <;> rfl

/-- The first digit. -/
theorem autoName_first (neg : Bool) {c : Char} {s : List Char} (h : ∀ x ∈ c :: s, isdigit x = true) (hc : c ≠ '0') :
    autoName {} 0 (signed neg (c :: s)) = { signAuto neg with radix := 10 } := by
  have hcd := h c (by simp)
  have ne := isdigit_ne hcd
  rw [autoName_sign, autoName, if_neg (by simp [symEsc_number (Or.inl hcd)])]
  have : (if (signAuto neg).radix = 0 then signAuto neg else (signAuto neg).step (if neg then 1 else 0) c) = { signAuto neg with radix := 10 } := by
    rw [if_neg (by cases neg <;> decide)]
    unfold Auto.step
    rw [if_neg (by cases neg <;> decide), if_neg, if_pos (by cases neg <;> rfl), if_neg (ne _ (by decide)), if_neg (by simp [hcd]), if_neg hc]
    rintro ⟨_, h | h | h⟩ <;> exact ne _ (by decide) h
  rw [this]
  exact autoName_digits s _ _ (fun x hx => h x (by simp [hx])) rfl (by cases neg <;> rfl)

/-- What is read when all the characters go through the automaton. -/
theorem readSymbol_plain {s rest : List Char} (hs : ∀ c ∈ s, symEsc false c = false) (hl : s.length < 240) (hd : Delimited rest) :
    readSymbol false (s ++ rest) 240 = Tok.finish { buf := s, buflen := 240, auto := autoName {} 0 s } false rest := by
  have hloop : symLoop (s ++ rest) { buflen := 240 } = .done { buf := s, buflen := 240, auto := autoName {} 0 s } rest := by
    conv => lhs; rw [← flatMap_plain hs]
    refine (symLoop_name rest s _ ?_ ?_ ?_).trans ?_
    · rfl
    · rfl
    · simpa using hl
    · refine (symLoop_end hd ?_ ?_).trans ?_
      · rfl
      · simpa using hl
      · simp
  unfold readSymbol
  rw [hloop]

theorem signed_mem {neg : Bool} {s : List Char} {c : Char} (h : c ∈ signed neg s) : c = '-' ∨ c ∈ s := by
  cases neg
  · exact Or.inr h
  · exact List.mem_cons.mp h

theorem drop_signed (neg : Bool) (s : List Char) : (signed neg s).drop (signAuto neg).nfirst = s := by cases neg <;> rfl

theorem readSymbol_int (z : Int) (hl : (intDigits 10 z).length < 240) {rest : List Char} (hd : Delimited rest) :
    readSymbol false (intDigits 10 z ++ rest) 240 = .ok (.num (ofInt z)) rest 240 := by
  obtain ⟨h1, h2, h3⟩ := natDigits_spec 10 (by omega) (by omega) z.natAbs
  rw [intDigits_signed] at hl ⊢
  have hdig : ∀ c ∈ natDigits 10 z.natAbs, isdigit c = true := fun c hc => isDigit_dec (h2 c hc)
  rw [readSymbol_plain ?_ hl hd]
  swap
  · intro c hc
    rcases signed_mem hc with rfl | hc
    · decide
    · exact symEsc_number (Or.inl (hdig c hc))
  rcases natDigits_head z.natAbs with ⟨h0, hz⟩ | ⟨c, s, hcs, hc⟩
  · have : z = 0 := by omega
    subst this
    rw [hz]
    simp [signed, autoName, symEsc_number, isdigit, Auto.step, Tok.finish, ofInt, minInt, maxInt]
  · rw [hcs] at hdig hl h1 h2 h3 ⊢
    rw [autoName_first _ hdig hc]
    have hlen : (c :: s).length < 240 := by
      refine Nat.lt_of_le_of_lt ?_ hl
      unfold signed; split <;> simp
    unfold Tok.finish
    rw [if_neg (by cases decide (z < 0) <;> simp [signed]), if_pos]
    · dsimp only
      rw [if_neg (by decide), if_neg (by cases decide (z < 0) <;> simp [signAuto]), if_neg (by cases decide (z < 0) <;> simp [signAuto]), drop_signed,
        show (10 : Int).toNat = 10 from rfl, parseInt_digits 10 (by omega) _ h1 h2 (by omega), h3]
      dsimp only
      rw [if_neg (by cases decide (z < 0) <;> simp [signAuto])]
      congr 3
      by_cases hz : z < 0
      · simp only [hz, signAuto, decide_true, if_true]; omega
      · simp only [hz, signAuto, decide_false, Bool.false_eq_true, if_false]; omega
    · refine ⟨by simp, ?_⟩
      cases decide (z < 0) <;> simp [signed, signAuto]

theorem readSymbol_rat (q : Rat) (hq : q.den ≠ 1) (hl : (numberToString (.rat q) 10).length < 240) {rest : List Char} (hd : Delimited rest) :
    readSymbol false (numberToString (.rat q) 10 ++ rest) 240 = .ok (.num (.rat q)) rest 240 := by
  obtain ⟨n1, n2, n3⟩ := natDigits_spec 10 (by omega) (by omega) q.num.natAbs
  obtain ⟨d1, d2, d3⟩ := natDigits_spec 10 (by omega) (by omega) q.den
  have hparse := C08_rational q hq 10 (by omega) (by omega) (by omega)
  have ed : intDigits 10 q.den = natDigits 10 q.den := by
    unfold intDigits; rw [if_neg (by omega)]; simp
  have e : numberToString (.rat q) 10 = signed (decide (q.num < 0)) (natDigits 10 q.num.natAbs) ++ '/' :: natDigits 10 q.den := by
    unfold numberToString; dsimp only; rw [ed, intDigits_signed]
  rw [e] at hl hparse ⊢
  have hN : ∀ c ∈ natDigits 10 q.num.natAbs, isdigit c = true := fun c hc => isDigit_dec (n2 c hc)
  have hD : ∀ c ∈ natDigits 10 q.den, isdigit c = true := fun c hc => isDigit_dec (d2 c hc)
  have hnum0 : q.num ≠ 0 := by
    intro h
    apply hq
    have : q = 0 := Rat.num_eq_zero.mp h
    rw [this]; rfl
  rw [readSymbol_plain ?_ hl hd]
  swap
  · intro c hc
    rcases List.mem_append.mp hc with hc | hc
    · rcases signed_mem hc with rfl | hc
      · decide
      · exact symEsc_number (Or.inl (hN c hc))
    · rcases List.mem_cons.mp hc with rfl | hc
      · decide
      · exact symEsc_number (Or.inl (hD c hc))
  unfold stringToNumber at hparse
  rw [prefixes_signed _ n1 n2] at hparse
  dsimp only at hparse
  unfold parse at hparse
  rw [sign_signed _ n1 n2] at hparse
  dsimp only at hparse
  generalize hneg : decide (q.num < 0) = neg at *
  rcases natDigits_head q.num.natAbs with ⟨h0, hz⟩ | ⟨c, s, hcs, hc⟩
  · omega
  · rw [hcs] at hN hl hparse ⊢
    generalize natDigits 10 q.den = D at *
    have hmem : '/' ∈ cString (c :: s ++ '/' :: D) := by
      unfold cString
      rw [takeWhile_all]
      · simp
      · intro x hx
        simp only [decide_eq_true_eq]
        rintro rfl
        rcases List.mem_append.mp hx with hx | hx
        · exact isdigit_ne (hN _ hx) _ (by decide) rfl
        · rcases List.mem_cons.mp hx with hx | hx
          · revert hx; decide
          · exact isdigit_ne (hD _ hx) _ (by decide) rfl
    rw [if_pos hmem] at hparse
    have hp : parseRat (c :: s ++ '/' :: D) 10 neg = .num (.rat q) := by
      revert hparse
      generalize parseRat (c :: s ++ '/' :: D) 10 neg = o
      cases o <;> simp
    have hauto : autoName {} 0 (signed neg (c :: s) ++ '/' :: D) = { signAuto neg with radix := 10, rational := true } := by
      rw [autoName_append, autoName_first _ hN hc, autoName, if_neg (by decide), if_neg (by simp)]
      have : Auto.step { signAuto neg with radix := 10 } (0 + (signed neg (c :: s)).length) '/' = { signAuto neg with radix := 10, rational := true } := by
        unfold Auto.step
        rw [if_neg (by cases neg <;> decide), if_neg (by simp), if_neg (by simp), if_neg (by simp)]
        unfold Auto.speculate
        rw [if_neg (by decide), if_pos rfl, if_pos (by cases neg <;> decide)]
      rw [this]
      exact autoName_digits D _ _ hD rfl (by cases neg <;> rfl)
    rw [hauto]
    unfold Tok.finish
    rw [if_neg (by simp), if_pos]
    · dsimp only
      have hdrop : (signed neg (c :: s) ++ '/' :: D).drop (signAuto neg).nfirst = c :: s ++ '/' :: D := by cases neg <;> rfl
      rw [if_neg (by decide), if_neg (by cases neg <;> simp [signAuto]), if_pos rfl, hdrop,
        show (10 : Int).toNat = 10 from rfl, show (signAuto neg).neg = neg by cases neg <;> rfl, hp]
      dsimp only
      rw [if_neg (by cases neg <;> simp [signAuto])]
    · refine ⟨by simp, ?_⟩
      cases neg <;> simp [signed, signAuto]

end Rep.Reader
