/-
Property C44: what is printed can be read back (the main theorem).
-/
import Verif.Reader.Props

namespace Rep.Reader

open Rep.Number Rep.NumText

/-- What `readl` does with a character that begins an identifier. -/
theorem readl_ident (n : Nat) (eof : Err) (c : Char) (s : List Char) (bl : Nat) (h : isTerm c = false) (hq : c ≠ '?') (hh : c ≠ '#') :
    readl (n + 1) eof (c :: s) bl = readIdent (c :: s) bl := by
  unfold isTerm at h
  simp only [Bool.or_eq_false_iff, decide_eq_false_iff_not] at h
  obtain ⟨⟨⟨⟨⟨⟨⟨⟨⟨h1, h2⟩, h3⟩, h4⟩, h5⟩, h6⟩, h7⟩, h8⟩, h9⟩, h10⟩ := h
  rw [readl]
  simp only [h1, h2, h4, h6, h7, h8, h9, h10, hq, hh, if_false, Bool.false_eq_true]

theorem readIdent_sym {s rest n : List Char} {bl bl' : Nat} (h : readSymbol false s bl = .ok (.sym n) rest bl') (hd : Delimited rest) :
    readIdent s bl = .ok (.sym n) rest bl' := by
  unfold readIdent
  rw [h]
  show (match (Obj.sym n), rest with
    | .sym n, '#' :: rest => _
    | _, _ => _) = _
  rcases hd with rfl | ⟨c, s, rfl, hc⟩
  · rfl
  · split
    · rename_i heq; injection heq with h1; subst h1; exact absurd hc (by decide)
    · rfl

theorem readIdent_num {s rest : List Char} {n : Num} {bl bl' : Nat} (h : readSymbol false s bl = .ok (.num n) rest bl') :
    readIdent s bl = .ok (.num n) rest bl' := by
  unfold readIdent
  rw [h]
  rfl

/-- What is known of the beginning of a printed object. -/
def Begins (s : List Char) : Prop :=
  ∃ c t, s = c :: t ∧ isWhite c = false ∧ c ≠ ';' ∧ c ≠ ')' ∧ c ≠ ']' ∧
    (c = '.' → ∃ d u, t = d :: u ∧ isWhite d = false) ∧ (c = '#' → ∃ d u, t = d :: u ∧ d ≠ '|')

theorem begins_of {c : Char} {t : List Char} (h : isTerm c = false) (h1 : c ≠ '.') (h2 : c ≠ '#') : Begins (c :: t) := by
  unfold isTerm at h
  simp only [Bool.or_eq_false_iff, decide_eq_false_iff_not] at h
  obtain ⟨⟨⟨⟨⟨⟨⟨⟨⟨e1, e2⟩, e3⟩, e4⟩, e5⟩, e6⟩, e7⟩, e8⟩, e9⟩, e10⟩ := h
  exact ⟨c, t, rfl, e1, e8, e3, e5, fun h => absurd h h1, fun h => absurd h h2⟩

theorem begins_number (n : Num) : Begins (numberToString n 10) := by
  have key : ∀ z : Int, ∀ t, Begins (intDigits 10 z ++ t) := by
    intro z t
    obtain ⟨h1, h2, -⟩ := natDigits_spec 10 (by omega) (by omega) z.natAbs
    rw [intDigits_signed]
    cases hneg : decide (z < 0) with
    | true => exact begins_of (by decide) (by decide) (by decide)
    | false =>
      show Begins (natDigits 10 z.natAbs ++ t)
      cases hd : natDigits 10 z.natAbs with
      | nil => exact absurd hd h1
      | cons c s =>
        have hc : isdigit c = true := isDigit_dec (h2 c (by rw [hd]; simp))
        exact begins_of (symEsc_not (symEsc_number (Or.inl hc))).1 (isdigit_ne hc _ (by decide)) (isdigit_ne hc _ (by decide))
  cases n with
  | fix w => have := key w []; simpa [numberToString] using this
  | big z => have := key z []; simpa [numberToString] using this
  | rat q => exact key q.num _

theorem begins_sym {name : List Char} (h0 : name ≠ []) (hdot : name ≠ ['.']) : Begins (prinSym false name) := by
  rw [prinSym_eq]
  by_cases hk : numberLike name = true
  · rw [if_pos hk]; exact begins_of (by decide) (by decide) (by decide)
  · rw [if_neg hk, List.nil_append]
    cases name with
    | nil => exact absurd rfl h0
    | cons c s =>
      rw [List.flatMap_cons]
      by_cases hc : symEsc false c = true
      · unfold symChar; rw [if_pos hc]; exact begins_of (by decide) (by decide) (by decide)
      · simp only [Bool.not_eq_true] at hc
        have hcc := symEsc_not hc
        have e1 : symChar false c = [c] := by unfold symChar; rw [if_neg (by simp [hc])]
        rw [e1]
        by_cases hp : c = '.'
        · subst hp
          refine ⟨'.', _, rfl, by decide, by decide, by decide, by decide, fun _ => ?_, fun h => absurd h (by decide)⟩
          cases s with
          | nil => exact absurd rfl hdot
          | cons d s =>
            by_cases hd : symEsc false d = true
            · refine ⟨'\\', d :: s.flatMap (symChar false), ?_, by decide⟩
              rw [List.flatMap_cons]; unfold symChar; simp [hd]
            · simp only [Bool.not_eq_true] at hd
              refine ⟨d, s.flatMap (symChar false), ?_, ?_⟩
              · rw [List.flatMap_cons]; unfold symChar; simp [hd]
              · have := (symEsc_not hd).1
                unfold isTerm at this
                simp only [Bool.or_eq_false_iff] at this
                exact this.1.1.1.1.1.1.1.1.1
        · exact begins_of hcc.1 hp hcc.2.1

theorem prinLit_eq (l : Lit) : ∃ d u, prinLit l = '#' :: d :: u ∧ d ≠ '|' := by
  cases l with
  | t => exact ⟨'t', [], rfl, by decide⟩
  | f => exact ⟨'f', [], rfl, by decide⟩
  | undefined => exact ⟨'u', "ndefined".toList, rfl, by decide⟩
  | optional => exact ⟨'!', "optional".toList, rfl, by decide⟩
  | rest => exact ⟨'!', "rest".toList, rfl, by decide⟩
  | key => exact ⟨'!', "key".toList, rfl, by decide⟩

theorem begins_prin {e : Escape} {o : Obj} (h : Readable e o) : Begins (prin e o) := by
  cases h with
  | num n _ _ => rw [prin]; exact begins_number n
  | str s _ => exact ⟨'"', _, by rw [prin, prinStr]; rfl, by decide, by decide, by decide, by decide, fun h => absurd h (by decide), fun h => absurd h (by decide)⟩
  | sym name h0 _ _ hdot _ _ => rw [prin]; exact begins_sym h0 hdot
  | kw s _ _ =>
    refine ⟨'#', ':' :: s.flatMap (symChar false), ?_, by decide, by decide, by decide, by decide, fun h => absurd h (by decide), fun _ => ⟨':', _, rfl, by decide⟩⟩
    rw [prin, prinSym]
    rfl
  | lit l =>
    obtain ⟨d, u, h, hd⟩ := prinLit_eq l
    rw [prin]
    exact ⟨'#', _, h, by decide, by decide, by decide, by decide, fun h => absurd h (by decide), fun _ => ⟨d, u, rfl, hd⟩⟩
  | nil => exact ⟨'(', [')'], by rw [prin], by decide, by decide, by decide, by decide, fun h => absurd h (by decide), fun h => absurd h (by decide)⟩
  | cons a d _ _ => exact ⟨'(', _, by rw [prin]; rfl, by decide, by decide, by decide, by decide, fun h => absurd h (by decide), fun h => absurd h (by decide)⟩
  | vec l _ => exact ⟨'[', _, by rw [prin], by decide, by decide, by decide, by decide, fun h => absurd h (by decide), fun h => absurd h (by decide)⟩
  | code s v w l _ =>
    exact ⟨'#', _, by rw [prin], by decide, by decide, by decide, by decide, fun h => absurd h (by decide), fun _ => ⟨'[', _, rfl, by decide⟩⟩

/-- An element of a list. -/
theorem readList_elem (n : Nat) {s : List Char} (rest : List Char) (hs : Begins s) (bl : Nat) (acc : List Obj) (tail : Obj) :
    readList (n + 1) (s ++ rest) bl acc tail = (readl n .premature (s ++ rest) bl).bind fun v s bl => readList n s bl (v :: acc) .nil := by
  obtain ⟨c, t, rfl, h1, h2, h3, h4, h5, h6⟩ := hs
  rw [List.cons_append, readList]
  rw [if_neg (by simp [h1]), if_neg h2, if_neg (by simp [h3, h4]), if_neg, if_neg, if_neg, if_neg]
  · rintro ⟨rfl, h⟩
    obtain ⟨d, u, rfl, hd⟩ := h6 rfl
    simp at h; exact hd h
  · rintro ⟨rfl, h⟩
    obtain ⟨d, u, rfl, hd⟩ := h6 rfl
    simp at h
  · rintro ⟨rfl, h⟩
    obtain ⟨d, u, rfl, hd⟩ := h5 rfl
    simp [hd] at h
  · rintro ⟨rfl, h⟩
    obtain ⟨d, u, rfl, hd⟩ := h5 rfl
    simp at h

/-- The text of an object is read as that object. -/
def Reads (e : Escape) (o : Obj) : Prop := ∀ n eof rest, Delimited rest → 2 * (prin e o ++ rest).length + 1 ≤ n →
  readl n eof (prin e o ++ rest) 240 = .ok o rest 240

/-- The text of the rest of a list is read as that rest. -/
def ReadsCdr (e : Escape) (o : Obj) : Prop := ∀ n acc rest, acc ≠ [] → 2 * (prinCdr e o ++ rest).length + 2 ≤ n →
  readList n (prinCdr e o ++ rest) 240 acc .nil = .ok (build acc o) rest 240

theorem delim_paren (rest : List Char) : Delimited (')' :: rest) := Or.inr ⟨')', rest, rfl, by decide⟩
theorem delim_bracket (rest : List Char) : Delimited (']' :: rest) := Or.inr ⟨']', rest, rfl, by decide⟩
theorem delim_space (rest : List Char) : Delimited (' ' :: rest) := Or.inr ⟨' ', rest, rfl, by decide⟩

theorem readsCdr_atom {e : Escape} {o : Obj} (h : Reads e o) (hc : prinCdr e o = ' ' :: '.' :: ' ' :: (prin e o ++ [')'])) : ReadsCdr e o := by
  intro n acc rest hacc hn
  rw [hc] at hn ⊢
  simp only [List.length_append, List.length_cons, List.length_nil] at hn
  obtain ⟨n, rfl⟩ : ∃ m, n = m + 3 := ⟨n - 3, by omega⟩
  simp only [List.cons_append, List.append_assoc, List.nil_append]
  rw [readList, if_pos (by decide), readList, if_neg (by decide), if_neg (by decide), if_neg (by decide), if_neg (by simp), if_pos (by simp; decide), if_neg hacc]
  rw [readl, if_pos (by decide), h n .premature (')' :: rest) (delim_paren rest) (by simp; omega)]
  show readList (n + 1) (')' :: rest) 240 acc o = _
  rw [readList, if_neg (by decide), if_neg (by decide), if_pos (by simp)]

theorem build_cons (a : Obj) (acc : List Obj) (d : Obj) : build (a :: acc) d = build acc (.cons a d) := rfl

theorem reads_cons {e : Escape} {a d : Obj} (ha : Readable e a) (hra : Reads e a) (hd : ReadsCdr e d) : Reads e (.cons a d) ∧ ReadsCdr e (.cons a d) := by
  have delim : ∀ rest, Delimited (prinCdr e d ++ rest) := by
    intro rest
    cases d <;> simp only [prinCdr] <;> first | exact delim_paren _ | exact delim_space _
  have core : ∀ n acc rest, 2 * (prin e a ++ (prinCdr e d ++ rest)).length + 2 ≤ n →
      readList n (prin e a ++ (prinCdr e d ++ rest)) 240 acc .nil = .ok (build acc (.cons a d)) rest 240 := by
    intro n acc rest hn
    obtain ⟨n, rfl⟩ : ∃ m, n = m + 1 := ⟨n - 1, by omega⟩
    rw [readList_elem n _ (begins_prin ha), hra n _ _ (delim rest) (by omega)]
    show readList n (prinCdr e d ++ rest) 240 (a :: acc) .nil = _
    rw [hd n (a :: acc) rest (by simp) (by simp only [List.length_append] at hn ⊢; obtain ⟨c, t, ht, _⟩ := begins_prin ha; rw [ht] at hn; simp at hn; omega), build_cons]
  constructor
  · intro n eof rest _ hn
    rw [prin] at hn ⊢
    obtain ⟨n, rfl⟩ : ∃ m, n = m + 1 := ⟨n - 1, by omega⟩
    simp only [List.cons_append, List.append_assoc, List.length_cons] at hn ⊢
    rw [readl, if_neg (by decide), if_neg (by decide), if_pos rfl]
    exact core n [] rest (by omega)
  · intro n acc rest _ hn
    rw [prinCdr] at hn ⊢
    obtain ⟨n, rfl⟩ : ∃ m, n = m + 1 := ⟨n - 1, by omega⟩
    simp only [List.cons_append, List.append_assoc, List.length_cons] at hn ⊢
    rw [readList, if_pos (by decide)]
    exact core n acc rest (by omega)

/-- The elements of a vector. -/
theorem reads_elems {e : Escape} : ∀ (l : List Obj), (∀ x ∈ l, Readable e x) → (∀ x ∈ l, Reads e x) → ∀ n acc rest,
    2 * (prinElems e l ++ rest).length + 2 ≤ n → readList n (prinElems e l ++ rest) 240 acc .nil = .ok (build (l.reverse ++ acc) .nil) rest 240 := by
  intro l
  induction l with
  | nil =>
    intro _ _ n acc rest hn
    obtain ⟨n, rfl⟩ : ∃ m, n = m + 1 := ⟨n - 1, by omega⟩
    rw [prinElems, List.cons_append, List.nil_append, readList, if_neg (by decide), if_neg (by decide), if_pos (by simp)]
    rfl
  | cons x l ih =>
    intro hr hx n acc rest hn
    obtain ⟨n, rfl⟩ : ∃ m, n = m + 1 := ⟨n - 1, by omega⟩
    have hb := begins_prin (hr x (by simp))
    have hpos : 1 ≤ (prin e x).length := by obtain ⟨c, t, ht, _⟩ := hb; rw [ht]; simp
    cases l with
    | nil =>
      rw [prinElems, List.append_assoc] at hn ⊢
      simp only [List.length_append, List.length_cons, List.length_nil] at hn
      rw [List.cons_append, List.nil_append, readList_elem n _ hb, hx x (by simp) n _ _ (delim_bracket rest) (by simp; omega)]
      show readList n (']' :: rest) 240 (x :: acc) .nil = _
      obtain ⟨n, rfl⟩ : ∃ m, n = m + 1 := ⟨n - 1, by omega⟩
      rw [readList, if_neg (by decide), if_neg (by decide), if_pos (by simp)]
      rfl
    | cons y l =>
      rw [prinElems, List.append_assoc, List.cons_append] at hn ⊢
      simp only [List.length_append, List.length_cons] at hn
      rw [readList_elem n _ hb, hx x (by simp) n _ _ (delim_space _) (by simp; omega)]
      show readList n (' ' :: (prinElems e (y :: l) ++ rest)) 240 (x :: acc) .nil = _
      obtain ⟨n, rfl⟩ : ∃ m, n = m + 1 := ⟨n - 1, by omega⟩
      rw [readList, if_pos (by decide), ih (fun z hz => hr z (by simp [hz])) (fun z hz => hx z (by simp [hz])) n (x :: acc) rest (by simp; omega)]
      simp

theorem toElems_build (l : List Obj) : toElems (build (l.reverse ++ []) .nil) = l := by
  have : ∀ (l : List Obj) (t : Obj), toElems (build l.reverse t) = l ++ toElems t := by
    intro l
    induction l with
    | nil => intro t; rfl
    | cons a l ih =>
      intro t
      have : build (a :: l).reverse t = .cons a (build l.reverse t) := by
        unfold build
        rw [List.reverse_cons, List.foldl_append]
        rfl
      rw [this, toElems, ih]; rfl
  rw [List.append_nil, this]; simp [toElems]

theorem reads_num {e : Escape} {n : Num} (hc : Canonical n) (hl : (prin e (.num n)).length < 240) : Reads e (.num n) := by
  intro m eof rest hd hm
  obtain ⟨m, rfl⟩ : ∃ k, m = k + 1 := ⟨m - 1, by omega⟩
  rw [prin] at hl hm ⊢
  obtain ⟨c, t, ht, h1, h2, h3, h4, h5, h6⟩ := begins_number n
  have hsym : readSymbol false (numberToString n 10 ++ rest) 240 = .ok (.num n) rest 240 := by
    cases n with
    | fix w =>
      have e1 : numberToString (.fix w) 10 = intDigits 10 w := rfl
      rw [e1] at hl ⊢
      rw [readSymbol_int w hl hd]
      exact congrArg (fun n => Res.ok (Obj.num n) rest 240) (ofInt_canonical (n := .fix w) hc ⟨w, by simp [value]⟩).symm
    | big z =>
      have e1 : numberToString (.big z) 10 = intDigits 10 z := rfl
      rw [e1] at hl ⊢
      rw [readSymbol_int z hl hd]
      exact congrArg (fun n => Res.ok (Obj.num n) rest 240) (ofInt_canonical (n := .big z) hc ⟨z, by simp [value]⟩).symm
    | rat q => exact readSymbol_rat q hc hl hd
  have hc2 : isTerm c = false ∧ c ≠ '?' ∧ c ≠ '#' := by
    have : isdigit c = true ∨ c = '-' := by
      have key : ∀ z : Int, ∀ u, intDigits 10 z ++ u = c :: t → isdigit c = true ∨ c = '-' := by
        intro z u hu
        obtain ⟨g1, g2, -⟩ := natDigits_spec 10 (by omega) (by omega) z.natAbs
        rw [intDigits_signed] at hu
        cases hneg : decide (z < 0) with
        | true => rw [hneg] at hu; injection hu with hu _; exact Or.inr hu.symm
        | false =>
          rw [hneg] at hu
          replace hu : natDigits 10 z.natAbs ++ u = c :: t := hu
          cases hd' : natDigits 10 z.natAbs with
          | nil => exact absurd hd' g1
          | cons d s =>
            rw [hd'] at hu; injection hu with hu _
            subst hu
            exact Or.inl (isDigit_dec (g2 d (by rw [hd']; simp)))
      cases n with
      | fix w => exact key w [] (by rw [List.append_nil]; exact ht)
      | big z => exact key z [] (by rw [List.append_nil]; exact ht)
      | rat q => exact key q.num _ ht
    rcases this with h | rfl
    · exact ⟨(symEsc_not (symEsc_number (Or.inl h))).1, isdigit_ne h _ (by decide), isdigit_ne h _ (by decide)⟩
    · decide
  rw [ht, List.cons_append] at hsym ⊢
  rw [readl_ident m eof c _ 240 hc2.1 hc2.2.1 hc2.2.2]
  exact readIdent_num hsym

theorem reads_sym {e : Escape} {name : List Char} (h0 : name ≠ []) (hl : name.length < 240) (hn : '\x00' ∉ name) (hq : name.head? ≠ some '?')
    (hnum : '\\' ∈ prin e (.sym name) ∨ ¬ Numeral name) : Reads e (.sym name) := by
  intro m eof rest hd hm
  obtain ⟨m, rfl⟩ : ∃ k, m = k + 1 := ⟨m - 1, by omega⟩
  rw [prin] at hnum hm ⊢
  have hsym := readSymbol_sym h0 hl hn hnum hd
  have hhead : ∃ c t, prinSym false name = c :: t ∧ isTerm c = false ∧ c ≠ '?' ∧ c ≠ '#' := by
    rw [prinSym_eq]
    by_cases hk : numberLike name = true
    · rw [if_pos hk]; exact ⟨'\\', _, rfl, by decide, by decide, by decide⟩
    · rw [if_neg hk, List.nil_append]
      cases name with
      | nil => exact absurd rfl h0
      | cons c s =>
        rw [List.flatMap_cons]
        by_cases hc : symEsc false c = true
        · unfold symChar; rw [if_pos hc]; exact ⟨'\\', _, rfl, by decide, by decide, by decide⟩
        · simp only [Bool.not_eq_true] at hc
          have e1 : symChar false c = [c] := by unfold symChar; rw [if_neg (by simp [hc])]
          rw [e1]
          exact ⟨c, _, rfl, (symEsc_not hc).1, by simpa using hq, (symEsc_not hc).2.1⟩
  obtain ⟨c, t, ht, h1, h2, h3⟩ := hhead
  rw [ht, List.cons_append] at hsym ⊢
  rw [readl_ident m eof c _ 240 h1 h2 h3]
  exact readIdent_sym hsym hd

theorem skipChars_prefix (ret : Obj) (bl : Nat) {rest : List Char} (hd : Delimited rest) : ∀ p, skipChars ret bl p (p ++ rest) = .ok ret rest bl := by
  intro p
  induction p with
  | nil =>
    rcases hd with rfl | ⟨c, s, rfl, hc⟩
    · rfl
    · rw [List.nil_append, skipChars, if_pos hc]
  | cons c p ih => rw [List.cons_append, skipChars, if_pos rfl]; exact ih

theorem reads_lit (e : Escape) (l : Lit) : Reads e (.lit l) := by
  intro n eof rest hd hn
  rw [prin] at hn ⊢
  have hl : 2 ≤ (prinLit l).length := by obtain ⟨d, u, h, -⟩ := prinLit_eq l; rw [h]; simp
  rw [List.length_append] at hn
  obtain ⟨n, rfl⟩ : ∃ k, n = k + 2 := ⟨n - 2, by omega⟩
  have hash : ∀ s, readl (n + 2) eof ('#' :: s) 240 = readHash (n + 1) eof s 240 := by
    intro s
    rw [readl]
    simp [isWhite]
  cases l with
  | t => exact (hash ('t' :: rest)).trans (by rw [readHash]; simp)
  | f => exact (hash ('f' :: rest)).trans (by rw [readHash]; simp)
  | undefined =>
    refine (hash ('u' :: ("ndefined".toList ++ rest))).trans ?_
    rw [readHash]
    simp only [show ('u' : Char) ≠ '\'' from by decide, show ('u' : Char) ≠ '[' from by decide, show ('u' : Char) ≠ '(' from by decide,
      show ('u' : Char) ≠ '|' from by decide, show ('u' : Char) ≠ '\\' from by decide, show ('u' : Char) ≠ '!' from by decide, show ('u' : Char) ≠ ':' from by decide,
      show ('u' : Char) ≠ 't' from by decide, show ('u' : Char) ≠ 'T' from by decide, show ('u' : Char) ≠ 'f' from by decide, show ('u' : Char) ≠ 'F' from by decide,
      show ¬ ('u' : Char) ∈ "bBoOdDxXeEiI".toList from by decide, or_self, if_false, if_true]
    exact skipChars_prefix _ _ hd _
  | optional =>
    refine (hash ('!' :: 'o' :: ("ptional".toList ++ rest))).trans ?_
    rw [readHash]
    exact skipChars_prefix (.lit .optional) 240 hd _
  | rest =>
    refine (hash ('!' :: 'r' :: ("est".toList ++ rest))).trans ?_
    rw [readHash]
    exact skipChars_prefix (.lit .rest) 240 hd _
  | key =>
    refine (hash ('!' :: 'k' :: ("ey".toList ++ rest))).trans ?_
    rw [readHash]
    exact skipChars_prefix (.lit .key) 240 hd _

/-- Everything readable is read back. -/
theorem reads_all {e : Escape} {o : Obj} (h : Readable e o) : Reads e o ∧ ReadsCdr e o := by
  induction h with
  | num n hc hl => have := reads_num hc hl; exact ⟨this, readsCdr_atom this (by rw [prinCdr, prin]; simp)⟩
  | str s hs =>
    have : Reads e (.str s) := by
      intro n eof rest hd hn
      rw [prin, prinStr] at hn ⊢
      obtain ⟨n, rfl⟩ : ∃ k, n = k + 1 := ⟨n - 1, by omega⟩
      simp only [List.cons_append, List.append_assoc, List.nil_append]
      rw [readl]
      simp only [isWhite, show ('"' : Char) ≠ ' ' from by decide, show ('"' : Char) ≠ '\t' from by decide, show ('"' : Char) ≠ '\n' from by decide,
        show ('"' : Char) ≠ '\x0c' from by decide, show ('"' : Char) ≠ '\r' from by decide, decide_false, Bool.or_self, Bool.false_eq_true, if_false,
        show ('"' : Char) ≠ ';' from by decide, show ('"' : Char) ≠ '(' from by decide, show ('"' : Char) ≠ '\'' from by decide, show ('"' : Char) ≠ '`' from by decide,
        show ('"' : Char) ≠ ',' from by decide, show ('"' : Char) ≠ '[' from by decide, if_true]
      rw [readStr_prin e rest 240 s [] _ hs (by have := flatMap_length e s; simp only [List.length_append, List.length_cons]; omega)]
      rfl
    exact ⟨this, readsCdr_atom this (by rw [prinCdr, prin]; simp)⟩
  | sym name h0 hl hn hdot hq hnum =>
    have := reads_sym h0 hl hn hq hnum
    exact ⟨this, readsCdr_atom this (by rw [prinCdr, prin]; simp)⟩
  | kw s hl hn =>
    have : Reads e (.kw ('#' :: ':' :: s)) := by
      intro n eof rest hd hm
      have e1 : prin e (.kw ('#' :: ':' :: s)) = '#' :: ':' :: s.flatMap (symChar false) := by rw [prin, prinSym]; rfl
      rw [e1] at hm ⊢
      simp only [List.cons_append, List.length_cons] at hm ⊢
      obtain ⟨n, rfl⟩ : ∃ k, n = k + 2 := ⟨n - 2, by omega⟩
      rw [readl]
      simp only [isWhite, show ('#' : Char) ≠ ' ' from by decide, show ('#' : Char) ≠ '\t' from by decide, show ('#' : Char) ≠ '\n' from by decide,
        show ('#' : Char) ≠ '\x0c' from by decide, show ('#' : Char) ≠ '\r' from by decide, decide_false, Bool.or_self, Bool.false_eq_true, if_false,
        show ('#' : Char) ≠ ';' from by decide, show ('#' : Char) ≠ '(' from by decide, show ('#' : Char) ≠ '\'' from by decide, show ('#' : Char) ≠ '`' from by decide,
        show ('#' : Char) ≠ ',' from by decide, show ('#' : Char) ≠ '[' from by decide, show ('#' : Char) ≠ '"' from by decide, show ('#' : Char) ≠ '?' from by decide, if_true]
      rw [readHash]
      simp only [show (':' : Char) ≠ '\'' from by decide, show (':' : Char) ≠ '[' from by decide, show (':' : Char) ≠ '(' from by decide, show (':' : Char) ≠ '|' from by decide,
        show (':' : Char) ≠ '\\' from by decide, show (':' : Char) ≠ '!' from by decide, if_false, if_true]
      exact readSymbol_kw hl hn hd
    exact ⟨this, readsCdr_atom this (by rw [prinCdr, prin]; simp)⟩
  | lit l => have := reads_lit e l; exact ⟨this, readsCdr_atom this (by rw [prinCdr, prin]; simp)⟩
  | nil =>
    constructor
    · intro n eof rest hd hn
      rw [prin] at hn ⊢
      simp only [List.cons_append, List.nil_append, List.length_cons] at hn ⊢
      obtain ⟨n, rfl⟩ : ∃ k, n = k + 2 := ⟨n - 2, by omega⟩
      rw [readl, if_neg (by decide), if_neg (by decide), if_pos rfl, readList, if_neg (by decide), if_neg (by decide), if_pos (by simp)]
      rfl
    · intro n acc rest hacc hn
      rw [prinCdr] at hn ⊢
      obtain ⟨n, rfl⟩ : ∃ k, n = k + 1 := ⟨n - 1, by omega⟩
      rw [List.cons_append, List.nil_append, readList, if_neg (by decide), if_neg (by decide), if_pos (by simp)]
  | cons a d ha _ iha ihd => exact reads_cons ha iha.1 ihd.2
  | vec l hl ih =>
    have : Reads e (.vec l) := by
      intro n eof rest hd hn
      rw [prin] at hn ⊢
      simp only [List.cons_append, List.length_cons] at hn ⊢
      obtain ⟨n, rfl⟩ : ∃ k, n = k + 1 := ⟨n - 1, by omega⟩
      rw [readl]
      simp only [isWhite, show ('[' : Char) ≠ ' ' from by decide, show ('[' : Char) ≠ '\t' from by decide, show ('[' : Char) ≠ '\n' from by decide,
        show ('[' : Char) ≠ '\x0c' from by decide, show ('[' : Char) ≠ '\r' from by decide, decide_false, Bool.or_self, Bool.false_eq_true, if_false,
        show ('[' : Char) ≠ ';' from by decide, show ('[' : Char) ≠ '(' from by decide, show ('[' : Char) ≠ '\'' from by decide, show ('[' : Char) ≠ '`' from by decide,
        show ('[' : Char) ≠ ',' from by decide, if_true]
      rw [reads_elems l hl (fun x hx => (ih x hx).1) n [] rest (by omega)]
      show Res.ok (Obj.vec (toElems _)) rest 240 = _
      rw [toElems_build]
    exact ⟨this, readsCdr_atom this (by rw [prinCdr, prin]; simp)⟩
  | code s v w l hl ih =>
    have : Reads e (.code (.str s :: .vec v :: .num (.fix w) :: l)) := by
      intro n eof rest hd hn
      rw [prin] at hn ⊢
      simp only [List.cons_append, List.length_cons] at hn ⊢
      obtain ⟨n, rfl⟩ : ∃ k, n = k + 2 := ⟨n - 2, by omega⟩
      rw [readl]
      simp only [isWhite, show ('#' : Char) ≠ ' ' from by decide, show ('#' : Char) ≠ '\t' from by decide, show ('#' : Char) ≠ '\n' from by decide,
        show ('#' : Char) ≠ '\x0c' from by decide, show ('#' : Char) ≠ '\r' from by decide, decide_false, Bool.or_self, Bool.false_eq_true, if_false,
        show ('#' : Char) ≠ ';' from by decide, show ('#' : Char) ≠ '(' from by decide, show ('#' : Char) ≠ '\'' from by decide, show ('#' : Char) ≠ '`' from by decide,
        show ('#' : Char) ≠ ',' from by decide, show ('#' : Char) ≠ '[' from by decide, show ('#' : Char) ≠ '"' from by decide, show ('#' : Char) ≠ '?' from by decide, if_true]
      rw [readHash]
      simp only [show ('[' : Char) ≠ '\'' from by decide, if_false, if_true]
      rw [reads_elems _ hl (fun x hx => (ih x hx).1) n [] rest (by omega)]
      show (if isCode (toElems _) = true then _ else _) = _
      rw [toElems_build]
      rfl
    exact ⟨this, readsCdr_atom this (by rw [prinCdr, prin]; simp)⟩

/-- **C44** (partial): an object built of numbers, strings, symbols, keywords, pairs, vectors
and byte code is read back from its printed text, whatever `print-escape` is and whatever
follows the text (if it is not glued to it). -/
theorem C44_partial (e : Escape) (o : Obj) (h : Readable e o) (rest : List Char) (hd : Delimited rest) :
    read (prin e o ++ rest) 240 = .ok o rest 240 :=
  (reads_all h).1 _ _ _ hd (Nat.le_refl _)

end Rep.Reader
