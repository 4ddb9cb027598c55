/-
Reading the beginning of a printed list: it is found to be unfinished, if nothing in the list is printed with a `#`.
-/
import Verif.Reader.RoundTrip
import Verif.Reader.Defined

namespace Rep.Reader

open Rep.Number Rep.NumText

/-- An object in whose text no `#` stands outside of strings and escapes: it contains no literal (like `#t`), keyword or byte code. -/
inductive Plain : Obj → Prop where
  | num (n : Num) : Plain (.num n)
  | str (s : List Char) : Plain (.str s)
  | sym (s : List Char) : Plain (.sym s)
  | nil : Plain .nil
  | cons (a d : Obj) : Plain a → Plain d → Plain (.cons a d)
  | vec (l : List Obj) : (∀ x ∈ l, Plain x) → Plain (.vec l)

theorem prefix_append_cases {α : Type} {p a b : List α} (h : p <+: a ++ b) : p <+: a ∨ ∃ q, p = a ++ q ∧ q <+: b := by
  obtain ⟨t, ht⟩ := h
  rcases List.append_eq_append_iff.mp ht with ⟨u, h1, h2⟩ | ⟨u, h1, h2⟩
  · exact Or.inl ⟨u, h1.symm⟩
  · exact Or.inr ⟨u, h1, ⟨t, h2.symm⟩⟩

/-! ### Tokens -/

/-- What reading an unfinished text leads to: the error, or an object at the end of the text. -/
def Stops {α : Type} (r : Res α) : Prop := r = .err .premature ∨ ∃ v, r = .ok v [] 240

theorem finish_stops {t : Tok} (h0 : t.buf ≠ []) (h : Fits t 0) (hf : t.auto.force = 0) : ∃ v, t.finish false [] = .ok v [] 240 := by
  have hin : ∃ v, t.intern false [] = .ok v [] 240 := by
    unfold Tok.intern
    rw [h.2.2.1, h.2.1]
    exact ⟨_, rfl⟩
  obtain ⟨h1, h2, h3, h4⟩ := h
  unfold Tok.finish
  rw [h2, hf]
  have hlen : (t.buf.drop t.auto.nfirst).length < 240 := by rw [List.length_drop]; omega
  rw [if_neg (by simpa using h0)]
  split
  · rename_i hr
    dsimp only
    split
    · exact ⟨_, rfl⟩
    · rename_i hr1
      split
      · split
        · exact ⟨_, rfl⟩
        · exact hin
      · have hb : t.auto.radix.toNat = 2 ∨ t.auto.radix.toNat = 8 ∨ t.auto.radix.toNat = 10 ∨ t.auto.radix.toNat = 16 := by
          rcases h4 with h | h | h | h | h | h | h <;> omega
        have hp := parseInt_defined hlen hb t.auto.neg
        have hq := parseRat_defined (t.buf.drop t.auto.nfirst) t.auto.radix.toNat t.auto.neg
        have hp' : parseInt (t.buf.drop t.auto.nfirst) t.auto.radix.toNat t.auto.neg ≠ .float := by
          unfold parseInt; dsimp only; repeat' split
          all_goals simp
        have hq' : parseRat (t.buf.drop t.auto.nfirst) t.auto.radix.toNat t.auto.neg ≠ .float := by
          unfold parseRat; repeat' split
          all_goals simp
        split
        · exact ⟨_, rfl⟩
        · exact hin
        · rename_i heq; split at heq
          · exact absurd heq hq'
          · exact absurd heq hp'
        · rename_i heq; split at heq
          · exact absurd heq hq.2
          · exact absurd heq hp.2
        · rename_i heq; split at heq
          · exact absurd heq hq.1
          · exact absurd heq hp.1
  · exact hin

theorem Inv.base {a : Auto} {s : List Char} (h : Inv a s) : Base a.radix := by
  obtain ⟨_, _, _, _, _, _, h⟩ := h
  unfold Base
  rcases h with h | h | h | h | h | h | h
  · exact Or.inl h.1
  · exact Or.inr (Or.inl h)
  · simp [h.1]
  · simp [h.1]
  · simp [h.1]
  · simp [h.1]
  · simp [h.1]

theorem inv_start : Inv {} [] := ⟨rfl, rfl, [], [], rfl, by intro x hx; simp at hx, Or.inl ⟨rfl, rfl, rfl, rfl, rfl, rfl⟩⟩

/-- The state after the characters `s` of a name. -/
theorem finish_name {s : List Char} {a : Auto} (ha : a.radix = 0 ∨ (a = autoName {} 0 s ∧ ∀ c ∈ s, symEsc false c = false)) (h0 : s ≠ []) (hl : s.length < 240) :
    ∃ v, Tok.finish { buf := s, buflen := 240, auto := a } false [] = .ok v [] 240 := by
  rcases ha with ha | ⟨rfl, hs⟩
  · unfold Tok.finish
    rw [if_neg (by simpa using h0), if_neg (by simp [ha])]
    exact ⟨_, rfl⟩
  · have hi : Inv (autoName {} 0 s) s := by simpa using inv_name s {} [] hs inv_start
    exact finish_stops h0 ⟨by simpa using hl, rfl, rfl, hi.base⟩ hi.2.1

theorem readIdent_stops {p : List Char} (h : Stops (readSymbol false p 240)) : Stops (readIdent p 240) := by
  unfold readIdent
  rcases h with h | ⟨v, h⟩
  · exact Or.inl (by rw [h]; rfl)
  · refine Or.inr ⟨v, ?_⟩
    rw [h]
    show (match v, ([] : List Char) with
      | .sym n, '#' :: rest => _
      | _, _ => _) = _
    split
    · rename_i heq; cases heq
    · rfl

theorem flatMap_prefix : ∀ (name p : List Char), p <+: name.flatMap (symChar false) →
    ∃ s, s <+: name ∧ (p = s.flatMap (symChar false) ∨ p = s.flatMap (symChar false) ++ ['\\']) := by
  intro name
  induction name with
  | nil => intro p h; exact ⟨[], List.prefix_refl _, Or.inl (by simpa using h)⟩
  | cons c name ih =>
    intro p h
    rw [List.flatMap_cons] at h
    rcases prefix_append_cases h with h | ⟨q, rfl, hq⟩
    · unfold symChar at h
      split at h
      · rename_i hc
        match p, h with
        | [], _ => exact ⟨[], List.nil_prefix, Or.inl rfl⟩
        | [a], h =>
          have : a = '\\' := by obtain ⟨t, ht⟩ := h; simp at ht; exact ht.1
          subst this
          exact ⟨[], List.nil_prefix, Or.inr rfl⟩
        | a :: b :: p, h =>
          have : a = '\\' ∧ b = c ∧ p = [] := by obtain ⟨t, ht⟩ := h; simp at ht; exact ⟨ht.1, ht.2.1, ht.2.2.1⟩
          obtain ⟨rfl, rfl, rfl⟩ := this
          exact ⟨[b], ⟨name, rfl⟩, Or.inl (by simp [symChar, hc])⟩
      · rename_i hc
        match p, h with
        | [], _ => exact ⟨[], List.nil_prefix, Or.inl rfl⟩
        | a :: p, h =>
          have : a = c ∧ p = [] := by obtain ⟨t, ht⟩ := h; simp at ht; exact ⟨ht.1, ht.2.1⟩
          obtain ⟨rfl, rfl⟩ := this
          exact ⟨[a], ⟨name, rfl⟩, Or.inl (by simp [symChar, hc])⟩
    · obtain ⟨s, ⟨u, rfl⟩, hs⟩ := ih q hq
      refine ⟨c :: s, ⟨u, rfl⟩, ?_⟩
      rcases hs with rfl | rfl
      · exact Or.inl (by rw [List.flatMap_cons])
      · exact Or.inr (by rw [List.flatMap_cons, List.append_assoc])

theorem symLoop_backslash {t : Tok} (hm : t.mode = .plain) (hl : t.buf.length < t.buflen) : symLoop ['\\'] t = .eof := by
  rw [symLoop, if_neg (by rw [hm]; decide), if_neg (by rw [hm]; decide)]
  dsimp only
  rw [grow_id hl, if_neg (by simp [isTerm, isWhite]), if_pos rfl, symLoop, if_neg (by simp)]

theorem readSymbol_stops {name p : List Char} (hl : name.length < 240) (h0 : p ≠ []) (h : p <+: prinSym false name) : Stops (readSymbol false p 240) := by
  rw [prinSym_eq] at h
  by_cases hk : numberLike name = true
  · rw [if_pos hk] at h
    cases name with
    | nil => simp [numberLike] at hk
    | cons c s =>
      have hc : symEsc false c = false := symEsc_number (numberLike_head hk)
      have e1 : symChar false c = [c] := by unfold symChar; rw [if_neg (by simp [hc])]
      rw [List.flatMap_cons, e1] at h
      simp only [List.length_cons] at hl
      match p, h0, h with
      | [a], _, h =>
        have : a = '\\' := by obtain ⟨t, ht⟩ := h; simp at ht; exact ht.1
        subst this
        left
        unfold readSymbol
        rw [symLoop_backslash rfl (by simp)]
      | a :: b :: q, _, h =>
        have : a = '\\' ∧ b = c ∧ q <+: s.flatMap (symChar false) := by
          obtain ⟨t, ht⟩ := h; simp at ht; exact ⟨ht.1, ht.2.1, ⟨t, ht.2.2⟩⟩
        obtain ⟨rfl, rfl, hq⟩ := this
        obtain ⟨u, hu, hq⟩ := flatMap_prefix s q hq
        have hul := hu.length_le
        have hloop : ∀ rest, symLoop ('\\' :: b :: (u.flatMap (symChar false) ++ rest)) { buflen := 240 } =
            symLoop rest { buf := b :: u, buflen := 240, auto := autoName { radix := 0 } 1 u } := by
          intro rest
          rw [symLoop, if_neg (by decide), if_neg (by decide)]
          dsimp only
          rw [grow_id (by simp), if_neg (by simp [isTerm, isWhite]), if_pos rfl, symLoop, if_pos rfl, push_some _ (by simp), Option.elim_some]
          refine (symLoop_name rest u _ ?_ ?_ ?_).trans ?_
          · rfl
          · rfl
          · simp; omega
          · simp
        unfold readSymbol
        rcases hq with rfl | rfl
        · have := hloop []
          rw [List.append_nil] at this
          rw [this, symLoop, if_pos rfl]
          exact Or.inr (finish_name (Or.inl (autoName_zero _ _ _ rfl)) (by simp) (by simp; omega))
        · rw [hloop, symLoop_backslash rfl (by simp; omega)]
          exact Or.inl rfl
  · rw [if_neg hk, List.nil_append] at h
    obtain ⟨u, hu, hq⟩ := flatMap_prefix name p h
    have hul := hu.length_le
    have hloop : ∀ rest, symLoop (u.flatMap (symChar false) ++ rest) { buflen := 240 } =
        symLoop rest { buf := u, buflen := 240, auto := autoName {} 0 u } := by
      intro rest
      refine (symLoop_name rest u _ ?_ ?_ ?_).trans ?_
      · rfl
      · rfl
      · simp; omega
      · simp
    unfold readSymbol
    rcases hq with rfl | rfl
    · have := hloop []
      rw [List.append_nil] at this
      rw [this, symLoop, if_pos rfl]
      refine Or.inr (finish_name ?_ (by rintro rfl; simp at h0) (by omega))
      by_cases he : ∃ c ∈ u, symEsc false c = true
      · exact Or.inl (autoName_esc _ _ _ he)
      · exact Or.inr ⟨rfl, fun c hc => by
          by_contra h
          exact he ⟨c, hc, by simpa using h⟩⟩
    · rw [hloop, symLoop_backslash rfl (by simp; omega)]
      exact Or.inl rfl

/-! ### Objects -/

/-- However the text of an object is cut, reading stops at its end. -/
def Cut (e : Escape) (o : Obj) : Prop := ∀ n p, p <+: prin e o → 2 * p.length + 1 ≤ n → Stops (readl n .premature p 240)

/-- The rest of a list is found to be unfinished. -/
def CutCdr (e : Escape) (o : Obj) : Prop := ∀ n acc p, acc ≠ [] → p <+: prinCdr e o → p ≠ prinCdr e o → 2 * p.length + 2 ≤ n →
  readList n p 240 acc .nil = .err .premature

/-- The first character of the text of an object. -/
theorem head_plain {e : Escape} {o : Obj} (h : Readable e o) (hp : Plain o) : ∃ c t, prin e o = c :: t ∧ c ≠ '#' := by
  cases hp with
  | num n =>
    rw [prin]
    have key : ∀ z : Int, ∀ u, ∃ c t, intDigits 10 z ++ u = c :: t ∧ c ≠ '#' := by
      intro z u
      obtain ⟨g1, g2, -⟩ := natDigits_spec 10 (by omega) (by omega) z.natAbs
      rw [intDigits_signed]
      cases hneg : decide (z < 0) with
      | true => exact ⟨'-', _, rfl, by decide⟩
      | false =>
        show ∃ c t, natDigits 10 z.natAbs ++ u = c :: t ∧ c ≠ '#'
        cases hd' : natDigits 10 z.natAbs with
        | nil => exact absurd hd' g1
        | cons d s => exact ⟨d, s ++ u, rfl, isdigit_ne (isDigit_dec (g2 d (by rw [hd']; simp))) _ (by decide)⟩
    cases n with
    | fix w => have := key w []; rwa [List.append_nil] at this
    | big z => have := key z []; rwa [List.append_nil] at this
    | rat q => exact key q.num _
  | str s => rw [prin, prinStr]; exact ⟨'"', _, rfl, by decide⟩
  | sym name =>
    rw [prin, prinSym_eq]
    split
    · exact ⟨'\\', _, rfl, by decide⟩
    · cases h with
      | sym _ h0 _ _ _ _ _ =>
        cases name with
        | nil => exact absurd rfl h0
        | cons c s =>
          rw [List.flatMap_cons, List.nil_append]
          by_cases hc : symEsc false c = true
          · unfold symChar; rw [if_pos hc]; exact ⟨'\\', _, rfl, by decide⟩
          · have e1 : symChar false c = [c] := by unfold symChar; rw [if_neg hc]
            rw [e1]
            exact ⟨c, _, rfl, (symEsc_not (by simpa using hc)).2.1⟩
  | nil => exact ⟨_, _, by rw [prin], by decide⟩
  | cons a d _ _ => exact ⟨'(', _, by rw [prin]; rfl, by decide⟩
  | vec l _ => exact ⟨'[', _, by rw [prin], by decide⟩

/-- The first element of what is left of a list is unfinished. -/
theorem readList_cut {e : Escape} {o : Obj} (h : Readable e o) (hp : Plain o) (hc : Cut e o) (n : Nat) (p : List Char) (acc : List Obj)
    (hpre : p <+: prin e o) (hn : 2 * p.length + 2 ≤ n) : readList n p 240 acc .nil = .err .premature := by
  obtain ⟨n, rfl⟩ : ∃ m, n = m + 1 := ⟨n - 1, by omega⟩
  cases p with
  | nil => rw [readList]
  | cons c t =>
    obtain ⟨c', t', e1, h1, h2, h3, h4, h5, h6⟩ := begins_prin h
    obtain ⟨c'', t'', e2, h7⟩ := head_plain h hp
    rw [e1] at e2 hpre
    injection e2 with e2 _
    have hh : c = c' ∧ t <+: t' := by obtain ⟨u, hu⟩ := hpre; injection hu with hu1 hu2; exact ⟨hu1, ⟨u, hu2⟩⟩
    obtain ⟨rfl, ht⟩ := hh
    subst e2
    rw [readList, if_neg (by simp [h1]), if_neg h2, if_neg (by simp [h3, h4])]
    by_cases hd : c = '.' ∧ t = []
    · rw [if_pos hd]
    · rw [if_neg hd, if_neg, if_neg (by simp [h7]), if_neg (by simp [h7])]
      · have := hc n (c :: t) (by rw [e1]; exact hpre) (by omega)
        rcases this with h | ⟨v, h⟩
        · rw [h]; rfl
        · rw [h]
          show readList n [] 240 (v :: acc) .nil = _
          obtain ⟨n, rfl⟩ : ∃ m, n = m + 1 := ⟨n - 1, by simp at hn; omega⟩
          rw [readList]
      · rintro ⟨rfl, hw⟩
        cases t with
        | nil => exact hd ⟨rfl, rfl⟩
        | cons d t =>
          obtain ⟨d', u, rfl, hd'⟩ := h5 rfl
          obtain ⟨w, hw'⟩ := ht
          injection hw' with hw1 _
          subst hw1
          simp [hd'] at hw

theorem prefix_snoc {α : Type} {p s : List α} {c : α} (h : p <+: s ++ [c]) (hne : p ≠ s ++ [c]) : p <+: s := by
  rcases prefix_append_cases h with h | ⟨q, rfl, hq⟩
  · exact h
  · match q, hq with
    | [], _ => exact ⟨[], by simp⟩
    | a :: q, hq =>
      have : a = c ∧ q = [] := by obtain ⟨t, ht⟩ := hq; simp at ht; exact ⟨ht.1, ht.2.1⟩
      obtain ⟨rfl, rfl⟩ := this
      exact absurd rfl hne

theorem cutCdr_atom {e : Escape} {o : Obj} (h : Cut e o) (hc : prinCdr e o = ' ' :: '.' :: ' ' :: (prin e o ++ [')'])) : CutCdr e o := by
  intro n acc p hacc hp hne hn
  rw [hc] at hp hne
  match p, hp, hne with
  | [], _, _ =>
    obtain ⟨n, rfl⟩ : ∃ m, n = m + 1 := ⟨n - 1, by omega⟩
    rw [readList]
  | [a], hp, _ =>
    have : a = ' ' := by obtain ⟨t, ht⟩ := hp; simp at ht; exact ht.1
    subst this
    obtain ⟨n, rfl⟩ : ∃ m, n = m + 2 := ⟨n - 2, by omega⟩
    rw [readList, if_pos (by decide), readList]
  | [a, b], hp, _ =>
    have : a = ' ' ∧ b = '.' := by obtain ⟨t, ht⟩ := hp; simp at ht; exact ⟨ht.1, ht.2.1⟩
    obtain ⟨rfl, rfl⟩ := this
    simp only [List.length_cons, List.length_nil] at hn
    obtain ⟨n, rfl⟩ : ∃ m, n = m + 2 := ⟨n - 2, by omega⟩
    rw [readList, if_pos (by decide), readList, if_neg (by decide), if_neg (by decide), if_neg (by decide), if_pos (by simp)]
  | a :: b :: c :: q, hp, hne =>
    have : a = ' ' ∧ b = '.' ∧ c = ' ' ∧ q <+: prin e o ++ [')'] := by obtain ⟨t, ht⟩ := hp; simp at ht; exact ⟨ht.1, ht.2.1, ht.2.2.1, ⟨t, by simp [ht.2.2.2]⟩⟩
    obtain ⟨rfl, rfl, rfl, hq⟩ := this
    have hq := prefix_snoc hq (by simpa using hne)
    simp only [List.length_cons] at hn
    obtain ⟨n, rfl⟩ : ∃ m, n = m + 3 := ⟨n - 3, by omega⟩
    rw [readList, if_pos (by decide), readList, if_neg (by decide), if_neg (by decide), if_neg (by decide), if_neg (by simp), if_pos (by simp; decide), if_neg hacc]
    rw [readl, if_pos (by decide)]
    rcases h n q hq (by omega) with h | ⟨v, h⟩
    · rw [h]; rfl
    · rw [h]
      show readList (n + 1) [] 240 acc v = _
      rw [readList]

theorem delim_prefix {e : Escape} {d : Obj} {q : List Char} (h : q <+: prinCdr e d) : Delimited q := by
  cases q with
  | nil => exact Or.inl rfl
  | cons c q =>
    obtain ⟨u, hu⟩ := h
    have : c = ' ' ∨ c = ')' := by
      cases d <;> simp only [prinCdr, show " . ".toList = [' ', '.', ' '] from rfl, List.cons_append, List.nil_append] at hu <;> injection hu with h1 _ <;> simp [h1]
    rcases this with rfl | rfl
    · exact delim_space _
    · exact delim_paren _

/-- After the opening parenthesis, or the space. -/
theorem readList_cons {e : Escape} {a d : Obj} (ha : Readable e a) (hpa : Plain a) (ca : Cut e a) (cd : CutCdr e d) (n : Nat) (p : List Char) (acc : List Obj)
    (hp : p <+: prin e a ++ prinCdr e d) (hne : p ≠ prin e a ++ prinCdr e d) (hn : 2 * p.length + 2 ≤ n) : readList n p 240 acc .nil = .err .premature := by
  rcases prefix_append_cases hp with hp | ⟨q, rfl, hq⟩
  · exact readList_cut ha hpa ca n p acc hp hn
  · obtain ⟨n, rfl⟩ : ∃ m, n = m + 1 := ⟨n - 1, by omega⟩
    rw [readList_elem n _ (begins_prin ha), (reads_all ha).1 n _ _ (delim_prefix hq) (by omega)]
    show readList n q 240 (a :: acc) .nil = _
    have hpos : 1 ≤ (prin e a).length := by obtain ⟨c, t, ht, _⟩ := begins_prin ha; rw [ht]; simp
    exact cd n (a :: acc) q (by simp) hq (by rintro rfl; exact hne rfl) (by simp only [List.length_append] at hn; omega)

/-- The elements of a vector are found to be unfinished. -/
theorem readList_elems {e : Escape} : ∀ (l : List Obj), (∀ x ∈ l, Readable e x) → (∀ x ∈ l, Plain x) → (∀ x ∈ l, Cut e x) → ∀ n acc p, p <+: prinElems e l →
    p ≠ prinElems e l → 2 * p.length + 2 ≤ n → readList n p 240 acc .nil = .err .premature := by
  intro l
  induction l with
  | nil =>
    intro _ _ _ n acc p hp hne hn
    rw [prinElems] at hp hne
    obtain ⟨n, rfl⟩ : ∃ m, n = m + 1 := ⟨n - 1, by omega⟩
    have : p = [] := by have := prefix_snoc (s := []) hp hne; simpa using this
    subst this
    rw [readList]
  | cons x l ih =>
    intro hr hpl hx n acc p hp hne hn
    have hb := begins_prin (hr x (by simp))
    have hpos : 1 ≤ (prin e x).length := by obtain ⟨c, t, ht, _⟩ := hb; rw [ht]; simp
    cases l with
    | nil =>
      rw [prinElems] at hp hne
      exact readList_cut (hr x (by simp)) (hpl x (by simp)) (hx x (by simp)) n p acc (prefix_snoc hp hne) hn
    | cons y l =>
      rw [prinElems] at hp hne
      rcases prefix_append_cases hp with hp | ⟨q, rfl, hq⟩
      · exact readList_cut (hr x (by simp)) (hpl x (by simp)) (hx x (by simp)) n p acc hp hn
      · obtain ⟨n, rfl⟩ : ∃ m, n = m + 1 := ⟨n - 1, by omega⟩
        have hdel : Delimited q := by
          cases q with
          | nil => exact Or.inl rfl
          | cons c q => obtain ⟨u, hu⟩ := hq; injection hu with h1 _; subst h1; exact delim_space _
        rw [readList_elem n _ hb, (reads_all (hr x (by simp))).1 n _ _ hdel (by omega)]
        show readList n q 240 (x :: acc) .nil = _
        simp only [List.length_append] at hn
        cases q with
        | nil =>
          obtain ⟨n, rfl⟩ : ∃ m, n = m + 1 := ⟨n - 1, by omega⟩
          rw [readList]
        | cons c q =>
          have hh : c = ' ' ∧ q <+: prinElems e (y :: l) := by obtain ⟨u, hu⟩ := hq; injection hu with h1 h2; exact ⟨h1, ⟨u, h2⟩⟩
          obtain ⟨rfl, hq'⟩ := hh
          simp only [List.length_cons] at hn
          obtain ⟨n, rfl⟩ : ∃ m, n = m + 1 := ⟨n - 1, by omega⟩
          rw [readList, if_pos (by decide)]
          exact ih (fun z hz => hr z (by simp [hz])) (fun z hz => hpl z (by simp [hz])) (fun z hz => hx z (by simp [hz])) n (x :: acc) q hq'
            (by rintro rfl; exact hne rfl) (by omega)

/-- A string is found to be unfinished. -/
theorem readStr_cut (e : Escape) : ∀ (s p buf : List Char) (n : Nat), (∀ c ∈ s, c.toNat < 256) → p <+: s.flatMap (stringChar e) → p.length + 1 ≤ n →
    readStr n p buf 240 = .err .premature := by
  have hnil : ∀ n buf, 1 ≤ n → readStr n [] buf 240 = .err .premature := by
    intro n buf hn
    obtain ⟨n, rfl⟩ : ∃ m, n = m + 1 := ⟨n - 1, by omega⟩
    rw [readStr]
  intro s
  induction s with
  | nil =>
    intro p buf n _ hp hn
    have : p = [] := by simpa using hp
    subst this
    exact hnil n buf (by omega)
  | cons c s ih =>
    intro p buf n h hp hn
    obtain ⟨n, rfl⟩ : ∃ m, n = m + 1 := ⟨n - 1, by omega⟩
    rw [List.flatMap_cons] at hp
    rcases prefix_append_cases hp with hp | ⟨q, rfl, hq⟩
    · by_cases hfull : p = stringChar e c
      · subst hfull
        have := readStr_char e c (h c (by simp)) n [] buf 240
        rw [List.append_nil] at this
        rw [this]
        exact hnil n _ (by have := stringChar_length e c; omega)
      · have hshort : p = [] ∨ p = ['\\'] ∨ ∃ a b d : Nat, a < 8 ∧ b < 8 ∧ d < 8 ∧
            (p = ['\\', Char.ofNat (48 + a)] ∨ p = ['\\', Char.ofNat (48 + a), Char.ofNat (48 + b)]) := by
          have two : ∀ x : Char, p <+: ['\\', x] → p ≠ ['\\', x] → p = [] ∨ p = ['\\'] := by
            intro x h1 h2
            match p, h1, h2 with
            | [], _, _ => exact Or.inl rfl
            | [a], h1, _ => obtain ⟨t, ht⟩ := h1; simp at ht; exact Or.inr (by rw [ht.1])
            | a :: b :: p, h1, h2 =>
              obtain ⟨t, ht⟩ := h1; simp at ht
              exact absurd (by rw [ht.1, ht.2.1, ht.2.2.1]) h2
          have one : ∀ x : Char, p <+: [x] → p ≠ [x] → p = [] := by
            intro x h1 h2
            match p, h1, h2 with
            | [], _, _ => rfl
            | a :: p, h1, h2 =>
              obtain ⟨t, ht⟩ := h1; simp at ht
              exact absurd (by rw [ht.1, ht.2.1]) h2
          have hc := h c (by simp)
          unfold stringChar at hp hfull
          split at hp
          · rename_i hcond
            rw [if_pos hcond] at hfull
            match p, hp, hfull with
            | [], _, _ => exact Or.inl rfl
            | [a], h1, _ => obtain ⟨t, ht⟩ := h1; simp at ht; exact Or.inr (Or.inl (by rw [ht.1]))
            | [a, b], h1, _ =>
              obtain ⟨t, ht⟩ := h1; simp at ht
              exact Or.inr (Or.inr ⟨c.toNat / 64, 0, 0, by omega, by omega, by omega, Or.inl (by rw [ht.1, ht.2.1])⟩)
            | [a, b, d], h1, _ =>
              obtain ⟨t, ht⟩ := h1; simp at ht
              exact Or.inr (Or.inr ⟨c.toNat / 64, c.toNat % 64 / 8, 0, by omega, by omega, by omega, Or.inr (by rw [ht.1, ht.2.1, ht.2.2.1])⟩)
            | a :: b :: d :: x :: p, h1, h2 =>
              obtain ⟨t, ht⟩ := h1; simp at ht
              exact absurd (by rw [ht.1, ht.2.1, ht.2.2.1, ht.2.2.2.1, ht.2.2.2.2.1]) h2
          · rename_i hcond
            rw [if_neg hcond] at hfull
            split at hp
            · rename_i h1
              rw [if_pos h1] at hfull
              split at hp
              · rename_i h2
                rw [if_pos h2] at hfull
                exact Or.inl (one _ hp hfull)
              · rename_i h2
                rw [if_neg h2] at hfull
                exact (two _ hp hfull).imp_right Or.inl
            · rename_i h1
              rw [if_neg h1] at hfull
              split at hp
              · rename_i h2
                rw [if_pos h2] at hfull
                exact (two _ hp hfull).imp_right Or.inl
              · rename_i h2
                rw [if_neg h2] at hfull
                split at hp
                · rename_i h3
                  rw [if_pos h3] at hfull
                  exact (two _ hp hfull).imp_right Or.inl
                · rename_i h3
                  rw [if_neg h3] at hfull
                  exact Or.inl (one _ hp hfull)
        rcases hshort with rfl | rfl | ⟨a, b, d, ha, hb, hd, rfl | rfl⟩
        · exact hnil _ _ (by omega)
        · rw [readStr, if_neg (by decide), if_pos rfl, if_neg (by simp)]
          exact hnil _ _ (by simp at hn; omega)
        · have h1 := octal_char a ha
          have h2 := octal_ne a ha
          rw [readStr_esc _ _ _ _ _ h2.2.2.2.2.2.2.2]
          have : (readEsc [Char.ofNat (48 + a)]).2 = [] := by
            rw [readEsc.eq_def]
            dsimp only
            simp only [h2, h1, if_false, if_true]
          rw [this]
          exact hnil _ _ (by simp at hn; omega)
        · have h1 := octal_char a ha
          have h2 := octal_ne a ha
          have h3 := octal_char b hb
          rw [readStr_esc _ _ _ _ _ h2.2.2.2.2.2.2.2]
          have : (readEsc [Char.ofNat (48 + a), Char.ofNat (48 + b)]).2 = [] := by
            rw [readEsc.eq_def]
            dsimp only
            simp only [h2, h1, h3, if_false, if_true]
          rw [this]
          exact hnil _ _ (by simp at hn; omega)
    · rw [readStr_char e c (h c (by simp))]
      have := stringChar_length e c
      simp only [List.length_append] at hn
      exact ih q _ n (fun x hx => h x (by simp [hx])) hq (by omega)

/-- Whatever is not the whole text. -/
theorem Cut.of_proper {e : Escape} {o : Obj} (h : Readable e o)
    (hc : ∀ n p, p <+: prin e o → p ≠ prin e o → p ≠ [] → 2 * p.length + 1 ≤ n → Stops (readl n .premature p 240)) : Cut e o := by
  intro n p hp hn
  by_cases h1 : p = prin e o
  · subst h1
    have := (reads_all h).1 n .premature [] (Or.inl rfl) (by simpa using hn)
    rw [List.append_nil] at this
    exact Or.inr ⟨o, this⟩
  · by_cases h2 : p = []
    · subst h2
      obtain ⟨n, rfl⟩ : ∃ m, n = m + 1 := ⟨n - 1, by omega⟩
      rw [readl]
      exact Or.inl rfl
    · exact hc n p hp h1 h2 hn

theorem cut_num {e : Escape} {n : Num} (h : Readable e (.num n)) (hl : (prin e (.num n)).length < 240) : Cut e (.num n) := by
  have hchars : ∀ c ∈ prin e (.num n), isdigit c = true ∨ c = '-' ∨ c = '/' := by
    rw [prin]
    have nat : ∀ z : Nat, ∀ c ∈ natDigits 10 z, isdigit c = true := by
      intro z c hc
      obtain ⟨g1, g2, -⟩ := natDigits_spec 10 (by omega) (by omega) z
      exact isDigit_dec (g2 c hc)
    have key : ∀ z : Int, ∀ c ∈ intDigits 10 z, isdigit c = true ∨ c = '-' ∨ c = '/' := by
      intro z c hc
      rw [intDigits_signed] at hc
      rcases signed_mem hc with rfl | hc
      · exact Or.inr (Or.inl rfl)
      · exact Or.inl (nat _ c hc)
    intro c hc
    cases n with
    | fix w => exact key w c hc
    | big z => exact key z c hc
    | rat q =>
      simp only [numberToString, List.mem_append, List.mem_cons] at hc
      rcases hc with hc | hc
      · exact key _ c hc
      · rcases hc with rfl | hc
        · exact Or.inr (Or.inr rfl)
        · exact key _ c hc
  have hesc : ∀ c ∈ prin e (.num n), symEsc false c = false := by
    intro c hc
    rcases hchars c hc with h | rfl | rfl
    · exact symEsc_number (Or.inl h)
    · decide
    · decide
  refine Cut.of_proper h fun m p hp _ h0 hm => ?_
  obtain ⟨m, rfl⟩ : ∃ k, m = k + 1 := ⟨m - 1, by omega⟩
  cases p with
  | nil => exact absurd rfl h0
  | cons c t =>
    have hmem : ∀ x ∈ c :: t, x ∈ prin e (.num n) := fun x hx => hp.subset hx
    have hc2 : c ≠ '?' ∧ c ≠ '#' := by
      rcases hchars c (hmem c (by simp)) with h | rfl | rfl
      · exact ⟨isdigit_ne h _ (by decide), isdigit_ne h _ (by decide)⟩
      · decide
      · decide
    rw [readl_ident m _ c _ 240 (symEsc_not (hesc c (hmem c (by simp)))).1 hc2.1 hc2.2]
    apply readIdent_stops
    have hlt : (c :: t).length < 240 := Nat.lt_of_le_of_lt hp.length_le hl
    have hs : ∀ x ∈ c :: t, symEsc false x = false := fun x hx => hesc x (hmem x hx)
    have := readSymbol_plain hs hlt (Or.inl rfl)
    rw [List.append_nil] at this
    rw [this]
    exact Or.inr (finish_name (Or.inr ⟨rfl, hs⟩) (by simp) hlt)

theorem cut_sym {e : Escape} {name : List Char} (h : Readable e (.sym name)) (h0 : name ≠ []) (hl : name.length < 240) (hq : name.head? ≠ some '?') : Cut e (.sym name) := by
  have hhead : ∃ c t, prinSym false name = c :: t ∧ isTerm c = false ∧ c ≠ '?' ∧ c ≠ '#' := by
    rw [prinSym_eq]
    by_cases hk : numberLike name = true
    · rw [if_pos hk]; exact ⟨'\\', _, rfl, by decide, by decide, by decide⟩
    · rw [if_neg hk, List.nil_append]
      cases name with
      | nil => exact absurd rfl h0
      | cons c s =>
        rw [List.flatMap_cons]
        by_cases hc : symEsc false c = true
        · unfold symChar; rw [if_pos hc]; exact ⟨'\\', _, rfl, by decide, by decide, by decide⟩
        · simp only [Bool.not_eq_true] at hc
          have e1 : symChar false c = [c] := by unfold symChar; rw [if_neg (by simp [hc])]
          rw [e1]
          exact ⟨c, _, rfl, (symEsc_not hc).1, by simpa using hq, (symEsc_not hc).2.1⟩
  refine Cut.of_proper h fun m p hp _ hp0 hm => ?_
  obtain ⟨m, rfl⟩ : ∃ k, m = k + 1 := ⟨m - 1, by omega⟩
  rw [prin] at hp
  have hst := readSymbol_stops hl hp0 hp
  obtain ⟨c, t, ht, h1, h2, h3⟩ := hhead
  cases p with
  | nil => exact absurd rfl hp0
  | cons c' t' =>
    rw [ht] at hp
    have : c' = c := by obtain ⟨u, hu⟩ := hp; injection hu
    subst this
    rw [readl_ident m _ c' _ 240 h1 h2 h3]
    exact readIdent_stops hst

/-- All objects. -/
theorem cut_all {e : Escape} {o : Obj} (h : Readable e o) (hp : Plain o) : Cut e o ∧ CutCdr e o := by
  induction h with
  | num n hc hl => have := cut_num (.num n hc hl) hl; exact ⟨this, cutCdr_atom this (by rw [prinCdr, prin]; simp)⟩
  | str s hs =>
    have : Cut e (.str s) := by
      refine Cut.of_proper (.str s hs) fun n p hp hne h0 hn => ?_
      rw [prin, prinStr] at hp hne
      obtain ⟨n, rfl⟩ : ∃ k, n = k + 1 := ⟨n - 1, by omega⟩
      cases p with
      | nil => exact absurd rfl h0
      | cons c t =>
        have hh : c = '"' ∧ t <+: s.flatMap (stringChar e) ++ ['"'] := by obtain ⟨u, hu⟩ := hp; injection hu with h1 h2; exact ⟨h1, ⟨u, h2⟩⟩
        obtain ⟨rfl, ht⟩ := hh
        have ht := prefix_snoc ht (by rintro rfl; exact hne rfl)
        left
        rw [readl]
        simp only [isWhite, show ('"' : Char) ≠ ' ' from by decide, show ('"' : Char) ≠ '\t' from by decide, show ('"' : Char) ≠ '\n' from by decide,
          show ('"' : Char) ≠ '\x0c' from by decide, show ('"' : Char) ≠ '\r' from by decide, decide_false, Bool.or_self, Bool.false_eq_true, if_false,
          show ('"' : Char) ≠ ';' from by decide, show ('"' : Char) ≠ '(' from by decide, show ('"' : Char) ≠ '\'' from by decide, show ('"' : Char) ≠ '`' from by decide,
          show ('"' : Char) ≠ ',' from by decide, show ('"' : Char) ≠ '[' from by decide, if_true]
        exact readStr_cut e s t [] _ hs ht (by omega)
    exact ⟨this, cutCdr_atom this (by rw [prinCdr, prin]; simp)⟩
  | sym name h0 hl hn hdot hq hnum =>
    have := cut_sym (.sym name h0 hl hn hdot hq hnum) h0 hl hq
    exact ⟨this, cutCdr_atom this (by rw [prinCdr, prin]; simp)⟩
  | kw s hl hn => cases hp
  | lit l => cases hp
  | nil =>
    constructor
    · refine Cut.of_proper .nil fun n p hp hne h0 hn => ?_
      rw [prin] at hp hne
      obtain ⟨n, rfl⟩ : ∃ k, n = k + 1 := ⟨n - 1, by omega⟩
      cases p with
      | nil => exact absurd rfl h0
      | cons c t =>
        have hh : c = '(' ∧ t <+: [] ++ [')'] := by obtain ⟨u, hu⟩ := hp; injection hu with h1 h2; exact ⟨h1, ⟨u, h2⟩⟩
        obtain ⟨rfl, ht⟩ := hh
        have ht := prefix_snoc ht (by rintro rfl; exact hne rfl)
        have : t = [] := by simpa using ht
        subst this
        simp only [List.length_cons, List.length_nil] at hn
        obtain ⟨n, rfl⟩ : ∃ k, n = k + 1 := ⟨n - 1, by omega⟩
        rw [readl, if_neg (by decide), if_neg (by decide), if_pos rfl, readList]
        exact Or.inl rfl
    · intro n acc p _ hp hne hn
      rw [prinCdr] at hp hne
      have : p = [] := by have := prefix_snoc (s := []) hp hne; simpa using this
      subst this
      obtain ⟨n, rfl⟩ : ∃ k, n = k + 1 := ⟨n - 1, by omega⟩
      rw [readList]
  | cons a d ha hd iha ihd =>
    cases hp with
    | cons _ _ pa pd =>
      have core := readList_cons ha pa (iha pa).1 (ihd pd).2
      constructor
      · refine Cut.of_proper (.cons a d ha hd) fun n p hp hne h0 hn => ?_
        rw [prin] at hp hne
        obtain ⟨n, rfl⟩ : ∃ k, n = k + 1 := ⟨n - 1, by omega⟩
        cases p with
        | nil => exact absurd rfl h0
        | cons c t =>
          have hh : c = '(' ∧ t <+: prin e a ++ prinCdr e d := by obtain ⟨u, hu⟩ := hp; injection hu with h1 h2; exact ⟨h1, ⟨u, h2⟩⟩
          obtain ⟨rfl, ht⟩ := hh
          rw [readl, if_neg (by decide), if_neg (by decide), if_pos rfl]
          simp only [List.length_cons] at hn
          exact Or.inl (core n t [] ht (by rintro rfl; exact hne rfl) (by omega))
      · intro n acc p _ hp hne hn
        rw [prinCdr] at hp hne
        obtain ⟨n, rfl⟩ : ∃ k, n = k + 1 := ⟨n - 1, by omega⟩
        cases p with
        | nil => rw [readList]
        | cons c t =>
          have hh : c = ' ' ∧ t <+: prin e a ++ prinCdr e d := by obtain ⟨u, hu⟩ := hp; injection hu with h1 h2; exact ⟨h1, ⟨u, h2⟩⟩
          obtain ⟨rfl, ht⟩ := hh
          simp only [List.length_cons] at hn
          rw [readList, if_pos (by decide)]
          exact core n t acc ht (by rintro rfl; exact hne rfl) (by omega)
  | vec l hl ih =>
    cases hp with
    | vec _ pl =>
      have : Cut e (.vec l) := by
        refine Cut.of_proper (.vec l hl) fun n p hp hne h0 hn => ?_
        rw [prin] at hp hne
        obtain ⟨n, rfl⟩ : ∃ k, n = k + 1 := ⟨n - 1, by omega⟩
        cases p with
        | nil => exact absurd rfl h0
        | cons c t =>
          have hh : c = '[' ∧ t <+: prinElems e l := by obtain ⟨u, hu⟩ := hp; injection hu with h1 h2; exact ⟨h1, ⟨u, h2⟩⟩
          obtain ⟨rfl, ht⟩ := hh
          simp only [List.length_cons] at hn
          left
          rw [readl]
          simp only [isWhite, show ('[' : Char) ≠ ' ' from by decide, show ('[' : Char) ≠ '\t' from by decide, show ('[' : Char) ≠ '\n' from by decide,
            show ('[' : Char) ≠ '\x0c' from by decide, show ('[' : Char) ≠ '\r' from by decide, decide_false, Bool.or_self, Bool.false_eq_true, if_false,
            show ('[' : Char) ≠ ';' from by decide, show ('[' : Char) ≠ '(' from by decide, show ('[' : Char) ≠ '\'' from by decide, show ('[' : Char) ≠ '`' from by decide,
            show ('[' : Char) ≠ ',' from by decide, if_true]
          rw [readList_elems l hl pl (fun x hx => (ih x hx (pl x hx)).1) n [] t ht (by rintro rfl; exact hne rfl) (by omega)]
          rfl
      exact ⟨this, cutCdr_atom this (by rw [prinCdr, prin]; simp)⟩
  | code s v w l hl ih => cases hp

/-- Reading any beginning of the text of a list that is not the whole of it ends at the end of the stream. -/
theorem read_prefix {e : Escape} {a d : Obj} (ha : Readable e a) (hd : Readable e d) (pa : Plain a) (pd : Plain d) {p : List Char}
    (hp : p <+: prin e (.cons a d)) (hne : p ≠ prin e (.cons a d)) : read p 240 = .err .premature ∨ read p 240 = .err .endOfStream := by
  unfold read
  rw [prin] at hp hne
  cases p with
  | nil => right; rfl
  | cons c t =>
    have hh : c = '(' ∧ t <+: prin e a ++ prinCdr e d := by obtain ⟨u, hu⟩ := hp; injection hu with h1 h2; exact ⟨h1, ⟨u, h2⟩⟩
    obtain ⟨rfl, ht⟩ := hh
    left
    rw [List.length_cons, readl, if_neg (by decide), if_neg (by decide), if_pos rfl]
    exact readList_cons ha pa (cut_all ha pa).1 (cut_all hd pd).2 _ t [] ht (by rintro rfl; exact hne rfl) (by omega)

end Rep.Reader
