import Verif.Xml.Spec

/-
C71: what the XML printer writes, the XML reader reads.
-/

namespace Rep.Xml

open Spec

theorem readString_append {e : Char → Bool} {a rest : List Char} (ha : ∀ c ∈ a, e c = false)
    (hr : ∀ c s, rest = c :: s → e c = true) : readString e (a ++ rest) = (a, rest) := by
  induction a with
  | nil =>
    cases rest with
    | nil => rfl
    | cons c s => simp [readString, hr c s rfl]
  | cons c a ih =>
    have h1 := ha c (by simp)
    have h2 := ih fun x hx => ha x (by simp [hx])
    simp [readString, h1, h2]

theorem after_append (p s : List Char) : after p (p ++ s) = some s := by
  induction p with
  | nil => rfl
  | cons a p ih => simp [after, ih]

theorem unescape_other {c : Char} (h : c ≠ '&') (s : List Char) : unescape (c :: s) = c :: unescape s := by
  rw [unescape, if_neg h]

theorem unescape_entity {v rest s : List Char} (h : entity s entities = some (v, rest)) : unescape ('&' :: s) = v ++ unescape rest := by
  rw [unescape, if_pos rfl]
  split
  · rename_i v' rest' h'
    rw [h] at h'
    cases h'
    rfl
  · rename_i h'
    rw [h] at h'
    exact nomatch h'

theorem unescape_escape (s : List Char) : unescape (escape s) = s := by
  induction s with
  | nil => rw [escape, unescape]
  | cons c s ih =>
    unfold escape
    split
    · rename_i h; subst h
      show unescape ('&' :: ("lt;".toList ++ escape s)) = _
      rw [unescape_entity (v := ['<']) (rest := escape s) (by simp [entities, entity, after]), ih]; rfl
    split
    · rename_i h; subst h
      show unescape ('&' :: ("amp;".toList ++ escape s)) = _
      rw [unescape_entity (v := ['&']) (rest := escape s) (by simp [entities, entity, after]), ih]; rfl
    split
    · rename_i h; subst h
      show unescape ('&' :: ("apos;".toList ++ escape s)) = _
      rw [unescape_entity (v := ['\'']) (rest := escape s) (by simp [entities, entity, after]), ih]; rfl
    split
    · rename_i h; subst h
      show unescape ('&' :: ("quot;".toList ++ escape s)) = _
      rw [unescape_entity (v := ['"']) (rest := escape s) (by simp [entities, entity, after]), ih]; rfl
    · rename_i _ h _ _
      show unescape (c :: escape s) = _
      rw [unescape_other h, ih]

theorem escape_free {s : List Char} {c : Char} (h : c ∈ escape s) : c ≠ '<' ∧ c ≠ '"' := by
  induction s with
  | nil => simp [escape] at h
  | cons d s ih =>
    unfold escape at h
    rw [List.mem_append] at h
    rcases h with h | h
    · split at h
      · clear ih; revert c; decide
      split at h
      · clear ih; revert c; decide
      split at h
      · clear ih; revert c; decide
      split at h
      · clear ih; revert c; decide
      · simp at h; subst h; constructor <;> assumption
    · exact ih h

theorem escape_ne {s : List Char} (h : s ≠ []) : escape s ≠ [] := by
  cases s with
  | nil => exact absurd rfl h
  | cons c s =>
    unfold escape
    split
    · simp
    split
    · simp
    split
    · simp
    split <;> simp

theorem Spec.NameChar.end {c : Char} (h : NameChar c) : tokenEnd c = false := by
  unfold NameChar at h
  simp at h
  simp [tokenEnd, h]

theorem Spec.NameChar.white {c : Char} (h : NameChar c) (hr : c ≠ '\r') : white c = false := by
  unfold NameChar at h
  simp at h
  simp [Xml.white, h, hr]

theorem eatWhite_cons {c : Char} (h : white c = false) (s : List Char) : eatWhite (c :: s) = c :: s := by simp [eatWhite, h]

/-- A name is read up to its end. -/
theorem readToken_name {n rest : List Char} (h : ∀ c ∈ n, NameChar c) (hr : n.head? ≠ some '\r')
    (he : ∃ c s, rest = c :: s ∧ tokenEnd c = true) (hn : n = [] → eatWhite rest = rest) : readToken (n ++ rest) = (n, rest) := by
  obtain ⟨c, s, rfl, hc⟩ := he
  have he : eatWhite (n ++ c :: s) = n ++ c :: s := by
    cases n with
    | nil => exact hn rfl
    | cons d n =>
      rw [List.cons_append, eatWhite_cons]
      exact Spec.NameChar.white (h d (by simp)) (by simpa using hr)
  unfold readToken
  rw [he]
  exact readString_append (fun x hx => Spec.NameChar.end (h x hx)) (fun a b e => by cases e; exact hc)

/-- The end of a list of parameters. -/
def Close (s : List Char) : Prop := ∃ c t, s = c :: t ∧ (c = '?' ∨ c = '/' ∨ c = '>')

theorem readParams_print {ps : List (List Char × List Char)} (hp : ∀ p ∈ ps, ParamName p.1) {rest : List Char} (hr : Close rest) :
    ∀ (fuel : Nat) (acc : List (List Char × List Char)), ps.length < fuel →
      readParams fuel (printParams ps ++ rest) acc = some (some (acc.reverse ++ ps, rest)) := by
  induction ps with
  | nil =>
    intro fuel acc hf
    obtain ⟨fuel, rfl⟩ : ∃ f, fuel = f + 1 := ⟨fuel - 1, by simp at hf; omega⟩
    obtain ⟨c, t, rfl, hc⟩ := hr
    have hw : white c = false := by rcases hc with rfl | rfl | rfl <;> rfl
    simp only [printParams, List.nil_append, readParams, eatWhite_cons hw, if_pos hc, List.append_nil]
  | cons p ps ih =>
    intro fuel acc hf
    obtain ⟨fuel, rfl⟩ : ∃ f, fuel = f + 1 := ⟨fuel - 1, by simp at hf; omega⟩
    obtain ⟨n, v⟩ := p
    obtain ⟨h1, h2, h3⟩ := hp (n, v) (by simp)
    simp only at h1 h2 h3
    have e : printParams ((n, v) :: ps) ++ rest = ' ' :: (n ++ ('=' :: '"' :: (escape v ++ '"' :: (printParams ps ++ rest)))) := by
      simp [printParams]
    have hq : readQuoted ('"' :: (escape v ++ '"' :: (printParams ps ++ rest))) = (v, printParams ps ++ rest) := by
      have hs : readString (· == '"') (escape v ++ '"' :: (printParams ps ++ rest)) = (escape v, '"' :: (printParams ps ++ rest)) :=
        readString_append (fun c hc => by simpa using (escape_free hc).2) (fun a b e => by cases e; rfl)
      simp only [readQuoted]
      rw [if_neg (by decide), if_pos (by simp), hs]
      simp only [unescape_escape, List.tail_cons]
    have ht : readToken (n ++ ('=' :: '"' :: (escape v ++ '"' :: (printParams ps ++ rest)))) =
        (n, '=' :: '"' :: (escape v ++ '"' :: (printParams ps ++ rest))) :=
      readToken_name h1 h3 ⟨_, _, rfl, rfl⟩ (fun _ => eatWhite_cons rfl _)
    have hsp : eatWhite (' ' :: (n ++ ('=' :: '"' :: (escape v ++ '"' :: (printParams ps ++ rest))))) =
        n ++ ('=' :: '"' :: (escape v ++ '"' :: (printParams ps ++ rest))) := by
      show eatWhite (n ++ _) = _
      cases n with
      | nil => exact eatWhite_cons rfl _
      | cons d n => exact eatWhite_cons (Spec.NameChar.white (h1 d (by simp)) (by simpa using h3)) _
    have ih' := ih (fun p hp' => hp p (by simp [hp'])) fuel ((n, v) :: acc) (by simp at hf; omega)
    rw [e]
    unfold readParams
    rw [hsp]
    -- the first character does not end the list
    obtain ⟨c, s, hcs, hne⟩ : ∃ c s, n ++ ('=' :: '"' :: (escape v ++ '"' :: (printParams ps ++ rest))) = c :: s ∧ ¬(c = '?' ∨ c = '/' ∨ c = '>') := by
      cases n with
      | nil => exact ⟨_, _, rfl, by decide⟩
      | cons d n =>
        refine ⟨_, _, rfl, ?_⟩
        have := h1 d (by simp)
        unfold NameChar at this
        simp at this h2
        simp [this, h2]
    rw [hcs]
    simp only [if_neg hne]
    rw [← hcs, ht]
    simp only [eatWhite_cons (show white '=' = false from rfl), eatWhite_cons (show white '"' = false from rfl), hq]
    rw [ih']
    simp

theorem tail_param {ps : List (List Char × List Char)} {rest : List Char} (hr : Close rest) :
    ∃ c s, printParams ps ++ rest = c :: s ∧ (tokenEnd c = true ∨ ps = [] ∧ c = '?') := by
  cases ps with
  | nil =>
    obtain ⟨c, t, rfl, hc⟩ := hr
    refine ⟨c, t, rfl, ?_⟩
    rcases hc with rfl | rfl | rfl
    · exact Or.inr ⟨rfl, rfl⟩
    · exact Or.inl rfl
    · exact Or.inl rfl
  | cons p ps => exact ⟨' ', _, rfl, Or.inl rfl⟩

theorem tag_end {tag : List Char} (h : Tag tag) (rest : List Char) : readToken (tag ++ '>' :: rest) = (tag, '>' :: rest) :=
  readToken_name h.1 h.2.2.2.2 ⟨_, _, rfl, rfl⟩ (fun e => absurd e h.2.1)

theorem print_ne {i : Item} (h : Good i) : print i ≠ [] := by
  cases h with
  | text h => simpa [print] using escape_ne h
  | elem => simp [print]
  | question => simp [print]

theorem question_tag {tag : List Char} (h : Tag tag) : question tag = false := by
  match tag, h with
  | c :: s, h =>
    have := h.2.2.1
    unfold question
    split
    · simp_all
    · rfl

/-- What may follow: after a string, only an item that is not a string. -/
def Follow (i : Item) (rest : List Char) : Prop := ∀ s, i = .text s → ∀ c t, rest = c :: t → c = '<'

theorem params_length (ps : List (List Char × List Char)) : ps.length ≤ (printParams ps).length := by
  induction ps with
  | nil => simp
  | cons p ps ih => obtain ⟨n, v⟩ := p; simp [printParams]; omega

theorem head_lt {i : Item} (h : Good i) (hn : ∀ s, i ≠ .text s) : ∃ s, print i = '<' :: s := by
  cases h with
  | text h => exact absurd rfl (hn _)
  | elem => exact ⟨_, by simp [print]; rfl⟩
  | question => exact ⟨_, by simp [print]; rfl⟩

/-- After the `<` of a tag. -/
theorem readItem_tag {fuel : Nat} {tag s : List Char} (h : Tag tag) : readItem (fuel + 1) ('<' :: (tag ++ s)) = readTag fuel (tag ++ s) := by
  match tag, h with
  | c :: t, h =>
    obtain ⟨h1, -, h2, h3, -⟩ := h
    have hc := h1 c (by simp)
    unfold NameChar at hc
    simp at hc h2 h3
    rw [List.cons_append]
    unfold readItem
    rw [if_pos rfl]
    split
    · simp_all
    · simp_all
    · simp_all
    · rfl

theorem read_end {fuel : Nat} {tag rest : List Char} (h : Tag tag) :
    readItem (fuel + 1) ('<' :: '/' :: (tag ++ '>' :: rest)) = some (.ended tag rest) := by
  have hw : eatWhite (tag ++ '>' :: rest) = tag ++ '>' :: rest := by
    match tag, h with
    | c :: t, h => exact eatWhite_cons (Spec.NameChar.white (h.1 c (by simp)) (by simpa using h.2.2.2.2)) _
  unfold readItem
  rw [if_pos rfl]
  simp only [hw, tag_end h, eatWhite_cons (show white '>' = false from rfl)]

theorem read_print {i : Item} (h : Good i) : ∀ (rest : List Char) (fuel : Nat), Follow i rest → 3 * (print i).length ≤ fuel →
    readItem fuel (print i ++ rest) = some (.val (some i) rest) := by
  induction h with
  | @text s hs =>
    intro rest fuel hf hl
    have hne := escape_ne hs
    obtain ⟨c, t, hct⟩ : ∃ c t, escape s = c :: t := by
      cases h : escape s with
      | nil => exact absurd h hne
      | cons c t => exact ⟨c, t, rfl⟩
    have hc : c ≠ '<' := (escape_free (s := s) (by rw [hct]; simp)).1
    obtain ⟨fuel, rfl⟩ : ∃ f, fuel = f + 1 := ⟨fuel - 1, by simp [print, hct] at hl; omega⟩
    have hs : readString (· == '<') (escape s ++ rest) = (escape s, rest) :=
      readString_append (fun c hc => by simpa using (escape_free hc).1) (fun a b e => by simpa using hf s rfl a b e)
    rw [print, hct, List.cons_append]
    unfold readItem
    rw [if_neg hc, ← List.cons_append, ← hct]
    simp only [hs, unescape_escape]
  | @elem tag params body ht hp hb ha ih =>
    intro rest fuel hf hl
    have hq := question_tag ht
    have hpl := params_length params
    have htl : 1 ≤ tag.length := by
      have := ht.2.1
      cases tag <;> simp_all
    have e0 : print (.elem tag params body) = '<' :: (tag ++ (printParams params ++ if body.isEmpty then "/>".toList
        else ['>'] ++ printAll body ++ "</".toList ++ tag ++ ['>'])) := by
      rw [print, hq]; simp
    rw [e0] at hl ⊢
    obtain ⟨fuel, rfl⟩ : ∃ f, fuel = f + 2 := ⟨fuel - 2, by simp at hl; omega⟩
    have key : ∀ close : List Char, Close close → (close.head? ≠ some '?') → params.length < fuel →
        readItem (fuel + 2) ('<' :: (tag ++ (printParams params ++ close))) = (match close with
          | '/' :: s => match s with | '>' :: s => some (.val (some (.elem tag params [])) s) | _ => some .error
          | '>' :: s =>
            match readBody fuel s [] with
            | none => none
            | some none => some .error
            | some (some (name, is, s)) => if name = tag then some (.val (some (.elem tag params is)) s) else some .error
          | _ => some .error) := by
      intro close hc hq hfu
      have h1 : readToken (tag ++ (printParams params ++ close)) = (tag, printParams params ++ close) := by
        refine readToken_name ht.1 ht.2.2.2.2 ?_ (fun e => absurd e ht.2.1)
        obtain ⟨c, s, e, h⟩ := tail_param (ps := params) hc
        refine ⟨c, s, e, ?_⟩
        rcases h with h | ⟨h, h'⟩
        · exact h
        · subst h h'
          simp [printParams] at e
          rw [e] at hq
          simp at hq
      rw [readItem_tag ht]
      unfold readTag
      simp only [h1, readParams_print hp hc fuel [] hfu]
      rfl
    by_cases hbe : body = []
    · subst hbe
      simp only [List.isEmpty_nil, if_pos]
      rw [show ('<' :: (tag ++ (printParams params ++ "/>".toList)) ++ rest) = '<' :: (tag ++ (printParams params ++ ('/' :: '>' :: rest))) by simp]
      exact key _ ⟨_, _, rfl, by simp⟩ (by simp) (by simp at hl; omega)
    · have hbe' : body.isEmpty = false := by cases body <;> simp_all
      rw [hbe'] at hl ⊢
      simp only [Bool.false_eq_true, if_false] at hl ⊢
      rw [show ('<' :: (tag ++ (printParams params ++ (['>'] ++ printAll body ++ "</".toList ++ tag ++ ['>']))) ++ rest) =
        '<' :: (tag ++ (printParams params ++ ('>' :: (printAll body ++ ('<' :: '/' :: (tag ++ '>' :: rest)))))) by simp]
      refine (key _ ⟨_, _, rfl, by simp⟩ (by simp) (by simp at hl; omega)).trans ?_
      have hbody : ∀ (is : List Item), (∀ i ∈ is, i ∈ body) → Apart is → ∀ (f : Nat) (acc : List Item), 3 * (printAll is).length + 2 ≤ f →
          readBody f (printAll is ++ ('<' :: '/' :: (tag ++ '>' :: rest))) acc = some (some (tag, acc.reverse ++ is, rest)) := by
        intro is
        induction is with
        | nil =>
          intro _ _ f acc hf
          obtain ⟨f, rfl⟩ : ∃ g, f = g + 2 := ⟨f - 2, by omega⟩
          simp only [printAll, List.nil_append]
          unfold readBody
          rw [read_end ht]
          simp
        | cons i is ih' =>
          intro hm ha f acc hf
          have hi := hb i (hm i (by simp))
          have hne := print_ne hi
          obtain ⟨c, t, hct⟩ : ∃ c t, print i = c :: t := by
            cases h : print i with
            | nil => exact absurd h hne
            | cons c t => exact ⟨c, t, rfl⟩
          have hlen : 1 ≤ (print i).length := by rw [hct]; simp
          have hpa : printAll (i :: is) = print i ++ printAll is := by rw [printAll]
          rw [hpa, List.length_append] at hf
          obtain ⟨f, rfl⟩ : ∃ g, f = g + 1 := ⟨f - 1, by omega⟩
          have hfo : Follow i (printAll is ++ ('<' :: '/' :: (tag ++ '>' :: rest))) := by
            intro s hs c t e
            subst hs
            cases is with
            | nil => simp [printAll] at e; exact e.1.symm
            | cons j js =>
              have hj := hb j (hm j (by simp))
              obtain ⟨u, hu⟩ := head_lt hj (fun s hs => by subst hs; exact ha.1)
              rw [printAll, hu] at e
              simp at e
              exact e.1.symm
          have hap : Apart is := by
            cases i with
            | text s =>
              cases is with
              | nil => trivial
              | cons j js =>
                cases j with
                | text t => exact ha.2
                | elem => exact ha
                | bang => exact ha
            | elem => exact ha
            | bang => exact ha
          rw [hpa, List.append_assoc, hct, List.cons_append]
          unfold readBody
          rw [← List.cons_append, ← hct, ih i (hm i (by simp)) _ f hfo (by omega)]
          simp only
          rw [ih' (fun j hj => hm j (by simp [hj])) hap f (i :: acc) (by omega)]
          simp
      have hb := hbody body (fun _ h => h) ha fuel [] (by simp at hl; omega)
      simp only [hb]
      simp
  | @question n params hn hp hne =>
    intro rest fuel hf hl
    have hpl := params_length params
    have e0 : print (.elem ('?' :: n) params []) ++ rest = '<' :: '?' :: (n ++ (printParams params ++ '?' :: '>' :: rest)) := by
      rw [print]; simp [question]
    have e1 : (print (.elem ('?' :: n) params [])).length = n.length + (printParams params).length + 4 := by
      rw [print]; simp [question]; omega
    obtain ⟨fuel, rfl⟩ : ∃ f, fuel = f + 1 := ⟨fuel - 1, by omega⟩
    have hn' : (∀ c ∈ n, NameChar c) ∧ n ≠ [] ∧ n.head? ≠ some '\r' := by
      rcases hn with h | ⟨h, h'⟩
      · exact ⟨h.1, h.2.1, h.2.2.2.2⟩
      · refine ⟨h', ?_, ?_⟩
        · rintro rfl; simp at h
        · rcases h with h | h <;> rw [h] <;> simp
    have hcl : Close ('?' :: '>' :: rest) := ⟨_, _, rfl, by simp⟩
    have h1 : readToken (n ++ (printParams params ++ '?' :: '>' :: rest)) = (n, printParams params ++ '?' :: '>' :: rest) := by
      refine readToken_name hn'.1 hn'.2.2 ?_ (fun e => absurd e hn'.2.1)
      obtain ⟨c, s, e, h⟩ := tail_param (ps := params) hcl
      exact ⟨c, s, e, h.resolve_right fun h => hne h.1⟩
    rw [e0]
    unfold readItem
    rw [if_pos rfl]
    simp only [readQuestion, h1, readParams_print hp hcl fuel [] (by omega)]
    simp

/-- C71.  What `print-xml-item` writes, `read-xml-item` reads as the same item, and stops behind it, whatever follows (after a
string: the end, or another item).
Missing: `(! STRING)` (`C71_comment_violated`), `?` items without parameters (`C71_question_violated`), strings next to each other,
which are read as one (`C71_adjacent_violated`), empty strings, and names with characters that end a name. -/
theorem C71_round_trip_partial (i : Item) (h : Good i) (rest : List Char) (hr : Follow i rest) :
    read (print i ++ rest) = some (.val (some i) rest) := by
  unfold read
  exact read_print h rest _ hr (by simp; omega)

/-! ### Every input -/

theorem eatWhite_length (s : List Char) : (eatWhite s).length ≤ s.length := by
  induction s with
  | nil => simp [eatWhite]
  | cons c s ih => unfold eatWhite; split <;> simp; omega

theorem readString_length (e : Char → Bool) (s : List Char) : (readString e s).2.length ≤ s.length := by
  induction s with
  | nil => simp [readString]
  | cons c s ih => unfold readString; split <;> simp; omega

theorem readToken_length (s : List Char) : (readToken s).2.length ≤ s.length :=
  Nat.le_trans (readString_length _ _) (eatWhite_length _)

theorem readQuoted_length (s : List Char) : (readQuoted s).2.length ≤ s.length := by
  cases s with
  | nil => simp [readQuoted]
  | cons c s =>
    simp only [readQuoted]
    split
    · simp
    split
    · have := readString_length (· == c) s
      simp; omega
    · exact readString_length _ _

theorem readParams_total : ∀ (fuel : Nat) (s : List Char) (acc : List (List Char × List Char)), s.length < fuel →
    ∃ r, readParams fuel s acc = some r ∧ ∀ ps t, r = some (ps, t) → t.length ≤ s.length ∧ t ≠ [] := by
  intro fuel
  induction fuel with
  | zero => intro s acc h; omega
  | succ fuel ih =>
    intro s acc h
    have h1 := eatWhite_length s
    unfold readParams
    split
    · rename_i c s' hs
      rw [hs] at h1
      split
      · exact ⟨_, rfl, fun ps t e => by cases e; exact ⟨h1, by simp⟩⟩
      · have h2 := readToken_length (c :: s')
        have h3 := eatWhite_length (readToken (c :: s')).2
        simp only
        split
        · rename_i s'' hs'
          rw [hs'] at h3
          have h4 := eatWhite_length s''
          have h5 := readQuoted_length (eatWhite s'')
          simp at h3
          obtain ⟨r, hr, hl⟩ := ih (readQuoted (eatWhite s'')).2 (((readToken (c :: s')).1, (readQuoted (eatWhite s'')).1) :: acc) (by omega)
          exact ⟨r, hr, fun ps t e => ⟨by have := (hl ps t e).1; omega, (hl ps t e).2⟩⟩
        · exact ⟨_, rfl, fun _ _ e => nomatch e⟩
    · exact ⟨_, rfl, fun _ _ e => nomatch e⟩

/-- Reading ends, and what is left is shorter. -/
def Ends (s : List Char) (r : Option (Out (Option Item))) : Prop :=
  ∃ o, r = some o ∧ match o with
    | .val none t => t = [] ∧ s = []
    | .val (some _) t => t.length < s.length
    | .ended _ t => t.length < s.length
    | .error => True

theorem reader_ends : ∀ fuel : Nat,
    (∀ s : List Char, 3 * s.length + 1 ≤ fuel → Ends s (readItem fuel s)) ∧
      (∀ s : List Char, 3 * s.length + 3 ≤ fuel → ∃ o, readTag fuel s = some o ∧
        match o with | .val (some _) t => t.length < s.length | .error => True | _ => False) ∧
      (∀ (s : List Char) (acc : List Item), 3 * s.length + 2 ≤ fuel → ∃ o, readBody fuel s acc = some o ∧
        ∀ n is t, o = some (n, is, t) → t.length < s.length) := by
  intro fuel
  induction fuel with
  | zero => exact ⟨fun s h => by omega, fun s h => by omega, fun s acc h => by omega⟩
  | succ fuel ih =>
    obtain ⟨ihI, ihT, ihB⟩ := ih
    refine ⟨fun s hs => ?_, fun s hs => ?_, fun s acc hs => ?_⟩
    · cases s with
      | nil => exact ⟨_, rfl, rfl, rfl⟩
      | cons c s =>
        simp at hs
        unfold readItem
        split
        · split
          · rename_i s' 
            have h1 := eatWhite_length s'
            have h2 := readToken_length (eatWhite s')
            have h3 := eatWhite_length (readToken (eatWhite s')).2
            simp only
            split
            · rename_i t ht
              rw [ht] at h3
              simp at h3
              exact ⟨_, rfl, by simp; omega⟩
            · exact ⟨_, rfl, trivial⟩
          · rename_i s'
            have h1 := readToken_length s'
            simp at hs
            obtain ⟨r, hr, hl⟩ := readParams_total fuel (readToken s').2 [] (by omega)
            unfold readQuestion
            simp only [hr]
            cases r with
            | none => exact ⟨_, rfl, trivial⟩
            | some p =>
              obtain ⟨ps, t⟩ := p
              obtain ⟨hl, -⟩ := hl ps t rfl
              simp only
              split
              · rename_i u hu
                have : t.tail.length ≤ t.length := by simp
                rw [hu] at this
                simp at this
                exact ⟨_, rfl, by simp; omega⟩
              · exact ⟨_, rfl, trivial⟩
          · rename_i s'
            have h1 := readString_length (· == '>') s'
            unfold readExclam
            simp only
            split
            · rename_i t ht
              rw [ht] at h1
              simp at h1
              exact ⟨_, rfl, by simp; omega⟩
            · exact ⟨_, rfl, trivial⟩
          · obtain ⟨o, ho, hl⟩ := ihT s (by omega)
            refine ⟨o, ho, ?_⟩
            split at hl
            · simp; omega
            · trivial
            · exact absurd hl id
        · rename_i hc
          refine ⟨_, rfl, ?_⟩
          have h1 := readString_length (· == '<') s
          have : readString (· == '<') (c :: s) = (c :: (readString (· == '<') s).1, (readString (· == '<') s).2) := by
            simp [readString, hc]
          simp only [this]
          simp; omega
    · have h1 := readToken_length s
      obtain ⟨r, hr, hl⟩ := readParams_total fuel (readToken s).2 [] (by omega)
      unfold readTag
      simp only [hr]
      cases r with
      | none => exact ⟨_, rfl, trivial⟩
      | some p =>
        obtain ⟨ps, t⟩ := p
        obtain ⟨hl, hne⟩ := hl ps t rfl
        simp only
        split
        · split
          · rename_i u
            simp at hl
            exact ⟨_, rfl, by simp; omega⟩
          · exact ⟨_, rfl, trivial⟩
        · rename_i u _
          simp at hl
          obtain ⟨o, ho, hb⟩ := ihB u [] (by omega)
          simp only [ho]
          cases o with
          | none => exact ⟨_, rfl, trivial⟩
          | some q =>
            obtain ⟨n, is, v⟩ := q
            have := hb n is v rfl
            simp only
            split
            · exact ⟨_, rfl, by simp; omega⟩
            · exact ⟨_, rfl, trivial⟩
        · exact ⟨_, rfl, trivial⟩
    · cases s with
      | nil => exact ⟨_, rfl, fun _ _ _ e => nomatch e⟩
      | cons c s =>
        obtain ⟨o, ho, hl⟩ := ihI (c :: s) (by omega)
        unfold readBody
        rw [ho]
        match o, hl with
        | .error, _ => exact ⟨_, rfl, fun _ _ _ e => nomatch e⟩
        | .ended n t, hl => exact ⟨_, rfl, fun _ _ _ e => by cases e; exact hl⟩
        | .val none t, _ => exact ⟨_, rfl, fun _ _ _ e => nomatch e⟩
        | .val (some i) t, hl =>
          simp at hl
          obtain ⟨o, ho, hb⟩ := ihB t (i :: acc) (by simp at hs; omega)
          refine ⟨o, ho, fun n is u e => ?_⟩
          have := hb n is u e
          simp; omega

/-- C71.  Reading one item ends for every text, and unless the text is at its end something has been consumed (or an error is raised): a
loop that reads items until nil ends. -/
theorem C71_reading_ends (s : List Char) : ∃ o, read s = some o ∧
    (∀ t, o = .val none t → s = []) ∧ (∀ i t, o = .val (some i) t → t.length < s.length) ∧ (∀ n t, o = .ended n t → t.length < s.length) := by
  obtain ⟨o, ho, h⟩ := (reader_ends (4 * s.length + 4)).1 s (by omega)
  refine ⟨o, ho, ?_, ?_, ?_⟩
  · rintro t rfl; exact h.2
  · rintro i t rfl; exact h
  · rintro n t rfl; exact h

/-! ### Examples -/

/-- `(foo ((a . "x<\"")) "b&c" (bar ()) "d")` -/
def sample : Item := .elem "foo".toList [("a".toList, "x<\"".toList)] [.text "b&c".toList, .elem "bar".toList [] [], .text "d".toList]

example : Good sample ∧ print sample = "<foo a=\"x&lt;&quot;\">b&amp;c<bar/>d</foo>".toList := by
  have tag : ∀ n : List Char, (n = "foo".toList ∨ n = "bar".toList) → Tag n := by
    rintro n (rfl | rfl) <;> (refine ⟨?_, ?_, ?_, ?_, ?_⟩ <;> simp [NameChar])
  refine ⟨.elem (tag _ (Or.inl rfl)) ?_ ?_ ?_, ?_⟩
  · simp [ParamName, NameChar]
  · simp only [List.mem_cons, List.not_mem_nil, or_false]
    rintro i (rfl | rfl | rfl)
    · exact .text (by simp)
    · exact .elem (tag _ (Or.inr rfl)) (by simp) (by simp) trivial
    · exact .text (by simp)
  · simp [Apart]
  · simp [sample, print, printAll, printParams, escape, question]

/-- A comment is printed as `<!()>`. -/
theorem C71_comment_violated : print (.bang "-- a comment --".toList) = "<!()>".toList ∧
    read (print (.bang "-- a comment --".toList)) = some (.val (some (.bang "()".toList)) []) := by
  refine ⟨by rw [print], ?_⟩
  have : unescape ['(', ')'] = ['(', ')'] := by rw [unescape_other (by decide), unescape_other (by decide), unescape]
  rw [print]
  simp [read, readItem, readExclam, readString, this]

/-- `(?xml ())` is printed as `<?xml?>`, which is not read. -/
theorem C71_question_violated : print (.elem "?xml".toList [] []) = "<?xml?>".toList ∧ read "<?xml?>".toList = some .error := by
  constructor
  · simp [print, printParams, question]
  · rfl

/-- Two strings are read as one. -/
theorem C71_adjacent_violated : ∃ i, read (print (.elem "a".toList [] [.text "b".toList, .text "c".toList])) = some (.val (some i) []) ∧
    i = .elem "a".toList [] [.text "bc".toList] := by
  refine ⟨_, ?_, rfl⟩
  have : unescape ['b', 'c'] = ['b', 'c'] := by rw [unescape_other (by decide), unescape_other (by decide), unescape]
  simp [print, printAll, printParams, escape, question, read, readItem, readTag, readBody, readToken, eatWhite, white, readString, tokenEnd, readParams, this]

end Rep.Xml
