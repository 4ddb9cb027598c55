import Verif.Regex.Emit2

/-
What the parser makes.
-/

namespace Rep.Regex

/-! ### Enough fuel -/

theorem parseSet_len {acc s : List Nat} {prev : Nat} {r : List Nat × List Nat} (h : parseSet prev acc s = .ok r) :
    r.2.length ≤ s.length := by
  induction hn : s.length using Nat.strongRecOn generalizing s acc prev with
  | _ n ih =>
    cases s with
    | nil => simp [parseSet] at h
    | cons c t =>
      unfold parseSet at h
      simp only [List.length_cons] at hn
      split at h
      · cases h
        simp only; omega
      · split at h
        · cases t with
          | nil => cases h
          | cons d t' =>
            simp only at h
            simp only [List.length_cons] at hn
            split at h
            · cases h
              simp only; omega
            · split at h
              · cases h
              · have := ih t'.length (by omega) h rfl
                omega
        · have := ih t.length (by omega) h rfl
          omega

theorem parseSet0_len {s : List Nat} {r : One × List Nat} (h : parseSet0 s = .ok r) : r.2.length ≤ s.length := by
  unfold parseSet0 at h
  have key : ∀ (s1 : List Nat) (neg : Bool) (p0 : Nat), s1.length ≤ s.length →
      (match s1 with
        | [] => (.error .unmatchedSet : Except Err (One × List Nat))
        | c :: t => (if c = 93 ∨ c = 45 then parseSet c [c] t else parseSet p0 [] s1).map fun (r : List Nat × List Nat) => (One.set neg r.1, r.2)) =
        .ok r → r.2.length ≤ s.length := by
    intro s1 neg p0 hl h
    cases s1 with
    | nil => cases h
    | cons c t =>
      simp only at h
      simp only [List.length_cons] at hl
      split at h
      · cases hp : parseSet c [c] t with
        | error e => rw [hp] at h; cases h
        | ok v =>
          rw [hp] at h
          cases h
          have := parseSet_len hp
          simp only; omega
      · cases hp : parseSet p0 [] (c :: t) with
        | error e => rw [hp] at h; cases h
        | ok v =>
          rw [hp] at h
          cases h
          have := parseSet_len hp
          simp only [List.length_cons] at this ⊢
          omega
  refine key (if (s.head? == some 94) = true then s.tail else s) _ _ ?_ h
  split
  · simp
  · exact Nat.le_refl _

theorem litLen_pos {c : Nat} {t : List Nat} (h : isMeta c = false) : 0 < litLen (c :: t) ∧ litLen (c :: t) ≤ (c :: t).length := by
  have h1 : 0 < ((c :: t).takeWhile fun c => !isMeta c).length := by
    rw [List.takeWhile_cons, if_pos (by simp [h])]
    simp
  have h2 := (List.takeWhile_prefix (l := c :: t) fun c => !isMeta c).length_le
  unfold litLen
  simp only
  split <;> omega

/-- The bounds on the recursion, and that the text that is left is not longer. -/
theorem parse_bounds (f : Nat) :
    (∀ s n, 4 * s.length + 4 ≤ f → parseAlts f s n ≠ .error .fuel) ∧
    (∀ s n, 4 * s.length + 3 ≤ f → parseBranch f s n ≠ .error .fuel) ∧
    (∀ s n, 4 * s.length + 2 ≤ f → parsePiece f s n ≠ .error .fuel) ∧
    (∀ s n, 4 * s.length + 1 ≤ f → parseAtom f s n ≠ .error .fuel) ∧
    (∀ s n r, parseAlts f s n = .ok r → r.2.1.length ≤ s.length) ∧
    (∀ s n r, parseBranch f s n = .ok r → r.2.1.length ≤ s.length) ∧
    (∀ s n r, parsePiece f s n = .ok r → r.2.1.length < s.length) ∧
    (∀ s n r, parseAtom f s n = .ok r → r.2.1.length < s.length) := by
  induction f with
  | zero =>
    refine ⟨fun s n h => ?_, fun s n h => ?_, fun s n h => ?_, fun s n h => ?_, fun s n r h => ?_, fun s n r h => ?_,
      fun s n r h => ?_, fun s n r h => ?_⟩
    · omega
    · omega
    · omega
    · omega
    · simp [parseAlts] at h
    · simp [parseBranch] at h
    · simp [parsePiece] at h
    · simp [parseAtom] at h
  | succ f ih =>
    obtain ⟨fA, fB, fP, fT, lA, lB, lP, lT⟩ := ih
    refine ⟨fun s n h => ?_, fun s n h => ?_, fun s n h => ?_, fun s n h => ?_, fun s n r h => ?_, fun s n r h => ?_,
      fun s n r h => ?_, fun s n r h => ?_⟩
    · simp only [parseAlts]
      cases hb : parseBranch f s n with
      | error e =>
        have := fB s n (by omega)
        rw [hb] at this
        simpa using this
      | ok v =>
        obtain ⟨b, s1, n1⟩ := v
        have hl := lB s n _ hb
        cases s1 with
        | nil => simp
        | cons c t =>
          simp only at hl ⊢
          split
          · simp only [List.length_cons] at hl
            cases ha : parseAlts f t n1 with
            | error e =>
              have := fA t n1 (by omega)
              rw [ha] at this
              simpa using this
            | ok v => simp
          · simp
    · simp only [parseBranch]
      split
      · simp
      · cases hp : parsePiece f s n with
        | error e =>
          have := fP s n (by omega)
          rw [hp] at this
          simpa using this
        | ok v =>
          obtain ⟨p, s1, n1⟩ := v
          have hl := lP s n _ hp
          simp only at hl ⊢
          cases hb : parseBranch f s1 n1 with
          | error e =>
            have := fB s1 n1 (by omega)
            rw [hb] at this
            simpa using this
          | ok v => simp
    · simp only [parsePiece]
      cases ha : parseAtom f s n with
      | error e =>
        have := fT s n (by omega)
        rw [ha] at this
        simpa using this
      | ok v =>
        obtain ⟨a, s1, n1⟩ := v
        cases s1 with
        | nil => simp
        | cons c t =>
          simp only
          cases mult? c with
          | none => simp
          | some m =>
            simp only
            split
            · simp
            · generalize (if (t.head? != some 63) = true then t else t.tail) = s2
              split <;> simp
    · unfold parseAtom
      cases s with
      | nil => simp
      | cons c t =>
        simp only [List.length_cons] at h
        simp only
        split
        · simp
        · split
          · simp
          · split
            · simp
            · split
              · cases hs : parseSet0 t with
                | error e =>
                  have : e ≠ .fuel := by
                    rintro rfl
                    have key : ∀ (s1 : List Nat) (acc : List Nat) (prev : Nat), parseSet prev acc s1 ≠ .error .fuel := by
                      intro s1
                      induction hn : s1.length using Nat.strongRecOn generalizing s1 with
                      | _ n ih =>
                        intro acc prev
                        cases s1 with
                        | nil => simp [parseSet]
                        | cons c t =>
                          simp only [List.length_cons] at hn
                          unfold parseSet
                          split
                          · simp
                          · split
                            · cases t with
                              | nil => simp
                              | cons d t' =>
                                simp only [List.length_cons] at hn
                                simp only
                                split
                                · simp
                                · split
                                  · simp
                                  · exact ih t'.length (by omega) t' rfl _ _
                            · exact ih t.length (by omega) t rfl _ _
                    unfold parseSet0 at hs
                    simp only at hs
                    generalize (if (t.head? == some 94) = true then t.tail else t) = s1 at hs
                    cases s1 with
                    | nil => cases hs
                    | cons c' t' =>
                      simp only at hs
                      split at hs
                      · cases hp : parseSet c' [c'] t' with
                        | error e =>
                          rw [hp] at hs
                          cases hs
                          exact key _ _ _ hp
                        | ok v => rw [hp] at hs; cases hs
                      · generalize (if (t.head? == some 94) = true then 94 else 91) = p0 at hs
                        cases hp : parseSet p0 [] (c' :: t') with
                        | error e =>
                          rw [hp] at hs
                          cases hs
                          exact key _ _ _ hp
                        | ok v => rw [hp] at hs; cases hs
                  simpa using this
                | ok v => simp
              · split
                · split
                  · simp
                  · cases ha : parseAlts f t (n + 1) with
                    | error e =>
                      have := fA t (n + 1) (by omega)
                      rw [ha] at this
                      simpa using this
                    | ok v =>
                      obtain ⟨r, s1, n1⟩ := v
                      cases s1 with
                      | nil => simp
                      | cons d t' =>
                        simp only
                        split <;> simp
                · split
                  · simp
                  · split
                    · simp
                    · split
                      · cases t with
                        | nil => simp
                        | cons d t' => simp
                      · simp
    · simp only [parseAlts] at h
      cases hb : parseBranch f s n with
      | error e => rw [hb] at h; cases h
      | ok v =>
        obtain ⟨b, s1, n1⟩ := v
        have hl := lB s n _ hb
        rw [hb] at h
        cases s1 with
        | nil => cases h; simp
        | cons c t =>
          simp only at hl h
          split at h
          · simp only [List.length_cons] at hl
            cases ha : parseAlts f t n1 with
            | error e => rw [ha] at h; cases h
            | ok v =>
              rw [ha] at h
              cases h
              have : v.2.1.length ≤ t.length := lA t n1 _ ha
              show v.2.1.length ≤ s.length
              omega
          · cases h
            simpa using hl
    · simp only [parseBranch] at h
      split at h
      · cases h; simp
      · cases hp : parsePiece f s n with
        | error e => rw [hp] at h; cases h
        | ok v =>
          obtain ⟨p, s1, n1⟩ := v
          have hl := lP s n _ hp
          rw [hp] at h
          simp only at hl h
          cases hb : parseBranch f s1 n1 with
          | error e => rw [hb] at h; cases h
          | ok v =>
            rw [hb] at h
            cases h
            have : v.2.1.length ≤ s1.length := lB s1 n1 _ hb
            show v.2.1.length ≤ s.length
            omega
    · simp only [parsePiece] at h
      cases ha : parseAtom f s n with
      | error e => rw [ha] at h; cases h
      | ok v =>
        obtain ⟨a, s1, n1⟩ := v
        have hl := lT s n _ ha
        rw [ha] at h
        cases s1 with
        | nil => cases h; simpa using hl
        | cons c t =>
          simp only at hl h
          simp only [List.length_cons] at hl
          cases hm : mult? c with
          | none => rw [hm] at h; cases h; simpa using hl
          | some m =>
            rw [hm] at h
            simp only at h
            split at h
            · cases h
            · have hs2 : (if (t.head? != some 63) = true then t else t.tail).length ≤ t.length := by
                split
                · exact Nat.le_refl _
                · simp
              generalize (if (t.head? != some 63) = true then t else t.tail) = s2 at h hs2
              split at h
              · cases h
              · cases h
                simp only
                omega
    · unfold parseAtom at h
      cases s with
      | nil => cases h
      | cons c t =>
        simp only at h
        simp only [List.length_cons]
        split at h
        · cases h; simp
        · split at h
          · cases h; simp
          · split at h
            · cases h; simp
            · split at h
              · cases hs : parseSet0 t with
                | error e => rw [hs] at h; cases h
                | ok v =>
                  obtain ⟨o, t'⟩ := v
                  rw [hs] at h
                  cases h
                  have := parseSet0_len hs
                  simp only at this ⊢; omega
              · split at h
                · split at h
                  · cases h
                  · cases ha : parseAlts f t (n + 1) with
                    | error e => rw [ha] at h; cases h
                    | ok v =>
                      obtain ⟨r, s1, n1⟩ := v
                      have hl := lA t (n + 1) _ ha
                      rw [ha] at h
                      cases s1 with
                      | nil => cases h
                      | cons d t' =>
                        simp only [List.length_cons] at hl
                        simp only at h
                        split at h
                        · cases h; simp only; omega
                        · cases h
                · split at h
                  · cases h
                  · split at h
                    · cases h
                    · split at h
                      · cases t with
                        | nil => cases h
                        | cons d t' => cases h; simp only [List.length_cons]; omega
                      · rename_i g1 g2 g3 g4 g5 g6 g7 g8
                        have hm : isMeta c = false := by
                          simp only [not_or] at g6 g7
                          simp [isMeta, g1, g2, g3, g4, g5, g6, g7, g8]
                        have := litLen_pos (t := t) hm
                        cases h
                        simp only [List.length_drop, List.length_cons] at this ⊢
                        omega

/-- The bound on the recursion of the model is never hit. -/
theorem parse_fuel (s : List Nat) : parse s ≠ .error .fuel := by
  unfold parse
  have := (parse_bounds (4 * s.length + 4)).1 s 1 (Nat.le_refl _)
  cases h : parseAlts (4 * s.length + 4) s 1 with
  | error e => rw [h] at this; simpa using this
  | ok v =>
    obtain ⟨r, s1, n1⟩ := v
    cases s1 with
    | nil => simp
    | cons c t =>
      simp only
      split <;> simp

/-! ### The trees are well formed -/

theorem escape_ok {c : Nat} (h : c ≠ 0) : (escape c).ok = true := by
  unfold escape
  repeat' split
  all_goals simp [One.ok, h]

theorem take_sub {s : List Nat} {n : Nat} {c : Nat} (h : c ∈ s.take n) : c ∈ s := List.mem_of_mem_take h

def NoNul (s : List Nat) : Prop := ∀ c ∈ s, c ≠ 0

theorem NoNul.tail {c : Nat} {s : List Nat} (h : NoNul (c :: s)) : NoNul s := fun a ha => h a (List.mem_cons_of_mem _ ha)

/-- What is left is an end of what was there. -/
theorem parseSet_suffix {acc s : List Nat} {prev : Nat} {r : List Nat × List Nat} (h : parseSet prev acc s = .ok r) :
    r.2 <:+ s := by
  induction hn : s.length using Nat.strongRecOn generalizing s acc prev with
  | _ n ih =>
    cases s with
    | nil => simp [parseSet] at h
    | cons c t =>
      unfold parseSet at h
      simp only [List.length_cons] at hn
      split at h
      · cases h
        exact List.suffix_cons ..
      · split at h
        · cases t with
          | nil => cases h
          | cons d t' =>
            simp only at h
            simp only [List.length_cons] at hn
            split at h
            · cases h
              exact (List.suffix_cons ..).trans (List.suffix_cons ..)
            · split at h
              · cases h
              · exact ((ih t'.length (by omega) h rfl).trans (List.suffix_cons ..)).trans (List.suffix_cons ..)
        · exact (ih t.length (by omega) h rfl).trans (List.suffix_cons ..)

theorem parseSet0_suffix {s : List Nat} {r : One × List Nat} (h : parseSet0 s = .ok r) : r.2 <:+ s ∧ r.1.ok = true := by
  unfold parseSet0 at h
  have hs : (if (s.head? == some 94) = true then s.tail else s) <:+ s := by
    split
    · exact List.tail_suffix s
    · exact List.suffix_refl s
  simp only at h
  generalize (if (s.head? == some 94) = true then s.tail else s) = s1 at h hs
  generalize (if (s.head? == some 94) = true then 94 else 91) = p0 at h
  cases s1 with
  | nil => cases h
  | cons c t =>
    simp only at h
    split at h
    · cases hp : parseSet c [c] t with
      | error e => rw [hp] at h; cases h
      | ok v =>
        rw [hp] at h
        cases h
        exact ⟨((parseSet_suffix hp).trans (List.suffix_cons ..)).trans hs, rfl⟩
    · cases hp : parseSet p0 [] (c :: t) with
      | error e => rw [hp] at h; cases h
      | ok v =>
        rw [hp] at h
        cases h
        exact ⟨(parseSet_suffix hp).trans hs, rfl⟩

theorem parse_wf_aux (f : Nat) :
    (∀ s n r, NoNul s → parseAlts f s n = .ok r → r.1.wf .alts = true ∧ r.2.1 <:+ s) ∧
    (∀ s n r, NoNul s → parseBranch f s n = .ok r → r.1.wf .branch = true ∧ r.2.1 <:+ s) ∧
    (∀ s n r, NoNul s → parsePiece f s n = .ok r → r.1.wf .piece = true ∧ r.2.1 <:+ s) ∧
    (∀ s n r, NoNul s → parseAtom f s n = .ok r → (r.1.wf .piece = true ∧ r.1.isRep = false) ∧ r.2.1 <:+ s) := by
  have sub : ∀ {a b : List Nat}, a <:+ b → NoNul b → NoNul a := fun h hb c hc => hb c (h.subset hc)
  induction f with
  | zero =>
    refine ⟨fun s n r _ h => ?_, fun s n r _ h => ?_, fun s n r _ h => ?_, fun s n r _ h => ?_⟩
    · simp [parseAlts] at h
    · simp [parseBranch] at h
    · simp [parsePiece] at h
    · simp [parseAtom] at h
  | succ f ih =>
    obtain ⟨wA, wB, wP, wT⟩ := ih
    refine ⟨fun s n r h0 h => ?_, fun s n r h0 h => ?_, fun s n r h0 h => ?_, fun s n r h0 h => ?_⟩
    · simp only [parseAlts] at h
      cases hb : parseBranch f s n with
      | error e => rw [hb] at h; cases h
      | ok v =>
        obtain ⟨b, s1, n1⟩ := v
        have hl := wB s n _ h0 hb
        rw [hb] at h
        cases s1 with
        | nil => cases h; exact hl
        | cons c t =>
          simp only at hl h
          split at h
          · cases ha : parseAlts f t n1 with
            | error e => rw [ha] at h; cases h
            | ok v =>
              rw [ha] at h
              cases h
              have hts : t <:+ s := (List.suffix_cons ..).trans hl.2
              have := wA t n1 _ (sub hts h0) ha
              exact ⟨by simp only [Re.wf, Bool.and_eq_true]; exact ⟨hl.1, this.1⟩, this.2.trans hts⟩
          · cases h
            exact hl
    · simp only [parseBranch] at h
      split at h
      · cases h; exact ⟨rfl, List.suffix_refl _⟩
      · cases hp : parsePiece f s n with
        | error e => rw [hp] at h; cases h
        | ok v =>
          obtain ⟨p, s1, n1⟩ := v
          have hl := wP s n _ h0 hp
          rw [hp] at h
          simp only at hl h
          cases hb : parseBranch f s1 n1 with
          | error e => rw [hb] at h; cases h
          | ok v =>
            rw [hb] at h
            cases h
            have := wB s1 n1 _ (sub hl.2 h0) hb
            exact ⟨by simp only [Re.wf, Bool.and_eq_true]; exact ⟨hl.1, this.1⟩, this.2.trans hl.2⟩
    · simp only [parsePiece] at h
      cases ha : parseAtom f s n with
      | error e => rw [ha] at h; cases h
      | ok v =>
        obtain ⟨a, s1, n1⟩ := v
        have hl := wT s n _ h0 ha
        rw [ha] at h
        cases s1 with
        | nil => cases h; exact ⟨hl.1.1, hl.2⟩
        | cons c t =>
          simp only at hl h
          cases hm : mult? c with
          | none => rw [hm] at h; cases h; exact ⟨hl.1.1, hl.2⟩
          | some m =>
            rw [hm] at h
            simp only at h
            split at h
            · cases h
            · rename_i hwid
              have hs2 : (if (t.head? != some 63) = true then t else t.tail) <:+ t := by
                split
                · exact List.suffix_refl _
                · exact List.tail_suffix t
              generalize (if (t.head? != some 63) = true then t else t.tail) = s2 at h hs2
              split at h
              · cases h
              · cases h
                have hts : t <:+ s := (List.suffix_cons ..).trans hl.2
                refine ⟨?_, ?_⟩
                · simp only [Re.wf, Bool.and_eq_true, hl.1.1, hl.1.2]
                  refine ⟨⟨trivial, ?_⟩, rfl⟩
                  cases hh : a.hasWidth with
                  | true => simp
                  | false =>
                    have : m = .opt := Classical.byContradiction fun hm' => hwid ⟨hh, hm'⟩
                    simp [this]
                · exact hs2.trans hts
    · unfold parseAtom at h
      cases s with
      | nil => cases h
      | cons c t =>
        have ht : t <:+ c :: t := List.suffix_cons ..
        simp only at h
        split at h
        · cases h; exact ⟨⟨rfl, rfl⟩, ht⟩
        · split at h
          · cases h; exact ⟨⟨rfl, rfl⟩, ht⟩
          · split at h
            · cases h; exact ⟨⟨rfl, rfl⟩, ht⟩
            · split at h
              · cases hs : parseSet0 t with
                | error e => rw [hs] at h; cases h
                | ok v =>
                  obtain ⟨o, t'⟩ := v
                  rw [hs] at h
                  cases h
                  have := parseSet0_suffix hs
                  exact ⟨⟨this.2, rfl⟩, this.1.trans ht⟩
              · split at h
                · split at h
                  · cases h
                  · cases ha : parseAlts f t (n + 1) with
                    | error e => rw [ha] at h; cases h
                    | ok v =>
                      obtain ⟨r, s1, n1⟩ := v
                      have hl := wA t (n + 1) _ h0.tail ha
                      rw [ha] at h
                      cases s1 with
                      | nil => cases h
                      | cons d t' =>
                        simp only at h
                        split at h
                        · cases h
                          exact ⟨⟨hl.1, rfl⟩, ((List.suffix_cons ..).trans hl.2).trans ht⟩
                        · cases h
                · split at h
                  · cases h
                  · split at h
                    · cases h
                    · split at h
                      · cases t with
                        | nil => cases h
                        | cons d t' =>
                          cases h
                          refine ⟨⟨escape_ok (h0.tail d (List.mem_cons_self ..)), rfl⟩, (List.suffix_cons ..).trans ht⟩
                      · rename_i g1 g2 g3 g4 g5 g6 g7 g8
                        have hm : isMeta c = false := by
                          simp only [not_or] at g6 g7
                          simp [isMeta, g1, g2, g3, g4, g5, g6, g7, g8]
                        have hp := litLen_pos (t := t) hm
                        cases h
                        refine ⟨⟨?_, rfl⟩, List.drop_suffix _ _⟩
                        simp only [Re.wf, One.ok, Bool.and_eq_true, List.all_eq_true]
                        refine ⟨?_, fun a ha => by simpa using h0 a (take_sub ha)⟩
                        cases hk : litLen (c :: t) with
                        | zero => omega
                        | succ k => rfl

theorem parse_wf {s : List Nat} {r : Re} (hs : NoNul s) (h : parse s = .ok r) : r.wf .alts = true := by
  unfold parse at h
  cases ha : parseAlts (4 * s.length + 4) s 1 with
  | error e => rw [ha] at h; cases h
  | ok v =>
    obtain ⟨r', s1, n1⟩ := v
    have := (parse_wf_aux (4 * s.length + 4)).1 s 1 _ hs ha
    rw [ha] at h
    cases s1 with
    | nil => cases h; exact this.1
    | cons c t =>
      simp only at h
      split at h <;> cases h

end Rep.Regex
