import Verif.Regex.Match

/-
The nodes that look at one place do what the atoms mean.
-/

namespace Rep.Regex

open Spec

/-- The text of a C string has no NUL. -/
def Ctx.Clean (x : Ctx) : Prop := ∀ c ∈ x.text, c ≠ 0

theorem Ctx.Clean.get {x : Ctx} (h : x.Clean) {i : Nat} (hi : i < x.text.length) : x.text.getD i 0 ≠ 0 := by
  rw [List.getD_eq_getElem?_getD, List.getElem?_eq_getElem hi]
  exact h _ (List.getElem_mem hi)

theorem rd_lt {x : Ctx} {i : Nat} (hi : i < x.text.length) : x.rd i = some (x.text.getD i 0) := by
  simp [Ctx.rd, hi]

theorem rd_end (x : Ctx) : x.rd x.text.length = some 0 := by
  simp [Ctx.rd]

theorem up_zero {c : Nat} (h : up c = up 0) : c = 0 := by
  unfold up at h
  split at h <;> simp at h <;> omega

theorem same_zero {x : Ctx} {c : Nat} (h : c ≠ 0) : x.same c 0 = false := by
  unfold Ctx.same
  split
  · simp only [beq_eq_false_iff_ne]
    exact fun e => h (up_zero e)
  · simp [h]

/-- The string `s` is in the text at `i`. -/
def Ctx.hasAt (x : Ctx) (s : List Nat) (i : Nat) : Prop :=
  i + s.length ≤ x.text.length ∧ ∀ k, k < s.length → x.same (s.getD k 0) (x.text.getD (i + k) 0) = true

theorem hasAt_cons {x : Ctx} {c : Nat} {s : List Nat} {i : Nat} : x.hasAt (c :: s) i ↔
    i < x.text.length ∧ x.same c (x.text.getD i 0) = true ∧ x.hasAt s (i + 1) := by
  constructor
  · rintro ⟨h1, h2⟩
    simp only [List.length_cons] at h1 h2
    refine ⟨by omega, by simpa using h2 0 (by omega), by omega, fun k hk => ?_⟩
    have := h2 (k + 1) (by omega)
    simpa [Nat.add_assoc, Nat.add_comm 1 k] using this
  · rintro ⟨h1, h2, h3, h4⟩
    refine ⟨by simp only [List.length_cons]; omega, fun k hk => ?_⟩
    cases k with
    | zero => simpa using h2
    | succ k =>
      have := h4 k (by simpa using hk)
      simpa [Nat.add_assoc, Nat.add_comm 1 k] using this

open Classical in
theorem litAt_ok {x : Ctx} (s : List Nat) (hs : ∀ c ∈ s, c ≠ 0) : ∀ i, i ≤ x.text.length →
    x.litAt s i = some (if x.hasAt s i then some (i + s.length) else none) := by
  induction s with
  | nil =>
    intro i hi
    have : x.hasAt [] i := ⟨by simpa using hi, fun k hk => absurd hk (by simp)⟩
    simp [Ctx.litAt, this]
  | cons c s ih =>
    intro i hi
    simp only [Ctx.litAt]
    by_cases he : i < x.text.length
    · rw [rd_lt he]
      simp only
      by_cases hc : x.same c (x.text.getD i 0) = true
      · rw [if_pos hc, ih (fun a ha => hs a (List.mem_cons_of_mem _ ha)) (i + 1) (by omega)]
        congr 1
        simp only [hasAt_cons, he, hc, true_and, List.length_cons]
        congr 1
        congr 1
        omega
      · rw [if_neg hc, if_neg]
        rw [hasAt_cons]
        exact fun h => hc h.2.1
    · obtain rfl : i = x.text.length := by omega
      rw [rd_end]
      simp only [same_zero (hs c (List.mem_cons_self ..))]
      rw [if_neg (by simp), if_neg]
      rw [hasAt_cons]
      exact fun h => he h.1

theorem oneEnd_lit {x : Ctx} {s : List Nat} {i : Nat} (hi : i ≤ x.text.length) :
    (x.hasAt s i → oneEnd x (.lit s) i = some (i + s.length)) ∧ (¬ x.hasAt s i → oneEnd x (.lit s) i = none) := by
  have key : (i + s.length ≤ x.text.length ∧
      (List.range s.length).all (fun k => x.same (s.getD k 0) (x.text.getD (i + k) 0)) = true) ↔ x.hasAt s i := by
    simp only [Ctx.hasAt, List.all_eq_true, List.mem_range]
  constructor
  · intro h
    unfold oneEnd
    rw [if_neg (by omega)]
    simp only
    rw [if_pos (key.2 h)]
  · intro h
    unfold oneEnd
    rw [if_neg (by omega)]
    simp only
    rw [if_neg fun h' => h (key.1 h')]

theorem lit_clean {s : List Nat} (h : (One.lit s).ok = true) : s ≠ [] ∧ ∀ c ∈ s, c ≠ 0 := by
  simp only [One.ok, Bool.and_eq_true, List.all_eq_true] at h
  refine ⟨by intro e; simp [e] at h, fun c hc => by simpa using h.2 c hc⟩

theorem isWord_zero : isWord 0 = false := rfl
theorem isSpace_zero : isSpace 0 = false := rfl
theorem isDigit_zero : isDigit 0 = false := rfl

/-- The matcher's step is the meaning of the atom. -/
theorem step_ok {x : Ctx} (hx : x.Clean) {o : One} (ho : o.ok = true) (hn : o.eatsNul = false) {i : Nat}
    (hi : i ≤ x.text.length) : x.step o i = some (oneEnd x o i) := by
  by_cases hl : ∃ s, o = .lit s
  · obtain ⟨s, rfl⟩ := hl
    have hc := lit_clean ho
    have e : x.step (.lit s) i = x.litAt s i := by
      unfold Ctx.step
      rw [if_neg (by simp)]
      by_cases he : i < x.text.length
      · rw [rd_lt he]; rfl
      · obtain rfl : i = x.text.length := by omega
        rw [rd_end]; rfl
    rw [e, litAt_ok s hc.2 i hi]
    by_cases h : x.hasAt s i
    · rw [if_pos h, (oneEnd_lit hi).1 h]
    · rw [if_neg h, (oneEnd_lit hi).2 h]
  · unfold Ctx.step oneEnd
    rw [if_neg (show ¬ i > x.text.length by omega)]
    by_cases he : i < x.text.length
    · have h0 := hx.get he
      have hne : i ≠ x.text.length := by omega
      rw [rd_lt he]
      generalize x.text.getD i 0 = b at *
      cases o with
      | bol => simp [Ctx.stepAt]
      | eol => simp [Ctx.stepAt, h0, hne]
      | wedge =>
        rw [if_neg (by simp)]
        have e : x.edge i b = ((x.bol && i == 0) || i == x.text.length || isWord (x.before i) != isWord b) := by
          have b0 : (b == 0) = false := by simpa using h0
          have il : (i == x.text.length) = false := by simpa using hne
          unfold Ctx.edge
          rw [b0, il]
          cases isWord (x.before i) <;> cases isWord b <;> simp
        simp only [Ctx.stepAt, e]
      | nwedge =>
        rw [if_neg (by simp)]
        have e : x.edge i b = ((x.bol && i == 0) || i == x.text.length || isWord (x.before i) != isWord b) := by
          have b0 : (b == 0) = false := by simpa using h0
          have il : (i == x.text.length) = false := by simpa using hne
          unfold Ctx.edge
          rw [b0, il]
          cases isWord (x.before i) <;> cases isWord b <;> simp
        simp only [Ctx.stepAt, e]
        generalize ((x.bol && i == 0) || i == x.text.length || isWord (x.before i) != isWord b) = t
        cases t <;> rfl
      | lit s => exact absurd ⟨s, rfl⟩ hl
      | set neg s => simp [Ctx.stepAt, he, h0]
      | any => simp [Ctx.stepAt, he, h0]
      | word => simp [Ctx.stepAt, he]
      | nword => cases hn
      | wspc => simp [Ctx.stepAt, he]
      | nwspc => cases hn
      | digi => simp [Ctx.stepAt, he]
      | ndigi => cases hn
    · obtain rfl : i = x.text.length := by omega
      rw [rd_end]
      cases o with
      | bol => simp [Ctx.stepAt]
      | eol => simp [Ctx.stepAt]
      | wedge => simp [Ctx.stepAt, Ctx.edge]
      | nwedge => simp [Ctx.stepAt, Ctx.edge]
      | lit s => exact absurd ⟨s, rfl⟩ hl
      | set neg s => simp [Ctx.stepAt]
      | any => simp [Ctx.stepAt]
      | word => simp [Ctx.stepAt, isWord_zero]
      | nword => cases hn
      | wspc => simp [Ctx.stepAt, isSpace_zero]
      | nwspc => cases hn
      | digi => simp [Ctx.stepAt, isDigit_zero]
      | ndigi => cases hn

/-- An atom ends in the text, not before where it starts, and behind it if it has a width. -/
theorem oneEnd_le {x : Ctx} {o : One} (ho : o.ok = true) {i j : Nat} (h : oneEnd x o i = some j) :
    i ≤ j ∧ j ≤ x.text.length ∧ (o.hasWidth = true → i < j) := by
  unfold oneEnd at h
  split at h
  · cases h
  · rename_i hi
    cases o with
    | lit s =>
      have hc := (lit_clean ho).1
      have : 0 < s.length := List.length_pos_iff.2 hc
      simp only at h
      split at h
      · rename_i h1
        cases h
        exact ⟨by omega, h1.1, fun _ => by omega⟩
      · cases h
    | bol => simp only at h; split at h <;> cases h; exact ⟨by omega, by omega, fun h => nomatch h⟩
    | eol => simp only at h; split at h <;> cases h; exact ⟨by omega, by omega, fun h => nomatch h⟩
    | wedge => simp only at h; split at h <;> cases h; exact ⟨by omega, by omega, fun h => nomatch h⟩
    | nwedge => simp only at h; split at h <;> cases h; exact ⟨by omega, by omega, fun h => nomatch h⟩
    | any =>
      simp only at h
      split at h
      · cases h; exact ⟨by omega, by omega, fun _ => by omega⟩
      · cases h
    | _ =>
      simp only at h
      split at h
      · rename_i h1
        cases h
        simp only [Bool.and_eq_true, decide_eq_true_eq] at h1
        exact ⟨by omega, by omega, fun _ => by omega⟩
      · cases h

/-! ### Repetition of a simple atom -/

theorem repeats_ok {x : Ctx} {o : One} (hs : o.simple = true) : ∃ g, x.repeats o = some g ∧
    ∀ i, ways x (.one o) i = if i < x.text.length ∧ g (x.text.getD i 0) = true then [(i + 1, [])] else [] := by
  have key : ∀ (g : Nat → Bool), x.repeats o = some g → (∀ i, oneEnd x o i = if i < x.text.length ∧ g (x.text.getD i 0) = true then some (i + 1) else none) →
      ∃ g, x.repeats o = some g ∧
        ∀ i, ways x (.one o) i = if i < x.text.length ∧ g (x.text.getD i 0) = true then [(i + 1, [])] else [] := by
    intro g hr h
    refine ⟨g, hr, fun i => ?_⟩
    simp only [ways, h i]
    by_cases hc : i < x.text.length ∧ g (x.text.getD i 0) = true
    · simp only [if_pos hc]
    · simp only [if_neg hc]
  have big : ∀ {i}, i > x.text.length → ∀ b : Bool, ¬ (i < x.text.length ∧ b = true) := fun h b h' => by omega
  cases o with
  | bol => cases hs
  | eol => cases hs
  | wedge => cases hs
  | nwedge => cases hs
  | lit s =>
    obtain ⟨c, rfl⟩ : ∃ c, s = [c] := by
      simp only [One.simple, beq_iff_eq] at hs
      match s, hs with
      | [c], _ => exact ⟨c, rfl⟩
    refine key _ rfl fun i => ?_
    by_cases hi : i > x.text.length
    · rw [if_neg (big hi _)]
      simp [oneEnd, hi]
    · by_cases h : x.hasAt [c] i
      · have h' := hasAt_cons.1 h
        rw [(oneEnd_lit (by omega)).1 h, if_pos ⟨h'.1, by simpa using h'.2.1⟩]
        rfl
      · rw [(oneEnd_lit (by omega)).2 h, if_neg]
        intro h'
        exact h (hasAt_cons.2 ⟨h'.1, by simpa using h'.2, by simp [Ctx.hasAt]; omega⟩)
  | any =>
    refine key _ rfl fun i => ?_
    by_cases hi : i > x.text.length
    · rw [if_neg (big hi _)]; simp [oneEnd, hi]
    · simp [oneEnd, hi]
  | _ =>
    refine key _ rfl fun i => ?_
    by_cases hi : i > x.text.length
    · rw [if_neg (big hi _)]; simp [oneEnd, hi]
    · simp [oneEnd, hi]

/-- How many characters the loop of `regrepeat` takes. -/
def cnt (x : Ctx) (g : Nat → Bool) (i : Nat) : Nat := ((x.text.drop i).takeWhile g).length

theorem cnt_yes {x : Ctx} {g : Nat → Bool} {i : Nat} (hi : i < x.text.length) (hg : g (x.text.getD i 0) = true) :
    cnt x g i = cnt x g (i + 1) + 1 := by
  unfold cnt
  rw [List.drop_eq_getElem_cons hi, List.takeWhile_cons]
  rw [List.getD_eq_getElem?_getD, List.getElem?_eq_getElem hi] at hg
  simp only [Option.getD_some] at hg
  rw [if_pos hg]
  rfl

theorem cnt_no {x : Ctx} {g : Nat → Bool} {i : Nat} (h : ¬ (i < x.text.length ∧ g (x.text.getD i 0) = true)) :
    cnt x g i = 0 := by
  unfold cnt
  by_cases hi : i < x.text.length
  · rw [List.drop_eq_getElem_cons hi, List.takeWhile_cons, if_neg]
    · rfl
    · intro hg
      apply h ⟨hi, ?_⟩
      rw [List.getD_eq_getElem?_getD, List.getElem?_eq_getElem hi]
      exact hg
  · rw [List.drop_of_length_le (by omega)]
    rfl

theorem cnt_le (x : Ctx) (g : Nat → Bool) (i : Nat) : cnt x g i ≤ x.text.length - i := by
  unfold cnt
  have h1 := (List.takeWhile_prefix (l := x.text.drop i) g).length_le
  simp only [List.length_drop] at h1
  exact h1

theorem places_one (greedy : Bool) (i n : Nat) : places greedy 1 i (n + 1) = places greedy 0 (i + 1) n := by
  have e : (List.range' 1 (n + 1 + 1 - 1)).map (i + ·) = (List.range' 0 (n + 1 - 0)).map (i + 1 + ·) := by
    rw [show n + 1 + 1 - 1 = n + 1 by omega, show n + 1 - 0 = n + 1 by omega]
    apply List.ext_getElem
    · simp
    · intro k h1 h2
      simp
      omega
  simp only [places, e]

theorem places_zero_one (greedy : Bool) (i : Nat) : places greedy 1 i 0 = [] := by
  cases greedy <;> rfl

theorem places_zero (greedy : Bool) (i n : Nat) :
    places greedy 0 i n = if greedy then places greedy 1 i n ++ [i] else i :: places greedy 1 i n := by
  have e : (List.range' 0 (n + 1 - 0)).map (i + ·) = i :: (List.range' 1 (n + 1 - 1)).map (i + ·) := by
    rw [show n + 1 - 0 = n + 1 by omega, List.range'_succ]
    simp
  simp only [places, e]
  cases greedy <;> simp

theorem star_places {x : Ctx} {o : One} {g : Nat → Bool} (greedy : Bool)
    (hg : ∀ i, ways x (.one o) i = if i < x.text.length ∧ g (x.text.getD i 0) = true then [(i + 1, [])] else []) :
    ∀ N i, x.text.length - i < N →
      star (ways x (.one o)) greedy N i = (places greedy 0 i (cnt x g i)).map fun j => (j, []) := by
  intro N
  induction N with
  | zero => intro i h; omega
  | succ N ih =>
    intro i h
    have key : andThen (ways x (.one o) i) (star (ways x (.one o)) greedy N) =
        (places greedy 1 i (cnt x g i)).map fun j => (j, []) := by
      rw [hg i]
      by_cases hc : i < x.text.length ∧ g (x.text.getD i 0) = true
      · rw [if_pos hc, cnt_yes hc.1 hc.2, places_one]
        have := ih (i + 1) (by omega)
        simp [andThen, this]
      · rw [if_neg hc, cnt_no hc, places_zero_one]
        rfl
    rw [star, key, places_zero]
    cases greedy <;> simp

theorem plus_places {x : Ctx} {o : One} {g : Nat → Bool} (greedy : Bool)
    (hg : ∀ i, ways x (.one o) i = if i < x.text.length ∧ g (x.text.getD i 0) = true then [(i + 1, [])] else [])
    (N i : Nat) (h : x.text.length - i ≤ N) :
    andThen (ways x (.one o) i) (star (ways x (.one o)) greedy N) =
        (places greedy 1 i (cnt x g i)).map fun j => (j, []) := by
  rw [hg i]
  by_cases hc : i < x.text.length ∧ g (x.text.getD i 0) = true
  · rw [if_pos hc, cnt_yes hc.1 hc.2, places_one]
    have := star_places greedy hg N (i + 1) (by omega)
    simp [andThen, this]
  · rw [if_neg hc, cnt_no hc, places_zero_one]
    rfl

theorem places_mem {greedy : Bool} {min i n j : Nat} (h : j ∈ places greedy min i n) : i + min ≤ j ∧ j ≤ i + n := by
  have : j ∈ (List.range' min (n + 1 - min)).map (i + ·) := by
    unfold places at h
    cases greedy
    · simpa using h
    · simpa using h
  simp only [List.mem_map, List.mem_range'_1] at this
  obtain ⟨a, h1, rfl⟩ := this
  omega

end Rep.Regex
