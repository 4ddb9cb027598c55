import Verif.Canon.Spec

/-
Texts of names.
-/

namespace Rep.Canon

theorem split_ne (s : Text) : split s ≠ [] := by
  cases s with
  | nil => simp [split]
  | cons c s =>
    simp only [split]
    split
    · simp
    · split <;> simp

theorem split_slash (a b : Text) : split (a ++ '/' :: b) = split a ++ split b := by
  induction a with
  | nil => simp [split]
  | cons c a ih =>
    simp only [List.cons_append, split]
    by_cases hc : c = '/'
    · simp [hc, ih]
    · simp only [hc, if_false, ih]
      cases h : split a with
      | nil => exact absurd h (split_ne a)
      | cons x l => simp

theorem split_plain {c : Text} (h : '/' ∉ c) : split c = [c] := by
  induction c with
  | nil => rfl
  | cons x c ih =>
    simp only [List.mem_cons, not_or] at h
    simp [split, Ne.symm h.1, ih h.2]

theorem comps_slash (a b : Text) : comps (a ++ '/' :: b) = comps a ++ comps b := by
  simp [comps, split_slash]

theorem comps_nil : comps [] = [] := rfl

theorem comps_cons_slash (s : Text) : comps ('/' :: s) = comps s := comps_slash [] s

theorem comps_plain {c : Text} (h : '/' ∉ c) (hc : c ≠ []) : comps c = [c] := by
  simp [comps, split_plain h, hc]

/-- What comes after a component. -/
def Sep (e : Text) : Prop := e = [] ∨ e.head? = some '/'

theorem comps_sep (l : Text) {e : Text} (he : Sep e) : comps (l ++ e) = comps l ++ comps e := by
  cases e with
  | nil => simp [comps_nil]
  | cons c e =>
    rcases he with he | he
    · cases he
    · simp only [List.head?_cons, Option.some.injEq] at he
      subst he
      rw [comps_slash, comps_cons_slash]

theorem comps_dropSlash (s : Text) : comps (s.dropWhile (· = '/')) = comps s := by
  induction s with
  | nil => rfl
  | cons c s ih =>
    by_cases hc : c = '/'
    · subst hc
      simp [comps_cons_slash, ih]
    · simp [hc]

theorem sep_dropWhile (s : Text) : Sep (s.dropWhile (· ≠ '/')) := by
  induction s with
  | nil => exact .inl rfl
  | cons c s ih =>
    by_cases hc : c = '/'
    · subst hc
      right
      simp
    · simpa [hc] using ih

theorem takeWhile_noslash (s : Text) : '/' ∉ s.takeWhile (· ≠ '/') := by
  induction s with
  | nil => simp
  | cons c s ih =>
    by_cases hc : c = '/'
    · simp [hc]
    · simpa [hc, Ne.symm hc] using ih

/-- The next component of a text. -/
theorem comps_next (s : Text) :
    let r := s.dropWhile (· = '/')
    let c := r.takeWhile (· ≠ '/')
    let e := r.dropWhile (· ≠ '/')
    Sep e ∧ '/' ∉ c ∧ (c = [] → comps s = []) ∧ (c ≠ [] → comps s = c :: comps e) := by
  intro r c e
  have hs : Sep e := sep_dropWhile r
  have hn : '/' ∉ c := takeWhile_noslash r
  have hr : r = c ++ e := (List.takeWhile_append_dropWhile).symm
  refine ⟨hs, hn, fun hc => ?_, fun hc => ?_⟩
  · rw [← comps_dropSlash s]
    show comps r = []
    have hrr : r = [] := by
      cases hr' : r with
      | nil => rfl
      | cons x l =>
        exfalso
        have h1 : x ≠ '/' := by
          intro hx
          subst hx
          have : (s.dropWhile (· = '/')).head? ≠ some '/' := by
            intro hh
            have := List.head?_dropWhile_not (fun x : Char => decide (x = '/')) s
            rw [hh] at this
            simp at this
          exact this (by show r.head? = _; rw [hr']; rfl)
        have : c = x :: (l.takeWhile (· ≠ '/')) := by
          show r.takeWhile _ = _
          rw [hr']
          simp [h1]
        rw [hc] at this
        cases this
    rw [hrr]
    rfl
  · rw [← comps_dropSlash s]
    show comps r = _
    rw [hr, comps_sep c hs, comps_plain hn hc]
    rfl

/-- The text of a place other than the root. -/
def flat (d : List Name) : Text := d.flatMap fun n => '/' :: n

theorem flat_concat (d : List Name) (n : Name) : flat (d ++ [n]) = flat d ++ '/' :: n := by
  simp [flat]

def Good (d : List Name) : Prop := ∀ n ∈ d, n ≠ [] ∧ '/' ∉ n

theorem comps_flat {d : List Name} (h : Good d) : comps (flat d) = d := by
  induction d with
  | nil => rfl
  | cons n d ih =>
    obtain ⟨h1, h2⟩ := h n (by simp)
    have hs : Sep (flat d) := by
      cases d with
      | nil => exact .inl rfl
      | cons m d => exact .inr (by simp [flat])
    have : flat (n :: d) = '/' :: (n ++ flat d) := by simp [flat]
    rw [this, comps_cons_slash, comps_sep n hs, ih fun m hm => h m (List.mem_cons_of_mem _ hm),
      comps_plain h2 h1]
    rfl

/-- The text stands for a place. -/
def Reps (t : Text) (d : List Name) : Prop :=
  Good d ∧ ((t = flat d ∧ d ≠ []) ∨ t = flat d ++ ['/'])

theorem eq_nil_or_concat' (d : List Name) : d = [] ∨ ∃ q n, d = q ++ [n] := by
  rcases List.eq_nil_or_concat d with h | ⟨q, n, h⟩
  · exact .inl h
  · exact .inr ⟨q, n, by simpa using h⟩

theorem reps_show {d : List Name} (h : Good d) : Reps (show_ d) d := by
  refine ⟨h, ?_⟩
  by_cases hd : d = []
  · subst hd
    right
    simp [show_, flat]
  · left
    exact ⟨by simp [show_, hd, flat], hd⟩

theorem last_flat {d : List Name} (h : Good d) (hd : d ≠ []) : (flat d).getLast? ≠ some '/' := by
  rcases eq_nil_or_concat' d with h0 | ⟨q, n, rfl⟩
  · exact absurd h0 hd
  · obtain ⟨h1, h2⟩ := h n (by simp)
    rw [flat_concat]
    rcases List.eq_nil_or_concat n with h3 | ⟨m, x, h3⟩
    · exact absurd h3 h1
    · subst h3
      simp only [List.concat_eq_append] at h2 ⊢
      rw [show flat q ++ '/' :: (m ++ [x]) = (flat q ++ '/' :: m) ++ [x] by simp,
        List.getLast?_append]
      simp only [List.mem_append, List.mem_singleton, not_or] at h2
      simpa using Ne.symm h2.2

theorem dropWhile_noslash (a b : Text) (h : '/' ∉ a) :
    (a ++ '/' :: b).dropWhile (· ≠ '/') = '/' :: b := by
  induction a with
  | nil => simp
  | cons c a ih =>
    simp only [List.mem_cons, not_or] at h
    simpa [Ne.symm h.1] using ih h.2

theorem reps_back {t : Text} {d : List Name} (h : Reps t d) :
    Reps (back t) d.dropLast ∧ (back t).length ≤ t.length := by
  obtain ⟨hg, h⟩ := h
  rcases eq_nil_or_concat' d with h0 | ⟨q, n, rfl⟩
  · subst h0
    rcases h with ⟨_, h⟩ | h
    · exact absurd rfl h
    · subst h
      exact ⟨⟨hg, .inr (by simp [back, flat])⟩, by simp [back, flat]⟩
  · have hq : Good q := fun m hm => hg m (List.mem_append_left _ hm)
    obtain ⟨h1, h2⟩ := hg n (by simp)
    have key : back t = flat q ++ ['/'] ∧ (flat q ++ ['/']).length ≤ t.length := by
      rw [flat_concat] at h
      rcases h with ⟨h, _⟩ | h
      · rcases List.eq_nil_or_concat n with h3 | ⟨m, x, h3⟩
        · exact absurd h3 h1
        · subst h3
          subst h
          simp only [List.concat_eq_append] at h2 ⊢
          refine ⟨?_, by simp⟩
          unfold back
          rw [if_pos (by simp; omega)]
          rw [show flat q ++ '/' :: (m ++ [x]) = (flat q ++ '/' :: m) ++ [x] by simp]
          rw [List.reverse_append]
          simp only [List.reverse_cons, List.reverse_nil, List.nil_append, List.reverse_append,
            List.cons_append, List.tail_cons, List.append_assoc]
          rw [dropWhile_noslash]
          · simp
          · simp only [List.mem_append, not_or] at h2
            simpa using h2.1
      · subst h
        refine ⟨?_, by simp⟩
        unfold back
        rw [if_pos (by simp; omega)]
        simp only [List.reverse_cons, List.reverse_nil, List.nil_append, List.reverse_append,
          List.cons_append, List.tail_cons, List.append_assoc]
        rw [dropWhile_noslash _ _ (by simpa using h2)]
        simp
    rw [List.dropLast_concat, key.1]
    exact ⟨⟨hq, .inr rfl⟩, key.2⟩

theorem reps_add {t : Text} {d : List Name} (h : Reps t d) (c : Name) :
    (if t.getLast? ≠ some '/' then t ++ ['/'] else t) ++ c = flat (d ++ [c]) := by
  obtain ⟨hg, h⟩ := h
  rw [flat_concat]
  rcases h with ⟨h, hd⟩ | h
  · subst h
    rw [if_pos (last_flat hg hd)]
    simp
  · subst h
    simp

theorem reps_finish {t : Text} {d : List Name} (h : Reps t d) : finish t = show_ d := by
  obtain ⟨hg, h⟩ := h
  unfold finish
  rcases h with ⟨h, hd⟩ | h
  · subst h
    rw [if_neg (fun hh => last_flat hg hd hh.2)]
    simp [show_, hd, flat]
  · subst h
    by_cases hd : d = []
    · subst hd
      simp [flat, show_]
    · rw [if_pos]
      · simp [show_, hd, flat]
      · constructor
        · obtain ⟨n, l, rfl⟩ := List.exists_cons_of_ne_nil hd
          simp [flat]
          omega
        · simp

theorem finish_length (t : Text) : (finish t).length ≤ t.length := by
  unfold finish
  split <;> simp

theorem reps_lstat {w : World} {d : List Name} (h : Good d) : lstat w (flat d) = w.node d := by
  simp [lstat, comps_flat h]

end Rep.Canon
