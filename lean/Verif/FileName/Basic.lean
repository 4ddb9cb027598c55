import Verif.FileName.Spec

namespace Rep.FileName

/-! ### Components -/

theorem comps_ne_nil (s : Str) : comps s ≠ [] := by
  cases s with
  | nil => simp [comps]
  | cons c r =>
    unfold comps
    split
    · simp
    · split <;> simp

theorem comps_append_slash (a b : Str) : comps (a ++ '/' :: b) = comps a ++ comps b := by
  induction a with
  | nil => simp [comps]
  | cons c r ih =>
    by_cases hc : c = '/'
    · simp [comps, hc, ih]
    · simp only [List.cons_append, comps, if_neg hc, ih]
      cases h : comps r with
      | nil => exact absurd h (comps_ne_nil r)
      | cons w ws => simp

theorem comps_of_not_mem (a : Str) (h : '/' ∉ a) : comps a = [a] := by
  induction a with
  | nil => simp [comps]
  | cons c r ih =>
    have hc : c ≠ '/' := fun e => h (by simp [e])
    have hr : '/' ∉ r := fun e => h (by simp [e])
    simp [comps, if_neg hc, ih hr]

theorem comps_slash (r : Str) : comps ('/' :: r) = [] :: comps r := by simp [comps]

theorem split_slash (s : Str) :
    (s.dropWhile (· ≠ '/') = [] ∧ s.takeWhile (· ≠ '/') = s ∧ '/' ∉ s) ∨
    ∃ r, s.dropWhile (· ≠ '/') = '/' :: r ∧ s = s.takeWhile (· ≠ '/') ++ '/' :: r ∧
      '/' ∉ s.takeWhile (· ≠ '/') := by
  induction s with
  | nil => simp
  | cons c r ih =>
    by_cases hc : c = '/'
    · right; exact ⟨r, by simp [hc]⟩
    · rcases ih with ⟨h1, h2, h3⟩ | ⟨r', h1, h2, h3⟩
      · left
        refine ⟨?_, ?_, ?_⟩
        · rw [List.dropWhile_cons_of_pos (by simpa using hc)]; exact h1
        · rw [List.takeWhile_cons_of_pos (by simpa using hc), h2]
        · simp only [List.mem_cons, not_or]; exact ⟨fun e => hc e.symm, h3⟩
      · right
        refine ⟨r', ?_, ?_, ?_⟩
        · rw [List.dropWhile_cons_of_pos (by simpa using hc)]; exact h1
        · rw [List.takeWhile_cons_of_pos (by simpa using hc), List.cons_append, ← h2]
        · rw [List.takeWhile_cons_of_pos (by simpa using hc)]
          simp only [List.mem_cons, not_or]; exact ⟨fun e => hc e.symm, h3⟩

theorem follow_nil (p : Place) : p.follow [] = p := by simp [Place.follow]

theorem follow_dot (p : Place) : p.follow ['.'] = p := by simp [Place.follow]

theorem follow_plain (p : Place) {c : Str} (h : Plain c) :
    p.follow c = { p with names := c :: p.names } := by
  obtain ⟨h1, _, h3, h4⟩ := h
  simp [Place.follow, h1, h3, h4]

theorem comps_strip (r : Str) (p : Place) :
    (comps (strip r)).foldl Place.follow p = (comps r).foldl Place.follow p := by
  induction r with
  | nil => rfl
  | cons c r ih =>
    by_cases hc : c = '/'
    · subst hc
      have : strip ('/' :: r) = strip r := by simp [strip]
      rw [this, ih, comps_slash, List.foldl_cons, follow_nil]
    · have : strip (c :: r) = c :: r := by simp [strip, hc]
      rw [this]

theorem strip_head (r : Str) : ∀ t, strip r ≠ '/' :: t := by
  induction r with
  | nil => intro t h; cases h
  | cons c r ih =>
    intro t
    by_cases hc : c = '/'
    · subst hc
      have : strip ('/' :: r) = strip r := by simp [strip]
      rw [this]; exact ih t
    · have : strip (c :: r) = c :: r := by simp [strip, hc]
      rw [this]
      intro h
      injection h with h1 _
      exact hc h1

theorem getLast_comps_cons_slash (r : Str) : (comps ('/' :: r)).getLast? = (comps r).getLast? := by
  rw [comps_slash]
  cases h : comps r with
  | nil => exact absurd h (comps_ne_nil r)
  | cons w ws => simp

theorem getLast_comps_append (a b : Str) :
    (comps (a ++ '/' :: b)).getLast? = (comps b).getLast? := by
  rw [comps_append_slash]
  cases h : comps b with
  | nil => exact absurd h (comps_ne_nil b)
  | cons w ws =>
    rw [List.getLast?_append]
    cases h' : (w :: ws).getLast? with
    | none => simp at h'
    | some x => rfl

theorem getLast_comps_strip (r : Str) : (comps (strip r)).getLast? = (comps r).getLast? := by
  induction r with
  | nil => rfl
  | cons c r ih =>
    by_cases hc : c = '/'
    · subst hc
      have : strip ('/' :: r) = strip r := by simp [strip]
      rw [this, ih, getLast_comps_cons_slash]
    · have : strip (c :: r) = c :: r := by simp [strip, hc]
      rw [this]

/-! ### The text of a place -/

def Place.ok (p : Place) : Prop := (p.root = true → p.ups = 0) ∧ ∀ n ∈ p.names, Plain n

/-- The name of a place, every component followed by a slash. -/
def Place.text (p : Place) : Str :=
  (if p.root then ['/'] else []) ++ (List.replicate p.ups ['.', '.', '/']).flatten ++
    (p.names.reverse.map (· ++ ['/'])).flatten

theorem text_push (p : Place) (c : Str) :
    ({ p with names := c :: p.names } : Place).text = p.text ++ c ++ ['/'] := by
  simp [Place.text]

theorem text_up (k : Nat) :
    (⟨false, k + 1, []⟩ : Place).text = (⟨false, k, []⟩ : Place).text ++ ['.', '.', '/'] := by
  simp [Place.text, List.replicate_succ', List.flatten_append]

/-- The text of a place is empty or ends with a slash. -/
theorem text_last (p : Place) : p.text = [] ∨ ∃ t, p.text = t ++ ['/'] := by
  obtain ⟨root, ups, names⟩ := p
  cases names with
  | cons c r =>
    right
    exact ⟨_, text_push ⟨root, ups, r⟩ c⟩
  | nil => cases ups with
    | succ k =>
      right
      simp [Place.text, List.replicate_succ']
      exact ⟨(if root = true then ['/'] else []) ++ ((List.replicate k ['.', '.', '/']).flatten ++
        ['.', '.']), by simp⟩
    | zero => cases root with
      | false => left; rfl
      | true => right; exact ⟨[], rfl⟩

theorem text_nil {p : Place} (h : p.text = []) : p = ⟨false, 0, []⟩ := by
  obtain ⟨root, ups, names⟩ := p
  simp only [Place.text, List.append_eq_nil_iff] at h
  obtain ⟨⟨h1, h2⟩, h3⟩ := h
  have e1 : root = false := by cases root with
    | false => rfl
    | true => simp at h1
  have e2 : ups = 0 := by cases ups with
    | zero => rfl
    | succ k => simp [List.replicate_succ] at h2
  have e3 : names = [] := by
    cases names with
    | nil => rfl
    | cons c r => simp at h3
  rw [e1, e2, e3]

theorem ok_follow_dotdot {p : Place} (h : p.ok) : (p.follow ['.', '.']).ok := by
  obtain ⟨root, ups, names⟩ := p
  cases names with
  | cons c r =>
    refine ⟨?_, ?_⟩
    · simpa [Place.follow] using h.1
    · intro n hn
      exact h.2 n (by simp [Place.follow] at hn; exact List.mem_cons_of_mem _ hn)
  | nil => cases root with
    | true => simpa [Place.follow] using h
    | false => simp [Place.follow, Place.ok]

theorem takeWhile_ne_slash {c : Str} (h : '/' ∉ c) (t : Str) :
    (c.reverse ++ '/' :: t).takeWhile (· ≠ '/') = c.reverse ∧
    (c.reverse ++ '/' :: t).dropWhile (· ≠ '/') = '/' :: t := by
  have h' : ∀ a ∈ c.reverse, decide (a ≠ '/') = true := by
    intro a ha
    simp only [decide_eq_true_eq]
    intro e; subst e; exact h (by simpa using ha)
  constructor
  · rw [List.takeWhile_append_of_pos h']; simp
  · rw [List.dropWhile_append_of_pos h']; simp

theorem takeWhile_all {c : Str} (h : '/' ∉ c) :
    c.reverse.takeWhile (· ≠ '/') = c.reverse ∧ c.reverse.dropWhile (· ≠ '/') = [] := by
  have h' : ∀ a ∈ c.reverse, decide (a ≠ '/') = true := by
    intro a ha
    simp only [decide_eq_true_eq]
    intro e; subst e; exact h (by simpa using ha)
  have e := List.takeWhile_append_of_pos (p := (· ≠ '/')) (l₂ := []) h'
  have e' := List.dropWhile_append_of_pos (p := (· ≠ '/')) (l₂ := []) h'
  simp only [List.append_nil, List.takeWhile_nil, List.dropWhile_nil] at e e'
  exact ⟨e, e'⟩

theorem dotdot_component {c : Str} (h : Plain c) :
    c.reverse ≠ [] ∧ ((!c.reverse.all (· = '.')) || c.reverse.length ≠ 2) = true := by
  obtain ⟨h1, _, _, h4⟩ := h
  refine ⟨by simpa using h1, ?_⟩
  match c, h1, h4 with
  | [a], _, _ => simp
  | a :: b :: d :: r, _, _ => simp
  | [a, b], _, h4 =>
    simp only [List.reverse_cons, List.reverse_nil, List.nil_append, List.cons_append,
      List.all_cons, List.all_nil, Bool.and_true, List.length_cons, List.length_nil]
    by_cases ha : a = '.'
    · by_cases hb : b = '.'
      · exact absurd (by rw [ha, hb]) h4
      · simp [hb]
    · simp [ha]

/-- `..` when the place has a name, or is the root. -/
theorem dotdot_pop {out : Str} {p : Place} (ho : out.reverse = p.text) (hp : p.ok) (sl : Bool)
    (h : p.names ≠ [] ∨ p.root = true) :
    ∃ o, dotdot out sl = .ok o ∧ o.reverse = (p.follow ['.', '.']).text ∧
      o.length ≤ out.length := by
  obtain ⟨root, ups, names⟩ := p
  cases names with
  | cons c r =>
    have hc : Plain c := hp.2 c (by simp)
    have e : out = '/' :: (c.reverse ++ (⟨root, ups, r⟩ : Place).text.reverse) := by
      rw [← List.reverse_reverse out, ho, text_push ⟨root, ups, r⟩ c]
      simp
    refine ⟨(⟨root, ups, r⟩ : Place).text.reverse, ?_, by simp [Place.follow], ?_⟩
    · have h2 := dotdot_component hc
      have hup : out.dropWhile (· = '/') = c.reverse ++ (⟨root, ups, r⟩ : Place).text.reverse := by
        rw [e]
        rw [List.dropWhile_cons_of_pos (by simp)]
        cases hrev : c.reverse with
        | nil => exact absurd hrev h2.1
        | cons a t =>
          rw [List.cons_append, List.dropWhile_cons_of_neg]
          have : a ∈ c := by rw [← List.mem_reverse, hrev]; simp
          simp only [decide_eq_true_eq]
          intro e2; subst e2; exact hc.2.1 this
      have ht : (c.reverse ++ (⟨root, ups, r⟩ : Place).text.reverse).takeWhile (· ≠ '/') =
            c.reverse ∧
          (c.reverse ++ (⟨root, ups, r⟩ : Place).text.reverse).dropWhile (· ≠ '/') =
            (⟨root, ups, r⟩ : Place).text.reverse := by
        rcases text_last ⟨root, ups, r⟩ with h0 | ⟨t, h0⟩
        · rw [h0]; simpa using takeWhile_all hc.2.1
        · rw [h0]; simpa using takeWhile_ne_slash hc.2.1 t.reverse
      unfold dotdot
      simp only [hup, ht.1, ht.2]
      rw [if_pos h2]
    · rw [e]; simp; omega
  | nil =>
    have hr : root = true := by simpa using h
    subst hr
    have hu : ups = 0 := hp.1 rfl
    subst hu
    have e : out = ['/'] := by
      rw [← List.reverse_reverse out, ho]; rfl
    subst e
    exact ⟨['/'], rfl, rfl, Nat.le_refl _⟩

/-- `..` when the place is above the one where the name starts. -/
theorem dotdot_up {out : Str} {k : Nat} (ho : out.reverse = (⟨false, k, []⟩ : Place).text)
    (sl : Bool) : dotdot out sl = put (if sl then ['.', '.', '/'] else ['.', '.']) out := by
  cases k with
  | zero =>
    have e : out = [] := by simpa [Place.text] using ho
    subst e
    rfl
  | succ k =>
    have e : out = '/' :: '.' :: '.' :: (⟨false, k, []⟩ : Place).text.reverse := by
      rw [← List.reverse_reverse out, ho, text_up]; simp
    have hup : out.dropWhile (· = '/') = '.' :: '.' :: (⟨false, k, []⟩ : Place).text.reverse := by
      rw [e]; simp
    have ht : ('.' :: '.' :: (⟨false, k, []⟩ : Place).text.reverse).takeWhile (· ≠ '/') =
        ['.', '.'] := by
      rcases text_last ⟨false, k, []⟩ with h0 | ⟨t, h0⟩ <;> rw [h0] <;> simp
    unfold dotdot
    simp only [hup, ht]
    simp

end Rep.FileName
