import Verif.FileName.Expand

/-
C60: `expand-file-name` and the other functions on the text of file names.
-/

namespace Rep.FileName

theorem getLast_comps (s : Str) : (comps s).getLast? = some (filePart s) := by
  have key : ∀ n (s : Str), s.length ≤ n → (comps s).getLast? = some (filePart s) := by
    intro n
    induction n with
    | zero =>
      intro s h
      have : s = [] := List.length_eq_zero_iff.mp (Nat.le_zero.mp h)
      subst this; rfl
    | succ n ih =>
      intro s h
      rcases split_slash s with ⟨_, h2, h3⟩ | ⟨r, _, h2, h3⟩
      · rw [comps_of_not_mem s h3]
        simp only [List.getLast?_singleton, Option.some.injEq, filePart]
        rw [(takeWhile_all h3).1]; simp
      · generalize hw : s.takeWhile (· ≠ '/') = w at h2 h3
        subst h2
        rw [getLast_comps_append]
        simp only [List.length_append, List.length_cons] at h
        rw [ih r (by omega)]
        congr 1
        unfold filePart
        congr 1
        rw [List.reverse_append, List.reverse_cons, List.append_assoc]
        have : ∀ l : Str, (l ++ ([('/' : Char)] ++ w.reverse)).takeWhile (· ≠ '/') =
            l.takeWhile (· ≠ '/') := by
          intro l
          induction l with
          | nil => simp
          | cons a l ih' =>
            by_cases ha : a = '/'
            · simp [ha]
            · rw [List.cons_append, List.takeWhile_cons_of_pos (by simpa using ha), ih',
                List.takeWhile_cons_of_pos (by simpa using ha)]
        exact (this _).symm
  exact key _ s (Nat.le_refl _)

theorem filePart_not_mem (s : Str) : '/' ∉ filePart s := by
  unfold filePart
  intro h
  rw [List.mem_reverse] at h
  have hall := List.all_takeWhile (p := fun c : Char => decide (c ≠ '/')) (l := s.reverse)
  rw [List.all_eq_true] at hall
  have := hall _ h
  simp at this

theorem filePart_append (s : Str) : ∃ d, s = d ++ filePart s ∧ (d = [] ∨ ∃ t, d = t ++ ['/']) := by
  have e := List.takeWhile_append_dropWhile (p := (· ≠ '/')) (l := s.reverse)
  refine ⟨(s.reverse.dropWhile (· ≠ '/')).reverse, ?_, ?_⟩
  · rw [filePart, ← List.reverse_append, e, List.reverse_reverse]
  · cases h : s.reverse.dropWhile (· ≠ '/') with
    | nil => left; rfl
    | cons a t =>
      right
      have := List.head_dropWhile_not (· ≠ '/') (l := s.reverse) (by rw [h]; simp)
      simp only [h, List.head_cons, decide_eq_false_iff_not, ne_eq, Classical.not_not] at this
      exact ⟨t.reverse, by rw [this]; simp⟩

/-- The first round of the loop, on a name that begins with a slash. -/
theorem loop_slash (r : Str) : expandLoop ('/' :: r) [] = expandLoop (strip r) ['/'] := by
  rw [expandLoop.eq_def]
  split
  · rename_i h; cases h
  · rename_i h; injection h with h _; exact absurd h (by decide)
  · rename_i h; injection h with h _; exact absurd h (by decide)
  · rename_i h; injection h with h _; exact absurd h (by decide)
  · rename_i h; injection h with h _; exact absurd h (by decide)
  · rename_i c r' _ _ _ _ h
    injection h with h1 h2
    subst h1 h2
    simp only
    split
    · rename_i h; simp at h
    · rename_i h
      simp at h
      simp [put, pathMax, h]

theorem put_len {w out o : Str} (h : put w out = .ok o) : o.length ≤ pathMax := by
  unfold put at h
  split at h
  · injection h with h
    rw [← h]; simp; omega
  · cases h

theorem dotdot_len {out o : Str} {sl : Bool} (h : dotdot out sl = .ok o) (hl : out.length ≤ pathMax) :
    o.length ≤ pathMax := by
  unfold dotdot at h
  simp only at h
  split at h
  · injection h with h
    rw [← h]
    have h1 := (List.dropWhile_sublist (l := out) (· = '/')).length_le
    have h2 := (List.dropWhile_sublist (l := out.dropWhile (· = '/')) (· ≠ '/')).length_le
    exact Nat.le_trans h2 (Nat.le_trans h1 hl)
  · split at h
    · injection h with h
      rw [← h]; exact hl
    · exact put_len h

theorem loop_len (s out o : Str) (hl : out.length ≤ pathMax) (h : expandLoop s out = .ok o) :
    o.length ≤ pathMax := by
  fun_induction expandLoop s out with
  | case1 => cases h; exact hl
  | case2 _ _ ih => exact ih hl h
  | case3 => exact put_len h
  | case4 => cases h; exact hl
  | case5 => exact dotdot_len h hl
  | case6 _ _ _ e ih => exact ih (dotdot_len e hl) h
  | case7 => cases h
  | case8 => exact put_len h
  | case9 => rename_i e ih; exact ih (put_len e) h
  | case10 => cases h

theorem expandRaw_len (s t : Str) (h : expandRaw s = .ok t) : t.length ≤ pathMax := by
  unfold expandRaw at h
  split at h
  · cases h; decide
  · rename_i o ho
    injection h with h
    rw [← h, List.length_reverse]
    exact loop_len s [] _ (Nat.zero_le _) ho
  · cases h

theorem Left.simple {o : Str} {p fin q last} (h : Left o p fin q last) (hne : o ≠ []) :
    Simple o.reverse := by
  refine .inr ⟨by simpa using hne, q.root, q.ups, q.names.reverse, last, h.ok.1, ?_, ?_, ?_⟩
  · intro n hn; exact h.ok.2 n (by simpa using hn)
  · rcases h.kind with h | h | ⟨h, h', h''⟩
    · exact .inl h
    · exact .inr (.inl h)
    · exact .inr (.inr ⟨h, by simp [h'], h''⟩)
  · exact h.eq

theorem Left.head {o : Str} {p fin q last} (h : Left o p fin q last) : ∀ t, last ≠ '/' :: t := by
  intro t e
  rcases h.kind with h | h | ⟨h, _, _⟩
  · rw [h] at e; cases e
  · exact h.2.1 (by rw [e]; simp)
  · rw [h] at e; cases e

theorem Left.comps_last {o : Str} {p fin q last} (h : Left o p fin q last) : comps last = [last] := by
  apply comps_of_not_mem
  rcases h.kind with h | h | ⟨h, _, _⟩
  · rw [h]; simp
  · exact h.2.1
  · rw [h]; decide

theorem Left.place_eq {o : Str} {p fin q last} (h : Left o p fin q last) : Rep.FileName.place o.reverse = p := by
  rw [h.eq, place_text q h.ok last h.head, h.comps_last]
  exact h.place

theorem filePart_text (q : Place) {last : Str} (h : comps last = [last]) :
    filePart (q.text ++ last) = last := by
  have := getLast_comps (q.text ++ last)
  rcases text_last q with h0 | ⟨t, h0⟩
  · rw [h0] at this ⊢
    rw [List.nil_append, h] at this
    simpa using this.symm
  · rw [h0, List.append_assoc] at this ⊢
    rw [List.singleton_append, getLast_comps_append, h] at this
    simpa using this.symm

/-- What is proved of an expanded name `t` of `s`. -/
structure Expanded (s t : Str) : Prop where
  place : place t = place s
  simple : Simple t
  /-- the file part, if it is the name of something, is kept -/
  file : Plain (filePart s) → filePart t = filePart s
  /-- a name that ends with a slash still does, unless nothing is left of it -/
  slash : filePart s = [] → t = ['.'] ∨ ∃ d, t = d ++ ['/']

theorem expandRaw_spec (s : Str) (hl : s.length ≤ pathMax) :
    ∃ t, expandRaw s = .ok t ∧ Expanded s t := by
  have key : ∃ o, expandLoop s [] = .ok o ∧
      ((∃ q last, Left o (place s) (comps s).getLast? q last) ∨
        (o = ['.'] ∧ place s = ⟨false, 0, []⟩ ∧ (∀ c, Plain c → (comps s).getLast? ≠ some c))) := by
    unfold place Place.go
    split
    · rename_i r
      rw [loop_slash]
      simp only [List.length_cons] at hl
      have hs := strip_length r
      obtain ⟨o, h1, h2⟩ := loop_spec _ (strip r) ['/'] ⟨true, 0, []⟩ (Nat.le_refl _) rfl
        ⟨fun _ => rfl, by simp⟩ (strip_head r) (by simp only [List.length_cons, List.length_nil]; omega)
      rw [comps_strip, getLast_comps_strip] at h2
      refine ⟨o, h1, ?_⟩
      rw [comps_slash, List.foldl_cons, follow_nil, getLast_cons_comps]
      exact h2
    · rename_i h
      exact loop_spec _ s [] ⟨false, 0, []⟩ (Nat.le_refl _) rfl ⟨by simp, by simp⟩ h (by simpa using hl)
  obtain ⟨o, h1, h2⟩ := key
  unfold expandRaw
  rw [h1]
  rw [getLast_comps] at h2
  rcases h2 with ⟨q, last, h⟩ | ⟨rfl, h, h'⟩
  · cases o with
    | nil =>
      refine ⟨['.'], rfl, ?_, .inl rfl, ?_, fun _ => .inl rfl⟩
      · have := h.place_eq; rw [← this]; rfl
      · intro hp
        have := h.plain _ hp rfl
        have e := h.eq
        simp only [List.reverse_nil, List.nil_eq, List.append_eq_nil_iff] at e
        rw [this] at e
        exact absurd e.2 hp.1
    | cons a o =>
      refine ⟨(a :: o).reverse, rfl, h.place_eq, h.simple (by simp), ?_, ?_⟩
      · intro hp
        rw [h.eq, filePart_text q h.comps_last]
        exact h.plain _ hp rfl
      · intro he
        have hl := h.dir (by rw [he])
        right
        rcases text_last q with h0 | ⟨t, h0⟩
        · have e := h.eq
          rw [h0, hl] at e
          simp at e
        · exact ⟨t, by rw [h.eq, h0, hl]; simp⟩
  · refine ⟨['.'], rfl, by rw [h]; rfl, .inl rfl, ?_, fun _ => .inl rfl⟩
    intro hp
    exact absurd rfl (h' _ hp)

/-! ### Expanding again -/

theorem loop_plain_last {w : Str} (hw : Plain w) (out : Str) (hl : out.length + w.length ≤ pathMax) :
    expandLoop w out = .ok (w.reverse ++ out) := by
  obtain ⟨h1, h2, h3, h4⟩ := hw
  rw [expandLoop.eq_def]
  split
  · exact absurd rfl h1
  · exact absurd (by simp) h2
  · exact absurd rfl h3
  · exact absurd rfl h4
  · exact absurd (by simp) h2
  · rename_i c r _ _ _ _
    rcases split_slash (c :: r) with ⟨e1, e2, _⟩ | ⟨r', _, e2, _⟩
    · simp only
      split
      · rw [e2]; exact put_ok hl
      · rename_i h; rw [e1] at h; cases h
    · exact absurd (by rw [e2]; simp) h2

theorem loop_plain {w : Str} (hw : Plain w) (r out : Str)
    (hl : out.length + w.length + 1 ≤ pathMax) :
    expandLoop (w ++ '/' :: r) out = expandLoop (strip r) ('/' :: (w.reverse ++ out)) := by
  obtain ⟨h1, h2, h3, h4⟩ := hw
  have hsplit : ∀ u v : Str, '/' ∉ u → u ++ '/' :: v = w ++ '/' :: r → u = w ∧ v = r := by
    intro u v hu e
    have := congrArg (List.takeWhile (· ≠ '/')) e
    have hd := congrArg (List.dropWhile (· ≠ '/')) e
    have a1 := takeWhile_ne_slash (c := u.reverse) (by simpa using hu) v
    have a2 := takeWhile_ne_slash (c := w.reverse) (by simpa using h2) r
    simp only [List.reverse_reverse] at a1 a2
    rw [a1.1, a2.1] at this
    rw [a1.2, a2.2] at hd
    injection hd with _ hd
    exact ⟨this, hd⟩
  rw [expandLoop.eq_def]
  split
  · rename_i h; simp at h
  · rename_i v h
    exact absurd (hsplit ['.'] v (by decide) h.symm).1.symm h3
  · rename_i h
    have : '/' ∈ ['.'] := by rw [← h]; simp
    exact absurd this (by decide)
  · rename_i h
    have : '/' ∈ ['.', '.'] := by rw [← h]; simp
    exact absurd this (by decide)
  · rename_i v h
    exact absurd (hsplit ['.', '.'] v (by decide) h.symm).1.symm h4
  · rename_i c t _ _ _ _ h
    rcases split_slash (c :: t) with ⟨_, _, e3⟩ | ⟨r', e1, e2, e3⟩
    · exact absurd (by rw [← h]; simp) e3
    · obtain ⟨a, b⟩ := hsplit _ r' e3 (by rw [h]; exact e2.symm)
      subst b
      simp only
      split
      · rename_i h'; rw [e1] at h'; cases h'
      · rename_i h'
        rw [e1] at h'
        injection h' with _ h'
        subst h'
        rw [a, put_ok (by simp; omega)]
        simp

theorem strip_id {s : Str} (h : ∀ t, s ≠ '/' :: t) : strip s = s := by
  cases s with
  | nil => rfl
  | cons c r =>
    have : c ≠ '/' := fun e => h r (by rw [e])
    simp [strip, this]

theorem loop_names (l : List Str) (hl : ∀ n ∈ l, Plain n) (last : Str) (hlast : ∀ t, last ≠ '/' :: t) :
    ∀ out : Str, out.length + ((l.map (· ++ ['/'])).flatten ++ last).length ≤ pathMax →
    expandLoop ((l.map (· ++ ['/'])).flatten ++ last) out =
      expandLoop last ((l.map (· ++ ['/'])).flatten.reverse ++ out) := by
  induction l with
  | nil => intro out _; rfl
  | cons w l ih =>
    intro out hlen
    have hw := hl w (by simp)
    have hl' := fun n (hn : n ∈ l) => hl n (by simp [hn])
    have e : ((w :: l).map (· ++ ['/'])).flatten ++ last =
        w ++ '/' :: ((l.map (· ++ ['/'])).flatten ++ last) := by simp
    rw [e] at hlen ⊢
    simp only [List.length_append, List.length_cons] at hlen
    rw [loop_plain hw _ _ (by omega), strip_id, ih hl' _ (by simp; simp at hlen; omega)]
    · simp
    · intro t h
      cases l with
      | nil => exact hlast t h
      | cons w' l =>
        have hw' := hl' w' (by simp)
        cases w' with
        | nil => exact hw'.1 rfl
        | cons a w' =>
          simp at h
          exact hw'.2.1 (by simp [h.1])

theorem loop_ups (k j : Nat) (rest : Str) (hrest : ∀ t, rest ≠ '/' :: t) :
    ∀ out : Str, out.reverse = (⟨false, j, []⟩ : Place).text →
    out.length + ((List.replicate k ['.', '.', '/']).flatten ++ rest).length ≤ pathMax →
    expandLoop ((List.replicate k ['.', '.', '/']).flatten ++ rest) out =
      expandLoop rest ((List.replicate k ['.', '.', '/']).flatten.reverse ++ out) := by
  induction k generalizing j with
  | zero => intro out _ _; rfl
  | succ k ih =>
    intro out ho hlen
    have e : (List.replicate (k + 1) ['.', '.', '/']).flatten ++ rest =
        '.' :: '.' :: '/' :: ((List.replicate k ['.', '.', '/']).flatten ++ rest) := by
      simp [List.replicate_succ]
    rw [e] at hlen ⊢
    rw [expandLoop]
    simp only [List.length_append, List.length_cons] at hlen
    have h1 : dotdot out true = .ok ('/' :: '.' :: '.' :: out) := by
      rw [dotdot_up ho true]
      exact put_ok (by simp; omega)
    rw [h1]
    simp only
    rw [strip_id, ih (j + 1) _ (by rw [text_up]; simp [ho]) (by simp; simp at hlen; omega)]
    · congr 1
      simp [List.replicate_succ]
    · intro t h
      cases k with
      | zero => exact hrest t h
      | succ k => simp [List.replicate_succ] at h

theorem simple_last {names : List Str} {last : Str} {root : Bool}
    (h : last = [] ∨ Plain last ∨ (last = ['.', '.'] ∧ names = [] ∧ root = false)) :
    ∀ t, last ≠ '/' :: t := by
  intro t e
  rcases h with h | h | ⟨h, _, _⟩
  · rw [h] at e; cases e
  · exact h.2.1 (by rw [e]; simp)
  · rw [h] at e; cases e

theorem expandRaw_simple (t : Str) (hs : Simple t) (hl : t.length ≤ pathMax) :
    expandRaw t = .ok t := by
  rcases hs with rfl | ⟨hne, root, ups, names, last, h1, h2, h3, rfl⟩
  · simp [expandRaw, expandLoop, put, pathMax]
  · have hlast := simple_last h3
    have hn : ∀ t, (names.map (· ++ ['/'])).flatten ++ last ≠ '/' :: t := by
      intro t h
      cases names with
      | nil => exact hlast t h
      | cons w l =>
        have hw := h2 w (by simp)
        cases w with
        | nil => exact hw.1 rfl
        | cons a w =>
          simp at h
          exact hw.2.1 (by simp [h.1])
    -- the last component
    have hend : ∀ out : Str, out.length + last.length ≤ pathMax →
        (last = ['.', '.'] → out.reverse = (⟨false, ups, []⟩ : Place).text) →
        expandLoop last out = .ok (last.reverse ++ out) := by
      intro out hlen hdd
      rcases h3 with rfl | h | ⟨rfl, _, _⟩
      · rw [expandLoop]; rfl
      · exact loop_plain_last h out hlen
      · rw [expandLoop, dotdot_up (hdd rfl) false]
        exact put_ok (by simpa using hlen)
    have main : expandLoop ((if root then ['/'] else []) ++ (List.replicate ups ['.', '.', '/']).flatten ++
        (names.map (· ++ ['/'])).flatten ++ last) [] =
        .ok ((if root then ['/'] else []) ++ (List.replicate ups ['.', '.', '/']).flatten ++
        (names.map (· ++ ['/'])).flatten ++ last).reverse := by
      cases root with
      | true =>
        have hu : ups = 0 := h1 rfl
        subst hu
        simp only [if_true, List.replicate_zero, List.flatten_nil, List.append_nil,
          List.singleton_append, List.cons_append, List.nil_append, List.length_cons,
          List.append_assoc] at hl ⊢
        rw [loop_slash, strip_id hn, loop_names names h2 last hlast ['/'] (by simp at hl ⊢; omega)]
        rw [hend _ (by simp at hl ⊢; omega)]
        · simp
        · intro e
          rcases h3 with h | h | ⟨_, _, h⟩
          · rw [h] at e; cases e
          · exact absurd e h.2.2.2
          · cases h
      | false =>
        simp only [Bool.false_eq_true, if_false, List.nil_append, List.append_assoc] at hl ⊢
        rw [loop_ups ups 0 _ hn [] rfl (by simpa using hl)]
        rw [loop_names names h2 last hlast _ (by simp at hl ⊢; omega)]
        rw [hend _ (by simp at hl ⊢; omega)]
        · simp
        · intro e
          rcases h3 with h | h | ⟨_, h, _⟩
          · rw [h] at e; cases e
          · exact absurd e h.2.2.2
          · subst h; simp [Place.text]
    unfold expandRaw
    rw [main]
    generalize (if root then ['/'] else []) ++ (List.replicate ups ['.', '.', '/']).flatten ++
        (names.map (· ++ ['/'])).flatten ++ last = t at hne
    cases h : t.reverse with
    | nil => exact absurd (by simpa using h) hne
    | cons a o => simp only [← h, List.reverse_reverse]

theorem overflow_plain (w : Str) (hw : Plain w) (h : pathMax < w.length) : expandRaw w = .overflow := by
  obtain ⟨h1, h2, h3, h4⟩ := hw
  have : expandLoop w [] = .overflow := by
    rw [expandLoop.eq_def]
    split
    · exact absurd rfl h1
    · exact absurd (by simp) h2
    · exact absurd rfl h3
    · exact absurd rfl h4
    · exact absurd (by simp) h2
    · rename_i c r _ _ _ _
      rcases split_slash (c :: r) with ⟨e1, e2, _⟩ | ⟨r', _, e2, _⟩
      · simp only
        split
        · rw [e2]
          unfold put
          rw [if_neg]
          simp only [List.length_nil] at *
          omega
        · rename_i h; rw [e1] at h; cases h
      · exact absurd (by rw [e2]; simp) h2
  simp [expandRaw, this]

/-! ### Names in a directory -/

theorem asDirectory_spec (s : Str) :
    asDirectory s = [] ∨ ∃ t, asDirectory s = t ++ ['/'] := by
  unfold asDirectory
  split
  · rename_i h
    obtain ⟨d, h1, h2⟩ := filePart_append s
    rw [h, List.append_nil] at h1
    rw [h1]; exact h2
  · right; exact ⟨s, rfl⟩

theorem go_rel (p : Place) (s : Str) (hs : ∀ t, s ≠ '/' :: t) :
    p.go s = (comps s).foldl Place.follow p := by
  unfold Place.go
  split
  · rename_i t; exact absurd rfl (hs t)
  · rfl

theorem go_append (p : Place) (d s : Str) (hd : d ≠ []) (hs : ∀ t, s ≠ '/' :: t) :
    p.go (d ++ '/' :: s) = (p.go d).go s := by
  have e2 : (p.go d).go s = (comps s).foldl Place.follow (p.go d) := go_rel _ s hs
  rw [e2]
  cases d with
  | nil => exact absurd rfl hd
  | cons c d =>
    by_cases hc : c = '/'
    · subst hc
      show (comps ('/' :: d ++ '/' :: s)).foldl Place.follow ⟨true, 0, []⟩ = _
      rw [comps_append_slash, List.foldl_append]
      rfl
    · have e3 : p.go (c :: d ++ '/' :: s) = (comps (c :: d ++ '/' :: s)).foldl Place.follow p := by
        apply go_rel
        intro t h
        injection h with h _
        exact absurd h hc
      have e4 : p.go (c :: d) = (comps (c :: d)).foldl Place.follow p := by
        apply go_rel
        intro t h
        injection h with h _
        exact absurd h hc
      rw [e3, e4, comps_append_slash, List.foldl_append]

theorem place_slash (s : Str) (h : s ≠ []) : place (s ++ ['/']) = place s := by
  have := go_append ⟨false, 0, []⟩ s [] h (by simp)
  unfold place
  rw [this]
  simp [Place.go, comps, follow_nil]

theorem place_asDirectory (s : Str) : place (asDirectory s) = place s := by
  unfold asDirectory
  split
  · rfl
  · rename_i h
    exact place_slash s (fun e => h (by rw [e]; rfl))

theorem expandFileName_raw (s dir : Str) (h : ∀ t, atDir s dir ≠ '~' :: t) :
    expandFileName s dir = expandRaw (atDir s dir) := by
  unfold expandFileName
  simp only

theorem place_atDir (s dir : Str) (hs : ∀ t, s ≠ '~' :: t) :
    place (atDir s dir) = (place dir).go s := by
  have habs : ∀ t, s = '/' :: t → place s = (place dir).go s := by
    rintro t rfl; rfl
  unfold atDir
  split
  · rename_i h
    cases s with
    | nil => simp [absoluteP] at h
    | cons c r =>
      simp only [absoluteP, Bool.or_eq_true, beq_iff_eq] at h
      rcases h with rfl | rfl
      · exact habs r rfl
      · exact absurd rfl (hs r)
  · rename_i h
    have hns : ∀ t, s ≠ '/' :: t := by
      rintro t rfl; simp [absoluteP] at h
    split
    · rename_i hlen
      rw [← place_asDirectory dir]
      rcases asDirectory_spec dir with e | ⟨t, e⟩
      · rw [e] at hlen; simp at hlen
      · rw [e, List.append_assoc]
        show place (t ++ '/' :: s) = _
        cases t with
        | nil =>
          show (comps ('/' :: s)).foldl Place.follow ⟨true, 0, []⟩ = _
          rw [comps_slash, List.foldl_cons, follow_nil]
          have : place ([] ++ ['/']) = ⟨true, 0, []⟩ := rfl
          rw [this, go_rel _ s hns]
        | cons a t =>
          rw [place_slash _ (by simp)]
          exact go_append _ _ _ (by simp) hns
    · rename_i hlen
      have e : asDirectory dir = [] := by
        cases h' : asDirectory dir with
        | nil => rfl
        | cons a l => rw [h'] at hlen; simp at hlen
      rw [← place_asDirectory dir, e]
      rfl

/-! ### Evaluation of examples -/

theorem ev_nil (out : Str) : expandLoop [] out = .ok out := by rw [expandLoop]

theorem ev_dot (r out : Str) : expandLoop ('.' :: '/' :: r) out = expandLoop (strip ('/' :: r)) out := by
  rw [expandLoop]

theorem ev_dotdot (r out : Str) : expandLoop ('.' :: '.' :: '/' :: r) out =
    match dotdot out true with
    | .ok out => expandLoop (strip r) out
    | .overflow => .overflow := by
  rw [expandLoop]; rfl

theorem ev_comp (c : Char) (r out : Str) (h : c ≠ '.') : expandLoop (c :: r) out =
    match (c :: r).dropWhile (· ≠ '/') with
    | [] => put ((c :: r).takeWhile (· ≠ '/')) out
    | _ :: r' => match put ((c :: r).takeWhile (· ≠ '/') ++ ['/']) out with
      | .ok out => expandLoop (strip r') out
      | .overflow => .overflow := by
  rw [expandLoop.eq_def]
  split
  · rename_i e; cases e
  · rename_i e; injection e with e _; exact absurd e h
  · rename_i e; injection e with e _; exact absurd e h
  · rename_i e; injection e with e _; exact absurd e h
  · rename_i e; injection e with e _; exact absurd e h
  · rename_i c' r' _ _ _ _ e
    injection e with e1 e2
    subst e1 e2
    simp only
    split <;> rename_i e <;> simp only [e] <;> rfl

/-! ### The theorems -/

/-- **C60** (partial: names that the buffer of the function holds).  `expand-file-name` of a name and
a base directory, neither of which begins with `~`, gives a name of the same place, one in which there
is nothing left to simplify, which keeps the file part, and which it gives back unchanged when it is
called with it again. -/
theorem C60_expand_file_name_partial (s dir base : Str)
    (hs : ∀ t, s ≠ '~' :: t) (hd : ∀ t, dir ≠ '~' :: t)
    (hlen : dir.length + 1 + s.length ≤ 4096) :
    ∃ t, expandFileName s dir = .ok t ∧
      place t = (place dir).go s ∧
      Simple t ∧
      (Plain (filePart s) → filePart t = filePart s) ∧
      (filePart (atDir s dir) = [] → t = ['.'] ∨ ∃ d, t = d ++ ['/']) ∧
      expandRaw t = .ok t ∧
      (absoluteP t = true → (∀ u, t ≠ '~' :: u) → expandFileName t base = .ok t) := by
  have hat : (atDir s dir).length ≤ pathMax := by
    have hdl : (asDirectory dir).length ≤ dir.length + 1 := by
      unfold asDirectory
      split
      · omega
      · simp
    unfold atDir pathMax
    split
    · omega
    · split
      · rw [List.length_append]; omega
      · omega
  have hnt : ∀ t, atDir s dir ≠ '~' :: t := by
    intro t
    unfold atDir
    split
    · exact hs t
    · split
      · rename_i hlen'
        unfold asDirectory at hlen' ⊢
        split
        · rename_i hf
          intro e
          cases dir with
          | nil => simp [filePart] at hlen'
          | cons a dir =>
            injection e with e1 _
            exact hd dir (by rw [e1])
        · intro e
          cases dir with
          | nil => simp at e
          | cons a dir =>
            injection e with e1 _
            exact hd dir (by rw [e1])
      · exact hs t
  obtain ⟨t, h1, h2⟩ := expandRaw_spec (atDir s dir) hat
  have hle : t.length ≤ pathMax := expandRaw_len _ t h1
  have hagain := expandRaw_simple t h2.simple hle
  refine ⟨t, ?_, ?_, h2.simple, ?_, h2.slash, hagain, ?_⟩
  · rw [expandFileName_raw s dir hnt]; exact h1
  · rw [h2.place]; exact place_atDir s dir hs
  · intro hp
    have : filePart (atDir s dir) = filePart s := by
      unfold atDir
      split
      · rfl
      · split
        · rcases asDirectory_spec dir with e | ⟨t, e⟩
          · rw [e]; rfl
          · have a := getLast_comps (t ++ '/' :: s)
            rw [getLast_comps_append, getLast_comps] at a
            rw [e, List.append_assoc]
            simpa using a.symm
        · rfl
    rw [← this]
    exact h2.file (by rw [this]; exact hp)
  · intro ha hnt'
    have : atDir t base = t := by unfold atDir; rw [if_pos ha]
    rw [expandFileName_raw t base (by rw [this]; exact hnt'), this]
    exact hagain

/-- The hypotheses are met, and the result is what it should be. -/
example : expandFileName "./src/../lisp//rep/./data.jl".toList "/usr/share".toList =
    .ok "/usr/share/lisp/rep/data.jl".toList := by
  simp [expandFileName, atDir, absoluteP, asDirectory, filePart, expandRaw, ev_dot,
    ev_dotdot, ev_comp, strip, dotdot, put, pathMax]

example : place "/usr/share/lisp/rep/data.jl".toList =
    (place "/usr/share".toList).go "./src/../lisp//rep/./data.jl".toList := by decide

/-- **C60**: two names that `expand-file-name` makes equal lead to the same place. -/
theorem C60_equal_expansions_same_place (s s' dir dir' t : Str)
    (hs : ∀ t, s ≠ '~' :: t) (hd : ∀ t, dir ≠ '~' :: t)
    (hs' : ∀ t, s' ≠ '~' :: t) (hd' : ∀ t, dir' ≠ '~' :: t)
    (hlen : dir.length + 1 + s.length ≤ 4096) (hlen' : dir'.length + 1 + s'.length ≤ 4096)
    (h : expandFileName s dir = .ok t) (h' : expandFileName s' dir' = .ok t) :
    (place dir).go s = (place dir').go s' := by
  obtain ⟨u, h1, h2, _⟩ := C60_expand_file_name_partial s dir [] hs hd hlen
  obtain ⟨u', h1', h2', _⟩ := C60_expand_file_name_partial s' dir' [] hs' hd' hlen'
  rw [h] at h1
  rw [h'] at h1'
  injection h1 with h1
  injection h1' with h1'
  rw [← h2, ← h2', ← h1, ← h1']

/-- **C60** (partial: the part after the home directory does not begin with another slash).  A name
that begins with `~USER/` keeps this, and the rest is simplified. -/
theorem C60_tilde_partial (user rest dir : Str) (hu : '/' ∉ user)
    (hr : rest ≠ []) (hs : ∀ t, rest ≠ '/' :: t) (hlen : rest.length + 2 ≤ 4096) :
    ∃ t, expandFileName ('~' :: user ++ '/' :: rest) dir = .ok ('~' :: user ++ '/' :: t) ∧
      place t = place rest ∧ Simple t ∧ (Plain (filePart rest) → filePart t = filePart rest) := by
  have e : expandFileName ('~' :: user ++ '/' :: rest) dir =
      tildeExpand ('~' :: user ++ '/' :: rest) := rfl
  have hw := takeWhile_ne_slash (c := ('~' :: user).reverse) (by simpa using hu) rest
  simp only [List.reverse_reverse] at hw
  have hat : (atDir rest ['.']).length ≤ pathMax := by
    unfold atDir pathMax
    split
    · omega
    · have : asDirectory ['.'] = ['.', '/'] := rfl
      rw [this]; simp; omega
  have hpl : place (atDir rest ['.']) = place rest := by
    unfold atDir
    split
    · rfl
    · have : asDirectory ['.'] = ['.', '/'] := rfl
      rw [this]
      simp only [List.length_cons, List.length_nil, gt_iff_lt, Nat.zero_lt_succ, if_true]
      unfold place
      rw [go_rel _ rest hs, go_rel _ _ (by intro t h; cases h)]
      show (comps ('.' :: '/' :: rest)).foldl _ _ = _
      rw [comps_dot_slash, List.foldl_cons, follow_dot]
  have hfp : filePart (atDir rest ['.']) = filePart rest := by
    unfold atDir
    split
    · rfl
    · have : asDirectory ['.'] = ['.', '/'] := rfl
      rw [this]
      simp only [List.length_cons, List.length_nil, gt_iff_lt, Nat.zero_lt_succ, if_true]
      have a := getLast_comps (['.'] ++ '/' :: rest)
      rw [getLast_comps_append, getLast_comps] at a
      simpa using a.symm
  obtain ⟨t, h1, h2⟩ := expandRaw_spec (atDir rest ['.']) hat
  refine ⟨t, ?_, by rw [h2.place, hpl], h2.simple, by rw [← hfp]; exact h2.file⟩
  rw [e, tildeExpand, hw.1, hw.2]
  cases rest with
  | nil => exact absurd rfl hr
  | cons c r => simp only [h1]

/-- The hypotheses are met. -/
example : expandFileName "~john/src/../lisp/./a.jl".toList [] = .ok "~john/lisp/a.jl".toList := by
  simp [expandFileName, tildeExpand, atDir, absoluteP, asDirectory, filePart, expandRaw,
    ev_dot, ev_dotdot, ev_comp, strip, dotdot, put, pathMax]

/-- Where a name leads to when `~` is the home directory `home` (`tilde-expand`, tilde.jl:37-47: the
slash after `~` is dropped, `home` ends with one). -/
def homePlace (home rest : Str) : Place := place (home ++ rest)

/-- **C60 is violated** by a name in the home directory with two slashes: the rest is taken for an
absolute name, and its `..` for one at the root.  `~//../b` becomes `~//b`. -/
theorem C60_two_slashes_after_tilde_violated :
    expandFileName "~//../b".toList [] = .ok "~//b".toList ∧
      homePlace "/home/john/".toList "/../b".toList ≠ homePlace "/home/john/".toList "/b".toList := by
  refine ⟨?_, by decide⟩
  simp [expandFileName, tildeExpand, atDir, absoluteP, expandRaw, ev_dotdot, ev_comp, strip, dotdot,
    put, pathMax]

/-- **C60 is violated** by long names: every component of more than `PATH_MAX` characters is written
beyond the end of the buffer. -/
theorem C60_long_name_violated (s : Str) (h : Plain s) (ht : ∀ t, s ≠ '~' :: t) (hl : 4096 < s.length) :
    expandFileName s [] = .overflow := by
  have hat : atDir s [] = s := by
    unfold atDir
    split
    · rfl
    · have : asDirectory [] = [] := rfl
      rw [this]; rfl
  rw [expandFileName_raw s [] (by rw [hat]; exact ht), hat]
  exact overflow_plain s h hl

/-- There is such a name. -/
example : Plain (List.replicate 5000 'a') ∧ (∀ t, List.replicate 5000 'a' ≠ '~' :: t) ∧
    4096 < (List.replicate 5000 'a').length := by
  have hm : ∀ c, c ∈ List.replicate 5000 'a' → c = 'a' := fun c h => List.eq_of_mem_replicate h
  have hl : (List.replicate 5000 'a').length = 5000 := List.length_replicate
  refine ⟨⟨?_, fun h => absurd (hm _ h) (by decide), ?_, ?_⟩, ?_, by rw [hl]; decide⟩
  · intro e; rw [e] at hl; cases hl
  · intro e; rw [e] at hl; cases hl
  · intro e; rw [e] at hl; cases hl
  · intro t e; exact absurd (hm '~' (by rw [e]; simp)) (by decide)

/-- **C60**: `file-name-directory` and `file-name-nondirectory` split the name at its last slash. -/
theorem C60_directory_and_nondirectory (s : Str) :
    directory s ++ nondirectory s = s ∧ '/' ∉ nondirectory s ∧
      (directory s = [] ∨ ∃ t, directory s = t ++ ['/']) := by
  obtain ⟨d, h1, h2⟩ := filePart_append s
  have e : directory s = d := by
    unfold directory
    have hl := congrArg List.length h1
    rw [List.length_append] at hl
    have : s.length - (filePart s).length = d.length := by omega
    rw [this]
    conv => lhs; rw [h1]
    simp
  rw [e]
  exact ⟨h1.symm, filePart_not_mem s, h2⟩

/-- **C60**: `file-name-as-directory` gives a name of the same place that is empty or ends with a
slash; `directory-file-name` gives one of the same place, and undoes `file-name-as-directory` for
every name that is not one of a directory already. -/
theorem C60_as_directory (s : Str) :
    place (asDirectory s) = place s ∧
      (s ≠ [] → ∃ t, asDirectory s = t ++ ['/']) ∧
      asDirectory (asDirectory s) = asDirectory s ∧
      place (directoryFileName s) = place s ∧
      (s ≠ [] → (∀ t, s ≠ t ++ ['/']) → directoryFileName (asDirectory s) = s) := by
  have hfp : ∀ t : Str, filePart (t ++ ['/']) = [] := by
    intro t; simp [filePart]
  have hdir : ∀ s : Str, filePart s = [] → s = [] ∨ ∃ t, s = t ++ ['/'] := by
    intro s h
    obtain ⟨d, h1, h2⟩ := filePart_append s
    rw [h, List.append_nil] at h1
    rw [h1]; exact h2
  refine ⟨place_asDirectory s, ?_, ?_, ?_, ?_⟩
  · intro h
    rcases asDirectory_spec s with e | e
    · unfold asDirectory at e
      split at e
      · exact absurd e h
      · simp at e
    · exact e
  · have : filePart (asDirectory s) = [] := by
      rcases asDirectory_spec s with e | ⟨t, e⟩
      · rw [e]; rfl
      · rw [e]; exact hfp t
    rw [asDirectory, if_pos this]
  · unfold directoryFileName
    split
    · rfl
    · rename_i h
      simp only [ne_eq, Classical.not_not] at h
      rcases hdir s h with rfl | ⟨t, rfl⟩
      · rfl
      · split
        · rename_i h'; simp at h'
        · split
          · rfl
          · rename_i h'
            have ht : t ≠ [] := by rintro rfl; simp at h'
            have : (t ++ ['/']).take ((t ++ ['/']).length - 1) = t := by simp
            rw [this, place_slash t ht]
  · intro h1 h2
    have h : filePart s ≠ [] := by
      intro h
      rcases hdir s h with e | ⟨t, e⟩
      · exact h1 e
      · exact h2 t e
    rw [asDirectory, if_neg h, directoryFileName, if_neg (by rw [hfp]; simp)]
    have hl : s.length ≠ 0 := by simpa using h1
    rw [if_neg (by simp), if_neg (by simp; exact h1)]
    simp

example : directory "/tmp/foo".toList = "/tmp/".toList ∧ nondirectory "/tmp/foo".toList = "foo".toList ∧
    directory "foo/bar/".toList = "foo/bar/".toList ∧
    directoryFileName (asDirectory "/tmp/foo".toList) = "/tmp/foo".toList := by decide

end Rep.FileName
