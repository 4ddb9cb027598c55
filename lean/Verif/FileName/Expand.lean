import Verif.FileName.Basic

namespace Rep.FileName

/-- What the loop leaves: the text of a place and perhaps a last component without slash. -/
structure Left (o : Str) (p : Place) (fin : Option Str) (q : Place) (last : Str) : Prop where
  eq : o.reverse = q.text ++ last
  ok : q.ok
  kind : last = [] ∨ Plain last ∨ (last = ['.', '.'] ∧ q.names = [] ∧ q.root = false)
  place : q.follow last = p
  plain : ∀ c, Plain c → fin = some c → last = c
  dir : fin = some [] → last = []

theorem put_ok {w out : Str} (h : out.length + w.length ≤ pathMax) :
    put w out = .ok (w.reverse ++ out) := by simp [put, h]

theorem not_plain_dot : ¬ Plain ['.'] := fun h => h.2.2.1 rfl

theorem not_plain_dotdot : ¬ Plain ['.', '.'] := fun h => h.2.2.2 rfl

theorem comps_dot_slash (r : Str) : comps ('.' :: '/' :: r) = ['.'] :: comps r := by
  have := comps_append_slash ['.'] r
  rwa [comps_of_not_mem ['.'] (by decide)] at this

theorem comps_dotdot_slash (r : Str) : comps ('.' :: '.' :: '/' :: r) = ['.', '.'] :: comps r := by
  have := comps_append_slash ['.', '.'] r
  rwa [comps_of_not_mem ['.', '.'] (by decide)] at this

theorem getLast_cons_comps (a : Str) (r : Str) :
    (a :: comps r).getLast? = (comps r).getLast? := by
  cases h : comps r with
  | nil => exact absurd h (comps_ne_nil r)
  | cons w ws => simp

theorem loop_spec (n : Nat) : ∀ (s out : Str) (p : Place), s.length ≤ n → out.reverse = p.text → p.ok →
    (∀ t, s ≠ '/' :: t) → out.length + s.length ≤ pathMax →
    ∃ o, expandLoop s out = .ok o ∧
      ((∃ q last, Left o ((comps s).foldl Place.follow p) (comps s).getLast? q last) ∨
        (o = ['.'] ∧ (comps s).foldl Place.follow p = ⟨false, 0, []⟩ ∧
          (∀ c, Plain c → (comps s).getLast? ≠ some c))) := by
  induction n with
  | zero =>
    intro s out p hn ho hp _ _
    have : s = [] := List.length_eq_zero_iff.mp (Nat.le_zero.mp hn)
    subst this
    refine ⟨out, by rw [expandLoop], .inl ⟨p, [], by simpa using ho, hp, .inl rfl, ?_, ?_, fun _ => rfl⟩⟩
    · simp [comps, follow_nil]
    · intro c hc e
      simp [comps] at e
      exact e.symm
  | succ n ih =>
    intro s out p hn ho hp hs hl
    rw [expandLoop.eq_def]
    split
    · refine ⟨out, rfl, .inl ⟨p, [], by simpa using ho, hp, .inl rfl, ?_, ?_, fun _ => rfl⟩⟩
      · simp [comps, follow_nil]
      · intro c hc e
        simp [comps] at e
        exact e.symm
    · -- "./"
      rename_i r
      have hlen : (strip ('/' :: r)).length ≤ r.length := by
        have := strip_length r
        have e : strip ('/' :: r) = strip r := by simp [strip]
        rw [e]; exact this
      simp only [List.length_cons] at hn hl
      obtain ⟨o, h1, h2⟩ := ih (strip ('/' :: r)) out p (by omega) ho hp (strip_head _) (by omega)
      refine ⟨o, h1, ?_⟩
      rw [comps_dot_slash, List.foldl_cons, follow_dot, getLast_cons_comps]
      rw [comps_strip, getLast_comps_strip, comps_slash, List.foldl_cons, follow_nil,
        getLast_cons_comps] at h2
      exact h2
    · -- "."
      have e : comps ['.'] = [['.']] := by decide
      rw [e]
      split
      · rename_i h
        subst h
        refine ⟨['.'], rfl, .inr ⟨rfl, ?_, ?_⟩⟩
        · have : p.text = [] := by simpa using ho.symm
          rw [text_nil this]; rfl
        · intro c hc e
          simp at e
          subst e
          exact not_plain_dot hc
      · refine ⟨out, rfl, .inl ⟨p, [], by simpa using ho, hp, .inl rfl, ?_, ?_, fun _ => rfl⟩⟩
        · simp [follow_nil, follow_dot]
        · intro c hc e
          simp at e
          subst e
          exact absurd hc not_plain_dot
    · -- ".."
      have e : comps ['.', '.'] = [['.', '.']] := by decide
      rw [e]
      have hpl : ∀ c, Plain c → [['.', '.']].getLast? = some c → False := by
        intro c hc e
        simp at e
        subst e
        exact not_plain_dotdot hc
      by_cases h : p.names ≠ [] ∨ p.root = true
      · obtain ⟨o, h1, h2, _⟩ := dotdot_pop ho hp false h
        refine ⟨o, h1, .inl ⟨p.follow ['.', '.'], [], by simpa using h2, ok_follow_dotdot hp, .inl rfl,
          ?_, fun c hc e => (hpl c hc e).elim, fun _ => rfl⟩⟩
        simp [follow_nil]
      · obtain ⟨root, ups, names⟩ := p
        simp only [not_or, ne_eq, Classical.not_not, Bool.not_eq_true] at h
        obtain ⟨rfl, rfl⟩ := h
        refine ⟨['.', '.'] ++ out, ?_, .inl ⟨⟨false, ups, []⟩, ['.', '.'], by simp [ho], hp,
          .inr (.inr ⟨rfl, rfl, rfl⟩), rfl, fun c hc e => (hpl c hc e).elim, ?_⟩⟩
        · rw [dotdot_up ho false]
          exact put_ok (by simpa using hl)
        · intro e; simp at e
    · -- "../"
      rename_i r
      rw [comps_dotdot_slash, List.foldl_cons, getLast_cons_comps]
      simp only [List.length_cons] at hn hl
      have hsl := strip_length r
      by_cases h : p.names ≠ [] ∨ p.root = true
      · obtain ⟨o, h1, h2, h3⟩ := dotdot_pop ho hp true h
        obtain ⟨o', g1, g2⟩ := ih (strip r) o _ (by omega) h2 (ok_follow_dotdot hp) (strip_head _)
          (by omega)
        rw [comps_strip, getLast_comps_strip] at g2
        rw [h1]
        exact ⟨o', g1, g2⟩
      · obtain ⟨root, ups, names⟩ := p
        simp only [not_or, ne_eq, Classical.not_not, Bool.not_eq_true] at h
        obtain ⟨rfl, rfl⟩ := h
        have e : dotdot out true = .ok (['/', '.', '.'] ++ out) := by
          rw [dotdot_up ho true]
          exact put_ok (by simp; omega)
        rw [e]
        obtain ⟨o', g1, g2⟩ := ih (strip r) (['/', '.', '.'] ++ out) ⟨false, ups + 1, []⟩ (by omega)
          (by rw [text_up]; simp [ho]) (ok_follow_dotdot hp) (strip_head _) (by simp; omega)
        rw [comps_strip, getLast_comps_strip] at g2
        exact ⟨o', g1, g2⟩
    · -- an ordinary component
      rename_i c r hd1 hd2 hd3 hd4
      have hc : c ≠ '/' := fun e => hs r (by rw [e])
      rcases split_slash (c :: r) with ⟨h1, h2, h3⟩ | ⟨r', h1, h2, h3⟩
      · have hpl : Plain (c :: r) := by
          refine ⟨by simp, h3, ?_, ?_⟩
          · intro e; injection e with e1 e2; exact hd2 e1 e2
          · intro e; injection e with e1 e2; exact hd3 e1 e2
        refine ⟨(c :: r).reverse ++ out, ?_, .inl ⟨p, c :: r, by simp [ho], hp, .inr (.inl hpl), ?_, ?_, ?_⟩⟩
        · simp only
          split
          · rw [h2]; exact put_ok hl
          · rename_i h; rw [h1] at h; cases h
        · rw [comps_of_not_mem _ h3]; rfl
        · intro c' _ e
          rw [comps_of_not_mem _ h3] at e
          simpa using e
        · intro e
          rw [comps_of_not_mem _ h3] at e
          simp at e
      · have hne : (c :: r).takeWhile (· ≠ '/') ≠ [] := by
          rw [List.takeWhile_cons_of_pos (by simpa using hc)]; simp
        generalize hw : (c :: r).takeWhile (· ≠ '/') = w at h2 h3 hne
        have hpl : Plain w := by
          refine ⟨hne, h3, ?_, ?_⟩
          · intro e
            rw [e] at h2
            injection h2 with e1 e2
            exact hd1 r' e1 e2
          · intro e
            rw [e] at h2
            injection h2 with e1 e2
            exact hd4 r' e1 e2
        have hlen := congrArg List.length h2
        simp only [List.length_append, List.length_cons] at hlen
        simp only [List.length_cons] at hn hl
        have hsl := strip_length r'
        have e : put (w ++ ['/']) out = .ok ('/' :: (w.reverse ++ out)) := by
          rw [put_ok (by simp; omega)]; simp
        obtain ⟨o', g1, g2⟩ := ih (strip r') ('/' :: (w.reverse ++ out)) { p with names := w :: p.names }
          (by omega) (by rw [text_push]; simp [ho])
          ⟨hp.1, by intro m hm; rcases List.mem_cons.mp hm with rfl | hm; exact hpl; exact hp.2 m hm⟩
          (strip_head _) (by simp; omega)
        refine ⟨o', ?_, ?_⟩
        · simp only
          split
          · rename_i h; rw [h1] at h; cases h
          · rename_i h
            rw [h1] at h
            injection h with _ h
            subst h
            rw [e]
            exact g1
        · rw [comps_strip, getLast_comps_strip] at g2
          rw [h2, comps_append_slash, comps_of_not_mem w h3, List.foldl_append]
          simp only [List.foldl_cons, List.foldl_nil, follow_plain p hpl, List.cons_append,
            List.nil_append, getLast_cons_comps]
          exact g2

/-! ### Where the text of a place leads to -/

theorem comps_text_names (l : List Str) (hl : ∀ n ∈ l, Plain n) (s : Str) (p : Place) :
    (comps ((l.map (· ++ ['/'])).flatten ++ s)).foldl Place.follow p =
      (comps s).foldl Place.follow { p with names := l.reverse ++ p.names } := by
  induction l generalizing p with
  | nil => rfl
  | cons w l ih =>
    have hw := hl w (by simp)
    have e : ((w :: l).map (· ++ ['/'])).flatten ++ s =
        w ++ '/' :: ((l.map (· ++ ['/'])).flatten ++ s) := by simp
    rw [e, comps_append_slash, comps_of_not_mem w hw.2.1, List.foldl_append]
    simp only [List.foldl_cons, List.foldl_nil, follow_plain p hw]
    rw [ih (fun n hn => hl n (by simp [hn]))]
    simp

theorem comps_text_ups (k : Nat) (s : Str) (j : Nat) :
    (comps ((List.replicate k ['.', '.', '/']).flatten ++ s)).foldl Place.follow ⟨false, j, []⟩ =
      (comps s).foldl Place.follow ⟨false, j + k, []⟩ := by
  induction k generalizing j with
  | zero => rfl
  | succ k ih =>
    have e : (List.replicate (k + 1) ['.', '.', '/']).flatten ++ s =
        '.' :: '.' :: '/' :: ((List.replicate k ['.', '.', '/']).flatten ++ s) := by
      simp [List.replicate_succ]
    rw [e, comps_dotdot_slash, List.foldl_cons]
    have : (⟨false, j, []⟩ : Place).follow ['.', '.'] = ⟨false, j + 1, []⟩ := rfl
    rw [this, ih]
    congr 2
    omega

theorem comps_text (q : Place) (hq : q.ok) (s : Str) :
    (comps (q.text ++ s)).foldl Place.follow ⟨q.root, 0, []⟩ = (comps s).foldl Place.follow q := by
  obtain ⟨root, ups, names⟩ := q
  have hn : ∀ n ∈ names.reverse, Plain n := fun n h => hq.2 n (by simpa using h)
  cases root with
  | true =>
    have : ups = 0 := hq.1 rfl
    subst this
    have e : (⟨true, 0, names⟩ : Place).text ++ s =
        '/' :: ((names.reverse.map (· ++ ['/'])).flatten ++ s) := by simp [Place.text]
    rw [e, comps_slash, List.foldl_cons, follow_nil, comps_text_names _ hn]
    simp
  | false =>
    have e : (⟨false, ups, names⟩ : Place).text ++ s =
        (List.replicate ups ['.', '.', '/']).flatten ++
          ((names.reverse.map (· ++ ['/'])).flatten ++ s) := by simp [Place.text]
    rw [e, comps_text_ups, comps_text_names _ hn]
    simp

theorem text_head (q : Place) (hq : q.ok) (s : Str) (hs : q.text = [] → ∀ t, s ≠ '/' :: t) (t : Str)
    (h : q.text ++ s = '/' :: t) : q.root = true := by
  obtain ⟨root, ups, names⟩ := q
  cases root with
  | true => rfl
  | false =>
    exfalso
    cases ups with
    | succ k => simp [Place.text, List.replicate_succ] at h
    | zero =>
      have e : (⟨false, 0, names⟩ : Place).text = (names.reverse.map (· ++ ['/'])).flatten := by
        simp [Place.text]
      cases hr : names.reverse with
      | nil =>
        rw [e, hr] at h
        exact hs (by rw [e, hr]; rfl) t h
      | cons w l =>
        have hw : Plain w := hq.2 w (by rw [← List.mem_reverse, hr]; simp)
        rw [e, hr] at h
        cases w with
        | nil => exact hw.1 rfl
        | cons a w =>
          simp at h
          exact hw.2.1 (by simp [h.1])

theorem text_root_head (q : Place) (s : Str) (h : q.root = true) : ∃ t, q.text ++ s = '/' :: t := by
  simp [Place.text, h]

/-- Following the text of a place from the start leads to that place. -/
theorem place_text (q : Place) (hq : q.ok) (s : Str) (hs : ∀ t, s ≠ '/' :: t) :
    place (q.text ++ s) = (comps s).foldl Place.follow q := by
  rw [← comps_text q hq s]
  unfold place Place.go
  split
  · rename_i t h
    rw [text_head q hq s (fun _ => hs) t h]
  · rename_i h
    cases hr : q.root with
    | false => rfl
    | true =>
      obtain ⟨t, ht⟩ := text_root_head q s hr
      exact absurd ht (h t)

end Rep.FileName
