import Verif.Prof.Model

/-
C108: what the profiler counts.
-/

namespace Rep.Prof

/-! ### specification -/

/-- The calls inside the innermost load. -/
def visible (st : List Frame) : List Frame := st.takeWhile (· ≠ .null)

/-- In how many samples the function was running itself. -/
def selfSpec (ss : List (Nat × List Frame)) (n : Nat) : Nat := ss.countP fun s => s.2.head? = some (.named n)

/-- In how many samples it was among the visible calls, at any depth, any number of times. -/
def totalSpec (ss : List (Nat × List Frame)) (n : Nat) : Nat := ss.countP fun s => .named n ∈ visible s.2

/-- In how many samples the running function had a name. -/
def topNamed (ss : List (Nat × List Frame)) : Nat := ss.countP fun s => match s.2 with | .named _ :: _ => true | _ => false

/-! ### the table -/

def get (t : Table) (n : Nat) : Nat × Nat := (ref t n).getD (0, 0)

theorem lookup_filter_ne (t : Table) {n m : Nat} (h : m ≠ n) : (t.filter fun x => x.1 != n).lookup m = t.lookup m := by
  induction t with
  | nil => rfl
  | cons x t ih =>
    obtain ⟨a, v⟩ := x
    by_cases ha : a = n
    · subst ha
      have : (m == a) = false := by simpa using h
      simp [List.lookup_cons, this, ih]
    · simp only [List.filter_cons, bne_iff_ne, ne_eq, ha, not_false_eq_true, decide_true, if_true, List.lookup_cons, ih]

theorem get_put (t : Table) (n m : Nat) (v : Nat × Nat) : get (put t n v) m = if m = n then v else get t m := by
  unfold get ref put
  rw [List.lookup_cons]
  by_cases h : m = n
  · subst h; simp
  · have : (m == n) = false := by simpa using h
    rw [this, if_neg h, lookup_filter_ne t h]

theorem get_bump (t : Table) (n m : Nat) (top : Bool) :
    get (bump t n top) m = if m = n then ((get t n).1 + (if top then 1 else 0), (get t n).2 + 1) else get t m := by
  unfold bump
  rw [get_put]
  by_cases h : m = n
  · rw [if_pos h, if_pos h]
    cases top <;> rfl
  · rw [if_neg h, if_neg h]

/-! ### one sample -/

theorem loop_get {max : Nat} : ∀ (st : List Frame) (top : Bool) (seen : List Nat) (t t' : Table) (n : Nat),
    loop max top seen t st = some t' →
    (top = true → seen = []) →
    get t' n = ((get t n).1 + (if top = true ∧ st.head? = some (.named n) then 1 else 0),
      (get t n).2 + (if n ∉ seen ∧ Frame.named n ∈ visible st then 1 else 0)) := by
  intro st
  induction st with
  | nil => intro top seen t t' n h _; cases h; simp [visible]
  | cons f st ih =>
    intro top seen t t' n h hs
    cases f with
    | null => cases h; simp [visible]
    | anon =>
      rw [loop] at h
      rw [ih false seen t t' n h (fun e => nomatch e)]
      simp [visible]
    | named m =>
      rw [loop] at h
      split at h
      · next hm =>
        have htop : top = false := by
          cases top with
          | false => rfl
          | true => rw [hs rfl] at hm; cases hm
        rw [ih false seen t t' n h (fun e => nomatch e)]
        subst htop
        by_cases e : n = m
        · subst e; simp [hm]
        · simp [visible, e]
      · next hm =>
        split at h
        · rw [ih false _ _ t' n h (fun e => nomatch e), get_bump]
          by_cases e : n = m
          · subst e
            simp [hm, visible]
          · have e' : m ≠ n := fun x => e x.symm
            simp [visible, e, e']
        · cases h

/-! ### the property -/

/-- After any number of samples the counts of every function are the numbers of samples in which it was
running, and in which it was called and had not returned.  Partial: calls outside of a load that is going
on are not seen. -/
theorem C108_counts_partial (ss : List (Nat × List Frame)) (t : Table) (h : profile [] ss = some t) (n : Nat) :
    get t n = (selfSpec ss n, totalSpec ss n) := by
  have key : ∀ (ss : List (Nat × List Frame)) (t0 t : Table), profile t0 ss = some t →
      get t n = ((get t0 n).1 + selfSpec ss n, (get t0 n).2 + totalSpec ss n) := by
    intro ss
    induction ss with
    | nil => intro t0 t h; cases h; rfl
    | cons s ss ih =>
      intro t0 t h
      rw [profile] at h
      cases h1 : sample t0 s with
      | none => rw [h1] at h; cases h
      | some t1 =>
        rw [h1, Option.bind_some] at h
        rw [ih t1 t h, loop_get s.2 true [] t0 t1 n h1 (fun _ => rfl)]
        unfold selfSpec totalSpec
        simp only [List.countP_cons, true_and, List.not_mem_nil, not_false_eq_true, decide_eq_true_eq]
        rw [Nat.add_assoc, Nat.add_assoc, Nat.add_comm (if s.2.head? = _ then 1 else 0), Nat.add_comm (if Frame.named n ∈ visible s.2 then 1 else 0)]
  rw [key ss [] t h]
  simp [get, ref]

theorem loop_safe {max : Nat} : ∀ (st : List Frame) (top : Bool) (seen : List Nat) (t : Table),
    seen.length + (visible st).length ≤ max → ∃ t', loop max top seen t st = some t' := by
  intro st
  induction st with
  | nil => intro top seen t _; exact ⟨t, rfl⟩
  | cons f st ih =>
    intro top seen t h
    cases f with
    | null => exact ⟨t, rfl⟩
    | anon =>
      simp [visible] at h
      exact ih false seen t (by simp [visible]; omega)
    | named m =>
      simp [visible] at h
      rw [loop]
      split
      · exact ih false seen t (by simp [visible]; omega)
      · rw [if_pos (by omega)]
        exact ih false _ _ (by simp [visible]; omega)

/-- No memory beyond the end of an array is written.  Partial: `max-lisp-depth` is not lower than the
number of calls. -/
theorem C108_safe_partial (ss : List (Nat × List Frame)) (h : ∀ s ∈ ss, s.2.length ≤ s.1) : ∃ t, profile [] ss = some t := by
  have key : ∀ (ss : List (Nat × List Frame)) (t0 : Table), (∀ s ∈ ss, s.2.length ≤ s.1) → ∃ t, profile t0 ss = some t := by
    intro ss
    induction ss with
    | nil => intro t0 _; exact ⟨t0, rfl⟩
    | cons s ss ih =>
      intro t0 h
      have hl : (visible s.2).length ≤ s.1 := Nat.le_trans (List.takeWhile_sublist _).length_le (h s (by simp))
      obtain ⟨t1, h1⟩ := loop_safe (max := s.1) s.2 true [] t0 (by simpa using hl)
      obtain ⟨t, ht⟩ := ih t1 (fun x hx => h x (List.mem_cons_of_mem _ hx))
      exact ⟨t, by rw [profile, sample, h1]; exact ht⟩
  exact key ss [] h

/-! ### the printed profile -/

def keys (t : Table) : List Nat := t.map Prod.fst

theorem put_keys {t : Table} (h : (keys t).Nodup) (n : Nat) (v : Nat × Nat) : (keys (put t n v)).Nodup := by
  unfold keys put
  rw [List.map_cons, List.nodup_cons]
  refine ⟨?_, ?_⟩
  · simp
  · exact List.Nodup.sublist (List.Sublist.map _ List.filter_sublist) h

theorem lookup_none {t : Table} {n : Nat} (h : n ∉ keys t) : t.lookup n = none := by
  induction t with
  | nil => rfl
  | cons x t ih =>
    simp [keys] at h
    have : (n == x.1) = false := by simpa using h.1
    obtain ⟨a, v⟩ := x
    rw [List.lookup_cons]
    simp only at this
    rw [this]
    exact ih (by simp [keys]; exact h.2)

theorem filter_none {t : Table} {n : Nat} (h : n ∉ keys t) : (t.filter fun x => x.1 != n) = t := by
  rw [List.filter_eq_self]
  intro x hx
  simp only [bne_iff_ne, ne_eq]
  intro e
  exact h (List.mem_map.2 ⟨x, hx, e⟩)

theorem sum_split {t : Table} (h : (keys t).Nodup) (n : Nat) :
    totalSamples t = (get t n).1 + totalSamples (t.filter fun x => x.1 != n) := by
  induction t with
  | nil => rfl
  | cons x t ih =>
    obtain ⟨a, v⟩ := x
    simp only [keys, List.map_cons, List.nodup_cons] at h
    by_cases e : a = n
    · subst e
      have h1 : a ∉ keys t := h.1
      simp only [List.filter_cons, bne_self_eq_false, Bool.false_eq_true, if_false, filter_none h1]
      simp [get, ref, totalSamples]
    · have e1 : (n == a) = false := by simpa using fun x => e x.symm
      have e2 : (a != n) = true := by simpa using e
      have := ih h.2
      simp only [List.filter_cons, e2, if_true]
      unfold totalSamples get ref at *
      simp only [List.map_cons, List.sum_cons, List.lookup_cons, e1]
      omega

theorem bump_sum {t : Table} (h : (keys t).Nodup) (n : Nat) (top : Bool) :
    totalSamples (bump t n top) = totalSamples t + (if top then 1 else 0) := by
  rw [sum_split h n]
  unfold bump put
  have e : ((ref t n).getD (0, 0)) = get t n := rfl
  simp only [e]
  cases top
  · simp [totalSamples]
  · simp [totalSamples]; omega

theorem loop_sum {max : Nat} : ∀ (st : List Frame) (top : Bool) (seen : List Nat) (t t' : Table),
    loop max top seen t st = some t' → (keys t).Nodup → (top = true → seen = []) →
    (keys t').Nodup ∧ totalSamples t' = totalSamples t + (if top then topNamed [(max, st)] else 0) := by
  intro st
  induction st with
  | nil => intro top seen t t' h hk _; cases h; exact ⟨hk, by simp [topNamed]⟩
  | cons f st ih =>
    intro top seen t t' h hk hs
    cases f with
    | null => cases h; exact ⟨hk, by simp [topNamed]⟩
    | anon =>
      rw [loop] at h
      obtain ⟨a, b⟩ := ih false seen t t' h hk (fun e => nomatch e)
      exact ⟨a, by simpa [topNamed] using b⟩
    | named m =>
      rw [loop] at h
      split at h
      · next hm =>
        obtain ⟨a, b⟩ := ih false seen t t' h hk (fun e => nomatch e)
        refine ⟨a, ?_⟩
        cases top with
        | false => simpa using b
        | true => rw [hs rfl] at hm; cases hm
      · split at h
        · obtain ⟨a, b⟩ := ih false _ _ t' h (put_keys hk _ _) (fun e => nomatch e)
          refine ⟨a, ?_⟩
          rw [b, bump_sum hk]
          cases top <;> simp [topNamed]
        · cases h

/-- In a printed profile each function that was ever found running has exactly one line, with its counts,
and no other has one; the divisor of the percentages is the number of samples in which a function with a
name was running, is not zero, and the first counts of all lines add up to it. -/
theorem C108_printed (ss : List (Nat × List Frame)) (t : Table) (h : profile [] ss = some t) :
    (∀ n a b d, (n, a, b, d) ∈ lines t → 0 < a ∧ 0 < d ∧ d = topNamed ss ∧
      a = selfSpec ss n ∧ b = totalSpec ss n) ∧
    (∀ n, 0 < selfSpec ss n → ∃ a b d, (n, a, b, d) ∈ lines t) ∧
    ((lines t).map Prod.fst).Nodup ∧
    ((lines t).map fun l => l.2.1).sum = topNamed ss := by
  have key : ∀ (ss : List (Nat × List Frame)) (t0 t : Table), profile t0 ss = some t → (keys t0).Nodup →
      (keys t).Nodup ∧ totalSamples t = totalSamples t0 + topNamed ss := by
    intro ss
    induction ss with
    | nil => intro t0 t h hk; cases h; exact ⟨hk, rfl⟩
    | cons s ss ih =>
      intro t0 t h hk
      rw [profile] at h
      cases h1 : sample t0 s with
      | none => rw [h1] at h; cases h
      | some t1 =>
        rw [h1, Option.bind_some] at h
        obtain ⟨k1, e1⟩ := loop_sum s.2 true [] t0 t1 h1 hk (fun _ => rfl)
        obtain ⟨k2, e2⟩ := ih t1 t h k1
        refine ⟨k2, ?_⟩
        rw [e2, e1]
        unfold topNamed
        simp only [List.countP_cons, List.countP_nil, if_true]
        omega
  obtain ⟨hk, hT⟩ := key ss [] t h (by simp [keys])
  have hT' : totalSamples t = topNamed ss := by
    rw [hT]; simp [totalSamples]
  have look : ∀ n v, (n, v) ∈ t → get t n = v := by
    intro n v hm
    clear h hT hT' key
    induction t with
    | nil => cases hm
    | cons x t ih =>
      obtain ⟨a, w⟩ := x
      simp only [keys, List.map_cons, List.nodup_cons] at hk
      unfold get ref
      rw [List.lookup_cons]
      rcases List.mem_cons.1 hm with e | e
      · cases e; simp
      · have : n ≠ a := fun x => hk.1 (List.mem_map.2 ⟨(n, v), e, x⟩)
        have e1 : (n == a) = false := by simpa using this
        rw [e1]
        exact ih hk.2 e
  have sum_le : ∀ (l : Table) (x : Nat × (Nat × Nat)), x ∈ l → x.2.1 ≤ totalSamples l := by
    intro l x hx
    induction l with
    | nil => cases hx
    | cons y l ih =>
      rcases List.mem_cons.1 hx with e | e
      · subst e; simp [totalSamples]
      · have := ih e
        simp only [totalSamples, List.map_cons, List.sum_cons] at this ⊢
        omega
  refine ⟨?_, ?_, ?_, ?_⟩
  · intro n a b d hm
    unfold lines at hm
    rw [List.mem_filterMap] at hm
    obtain ⟨x, hx, e⟩ := hm
    split at e
    · next hpos =>
      cases e
      have g := look x.1 x.2 hx
      rw [C108_counts_partial ss t h] at g
      have := sum_le t x hx
      refine ⟨hpos, by omega, hT', ?_, ?_⟩
      · rw [← g]
      · rw [← g]
    · cases e
  · intro n hn
    have g := C108_counts_partial ss t h n
    have hmem : ∃ v, (n, v) ∈ t ∧ get t n = v := by
      by_cases hin : n ∈ keys t
      · obtain ⟨x, hx, e⟩ := List.mem_map.1 hin
        subst e
        exact ⟨x.2, hx, look _ _ hx⟩
      · unfold get ref at g
        rw [lookup_none hin] at g
        simp at g
        omega
    obtain ⟨v, hv, e⟩ := hmem
    rw [g] at e
    refine ⟨v.1, v.2, totalSamples t, ?_⟩
    unfold lines
    rw [List.mem_filterMap]
    refine ⟨(n, v), hv, ?_⟩
    rw [if_pos (by rw [← e]; exact hn)]
  · have : (lines t).map Prod.fst = (t.filter fun x => decide (x.2.1 > 0)).map Prod.fst := by
      unfold lines
      generalize totalSamples t = d
      clear h hk hT hT' look sum_le
      induction t with
      | nil => rfl
      | cons x t ih => by_cases hx : x.2.1 > 0 <;> simp [hx, ih]
    rw [this]
    exact List.Nodup.sublist (List.Sublist.map _ List.filter_sublist) hk
  · rw [← hT']
    have : ∀ (l : Table) (d : Nat), ((l.filterMap fun x => if x.2.1 > 0 then some (x.1, x.2.1, x.2.2, d) else none).map fun l => l.2.1).sum = totalSamples l := by
      intro l d
      induction l with
      | nil => rfl
      | cons x l ih =>
        simp only [totalSamples, List.map_cons, List.sum_cons] at ih ⊢
        by_cases hx : x.2.1 > 0
        · simp [hx, ← ih]
        · simp [hx, ← ih]; omega
    exact this t _

/-- Function 1 calls 2, which calls itself; then 1 runs alone; then 1 calls a function without a name. -/
def run : List (Nat × List Frame) := [(100, [.named 2, .named 2, .named 1]), (100, [.named 1]), (100, [.anon, .named 1])]

example : profile [] run = some [(1, (1, 3)), (2, (1, 1))] := by decide

example : ∀ s ∈ run, s.2.length ≤ s.1 := by decide

/-- A function that loads a file is not counted while the file is being loaded. -/
theorem C108_load_violated : profile [] [(100, [.named 3, .null, .named 2, .named 1])] = some [(3, (1, 1))] := by decide

/-- With a `max-lisp-depth` that was made smaller than the number of calls, memory is overwritten. -/
theorem C108_depth_violated : profile [] [(2, [.named 3, .named 2, .named 1])] = none := by decide

/-- A share of more than one: function 1 was called in all of three samples, but counts three of two. -/
theorem C108_share_violated : (profile [] run).map lines = some [(1, 1, 3, 2), (2, 1, 1, 2)] := by decide

end Rep.Prof
