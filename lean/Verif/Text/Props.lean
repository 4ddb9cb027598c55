import Verif.Text.Model
import Mathlib.Tactic.ByContra

namespace Rep.Text

/-! ### Specification -/

/-- A string without zero bytes. -/
def NoNul (s : List UInt8) : Prop := ∀ b ∈ s, b ≠ 0

/-- The lexicographic order of the upper case characters. -/
inductive Less (up : Int → Int) : List UInt8 → List UInt8 → Prop
  | nil {b t} : Less up [] (b :: t)
  | lt {a b s t} : up (char a) < up (char b) → Less up (a :: s) (b :: t)
  | eq {a b s t} : up (char a) = up (char b) → Less up s t → Less up (a :: s) (b :: t)

/-- The texts in upper case. -/
def upper (up : Int → Int) (s : List UInt8) : List Int := s.map fun b => up (char b)

/-- `s` begins with `p`, up to case. -/
def Begins (low : UInt8 → UInt8) (p s : List UInt8) : Prop := p.map low <+: s.map low

instance (low p s) : Decidable (Begins low p s) := by unfold Begins; infer_instance

/-! ### Comparison -/

theorem nul_head {a : UInt8} {s : List UInt8} (h : NoNul (a :: s)) : a ≠ 0 := h a (by simp)
theorem nul_tail {a : UInt8} {s : List UInt8} (h : NoNul (a :: s)) : NoNul s :=
  fun b m => h b (by simp [m])

/-- C84: `string-head-eq` tells whether the second string is at the start of the
first. -/
theorem C84_head_eq_partial : ∀ {s t : List UInt8}, NoNul s → NoNul t →
    headEq (mem s) (mem t) = .ok (decide (t <+: s))
  | [], [], _, _ => by simp [mem, headEq]
  | [], b :: t, _, ht => by
    have := nul_head ht
    simp [mem, headEq, this, Ne.symm this]
  | a :: s, [], hs, _ => by
    have := nul_head hs
    simp [mem, headEq, this]
  | a :: s, b :: t, hs, ht => by
    have ih := C84_head_eq_partial (nul_tail hs) (nul_tail ht)
    have ha := nul_head hs
    have hb := nul_head ht
    simp only [mem, List.cons_append, headEq, ha, hb, ne_eq, not_false_eq_true, and_self,
      if_true] at ih ⊢
    by_cases e : a = b
    · subst e
      simp only [not_true_eq_false, if_false]
      rw [ih]; simp
    · have : ¬ (b :: t <+: a :: s) := by
        intro k
        rw [List.cons_prefix_cons] at k
        exact e k.1.symm
      simp only [e, not_false_eq_true, if_true, this, decide_false]

/-- C84: `string-equal` tells whether the strings are equal in upper case. -/
theorem C84_equal_partial (up : Int → Int) : ∀ {s t : List UInt8}, NoNul s → NoNul t →
    equal up (mem s) (mem t) = .ok (decide (upper up s = upper up t))
  | [], [], _, _ => by simp [mem, equal, upper]
  | [], b :: t, _, ht => by
    have := nul_head ht
    simp [mem, equal, this, upper]
  | a :: s, [], hs, _ => by
    have := nul_head hs
    simp [mem, equal, this, upper]
  | a :: s, b :: t, hs, ht => by
    have ih := C84_equal_partial up (nul_tail hs) (nul_tail ht)
    have ha := nul_head hs
    have hb := nul_head ht
    simp only [mem, List.cons_append, equal, ha, hb, ne_eq, not_false_eq_true, and_self,
      if_true, upper, List.map_cons, List.cons.injEq] at ih ⊢
    by_cases e : up (char a) = up (char b)
    · simp only [e, not_true_eq_false, if_false, true_and]; exact ih
    · simp [e]

/-- C84: `string-lessp` tells whether the first string is before the second in the
lexicographic order of upper case characters. -/
theorem C84_lessp_partial (up : Int → Int) : ∀ {s t : List UInt8}, NoNul s → NoNul t →
    ∃ r, lessp up (mem s) (mem t) = .ok r ∧ (r = true ↔ Less up s t)
  | [], [], _, _ => ⟨false, by simp [mem, lessp], by
      constructor
      · intro h; cases h
      · intro h; cases h⟩
  | [], b :: t, _, ht => ⟨true, by
      have := nul_head ht
      simp [mem, lessp, this], by simp; exact .nil⟩
  | a :: s, [], hs, _ => ⟨false, by simp [mem, lessp], by
      constructor
      · intro h; cases h
      · intro h; cases h⟩
  | a :: s, b :: t, hs, ht => by
    obtain ⟨r, ih, ir⟩ := C84_lessp_partial up (nul_tail hs) (nul_tail ht)
    have ha := nul_head hs
    have hb := nul_head ht
    simp only [mem, List.cons_append, lessp, ha, hb, ne_eq, not_false_eq_true, and_self,
      if_true] at ih ⊢
    by_cases e : up (char a) = up (char b)
    · refine ⟨r, by simp only [e, not_true_eq_false, if_false]; exact ih, ir.trans ⟨.eq e, ?_⟩⟩
      intro h
      cases h with
      | lt k => omega
      | eq _ k => exact k
    · refine ⟨decide (up (char a) < up (char b)), by simp [e], ?_⟩
      simp only [decide_eq_true_eq]
      refine ⟨.lt, fun h => ?_⟩
      cases h with
      | lt k => exact k
      | eq k _ => exact absurd k e

theorem Less.irrefl {up s} : ¬ Less up s s := by
  induction s with
  | nil => intro h; cases h
  | cons a s ih => intro h; cases h with
    | lt k => omega
    | eq _ k => exact ih k

theorem Less.trans {up s t u} (h : Less up s t) : Less up t u → Less up s u := by
  induction h generalizing u with
  | nil => intro k; cases k <;> exact .nil
  | lt h => intro k; cases k with
    | lt k => exact .lt (by omega)
    | eq e k => exact .lt (by omega)
  | eq e _ ih => intro k; cases k with
    | lt k => exact .lt (by omega)
    | eq e' k => exact .eq (e.trans e') (ih k)

theorem Less.total {up} : ∀ {s t : List UInt8}, upper up s ≠ upper up t → Less up s t ∨ Less up t s
  | [], [], h => absurd rfl h
  | [], _ :: _, _ => .inl .nil
  | _ :: _, [], _ => .inr .nil
  | a :: s, b :: t, h => by
    rcases Int.lt_trichotomy (up (char a)) (up (char b)) with k | k | k
    · exact .inl (.lt k)
    · have : upper up s ≠ upper up t := fun e => h (by simp only [upper, List.map_cons] at e ⊢; rw [k, e])
      rcases Less.total this with g | g
      · exact .inl (.eq k g)
      · exact .inr (.eq k.symm g)
    · exact .inr (.lt k)

/-- C84: `string-lessp` is a strict order, and of two strings exactly one is less unless
they are `string-equal`. -/
theorem C84_order_partial (up : Int → Int) {s t u : List UInt8} (hs : NoNul s) (ht : NoNul t)
    (hu : NoNul u) :
    (lessp up (mem s) (mem t) = .ok true → lessp up (mem t) (mem u) = .ok true →
      lessp up (mem s) (mem u) = .ok true) ∧
    (equal up (mem s) (mem t) = .ok false →
      (lessp up (mem s) (mem t) = .ok true ↔ lessp up (mem t) (mem s) = .ok false)) ∧
    (equal up (mem s) (mem t) = .ok true →
      lessp up (mem s) (mem t) = .ok false ∧
      lessp up (mem s) (mem u) = lessp up (mem t) (mem u)) := by
  have key : ∀ {x y : List UInt8}, NoNul x → NoNul y →
      ((lessp up (mem x) (mem y) = .ok true ↔ Less up x y) ∧
       (lessp up (mem x) (mem y) = .ok false ↔ ¬ Less up x y)) := by
    intro x y hx hy
    obtain ⟨r, e, k⟩ := C84_lessp_partial up hx hy
    rw [e]
    cases r
    · simp at k; simp [k]
    · simp at k; simp [k]
  refine ⟨?_, ?_, ?_⟩
  · rw [(key hs ht).1, (key ht hu).1, (key hs hu).1]
    exact Less.trans
  · rw [C84_equal_partial up hs ht, (key hs ht).1, (key ht hs).2]
    intro e
    simp only [Out.ok.injEq, decide_eq_false_iff_not] at e
    refine ⟨fun a b => Less.irrefl (a.trans b), fun n => ?_⟩
    rcases Less.total e with a | a
    · exact a
    · exact absurd a n
  · rw [C84_equal_partial up hs ht, (key hs ht).2]
    intro e
    simp only [Out.ok.injEq, decide_eq_true_eq] at e
    have same : ∀ {s t u : List UInt8}, upper up s = upper up t → Less up s u → Less up t u := by
      intro s t u e h
      induction h generalizing t with
      | nil => cases t with
        | nil => exact .nil
        | cons _ _ => cases e
      | lt k => cases t with
        | nil => cases e
        | cons b t =>
          simp only [upper, List.map_cons, List.cons.injEq] at e
          exact .lt (by omega)
      | eq k _ ih => cases t with
        | nil => cases e
        | cons b t =>
          simp only [upper, List.map_cons, List.cons.injEq] at e
          exact .eq (by omega) (ih e.2)
    refine ⟨fun h => Less.irrefl (same e h), ?_⟩
    obtain ⟨r, e1, k1⟩ := C84_lessp_partial up hs hu
    obtain ⟨q, e2, k2⟩ := C84_lessp_partial up ht hu
    rw [e1, e2]
    have : r = true ↔ q = true := by
      rw [k1, k2]; exact ⟨same e, same e.symm⟩
    rw [Bool.eq_iff_iff.2 this]

/-- C84 is violated: strings are compared up to the first zero byte. -/
theorem C84_nul_violated (up : Int → Int) :
    equal up (mem [0, 65]) (mem [0, 66]) = .ok true ∧
    headEq (mem [0, 65]) (mem [0, 66]) = .ok true ∧
    lessp up (mem [0, 65]) (mem [0, 66]) = .ok false := by
  simp [mem, equal, headEq, lessp]

/-- C84 is violated: `string-lessp` orders a character above 127 before the letters, its
code, as `aref` gives it, is greater. -/
theorem C84_signed_violated :
    lessp id (mem [0xe9]) (mem [0x41]) = .ok true ∧ (0xe9 : UInt8).toNat > (0x41 : UInt8).toNat := by
  decide

/-! ### Completion -/

theorem same_ok (low : UInt8 → UInt8) (l0 : ∀ b, low b = 0 ↔ b = 0) :
    ∀ {p s : List UInt8}, NoNul p → NoNul s → ∃ r, same low p.length (mem p) (mem s) = .ok r ∧
      (r = true ↔ Begins low p s)
  | [], s, _, _ => ⟨true, rfl, by simp [Begins]⟩
  | a :: p, [], hp, _ => ⟨false, by
      have ha := nul_head hp
      have : low a ≠ low 0 := by
        rw [(l0 0).2 rfl]; exact fun k => ha ((l0 a).1 k)
      simp [mem, same, this], by simp [Begins]⟩
  | a :: p, b :: s, hp, hs => by
    obtain ⟨r, e, k⟩ := same_ok low l0 (nul_tail hp) (nul_tail hs)
    have ha := nul_head hp
    simp only [List.length_cons, mem, List.cons_append, same] at e ⊢
    by_cases q : low a = low b
    · refine ⟨r, by simp only [q, ne_eq, not_true_eq_false, if_false, ha]; exact e, k.trans ?_⟩
      simp [Begins, q]
    · refine ⟨false, by simp [q], ?_⟩
      simp [Begins, q]

/-- The length of the longest common prefix. -/
def lcp (low : UInt8 → UInt8) : List UInt8 → List UInt8 → Nat
  | a :: s, b :: t => if low a = low b then lcp low s t + 1 else 0
  | _, _ => 0

theorem common_ok (low : UInt8 → UInt8) :
    ∀ {s t : List UInt8}, NoNul s → NoNul t → common low (mem s) (mem t) = .ok (lcp low s t)
  | [], [], _, _ => by simp [mem, common, lcp]
  | [], b :: t, _, ht => by simp [mem, common, lcp]
  | a :: s, [], hs, _ => by simp [mem, common, lcp]
  | a :: s, b :: t, hs, ht => by
    have ih := common_ok low (nul_tail hs) (nul_tail ht)
    have ha := nul_head hs
    have hb := nul_head ht
    simp only [mem, List.cons_append, common, ha, hb, ne_eq, not_false_eq_true, and_self,
      if_true, lcp] at ih ⊢
    by_cases e : low a = low b
    · simp only [e, not_true_eq_false, if_false, if_true]
      rw [ih]; rfl
    · simp [e]

theorem strlen_mem : ∀ {s : List UInt8}, NoNul s → strlen (mem s) = s.length
  | [], _ => by simp [mem, strlen]
  | a :: s, h => by
    have ih := strlen_mem (nul_tail h)
    simp only [mem, List.cons_append, strlen, nul_head h, if_false, List.length_cons] at ih ⊢
    rw [ih]

theorem begins_length {low p s} (h : Begins low p s) : p.length ≤ s.length := by
  have := h.length_le
  simpa using this

theorem advance_ok {s : List UInt8} {n : Nat} (h : n ≤ s.length) :
    advance n (mem s) = .ok (mem (s.drop n)) := by
  simp only [advance, mem, List.length_append, List.length_singleton, Nat.lt_succ_of_le h, if_true]
  rw [List.drop_append_of_le_length h]

/-- The longest common prefix, by `Begins`. -/
theorem begins_take_iff (low : UInt8 → UInt8) : ∀ (s t : List UInt8) (n : Nat), n ≤ s.length →
    (Begins low (s.take n) t ↔ n ≤ lcp low s t)
  | s, t, 0, _ => by simp [Begins]
  | [], t, n + 1, h => by simp at h
  | a :: s, [], n + 1, h => by simp [Begins, lcp]
  | a :: s, b :: t, n + 1, h => by
    have ih := begins_take_iff low s t n (by simpa using h)
    simp only [Begins, List.take_succ_cons, List.map_cons, List.cons_prefix_cons, lcp] at ih ⊢
    by_cases e : low a = low b
    · simp only [e, true_and, if_true]; rw [ih]; omega
    · simp [e]

theorem lcp_drop (low : UInt8 → UInt8) : ∀ (n : Nat) (s t : List UInt8), n ≤ lcp low s t →
    lcp low s t = n + lcp low (s.drop n) (t.drop n)
  | 0, s, t, _ => by simp
  | n + 1, [], t, h => by simp [lcp] at h
  | n + 1, a :: s, [], h => by simp [lcp] at h
  | n + 1, a :: s, b :: t, h => by
    simp only [lcp] at h ⊢
    by_cases e : low a = low b
    · simp only [e, if_true, List.drop_succ_cons] at h ⊢
      rw [lcp_drop low n s t (by omega)]; omega
    · simp [e] at h

theorem lcp_begins {low p s t} (hs : Begins low p s) (ht : Begins low p t) :
    p.length ≤ lcp low s t := by
  have h1 : (p.map low).length = p.length := by simp
  have : Begins low (s.take p.length) t := by
    unfold Begins at *
    rw [List.map_take]
    have := List.prefix_iff_eq_take.1 hs
    rw [h1] at this
    rw [← this]; exact ht
  exact (begins_take_iff low s t _ (begins_length hs)).1 this

/-- What the loop has found: the first match, and how much of it all have. -/
structure Found (low : UInt8 → UInt8) (p : List UInt8) (seen : List (List UInt8))
    (m : Option (List UInt8 × Nat)) : Prop where
  none : m = none → ∀ s ∈ seen, ¬ Begins low p s
  some : ∀ f n, m = some (f, n) → (∃ pre post, seen = pre ++ f :: post ∧
      (∀ s ∈ pre, ¬ Begins low p s)) ∧ Begins low p f ∧ n ≤ f.length ∧
    (∀ k, k ≤ f.length → (k ≤ n ↔ ∀ s ∈ seen, Begins low p s → Begins low (f.take k) s))

theorem loop_ok (low : UInt8 → UInt8) (l0 : ∀ b, low b = 0 ↔ b = 0) {p : List UInt8}
    (hp : NoNul p) : ∀ (rest : List (List UInt8)), (∀ s ∈ rest, NoNul s) → ∀ (seen) (m),
    (∀ s ∈ seen, NoNul s) → Found low p seen m →
    ∃ m', loop low p m rest = .ok m' ∧ Found low p (seen ++ rest) m'
  | [], _, seen, m, _, F => ⟨m, rfl, by simpa using F⟩
  | arg :: rest, hr, seen, m, hseen, F => by
    have ha : NoNul arg := hr arg (by simp)
    have hr' : ∀ s ∈ rest, NoNul s := fun s k => hr s (by simp [k])
    have hs' : ∀ s ∈ seen ++ [arg], NoNul s := by
      intro s k
      rcases List.mem_append.1 k with k | k
      · exact hseen s k
      · simp at k; subst k; exact ha
    have next := fun m (F' : Found low p (seen ++ [arg]) m) =>
      loop_ok low l0 hp rest hr' (seen ++ [arg]) m hs' F'
    simp only [List.append_assoc, List.singleton_append] at next
    obtain ⟨r, e, k⟩ := same_ok low l0 hp ha
    simp only [loop, e]
    cases r with
    | false =>
      have nb : ¬ Begins low p arg := by simpa using k
      refine next m ⟨fun h => ?_, fun f n h => ?_⟩
      · intro s q
        rcases List.mem_append.1 q with q | q
        · exact F.none h s q
        · simp at q; subst q; exact nb
      · obtain ⟨⟨pre, post, e1, e2⟩, e3, e4, e5⟩ := F.some f n h
        refine ⟨⟨pre, post ++ [arg], by simp [e1], e2⟩, e3, e4, fun j hj => (e5 j hj).trans ?_⟩
        constructor
        · intro g s q b
          rcases List.mem_append.1 q with q | q
          · exact g s q b
          · simp at q; subst q; exact absurd b nb
        · intro g s q b
          exact g s (List.mem_append_left _ q) b
    | true =>
      have b : Begins low p arg := by simpa using k
      cases m with
      | none =>
        simp only
        rw [strlen_mem ha]
        refine next _ ⟨(fun h => nomatch h), fun f n h => ?_⟩
        cases h
        have nn := F.none rfl
        refine ⟨⟨seen, [], rfl, nn⟩, b, Nat.le_refl _, fun j hj => ⟨fun _ s q bs => ?_, fun _ => hj⟩⟩
        rcases List.mem_append.1 q with q | q
        · exact absurd bs (nn s q)
        · simp at q; subst q
          unfold Begins
          rw [List.map_take]; exact List.take_prefix _ _
      | some fn =>
        obtain ⟨f, n⟩ := fn
        obtain ⟨⟨pre, post, e1, e2⟩, e3, e4, e5⟩ := F.some f n rfl
        have hf : NoNul f := hseen f (by rw [e1]; simp)
        simp only [advance_ok (begins_length e3), advance_ok (begins_length b)]
        have nd : ∀ {s : List UInt8} {j}, NoNul s → NoNul (s.drop j) :=
          fun h b m => h b (List.mem_of_mem_drop m)
        rw [common_ok low (nd hf) (nd ha)]
        simp only
        have el := lcp_drop low p.length f arg (lcp_begins e3 b)
        rw [← el]
        refine next _ ⟨(fun h => nomatch h), fun f' n' h => ?_⟩
        simp only [Option.some.injEq, Prod.mk.injEq] at h
        obtain ⟨rfl, rfl⟩ := h
        refine ⟨⟨pre, post ++ [arg], by simp [e1], e2⟩, e3, by split <;> omega, fun j hj => ?_⟩
        have h1 := e5 j hj
        have h2 := begins_take_iff low f arg j hj
        constructor
        · intro g s q bs
          rcases List.mem_append.1 q with q | q
          · exact h1.1 (by split at g <;> omega) s q bs
          · simp at q; subst q
            exact h2.2 (by split at g <;> omega)
        · intro g
          have g1 := h1.2 fun s q bs => g s (List.mem_append_left _ q) bs
          have g2 := h2.1 (g arg (by simp) b)
          split <;> omega

/-- C84 (`complete-string`): `nil` if no string begins with the template; otherwise the
longest text all the strings that begin with it have in common, as written in the first
of them.  `low` is the identity, or any mapping of characters to lower case. -/
theorem C84_complete_partial (low : UInt8 → UInt8) (l0 : ∀ b, low b = 0 ↔ b = 0)
    {template : List UInt8} {list : List (List UInt8)} (ht : NoNul template)
    (hl : ∀ s ∈ list, NoNul s) :
    (complete low template list = .ok none ∧ ∀ s ∈ list, ¬ Begins low template s) ∨
    ∃ r, complete low template list = .ok (some r) ∧ Begins low template r ∧
      (∀ s ∈ list, Begins low template s → Begins low r s) ∧
      (∀ q, (∃ s ∈ list, Begins low template s) →
        (∀ s ∈ list, Begins low template s → Begins low q s) → Begins low q r) ∧
      ∃ first, list.find? (fun s => decide (Begins low template s)) = some first ∧ r <+: first := by
  obtain ⟨m, e, F⟩ := loop_ok low l0 ht list hl [] none (by simp)
    ⟨fun _ s k => by simp at k, fun f n h => nomatch h⟩
  simp only [List.nil_append] at F
  cases m with
  | none =>
    left
    exact ⟨by simp [complete, e, Out.map], F.none rfl⟩
  | some fn =>
    right
    obtain ⟨f, n⟩ := fn
    obtain ⟨⟨pre, post, e1, e2⟩, e3, e4, e5⟩ := F.some f n rfl
    have fm : f ∈ list := by rw [e1]; simp
    have all := (e5 n e4).1 (Nat.le_refl _)
    refine ⟨f.take n, by simp [complete, e, Out.map], ?_, all, ?_, f, ?_, List.take_prefix _ _⟩
    · have pl := begins_length e3
      have tk : (f.map low).take template.length = template.map low := by
        have := List.prefix_iff_eq_take.1 e3
        rw [List.length_map] at this
        exact this.symm
      have : template.length ≤ n := (e5 _ pl).2 fun s q bs => by
        unfold Begins
        rw [List.map_take, tk]; exact bs
      unfold Begins
      rw [List.map_take, ← tk]
      exact List.take_prefix_take_left this
    · intro q _ hq
      have qf := hq f fm e3
      have ql := begins_length qf
      have tk : (f.map low).take q.length = q.map low := by
        have := List.prefix_iff_eq_take.1 qf
        rw [List.length_map] at this
        exact this.symm
      have : q.length ≤ n := (e5 _ ql).2 fun s m bs => by
        unfold Begins
        rw [List.map_take, tk]; exact hq s m bs
      unfold Begins
      rw [List.map_take, ← tk]
      exact List.take_prefix_take_left this
    · rw [e1, List.find?_append]
      have : pre.find? (fun s => decide (Begins low template s)) = none := by
        rw [List.find?_eq_none]
        intro s k
        simpa using e2 s k
      rw [this]
      simp [e3]

/-- C84 is violated: with a zero byte in the template the result may not begin with it,
and with a second match memory behind the strings is read. -/
theorem C84_complete_nul_violated :
    complete id [65, 0, 66, 67] [[65]] = .ok (some [65]) ∧
    complete id [65, 0, 66, 67] [[65], [65]] = .ub := by
  decide

/-! ### Translation -/

/-- The table applied to a character. -/
def lookup (table : List UInt8) (c : UInt8) : UInt8 :=
  if h : c.toNat < table.length then table[c.toNat] else c

theorem transLoop_ok {a t : Nat} (ne : a ≠ t) (table : List UInt8) :
    ∀ (n i : Nat) (h : List (List UInt8)) (s : List UInt8), h[a]? = some s → h[t]? = some table →
    i + n = s.length →
    transLoop a t table.length n i h = h.set a (s.take i ++ (s.drop i).map (lookup table))
  | 0, i, h, s, ha, ht, e => by
    have : s.length = i := by omega
    subst this
    simp only [transLoop, List.take_length, List.drop_length, List.map_nil, List.append_nil]
    obtain ⟨lt, eq⟩ := List.getElem?_eq_some_iff.1 ha
    rw [← eq, List.set_getElem_self]
  | n + 1, i, h, s, ha, ht, e => by
    have li : i < s.length := by omega
    obtain ⟨la, ea⟩ := List.getElem?_eq_some_iff.1 ha
    have new : (if (s[i]).toNat < table.length then (table[(s[i]).toNat]?).getD 0 else s[i]) =
        lookup table s[i] := by
      unfold lookup
      split
      · rename_i k; simp [k]
      · rename_i k; simp
    have hm : h.modify a (·.set i (lookup table s[i])) = h.set a (s.set i (lookup table s[i])) := by
      apply List.ext_getElem?
      intro j
      rw [List.getElem?_modify, List.getElem?_set]
      by_cases q : a = j
      · subst q; simp [ea, la]
      · simp [q]
    simp only [transLoop, ha, Option.bind_some, List.getElem?_eq_getElem li, ht, new, hm]
    rw [transLoop_ok ne table n (i + 1) _ (s.set i (lookup table s[i]))
      (by simp [la]) (by rw [List.getElem?_set_ne ne]; exact ht) (by simp; omega)]
    rw [List.set_set]
    congr 1
    rw [List.drop_set_of_lt (by omega), List.drop_eq_getElem_cons li, List.take_add_one]
    simp only [List.map_cons]
    rw [List.getElem?_eq_getElem (by simpa using li)]
    simp [List.take_set_of_le]

/-- C84 (`translate-string`, a table that is not the string itself): every character of
the string is replaced as the table says; no other string is changed. -/
theorem C84_translate_partial {h : List (List UInt8)} {a t : Nat} {s table : List UInt8}
    (ne : a ≠ t) (ha : h[a]? = some s) (ht : h[t]? = some table) :
    translate h a t = h.set a (s.map (lookup table)) := by
  simp only [translate, ha, ht]
  rw [transLoop_ok ne table s.length 0 h s ha ht (by simp)]
  simp

/-- C84 is violated: a string that is its own table is changed while it is used. -/
theorem C84_translate_same_violated :
    translate [[1, 2, 0]] 0 0 = [[2, 0, 2]] ∧
    [1, 2, 0].map (lookup [1, 2, 0]) = [2, 0, 1] := by
  decide

/-! ### Instances -/

/-- ASCII lower case. -/
def lowA (b : UInt8) : UInt8 := if 65 ≤ b ∧ b ≤ 90 then b + 32 else b

theorem lowA_zero (b : UInt8) : lowA b = 0 ↔ b = 0 := by
  have : ∀ n : Fin 256, lowA (UInt8.ofNat n) = 0 ↔ UInt8.ofNat n = 0 := by decide +kernel
  have k := this ⟨b.toNat, b.toNat_lt⟩
  simpa using k

example : complete lowA [70, 111] [[70, 111, 111, 66], [98], [102, 79, 79, 99]] =
    .ok (some [70, 111, 111]) := by decide
example : NoNul [70, 111] ∧ ∀ s ∈ [[70, 111, 111, 66], [98], [102, 79, 79, 99]], NoNul s := by
  unfold NoNul; decide
example : lessp (fun z => if 97 ≤ z ∧ z ≤ 122 then z - 32 else z) (mem [102, 111]) (mem [70, 79, 79]) =
    .ok true := by decide
example : translate [[1, 0, 200], [7, 8]] 0 1 = [[8, 7, 200], [7, 8]] := by decide

end Rep.Text
