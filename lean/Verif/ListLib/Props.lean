import Verif.ListLib.Model
import Verif.ListLib.Spec
import Verif.Heap.Props
import Mathlib.Data.Fintype.Pigeonhole
import Mathlib.Tactic.ByContra
import Mathlib.Tactic.Ring
import Mathlib.Tactic.Linarith

/-
C98  Functions on lists of the Lisp library.
-/

namespace Rep.Lists

/-! ### position -/

theorem tailAt_add (h : Heap) (v : V) (m n : Nat) : tailAt h v (m + n) = tailAt h (tailAt h v m) n := by
  induction n with
  | zero => rfl
  | succ n ih => rw [Nat.add_succ]; simp only [tailAt, ih]

theorem tailAt_atom {h : Heap} {v : V} (ha : IsAtom v) : ∀ n, IsAtom (tailAt h v n)
  | 0 => ha
  | n + 1 => by
    have := tailAt_atom (h := h) ha n
    intro b hb
    simp only [tailAt] at hb
    cases e : tailAt h v n with
    | cell c => exact this c e
    | nil => rw [e] at hb; cases hb
    | atom c => rw [e] at hb; cases hb

/-- Once the list has ended, it has no further elements. -/
theorem notFound_after {h : Heap} {same : V → Bool} {v : V} {m : Nat} (ha : IsAtom (tailAt h v m)) {n : Nat}
    (hn : m ≤ n) : ¬ Found h same v n := by
  rintro ⟨a, h1, _⟩
  obtain ⟨k, rfl⟩ := Nat.exists_eq_add_of_le hn
  rw [tailAt_add] at h1
  exact tailAt_atom ha k a h1

theorem periodic {h : Heap} {v : V} {m c : Nat} (he : tailAt h v (m + c) = tailAt h v m) {n : Nat} (hn : m ≤ n) :
    tailAt h v (n + c) = tailAt h v n := by
  obtain ⟨k, rfl⟩ := Nat.exists_eq_add_of_le hn
  rw [show m + k + c = (m + c) + k by omega, tailAt_add, he, ← tailAt_add]

theorem periodic_mul {h : Heap} {v : V} {m c : Nat} (he : tailAt h v (m + c) = tailAt h v m) {n : Nat}
    (hn : m ≤ n) (j : Nat) : tailAt h v (n + c * j) = tailAt h v n := by
  induction j with
  | zero => rfl
  | succ j ih =>
    rw [show n + c * (j + 1) = (n + c * j) + c by ring, periodic he (by omega), ih]

/-- The cells of a list that does not end come round again. -/
theorem comes_round {h : Heap} {v : V} (hc : Closed h) (hv : ∀ a, v = .cell a → a < h.next)
    (hi : ∀ n, ∃ a, tailAt h v n = .cell a) : ∃ m c, 0 < c ∧ tailAt h v (m + c) = tailAt h v m := by
  choose f hf using hi
  have hlt : ∀ n, f n < h.next := by
    intro n
    induction n with
    | zero => exact hv _ (hf 0)
    | succ n ih =>
      have := hf (n + 1)
      simp only [tailAt, hf n, cdr] at this
      exact hc _ _ ih this
  obtain ⟨x, y, hne, he⟩ := Fintype.exists_ne_map_eq_of_card_lt
    (fun i : Fin (h.next + 1) => (⟨f i, hlt i⟩ : Fin h.next)) (by simp)
  simp only [Fin.mk.injEq] at he
  rcases Nat.lt_or_gt_of_ne (fun e => hne (Fin.ext e)) with hl | hl
  · exact ⟨x, y - x, by omega, by rw [show x.val + (y.val - x.val) = y.val by omega, hf, hf, he]⟩
  · exact ⟨y, x - y, by omega, by rw [show y.val + (x.val - y.val) = x.val by omega, hf, hf, he]⟩

/-- The loop ends in round `k`. -/
def Stops (h : Heap) (v : V) (k : Nat) : Prop :=
  IsAtom (tailAt h v (2 * k)) ∨ tailAt h v (2 * k + 1) = tailAt h v k

theorem stops {h : Heap} {v : V} (hc : Closed h) (hv : ∀ a, v = .cell a → a < h.next) : ∃ k, Stops h v k := by
  by_cases hi : ∀ n, ∃ a, tailAt h v n = .cell a
  · obtain ⟨m, c, h0, he⟩ := comes_round hc hv hi
    refine ⟨c * (m + 1) - 1, Or.inr ?_⟩
    have h1 : m + 1 ≤ c * (m + 1) := Nat.le_mul_of_pos_left _ h0
    have := periodic_mul he (n := c * (m + 1) - 1) (by omega) (m + 1)
    rw [← this]; congr 1; omega
  · push Not at hi
    obtain ⟨n, hn⟩ := hi
    refine ⟨n, Or.inl ?_⟩
    rw [two_mul, tailAt_add]
    exact tailAt_atom hn n

/-- What `position` should return. -/
def RightPos (h : Heap) (same : V → Bool) (v : V) (r : Option Pos) : Prop :=
  (∃ n, r = some (.index n) ∧ Found h same v n ∧ ∀ m < n, ¬ Found h same v m) ∨
    (r = some .hashF ∧ ∀ n, ¬ Found h same v n)

/-- One round of the loop. -/
theorem position_round {h : Heap} {same : V → Bool} {v : V} (k : Nat) (hn : ∀ m < 2 * k, ¬ Found h same v m)
    (hgo : ¬ Stops h v k → (∀ m < 2 * (k + 1), ¬ Found h same v m) →
      RightPos h same v (position.loop h same (tailAt h v (k + 1)) (tailAt h v (2 * (k + 1))) (2 * (k + 1)))) :
    RightPos h same v (position.loop h same (tailAt h v k) (tailAt h v (2 * k)) (2 * k)) := by
  rw [position.loop.eq_def]
  cases e : tailAt h v (2 * k) with
  | nil =>
    refine Or.inr ⟨rfl, fun n => ?_⟩
    by_cases hlt : n < 2 * k
    · exact hn n hlt
    · exact notFound_after (m := 2 * k) (by rw [e]; intro a; simp) (by omega)
  | atom x =>
    refine Or.inr ⟨rfl, fun n => ?_⟩
    by_cases hlt : n < 2 * k
    · exact hn n hlt
    · exact notFound_after (m := 2 * k) (by rw [e]; intro a; simp) (by omega)
  | cell a =>
    have e1 : tailAt h v (2 * k + 1) = h.cdr a := by simp only [tailAt, e, cdr]
    simp only
    split
    · rename_i hsame
      exact Or.inl ⟨_, rfl, ⟨a, e, hsame⟩, hn⟩
    · rename_i hsame
      have hn0 : ¬ Found h same v (2 * k) := by
        rintro ⟨b, hb, hb2⟩
        rw [e] at hb; cases hb; exact hsame hb2
      split
      · rename_i b hb
        split
        · rename_i hsame2
          refine Or.inl ⟨_, rfl, ⟨b, by rw [e1, hb], hsame2⟩, fun m hm => ?_⟩
          by_cases hlt : m < 2 * k
          · exact hn m hlt
          · rw [show m = 2 * k by omega]; exact hn0
        · rename_i hsame2
          have hn1 : ¬ Found h same v (2 * k + 1) := by
            rintro ⟨c, hc, hc2⟩
            rw [e1, hb] at hc; cases hc; exact hsame2 hc2
          split
          · rename_i hr
            have hr : tailAt h v (2 * k + 1) = tailAt h v k := by rw [e1, hb, hr]
            refine Or.inr ⟨rfl, fun n => ?_⟩
            induction n using Nat.strongRecOn with
            | ind n ih =>
              by_cases hlt : n < 2 * k + 2
              · rcases Nat.lt_or_ge n (2 * k) with h1 | h1
                · exact hn n h1
                · rcases Nat.lt_or_ge (2 * k) n with h2 | h2
                  · rw [show n = 2 * k + 1 by omega]; exact hn1
                  · rw [show n = 2 * k by omega]; exact hn0
              · have hp := periodic (h := h) (v := v) (m := k) (c := k + 1)
                  (by rw [← hr]; congr 1; omega) (n := n - (k + 1)) (by omega)
                rw [show n - (k + 1) + (k + 1) = n by omega] at hp
                rintro ⟨b, hb, hb2⟩
                rw [hp] at hb
                exact ih (n - (k + 1)) (by omega) ⟨b, hb, hb2⟩
          · have e2 : tailAt h v (2 * (k + 1)) = h.cdr b := by
              rw [show 2 * (k + 1) = 2 * k + 1 + 1 by omega]
              simp only [tailAt] at e1 ⊢
              rw [e1, hb, cdr]
            have := hgo (by
              rintro (hs | hs)
              · exact hs a e
              · rename_i hr; exact hr (by rw [← hs, e1, hb])) (by
              intro m hm
              rcases Nat.lt_or_ge m (2 * k) with h1 | h1
              · exact hn m h1
              · rcases Nat.lt_or_ge (2 * k) m with h2 | h2
                · rw [show m = 2 * k + 1 by omega]; exact hn1
                · rw [show m = 2 * k by omega]; exact hn0)
            rw [e2] at this
            exact this
      · rename_i hb
        refine Or.inr ⟨rfl, fun n => ?_⟩
        by_cases hlt : n < 2 * k
        · exact hn n hlt
        · by_cases h2 : n = 2 * k
          · rw [h2]; exact hn0
          · exact notFound_after (m := 2 * k + 1) (by rw [e1]; exact hb) (by omega)

theorem position_loop {h : Heap} {same : V → Bool} {v : V} :
    ∀ (j k : Nat), Stops h v (k + j) → (∀ m < 2 * k, ¬ Found h same v m) →
      RightPos h same v (position.loop h same (tailAt h v k) (tailAt h v (2 * k)) (2 * k)) := by
  intro j
  induction j with
  | zero => intro k hs hn; exact position_round k hn (fun h => absurd hs h)
  | succ j ih =>
    intro k hs hn
    exact position_round k hn (fun _ => ih (k + 1) (by rwa [show k + 1 + j = k + (j + 1) by omega]))

/-- `(position item l)` returns, for every list, also one that ends in an atom or comes round: the
index of the first element that is equal to the item, or `#f` if there is none. -/
theorem C98_position (h : Heap) (same : V → Bool) (l : V) (hc : Closed h)
    (hl : ∀ a, l = .cell a → a < h.next) :
    (∃ n, position h same l = some (.index n) ∧ Found h same l n ∧ ∀ m < n, ¬ Found h same l m) ∨
      (position h same l = some .hashF ∧ ∀ n, ¬ Found h same l n) := by
  obtain ⟨k, hk⟩ := stops hc hl
  exact position_loop k 0 (by rwa [Nat.zero_add]) (by simp)

/-- The result is true in the sense of `if`, `cond` and `and` even if the item is not in the list:
`#f` is a symbol other than nil. -/
theorem C98_position_false_violated (h : Heap) (same : V → Bool) (l hf : V) (hhf : hf ≠ .nil) (hc : Closed h)
    (hl : ∀ a, l = .cell a → a < h.next) :
    ∃ r, position h same l = some r ∧ r.toValue hf ≠ .nil := by
  rcases C98_position h same l hc hl with ⟨n, h1, _⟩ | ⟨h1, _⟩
  · exact ⟨_, h1, by simp [Pos.toValue]⟩
  · exact ⟨_, h1, hhf⟩

/-- A list that comes round: `#0=(1 2 . #0#)`. -/
def roundHeap : Heap := ⟨fun a => .atom (a + 1), fun a => if a = 0 then .cell 1 else .cell 0, 2⟩

example : Closed roundHeap ∧ position roundHeap (· == .atom 2) (.cell 0) = some (.index 1) ∧
    position roundHeap (· == .atom 3) (.cell 0) = some .hashF := by
  have hc : Closed roundHeap := by
    intro a b ha hb
    simp only [roundHeap] at ha hb ⊢
    split at hb <;> cases hb <;> omega
  refine ⟨hc, ?_, ?_⟩
  · unfold position
    rw [position.loop.eq_def]; decide
  · rcases C98_position roundHeap (· == .atom 3) (.cell 0) hc (by rintro a ⟨⟩; decide) with ⟨n, _, ⟨a, ha, h3⟩, _⟩ | ⟨h, _⟩
    · exfalso
      have : a < 2 := by
        cases n with
        | zero => cases ha; decide
        | succ n =>
          simp only [tailAt] at ha
          cases e : tailAt roundHeap (.cell 0) n with
          | cell b => rw [e] at ha; simp only [cdr, roundHeap] at ha; split at ha <;> cases ha <;> decide
          | nil => rw [e] at ha; cases ha
          | atom b => rw [e] at ha; cases ha
      simp only [roundHeap, beq_iff_eq, V.atom.injEq] at h3
      omega
    · exact h

/-! ### walking a list -/

/-- The values that a loop with `null`, `car` and `cdr` sees. -/
def Walk (h : Heap) : V → List V → Prop
  | v, [] => v = .nil
  | v, x :: xs => v ≠ .nil ∧ (∀ a, v = .cell a → a < h.next) ∧ car h v = x ∧ Walk h (cdr h v) xs

theorem Walk.extends {h h' : Heap} (he : Extends h h') : ∀ {xs : List V} {v : V}, Walk h v xs → Walk h' v xs
  | [], _, hw => hw
  | x :: xs, v, hw => by
    obtain ⟨h1, h2, h3, h4⟩ := hw
    have e1 : car h' v = car h v := by
      cases v with
      | cell a => exact (he.2 a (h2 a rfl)).1
      | _ => rfl
    have e2 : cdr h' v = cdr h v := by
      cases v with
      | cell a => exact (he.2 a (h2 a rfl)).2
      | _ => rfl
    exact ⟨h1, fun a ha => lt_of_lt_of_le (h2 a ha) he.1, by rw [e1, h3], by rw [e2]; exact h4.extends he⟩

/-- What a loop sees of a list that ends in `t`: an end other than nil counts as an element nil. -/
def endSeen (t : V) : List V := if t = .nil then [] else [.nil]

theorem walk_of_spine {h : Heap} {t : V} (ht : IsAtom t) :
    ∀ {as : List Nat} {v : V}, Spine h v as t → Walk h v (as.map h.car ++ endSeen t)
  | [], v, hs => by
    have : v = t := hs
    subst this
    unfold endSeen
    split
    · rename_i e; exact e
    · rename_i e
      cases v with
      | cell a => exact absurd rfl (ht a)
      | nil => exact absurd rfl e
      | atom n => exact ⟨e, (fun a h => nomatch h), rfl, rfl⟩
  | a :: as, v, hs => by
    obtain ⟨rfl, h1, h2⟩ := hs
    exact ⟨by simp, fun b hb => by cases hb; exact h1, rfl, walk_of_spine ht h2⟩

/-! ### remove-if -/

theorem listp_of_spine {h : Heap} {v : V} {as : List Nat} (hs : Spine h v as .nil) : listp v = true := by
  cases as with
  | nil => rw [show v = .nil from hs]; rfl
  | cons a as => rw [hs.1]; rfl

/-- The end of `remove-if` and `vector->list`: the new cells are turned round in place. -/
theorem finish {h0 h : Heap} {out : V} {cs : List Nat} (he : Extends h0 h) (hs : Spine h out cs .nil)
    (hn : cs.Nodup) (hf : ∀ c ∈ cs, h0.next ≤ c) :
    ∃ h' r, nreverse h out = some (h', .ok r) ∧ Extends h0 h' ∧ NewList h0 h' r (cs.map h.car).reverse := by
  obtain ⟨h', r, h1, h2, h3, h4, h5⟩ := C14_nreverse h out .nil cs hs isAtom_nil (listp_of_spine hs)
  refine ⟨h', r, h1, ⟨by rw [h3]; exact he.1, fun a ha => ?_⟩, cs.reverse, h2, by simpa using hn, by simpa using hf, ?_⟩
  · have : a ∉ cs := fun hm => by have := hf a hm; omega
    rw [h4, h5 a this]
    exact he.2 a ha
  · rw [h4, List.map_reverse]

/-- A new cell in front of new cells. -/
theorem push {h0 h : Heap} {out : V} {cs : List Nat} (he : Extends h0 h) (hs : Spine h out cs .nil)
    (hn : cs.Nodup) (hf : ∀ c ∈ cs, h0.next ≤ c) (x : V) :
    Extends h0 (cons h x out).1 ∧ Spine (cons h x out).1 (cons h x out).2 (h.next :: cs) .nil ∧
      (h.next :: cs).Nodup ∧ (∀ c ∈ h.next :: cs, h0.next ≤ c) ∧
      (h.next :: cs).map (cons h x out).1.car = x :: cs.map h.car := by
  have he1 := cons_extends h x out
  refine ⟨he.trans he1, ⟨rfl, by simp [cons], ?_⟩, ?_, ?_, ?_⟩
  · have : (cons h x out).1.cdr h.next = out := by simp [cons]
    rw [this]; exact hs.extends he1
  · rw [List.nodup_cons]
    exact ⟨fun hm => by have := hs.lt _ hm; omega, hn⟩
  · intro c hc
    rcases List.mem_cons.1 hc with rfl | hc
    · exact he.1
    · exact hf c hc
  · rw [List.map_cons]
    have e2 : (cons h x out).1.car h.next = x := by simp [cons]
    rw [e2]
    congr 1
    exact List.map_congr_left fun y hy => (he1.2 y (hs.lt y hy)).1

theorem removeIf_loop {h0 : Heap} {f : Fn} {g : V → V} (hq : Quiet f g) :
    ∀ (xs : List V) (h : Heap) (rest out : V) (cs : List Nat), Extends h0 h → Walk h rest xs →
      Spine h out cs .nil → cs.Nodup → (∀ c ∈ cs, h0.next ≤ c) →
      ∃ h' r, removeIf.loop h f rest out = some (h', .ok r) ∧ Extends h0 h' ∧
        NewList h0 h' r ((cs.map h.car).reverse ++ xs.filter (fun x => decide (g x = .nil))) := by
  intro xs
  induction xs with
  | nil =>
    intro h rest out cs he hw hs hn hf
    have : rest = .nil := hw
    subst this
    rw [removeIf.loop.eq_def]
    simpa using finish he hs hn hf
  | cons x xs ih =>
    intro h rest out cs he hw hs hn hf
    obtain ⟨h1, h2, h3, h4⟩ := hw
    obtain ⟨q1, q2⟩ := hq h x
    have hw : Walk (f h x).1 rest (x :: xs) := Walk.extends q1 (show Walk h rest (x :: xs) from ⟨h1, h2, h3, h4⟩)
    obtain ⟨w1, w2, w3, w4⟩ := hw
    have hs' := hs.extends q1
    have hc : cs.map (f h x).1.car = cs.map h.car :=
      List.map_congr_left fun y hy => (q1.2 y (hs.lt y hy)).1
    rw [removeIf.loop.eq_def, if_neg h1]
    simp only [h3]
    by_cases hx : g x = .nil
    · rw [if_neg (by rw [q2]; simpa using hx), w3]
      obtain ⟨p1, p2, p3, p4, p5⟩ := push (he.trans q1) hs' hn hf x
      have hw' := w4.extends (cons_extends (f h x).1 x out)
      have hcd : cdr (cons (f h x).1 x out).1 rest = cdr (f h x).1 rest := by
        cases rest with
        | cell a => exact ((cons_extends (f h x).1 x out).2 a (w2 a rfl)).2
        | _ => rfl
      rw [← hcd] at hw'
      obtain ⟨h', r, r1, r2, r3⟩ := ih _ _ _ _ p1 hw' p2 p3 p4
      refine ⟨h', r, r1, r2, ?_⟩
      rw [p5, hc] at r3
      simpa [hx] using r3
    · rw [if_pos (by rw [q2]; exact hx)]
      obtain ⟨h', r, r1, r2, r3⟩ := ih _ _ _ _ (he.trans q1) w4 hs' hn hf
      refine ⟨h', r, r1, r2, ?_⟩
      rw [hc] at r3
      simpa [hx] using r3

/-- `remove-if` of a proper list: a new list of the elements for which the predicate is false, in
order, whose cells are all new; the argument is not changed.  `g x` is what the predicate returns
for `x`; it may allocate. -/
theorem C98_remove_if (f : Fn) (g : V → V) (hq : Quiet f g) (h : Heap) (l : V) (as : List Nat)
    (hl : Spine h l as .nil) :
    ∃ h' r, removeIf h f l = some (h', .ok r) ∧ Extends h h' ∧
      NewList h h' r ((as.map h.car).filter (fun x => decide (g x = .nil))) := by
  have := removeIf_loop hq (as.map h.car) h l .nil [] (Extends.refl h)
    (by simpa [endSeen] using walk_of_spine isAtom_nil hl) rfl (by simp) (by simp)
  simpa [removeIf] using this

/-- `remove-if-not`: the elements for which the predicate is true. -/
theorem C98_remove_if_not (t : V) (ht : t ≠ .nil) (f : Fn) (g : V → V) (hq : Quiet f g) (h : Heap) (l : V)
    (as : List Nat) (hl : Spine h l as .nil) :
    ∃ h' r, removeIfNot t h f l = some (h', .ok r) ∧ Extends h h' ∧
      NewList h h' r ((as.map h.car).filter (fun x => decide (g x ≠ .nil))) := by
  have hq' : Quiet (notFn t f) (fun x => if g x = .nil then t else .nil) :=
    fun h v => ⟨(hq h v).1, by simp only [notFn, (hq h v).2]⟩
  obtain ⟨h', r, h1, h2, h3⟩ := C98_remove_if _ _ hq' h l as hl
  refine ⟨h', r, h1, h2, ?_⟩
  convert h3 using 3
  rename_i x
  by_cases hx : g x = .nil <;> simp [hx, ht]

/-- `remove` and `remq`: the elements that are not the given one. -/
theorem C98_remove (t : V) (ht : t ≠ .nil) (same : V → Bool) (h : Heap) (l : V)
    (as : List Nat) (hl : Spine h l as .nil) :
    ∃ h' r, remove t h same l = some (h', .ok r) ∧ Extends h h' ∧
      NewList h h' r ((as.map h.car).filter (fun x => !same x)) := by
  have hq' : Quiet (testFn t same) (fun x => if same x then t else .nil) := fun h v => ⟨Extends.refl h, rfl⟩
  obtain ⟨h', r, h1, h2, h3⟩ := C98_remove_if _ _ hq' h l as hl
  refine ⟨h', r, h1, h2, ?_⟩
  convert h3 using 3
  rename_i x
  by_cases hx : same x <;> simp [hx, ht]

theorem C98_remq (t : V) (ht : t ≠ .nil) (elt : V) (h : Heap) (l : V)
    (as : List Nat) (hl : Spine h l as .nil) :
    ∃ h' r, remq t h elt l = some (h', .ok r) ∧ Extends h h' ∧
      NewList h h' r ((as.map h.car).filter (fun x => decide (x ≠ elt))) := by
  obtain ⟨h', r, h1, h2, h3⟩ := C98_remove t ht (fun x => decide (x = elt)) h l as hl
  exact ⟨h', r, h1, h2, by simpa using h3⟩

/-- A list that ends in an atom gets an element nil that it does not have:
`(remove-if pred '(a . b))` is `(a nil)` if `pred` is false of both. -/
theorem C98_remove_dotted_violated (f : Fn) (g : V → V) (hq : Quiet f g) (hg : g .nil = .nil) (h : Heap) (l : V)
    (as : List Nat) (n : Int) (hl : Spine h l as (.atom n)) :
    ∃ h' r, removeIf h f l = some (h', .ok r) ∧
      NewList h h' r ((as.map h.car).filter (fun x => decide (g x = .nil)) ++ [.nil]) := by
  obtain ⟨h', r, h1, _, h3⟩ := removeIf_loop hq (as.map h.car ++ [.nil]) h l .nil [] (Extends.refl h)
    (by simpa [endSeen] using walk_of_spine (t := .atom n) (by intro a; simp) hl) rfl (by simp) (by simp)
  refine ⟨h', r, h1, ?_⟩
  simpa [hg] using h3

/-! ### member-if, some, option-index -/

theorem memberIf_spec {f : Fn} {g : V → V} (hq : Quiet f g) :
    ∀ (as : List Nat) (h h0 : Heap) (l : V), Extends h0 h → Spine h0 l as .nil →
      ∃ h', memberIf h f l = some (h', startOf .nil (as.dropWhile fun a => decide (g (h0.car a) = .nil))) ∧
        Extends h0 h' := by
  intro as
  induction as with
  | nil =>
    intro h h0 l he hs
    rw [show l = .nil from hs, memberIf.eq_def]
    exact ⟨h, rfl, he⟩
  | cons a as ih =>
    intro h h0 l he hs
    obtain ⟨rfl, h1, h2⟩ := hs
    have hca : car h (.cell a) = h0.car a := (he.2 a h1).1
    obtain ⟨q1, q2⟩ := hq h (h0.car a)
    rw [memberIf.eq_def, if_neg (by simp)]
    simp only [hca]
    rw [q2]
    by_cases hx : g (h0.car a) = .nil
    · rw [if_neg (by simpa using hx)]
      obtain ⟨h', r1, r2⟩ := ih (f h (h0.car a)).1 h0 (h0.cdr a) (he.trans q1) h2
      refine ⟨h', ?_, r2⟩
      simp only [cdr]
      rw [((he.trans q1).2 a h1).2, r1, List.dropWhile_cons_of_pos (by simpa using hx)]
    · rw [if_pos hx]
      exact ⟨_, by rw [List.dropWhile_cons_of_neg (by simpa using hx)]; rfl, he.trans q1⟩

/-- `member-if`: the rest of the list (the same cells) from the first element for which the
function is true, nil if there is none. -/
theorem C98_member_if (f : Fn) (g : V → V) (hq : Quiet f g) (h : Heap) (l : V) (as : List Nat)
    (hl : Spine h l as .nil) :
    ∃ h', memberIf h f l = some (h', startOf .nil (as.dropWhile fun a => decide (g (h.car a) = .nil))) ∧
      Extends h h' := memberIf_spec hq as h h l (Extends.refl h) hl

theorem some_spec {f : Fn} {g : V → V} (hq : Quiet f g) (t : V) :
    ∀ (xs : List V) (h : Heap) (l : V), Walk h l xs →
      ∃ h', someP t h f l = some (h', if ∃ x ∈ xs, g x ≠ .nil then t else .nil) ∧ Extends h h' := by
  intro xs
  induction xs with
  | nil =>
    intro h l hw
    rw [show l = .nil from hw, someP.eq_def]
    exact ⟨h, by simp, Extends.refl h⟩
  | cons x xs ih =>
    intro h l hw
    obtain ⟨h1, h2, h3, h4⟩ := hw
    obtain ⟨q1, q2⟩ := hq h x
    obtain ⟨_, _, _, w4⟩ := Walk.extends q1 (show Walk h l (x :: xs) from ⟨h1, h2, h3, h4⟩)
    rw [someP.eq_def, if_neg h1]
    simp only [h3]
    rw [q2]
    by_cases hx : g x = .nil
    · rw [if_neg (by simpa using hx)]
      obtain ⟨h', r1, r2⟩ := ih (f h x).1 _ w4
      refine ⟨h', ?_, q1.trans r2⟩
      rw [r1]
      simp [hx]
    · rw [if_pos hx]
      exact ⟨_, by rw [if_pos ⟨x, by simp, hx⟩], q1⟩

/-- `some`: true if and only if the predicate is true of an element. -/
theorem C98_some (t : V) (f : Fn) (g : V → V) (hq : Quiet f g) (h : Heap) (l : V) (as : List Nat)
    (hl : Spine h l as .nil) :
    ∃ h', someP t h f l = some (h', if ∃ x ∈ as.map h.car, g x ≠ .nil then t else .nil) ∧ Extends h h' :=
  some_spec hq t _ h l (by simpa [endSeen] using walk_of_spine isAtom_nil hl)

/-- `(some null '(a . b))` is true. -/
theorem C98_some_dotted_violated (t : V) (f : Fn) (g : V → V) (hq : Quiet f g) (hg : g .nil ≠ .nil) (h : Heap)
    (l : V) (as : List Nat) (n : Int) (hl : Spine h l as (.atom n)) :
    ∃ h', someP t h f l = some (h', t) := by
  obtain ⟨h', h1, _⟩ := some_spec hq t _ h l (walk_of_spine (t := .atom n) (by intro a; simp) hl)
  refine ⟨h', ?_⟩
  rw [h1, if_pos ⟨.nil, by simp [endSeen], hg⟩]

theorem optionIndex_loop {h : Heap} {x : V} :
    ∀ (xs : List V) (l : V) (i : Nat), Walk h l xs →
      optionIndex.loop h x i l =
        some ((xs.findIdx? fun e => decide (optionKey h e = x)).map (· + i)) := by
  intro xs
  induction xs with
  | nil => intro l i hw; rw [show l = .nil from hw, optionIndex.loop.eq_def]; rfl
  | cons y xs ih =>
    intro l i hw
    obtain ⟨h1, h2, h3, h4⟩ := hw
    rw [optionIndex.loop.eq_def, if_neg h1]
    simp only [h3]
    rw [List.findIdx?_cons]
    by_cases hy : optionKey h y = x
    · have hy' := hy
      unfold optionKey at hy'
      rw [if_pos hy']
      simp [hy]
    · have hy' := hy
      unfold optionKey at hy'
      rw [if_neg hy', ih _ _ h4]
      simp only [hy, decide_false, Bool.false_eq_true, if_false, Option.map_map]
      congr 2
      funext n
      simp only [Function.comp]
      omega

/-- `option-index`: the index of the first element that is the option or a list that starts with
it, nil if there is none. -/
theorem C98_option_index (h : Heap) (l x : V) (as : List Nat) (hl : Spine h l as .nil) :
    optionIndex h l x = some ((as.map h.car).findIdx? fun e => decide (optionKey h e = x)) := by
  have := optionIndex_loop (x := x) (as.map h.car) l 0 (by simpa [endSeen] using walk_of_spine isAtom_nil hl)
  simpa [optionIndex] using this

/-! ### vectors and strings -/

theorem vectorToList_loop {h0 : Heap} {vec : List V} :
    ∀ (n i : Nat) (h : Heap) (out : V) (cs : List Nat), i + n = vec.length → Extends h0 h →
      Spine h out cs .nil → cs.Nodup → (∀ c ∈ cs, h0.next ≤ c) →
      ∃ h' r, vectorToList.loop h vec i out = some (h', .ok r) ∧ Extends h0 h' ∧
        NewList h0 h' r ((cs.map h.car).reverse ++ vec.drop i) := by
  intro n
  induction n with
  | zero =>
    intro i h out cs hi he hs hn hf
    rw [vectorToList.loop.eq_def, if_pos (by omega), List.drop_of_length_le (by omega)]
    simpa using finish he hs hn hf
  | succ n ih =>
    intro i h out cs hi he hs hn hf
    rw [vectorToList.loop.eq_def, if_neg (by omega)]
    have hlt : i < vec.length := by omega
    simp only [List.getElem?_eq_getElem hlt]
    obtain ⟨p1, p2, p3, p4, p5⟩ := push he hs hn hf vec[i]
    obtain ⟨h', r, r1, r2, r3⟩ := ih (i + 1) _ _ _ (by omega) p1 p2 p3 p4
    refine ⟨h', r, r1, r2, ?_⟩
    rw [p5] at r3
    rw [List.drop_eq_getElem_cons hlt]
    simpa using r3

/-- `vector->list`: a new list of the elements of the vector, in order. -/
theorem C98_vector_to_list (h : Heap) (vec : List V) :
    ∃ h' r, vectorToList h vec = some (h', .ok r) ∧ Extends h h' ∧ NewList h h' r vec := by
  have := vectorToList_loop (h0 := h) (vec := vec) vec.length 0 h .nil [] (by simp) (Extends.refl h) rfl
    (by simp) (by simp)
  simpa [vectorToList] using this

theorem joined_cons (sep s : List Nat) (l : List (List Nat)) :
    joined sep (s :: l) = s ++ (l.map (sep ++ ·)).flatten := by
  induction l generalizing s with
  | nil => simp [joined]
  | cons t l ih => simp only [joined, ih, List.map_cons, List.flatten_cons, List.append_assoc]

theorem mapconcat_loop (f : V → List Nat) (sep : List Nat) : ∀ (l : List V) (frags : List (List Nat)),
    mapconcat.loop f sep l frags = frags.reverse.flatten ++ (l.map (fun v => sep ++ f v)).flatten
  | [], frags => by simp [mapconcat.loop]
  | v :: l, frags => by rw [mapconcat.loop, mapconcat_loop f sep l]; simp

/-- `mapconcat` of a list: the results with the separator between each two. -/
theorem C98_mapconcat (f : V → List Nat) (l : List V) (sep : List Nat) :
    mapconcat f l sep = joined sep (l.map f) := by
  cases l with
  | nil => rfl
  | cons v l => rw [mapconcat, mapconcat_loop, List.map_cons, joined_cons]; simp [Function.comp_def]

theorem mapconcatSeq_loop (f : V → List Nat) (sep : List Nat) (s : List V) : ∀ (n i : Nat) (frags : List (List Nat)),
    i + n = s.length →
    mapconcatSeq.loop f sep s i frags = some (mapconcat.loop f sep (s.drop i) frags)
  | 0, i, frags, hi => by
    rw [mapconcatSeq.loop.eq_def, if_pos (by omega), List.drop_of_length_le (by omega)]; rfl
  | n + 1, i, frags, hi => by
    have hlt : i < s.length := by omega
    rw [mapconcatSeq.loop.eq_def, if_neg (by omega)]
    simp only [List.getElem?_eq_getElem hlt]
    rw [mapconcatSeq_loop f sep s n (i + 1) _ (by omega), List.drop_eq_getElem_cons hlt]; rfl

/-- `mapconcat` gives the same for a vector or string as for the list of its elements. -/
theorem C98_mapconcat_sequence (f : V → List Nat) (s : List V) (sep : List Nat) :
    mapconcatSeq f s sep = some (joined sep (s.map f)) := by
  rw [← C98_mapconcat]
  cases s with
  | nil => rfl
  | cons v l =>
    simp only [mapconcatSeq, List.length_cons, Nat.add_eq_zero_iff, one_ne_zero, and_false, if_false,
      List.getElem?_cons_zero]
    rw [mapconcatSeq_loop f sep (v :: l) l.length 1 _ (by simp; omega)]
    rfl

/-- `(mapconcat identity '("a" "b" "c") ", ")`. -/
example : mapconcat (fun v => match v with | .atom n => [n.toNat] | _ => []) [.atom 97, .atom 98, .atom 99] [44, 32] =
    [97, 44, 32, 98, 44, 32, 99] := by decide

/-- A list of three elements, the second of which is removed. -/
def threeHeap : Heap := ⟨fun a => .atom a, fun a => if a < 2 then .cell (a + 1) else .nil, 3⟩

example : ∃ h' r, remq (.atom 99) threeHeap (.atom 1) (.cell 0) = some (h', .ok r) ∧
    NewList threeHeap h' r [.atom 0, .atom 2] := by
  obtain ⟨h', r, h1, _, h3⟩ := C98_remq (.atom 99) (by simp) (.atom 1) threeHeap (.cell 0) [0, 1, 2]
    ⟨rfl, by decide, rfl, by decide, rfl, by decide, rfl⟩
  exact ⟨h', r, h1, by simpa [threeHeap] using h3⟩

end Rep.Lists
