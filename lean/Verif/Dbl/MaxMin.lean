import Verif.Dbl.MaxMinModel
import Verif.Dbl.Compare
import Verif.Num.Lemmas2

/-
C109: `max` and `min` of any numbers.
-/

namespace Rep.Dbl

open Spec
open Rep.Number (Num Res Comparable)

/-- `r` is inexact and no inexact number lies strictly between `g` and it, nor between it and `g`. -/
def Closest (g : E) (r : Number) : Prop :=
  exact r = false ∧ Valid r ∧ ∃ d, place r = some d ∧
    ∀ b, exact b = false → Valid b → ∀ y, place b = some y → (g ≤ y → d ≤ y) ∧ (y ≤ g → y ≤ d)

theorem place_ex (n : Num) : place (.ex n) = some (E.of (Rep.Number.value n)) := by cases n <;> rfl

theorem place_fl (d : F64) : place (.fl d) = d.place := by
  cases d with
  | nan => rfl
  | fin q => rfl
  | inf s => cases s <;> rfl

theorem valid_fl {d : F64} : Valid (.fl d) ↔ d.Ok := by cases d <;> exact Iff.rfl

theorem exactToInexact_eq (x : Number) : exactToInexact x = .fl (getFloat x) := by cases x <;> rfl

/-- A number that is, or is near to, `g`. -/
def Nearly (g : E) (r : Number) : Prop := (exact r = true ∧ place r = some g) ∨ Closest g r

theorem Nearly.float {g : E} {r : Number} (h : Nearly g r) (hv : Valid r) : (getFloat r).Ok ∧ ∃ d, (getFloat r).place = some d ∧
    ∀ b : F64, b.Ok → ∀ y, b.place = some y → (g ≤ y → d ≤ y) ∧ (y ≤ g → y ≤ d) := by
  rcases h with ⟨_, hp⟩ | ⟨he, _, d, hp, hb⟩
  · exact getFloat_spec r hv hp
  · cases r with
    | ex n => simp [exact] at he
    | fl f =>
      rw [place_fl] at hp
      exact ⟨valid_fl.1 hv, d, hp, fun b ok y hy => hb (.fl b) rfl (valid_fl.2 ok) y (by rw [place_fl]; exact hy)⟩

theorem inexactP_num (x : Number) : inexactP (.num x) = !exact x := by cases x <;> rfl

/-- One step of `max`. -/
theorem max2_mixed {r y : Number} {g q : E} (hr : Nearly g r) (vr : Valid r) (vy : Valid y) (hy : place y = some q)
    (hm : exact r = false ∨ exact y = false) : ∃ r', max2 (.num r) (.num y) = .ok (.num r') ∧ Closest (max g q) r' := by
  obtain ⟨or, dr, er, br⟩ := hr.float vr
  obtain ⟨oy, dy, ey, by'⟩ := getFloat_spec y vy hy
  obtain ⟨c1, c2⟩ := cmp_spec or oy er ey
  have hi : (inexactP (.num r) || inexactP (.num y)) = true := by
    rw [inexactP_num, inexactP_num]
    rcases hm with h | h <;> simp [h]
  have fin : ∀ d, d = max dr dy → ∀ b, exact b = false → Valid b → ∀ z, place b = some z → (max g q ≤ z → d ≤ z) ∧ (z ≤ max g q → z ≤ d) := by
    intro d hd b hb vb z hz
    cases b with
    | ex n => simp [exact] at hb
    | fl f =>
      rw [place_fl] at hz
      obtain ⟨a1, a2⟩ := br f (valid_fl.1 vb) z hz
      obtain ⟨b1, b2⟩ := by' f (valid_fl.1 vb) z hz
      subst hd
      refine ⟨fun h => ?_, fun h => ?_⟩
      · rw [max_le_iff] at h ⊢
        exact ⟨a1 h.1, b1 h.2⟩
      · rw [le_max_iff] at h ⊢
        exact h.imp a2 b2
  have hcm : cmpArg (.num r) (.num y) = (getFloat r).cmp (getFloat y) := compare_mixed hm
  unfold max2 contagion
  rw [if_pos hi, hcm]
  by_cases h : (getFloat r).cmp (getFloat y) ≥ 0
  · rw [if_pos h]
    refine ⟨_, rfl, ?_, ?_, dr, ?_, fin dr ?_⟩
    · rw [exactToInexact_eq]; rfl
    · rw [exactToInexact_eq]; exact valid_fl.2 or
    · rw [exactToInexact_eq, place_fl]; exact er
    · rw [max_eq_left]; rw [← not_lt, ← c1]; omega
  · rw [if_neg h]
    refine ⟨_, rfl, ?_, ?_, dy, ?_, fin dy ?_⟩
    · rw [exactToInexact_eq]; rfl
    · rw [exactToInexact_eq]; exact valid_fl.2 oy
    · rw [exactToInexact_eq, place_fl]; exact ey
    · rw [max_eq_right]; exact le_of_lt (c1.1 (by omega))

theorem max2_exact {a b : Num} (hc : Comparable a b) : ∃ n, max2 (.num (.ex a)) (.num (.ex b)) = .ok (.num (.ex n)) ∧
    (n = a ∨ n = b) ∧ E.of (Rep.Number.value n) = max (E.of (Rep.Number.value a)) (E.of (Rep.Number.value b)) := by
  obtain ⟨h1, h2⟩ := Rep.Number.compare_spec hc
  have hcm : cmpArg (.num (.ex a)) (.num (.ex b)) = Rep.Number.compare a b := rfl
  unfold max2 contagion
  rw [if_neg (by simp [inexactP]), hcm]
  by_cases h : Rep.Number.compare a b ≥ 0
  · rw [if_pos h]
    refine ⟨a, rfl, Or.inl rfl, ?_⟩
    rw [max_eq_left]
    rw [of_le, ← not_lt, ← h1]; omega
  · rw [if_neg h]
    refine ⟨b, rfl, Or.inr rfl, ?_⟩
    rw [max_eq_right]
    rw [of_le]
    exact le_of_lt (h1.1 (by omega))

/-- What `max` has found after some arguments. -/
structure MaxOf (seen : List Number) (r : Number) : Prop where
  valid : Valid r
  ex : ∃ g ∈ seen, ∃ G, place g = some G ∧ (∀ y ∈ seen, ∀ p, place y = some p → p ≤ G) ∧
    (if ∀ y ∈ seen, exact y = true then r = g else Closest G r)

theorem max_step {seen : List Number} {r y : Number} (h : MaxOf seen r) (vy : Valid y) {q : E} (hq : place y = some q)
    (hc : ∀ a ∈ seen, ∀ n m, a = .ex n → y = .ex m → Comparable n m) :
    ∃ r', max2 (.num r) (.num y) = .ok (.num r') ∧ MaxOf (seen ++ [y]) r' := by
  classical
  obtain ⟨vr, g, hg, G, pg, hG, hr⟩ := h
  have upper : ∀ G', G' = max G q → ∀ z ∈ seen ++ [y], ∀ p, place z = some p → p ≤ G' := by
    intro G' e z hz p hp
    subst e
    rcases List.mem_append.1 hz with h | h
    · exact le_max_of_le_left (hG z h p hp)
    · rw [List.mem_singleton.1 h] at hp
      rw [hq] at hp
      cases hp
      exact le_max_right _ _
  by_cases hall : ∀ z ∈ seen ++ [y], exact z = true
  · have hs : ∀ z ∈ seen, exact z = true := fun z hz => hall z (List.mem_append_left _ hz)
    rw [if_pos hs] at hr
    subst hr
    obtain ⟨a, rfl⟩ : ∃ a, r = .ex a := by
      have := hs r hg
      cases r with
      | ex a => exact ⟨a, rfl⟩
      | fl d => simp [exact] at this
    obtain ⟨b, rfl⟩ : ∃ b, y = .ex b := by
      have := hall y (by simp)
      cases y with
      | ex a => exact ⟨a, rfl⟩
      | fl d => simp [exact] at this
    obtain ⟨n, e, hn, hv⟩ := max2_exact (hc _ hg a b rfl rfl)
    rw [place_ex] at pg hq
    cases pg; cases hq
    refine ⟨_, e, ?_, .ex n, ?_, _, place_ex n, upper _ hv, ?_⟩
    · rcases hn with rfl | rfl
      · exact vr
      · exact vy
    · rcases hn with rfl | rfl
      · exact List.mem_append_left _ hg
      · simp
    · rw [if_pos hall]
  · have near : Nearly G r ∧ (exact r = false ∨ exact y = false) := by
      by_cases hs : ∀ z ∈ seen, exact z = true
      · rw [if_pos hs] at hr
        subst hr
        refine ⟨Or.inl ⟨hs r hg, pg⟩, Or.inr ?_⟩
        by_contra hne
        refine hall fun z hz => ?_
        rcases List.mem_append.1 hz with h | h
        · exact hs z h
        · rw [List.mem_singleton.1 h]; simpa using hne
      · rw [if_neg hs] at hr
        exact ⟨Or.inr hr, Or.inl hr.1⟩
    obtain ⟨r', e, hn⟩ := max2_mixed near.1 vr vy hq near.2
    refine ⟨r', e, hn.2.1, ?_⟩
    rcases le_total q G with h | h
    · refine ⟨g, List.mem_append_left _ hg, G, pg, upper _ (max_eq_left h).symm, ?_⟩
      rw [if_neg hall]
      rwa [max_eq_left h] at hn
    · refine ⟨y, by simp, q, hq, upper _ (max_eq_right h).symm, ?_⟩
      rw [if_neg hall]
      rwa [max_eq_right h] at hn

theorem max_fold : ∀ (l seen : List Number) (r : Number), MaxOf seen r → (∀ y ∈ l, Valid y ∧ ∃ q, place y = some q) →
    (∀ a ∈ seen ++ l, ∀ b ∈ seen ++ l, ∀ n m, a = .ex n → b = .ex m → Comparable n m) →
    ∃ r', foldLoop max2 (.ok (.num r)) (l.map .num) = .ok (.num r') ∧ MaxOf (seen ++ l) r' := by
  intro l
  induction l with
  | nil => intro seen r h _ _; exact ⟨r, rfl, by simpa using h⟩
  | cons y l ih =>
    intro seen r h hl hc
    obtain ⟨vy, q, hq⟩ := hl y (by simp)
    obtain ⟨r1, e1, h1⟩ := max_step h vy hq (fun a ha => hc a (by simp [ha]) y (by simp))
    obtain ⟨r2, e2, h2⟩ := ih (seen ++ [y]) r1 h1 (fun z hz => hl z (List.mem_cons_of_mem _ hz)) (by simpa using hc)
    refine ⟨r2, ?_, by simpa using h2⟩
    rw [List.map_cons, foldLoop, e1]
    exact e2

/-- `max` of any number of arguments: if all are exact it is an argument not less than any other; otherwise it is inexact,
and no inexact number is between the greatest argument and it.
Missing: arguments that are nan or not numbers, and two fixnums among them which are 2^31 or more apart (C04). -/
theorem C109_max_partial (x : Number) (l : List Number) (hv : ∀ y ∈ x :: l, Valid y) (hn : ∀ y ∈ x :: l, ∃ q, place y = some q)
    (hc : ∀ a ∈ x :: l, ∀ b ∈ x :: l, ∀ n m, a = .ex n → b = .ex m → Comparable n m) :
    ∃ r, maxV ((x :: l).map .num) = .ok (.num r) ∧
      ∃ g ∈ x :: l, ∃ G, place g = some G ∧ (∀ y ∈ x :: l, ∀ p, place y = some p → p ≤ G) ∧
        ((∀ y ∈ x :: l, exact y = true) → r = g) ∧ ((∃ y ∈ x :: l, exact y = false) → Closest G r) := by
  classical
  obtain ⟨px, hpx⟩ := hn x (by simp)
  have h0 : MaxOf [x] x := by
    refine ⟨hv x (by simp), x, by simp, px, hpx, ?_, ?_⟩
    · intro y hy p hp
      rw [List.mem_singleton.1 hy, hpx] at hp
      cases hp
      exact le_rfl
    · split
      · rfl
      · next h =>
        have hx : exact x = false := by simpa using h
        exact ⟨hx, hv x (by simp), px, hpx, fun _ _ _ _ _ => ⟨id, id⟩⟩
  obtain ⟨r, e, _, g, hg, G, pg, hG, hr⟩ := max_fold l [x] x h0 (fun y hy => ⟨hv y (List.mem_cons_of_mem _ hy), hn y (List.mem_cons_of_mem _ hy)⟩) hc
  refine ⟨r, e, g, hg, G, pg, hG, fun h => ?_, fun h => ?_⟩
  · rwa [if_pos (show ∀ y ∈ [x] ++ l, exact y = true from h)] at hr
  · rw [if_neg] at hr
    · exact hr
    · intro h'
      obtain ⟨y, hy, he⟩ := h
      rw [h' y hy] at he
      cases he

/-- One step of `min`. -/
theorem min2_mixed {r y : Number} {g q : E} (hr : Nearly g r) (vr : Valid r) (vy : Valid y) (hy : place y = some q)
    (hm : exact r = false ∨ exact y = false) : ∃ r', min2 (.num r) (.num y) = .ok (.num r') ∧ Closest (min g q) r' := by
  obtain ⟨or, dr, er, br⟩ := hr.float vr
  obtain ⟨oy, dy, ey, by'⟩ := getFloat_spec y vy hy
  obtain ⟨c1, c2⟩ := cmp_spec or oy er ey
  have hi : (inexactP (.num r) || inexactP (.num y)) = true := by
    rw [inexactP_num, inexactP_num]
    rcases hm with h | h <;> simp [h]
  have fin : ∀ d, d = min dr dy → ∀ b, exact b = false → Valid b → ∀ z, place b = some z → (min g q ≤ z → d ≤ z) ∧ (z ≤ min g q → z ≤ d) := by
    intro d hd b hb vb z hz
    cases b with
    | ex n => simp [exact] at hb
    | fl f =>
      rw [place_fl] at hz
      obtain ⟨a1, a2⟩ := br f (valid_fl.1 vb) z hz
      obtain ⟨b1, b2⟩ := by' f (valid_fl.1 vb) z hz
      subst hd
      refine ⟨fun h => ?_, fun h => ?_⟩
      · rw [min_le_iff] at h ⊢
        exact h.imp a1 b1
      · rw [le_min_iff] at h ⊢
        exact ⟨a2 h.1, b2 h.2⟩
  have hcm : cmpArg (.num r) (.num y) = (getFloat r).cmp (getFloat y) := compare_mixed hm
  unfold min2 contagion
  rw [if_pos hi, hcm]
  by_cases h : (getFloat r).cmp (getFloat y) ≤ 0
  · rw [if_pos h]
    refine ⟨_, rfl, ?_, ?_, dr, ?_, fin dr ?_⟩
    · rw [exactToInexact_eq]; rfl
    · rw [exactToInexact_eq]; exact valid_fl.2 or
    · rw [exactToInexact_eq, place_fl]; exact er
    · rw [min_eq_left]; rw [← not_lt, ← c2]; omega
  · rw [if_neg h]
    refine ⟨_, rfl, ?_, ?_, dy, ?_, fin dy ?_⟩
    · rw [exactToInexact_eq]; rfl
    · rw [exactToInexact_eq]; exact valid_fl.2 oy
    · rw [exactToInexact_eq, place_fl]; exact ey
    · rw [min_eq_right]; exact le_of_lt (c2.1 (by omega))

theorem min2_exact {a b : Num} (hc : Comparable a b) : ∃ n, min2 (.num (.ex a)) (.num (.ex b)) = .ok (.num (.ex n)) ∧
    (n = a ∨ n = b) ∧ E.of (Rep.Number.value n) = min (E.of (Rep.Number.value a)) (E.of (Rep.Number.value b)) := by
  obtain ⟨h1, h2⟩ := Rep.Number.compare_spec hc
  have hcm : cmpArg (.num (.ex a)) (.num (.ex b)) = Rep.Number.compare a b := rfl
  unfold min2 contagion
  rw [if_neg (by simp [inexactP]), hcm]
  by_cases h : Rep.Number.compare a b ≤ 0
  · rw [if_pos h]
    refine ⟨a, rfl, Or.inl rfl, ?_⟩
    rw [min_eq_left]
    rw [of_le, le_iff_lt_or_eq, ← h1, ← h2]; omega
  · rw [if_neg h]
    refine ⟨b, rfl, Or.inr rfl, ?_⟩
    rw [min_eq_right]
    rw [of_le, ← not_lt, ← h1]
    omega

/-- What `min` has found after some arguments. -/
structure MinOf (seen : List Number) (r : Number) : Prop where
  valid : Valid r
  ex : ∃ g ∈ seen, ∃ G, place g = some G ∧ (∀ y ∈ seen, ∀ p, place y = some p → G ≤ p) ∧
    (if ∀ y ∈ seen, exact y = true then r = g else Closest G r)

theorem min_step {seen : List Number} {r y : Number} (h : MinOf seen r) (vy : Valid y) {q : E} (hq : place y = some q)
    (hc : ∀ a ∈ seen, ∀ n m, a = .ex n → y = .ex m → Comparable n m) :
    ∃ r', min2 (.num r) (.num y) = .ok (.num r') ∧ MinOf (seen ++ [y]) r' := by
  classical
  obtain ⟨vr, g, hg, G, pg, hG, hr⟩ := h
  have upper : ∀ G', G' = min G q → ∀ z ∈ seen ++ [y], ∀ p, place z = some p → G' ≤ p := by
    intro G' e z hz p hp
    subst e
    rcases List.mem_append.1 hz with h | h
    · exact min_le_of_left_le (hG z h p hp)
    · rw [List.mem_singleton.1 h] at hp
      rw [hq] at hp
      cases hp
      exact min_le_right _ _
  by_cases hall : ∀ z ∈ seen ++ [y], exact z = true
  · have hs : ∀ z ∈ seen, exact z = true := fun z hz => hall z (List.mem_append_left _ hz)
    rw [if_pos hs] at hr
    subst hr
    obtain ⟨a, rfl⟩ : ∃ a, r = .ex a := by
      have := hs r hg
      cases r with
      | ex a => exact ⟨a, rfl⟩
      | fl d => simp [exact] at this
    obtain ⟨b, rfl⟩ : ∃ b, y = .ex b := by
      have := hall y (by simp)
      cases y with
      | ex a => exact ⟨a, rfl⟩
      | fl d => simp [exact] at this
    obtain ⟨n, e, hn, hv⟩ := min2_exact (hc _ hg a b rfl rfl)
    rw [place_ex] at pg hq
    cases pg; cases hq
    refine ⟨_, e, ?_, .ex n, ?_, _, place_ex n, upper _ hv, ?_⟩
    · rcases hn with rfl | rfl
      · exact vr
      · exact vy
    · rcases hn with rfl | rfl
      · exact List.mem_append_left _ hg
      · simp
    · rw [if_pos hall]
  · have near : Nearly G r ∧ (exact r = false ∨ exact y = false) := by
      by_cases hs : ∀ z ∈ seen, exact z = true
      · rw [if_pos hs] at hr
        subst hr
        refine ⟨Or.inl ⟨hs r hg, pg⟩, Or.inr ?_⟩
        by_contra hne
        refine hall fun z hz => ?_
        rcases List.mem_append.1 hz with h | h
        · exact hs z h
        · rw [List.mem_singleton.1 h]; simpa using hne
      · rw [if_neg hs] at hr
        exact ⟨Or.inr hr, Or.inl hr.1⟩
    obtain ⟨r', e, hn⟩ := min2_mixed near.1 vr vy hq near.2
    refine ⟨r', e, hn.2.1, ?_⟩
    rcases le_total G q with h | h
    · refine ⟨g, List.mem_append_left _ hg, G, pg, upper _ (min_eq_left h).symm, ?_⟩
      rw [if_neg hall]
      rwa [min_eq_left h] at hn
    · refine ⟨y, by simp, q, hq, upper _ (min_eq_right h).symm, ?_⟩
      rw [if_neg hall]
      rwa [min_eq_right h] at hn

theorem min_fold : ∀ (l seen : List Number) (r : Number), MinOf seen r → (∀ y ∈ l, Valid y ∧ ∃ q, place y = some q) →
    (∀ a ∈ seen ++ l, ∀ b ∈ seen ++ l, ∀ n m, a = .ex n → b = .ex m → Comparable n m) →
    ∃ r', foldLoop min2 (.ok (.num r)) (l.map .num) = .ok (.num r') ∧ MinOf (seen ++ l) r' := by
  intro l
  induction l with
  | nil => intro seen r h _ _; exact ⟨r, rfl, by simpa using h⟩
  | cons y l ih =>
    intro seen r h hl hc
    obtain ⟨vy, q, hq⟩ := hl y (by simp)
    obtain ⟨r1, e1, h1⟩ := min_step h vy hq (fun a ha => hc a (by simp [ha]) y (by simp))
    obtain ⟨r2, e2, h2⟩ := ih (seen ++ [y]) r1 h1 (fun z hz => hl z (List.mem_cons_of_mem _ hz)) (by simpa using hc)
    refine ⟨r2, ?_, by simpa using h2⟩
    rw [List.map_cons, foldLoop, e1]
    exact e2

/-- `min` of any number of arguments: if all are exact it is an argument not greater than any other; otherwise it is inexact,
and no inexact number is between the least argument and it.
Missing: arguments that are nan or not numbers, and two fixnums among them which are 2^31 or more apart (C04). -/
theorem C109_min_partial (x : Number) (l : List Number) (hv : ∀ y ∈ x :: l, Valid y) (hn : ∀ y ∈ x :: l, ∃ q, place y = some q)
    (hc : ∀ a ∈ x :: l, ∀ b ∈ x :: l, ∀ n m, a = .ex n → b = .ex m → Comparable n m) :
    ∃ r, minV ((x :: l).map .num) = .ok (.num r) ∧
      ∃ g ∈ x :: l, ∃ G, place g = some G ∧ (∀ y ∈ x :: l, ∀ p, place y = some p → G ≤ p) ∧
        ((∀ y ∈ x :: l, exact y = true) → r = g) ∧ ((∃ y ∈ x :: l, exact y = false) → Closest G r) := by
  classical
  obtain ⟨px, hpx⟩ := hn x (by simp)
  have h0 : MinOf [x] x := by
    refine ⟨hv x (by simp), x, by simp, px, hpx, ?_, ?_⟩
    · intro y hy p hp
      rw [List.mem_singleton.1 hy, hpx] at hp
      cases hp
      exact le_rfl
    · split
      · rfl
      · next h =>
        have hx : exact x = false := by simpa using h
        exact ⟨hx, hv x (by simp), px, hpx, fun _ _ _ _ _ => ⟨id, id⟩⟩
  obtain ⟨r, e, _, g, hg, G, pg, hG, hr⟩ := min_fold l [x] x h0 (fun y hy => ⟨hv y (List.mem_cons_of_mem _ hy), hn y (List.mem_cons_of_mem _ hy)⟩) hc
  refine ⟨r, e, g, hg, G, pg, hG, fun h => ?_, fun h => ?_⟩
  · rwa [if_pos (show ∀ y ∈ [x] ++ l, exact y = true from h)] at hr
  · rw [if_neg] at hr
    · exact hr
    · intro h'
      obtain ⟨y, hy, he⟩ := h
      rw [h' y hy] at he
      cases he

def three : List Number := [.ex (.fix 3), .fl (.fin (5 / 2)), .ex (.rat (7 / 2))]

/-- 3, 2.5 and 7/2 meet the hypotheses of both theorems. -/
example : (∀ y ∈ three, Valid y) ∧ (∀ y ∈ three, ∃ q, place y = some q) ∧ (∃ y ∈ three, exact y = false) ∧
    (∀ a ∈ three, ∀ b ∈ three, ∀ n m, a = .ex n → b = .ex m → Comparable n m) := by
  refine ⟨?_, ?_, ⟨_, List.mem_cons_of_mem _ (List.mem_cons_self ..), rfl⟩, ?_⟩
  · intro y hy
    simp only [three, List.mem_cons, List.not_mem_nil, or_false] at hy
    rcases hy with rfl | rfl | rfl
    · constructor <;> norm_num [Rep.Number.minInt, Rep.Number.maxInt]
    · exact ⟨5, -1, by norm_num, by norm_num, by norm_num, by norm_num⟩
    · trivial
  · intro y hy
    simp only [three, List.mem_cons, List.not_mem_nil, or_false] at hy
    rcases hy with rfl | rfl | rfl <;> exact ⟨_, rfl⟩
  · intro a ha b hb n m e1 e2 i j e3 e4
    subst e3; subst e4; subst e1; subst e2
    simp only [three, List.mem_cons, List.not_mem_nil, or_false, Number.ex.injEq, reduceCtorEq, Num.fix.injEq, false_or] at ha hb
    subst ha; subst hb
    norm_num

/-- With nan the result depends on the order of the arguments. -/
theorem C109_nan_violated : maxV [.num (.fl .nan), .num (.fl (.fin 1))] = .ok (.num (.fl .nan)) ∧
    maxV [.num (.fl (.fin 1)), .num (.fl .nan)] = .ok (.num (.fl (.fin 1))) := ⟨rfl, rfl⟩

/-- Fixnums far apart. -/
theorem C109_far_violated : maxV [.num (.ex (.fix 0)), .num (.ex (.fix (2 ^ 32)))] = .ok (.num (.ex (.fix 0))) := by decide

/-- An argument that is not a number is accepted, or refused with an error, or, if there are more arguments, a null pointer
is followed. -/
theorem C109_other_violated : maxV [.num (.ex (.rat (1 / 2))), .other] = .ok (.num (.ex (.rat (1 / 2)))) ∧
    minV [.num (.ex (.rat (1 / 2))), .other] = .ok .other ∧ minV [.num (.fl (.fin 1)), .other] = .argError 1 ∧
    minV [.num (.fl (.fin 1)), .other, .num (.ex (.fix 2))] = .ub := ⟨rfl, rfl, rfl, rfl⟩

end Rep.Dbl
