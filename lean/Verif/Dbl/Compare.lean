import Verif.Dbl.Props

namespace Rep.Dbl

open Spec
open Rep.Number (Num Res makeLongInt maybeDemote minInt maxInt)

/-- The order of doubles. -/
abbrev E := WithBot (WithTop ℚ)

abbrev E.of (q : ℚ) : E := ((q : WithTop ℚ) : E)

theorem of_lt {a b : ℚ} : E.of a < E.of b ↔ a < b := by simp [E.of]
theorem of_le {a b : ℚ} : E.of a ≤ E.of b ↔ a ≤ b := by simp [E.of]

theorem of_lt_top (a : ℚ) : E.of a < ⊤ := by
  rw [← WithBot.coe_top]
  exact WithBot.coe_lt_coe.2 (WithTop.coe_lt_top a)

def F64.place : F64 → Option E
  | .fin q => some (E.of q)
  | .inf true => some ⊥
  | .inf false => some ((⊤ : WithTop ℚ) : E)
  | .nan => none

def F64.Ok : F64 → Prop
  | .fin q => Double q
  | _ => True

theorem rn_neg_of {s : ℚ} (g : Grid (-1074) s) (h : s < 0) : rn s < 0 := by
  have h0 : s ≠ 0 := h.ne
  rcases le_total (Int.log 2 |s| - 52) (-1074) with hl | hl
  · have : expo s = -1074 := max_eq_right hl
    rw [rn_fix (by rw [this]; exact g)]
    exact h
  · have : expo s = Int.log 2 |s| - 52 := max_eq_left hl
    have hg : Grid (expo s) (-(2 ^ Int.log 2 |s|)) := (Grid.le (by omega) (Grid.pow _)).neg
    have hle := log_le h0
    rw [abs_of_neg h] at hle
    have := rn_le hg (by rw [abs_of_neg h]; linarith)
    have hp := two_pos (Int.log 2 |s|)
    linarith

theorem rn_pos_of {s : ℚ} (g : Grid (-1074) s) (h : 0 < s) : 0 < rn s := by
  have h0 : s ≠ 0 := h.ne'
  rcases le_total (Int.log 2 |s| - 52) (-1074) with hl | hl
  · have : expo s = -1074 := max_eq_right hl
    rw [rn_fix (by rw [this]; exact g)]
    exact h
  · have : expo s = Int.log 2 |s| - 52 := max_eq_left hl
    have hg : Grid (expo s) (2 ^ Int.log 2 |s|) := Grid.le (by omega) (Grid.pow _)
    have hle := log_le h0
    rw [abs_of_pos h] at hle
    have := le_rn hg (by rw [abs_of_pos h]; exact hle)
    have hp := two_pos (Int.log 2 |s|)
    linarith

theorem rn_zero : rn 0 = 0 := by simp [rn, nearest]

/-- The difference of two doubles has the right sign. -/
theorem cmp_fin {a b : ℚ} (ha : Double a) (hb : Double b) :
    (F64.cmp (.fin a) (.fin b) < 0 ↔ a < b) ∧ (0 < F64.cmp (.fin a) (.fin b) ↔ b < a) := by
  have g : Grid (-1074) (a - b) := (ha.grid.le (expo_ge _)).sub (hb.grid.le (expo_ge _))
  have key : F64.cmp (.fin a) (.fin b) = if rn (a - b) < 0 then -1 else if 0 < rn (a - b) then 1 else 0 := by
    unfold F64.cmp rne pack
    show (match (if |rn (a - b)| < 2 ^ 1024 then F64.fin (rn (a - b)) else .inf (decide (rn (a - b) < 0))) with
      | .fin d => if d < 0 then (-1 : Int) else if 0 < d then 1 else 0
      | .inf s => if s then -1 else 1
      | .nan => 0) = _
    by_cases h : |rn (a - b)| < 2 ^ 1024
    · rw [if_pos h]
    · rw [if_neg h]
      by_cases h1 : rn (a - b) < 0
      · simp [h1]
      · have h2 : 0 < rn (a - b) := by
          rcases lt_or_eq_of_le (not_lt.1 h1) with h2 | h2
          · exact h2
          · rw [← h2] at h
            exact absurd (by rw [abs_zero]; exact pow_pos (by norm_num) _) h
        simp [h1, h2]
  rw [key]
  rcases lt_trichotomy a b with h | h | h
  · have := rn_neg_of g (by linarith)
    rw [if_pos this]
    constructor
    · exact ⟨fun _ => h, fun _ => by norm_num⟩
    · exact ⟨fun h' => by norm_num at h', fun h' => by linarith⟩
  · subst h
    rw [sub_self, rn_zero]
    simp
  · have := rn_pos_of g (by linarith)
    rw [if_neg (by linarith), if_pos this]
    constructor
    · exact ⟨fun h' => by norm_num at h', fun h' => by linarith⟩
    · exact ⟨fun _ => h, fun _ => by norm_num⟩

/-- Comparing doubles is right. -/
theorem cmp_spec {a b : F64} (ha : a.Ok) (hb : b.Ok) {x y : E} (hx : a.place = some x) (hy : b.place = some y) :
    (a.cmp b < 0 ↔ x < y) ∧ (0 < a.cmp b ↔ y < x) := by
  match a, b with
  | .fin a, .fin b =>
    cases hx; cases hy
    rw [of_lt, of_lt]
    exact cmp_fin ha hb
  | .fin a, .inf true => cases hx; cases hy; simp [F64.cmp]
  | .fin a, .inf false => cases hx; cases hy; simp [F64.cmp, of_lt_top]
  | .inf true, .fin b => cases hx; cases hy; simp [F64.cmp]
  | .inf false, .fin b => cases hx; cases hy; simp [F64.cmp, of_lt_top]
  | .inf true, .inf true => cases hx; cases hy; simp [F64.cmp]
  | .inf true, .inf false => cases hx; cases hy; simp [F64.cmp]
  | .inf false, .inf true => cases hx; cases hy; simp [F64.cmp]
  | .inf false, .inf false => cases hx; cases hy; simp [F64.cmp]
  | .nan, _ => exact nomatch hx
  | .fin _, .nan => exact nomatch hy
  | .inf _, .nan => exact nomatch hy

/-- `f` is `v` rounded in some way: grid points are not passed. -/
structure Rounded (v f : ℚ) : Prop where
  grid : Grid (expo v) f
  le : ∀ {a}, Grid (expo v) a → a ≤ v → a ≤ f
  ge : ∀ {b}, Grid (expo v) b → v ≤ b → f ≤ b

theorem rn_rounded (v : ℚ) : Rounded v (rn v) := ⟨rn_grid v, le_rn, rn_le⟩
theorem rz_rounded (v : ℚ) : Rounded v (rz v) := ⟨rz_grid v, le_rz, rz_le⟩

/-- A double which is not on the grid of a number is smaller in size. -/
theorem grid_or {v b : ℚ} (hb : Double b) :
    Grid (expo v) b ∨ expo v = Int.log 2 |v| - 52 ∧ |b| < 2 ^ Int.log 2 |v| := by
  by_cases hle : expo v ≤ expo b
  · exact Or.inl (hb.grid.le hle)
  · right
    push Not at hle
    have h1 : expo v = Int.log 2 |v| - 52 := by
      have := expo_ge b
      unfold expo at hle this ⊢
      omega
    refine ⟨h1, lt_of_lt_of_le (lt_log b) (zpow_le_zpow_right₀ (by norm_num) ?_)⟩
    have : Int.log 2 |b| - 52 ≤ expo b := le_max_left _ _
    omega

theorem Rounded.zero {f : ℚ} (h : Rounded 0 f) : f = 0 := le_antisymm (h.ge (Grid.zero _) le_rfl) (h.le (Grid.zero _) le_rfl)

/-- Rounding does not pass doubles. -/
theorem Rounded.le_double {v f b : ℚ} (h : Rounded v f) (hb : Double b) (hle : v ≤ b) : f ≤ b := by
  by_cases h0 : v = 0
  · subst h0; rw [h.zero]; exact hle
  rcases grid_or (v := v) hb with g | ⟨he, hlt⟩
  · exact h.ge g hle
  · have hl := log_le h0
    rw [abs_lt] at hlt
    rcases lt_or_gt_of_ne h0 with hn | hp
    · rw [abs_of_neg hn] at hl hlt he
      have := h.ge (b := -(2 ^ Int.log 2 (-v))) ((Grid.le (by rw [he]; omega) (Grid.pow _)).neg) (by linarith)
      linarith [hlt.1]
    · rw [abs_of_pos hp] at hl hlt
      linarith [hlt.2]

theorem Rounded.double_le {v f b : ℚ} (h : Rounded v f) (hb : Double b) (hle : b ≤ v) : b ≤ f := by
  by_cases h0 : v = 0
  · subst h0; rw [h.zero]; exact hle
  rcases grid_or (v := v) hb with g | ⟨he, hlt⟩
  · exact h.le g hle
  · have hl := log_le h0
    rw [abs_lt] at hlt
    rcases lt_or_gt_of_ne h0 with hn | hp
    · rw [abs_of_neg hn] at hl hlt
      linarith [hlt.1]
    · rw [abs_of_pos hp] at hl hlt he
      have := h.le (a := 2 ^ Int.log 2 v) (Grid.le (by rw [he]; omega) (Grid.pow _)) hl
      linarith [hlt.2]

/-- Rounded numbers on their own grid. -/
theorem Rounded.self_grid {v f : ℚ} (h : Rounded v f) : Grid (expo f) f := by
  by_cases h0 : f = 0
  · rw [h0]; exact Grid.zero _
  by_cases htop : |f| < 2 ^ (expo v + 53)
  · exact Grid.le (expo_lt h0 htop (expo_ge v)) h.grid
  · have hle : |f| ≤ 2 ^ (expo v + 53) := by
      have hg : Grid (expo v) (2 ^ (expo v + 53)) := Grid.le (by omega) (Grid.pow _)
      have := lt_top v
      rw [abs_le] at this ⊢
      exact ⟨h.le hg.neg this.1, h.ge hg this.2⟩
    have heq : |f| = 2 ^ (expo v + 53) := le_antisymm hle (not_lt.1 htop)
    have hex : expo f ≤ expo v + 1 := by
      refine expo_lt h0 ?_ (by have := expo_ge v; omega)
      rw [heq]
      exact zpow_lt_zpow_right₀ (by norm_num) (by omega)
    have hg : Grid (expo f) (2 ^ (expo v + 53)) := Grid.le (by omega) (Grid.pow _)
    rcases abs_choice f with e | e
    · rw [e] at heq; rw [← heq] at hg; exact hg
    · rw [e] at heq
      have := hg.neg
      rw [← heq, neg_neg] at this
      exact this

theorem pack_ok {v f : ℚ} (h : Rounded v f) : (pack f).Ok := by
  unfold pack
  split
  · rename_i hl; exact double_of_grid h.self_grid hl
  · trivial

/-- Nor does the packed result pass doubles or infinities. -/
theorem pack_place {v f : ℚ} (h : Rounded v f) : ∃ p, (pack f).place = some p ∧
    ∀ b : F64, b.Ok → ∀ y, b.place = some y → (E.of v ≤ y → p ≤ y) ∧ (y ≤ E.of v → y ≤ p) := by
  unfold pack
  split
  · refine ⟨E.of f, rfl, fun b hb y hy => ?_⟩
    match b with
    | .fin b =>
      cases hy
      rw [of_le, of_le, of_le, of_le]
      exact ⟨fun hle => h.le_double hb hle, fun hle => h.double_le hb hle⟩
    | .inf true => cases hy; simp
    | .inf false => cases hy; simp [(of_lt_top v).ne]
    | .nan => exact nomatch hy
  · rename_i hbig
    by_cases hneg : f < 0
    · simp only [hneg, decide_true]
      refine ⟨⊥, rfl, fun b hb y hy => ⟨fun _ => bot_le, fun hle => ?_⟩⟩
      match b with
      | .fin b =>
        cases hy
        rw [of_le] at hle
        have h1 := h.double_le hb hle
        have h2 := hb.lt
        rw [abs_lt] at h2
        exact absurd (by rw [abs_of_neg hneg]; linarith [h2.1]) hbig
      | .inf true => cases hy; exact le_rfl
      | .inf false => cases hy; simp [(of_lt_top v).ne] at hle
      | .nan => exact nomatch hy
    · simp only [hneg, decide_false]
      refine ⟨_, rfl, fun b hb y hy => ⟨fun hle => ?_, fun _ => by simp⟩⟩
      match b with
      | .fin b =>
        cases hy
        rw [of_le] at hle
        have h1 := h.le_double hb hle
        have h2 := hb.lt
        rw [abs_lt] at h2
        exact absurd (by rw [abs_of_nonneg (not_lt.1 hneg)]; linarith [h2.2]) hbig
      | .inf true => cases hy; simp at hle
      | .inf false => cases hy; exact le_rfl
      | .nan => exact nomatch hy

/-- The double used for a number in comparisons. -/
theorem getFloat_spec (x : Number) (hx : Valid x) {p : E} (hp : Spec.place x = some p) : (getFloat x).Ok ∧ ∃ d, (getFloat x).place = some d ∧
    ∀ b : F64, b.Ok → ∀ y, b.place = some y → (p ≤ y → d ≤ y) ∧ (y ≤ p → y ≤ d) := by
  match x with
  | .ex (.fix w) => cases hp; exact ⟨pack_ok (rn_rounded _), pack_place (rn_rounded _)⟩
  | .ex (.big z) => cases hp; exact ⟨pack_ok (rz_rounded _), pack_place (rz_rounded _)⟩
  | .ex (.rat q) => cases hp; exact ⟨pack_ok (rz_rounded _), pack_place (rz_rounded _)⟩
  | .fl (.fin q) => cases hp; exact ⟨hx, _, rfl, fun _ _ _ _ => ⟨id, id⟩⟩
  | .fl (.inf true) => cases hp; exact ⟨trivial, _, rfl, fun _ _ _ _ => ⟨id, id⟩⟩
  | .fl (.inf false) => cases hp; exact ⟨trivial, _, rfl, fun _ _ _ _ => ⟨id, id⟩⟩
  | .fl .nan => exact nomatch hp

theorem compare_mixed {x y : Number} (h : exact x = false ∨ exact y = false) : compare x y = (getFloat x).cmp (getFloat y) := by
  cases x with
  | ex a =>
    cases y with
    | ex b => simp [exact] at h
    | fl d => rfl
  | fl d => cases y <;> rfl

/-- C69.  When a number is found less, or greater, than another, it is: comparisons of exact with inexact numbers are never
reversed (`nan` is left out). -/
theorem C69_strict (x y : Number) (hx : Valid x) (hy : Valid y) (hm : exact x = false ∨ exact y = false) {p q : E}
    (hp : Spec.place x = some p) (hq : Spec.place y = some q) : (compare x y < 0 → p < q) ∧ (0 < compare x y → q < p) := by
  rw [compare_mixed hm]
  obtain ⟨ox, dx, ex, mx⟩ := getFloat_spec x hx hp
  obtain ⟨oy, dy, ey, my⟩ := getFloat_spec y hy hq
  obtain ⟨c1, c2⟩ := cmp_spec ox oy ex ey
  rw [c1, c2]
  -- one of them is a double itself
  rcases hm with h | h
  · have hxe : dx = p := by
      cases x with
      | ex a => simp [exact] at h
      | fl d =>
        match d with
        | .fin a => cases hp; cases ex; rfl
        | .inf true => cases hp; cases ex; rfl
        | .inf false => cases hp; cases ex; rfl
        | .nan => exact nomatch hp
    subst hxe
    have hb := my _ ox _ ex
    refine ⟨fun hlt => ?_, fun hlt => ?_⟩
    · by_contra hn
      exact absurd (hb.1 (not_lt.1 hn)) (not_le.2 hlt)
    · by_contra hn
      exact absurd (hb.2 (not_lt.1 hn)) (not_le.2 hlt)
  · have hye : dy = q := by
      cases y with
      | ex a => simp [exact] at h
      | fl d =>
        match d with
        | .fin a => cases hq; cases ey; rfl
        | .inf true => cases hq; cases ey; rfl
        | .inf false => cases hq; cases ey; rfl
        | .nan => exact nomatch hq
    subst hye
    have hb := mx _ oy _ ey
    refine ⟨fun hlt => ?_, fun hlt => ?_⟩
    · by_contra hn
      exact absurd (hb.2 (not_lt.1 hn)) (not_le.2 hlt)
    · by_contra hn
      exact absurd (hb.1 (not_lt.1 hn)) (not_le.2 hlt)

/-- The number is a double. -/
def Exactly (x : Number) : Prop := ∀ v, value x = some v → Double v

theorem getFloat_exactly {x : Number} (h : Exactly x) {p : E} (hp : Spec.place x = some p) : (getFloat x).Ok ∧ (getFloat x).place = some p := by
  match x with
  | .ex (.fix w) => cases hp; have hd : Double (w : ℚ) := h _ rfl; show (rne w).Ok ∧ (rne w).place = _; rw [hd.rne]; exact ⟨hd, rfl⟩
  | .ex (.big z) => cases hp; have hd : Double (z : ℚ) := h _ rfl; show (rtz z).Ok ∧ (rtz z).place = _; rw [hd.rtz]; exact ⟨hd, rfl⟩
  | .ex (.rat q) => cases hp; have hd : Double q := h _ rfl; show (rtz q).Ok ∧ (rtz q).place = _; rw [hd.rtz]; exact ⟨hd, rfl⟩
  | .fl (.fin q) => cases hp; exact ⟨h _ rfl, rfl⟩
  | .fl (.inf true) => cases hp; exact ⟨trivial, rfl⟩
  | .fl (.inf false) => cases hp; exact ⟨trivial, rfl⟩
  | .fl .nan => exact nomatch hp

/-- C69.  Numbers compare as their values.
Missing: exact numbers that no double holds, which are found equal to the doubles near to them (`C69_equal_violated`), and `nan`,
which is found equal to everything (`C69_nan_violated`); two exact numbers: C04. -/
theorem C69_order_partial (x y : Number) (hx : Exactly x) (hy : Exactly y) (hm : exact x = false ∨ exact y = false) {p q : E}
    (hp : Spec.place x = some p) (hq : Spec.place y = some q) :
    (compare x y < 0 ↔ p < q) ∧ (compare x y = 0 ↔ p = q) ∧ (0 < compare x y ↔ q < p) := by
  rw [compare_mixed hm]
  obtain ⟨ox, ex⟩ := getFloat_exactly hx hp
  obtain ⟨oy, ey⟩ := getFloat_exactly hy hq
  obtain ⟨c1, c2⟩ := cmp_spec ox oy ex ey
  refine ⟨c1, ⟨fun h => ?_, fun h => ?_⟩, c2⟩
  · refine le_antisymm (not_lt.1 fun hlt => ?_) (not_lt.1 fun hlt => ?_)
    · have := c2.2 hlt; omega
    · have := c1.2 hlt; omega
  · have h1 : ¬(getFloat x).cmp (getFloat y) < 0 := fun h' => absurd (c1.1 h') (by rw [h]; exact lt_irrefl _)
    have h2 : ¬0 < (getFloat x).cmp (getFloat y) := fun h' => absurd (c2.1 h') (by rw [h]; exact lt_irrefl _)
    omega

/-- 3 and 2.5 -/
example : Exactly (.ex (.fix 3)) ∧ Exactly (.fl (.fin (5 / 2))) ∧ compare (.ex (.fix 3)) (.fl (.fin (5 / 2))) > 0 := by
  have h1 : Exactly (.ex (.fix 3)) := by
    intro v hv
    cases hv
    exact double_int (by norm_num)
  have h2 : Exactly (.fl (.fin (5 / 2))) := by
    intro v hv
    cases hv
    exact ⟨5, -1, by norm_num, by norm_num, by norm_num, by norm_num⟩
  refine ⟨h1, h2, ?_⟩
  have := (C69_order_partial _ _ h1 h2 (Or.inr rfl) (p := E.of ((3 : Int) : ℚ)) (q := E.of (5 / 2)) rfl rfl).2.2
  rw [gt_iff_lt, this, of_lt]
  norm_num

theorem odd_tie {n : Int} (h1 : 2 ^ 53 < n) (h2 : n < 2 ^ 54) (ho : n % 4 = 1) : rn (n : ℚ) = ((n - 1 : Int) : ℚ) ∧ rz (n : ℚ) = ((n - 1 : Int) : ℚ) := by
  have a : (2 : ℚ) ^ 53 < n := by exact_mod_cast h1
  have b : (n : ℚ) < 2 ^ 54 := by exact_mod_cast h2
  have habs : |(n : ℚ)| = n := abs_of_pos (by linarith [show (0 : ℚ) < 2 ^ 53 by norm_num])
  have hu : ulp (n : ℚ) = 2 := by
    unfold ulp expo
    rw [log_eq (k := 53) (by rw [habs]; exact_mod_cast a.le) (by rw [habs]; exact_mod_cast b)]
    norm_num
  obtain ⟨m, rfl⟩ : ∃ m, n = 4 * m + 1 := ⟨n / 4, by omega⟩
  have e : ((4 * m + 1 : Int) : ℚ) / 2 - ((2 * m : Int) : ℚ) = 1 / 2 := by push_cast; ring
  constructor
  · unfold rn
    rw [hu]
    have : nearest (((4 * m + 1 : Int) : ℚ) / 2) = 2 * m := by
      refine Nearest.unique (nearest_spec _) ?_
      unfold Nearest
      rw [e, abs_of_pos (by norm_num)]
      exact ⟨le_rfl, fun _ => by omega⟩
    rw [this]
    push_cast
    ring
  · unfold rz
    rw [hu]
    have : trunc (((4 * m + 1 : Int) : ℚ) / 2) = 2 * m := by
      unfold trunc
      have h0 : (0 : ℚ) ≤ ((4 * m + 1 : Int) : ℚ) / 2 := by linarith [show (0 : ℚ) < 2 ^ 53 by norm_num]
      rw [if_pos h0, Int.floor_eq_iff]
      constructor <;> linarith
    rw [this]
    push_cast
    ring

/-- 2^53 + 1 is found equal to the double 2^53, which is found equal to 2^53; but the integers are different. -/
theorem C69_equal_violated :
    compare (.ex (.fix (2 ^ 53 + 1))) (.fl (.fin ((2 ^ 53 : Int) : ℚ))) = 0 ∧
      compare (.fl (.fin ((2 ^ 53 : Int) : ℚ))) (.ex (.fix (2 ^ 53))) = 0 ∧
      compare (.ex (.fix (2 ^ 53))) (.ex (.fix (2 ^ 53 + 1))) ≠ 0 := by
  have hd : Double ((2 ^ 53 : Int) : ℚ) := double_int (by norm_num)
  have hself : F64.cmp (.fin ((2 ^ 53 : Int) : ℚ)) (.fin ((2 ^ 53 : Int) : ℚ)) = 0 := by
    have := cmp_fin hd hd
    have h1 := this.1.not.2 (lt_irrefl _)
    have h2 := this.2.not.2 (lt_irrefl _)
    omega
  refine ⟨?_, ?_, ?_⟩
  · show F64.cmp (rne ((2 ^ 53 + 1 : Int) : ℚ)) (.fin ((2 ^ 53 : Int) : ℚ)) = 0
    have e := (odd_tie (n := 2 ^ 53 + 1) (by norm_num) (by norm_num) (by norm_num)).1
    have e' : rn ((2 ^ 53 + 1 : Int) : ℚ) = ((2 ^ 53 : Int) : ℚ) := by rw [e]; norm_num
    rw [rne_eq (by rw [e']; exact hd.lt), e']
    exact hself
  · show F64.cmp (.fin ((2 ^ 53 : Int) : ℚ)) (rne ((2 ^ 53 : Int) : ℚ)) = 0
    rw [hd.rne]
    exact hself
  · decide

/-- `nan` is found equal to every number. -/
theorem C69_nan_violated (x : Number) : compare x (.fl .nan) = 0 ∧ compare (.fl .nan) x = 0 := by
  constructor
  · show (match x, Number.fl .nan with | .ex a, .ex b => Rep.Number.compare a b | x, y => (getFloat x).cmp (getFloat y)) = 0
    cases x with
    | ex n => show (getFloat (.ex n)).cmp .nan = 0; cases getFloat (.ex n) <;> rfl
    | fl d => show d.cmp .nan = 0; cases d <;> rfl
  · cases x <;> rfl

end Rep.Dbl
