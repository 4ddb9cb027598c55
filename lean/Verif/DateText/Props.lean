import Verif.DateText.Model
import Mathlib.Tactic.Common
import Mathlib.Tactic.Ring
import Mathlib.Tactic.Positivity
/-!
# Dates in mail headers (C118)
-/
namespace Rep.DateText

/-! ### What the texts mean -/
namespace Spec

def IsDigits (ds : Str) : Prop := ds ≠ [] ∧ ∀ c ∈ ds, c ∈ "0123456789".toList

/-- The number which digits denote. -/
def num : Str → Int
  | [] => 0
  | c :: r => ((c.toNat : Int) - ('0'.toNat : Int)) * 10 ^ r.length + num r

def Blanks (sp : Str) : Prop := sp ≠ [] ∧ ∀ c ∈ sp, c = ' ' ∨ c = '\t'

def months : List Str := ["Jan", "Feb", "Mar", "Apr", "May", "Jun", "Jul", "Aug", "Sep", "Oct", "Nov", "Dec"].map String.toList

/-- The days of the week, from the one that came four days after the first of January 1970, a Thursday. -/
def days : List Str := ["Mon", "Tue", "Wed", "Thu", "Fri", "Sat", "Sun"].map String.toList

/-- Lower case letters, the rest of a name. -/
def Letters (w : Str) : Prop := ∀ c ∈ w, c.isLower = true

/-- The zones of RFC 822, in hours. -/
def zones : List (Str × Int) :=
  [("UT", 0), ("GMT", 0), ("EST", -5), ("EDT", -4), ("CST", -6), ("CDT", -5), ("MST", -7), ("MDT", -6), ("PST", -8), ("PDT", -7)].map
    fun p => (p.1.toList, p.2)

/-- The text of a zone, and how many minutes it lies to the east. -/
inductive ZoneIs : Str → Int → Prop
  | named {n : Str} {h : Int} : (n, h) ∈ zones → ZoneIs n (60 * h)
  | east {hh mm : Str} : IsDigits hh → IsDigits mm → hh.length = 2 → mm.length = 2 → ZoneIs ('+' :: (hh ++ mm)) (60 * num hh + num mm)
  | west {hh mm : Str} : IsDigits hh → IsDigits mm → hh.length = 2 → mm.length = 2 → ZoneIs ('-' :: (hh ++ mm)) (-(60 * num hh + num mm))

/-- The text of a time: hour, minute and second. -/
inductive TimeIs : Str → Int → Int → Int → Prop
  | hm {h m : Str} : IsDigits h → IsDigits m → TimeIs (h ++ ':' :: m) (num h) (num m) 0
  | hms {h m s : Str} : IsDigits h → IsDigits m → IsDigits s → TimeIs (h ++ ':' :: (m ++ ':' :: s)) (num h) (num m) (num s)

/-- What may precede the date: nothing, or a day of the week and a comma. -/
inductive WeekIs : Str → Option Str → Prop
  | none : WeekIs [] none
  | day {n w sp : Str} : n ∈ days → Letters w → Blanks sp → WeekIs (n ++ (w ++ ',' :: sp)) (some n)

/-- What may follow: nothing, or a comment. -/
inductive Tail : Str → Prop
  | none : Tail []
  | comment {sp r : Str} : Blanks sp → Tail (sp ++ '(' :: r)

/-- The text of a date: day, name and number of the month, year. -/
inductive DateIs (pre : Int) : Str → Int → Str → Int → Int → Prop
  /-- as in RFC 822 -/
  | mail {d sp mo w sp' y : Str} {k : Nat} : IsDigits d → d.length ≤ 2 → Blanks sp → months[k]? = some mo → Letters w → Blanks sp' →
      IsDigits y → 3 ≤ y.length → DateIs pre (d ++ (sp ++ (mo ++ (w ++ (sp' ++ y))))) (num d) mo (k + 1) (num y)
  /-- with a year of two digits -/
  | short {d sp mo w sp' y : Str} {k : Nat} : IsDigits d → d.length ≤ 2 → Blanks sp → months[k]? = some mo → Letters w → Blanks sp' →
      IsDigits y → y.length = 2 → DateIs pre (d ++ (sp ++ (mo ++ (w ++ (sp' ++ y))))) (num d) mo (k + 1) (100 * pre + num y)
  /-- YYYY-MM-DD -/
  | iso {y m d mo : Str} {k : Nat} : IsDigits y → y.length = 4 → IsDigits m → m.length = 2 → IsDigits d → d.length = 2 →
      months[k]? = some mo → num m = k + 1 → DateIs pre (y ++ '-' :: (m ++ '-' :: d)) (num d) mo (k + 1) (num y)

end Spec

open Spec

/-! ### Characters -/

theorem digit_of {c : Char} (h : c ∈ "0123456789".toList) : digit c = true := by
  have : ∀ c ∈ "0123456789".toList, digit c = true := by decide +kernel
  exact this c h

theorem low_of {c : Char} (h : c.isLower = true) : low c = true := by
  simp only [Char.isLower, UInt32.le_iff_toNat_le, Bool.and_eq_true, decide_eq_true_eq, ge_iff_le] at h
  simp only [low, Char.toNat, Bool.and_eq_true, decide_eq_true_eq]
  exact h

theorem blank_of {c : Char} (h : c = ' ' ∨ c = '\t') : blank c = true := by
  rcases h with rfl | rfl <;> decide

/-- At most one of the sets contains a character. -/
theorem digit_blank {c : Char} (h : digit c = true) : blank c = false := by
  simp only [digit, Bool.and_eq_true, decide_eq_true_eq] at h
  simp only [blank, Bool.or_eq_false_iff, beq_eq_false_iff_ne]
  constructor <;> (rintro rfl; revert h; decide)

theorem digit_low {c : Char} (h : digit c = true) : low c = false := by
  simp only [digit, Bool.and_eq_true, decide_eq_true_eq] at h
  simp only [low, Bool.and_eq_false_iff, decide_eq_false_iff_not]
  omega

theorem digit_up {c : Char} (h : digit c = true) : up c = false := by
  simp only [digit, Bool.and_eq_true, decide_eq_true_eq] at h
  simp only [up, Bool.and_eq_false_iff, decide_eq_false_iff_not]
  omega

theorem low_blank {c : Char} (h : low c = true) : blank c = false := by
  simp only [low, Bool.and_eq_true, decide_eq_true_eq] at h
  simp only [blank, Bool.or_eq_false_iff, beq_eq_false_iff_ne]
  constructor <;> (rintro rfl; revert h; decide)

theorem blank_digit {c : Char} (h : blank c = true) : digit c = false := by
  cases hd : digit c with
  | false => rfl
  | true => rw [digit_blank hd] at h; cases h

theorem blank_low {c : Char} (h : blank c = true) : low c = false := by
  cases hd : low c with
  | false => rfl
  | true => rw [low_blank hd] at h; cases h

theorem blank_up {c : Char} (h : blank c = true) : up c = false := by
  simp only [blank, Bool.or_eq_true, beq_iff_eq] at h
  rcases h with rfl | rfl <;> decide

/-- The text is empty or begins with a character which is not in the set. -/
def Stops (p : Char → Bool) (r : Str) : Prop := ∀ c t, r = c :: t → p c = false

theorem span {p : Char → Bool} {w : Str} (hw : ∀ c ∈ w, p c = true) {r : Str} (hr : Stops p r) :
    (w ++ r).takeWhile p = w ∧ (w ++ r).dropWhile p = r := by
  induction w with
  | nil =>
    cases r with
    | nil => simp
    | cons c t => simp [List.takeWhile, List.dropWhile, hr c t rfl]
  | cons a w ih =>
    obtain ⟨h1, h2⟩ := ih (fun c hc => hw c (List.mem_cons_of_mem _ hc))
    simp only [List.cons_append, List.takeWhile_cons, List.dropWhile_cons, hw a (List.mem_cons_self ..), if_true, h1, h2, and_self]

theorem stops_cons {p : Char → Bool} {c : Char} {t : Str} (h : p c = false) : Stops p (c :: t) := by
  intro a b e; injection e with e _; rw [← e]; exact h

theorem stops_nil {p : Char → Bool} : Stops p [] := by intro a b e; cases e

/-- The first character of a text which is not empty decides. -/
theorem stops_append {p : Char → Bool} {w r : Str} (hn : w ≠ []) (hw : ∀ c ∈ w, p c = false) : Stops p (w ++ r) := by
  cases w with
  | nil => exact absurd rfl hn
  | cons a w => exact stops_cons (hw a (List.mem_cons_self ..))

theorem two {w : Str} (h : w.length = 2) : ∃ a b, w = [a, b] := by
  match w, h with
  | [a, b], _ => exact ⟨a, b, rfl⟩

theorem num_nonneg {ds : Str} (h : ∀ c ∈ ds, digit c = true) : 0 ≤ num ds := by
  induction ds with
  | nil => exact Int.le_refl _
  | cons c r ih =>
    have h0 := ih (fun x hx => h x (List.mem_cons_of_mem _ hx))
    have hc := h c (List.mem_cons_self ..)
    simp only [digit, Bool.and_eq_true, decide_eq_true_eq] at hc
    have e : (('0'.toNat : Nat) : Int) = 48 := by decide
    rw [num, e]
    have : 0 ≤ ((c.toNat : Int) - 48) * 10 ^ r.length := Int.mul_nonneg (by omega) (by positivity)
    omega

theorem num_value (ds : Str) : value ds = num ds := by
  have key : ∀ (ds : Str) (a : Int), ds.foldl (fun a c => 10 * a + (c.toNat - 48 : Int)) a = a * 10 ^ ds.length + num ds := by
    intro ds
    induction ds with
    | nil => intro a; simp [num]
    | cons c r ih =>
      intro a
      rw [List.foldl_cons, ih, num, List.length_cons, pow_succ]
      have : (('0'.toNat : Nat) : Int) = 48 := by decide
      rw [this]
      ring
  have := key ds 0
  unfold value
  rw [this]; ring

/-! ### The parts -/

section
variable {sp ds : Str}

theorem digits_digit (h : IsDigits ds) : ∀ c ∈ ds, digit c = true := fun c hc => digit_of (h.2 c hc)

theorem blanks_blank (h : Blanks sp) : ∀ c ∈ sp, blank c = true := fun c hc => blank_of (h.2 c hc)

/-- Leading blanks, then a text that begins with something else. -/
theorem drop_blanks (hsp : ∀ c ∈ sp, blank c = true) {r : Str} (hr : Stops blank r) : (sp ++ r).dropWhile blank = r := (span hsp hr).2

/-- A number, followed by blanks or the end. -/
theorem step_num (pre : Int) (hsp : ∀ c ∈ sp, blank c = true) (hd : IsDigits ds) {r : Str} (hr : r = [] ∨ ∃ c t, r = c :: t ∧ blank c = true) (st : St) :
    step pre (sp ++ (ds ++ r)) st = (r, putNum pre ds st) := by
  have h1 : (sp ++ (ds ++ r)).dropWhile blank = ds ++ r :=
    drop_blanks hsp (stops_append hd.1 fun c hc => digit_blank (digits_digit hd c hc))
  have hst : Stops digit r := by
    rcases hr with rfl | ⟨c, t, rfl, hc⟩
    · exact stops_nil
    · exact stops_cons (blank_digit hc)
  obtain ⟨h2, h3⟩ := span (digits_digit hd) hst
  have hm : matchNum (sp ++ (ds ++ r)) = some (ds, r) := by
    unfold matchNum
    simp only [h1, h2, h3, if_neg hd.1]
    rcases hr with rfl | ⟨c, t, rfl, hc⟩
    · rfl
    · simp only [hc, if_true]
  simp only [step, hm]

/-- No number and no time begins with this. -/
theorem no_digits (hsp : ∀ c ∈ sp, blank c = true) {r : Str} (hb : Stops blank r) (hr : Stops digit r) :
    matchNum (sp ++ r) = none ∧ matchTime (sp ++ r) = none := by
  have h1 := drop_blanks hsp hb
  have h2 : r.takeWhile digit = [] := by
    have := (span (p := digit) (w := []) (fun c hc => (by cases hc)) hr).1
    simpa using this
  constructor
  · unfold matchNum; simp [h1, h2]
  · unfold matchTime; simp [h1, h2]

theorem take_name {n r : Str} (h : n.length = 3) : (n ++ r).take 3 = n ∧ (n ++ r).drop 3 = r := by
  constructor
  · rw [← h, List.take_left']; rfl
  · rw [← h, List.drop_left']; rfl

theorem day_facts : ∀ n ∈ days, n.length = 3 ∧ dayNames.any (fun m => m.map fold == n.map fold) = true ∧
    (∀ c ∈ n, blank c = false ∧ digit c = false) := by decide +kernel

theorem month_facts : ∀ n ∈ months, n.length = 3 ∧ dayNames.any (fun m => m.map fold == n.map fold) = false ∧
    (monthAlist.map Prod.fst).any (fun m => m.map fold == n.map fold) = true ∧ (∀ c ∈ n, blank c = false ∧ digit c = false) := by decide +kernel

theorem month_numbers : ∀ k : Fin 12, ∀ n, months[k.1]? = some n → monthAlist.lookup n = some ((k.1 : Int) + 1) := by
  intro k
  have : ∀ k : Fin 12, monthAlist.lookup ((months[k.1]?).getD []) = some ((k.1 : Int) + 1) := by decide +kernel
  intro n hn
  have h := this k
  rw [hn] at h
  exact h

/-- A day of the week with a comma. -/
theorem step_day (pre : Int) {n w : Str} (hn : n ∈ days) (hw : Letters w) (hsp : Blanks sp) {r : Str} (hr : Stops blank r) (st : St) :
    step pre (n ++ (w ++ ',' :: (sp ++ r))) st = (r, { st with dayAbbrev := n }) := by
  obtain ⟨h3, hany, hc⟩ := day_facts n hn
  have hne : n ≠ [] := by rintro rfl; cases h3
  have hb : Stops blank (n ++ (w ++ ',' :: (sp ++ r))) := stops_append hne fun c h => (hc c h).1
  have hd : Stops digit (n ++ (w ++ ',' :: (sp ++ r))) := stops_append hne fun c h => (hc c h).2
  obtain ⟨m1, m2⟩ := no_digits (sp := []) (fun c hc => (by cases hc)) hb hd
  simp only [List.nil_append] at m1 m2
  have e0 : (n ++ (w ++ ',' :: (sp ++ r))).dropWhile blank = n ++ (w ++ ',' :: (sp ++ r)) := by
    have := drop_blanks (sp := []) (fun c hc => (by cases hc)) hb
    simpa using this
  obtain ⟨t1, t2⟩ := take_name (r := w ++ ',' :: (sp ++ r)) h3
  have e1 : (w ++ ',' :: (sp ++ r)).dropWhile low = ',' :: (sp ++ r) := (span (fun c h => low_of (hw c h)) (stops_cons (by decide))).2
  have e2 : (',' :: (sp ++ r)).dropWhile blank = ',' :: (sp ++ r) := by simp [List.dropWhile, show blank ',' = false by decide]
  have m3 : matchDay (n ++ (w ++ ',' :: (sp ++ r))) = some (n, r) := by
    unfold matchDay matchName
    rw [e0, t1, hany, if_pos rfl, t2]
    simp only [e1, e2, drop_blanks (blanks_blank hsp) hr]
  simp only [step, m1, m2, m3]

/-- A month. -/
theorem step_month (pre : Int) {mo w sp' : Str} (hsp : ∀ c ∈ sp, blank c = true) (hm : mo ∈ months) (hw : Letters w) (hsp' : Blanks sp') {r : Str}
    (hr : Stops blank r) (st : St) :
    step pre (sp ++ (mo ++ (w ++ (sp' ++ r)))) st = (r, { st with monthAbbrev := mo, month := monthAlist.lookup mo }) := by
  obtain ⟨h3, hno, hany, hc⟩ := month_facts mo hm
  have hne : mo ≠ [] := by rintro rfl; cases h3
  have hb : Stops blank (mo ++ (w ++ (sp' ++ r))) := stops_append hne fun c h => (hc c h).1
  have hd : Stops digit (mo ++ (w ++ (sp' ++ r))) := stops_append hne fun c h => (hc c h).2
  obtain ⟨m1, m2⟩ := no_digits hsp hb hd
  have e0 := drop_blanks hsp hb
  obtain ⟨t1, t2⟩ := take_name (r := w ++ (sp' ++ r)) h3
  have hst : Stops low (sp' ++ r) := stops_append hsp'.1 fun c h => blank_low (blanks_blank hsp' c h)
  have e1 : (w ++ (sp' ++ r)).dropWhile low = sp' ++ r := (span (fun c h => low_of (hw c h)) hst).2
  have m3 : matchDay (sp ++ (mo ++ (w ++ (sp' ++ r)))) = none := by
    unfold matchDay matchName
    rw [e0, t1, hno]
    simp
  have m4 : matchMonth (sp ++ (mo ++ (w ++ (sp' ++ r)))) = some (mo, r) := by
    unfold matchMonth matchName
    rw [e0, t1, hany, if_pos rfl, t2]
    simp only [e1, drop_blanks (blanks_blank hsp') hr]
  simp only [step, m1, m2, m3, m4]

/-- The texts of zones are read as such, and have their values. -/
theorem zone_read {z : Str} {k : Int} (hz : ZoneIs z k) {r : Str} (hr : Stops up r) (hr' : Stops digit r) :
    zoneText (z ++ r) = (some z, r) ∧ zoneValue z = k ∧ Stops blank (z ++ r) := by
  cases hz with
  | @named n h hn =>
    have hall : ∀ p ∈ zones, (p.1 ≠ [] ∧ ∀ c ∈ p.1, up c = true ∧ blank c = false) ∧ zoneAlist.lookup p.1 = some (60 * p.2) := by decide +kernel
    obtain ⟨⟨h1, h2⟩, h3⟩ := hall _ hn
    simp only at h1 h2 h3
    obtain ⟨s1, s2⟩ := span (p := up) (fun c hc => (h2 c hc).1) hr
    refine ⟨?_, ?_, stops_append h1 fun c hc => (h2 c hc).2⟩
    · unfold zoneText; rw [s1, s2, if_pos h1]
    · unfold zoneValue; rw [h3]
  | @east hh mm hd hd' h1 h2 =>
    have hall : IsDigits (hh ++ mm) := ⟨by simp [hd.1], fun c hc => (List.mem_append.mp hc).elim (hd.2 c) (hd'.2 c)⟩
    obtain ⟨s1, s2⟩ := span (digits_digit hall) hr'
    refine ⟨?_, ?_, stops_cons (by decide)⟩
    · unfold zoneText
      have : (('+' :: (hh ++ mm)) ++ r).takeWhile up = [] := by simp [show up '+' = false by decide]
      rw [if_neg (by rw [this]; simp)]
      simp only [List.cons_append, s1, s2]
      simp [hd.1]
    · obtain ⟨a, b, rfl⟩ := two h1
      obtain ⟨x, y, rfl⟩ := two h2
      have hl : zoneAlist.lookup ('+' :: ([a, b] ++ [x, y])) = none := by
        simp [zoneAlist, List.lookup]
      have g := digits_digit hall
      unfold zoneValue
      rw [hl]
      simp [g a (by simp), g b (by simp), g x (by simp), g y (by simp), num_value]
  | @west hh mm hd hd' h1 h2 =>
    have hall : IsDigits (hh ++ mm) := ⟨by simp [hd.1], fun c hc => (List.mem_append.mp hc).elim (hd.2 c) (hd'.2 c)⟩
    obtain ⟨s1, s2⟩ := span (digits_digit hall) hr'
    refine ⟨?_, ?_, stops_cons (by decide)⟩
    · unfold zoneText
      have : (('-' :: (hh ++ mm)) ++ r).takeWhile up = [] := by simp [show up '-' = false by decide]
      rw [if_neg (by rw [this]; simp)]
      simp only [List.cons_append, s1, s2]
      simp [hd.1]
    · obtain ⟨a, b, rfl⟩ := two h1
      obtain ⟨x, y, rfl⟩ := two h2
      have hl : zoneAlist.lookup ('-' :: ([a, b] ++ [x, y])) = none := by
        simp [zoneAlist, List.lookup]
      have g := digits_digit hall
      unfold zoneValue
      rw [hl]
      simp [g a (by simp), g b (by simp), g x (by simp), g y (by simp), num_value]

/-- A time with a zone. -/
theorem step_time (pre : Int) {t z sp' : Str} {h m s k : Int} (hsp : ∀ c ∈ sp, blank c = true) (ht : TimeIs t h m s) (hsp' : Blanks sp') (hz : ZoneIs z k)
    {r sp3 : Str} (hsp3 : ∀ c ∈ sp3, blank c = true) (hb : Stops blank r) (hu : Stops up (sp3 ++ r)) (hdg : Stops digit (sp3 ++ r)) (st : St) :
    step pre (sp ++ (t ++ (sp' ++ (z ++ (sp3 ++ r))))) st = (r, { st with hour := h, minute := m, second := s, zone := k }) := by
  obtain ⟨z1, z2, z3⟩ := zone_read hz hu hdg
  have hzb := drop_blanks (blanks_blank hsp') z3
  have hcol : Stops digit (sp' ++ (z ++ (sp3 ++ r))) := stops_append hsp'.1 fun c hc => blank_digit (blanks_blank hsp' c hc)
  have hnocol : secondText (sp' ++ (z ++ (sp3 ++ r))) = (none, sp' ++ (z ++ (sp3 ++ r))) := by
    have hne := hsp'.1
    have hbl := blanks_blank hsp'
    cases sp' with
    | nil => exact absurd rfl hne
    | cons a q =>
      have : a ≠ ':' := by
        rintro rfl
        have := hbl ':' (List.mem_cons_self ..)
        revert this; decide
      unfold secondText
      simp only [List.cons_append]
      split
      · rename_i e; injection e with e _; exact absurd e this
      · rfl
  cases ht with
  | @hm hs ms hd hd' =>
    have e0 : (sp ++ (hs ++ ':' :: ms ++ (sp' ++ (z ++ (sp3 ++ r))))).dropWhile blank = hs ++ (':' :: (ms ++ (sp' ++ (z ++ (sp3 ++ r))))) := by
      rw [List.append_assoc, List.cons_append]
      exact drop_blanks hsp (stops_append hd.1 fun c hc => digit_blank (digits_digit hd c hc))
    obtain ⟨a1, a2⟩ := span (p := digit) (digits_digit hd) (r := ':' :: (ms ++ (sp' ++ (z ++ (sp3 ++ r))))) (stops_cons (by decide))
    obtain ⟨b1, b2⟩ := span (p := digit) (digits_digit hd') hcol
    have m1 : matchNum (sp ++ (hs ++ ':' :: ms ++ (sp' ++ (z ++ (sp3 ++ r))))) = none := by
      unfold matchNum
      simp only [e0, a1, a2, if_neg hd.1]
      simp [show blank ':' = false by decide]
    have m2 : matchTime (sp ++ (hs ++ ':' :: ms ++ (sp' ++ (z ++ (sp3 ++ r))))) = some (hs, ms, none, some z, r) := by
      unfold matchTime
      simp only [e0, a1, a2, if_neg hd.1, b1, b2, if_neg hd'.1, hnocol, hzb, z1, drop_blanks hsp3 hb]
    simp only [step, m1, m2, putTime, Option.getD_some, z2, num_value]
  | @hms hs ms ss hd hd' hd'' =>
    have e0 : (sp ++ (hs ++ ':' :: (ms ++ ':' :: ss) ++ (sp' ++ (z ++ (sp3 ++ r))))).dropWhile blank =
        hs ++ (':' :: (ms ++ (':' :: (ss ++ (sp' ++ (z ++ (sp3 ++ r))))))) := by
      rw [List.append_assoc, List.cons_append, List.append_assoc, List.cons_append]
      exact drop_blanks hsp (stops_append hd.1 fun c hc => digit_blank (digits_digit hd c hc))
    obtain ⟨a1, a2⟩ := span (p := digit) (digits_digit hd) (r := ':' :: (ms ++ (':' :: (ss ++ (sp' ++ (z ++ (sp3 ++ r))))))) (stops_cons (by decide))
    obtain ⟨b1, b2⟩ := span (p := digit) (digits_digit hd') (r := ':' :: (ss ++ (sp' ++ (z ++ (sp3 ++ r))))) (stops_cons (by decide))
    obtain ⟨c1, c2⟩ := span (p := digit) (digits_digit hd'') hcol
    have m1 : matchNum (sp ++ (hs ++ ':' :: (ms ++ ':' :: ss) ++ (sp' ++ (z ++ (sp3 ++ r))))) = none := by
      unfold matchNum
      simp only [e0, a1, a2, if_neg hd.1]
      simp [show blank ':' = false by decide]
    have hsec : secondText (':' :: (ss ++ (sp' ++ (z ++ (sp3 ++ r))))) = (some ss, sp' ++ (z ++ (sp3 ++ r))) := by
      unfold secondText
      simp only [c1, c2]
      rw [if_pos hd''.1]
    have m2 : matchTime (sp ++ (hs ++ ':' :: (ms ++ ':' :: ss) ++ (sp' ++ (z ++ (sp3 ++ r))))) = some (hs, ms, some ss, some z, r) := by
      unfold matchTime
      simp only [e0, a1, a2, if_neg hd.1, b1, b2, if_neg hd'.1, hsec, hzb, z1, drop_blanks hsp3 hb]
    simp only [step, m1, m2, putTime, Option.getD_some, z2, num_value]

end

/-! ### Whole texts -/

theorem loop_step {pre : Int} {f : Nat} {s s' : Str} {st st' : St} (hn : s ≠ []) (h : step pre s st = (s', st')) :
    loop pre (f + 1) s st = loop pre f s' st' := by
  simp only [loop, if_neg hn, h]

theorem loop_nil {pre : Int} {f : Nat} {st : St} : loop pre f [] st = st := by
  cases f <;> simp [loop]

/-- No name begins with such a character. -/
theorem no_name {c : Char} (hc : up (fold c) = false) (r : Str) : matchName dayNames (c :: r) = none ∧ matchName (monthAlist.map Prod.fst) (c :: r) = none := by
  have nn : ∀ names : List Str, (∀ n ∈ names, ∃ a t, n.map fold = a :: t ∧ up a = true) → matchName names (c :: r) = none := by
    intro names h1
    unfold matchName
    rw [if_neg]
    rw [List.any_eq_true]
    rintro ⟨n, hn, he⟩
    rw [beq_iff_eq] at he
    obtain ⟨a, t, e, ha⟩ := h1 n hn
    rw [e, List.take_succ_cons, List.map_cons] at he
    injection he with he _
    rw [he, hc] at ha
    cases ha
  have conv : ∀ names : List Str, (∀ n ∈ names, ((n.map fold).head?.map up) = some true) → ∀ n ∈ names, ∃ a t, n.map fold = a :: t ∧ up a = true := by
    intro names h n hn
    have := h n hn
    cases e : n.map fold with
    | nil => rw [e] at this; cases this
    | cons a t => rw [e] at this; exact ⟨a, t, rfl, by simpa using this⟩
  exact ⟨nn _ (conv _ (by decide +kernel)), nn _ (conv _ (by decide +kernel))⟩

theorem drop_head {c : Char} (h : blank c = false) (r : Str) : (c :: r).dropWhile blank = c :: r := by simp [List.dropWhile, h]

/-- A comment ends the reading. -/
theorem step_comment (pre : Int) (r : Str) (st : St) : step pre ('(' :: r) st = ([], st) := by
  have hb : Stops blank ('(' :: r) := stops_cons (by decide)
  obtain ⟨m1, m2⟩ := no_digits (sp := []) (fun c hc => (by cases hc)) hb (stops_cons (by decide))
  simp only [List.nil_append] at m1 m2
  have e0 : ('(' :: r).dropWhile blank = '(' :: r := drop_head (by decide) r
  obtain ⟨n1, n2⟩ := no_name (c := '(') (by decide) r
  have d : matchDay ('(' :: r) = none := by
    unfold matchDay
    rw [e0, n1]
  have m : matchMonth ('(' :: r) = none := by
    unfold matchMonth
    rw [e0, n2]
  have i : matchIso ('(' :: r) = none := by
    unfold matchIso
    rw [e0]
    split
    · rename_i e
      injection e with e _
      rw [if_neg]
      rw [← e]
      simp [show digit '(' = false by decide]
    · rfl
  simp only [step, m1, m2, d, m, i]

theorem digit_fold {c : Char} (h : digit c = true) : up (fold c) = false := by
  unfold fold
  rw [digit_low h]
  exact digit_up h

/-- A date YYYY-MM-DD. -/
theorem step_iso (pre : Int) {y m d sp r : Str} (hy : IsDigits y) (hy4 : y.length = 4) (hm : IsDigits m) (hm2 : m.length = 2) (hd : IsDigits d) (hd2 : d.length = 2)
    (hsp : Blanks sp) (hr : Stops blank r) (st : St) :
    step pre (y ++ ('-' :: (m ++ ('-' :: (d ++ (sp ++ r)))))) st = (r, putIso y m d st) := by
  obtain ⟨m1, m2, rfl⟩ := two hm2
  obtain ⟨d1, d2, rfl⟩ := two hd2
  have hy' : ∃ a b c e, y = [a, b, c, e] := by
    match y, hy4 with
    | [a, b, c, e], _ => exact ⟨a, b, c, e, rfl⟩
  obtain ⟨a, b, c, e, rfl⟩ := hy'
  have gy := digits_digit hy
  have gm := digits_digit hm
  have gd := digits_digit hd
  have hb : blank a = false := digit_blank (gy a (by simp))
  obtain ⟨s1, s2⟩ := span gy (r := '-' :: ([m1, m2] ++ ('-' :: ([d1, d2] ++ (sp ++ r))))) (stops_cons (by decide))
  have e0 : ([a, b, c, e] ++ ('-' :: ([m1, m2] ++ ('-' :: ([d1, d2] ++ (sp ++ r)))))).dropWhile blank =
      [a, b, c, e] ++ ('-' :: ([m1, m2] ++ ('-' :: ([d1, d2] ++ (sp ++ r))))) := drop_head hb _
  have x1 : matchNum ([a, b, c, e] ++ ('-' :: ([m1, m2] ++ ('-' :: ([d1, d2] ++ (sp ++ r)))))) = none := by
    unfold matchNum
    simp only [e0, s1, s2, if_neg hy.1]
    simp [show blank '-' = false by decide]
  have x2 : matchTime ([a, b, c, e] ++ ('-' :: ([m1, m2] ++ ('-' :: ([d1, d2] ++ (sp ++ r)))))) = none := by
    unfold matchTime
    simp only [e0, s1, s2, if_neg hy.1]
    rfl
  obtain ⟨n1, n2⟩ := no_name (c := a) (digit_fold (gy a (by simp))) (b :: c :: e :: '-' :: m1 :: m2 :: '-' :: d1 :: d2 :: (sp ++ r))
  have x3 : matchDay ([a, b, c, e] ++ ('-' :: ([m1, m2] ++ ('-' :: ([d1, d2] ++ (sp ++ r)))))) = none := by
    unfold matchDay
    rw [e0]
    simp only [List.cons_append, List.nil_append, n1]
  have x4 : matchMonth ([a, b, c, e] ++ ('-' :: ([m1, m2] ++ ('-' :: ([d1, d2] ++ (sp ++ r)))))) = none := by
    unfold matchMonth
    rw [e0]
    simp only [List.cons_append, List.nil_append, n2]
  have x5 : matchIso ([a, b, c, e] ++ ('-' :: ([m1, m2] ++ ('-' :: ([d1, d2] ++ (sp ++ r)))))) = some ([a, b, c, e], [m1, m2], [d1, d2], r) := by
    unfold matchIso
    rw [e0]
    simp only [List.cons_append, List.nil_append]
    rw [if_pos, drop_blanks (blanks_blank hsp) hr]
    simp [gy a (by simp), gy b (by simp), gy c (by simp), gy e (by simp), gm m1 (by simp), gm m2 (by simp), gd d1 (by simp), gd d2 (by simp)]
  simp only [step, x1, x2, x3, x4, x5]

theorem mem_months {k : Nat} {mo : Str} (h : months[k]? = some mo) : mo ∈ months ∧ k < 12 := by
  refine ⟨List.mem_of_getElem? h, ?_⟩
  have : k < months.length := by
    rcases Nat.lt_or_ge k months.length with h' | h'
    · exact h'
    · rw [List.getElem?_eq_none h'] at h; cases h
  have e : months.length = 12 := by decide +kernel
  omega

theorem month_find : ∀ k : Fin 12, (monthAlist.find? (fun p => p.2 == (k.1 : Int) + 1)).map Prod.fst = months[k.1]? := by decide +kernel

theorem time_ne {t : Str} {h m s : Int} (ht : TimeIs t h m s) : t ≠ [] ∧ ∀ r, Stops blank (t ++ r) := by
  cases ht with
  | hm hd _ =>
    refine ⟨by simp, fun r => ?_⟩
    rw [List.append_assoc]
    exact stops_append hd.1 fun c hc => digit_blank (digits_digit hd c hc)
  | hms hd _ _ =>
    refine ⟨by simp, fun r => ?_⟩
    rw [List.append_assoc]
    exact stops_append hd.1 fun c hc => digit_blank (digits_digit hd c hc)

theorem zone_ne {z : Str} {k : Int} (hz : ZoneIs z k) : z ≠ [] := by
  cases hz with
  | named h =>
    have : ∀ p ∈ zones, p.1 ≠ [] := by decide +kernel
    exact this _ h
  | east => simp
  | west => simp

/-- The time, the zone and a comment. -/
theorem loop_time {pre : Int} {t z tail sp sp3 : Str} {h m s k : Int} (hsp : ∀ c ∈ sp, blank c = true) (hT : TimeIs t h m s)
    (h3 : Blanks sp3) (hZ : ZoneIs z k) (hTl : Tail tail) (st : St) (f : Nat) :
    loop pre (f + 2) (sp ++ (t ++ (sp3 ++ (z ++ tail)))) st = { st with hour := h, minute := m, second := s, zone := k } := by
  have hne : ∀ x, sp ++ (t ++ x) ≠ [] := by
    intro x e
    have := (time_ne hT).1
    rw [List.append_eq_nil_iff, List.append_eq_nil_iff] at e
    exact this e.2.1
  cases hTl with
  | none =>
    have := step_time pre (sp := sp) hsp hT h3 hZ (r := []) (sp3 := []) (fun c hc => (by cases hc)) stops_nil stops_nil stops_nil st
    simp only [List.append_nil] at this ⊢
    rw [loop_step (by simpa using hne (sp3 ++ z)) this, loop_nil]
  | @comment sp4 r h4 =>
    have := step_time pre (sp := sp) hsp hT h3 hZ (r := '(' :: r) (sp3 := sp4) (blanks_blank h4) (stops_cons (by decide))
      (stops_append h4.1 fun c hc => blank_up (blanks_blank h4 c hc)) (stops_append h4.1 fun c hc => blank_digit (blanks_blank h4 c hc)) st
    rw [loop_step (hne _) this, loop_step (by simp) (step_comment pre r _), loop_nil]

/-- The whole text, after the day of the week. -/
theorem loop_date {pre : Int} {d mo t z tail sp2 sp3 : Str} {dn mn yn h m s k : Int} (hD : DateIs pre d dn mo mn yn) (h2 : Blanks sp2) (hT : TimeIs t h m s)
    (h3 : Blanks sp3) (hZ : ZoneIs z k) (hTl : Tail tail) (ab : Str) (f : Nat) :
    loop pre (f + 5) (d ++ (sp2 ++ (t ++ (sp3 ++ (z ++ tail))))) { dayAbbrev := ab } =
      ⟨ab, dn, mo, some mn, yn, h, m, s, k⟩ ∧ 0 ≤ dn ∧ (0 ≤ pre → 0 ≤ yn) ∧ 0 < mn := by
  have common : ∀ {d sp mo w sp' y : Str} {j : Nat}, IsDigits d → d.length ≤ 2 → Blanks sp → months[j]? = some mo → Letters w → Blanks sp' →
      IsDigits y → 2 ≤ y.length → loop pre (f + 5) (d ++ (sp ++ (mo ++ (w ++ (sp' ++ y)))) ++ (sp2 ++ (t ++ (sp3 ++ (z ++ tail))))) { dayAbbrev := ab } =
        ⟨ab, num d, mo, some ((j : Int) + 1), if y.length = 2 then 100 * pre + num y else num y, h, m, s, k⟩ := by
    intro d sp mo w sp' y j hd hd2 hsp hmo hw hsp' hy hy2
    have g1 : ∀ {sp : Str}, Blanks sp → ∀ r, sp ++ r = [] ∨ ∃ c t, sp ++ r = c :: t ∧ blank c = true := by
      intro sp hsp r
      have hb := blanks_blank hsp
      cases sp with
      | nil => exact absurd rfl hsp.1
      | cons a q => exact Or.inr ⟨a, q ++ r, rfl, hb a (List.mem_cons_self ..)⟩
    simp only [List.append_assoc]
    have s1 := step_num pre (sp := []) (fun c hc => (by cases hc)) hd (g1 hsp (mo ++ (w ++ (sp' ++ (y ++ (sp2 ++ (t ++ (sp3 ++ (z ++ tail)))))))))
      { dayAbbrev := ab }
    simp only [List.nil_append] at s1
    rw [loop_step (by simp [hd.1]) s1]
    have s2 := step_month pre (blanks_blank hsp) (mem_months hmo).1 hw hsp' (r := y ++ (sp2 ++ (t ++ (sp3 ++ (z ++ tail)))))
      (stops_append hy.1 fun c hc => digit_blank (digits_digit hy c hc)) (putNum pre d { dayAbbrev := ab })
    rw [loop_step (by simp [hsp.1]) s2, month_numbers ⟨j, (mem_months hmo).2⟩ mo hmo]
    have s3 := step_num pre (sp := []) (fun c hc => (by cases hc)) hy (g1 h2 (t ++ (sp3 ++ (z ++ tail))))
      { putNum pre d { dayAbbrev := ab } with monthAbbrev := mo, month := some ((j : Int) + 1) }
    simp only [List.nil_append] at s3
    rw [loop_step (by simp [hy.1]) s3, loop_time (blanks_blank h2) hT h3 hZ hTl]
    have hn := num_nonneg (digits_digit hd)
    have e1 : putNum pre d { dayAbbrev := ab } = { dayAbbrev := ab, day := num d } := by
      unfold putNum
      rw [if_neg, num_value]
      rintro (h | h)
      · exact absurd h (by simp)
      · omega
    rw [e1]
    unfold putNum
    rw [if_pos (Or.inl hn)]
    by_cases hl : y.length = 2
    · simp only [hl, if_true, num_value]
    · simp only [hl, if_false, num_value]
  cases hD with
  | @mail d sp mo w sp' y j hd hd2 hsp hmo hw hsp' hy hy3 =>
    refine ⟨?_, num_nonneg (digits_digit hd), fun _ => num_nonneg (digits_digit hy), by omega⟩
    rw [common hd hd2 hsp hmo hw hsp' hy (by omega), if_neg (by omega)]
  | @short d sp mo w sp' y j hd hd2 hsp hmo hw hsp' hy hy2 =>
    have := num_nonneg (digits_digit hy)
    refine ⟨?_, num_nonneg (digits_digit hd), fun _ => (by omega), by omega⟩
    rw [common hd hd2 hsp hmo hw hsp' hy (by omega), if_pos hy2]
  | @iso y mm d mo j hy hy4 hm hm2 hd hd2 hmo hk =>
    refine ⟨?_, num_nonneg (digits_digit hd), fun _ => num_nonneg (digits_digit hy), by omega⟩
    have s1 := step_iso pre hy hy4 hm hm2 hd hd2 h2 (r := t ++ (sp3 ++ (z ++ tail))) ((time_ne hT).2 _) { dayAbbrev := ab }
    simp only [List.append_assoc, List.cons_append]
    rw [loop_step (by simp [hy.1]) s1]
    have := loop_time (pre := pre) (sp := []) (fun c hc => (by cases hc)) hT h3 hZ hTl (putIso y mm d { dayAbbrev := ab }) (f + 2)
    simp only [List.nil_append] at this
    rw [this]
    have hf := month_find ⟨j, (mem_months hmo).2⟩
    simp only [putIso, num_value, hk, hf, hmo, Option.getD_some]

theorem weekday_days (n : Int) : days[((n - 4) % 7).toNat]? = some (weekday (Rep.Date.dayOfWeek n)) := by
  have fin : ∀ k : Fin 7, days[((k.1 : Int) - 4) % 7 |>.toNat]? = some (weekday (((k.1 : Int) + 4) % 7)) := by decide +kernel
  have e : Rep.Date.dayOfWeek n = (n % 7 + 4) % 7 := by
    simp only [Rep.Date.dayOfWeek]
    rcases Int.lt_or_le (n + 4) 0 with h | h
    · have := Int.tmod_eq_emod (a := n + 4) (b := 7)
      rw [this]
      split <;> split <;> omega
    · rw [Int.tmod_eq_emod_of_nonneg h]
      split <;> omega
  have h0 : 0 ≤ n % 7 := Int.emod_nonneg _ (by decide)
  have h7 : n % 7 < 7 := Int.emod_lt_of_pos _ (by decide)
  have := fin ⟨(n % 7).toNat, by omega⟩
  rw [Int.toNat_of_nonneg h0] at this
  rw [e, ← this]
  congr 2
  omega

/-- C118: the text of a date, a time and a zone, perhaps with a day of the week before and a comment behind, is read as these; the instant is the
right number of seconds after the beginning of 1970. Missing are instants before that, and names of months in other than the usual case. -/
theorem C118_mail_date_partial {pre : Int} {now : Now} {wk d mo t z tail sp2 sp3 : Str} {wd : Option Str} {dn mn yn h m s k : Int} (hpre : 0 ≤ pre)
    (hW : WeekIs wk wd) (hD : DateIs pre d dn mo mn yn) (h2 : Blanks sp2) (hT : TimeIs t h m s) (h3 : Blanks sp3) (hZ : ZoneIs z k) (hTl : Tail tail)
    (h0 : 0 ≤ Rep.Date.unixTime ⟨yn, mn, dn⟩ h m s k) (h62 : Rep.Date.unixTime ⟨yn, mn, dn⟩ h m s k < 2 ^ 62) :
    ∃ v, parseDate pre now (wk ++ (d ++ (sp2 ++ (t ++ (sp3 ++ (z ++ tail)))))) = some v ∧ v.day = dn ∧ v.monthAbbrev = mo ∧ v.month = mn ∧ v.year = yn ∧
      v.hour = h ∧ v.minute = m ∧ v.second = s ∧ v.zone = k ∧ 86400 * v.time.1 + v.time.2 = Rep.Date.unixTime ⟨yn, mn, dn⟩ h m s k ∧
      0 ≤ v.time.2 ∧ v.time.2 < 86400 ∧ (wd = none → days[((v.time.1 - 4) % 7).toNat]? = some v.dayAbbrev) ∧ (∀ n, wd = some n → v.dayAbbrev = n) := by
  have hlen : 5 ≤ (d ++ (sp2 ++ (t ++ (sp3 ++ (z ++ tail))))).length := by
    have a1 : 1 ≤ d.length := by cases hD <;> (simp only [List.length_append, List.length_cons]; omega)
    have a2 := List.length_pos_iff.mpr h2.1
    have a3 := List.length_pos_iff.mpr (time_ne hT).1
    have a4 := List.length_pos_iff.mpr h3.1
    have a5 := List.length_pos_iff.mpr (zone_ne hZ)
    simp only [List.length_append]
    omega
  have hstop : Stops blank (d ++ (sp2 ++ (t ++ (sp3 ++ (z ++ tail))))) := by
    cases hD with
    | mail hd _ _ _ _ _ _ _ =>
      rw [List.append_assoc]
      exact stops_append hd.1 fun c hc => digit_blank (digits_digit hd c hc)
    | short hd _ _ _ _ _ _ _ =>
      rw [List.append_assoc]
      exact stops_append hd.1 fun c hc => digit_blank (digits_digit hd c hc)
    | iso hd _ _ _ _ _ _ _ =>
      rw [List.append_assoc]
      exact stops_append hd.1 fun c hc => digit_blank (digits_digit hd c hc)
  have fin : ∀ ab : Str, (wd = none → ab = []) → (∀ n, wd = some n → ab = n ∧ n ≠ []) →
      loop pre (wk ++ (d ++ (sp2 ++ (t ++ (sp3 ++ (z ++ tail)))))).length (wk ++ (d ++ (sp2 ++ (t ++ (sp3 ++ (z ++ tail)))))) {} =
        ⟨ab, dn, mo, some mn, yn, h, m, s, k⟩ → 0 ≤ dn ∧ (0 ≤ pre → 0 ≤ yn) ∧ 0 < mn →
      ∃ v, parseDate pre now (wk ++ (d ++ (sp2 ++ (t ++ (sp3 ++ (z ++ tail)))))) = some v ∧ v.day = dn ∧ v.monthAbbrev = mo ∧ v.month = mn ∧ v.year = yn ∧
      v.hour = h ∧ v.minute = m ∧ v.second = s ∧ v.zone = k ∧ 86400 * v.time.1 + v.time.2 = Rep.Date.unixTime ⟨yn, mn, dn⟩ h m s k ∧
      0 ≤ v.time.2 ∧ v.time.2 < 86400 ∧ (wd = none → days[((v.time.1 - 4) % 7).toNat]? = some v.dayAbbrev) ∧ (∀ n, wd = some n → v.dayAbbrev = n) := by
    intro ab hab1 hab2 hl hpos
    obtain ⟨p1, p2, p3⟩ := hpos
    obtain ⟨e1, e2, e3⟩ := Rep.Date.C21_epoch_time_partial ⟨yn, mn, dn⟩ h m s k h0 h62
    simp only at e1 e2 e3
    unfold parseDate finish
    rw [hl]
    simp only [if_neg (Int.not_lt.mpr p1), if_neg (Int.not_lt.mpr (p2 hpre)), if_neg (Int.not_lt.mpr (Int.le_of_lt p3))]
    refine ⟨_, rfl, rfl, rfl, rfl, rfl, rfl, rfl, rfl, rfl, e1, e2, e3, ?_, ?_⟩
    · intro hn
      simp only [hab1 hn, if_true]
      exact weekday_days _
    · intro n hn
      obtain ⟨rfl, hn⟩ := hab2 n hn
      simp [hn]
  cases hW with
  | none =>
    obtain ⟨f, hf⟩ : ∃ f, (d ++ (sp2 ++ (t ++ (sp3 ++ (z ++ tail))))).length = f + 5 := ⟨_, (Nat.sub_add_cancel hlen).symm⟩
    obtain ⟨hl, hp⟩ := loop_date hD h2 hT h3 hZ hTl [] f
    refine fin [] (fun _ => rfl) (fun n hn => by cases hn) ?_ hp
    simp only [List.nil_append]
    rw [hf]
    exact hl
  | @day n w sp hn hw hsp =>
    obtain ⟨f, hf⟩ : ∃ f, (n ++ (w ++ ',' :: sp) ++ (d ++ (sp2 ++ (t ++ (sp3 ++ (z ++ tail)))))).length = (f + 5) + 1 := by
      refine ⟨(n ++ (w ++ ',' :: sp) ++ (d ++ (sp2 ++ (t ++ (sp3 ++ (z ++ tail)))))).length - 6, ?_⟩
      have : 6 ≤ (n ++ (w ++ ',' :: sp) ++ (d ++ (sp2 ++ (t ++ (sp3 ++ (z ++ tail)))))).length := by
        rw [List.length_append]
        have : 1 ≤ (n ++ (w ++ ',' :: sp)).length := by simp only [List.length_append, List.length_cons]; omega
        omega
      omega
    obtain ⟨hl, hp⟩ := loop_date hD h2 hT h3 hZ hTl n f
    have hne : n ≠ [] := by
      rintro rfl
      have := (day_facts [] hn).1
      cases this
    refine fin n (fun e => by cases e) (fun n' hn' => ?_) ?_ hp
    · injection hn' with e
      exact ⟨e, e ▸ hne⟩
    · rw [hf]
      have st := step_day pre hn hw hsp hstop {}
      simp only [List.append_assoc, List.cons_append]
      rw [loop_step (by simp [hne]) st]
      exact hl

/-- C118 is wrong of names of months in lower case: they are recognized, but not found in the table, and an error is signalled. -/
theorem C118_case_violated (now : Now) :
    matchMonth " jan 2001".toList = some ("jan".toList, "2001".toList) ∧ parseDate 20 now "5 jan 2001 10:00 GMT".toList = none ∧
    (parseDate 20 now "5 Jan 2001 10:00 GMT".toList).map Vec.month = some 1 := by
  have h : ∀ s : Str, (loop 20 s.length s {}).month = none → parseDate 20 now s = none := by
    intro s e
    unfold parseDate finish
    rw [e]
  have h1 : (loop 20 "5 jan 2001 10:00 GMT".toList.length "5 jan 2001 10:00 GMT".toList {}).month = none := by decide +kernel
  have h2 : loop 20 "5 Jan 2001 10:00 GMT".toList.length "5 Jan 2001 10:00 GMT".toList {} =
      ⟨[], 5, "Jan".toList, some 1, 2001, 10, 0, 0, 0⟩ := by decide +kernel
  refine ⟨by decide +kernel, h _ h1, ?_⟩
  unfold parseDate finish
  rw [h2]
  rfl

/-- C118 is wrong if the name of the month follows the time: its first letter is taken for a zone, and the rest is not read. -/
theorem C118_order_violated (now : Now) :
    parseDate 20 now "10:00 Jan 5 2001".toList = parseDate 20 now "10:00".toList := by
  have h1 : loop 20 "10:00 Jan 5 2001".toList.length "10:00 Jan 5 2001".toList {} = loop 20 "10:00".toList.length "10:00".toList {} := by decide +kernel
  unfold parseDate
  rw [h1]

/-! ### Examples -/

example : (parseDate 20 ⟨1, 1, 2026⟩ "Mon, 05 Feb 2001 10:02:03 +0130 (x)".toList).map (fun v => (v.day, v.month, v.year, v.zone, v.time)) =
    some (5, 2, 2001, 90, (11358, 30723)) := by decide +kernel

example : WeekIs "Mon, ".toList (some "Mon".toList) := WeekIs.day (n := "Mon".toList) (w := []) (sp := [' ']) (by decide +kernel) (fun c hc => (by cases hc)) ⟨by simp, by simp⟩
example : DateIs 20 "05 Feb 2001".toList 5 "Feb".toList 2 2001 :=
  DateIs.mail (d := "05".toList) (sp := [' ']) (mo := "Feb".toList) (w := []) (sp' := [' ']) (y := "2001".toList) (k := 1) ⟨by decide +kernel, by decide +kernel⟩
    (by decide +kernel) ⟨by simp, by simp⟩ (by decide +kernel) (fun c hc => (by cases hc)) ⟨by simp, by simp⟩ ⟨by decide +kernel, by decide +kernel⟩ (by decide +kernel)
example : DateIs 20 "2001-02-05".toList 5 "Feb".toList 2 2001 :=
  DateIs.iso (y := "2001".toList) (m := "02".toList) (d := "05".toList) (mo := "Feb".toList) (k := 1) ⟨by decide +kernel, by decide +kernel⟩ (by decide +kernel)
    ⟨by decide +kernel, by decide +kernel⟩ (by decide +kernel) ⟨by decide +kernel, by decide +kernel⟩ (by decide +kernel) (by decide +kernel) (by decide +kernel)
example : TimeIs "10:02:03".toList 10 2 3 := TimeIs.hms (h := "10".toList) (m := "02".toList) (s := "03".toList) ⟨by decide +kernel, by decide +kernel⟩
  ⟨by decide +kernel, by decide +kernel⟩ ⟨by decide +kernel, by decide +kernel⟩
example : ZoneIs "+0130".toList 90 := ZoneIs.east (hh := "01".toList) (mm := "30".toList) ⟨by decide +kernel, by decide +kernel⟩ ⟨by decide +kernel, by decide +kernel⟩
  (by decide +kernel) (by decide +kernel)
example : ZoneIs "EST".toList (60 * -5) := ZoneIs.named (n := "EST".toList) (h := -5) (by decide +kernel)

end Rep.DateText
