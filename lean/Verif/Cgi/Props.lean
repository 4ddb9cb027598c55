import Verif.Cgi.Model
import Verif.Cgi.Spec

/-
C104: the parameters of CGI requests.  C105: domain names.
-/

namespace Rep.Cgi

open Spec

/-! ### decoding -/

/-- `unquote` without fragments. -/
def dec : List Nat → List Nat
  | 37 :: a :: b :: rest => ((hexdigit a * 16 + hexdigit b) % 256).toNat :: dec rest
  | c :: s => c :: dec s
  | [] => []

theorem dec_first (s : List Nat) : (∀ _ : firstPct s = none, dec s = s) ∧
    ∀ pre a b rest, firstPct s = some (pre, a, b, rest) → dec s = pre ++ ((hexdigit a * 16 + hexdigit b) % 256).toNat :: dec rest := by
  induction s with
  | nil => exact ⟨fun _ => rfl, fun _ _ _ _ h => by cases h⟩
  | cons c s ih =>
    constructor
    · intro h
      unfold firstPct at h
      split at h
      · cases h
      · next hn =>
        rw [dec, ih.1 (by simpa using h)]
        exact hn
    · intro pre a b rest h
      unfold firstPct at h
      split at h
      · cases h; rfl
      · next hn =>
        obtain ⟨⟨p, q⟩, hr, e⟩ := Option.map_eq_some_iff.1 h
        cases e
        rw [dec, ih.2 _ _ _ _ hr]
        · rfl
        · exact hn

theorem unquoteLoop_dec (n : Nat) : ∀ (s : List Nat) (frags : List (List Nat)), s.length ≤ n →
    (unquoteLoop frags s).flatten = frags.flatten ++ dec s := by
  induction n with
  | zero =>
    intro s frags h
    cases s with
    | nil => rw [unquoteLoop.eq_def]; simp [firstPct, dec]
    | cons => simp at h
  | succ n ih =>
    intro s frags h
    rw [unquoteLoop.eq_def]
    split
    · next hf => rw [(dec_first s).1 hf]; simp
    · next pre a b rest hf =>
      have := firstPct_length hf
      rw [ih rest _ (by simp at this; omega), (dec_first s).2 _ _ _ _ hf]
      simp

theorem unquote_dec (s : List Nat) : unquote s = dec (plus s) := by
  unfold unquote
  rw [unquoteLoop_dec s.length _ _ (by simp [plus])]
  simp

theorem hex_ok {x a : Nat} (h : Hex x a) : hexdigit x = a ∧ a < 16 ∧ x ≠ 43 ∧ x ≠ 38 ∧ x ≠ 61 := by
  cases h with
  | digit d h =>
    refine ⟨?_, by omega, by omega, by omega, by omega⟩
    unfold hexdigit
    rw [if_pos (by omega)]; omega
  | upper d h h' =>
    have e : (a = 10 ∨ a = 11 ∨ a = 12 ∨ a = 13 ∨ a = 14 ∨ a = 15) := by omega
    rcases e with rfl | rfl | rfl | rfl | rfl | rfl <;> decide
  | lower d h h' =>
    have e : (a = 10 ∨ a = 11 ∨ a = 12 ∨ a = 13 ∨ a = 14 ∨ a = 15) := by omega
    rcases e with rfl | rfl | rfl | rfl | rfl | rfl <;> decide

theorem enc_dec {t s : List Nat} (h : Enc t s) : dec (plus s) = t := by
  induction h with
  | nil => rfl
  | same c h h1 h2 h3 _ ih =>
    simp only [plus, List.map_cons, if_neg h1] at ih ⊢
    rw [dec, ih]
    intro a b rest e _
    exact h e
  | plus _ ih =>
    simp only [plus, List.map_cons, if_pos] at ih ⊢
    rw [dec, ih]
    intro a b rest e _
    cases e
  | pct hx hy _ ih =>
    obtain ⟨x1, x2, x3, -⟩ := hex_ok hx
    obtain ⟨y1, y2, y3, -⟩ := hex_ok hy
    simp only [plus, List.map_cons, if_neg x3, if_neg y3] at ih ⊢
    rw [show (if (37 : Nat) = 43 then 32 else 37) = 37 from rfl]
    rw [dec]
    simp only [x1, y1, ih]
    congr 1
    omega

theorem enc_chars {t s : List Nat} (h : Enc t s) : 61 ∉ s ∧ 38 ∉ s := by
  induction h with
  | nil => simp
  | same c h h1 h2 h3 _ ih => exact ⟨by simp [ih.1, Ne.symm h3], by simp [ih.2, Ne.symm h2]⟩
  | plus _ ih => exact ⟨by simp [ih.1], by simp [ih.2]⟩
  | pct hx hy _ ih =>
    obtain ⟨-, -, -, x4, x5⟩ := hex_ok hx
    obtain ⟨-, -, -, y4, y5⟩ := hex_ok hy
    exact ⟨by simp [ih.1, Ne.symm x5, Ne.symm y5], by simp [ih.2, Ne.symm x4, Ne.symm y4]⟩

theorem enc_ne {t s : List Nat} (h : Enc t s) (hn : t ≠ []) : s ≠ [] := by
  cases h <;> simp at hn ⊢

theorem takeWhile_until {c : Nat} {s : List Nat} (h : c ∉ s) (r : List Nat) :
    (s ++ c :: r).takeWhile (· ≠ c) = s ∧ (s ++ c :: r).dropWhile (· ≠ c) = c :: r := by
  induction s with
  | nil => simp
  | cons a s ih =>
    simp only [List.mem_cons, not_or] at h
    obtain ⟨e1, e2⟩ := ih h.2
    simp [Ne.symm h.1] at e1 e2 ⊢
    exact ⟨e1, e2⟩

theorem takeWhile_all {c : Nat} {s : List Nat} (h : c ∉ s) : s.takeWhile (· ≠ c) = s ∧ s.dropWhile (· ≠ c) = [] := by
  induction s with
  | nil => simp
  | cons a s ih =>
    simp only [List.mem_cons, not_or] at h
    obtain ⟨e1, e2⟩ := ih h.2
    simp [Ne.symm h.1] at e1 e2 ⊢
    exact ⟨e1, e2⟩

theorem looking_eq {s r : List Nat} (hs : 61 ∉ s) (hn : s ≠ []) :
    looking (s ++ 61 :: r) = some (s, r.takeWhile (· ≠ 38), (r.dropWhile (· ≠ 38)).tail) := by
  obtain ⟨e1, e2⟩ := takeWhile_until hs r
  cases s with
  | nil => exact absurd rfl hn
  | cons a s => simp only [looking, e1, e2]

/-- A form, however it is written, is read as its names and values, in order; an empty value as nil. -/
theorem C104_params (ps : List (List Nat × List Nat)) (s : List Nat) (h : EncForm ps s) (hn : ∀ p ∈ ps, p.1 ≠ []) :
    params s = ps.map fun p => (p.1, if p.2 = [] then none else some p.2) := by
  induction h with
  | nil => rw [params.eq_def]; rfl
  | @last n v s t h1 h2 =>
    have hne := enc_ne h1 (hn (n, v) (by simp))
    have hl := looking_eq (r := t) (enc_chars h1).1 hne
    obtain ⟨e1, e2⟩ := takeWhile_all (enc_chars h2).2
    rw [e1, e2] at hl
    rw [params.eq_def]
    split
    · next hh => rw [hl] at hh; cases hh
    · next n' v' r' hh =>
      rw [hl] at hh
      cases hh
      rw [unquote_dec, unquote_dec, enc_dec h1, enc_dec h2, params.eq_def]
      rfl
  | @cons n v s t u ps h1 h2 _ ih =>
    have hne := enc_ne h1 (hn (n, v) (by simp))
    have hl := looking_eq (r := t ++ 38 :: u) (enc_chars h1).1 hne
    obtain ⟨e1, e2⟩ := takeWhile_until (enc_chars h2).2 u
    rw [e1, e2] at hl
    rw [List.append_assoc, List.cons_append, params.eq_def]
    split
    · next hh => rw [hl] at hh; cases hh
    · next n' v' r' hh =>
      rw [hl] at hh
      cases hh
      rw [unquote_dec, unquote_dec, enc_dec h1, enc_dec h2, List.tail_cons, ih fun p hp => hn p (List.mem_cons_of_mem _ hp)]
      rfl

def codes (s : String) : List Nat := s.toList.map Char.toNat

example : EncForm [(codes "a b", codes "="), (codes "c", [])] (codes "a+b=%3d&c=&") := by
  refine @EncForm.cons (codes "a b") (codes "=") (codes "a+b") (codes "%3d") (codes "c=&") _ ?_ ?_ ?_
  · exact .same 97 (by decide) (by decide) (by decide) (by decide) (.plus (.same 98 (by decide) (by decide) (by decide) (by decide) .nil))
  · exact .pct (a := 3) (b := 13) (.digit 3 (by decide)) (.lower 13 (by decide) (by decide)) .nil
  · exact @EncForm.cons (codes "c") [] (codes "c") [] [] [] (.same 99 (by decide) (by decide) (by decide) (by decide) .nil) .nil .nil

/-- A parameter without `=` is taken for a part of the name of the next. -/
theorem C104_flag_violated : params (codes "a&b=1") = [(codes "a&b", some (codes "1"))] := by decide +kernel

/-- A parameter without a name ends the list: the parameters behind it are lost. -/
theorem C104_unnamed_violated : params (codes "a=1&=2&b=3") = [(codes "a", some (codes "1"))] := by decide +kernel

/-- What is not a hexadecimal digit is decoded too. -/
theorem C104_digits_violated : params (codes "a=50%+b") = [(codes "a", some (codes "50" ++ [155]))] := by decide +kernel

/-! ### domain names -/

theorem splitDots_label (l : List Nat) : ∀ (cur : List Nat), 46 ∉ l → splitDots cur l = [cur ++ l] := by
  induction l with
  | nil => intro cur _; simp [splitDots]
  | cons c l ih =>
    intro cur h
    simp only [List.mem_cons, not_or] at h
    rw [splitDots, if_neg (Ne.symm h.1), ih _ h.2]
    simp

theorem splitDots_dot (l : List Nat) : ∀ (cur s : List Nat), 46 ∉ l → splitDots cur (l ++ 46 :: s) = (cur ++ l) :: splitDots [] s := by
  induction l with
  | nil => intro cur s _; simp [splitDots]
  | cons c l ih =>
    intro cur s h
    simp only [List.mem_cons, not_or] at h
    rw [List.cons_append, splitDots, if_neg (Ne.symm h.1), ih _ _ h.2]
    simp

/-- The parts of a name are its labels; and every string is the name of its parts. -/
theorem C105_parts (ls : List (List Nat)) (h : NoDots ls) (hn : ls ≠ []) : domainParts (name ls) = ls := by
  induction ls with
  | nil => exact absurd rfl hn
  | cons l ls ih =>
    cases ls with
    | nil => exact splitDots_label l [] (h l (by simp))
    | cons m ls =>
      unfold domainParts
      rw [name, splitDots_dot l [] _ (h l (by simp))]
      have := ih (fun x hx => h x (List.mem_cons_of_mem _ hx)) (by simp)
      unfold domainParts at this
      rw [this]; rfl
      simp

theorem splitDots_ne (s : List Nat) : ∀ cur, splitDots cur s ≠ [] := by
  induction s with
  | nil => intro cur; simp [splitDots]
  | cons c s ih => intro cur; rw [splitDots]; split; simp; exact ih _

theorem splitDots_name (s : List Nat) : ∀ cur, 46 ∉ cur → name (splitDots cur s) = cur ++ s ∧ NoDots (splitDots cur s) := by
  induction s with
  | nil =>
    intro cur h
    refine ⟨by simp [splitDots, name], ?_⟩
    intro l hl
    simp [splitDots] at hl
    rw [hl]; exact h
  | cons c s ih =>
    intro cur h
    rw [splitDots]
    split
    · next hc =>
      subst hc
      obtain ⟨e1, e2⟩ := ih [] (by simp)
      have hne := splitDots_ne s []
      constructor
      · cases hs : splitDots [] s with
        | nil => exact absurd hs hne
        | cons a as => rw [name, ← hs, e1]; simp; simp
      · intro l hl
        rcases List.mem_cons.1 hl with rfl | hl
        · exact h
        · exact e2 l hl
    · next hc =>
      obtain ⟨e1, e2⟩ := ih (cur ++ [c]) (by simp [h, Ne.symm hc])
      exact ⟨by rw [e1]; simp, e2⟩

theorem C105_parts_name (s : List Nat) : name (domainParts s) = s ∧ NoDots (domainParts s) ∧ domainParts s ≠ [] :=
  ⟨by simpa [domainParts] using (splitDots_name s [] (by simp)).1, (splitDots_name s [] (by simp)).2, splitDots_ne s []⟩

theorem compareLoop_long (n : Nat) : ∀ (p1 p2 : List (List Nat)) (r : Int), p1.length = p2.length + n →
    compareLoop p1 p2 r = if p1.drop n = p2 then some (r + n) else none := by
  induction n with
  | zero =>
    intro p1
    induction p1 with
    | nil =>
      intro p2 r h
      have : p2 = [] := List.eq_nil_of_length_eq_zero (by simpa using h.symm)
      subst this
      rw [compareLoop.eq_def]; simp
    | cons a p1 ih =>
      intro p2 r h
      cases p2 with
      | nil => simp at h
      | cons b p2 =>
        rw [compareLoop.eq_def, if_neg (by omega), if_neg (by omega)]
        simp only [List.drop_zero, List.cons.injEq]
        by_cases hab : a = b
        · rw [if_pos hab, ih p2 r (by simpa using h)]
          simp [hab]
        · simp [hab]
  | succ n ih =>
    intro p1 p2 r h
    cases p1 with
    | nil => simp at h
    | cons a p1 =>
      rw [compareLoop.eq_def, if_pos (by omega), List.tail_cons, ih p1 p2 _ (by simp at h; omega), List.drop_succ_cons]
      congr 2
      push_cast; omega

theorem compareLoop_short (n : Nat) : ∀ (p1 p2 : List (List Nat)) (r : Int), p2.length = p1.length + n →
    compareLoop p1 p2 r = if p2.drop n = p1 then some (r - n) else none := by
  induction n with
  | zero =>
    intro p1 p2 r h
    rw [compareLoop_long 0 p1 p2 r (by omega)]
    simp [eq_comm]
  | succ n ih =>
    intro p1 p2 r h
    cases p2 with
    | nil => simp at h
    | cons a p2 =>
      rw [compareLoop.eq_def, if_neg (by omega), if_pos (by omega), List.tail_cons, ih p1 p2 _ (by simp at h; omega), List.drop_succ_cons]
      congr 2
      push_cast; omega

/-- A domain is above another if the labels of the other are some more labels, and then its own. -/
theorem C105_above (d1 d2 : List (List Nat)) (h1 : NoDots d1) (h2 : NoDots d2) (n1 : d1 ≠ []) (n2 : d2 ≠ []) :
    (domainAboveP (name d1) (name d2) = true ↔ ∃ x, x ≠ [] ∧ d2 = x ++ d1) ∧
    (domainBelowP (name d1) (name d2) = true ↔ ∃ x, x ≠ [] ∧ d1 = x ++ d2) := by
  unfold domainAboveP domainBelowP compareDomains
  rw [C105_parts d1 h1 n1, C105_parts d2 h2 n2]
  have no : ∀ {a b : List (List Nat)}, a.length ≤ b.length → ¬ ∃ x, x ≠ [] ∧ a = x ++ b := by
    rintro a b h ⟨x, hx, rfl⟩
    have := List.length_pos_iff.2 hx
    simp at h
    omega
  have key : ∀ {a b : List (List Nat)} {n : Nat}, a.length = b.length + n → 0 < n → (a.drop n = b ↔ ∃ x, x ≠ [] ∧ a = x ++ b) := by
    intro a b n h hn
    constructor
    · intro e
      refine ⟨a.take n, ?_, by rw [← e, List.take_append_drop]⟩
      intro e0
      have := congrArg List.length e0
      simp at this
      rcases this with h0 | h0
      · omega
      · rw [h0] at h; simp at h; omega
    · rintro ⟨x, hx, rfl⟩
      simp at h
      have : x.length = n := by omega
      rw [← this]; simp
  rcases Nat.lt_trichotomy d1.length d2.length with hl | hl | hl
  · obtain ⟨n, hn⟩ : ∃ n, d2.length = d1.length + n := ⟨d2.length - d1.length, by omega⟩
    have hpos : 0 < n := by omega
    rw [compareLoop_short n d1 d2 0 hn, key hn hpos |>.symm]
    constructor
    · by_cases e : d2.drop n = d1
      · rw [if_pos e]; simp [e]; omega
      · rw [if_neg e]; simp [e]
    · refine iff_of_false ?_ (no (by omega))
      by_cases e : d2.drop n = d1
      · rw [if_pos e]; simp
      · rw [if_neg e]; simp
  · rw [compareLoop_long 0 d1 d2 0 (by omega)]
    refine ⟨iff_of_false ?_ (no (by omega)), iff_of_false ?_ (no (by omega))⟩ <;>
      (by_cases e : d1.drop 0 = d2 <;> simp at e <;> simp [e])
  · obtain ⟨n, hn⟩ : ∃ n, d1.length = d2.length + n := ⟨d1.length - d2.length, by omega⟩
    have hpos : 0 < n := by omega
    rw [compareLoop_long n d1 d2 0 hn]
    constructor
    · refine iff_of_false ?_ (no (by omega))
      by_cases e : d1.drop n = d2
      · rw [if_pos e]; simp
      · rw [if_neg e]; simp
    · rw [(key hn hpos).symm]
      by_cases e : d1.drop n = d2
      · rw [if_pos e]; simp [e]; omega
      · rw [if_neg e]; simp [e]

theorem domainAbove_label (l : List Nat) (h : 46 ∉ l) : domainAbove l = none := by
  induction l with
  | nil => rfl
  | cons c l ih =>
    simp only [List.mem_cons, not_or] at h
    rw [domainAbove, if_neg (Ne.symm h.1), ih h.2]

theorem domainAbove_dot (l : List Nat) (h : 46 ∉ l) (s : List Nat) : domainAbove (l ++ 46 :: s) = some s := by
  induction l with
  | nil => rfl
  | cons c l ih =>
    simp only [List.mem_cons, not_or] at h
    rw [List.cons_append, domainAbove, if_neg (Ne.symm h.1), ih h.2]

/-- The function is called with the name of the domain and then with those above it, one after the
other. -/
theorem C105_map (d : List (List Nat)) (h : NoDots d) (hn : d ≠ []) : mapDomains (name d) = (uppers d).map name := by
  induction d with
  | nil => exact absurd rfl hn
  | cons l d ih =>
    have hl := h l (by simp)
    cases d with
    | nil =>
      rw [mapDomains.eq_def]
      show l :: (match h : domainAbove l with | none => [] | some t => mapDomains t) = [l]
      split
      · rfl
      · next t e => rw [domainAbove_label l hl] at e; cases e
    | cons m d =>
      rw [mapDomains.eq_def]
      have e : name (l :: m :: d) = l ++ 46 :: name (m :: d) := rfl
      rw [uppers, List.map_cons]
      congr 1
      split
      · next e' => rw [e, domainAbove_dot l hl] at e'; cases e'
      · next t e' =>
        rw [e, domainAbove_dot l hl] at e'
        cases e'
        exact ih (fun x hx => h x (List.mem_cons_of_mem _ hx)) (by simp)

theorem downLoop_eq (todo : List (List Nat)) : ∀ (d : List (List Nat)), d ≠ [] →
    downLoop (name d) todo = name d :: (((uppers (todo.reverse ++ d)).take todo.length).map name).reverse := by
  induction todo with
  | nil => intro d _; simp [downLoop]
  | cons t todo ih =>
    intro d hd
    have e : t ++ [46] ++ name d = name (t :: d) := by
      cases d with
      | nil => exact absurd rfl hd
      | cons a d => simp [name]
    rw [downLoop, e, ih (t :: d) (by simp)]
    have hu : ∀ (x : List (List Nat)), (uppers (x ++ t :: d)).take (x.length + 1) = (uppers (x ++ t :: d)).take x.length ++ [t :: d] := by
      intro x
      induction x with
      | nil => simp [uppers]
      | cons a x ih => simp [uppers, ih]
    have := hu todo.reverse
    rw [List.length_reverse] at this
    simp only [List.reverse_cons, List.append_assoc, List.singleton_append, List.length_cons, this]
    simp

/-- Downwards it is called with the same names in the reverse order. -/
theorem C105_downwards (d : List (List Nat)) (h : NoDots d) (hn : d ≠ []) : mapDown (name d) = (mapDomains (name d)).reverse := by
  rw [C105_map d h hn]
  unfold mapDown
  rw [C105_parts d h hn]
  cases hr : d.reverse with
  | nil => simp at hr; exact absurd hr hn
  | cons p ps =>
    have hd : d = ps.reverse ++ [p] := by
      have := congrArg List.reverse hr
      simpa using this
    simp only
    rw [show p = name [p] from rfl, downLoop_eq ps [p] (by simp), ← hd]
    have hlen : ∀ (x : List (List Nat)), uppers (x ++ [p]) = (uppers (x ++ [p])).take x.length ++ [[p]] := by
      intro x
      induction x with
      | nil => simp [uppers]
      | cons a x ih => rw [List.cons_append, uppers, List.length_cons, List.take_succ_cons, List.cons_append, ← ih]
    have h2 := hlen ps.reverse
    rw [List.length_reverse, ← hd] at h2
    rw [show (uppers d).map name = ((uppers d).take ps.length ++ [[p]]).map name from congrArg _ h2]
    simp

example : NoDots [codes "www", codes "foo", codes "org"] := by intro l hl; revert l; decide
example : mapDown (codes "www.foo.org") = [codes "org", codes "foo.org", codes "www.foo.org"] := by decide +kernel
example : domainAboveP (codes "foo.org") (codes "www.foo.org") = true := by decide +kernel

/-- Names that differ in case are not taken for the same, as they are in the domain name system. -/
theorem C105_case_violated : domainAboveP (codes "Foo.org") (codes "www.foo.org") = false := by decide +kernel

end Rep.Cgi
