/-
`string-replace` (lisp/rep/regexp.jl), URL quoting (lisp/rep/www/quote-url.jl), and
property C20.
-/
import Mathlib.Data.List.Basic
import Mathlib.Data.List.TakeWhile
import Mathlib.Order.Basic

namespace Rep.Url

/-! ### Model

Strings are lists of bytes (0..255). -/

/-- The C string at the start of a Lisp string's remaining bytes: it ends at the first
zero byte (the byte after the last one is always zero). -/
def cstr (s : List Nat) : List Nat := s.takeWhile (· ≠ 0)

/-- src/regexp.c:748-778 the search of `rep_regexec2` for a regular expression
without `^`: the first position, from `i`, at which the expression matches, and the
end of that match.  `m` gives the length of the match at the start of a C string
(src/regexp.c:803 `regtry`). -/
def search (m : List Nat → Option Nat) (i : Nat) : List Nat → Option (Nat × Nat)
  | [] => (m []).map fun n => (i, i + n)
  | c :: cs =>
      match m (c :: cs) with
      | some n => some (i, i + n)
      | none => search m (i + 1) cs

/-- src/find.c:260 `string-match` at START, with `match-start` and `match-end`. -/
def stringMatch (m : List Nat → Option Nat) (s : List Nat) (start : Nat) : Option (Nat × Nat) :=
  search m start (cstr (s.drop start))

/-- src/lispcmds.c:945 `substring`, arguments in range. -/
def substring (s : List Nat) (start stop : Nat) : List Nat := (s.drop start).take (stop - start)

/-- lisp/rep/regexp.jl:39 the loop of `string-replace`; `none`: it does not return.
`template` stands for the call of TEMPLATE with the current match. -/
def stringReplace.loop (m : List Nat → Option Nat) (template : List Nat → Nat → Nat → List Nat)
    (s : List Nat) (point : Nat) (out : List (List Nat)) : Option (List Nat) :=
  match stringMatch m s point with
  | some (ms, me) => stringReplace.loop m template s me (template s ms me :: substring s point ms :: out)
  | none =>
      if out = [] then some s
      else some ((s.drop point :: out).reverse.flatten)
partial_fixpoint

/-- lisp/rep/regexp.jl:29 `string-replace`. -/
def stringReplace (m : List Nat → Option Nat) (template : List Nat → Nat → Nat → List Nat)
    (s : List Nat) : Option (List Nat) := stringReplace.loop m template s 0 []

/-- The characters of `[a-zA-Z0-9$_.!~*'(),-]`. -/
def unreserved (c : Nat) : Bool :=
  (97 ≤ c && c ≤ 122) || (65 ≤ c && c ≤ 90) || (48 ≤ c && c ≤ 57) ||
    c == 36 || c == 95 || c == 46 || c == 33 || c == 126 || c == 42 || c == 39 || c == 40 || c == 41 ||
    c == 44 || c == 45

/-- quote-url.jl:40 `url-meta-re`, `[^a-zA-Z0-9$_.!~*'(),-]`. -/
def urlMetaRe : List Nat → Option Nat
  | c :: _ => if unreserved c then none else some 1
  | [] => none

/-- A lower case hexadecimal digit, as printed by `format`. -/
def hexDigit (d : Nat) : Nat := if d < 10 then 48 + d else 97 + (d - 10)

/-- `char-upcase` of an ASCII character. -/
def upcase (c : Nat) : Nat := if 97 ≤ c ∧ c ≤ 122 then c - 32 else c

/-- quote-url.jl:50 `(format nil "%%%02x" c)` for a byte: printed in radix 16 and
padded with zeros to width 2. -/
def formatHex (c : Nat) : List Nat :=
  37 :: (if c < 16 then [48, hexDigit c] else [hexDigit (c / 16), hexDigit (c % 16)])

/-- quote-url.jl:45 `quote-url`. -/
def quoteUrl (s : List Nat) : Option (List Nat) :=
  stringReplace urlMetaRe (fun s ms _ => (formatHex (s.getD ms 0)).map upcase) s

/-- `[0-9A-Fa-f]`. -/
def isHex (c : Nat) : Bool := (48 ≤ c && c ≤ 57) || (65 ≤ c && c ≤ 70) || (97 ≤ c && c ≤ 102)

/-- quote-url.jl:55 the regular expression `%([0-9A-Fa-f][0-9A-Fa-f])`. -/
def escapeRe : List Nat → Option Nat
  | 37 :: a :: b :: _ => if isHex a && isHex b then some 3 else none
  | _ => none

/-- The value of a hexadecimal digit (`string->number`, radix 16). -/
def hexValue (c : Nat) : Nat :=
  if c ≤ 57 then c - 48 else if c ≤ 70 then c - 55 else c - 87

/-- quote-url.jl:53 `unquote-url`; the template yields a number, which `concat`
turns into a byte. -/
def unquoteUrl (s : List Nat) : Option (List Nat) :=
  stringReplace escapeRe
    (fun s ms _ => [16 * hexValue (s.getD (ms + 1) 0) + hexValue (s.getD (ms + 2) 0)]) s

/-! ### Specification -/

/-- The escape of a byte: percent sign and two upper case hexadecimal digits. -/
def escape (c : Nat) : List Nat :=
  let digit d := "0123456789ABCDEF".toList[d]!.toNat
  [37, digit (c / 16), digit (c % 16)]

/-- Unescaping, from left to right. -/
def unescape : List Nat → List Nat
  | 37 :: a :: b :: rest =>
      if isHex a && isHex b then (16 * hexValue a + hexValue b) :: unescape rest
      else 37 :: unescape (a :: b :: rest)
  | c :: rest => c :: unescape rest
  | [] => []

/-! ### Proofs -/

/-- Replacing all matches in a C string. -/
def repl (m : List Nat → Option Nat) (t : List Nat → List Nat) : List Nat → List Nat
  | [] => []
  | c :: cs =>
      match m (c :: cs) with
      | some n => t ((c :: cs).take n) ++ repl m t (cs.drop (n - 1))
      | none => c :: repl m t cs
termination_by l => l.length
decreasing_by all_goals simp; try omega

/-- The matcher never accepts the empty string, and stays within the string. -/
def Proper (m : List Nat → Option Nat) : Prop := ∀ l n, m l = some n → 1 ≤ n ∧ n ≤ l.length

theorem search_none {m : List Nat → Option Nat} (t : List Nat → List Nat) :
    ∀ (l : List Nat) (i : Nat), search m i l = none → repl m t l = l
  | [], i, _ => by simp [repl]
  | c :: cs, i, h => by
    unfold search at h
    cases hm : m (c :: cs) with
    | some n => simp [hm] at h
    | none =>
      simp only [hm] at h
      rw [repl, hm]
      simp only
      rw [search_none t cs _ h]

theorem search_some {m : List Nat → Option Nat} (hm : Proper m) (t : List Nat → List Nat) :
    ∀ (l : List Nat) (i a b : Nat), search m i l = some (a, b) →
      i ≤ a ∧ a < b ∧ b ≤ i + l.length ∧
      repl m t l = l.take (a - i) ++ t ((l.drop (a - i)).take (b - a)) ++ repl m t (l.drop (b - i))
  | [], i, a, b, h => by
    unfold search at h
    cases hn : m [] with
    | none => simp [hn] at h
    | some n => have := hm _ _ hn; simp at this; omega
  | c :: cs, i, a, b, h => by
    unfold search at h
    cases hn : m (c :: cs) with
    | some n =>
      have hp := hm _ _ hn
      simp only [hn, Option.some.injEq, Prod.mk.injEq] at h
      obtain ⟨rfl, rfl⟩ := h
      refine ⟨le_rfl, by omega, by omega, ?_⟩
      rw [repl, hn]
      have e : i + n - i = (n - 1) + 1 := by omega
      have e2 : i + n - i = n := by omega
      rw [e, List.drop_succ_cons]
      simp [show n - 1 + 1 = n by omega]
    | none =>
      simp only [hn] at h
      obtain ⟨h1, h2, h3, h4⟩ := search_some hm t cs _ _ _ h
      refine ⟨by omega, h2, by simp; omega, ?_⟩
      rw [repl, hn]
      simp only
      rw [h4]
      have e1 : a - i = (a - (i + 1)) + 1 := by omega
      have e2 : b - i = (b - (i + 1)) + 1 := by omega
      rw [e1, e2]
      simp

theorem cstr_prefix (s : List Nat) : cstr s ++ s.dropWhile (· ≠ 0) = s := List.takeWhile_append_dropWhile

theorem take_cstr {s : List Nat} {n : Nat} (h : n ≤ (cstr s).length) : (cstr s).take n = s.take n := by
  conv_rhs => rw [← cstr_prefix s]
  rw [List.take_append_of_le_length h]

theorem drop_cstr {s : List Nat} {n : Nat} (h : n ≤ (cstr s).length) :
    (cstr s).drop n = cstr (s.drop n) ∧ (s.drop n).dropWhile (· ≠ 0) = s.dropWhile (· ≠ 0) := by
  induction n generalizing s with
  | zero => simp
  | succ n ih =>
    cases s with
    | nil => simp [cstr]
    | cons c cs =>
      by_cases hc : c = 0
      · simp [cstr, hc] at h
      · have e : cstr (c :: cs) = c :: cstr cs := by simp [cstr, hc]
        rw [e] at h ⊢
        simp only [List.length_cons, Nat.add_le_add_iff_right] at h
        simp only [List.drop_succ_cons]
        rw [(ih h).1, (ih h).2]
        simp [hc]

/-- `string-replace` with a proper matcher. -/
theorem replace_loop {m : List Nat → Option Nat} (hm : Proper m) (t : List Nat → List Nat)
    (template : List Nat → Nat → Nat → List Nat) (s : List Nat)
    (ht : ∀ ms me n, m ((cstr (s.drop ms))) = some n → me = ms + n →
      template s ms me = t ((s.drop ms).take (me - ms))) :
    ∀ (k point : Nat) (out : List (List Nat)), s.length - point ≤ k →
      (out = [] → point = 0) →
      stringReplace.loop m template s point out =
        some (out.reverse.flatten ++ (repl m t (cstr (s.drop point)) ++ (s.drop point).dropWhile (· ≠ 0))) := by
  intro k
  induction k with
  | zero =>
    intro point out hk ho
    rw [stringReplace.loop.eq_def]
    have hd : s.drop point = [] := List.drop_eq_nil_of_le (by omega)
    cases hs : stringMatch m s point with
    | some p =>
      obtain ⟨a, b⟩ := p
      rw [stringMatch, hd] at hs
      have := search_some hm t _ _ _ _ hs
      simp [cstr] at this; omega
    | none =>
      simp only
      split
      · rename_i h
        subst h
        have := ho rfl
        subst this
        simp only [List.drop_zero] at hd
        subst hd
        simp [cstr, repl]
      · simp [hd, cstr, repl]
  | succ k ih =>
    intro point out hk ho
    rw [stringReplace.loop.eq_def]
    cases hs : stringMatch m s point with
    | none =>
      have h1 := search_none t _ _ hs
      rw [h1, cstr_prefix]
      simp only
      split
      · rename_i h
        subst h
        have := ho rfl
        subst this
        simp
      · simp
    | some p =>
      obtain ⟨a, b⟩ := p
      obtain ⟨h1, h2, h3, h4⟩ := search_some hm t _ _ _ _ hs
      have hlen : (cstr (s.drop point)).length ≤ s.length - point := by
        have := congrArg List.length (cstr_prefix (s.drop point))
        simp at this; omega
      simp only
      rw [ih b _ (by omega) (by simp), h4]
      obtain ⟨d1, d2⟩ := drop_cstr (s := s.drop point) (n := b - point) (by omega)
      obtain ⟨d3, _⟩ := drop_cstr (s := s.drop point) (n := a - point) (by omega)
      rw [d1, d3, take_cstr (by omega)]
      have ea : point + (a - point) = a := by omega
      have eb : point + (b - point) = b := by omega
      rw [List.drop_drop, eb] at d1 d2
      rw [List.drop_drop, ea] at d3
      rw [List.drop_drop, ea, List.drop_drop, eb]
      have hma : ∃ n, m (cstr (s.drop a)) = some n ∧ b = a + n := by
        have : ∀ (l : List Nat) (i a b : Nat), search m i l = some (a, b) → i ≤ a ∧
            ∃ n, m (l.drop (a - i)) = some n ∧ b = a + n := by
          intro l
          induction l with
          | nil =>
            intro i a b h
            unfold search at h
            cases hn : m [] with
            | none => simp [hn] at h
            | some n => simp [hn] at h; refine ⟨by omega, n, by simp [hn], by omega⟩
          | cons c cs ihl =>
            intro i a b h
            unfold search at h
            cases hn : m (c :: cs) with
            | some n =>
              simp only [hn, Option.some.injEq, Prod.mk.injEq] at h
              refine ⟨by omega, n, ?_, by omega⟩
              rw [← h.1]; simpa using hn
            | none =>
              simp only [hn] at h
              obtain ⟨hle, n, h5, h6⟩ := ihl _ _ _ h
              refine ⟨by omega, n, ?_, h6⟩
              rw [show a - i = (a - (i + 1)) + 1 by omega, List.drop_succ_cons]
              exact h5
        obtain ⟨_, n, h5, h6⟩ := this _ _ _ _ hs
        rw [d3] at h5
        exact ⟨n, h5, h6⟩
      obtain ⟨n, hn1, hn2⟩ := hma
      rw [ht a b n hn1 hn2, d2]
      have hba : b - a ≤ (cstr (s.drop a)).length := by
        rw [← d3, List.length_drop]; omega
      rw [take_cstr hba]
      simp [substring]

theorem proper_meta : Proper urlMetaRe := by
  intro l n h
  cases l with
  | nil => simp [urlMetaRe] at h
  | cons c cs =>
    simp only [urlMetaRe] at h
    split at h
    · simp at h
    · simp at h; simp; omega

theorem proper_escape : Proper escapeRe := by
  intro l n h
  unfold escapeRe at h
  split at h
  · split at h
    · simp at h; simp; omega
    · simp at h
  · simp at h

theorem formatHex_eq (c : Nat) (h : c < 256) : (formatHex c).map upcase = escape c := by
  have : ∀ c, c < 256 → (formatHex c).map upcase = escape c := by decide +kernel
  exact this c h

theorem repl_quote (l : List Nat) (f : List Nat → List Nat) (hf : ∀ c, c ∈ l → f [c] = escape c) :
    repl urlMetaRe f l = l.flatMap fun c => if unreserved c then [c] else escape c := by
  induction l with
  | nil => simp [repl]
  | cons c cs ih =>
    have ih' := ih fun c hc => hf c (by simp [hc])
    rw [repl]
    by_cases hc : unreserved c = true
    · simp [urlMetaRe, hc, ih']
    · simp [urlMetaRe, hc, ih', hf c (by simp)]

/-- **C20**: what `quote-url` returns: the bytes up to the first zero byte are escaped
one by one, the rest of the string is copied unchanged. -/
theorem C20_quote (s : List Nat) (hs : ∀ c ∈ s, c < 256) :
    quoteUrl s = some (((s.takeWhile (· ≠ 0)).flatMap fun c => if unreserved c then [c] else escape c) ++
      s.dropWhile (· ≠ 0)) := by
  rw [quoteUrl, stringReplace, replace_loop proper_meta (fun l => (formatHex (l.headD 0)).map upcase) _ s ?_
    s.length 0 [] (by omega) (fun _ => rfl)]
  · simp only [List.drop_zero, List.reverse_nil, List.flatten_nil, List.nil_append]
    rw [repl_quote]
    · rfl
    · intro c hc
      simp only [List.headD_cons]
      exact formatHex_eq c (hs c ((List.takeWhile_sublist _).subset hc))
  · intro ms me n hn hme
    have hp := proper_meta _ _ hn
    subst hme
    have : s.getD ms 0 = (List.take (ms + n - ms) (List.drop ms s)).headD 0 := by
      rw [List.getD_eq_getElem?_getD, show ms + n - ms = (n - 1) + 1 by omega]
      cases hd : s.drop ms with
      | nil => simp [hd, cstr] at hp; omega
      | cons c cs =>
        have := List.getElem?_drop (xs := s) (i := ms) (j := 0)
        rw [hd] at this
        simp at this
        simp [← this]
    rw [this]

theorem repl_escape (f : List Nat → List Nat) (hf : ∀ a b, f [37, a, b] = [16 * hexValue a + hexValue b]) :
    ∀ (k : Nat) (l : List Nat), l.length ≤ k → repl escapeRe f l = unescape l := by
  intro k
  induction k with
  | zero =>
    intro l hl
    have : l = [] := List.length_eq_zero_iff.mp (by omega)
    subst this; simp [repl, unescape]
  | succ k ih =>
    intro l hl
    unfold unescape
    split
    · rename_i a b rest
      rw [repl]
      simp at hl
      by_cases h : (isHex a && isHex b) = true
      · simp only [escapeRe, if_pos h]
        simp [hf, ih rest (by omega)]
      · simp only [escapeRe, if_neg h]
        rw [ih (a :: b :: rest) (by simp; omega)]
    · rename_i c rest hne
      have : escapeRe (c :: rest) = none := by
        unfold escapeRe
        split
        · rename_i a b r e
          simp at e
          exact absurd (hne a b r e.1 e.2) id
        · rfl
      rw [repl, this]
      simp at hl
      simp [ih rest (by omega)]
    · simp [repl]

/-- **C20**: what `unquote-url` returns: escapes are replaced from left to right, up to
the first zero byte; the rest is copied unchanged. -/
theorem C20_unquote (s : List Nat) :
    unquoteUrl s = some (unescape (s.takeWhile (· ≠ 0)) ++ s.dropWhile (· ≠ 0)) := by
  rw [unquoteUrl, stringReplace, replace_loop proper_escape
    (fun l => [16 * hexValue (l.getD 1 0) + hexValue (l.getD 2 0)]) _ s ?_
    s.length 0 [] (by omega) (fun _ => rfl)]
  · simp only [List.drop_zero, List.reverse_nil, List.flatten_nil, List.nil_append]
    rw [repl_escape _ (by intro a b; rfl) _ _ le_rfl]
    rfl
  · intro ms me n hn hme
    subst hme
    unfold escapeRe at hn
    split at hn
    · split at hn
      · rename_i heq _
        simp at hn
        subst hn
        have h1 : ∀ j, j < 3 → s.getD (ms + j) 0 = (List.take (ms + 3 - ms) (List.drop ms s)).getD j 0 := by
          intro j hj
          rw [List.getD_eq_getElem?_getD, List.getD_eq_getElem?_getD, List.getElem?_take, if_pos (by omega),
            List.getElem?_drop]
        rw [h1 1 (by omega), h1 2 (by omega)]
      · simp at hn
    · simp at hn

theorem escape_facts (c : Nat) (h : c < 256) :
    ∃ a b, escape c = [37, a, b] ∧ isHex a = true ∧ isHex b = true ∧ 16 * hexValue a + hexValue b = c ∧
      (∀ x ∈ escape c, x ≠ 0) := by
  have : ∀ c, c < 256 → (escape c = [37, (escape c)[1]!, (escape c)[2]!] ∧ isHex (escape c)[1]! = true ∧
    isHex (escape c)[2]! = true ∧ 16 * hexValue (escape c)[1]! + hexValue (escape c)[2]! = c ∧
      (∀ x ∈ escape c, x ≠ 0)) := by decide +kernel
  exact ⟨_, _, this c h⟩

theorem unescape_quote (l : List Nat) (hl : ∀ c ∈ l, c < 256) :
    unescape (l.flatMap fun c => if unreserved c then [c] else escape c) = l := by
  induction l with
  | nil => simp [unescape]
  | cons c cs ih =>
    have ih' := ih fun c hc => hl c (by simp [hc])
    rw [List.flatMap_cons]
    by_cases hc : unreserved c = true
    · rw [if_pos hc, List.singleton_append]
      have h37 : c ≠ 37 := by rintro rfl; exact absurd hc (by decide)
      rw [unescape.eq_2 _ _ (by intro a b r h; exact absurd h h37), ih']
    · rw [if_neg hc]
      obtain ⟨a, b, e, ha, hb, hv, _⟩ := escape_facts c (hl c (by simp))
      rw [e]
      simp only [List.cons_append, List.nil_append]
      rw [unescape, if_pos (by simp [ha, hb]), hv, ih']

/-- **C20**: `unquote-url` inverts `quote-url` on every string. -/
theorem C20_round_trip (s : List Nat) (hs : ∀ c ∈ s, c < 256) :
    ∃ q, quoteUrl s = some q ∧ unquoteUrl q = some s := by
  refine ⟨_, C20_quote s hs, ?_⟩
  rw [C20_unquote]
  have h1 : ∀ x ∈ ((s.takeWhile (· ≠ 0)).flatMap fun c => if unreserved c then [c] else escape c), x ≠ 0 := by
    intro x hx
    rw [List.mem_flatMap] at hx
    obtain ⟨c, hc, hx⟩ := hx
    have hc0 : c ≠ 0 := by simpa using List.mem_takeWhile_imp hc
    split at hx
    · simp at hx; omega
    · obtain ⟨a, b, e, ha, hb, hv, hnz⟩ := escape_facts c (hs c ((List.takeWhile_sublist _).subset hc))
      exact hnz x hx
  have h2 : (s.dropWhile (· ≠ 0)).takeWhile (· ≠ 0) = [] := by
    cases hd : s.dropWhile (· ≠ 0) with
    | nil => rfl
    | cons c cs =>
      have := List.head?_dropWhile_not (fun c : Nat => decide (c ≠ 0)) s
      rw [hd] at this
      simp at this
      simp [this]
  have h3 : (s.dropWhile (· ≠ 0)).dropWhile (· ≠ 0) = s.dropWhile (· ≠ 0) := by
    have := List.takeWhile_append_dropWhile (p := fun c : Nat => decide (c ≠ 0)) (l := s.dropWhile (· ≠ 0))
    rw [h2] at this
    simpa using this
  rw [List.takeWhile_append_of_pos (by simpa using h1), List.dropWhile_append_of_pos (by simpa using h1), h2, h3,
    List.append_nil, unescape_quote]
  · rw [List.takeWhile_append_dropWhile]
  · intro c hc
    exact hs c ((List.takeWhile_sublist _).subset hc)

/-- The text consists of unreserved characters and `%XX` escapes. -/
inductive Safe : List Nat → Prop
  | nil : Safe []
  | plain {c l} : unreserved c = true → Safe l → Safe (c :: l)
  | esc {a b l} : isHex a = true → isHex b = true → Safe l → Safe (37 :: a :: b :: l)

/-- **C20** (partial: strings without a zero byte; see `C20_safe_violated`): the output
of `quote-url` contains only unreserved characters and `%XX` escapes. -/
theorem C20_safe_partial (s : List Nat) (hs : ∀ c ∈ s, c < 256) (h0 : 0 ∉ s) :
    ∃ q, quoteUrl s = some q ∧ Safe q := by
  refine ⟨_, C20_quote s hs, ?_⟩
  have h : ∀ x ∈ s, (fun c : Nat => decide (c ≠ 0)) x = true := by
    intro x hx; simp; rintro rfl; exact h0 hx
  rw [List.takeWhile_eq_self_iff.mpr h, List.dropWhile_eq_nil_iff.mpr h, List.append_nil]
  clear h h0
  induction s with
  | nil => exact .nil
  | cons c cs ih =>
    rw [List.flatMap_cons]
    have ih' := ih fun c hc => hs c (by simp [hc])
    by_cases hc : unreserved c = true
    · rw [if_pos hc]; exact .plain hc ih'
    · rw [if_neg hc]
      obtain ⟨a, b, e, ha, hb, _⟩ := escape_facts c (hs c (by simp))
      rw [e]; exact .esc ha hb ih'

/-- "a b" gives "a%20b" and satisfies the hypotheses. -/
example : quoteUrl [97, 32, 98] = some [97, 37, 50, 48, 98] ∧ unquoteUrl [97, 37, 50, 48, 98] = some [97, 32, 98] ∧
    (∀ c ∈ [97, 32, 98], c < 256) ∧ 0 ∉ [97, 32, 98] :=
  ⟨by rw [C20_quote _ (by decide)]; decide +kernel, by rw [C20_unquote]; decide +kernel, by decide, by decide⟩

/-- **C20 is false of the code for strings with a zero byte**: `(quote-url "\0/")` is
the string unchanged, with a reserved character. -/
theorem C20_safe_violated : quoteUrl [0, 47] = some [0, 47] ∧ ¬ Safe [0, 47] := by
  constructor
  · rw [C20_quote _ (by decide)]; decide +kernel
  · intro h; cases h with
    | plain h _ => exact absurd h (by decide)

end Rep.Url
