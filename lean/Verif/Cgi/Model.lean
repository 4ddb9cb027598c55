/-
Model of the parameters of CGI requests (lisp/rep/www/cgi-get.jl) and of the functions on domain
names (lisp/rep/net/domain-name.jl).

Simplifications: strings are lists of bytes without the null character; the searches for the fixed
patterns `([^=]+)=([^&]*)(&|$)`, `%..` and `\.` are written out: as each repetition in them is over
characters other than the one that follows, there is one way to match (C52 is about the matcher).
-/

namespace Rep.Cgi

/-! ### cgi-get.jl -/

/-- `unquote-plus-map` and `translate-string` (cgi-get.jl:36-42, 78, misc.c:423-440). -/
def plus (s : List Nat) : List Nat := s.map fun c => if c = 43 then 32 else c

/-- `char-upcase` in the C locale. -/
def upcase (c : Nat) : Nat := if 97 ≤ c ∧ c ≤ 122 then c - 32 else c

/-- `hexdigit` (cgi-get.jl:67-70). -/
def hexdigit (c : Nat) : Int := if 48 ≤ c ∧ c ≤ 57 then (c : Int) - 48 else ((upcase c : Int) - 65) + 10

/-- `string-match "%.."` (cgi-get.jl:79): what is before, the two characters, what is behind. -/
def firstPct : List Nat → Option (List Nat × Nat × Nat × List Nat)
  | [] => none
  | c :: s => match c, s with
    | 37, a :: b :: rest => some ([], a, b, rest)
    | _, _ => (firstPct s).map fun r => (c :: r.1, r.2)

theorem firstPct_length {s : List Nat} {p : List Nat × Nat × Nat × List Nat} (h : firstPct s = some p) : p.2.2.2.length < s.length := by
  induction s generalizing p with
  | nil => cases h
  | cons c s ih =>
    unfold firstPct at h
    split at h
    · cases h; simp; omega
    · obtain ⟨r, hr, rfl⟩ := Option.map_eq_some_iff.1 h
      have := ih hr
      simp; omega

/-- The loop of `unquote` (cgi-get.jl:79-87); `concat` stores the low byte of a number
(lispcmds.c:1028-1031).  `frags` in the order in which it is concatenated. -/
def unquoteLoop (frags : List (List Nat)) (s : List Nat) : List (List Nat) :=
  match h : firstPct s with
  | none => frags ++ [s]
  | some (pre, a, b, rest) => unquoteLoop (frags ++ [pre, [((hexdigit a * 16 + hexdigit b) % 256).toNat]]) rest
  termination_by s.length
  decreasing_by exact firstPct_length h

/-- `unquote` (cgi-get.jl:72-87). -/
def unquote (s : List Nat) : List Nat := (unquoteLoop [] (plus s)).flatten

/-- `string-looking-at "([^=]+)=([^&]*)(&|$)"` (cgi-get.jl:52): the groups 1 and 2, what is behind. -/
def looking (s : List Nat) : Option (List Nat × List Nat × List Nat) :=
  let name := s.takeWhile (· ≠ 61)
  match name, s.dropWhile (· ≠ 61) with
  | _ :: _, _ :: rest =>
    some (name, rest.takeWhile (· ≠ 38), (rest.dropWhile (· ≠ 38)).tail)
  | _, _ => none

theorem dropWhile_le {α : Type} (p : α → Bool) (l : List α) : (l.dropWhile p).length ≤ l.length := by
  induction l with
  | nil => simp
  | cons a l ih => simp only [List.dropWhile_cons]; split <;> simp; omega

theorem looking_length {s : List Nat} {p : List Nat × List Nat × List Nat} (h : looking s = some p) : p.2.2.length < s.length := by
  simp only [looking] at h
  split at h
  · next a b c d h1 h2 =>
    cases h
    have e1 := dropWhile_le (fun x : Nat => decide (x ≠ 61)) s
    rw [h2] at e1
    have e2 := dropWhile_le (fun x : Nat => decide (x ≠ 38)) d
    simp only [List.length_tail, List.length_cons] at e1 ⊢
    omega
  · cases h

/-- `cgi-get-params` (cgi-get.jl:44-65): names and values, none for nil. -/
def params (s : List Nat) : List (List Nat × Option (List Nat)) :=
  match h : looking s with
  | none => []
  | some (n, v, rest) => (unquote n, if unquote v = [] then none else some (unquote v)) :: params rest
  termination_by s.length
  decreasing_by exact looking_length h

/-! ### domain-name.jl -/

/-- `string-split "\\."` (domain-name.jl:39-41, regexp.jl:51-58). -/
def splitDots (cur : List Nat) : List Nat → List (List Nat)
  | [] => [cur]
  | c :: s => if c = 46 then cur :: splitDots [] s else splitDots (cur ++ [c]) s

def domainParts (s : List Nat) : List (List Nat) := splitDots [] s

/-- `domain-above` (domain-name.jl:43-46): behind the first dot. -/
def domainAbove : List Nat → Option (List Nat)
  | [] => none
  | c :: s => if c = 46 then some s else domainAbove s

/-- `compare-domains` (domain-name.jl:50-64). -/
def compareLoop (p1 p2 : List (List Nat)) (ret : Int) : Option Int :=
  if p2.length < p1.length then compareLoop p1.tail p2 (ret + 1)
  else if p1.length < p2.length then compareLoop p1 p2.tail (ret - 1)
  else match p1, p2 with
    | a :: p1, b :: p2 => if a = b then compareLoop p1 p2 ret else none
    | _, _ => some ret
  termination_by p1.length + p2.length
  decreasing_by all_goals simp_wf; omega

def compareDomains (d1 d2 : List Nat) : Option Int := compareLoop (domainParts d1) (domainParts d2) 0

/-- `domain-above-p` (domain-name.jl:66-69). -/
def domainAboveP (d1 d2 : List Nat) : Bool := match compareDomains d1 d2 with
  | some v => decide (v < 0)
  | none => false

/-- `domain-below-p` (domain-name.jl:71-74). -/
def domainBelowP (d1 d2 : List Nat) : Bool := match compareDomains d1 d2 with
  | some v => decide (v > 0)
  | none => false

theorem domainAbove_length {s t : List Nat} (h : domainAbove s = some t) : t.length < s.length := by
  induction s with
  | nil => cases h
  | cons c s ih =>
    simp only [domainAbove] at h
    split at h
    · cases h; simp
    · have := ih h; simp; omega

/-- `map-domains` (domain-name.jl:80-84): the names with which the function is called. -/
def mapDomains (s : List Nat) : List (List Nat) :=
  s :: (match h : domainAbove s with
    | none => []
    | some t => mapDomains t)
  termination_by s.length
  decreasing_by exact domainAbove_length h

/-- The loop of `map-domains-downwards` (domain-name.jl:89-93). -/
def downLoop (current : List Nat) : List (List Nat) → List (List Nat)
  | [] => [current]
  | t :: todo => current :: downLoop (t ++ [46] ++ current) todo

/-- `map-domains-downwards` (domain-name.jl:86-93). -/
def mapDown (s : List Nat) : List (List Nat) :=
  match (domainParts s).reverse with
  | [] => []
  | p :: ps => downLoop p ps

end Rep.Cgi
