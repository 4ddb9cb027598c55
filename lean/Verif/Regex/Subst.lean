import Verif.Regex.Groups

/-
C54: `expand-last-match`, `string-replace` and `string-split`.
-/

namespace Rep.Regex

open Spec

/-! ### The code -/

inductive Sub
  | ok (l : List Nat)
  /-- "damaged match string" -/
  | damaged
  /-- copies a negative number of bytes -/
  | wild
  deriving DecidableEq, Repr

def Sub.andThen : Sub → Sub → Sub
  | .ok a, .ok b => .ok (a ++ b)
  | .ok _, r => r
  | r, _ => r

/-- The subexpression `k` of the last match, regsub.c:83-98: `strncpy` stops at NUL. -/
def subText (str : List Nat) (st en : Nat → Option Nat) (k : Nat) : Sub :=
  match st k, en k with
  | some a, some b =>
    if b < a then .wild
    else
      let t := ((str ++ [0]).drop a).take (b - a)
      if t.contains 0 then .damaged else .ok t
  | _, _ => .ok []

/-- `rep_default_regsub`, regsub.c:50-105, on a template without NUL. -/
def regsub (str : List Nat) (st en : Nat → Option Nat) : List Nat → Sub
  | [] => .ok []
  | c :: s =>
    if c = 38 then (subText str st en 0).andThen (regsub str st en s)
    else if c = 92 then
      match s with
      | [] => .ok [92]
      | d :: s' =>
        if 48 ≤ d ∧ d ≤ 57 then (subText str st en (d - 48)).andThen (regsub str st en s')
        else if d = 92 ∨ d = 38 then (Sub.ok [d]).andThen (regsub str st en s')
        else (Sub.ok [92]).andThen (regsub str st en (d :: s'))
    else (Sub.ok [c]).andThen (regsub str st en s)

/-- The length of a subexpression, regsub.c:150-157 -/
def subLen (st en : Nat → Option Nat) (k : Nat) : Int :=
  match st k, en k with
  | some a, some b => (b : Int) - a
  | _, _ => 0

/-- `rep_default_regsublen`, regsub.c:111-161, without the byte for the NUL. -/
def regsublen (st en : Nat → Option Nat) : List Nat → Int
  | [] => 0
  | c :: s =>
    if c = 38 then subLen st en 0 + regsublen st en s
    else if c = 92 then
      match s with
      | [] => 1
      | d :: s' =>
        if 48 ≤ d ∧ d ≤ 57 then subLen st en (d - 48) + regsublen st en s'
        else if d = 92 ∨ d = 38 then 1 + regsublen st en s'
        else 1 + regsublen st en (d :: s')
    else 1 + regsublen st en s

/-- What `string-replace` and `string-split` do. -/
inductive Loop (α : Type)
  | ok (a : α)
  /-- an error is signalled -/
  | signal
  /-- memory is misused -/
  | wild
  /-- still running after so many rounds -/
  | running

/-- The loop of `string-replace` with a string as the template, lisp/rep/regexp.jl:29-49.  `find`
is `(string-match regexp string point)`; `(substring string point (match-start))` fails if the
second is before the first. -/
def replaceLoop (find : Nat → Outcome) (tmpl str : List Nat) : Nat → Nat → List (List Nat) → Loop (List Nat)
  | 0, _, _ => .running
  | f + 1, point, out =>
    match find point with
    | .noMatch => .ok (if out = [] then str else (((str.drop point) :: out).reverse).flatten)
    | .found st en =>
      match st 0, en 0, regsub str st en (cstr tmpl) with
      | some a, some b, .ok t =>
        if a < point ∨ str.length < a then .signal
        else replaceLoop find tmpl str f b (t :: (str.drop point).take (a - point) :: out)
      | _, _, .wild => .wild
      | _, _, _ => .signal
    | .wild => .wild
    | _ => .signal

/-- The loop of `string-split`, lisp/rep/regexp.jl:51-58. -/
def splitLoop (find : Nat → Outcome) (str : List Nat) : Nat → Nat → List (List Nat) → Loop (List (List Nat))
  | 0, _, _ => .running
  | f + 1, point, parts =>
    match find point with
    | .noMatch => .ok ((str.drop point) :: parts).reverse
    | .found st en =>
      match st 0, en 0 with
      | some a, some b =>
        if a < point ∨ str.length < a then .signal
        else splitLoop find str f b ((str.drop point).take (a - point) :: parts)
      | _, _ => .signal
    | .wild => .wild
    | _ => .signal

/-- `string-replace`; `rounds` bounds the loop of this model. -/
def stringReplace (re tmpl str : List Nat) (depth fuel rounds : Nat) : Loop (List Nat) :=
  replaceLoop (fun p => stringMatch false re str p false depth fuel) tmpl str rounds 0 []

def stringSplit (re str : List Nat) (depth fuel rounds : Nat) : Loop (List (List Nat)) :=
  splitLoop (fun p => stringMatch false re str p false depth fuel) str rounds 0 []

/-! ### What the manual says -/

namespace Spec

/-- The expansion of a template, man/lang.texi:9314-9333; `text k` is the text of the subexpression
`k` of the match, 0 for the whole. -/
inductive Expands (text : Nat → List Nat) : List Nat → List Nat → Prop
  | nil : Expands text [] []
  /-- `\&` -/
  | whole {s o} : Expands text s o → Expands text (92 :: 38 :: s) (text 0 ++ o)
  /-- `\0` … `\9` -/
  | sub {d s o} : d ≤ 9 → Expands text s o → Expands text (92 :: (48 + d) :: s) (text d ++ o)
  /-- `\\` -/
  | back {s o} : Expands text s o → Expands text (92 :: 92 :: s) (92 :: o)
  | char {c s o} : c ≠ 92 → Expands text s o → Expands text (c :: s) (c :: o)

/-- The text of a subexpression of a match. -/
def textOf (str : List Nat) (c : Caps) (k : Nat) : List Nat :=
  match c.st k, c.en k with
  | some a, some b => (str.drop a).take (b - a)
  | _, _ => []

/-- `Replaced … p s`: with all matches of `r` from the place `p` on replaced by the expansion of the
template, the rest of the string is `s`. -/
inductive Replaced (r : Re) (tmpl str : List Nat) : Nat → List Nat → Prop
  | done {p} : search (view str p false) r = none → Replaced r tmpl str p (str.drop p)
  | step {p i w o rest} : search (view str p false) r = some (i, w) →
      Expands (textOf (str.drop p) (groups i w)) tmpl o → Replaced r tmpl str (p + w.1) rest →
      Replaced r tmpl str p ((str.drop p).take i ++ o ++ rest)

/-- `Split … p l`: the string from `p` on, split at the matches of `r`. -/
inductive Split (r : Re) (str : List Nat) : Nat → List (List Nat) → Prop
  | done {p} : search (view str p false) r = none → Split r str p [str.drop p]
  | step {p i w rest} : search (view str p false) r = some (i, w) → Split r str (p + w.1) rest →
      Split r str p ((str.drop p).take i :: rest)

end Spec

/-! ### Expansion -/

theorem andThen_ok {a b : Sub} {l : List Nat} (h : a.andThen b = .ok l) : ∃ u v, a = .ok u ∧ b = .ok v ∧ l = u ++ v := by
  cases a with
  | ok u =>
    cases b with
    | ok v => cases h; exact ⟨u, v, rfl, rfl, rfl⟩
    | damaged => cases h
    | wild => cases h
  | damaged => cases h
  | wild => cases h

theorem subText_len {str : List Nat} {st en : Nat → Option Nat} {k : Nat} {l : List Nat}
    (h : subText str st en k = .ok l) (hin : ∀ b, en k = some b → b ≤ str.length) : (l.length : Int) = subLen st en k := by
  unfold subText at h
  unfold subLen
  cases hs : st k with
  | none =>
    rw [hs] at h
    simp only [Sub.ok.injEq] at h
    simp [← h]
  | some a =>
    cases he : en k with
    | none =>
      rw [hs, he] at h
      simp only [Sub.ok.injEq] at h
      simp [← h]
    | some b =>
      rw [hs, he] at h
      simp only at h
      split at h
      · cases h
      · rename_i hab
        split at h
        · cases h
        · have := hin b he
          simp only [Sub.ok.injEq] at h
          rw [← h, List.length_take, List.length_drop, List.length_append]
          simp only [List.length_cons, List.length_nil]
          omega

/-- C54.  The buffer `expand-last-match` allocates is exactly as long as what is written. -/
theorem C54_expansion_fits {str : List Nat} {st en : Nat → Option Nat} {tmpl l : List Nat}
    (hin : ∀ k b, en k = some b → b ≤ str.length) (h : regsub str st en tmpl = .ok l) :
    (l.length : Int) = regsublen st en tmpl := by
  induction hn : tmpl.length using Nat.strongRecOn generalizing tmpl l with
  | _ n ih =>
    cases tmpl with
    | nil =>
      rw [regsub] at h
      cases h
      rfl
    | cons c s =>
      simp only [List.length_cons] at hn
      have chr : ∀ {a : Nat} {t : List Nat}, t.length < n → (Sub.ok [a]).andThen (regsub str st en t) = .ok l →
          (l.length : Int) = 1 + regsublen st en t := by
        intro a t ht h
        obtain ⟨u, v, e1, e2, rfl⟩ := andThen_ok h
        cases e1
        have := ih t.length ht e2 rfl
        simp only [List.length_append, List.length_cons, List.length_nil]
        omega
      have grp : ∀ {k : Nat} {t : List Nat}, t.length < n → (subText str st en k).andThen (regsub str st en t) = .ok l →
          (l.length : Int) = subLen st en k + regsublen st en t := by
        intro k t ht h
        obtain ⟨u, v, e1, e2, rfl⟩ := andThen_ok h
        have h1 := ih t.length ht e2 rfl
        have h2 := subText_len e1 (hin k)
        simp only [List.length_append]
        omega
      unfold regsub at h
      unfold regsublen
      split
      · rename_i hc
        rw [if_pos hc] at h
        exact grp (by omega) h
      · rename_i hc
        rw [if_neg hc] at h
        split
        · rename_i hc
          rw [if_pos hc] at h
          cases s with
          | nil =>
            cases h
            rfl
          | cons d s' =>
            simp only [List.length_cons] at hn
            simp only at h ⊢
            split
            · rename_i hd
              rw [if_pos hd] at h
              exact grp (by omega) h
            · rename_i hd
              rw [if_neg hd] at h
              split
              · rename_i hd'
                rw [if_pos hd'] at h
                exact chr (by omega) h
              · rename_i hd'
                rw [if_neg hd'] at h
                exact chr (by simp only [List.length_cons]; omega) h
        · rename_i hc
          rw [if_neg hc] at h
          exact chr (by omega) h

/-- The groups are inside the string. -/
def Inside (str : List Nat) (st en : Nat → Option Nat) : Prop :=
  ∀ k, (st k = none ∧ en k = none) ∨ ∃ a b, st k = some a ∧ en k = some b ∧ a ≤ b ∧ b ≤ str.length

theorem subText_ok {str : List Nat} {st en : Nat → Option Nat} (hstr : NoNul str) (hin : Inside str st en) (k : Nat) :
    subText str st en k = .ok (textOf str ⟨st, en⟩ k) := by
  unfold subText textOf
  rcases hin k with ⟨h1, h2⟩ | ⟨a, b, h1, h2, hab, hb⟩
  · simp only [h1, h2]
  · simp only [h1, h2]
    rw [if_neg (by omega)]
    have e : ((str ++ [0]).drop a).take (b - a) = (str.drop a).take (b - a) := by
      rw [List.drop_append_of_le_length (by omega), List.take_append_of_le_length (by rw [List.length_drop]; omega)]
    rw [e, if_neg]
    intro hc
    rw [List.contains_iff_mem] at hc
    exact hstr 0 (List.mem_of_mem_drop (List.mem_of_mem_take hc)) rfl

/-- C54.  `expand-last-match` does what the manual says, for templates without `&`. -/
theorem C54_expand_partial {str tmpl o : List Nat} {st en : Nat → Option Nat} (hstr : NoNul str)
    (hin : Inside str st en) (hamp : 38 ∉ tmpl) (h : Expands (textOf str ⟨st, en⟩) tmpl o) :
    regsub str st en tmpl = .ok o := by
  induction h with
  | nil => rw [regsub]
  | whole => simp at hamp
  | sub hd _ ih =>
    rename_i d s o _
    have ih := ih fun hm => hamp (by simp [hm])
    unfold regsub
    rw [if_neg (by decide), if_pos rfl]
    simp only
    rw [if_pos (by omega), show 48 + d - 48 = d by omega, subText_ok hstr hin, ih]
    rfl
  | back _ ih =>
    have ih := ih fun hm => hamp (by simp [hm])
    unfold regsub
    rw [if_neg (by decide), if_pos rfl]
    simp only
    rw [if_neg (by decide), if_pos (.inl trivial), ih]
    rfl
  | char hc _ ih =>
    rename_i c s o _
    have ih := ih fun hm => hamp (by simp [hm])
    unfold regsub
    rw [if_neg (fun e => hamp (by simp [e])), if_neg hc, ih]
    rfl

/-- The example of the manual. -/
example : regsub (codes "xxxbary") (fun k => if k = 0 then some 0 else if k = 1 then some 3 else none)
    (fun k => if k = 0 then some 7 else if k = 1 then some 6 else none) (codes "test-\\1-ing") = .ok (codes "test-bar-ing") := by
  decide +kernel

/-- `\&` is documented to be the whole match but gives `&`, whatever was matched; and `&`, which is
not in the list, gives the whole match. -/
theorem C54_ampersand_violated {str : List Nat} {st en : Nat → Option Nat} (hstr : NoNul str) (hin : Inside str st en)
    (hne : textOf str ⟨st, en⟩ 0 ≠ codes "&") :
    (∃ o, Expands (textOf str ⟨st, en⟩) (codes "\\&") o ∧ regsub str st en (codes "\\&") = .ok (codes "&") ∧ codes "&" ≠ o) ∧
    (Expands (textOf str ⟨st, en⟩) (codes "&") (codes "&") ∧ regsub str st en (codes "&") ≠ .ok (codes "&")) := by
  have e1 : codes "\\&" = [92, 38] := by decide
  have e2 : codes "&" = [38] := by decide
  rw [e2] at hne
  rw [e1, e2]
  refine ⟨⟨_, .whole .nil, ?_, ?_⟩, .char (by decide) .nil, ?_⟩
  · simp [regsub, Sub.andThen]
  · simpa using fun h => hne h.symm
  · simp only [regsub, if_pos, subText_ok hstr hin, Sub.andThen, List.append_nil]
    simpa using hne

/-! ### The loops -/

/-- The search from `p`, in terms of the specification. -/
def Finds (re str : List Nat) (r : Re) (depth fuel p : Nat) : Prop :=
  stringMatch false re str p false depth fuel =
    match search (view str p false) r with
    | none => .noMatch
    | some v => reported p v.1 v.2

/-- Enough depth and steps for all the searches. -/
theorem finds_all {re str : List Nat} {r : Re} (hre : NoNul re) (hstr : NoNul str) (hp : parse re = .ok r)
    (hgood : r.good false = true) (hsize : 1 + size false r + 3 < 32767) :
    ∃ F D, ∀ depth fuel, D < depth → F ≤ fuel → ∀ p, p ≤ str.length → Finds re str r depth fuel p := by
  have hw := parse_wf hre hp
  obtain ⟨g, q, hc, hF, hq, facts⟩ := compile_ok hp hw hgood hsize
  have one : ∀ p, p ≤ str.length → ∃ F D, ∀ depth fuel, D < depth → F ≤ fuel → Finds re str r depth fuel p := by
    intro p hpl
    obtain ⟨F, D, h⟩ := regexec_yields (view_clean hstr p false) hw hgood hF hq facts
    refine ⟨F, D, fun depth fuel hd hf => ?_⟩
    have hm : stringMatch false re str p false depth fuel =
        (regexec ((view str p false).at depth) g fuel).outcome p := by
      unfold stringMatch
      rw [cstr_of hre, hc]
      simp only
      rw [if_neg (by omega)]
      simp only [Int.toNat_natCast, Bool.false_eq_true, if_false, ctx_of hstr]
    rcases h depth fuel hf with e | ⟨_, hd'⟩
    · unfold Finds
      simp only at e
      rw [hm, e]
      cases search (view str p false) r <;> rfl
    · omega
  have upto : ∀ n, n ≤ str.length → ∃ F D, ∀ depth fuel, D < depth → F ≤ fuel → ∀ p, p ≤ n → Finds re str r depth fuel p := by
    intro n
    induction n with
    | zero =>
      intro h
      obtain ⟨F, D, h1⟩ := one 0 h
      exact ⟨F, D, fun depth fuel hd hf p hp => by
        obtain rfl : p = 0 := by omega
        exact h1 depth fuel hd hf⟩
    | succ n ih =>
      intro h
      obtain ⟨F1, D1, h1⟩ := ih (by omega)
      obtain ⟨F2, D2, h2⟩ := one (n + 1) h
      refine ⟨max F1 F2, max D1 D2, fun depth fuel hd hf p hp => ?_⟩
      rcases Nat.lt_or_ge n p with hlt | hge
      · obtain rfl : p = n + 1 := by omega
        exact h2 depth fuel (by omega) (by omega)
      · exact h1 depth fuel (by omega) (by omega) p hge
  exact upto str.length (Nat.le_refl _)

/-- A match from `p` on is not empty. -/
def Advances (r : Re) (str : List Nat) : Prop :=
  ∀ p i w, p ≤ str.length → search (view str p false) r = some (i, w) → 0 < w.1

theorem take_drop_view (str : List Nat) (p : Nat) (c : Caps) (hin : Inside (str.drop p) c.st c.en) :
    textOf str ⟨fun k => (c.st k).map (p + ·), fun k => (c.en k).map (p + ·)⟩ = textOf (str.drop p) c := by
  funext k
  unfold textOf
  rcases hin k with ⟨h1, h2⟩ | ⟨a, b, h1, h2, hab, hb⟩
  · simp [h1, h2]
  · simp only [h1, h2, Option.map_some, List.drop_drop]
    rw [show p + b - (p + a) = b - a by omega]

theorem reported_inside {re str : List Nat} {r : Re} {p i : Nat} {w : Way} (hre : NoNul re) (hp : parse re = .ok r)
    (hs : search (view str p false) r = some (i, w)) : Inside (str.drop p) (groups i w).st (groups i w).en := by
  obtain ⟨h1, h2, h3, _⟩ := (search_spec (parse_wf hre hp)).2 i w hs
  have hle := (ways_le (.inr (.inr (parse_wf hre hp))) h1 w (List.mem_of_mem_head? h3)).2.1
  intro k
  rcases C52_groups_inside hre hp h1 h3 k with h | ⟨a, b, e1, e2, _, hab, hb⟩
  · exact .inl h
  · exact .inr ⟨a, b, e1, e2, hab, Nat.le_trans hb hle⟩

theorem search_bounds {re str : List Nat} {r : Re} {p i : Nat} {w : Way} (hre : NoNul re) (hp : parse re = .ok r)
    (hs : search (view str p false) r = some (i, w)) : i ≤ w.1 ∧ w.1 ≤ str.length - p := by
  obtain ⟨h1, h2, h3, _⟩ := (search_spec (parse_wf hre hp)).2 i w hs
  have hle := ways_le (.inr (.inr (parse_wf hre hp))) h1 w (List.mem_of_mem_head? h3)
  refine ⟨hle.1, ?_⟩
  have : (view str p false).text.length = str.length - p := by simp [view]
  omega

/-- C54.  If the pattern has no empty matches in the string, `string-replace` ends, and its value is
the string with each match replaced by the expansion of the template. -/
theorem C54_string_replace_partial {re tmpl str : List Nat} {r : Re} (hre : NoNul re) (hstr : NoNul str)
    (htm : NoNul tmpl) (hp : parse re = .ok r) (hgood : r.good false = true) (hsize : 1 + size false r + 3 < 32767)
    (hamp : 38 ∉ tmpl) (hexp : ∀ text, ∃ o, Expands text tmpl o) (hadv : Advances r str) :
    ∃ F D, ∀ depth fuel rounds, D < depth → F ≤ fuel → str.length + 1 ≤ rounds →
      ∃ s, stringReplace re tmpl str depth fuel rounds = .ok s ∧ Replaced r tmpl str 0 s := by
  obtain ⟨F, D, h⟩ := finds_all hre hstr hp hgood hsize
  refine ⟨F, D, fun depth fuel rounds hd hf hr => ?_⟩
  have hfind := h depth fuel hd hf
  have key : ∀ rounds p out, p ≤ str.length → str.length + 1 ≤ rounds + p → (out = [] → p = 0) →
      ∃ s, replaceLoop (fun p => stringMatch false re str p false depth fuel) tmpl str rounds p out =
        .ok (out.reverse.flatten ++ s) ∧ Replaced r tmpl str p s := by
    intro rounds
    induction rounds with
    | zero => intro p out h1 h2; omega
    | succ rounds ih =>
      intro p out h1 h2 h3
      have hf := hfind p h1
      unfold Finds at hf
      rw [replaceLoop, hf]
      cases hs : search (view str p false) r with
      | none =>
        simp only
        refine ⟨str.drop p, ?_, .done hs⟩
        by_cases ho : out = []
        · rw [if_pos ho, ho, h3 ho]
          simp
        · rw [if_neg ho]
          simp
      | some v =>
        obtain ⟨i, w⟩ := v
        have hb := search_bounds hre hp hs
        have hin := reported_inside hre hp hs
        have hin' : Inside str (fun k => ((groups i w).st k).map (p + ·)) (fun k => ((groups i w).en k).map (p + ·)) := by
          intro k
          rcases hin k with ⟨e1, e2⟩ | ⟨a, b, e1, e2, hab, hb⟩
          · exact .inl ⟨by simp [e1], by simp [e2]⟩
          · refine .inr ⟨p + a, p + b, by simp [e1], by simp [e2], by omega, ?_⟩
            rw [List.length_drop] at hb
            omega
        obtain ⟨o, ho⟩ := hexp (textOf (str.drop p) (groups i w))
        have hsub : regsub str (fun k => ((groups i w).st k).map (p + ·)) (fun k => ((groups i w).en k).map (p + ·)) (cstr tmpl) =
            .ok o := by
          rw [cstr_of htm]
          refine C54_expand_partial hstr hin' hamp ?_
          rw [take_drop_view str p _ hin]
          exact ho
        have hz : ((groups i w).st 0).map (p + ·) = some (p + i) ∧ ((groups i w).en 0).map (p + ·) = some (p + w.1) :=
          ⟨rfl, rfl⟩
        simp only [reported, hsub, hz.1, hz.2]
        rw [if_neg (by omega)]
        have hpos := hadv p i w h1 hs
        obtain ⟨s, e, hrep⟩ := ih (p + w.1) (o :: (str.drop p).take (p + i - p) :: out) (by omega) (by omega) (fun h => nomatch h)
        refine ⟨(str.drop p).take i ++ o ++ s, ?_, .step hs ho hrep⟩
        rw [e, show p + i - p = i by omega]
        simp
  obtain ⟨s, e, hs⟩ := key rounds 0 [] (Nat.zero_le _) (by omega) (fun _ => rfl)
  exact ⟨s, by simpa [stringReplace] using e, hs⟩

/-- C54.  In the same way `string-split` gives the parts of the string between the matches. -/
theorem C54_string_split_partial {re str : List Nat} {r : Re} (hre : NoNul re) (hstr : NoNul str)
    (hp : parse re = .ok r) (hgood : r.good false = true) (hsize : 1 + size false r + 3 < 32767) (hadv : Advances r str) :
    ∃ F D, ∀ depth fuel rounds, D < depth → F ≤ fuel → str.length + 1 ≤ rounds →
      ∃ l, stringSplit re str depth fuel rounds = .ok l ∧ Split r str 0 l := by
  obtain ⟨F, D, h⟩ := finds_all hre hstr hp hgood hsize
  refine ⟨F, D, fun depth fuel rounds hd hf hr => ?_⟩
  have hfind := h depth fuel hd hf
  have key : ∀ rounds p out, p ≤ str.length → str.length + 1 ≤ rounds + p →
      ∃ l, splitLoop (fun p => stringMatch false re str p false depth fuel) str rounds p out =
        .ok (out.reverse ++ l) ∧ Split r str p l := by
    intro rounds
    induction rounds with
    | zero => intro p out h1 h2; omega
    | succ rounds ih =>
      intro p out h1 h2
      have hf := hfind p h1
      unfold Finds at hf
      rw [splitLoop, hf]
      cases hs : search (view str p false) r with
      | none =>
        simp only
        exact ⟨[str.drop p], by simp, .done hs⟩
      | some v =>
        obtain ⟨i, w⟩ := v
        have hb := search_bounds hre hp hs
        have hz : ((groups i w).st 0).map (p + ·) = some (p + i) ∧ ((groups i w).en 0).map (p + ·) = some (p + w.1) :=
          ⟨rfl, rfl⟩
        simp only [reported, hz.1, hz.2]
        rw [if_neg (by omega)]
        have hpos := hadv p i w h1 hs
        obtain ⟨l, e, hsp⟩ := ih (p + w.1) ((str.drop p).take (p + i - p) :: out) (by omega) (by omega)
        refine ⟨(str.drop p).take i :: l, ?_, .step hs hsp⟩
        rw [e, show p + i - p = i by omega]
        simp
  obtain ⟨l, e, hs⟩ := key rounds 0 [] (Nat.zero_le _) (by omega)
  exact ⟨l, by simpa [stringSplit] using e, hs⟩

/-- A pattern that cannot match the empty string has no empty matches. -/
theorem advances_of_width {re str : List Nat} {r : Re} (hre : NoNul re) (hp : parse re = .ok r) (hw : r.hasWidth = true) :
    Advances r str := by
  intro p i w _ hs
  obtain ⟨h1, h2, h3, _⟩ := (search_spec (parse_wf hre hp)).2 i w hs
  have := (ways_le (.inr (.inr (parse_wf hre hp))) h1 w (List.mem_of_mem_head? h3)).2.2 hw
  omega

/-- The hypotheses hold for the first example of the manual. -/
example : ∃ r, parse (codes "-") = .ok r ∧ r.good false = true ∧ 1 + size false r + 3 < 32767 ∧ Advances r (codes "foo-bar-baz") ∧
    (∀ text, ∃ o, Expands text (codes "_") o) ∧ 38 ∉ codes "_" := by
  have hre : NoNul (codes "-") := by intro c; revert c; decide
  have hp : parse (codes "-") = .ok (.last (.seq (.one (.lit [45])) .eps)) := parse_of (by decide +kernel)
  exact ⟨_, hp, by decide, by decide, advances_of_width hre hp (by decide), fun text => ⟨_, .char (by decide) .nil⟩, by decide⟩

example : (match stringReplace (codes "-") (codes "_") (codes "foo-bar-baz") 2048 100 20 with
    | .ok s => decide (s = codes "foo_bar_baz")
    | _ => false) = true := by decide +kernel

/-- An empty match at `point` leaves the loop where it is. -/
theorem stuck {find : Nat → Outcome} {tmpl str : List Nat} {p : Nat} {st en : Nat → Option Nat} {t : List Nat}
    (hf : find p = .found st en) (h1 : st 0 = some p) (h2 : en 0 = some p) (hp : p ≤ str.length)
    (ht : regsub str st en (cstr tmpl) = .ok t) :
    ∀ rounds out parts, replaceLoop find tmpl str rounds p out = .running ∧ splitLoop find str rounds p parts = .running := by
  intro rounds
  induction rounds with
  | zero => intro out parts; exact ⟨rfl, rfl⟩
  | succ rounds ih =>
    intro out parts
    rw [replaceLoop, splitLoop, hf]
    simp only [h1, h2, ht]
    rw [if_neg (by omega), if_neg (by omega)]
    exact ⟨(ih _ []).1, (ih [] _).2⟩

/-- `(string-replace "x*" "-" "abc")` and `(string-split "x*" "abc")` never return. -/
theorem C54_empty_match_violated (rounds : Nat) :
    stringReplace (codes "x*") (codes "-") (codes "abc") 2048 100 rounds = .running ∧
    stringSplit (codes "x*") (codes "abc") 2048 100 rounds = .running := by
  have h : ((stringMatch false (codes "x*") (codes "abc") ((0 : Nat) : Int) false 2048 100).show).map (·.take 1) =
      some [(some 0, some 0)] := by decide +kernel
  cases ho : stringMatch false (codes "x*") (codes "abc") ((0 : Nat) : Int) false 2048 100 with
  | found st en =>
    rw [ho] at h
    simp only [Outcome.show, Option.map_some, Option.some.injEq] at h
    have h0 : (st 0, en 0) = (some 0, some 0) := by
      have e : List.take 1 (List.map (fun k => (st k, en k)) (List.range 10)) = [(st 0, en 0)] := rfl
      rw [e] at h
      exact List.head_eq_of_cons_eq h
    simp only [Prod.mk.injEq] at h0
    have hsub : regsub (codes "abc") st en (cstr (codes "-")) = .ok [45] := by
      have : cstr (codes "-") = [45] := by decide
      rw [this]
      simp [regsub, Sub.andThen]
    exact stuck (find := fun p => stringMatch false (codes "x*") (codes "abc") p false 2048 100) ho h0.1 h0.2 (by decide) hsub
      rounds [] []
  | noMatch | error | overflow | corrupt | wild | fuel =>
    rw [ho] at h
    cases h

end Rep.Regex
