import Verif.Regex.Exec
import Verif.Regex.Equiv
import Verif.Regex.Grammar

/-
C52: matching regular expressions against strings.
-/

namespace Rep.Regex

open Spec

/-- The text that is searched and its surroundings, in terms of the arguments: the string from
`start`, the byte before, and whether it is the beginning of the string. -/
def Spec.view (str : List Nat) (start : Nat) (nocase : Bool) : Ctx :=
  { text := str.drop start, prev := str.getD (start - 1) 0, bol := start == 0, nocase := nocase, depth := 0 }

/-- A match of the text from `i` in the way `w`, as `match-start` and `match-end` show it. -/
def Spec.reported (start i : Nat) (w : Way) : Outcome :=
  .found (fun k => ((groups i w).st k).map (start + ·)) (fun k => ((groups i w).en k).map (start + ·))

theorem cstr_of {s : List Nat} (h : NoNul s) : cstr s = s := by
  unfold cstr
  induction s with
  | nil => rfl
  | cons c s ih =>
    rw [List.takeWhile_cons, if_pos (by simpa using h c (List.mem_cons_self ..)), ih h.tail]

theorem NoNul.drop {s : List Nat} (h : NoNul s) (n : Nat) : NoNul (s.drop n) :=
  fun c hc => h c (List.mem_of_mem_drop hc)

theorem ctx_of {str : List Nat} (h : NoNul str) (start : Nat) (nocase : Bool) (depth : Nat) :
    ctxOf str start nocase depth = (view str start nocase).at depth := by
  unfold ctxOf view Ctx.at
  rw [cstr_of (h.drop start)]

theorem view_clean {str : List Nat} (h : NoNul str) (start : Nat) (nocase : Bool) : (view str start nocase).Clean := by
  intro c hc
  exact h.drop start c hc

/-- C52.  A pattern that is accepted is read as the grammar says; and if it is one of the patterns
the code handles right, `string-match` finds the first place of the string (from START on) at which
the pattern matches, and reports there the preferred match with its groups; it fails only if the
pattern matches nowhere.  The one other outcome is the error for too deep a recursion, which does
not occur if the limit is high enough. -/
theorem C52_string_match_partial {re str : List Nat} {start : Nat} {nocase : Bool} {r : Re}
    (hre : NoNul re) (hstr : NoNul str) (hstart : start ≤ str.length) (hp : parse re = .ok r)
    (hgood : r.good nocase = true) (hsize : 1 + size false r + 3 < 32767) :
    (∃ n, Reads .alts r re 1 n) ∧
    ∃ F D, ∀ depth fuel, F ≤ fuel →
      let x := view str start nocase
      let o := stringMatch false re str start nocase depth fuel
      (o = .overflow ∧ depth ≤ D) ∨
      (o = .noMatch ∧ ∀ i j, i ≤ x.text.length → ¬ Matches x r i j) ∨
      (∃ i w, o = reported start i w ∧ i ≤ x.text.length ∧ Matches x r i w.1 ∧ (ways x r i).head? = some w ∧
        ∀ i' j', i' < i → ¬ Matches x r i' j') := by
  refine ⟨parse_reads hp, ?_⟩
  have hw := parse_wf hre hp
  obtain ⟨g, q, hc, hF, hq, facts⟩ := compile_ok hp hw hgood hsize
  obtain ⟨F, D, h⟩ := regexec_yields (view_clean hstr start nocase) hw hgood hF hq facts
  refine ⟨F, D, fun depth fuel hf => ?_⟩
  have hm : stringMatch false re str start nocase depth fuel =
      (regexec ((view str start nocase).at depth) g fuel).outcome start := by
    unfold stringMatch
    rw [cstr_of hre, hc]
    simp only
    rw [if_neg (by omega)]
    simp only [Int.toNat_natCast, Bool.false_eq_true, if_false, ctx_of hstr]
  simp only [hm]
  rcases h depth fuel hf with e | ⟨e, hd⟩
  · right
    have spec := search_spec (x := view str start nocase) hw
    simp only at e
    rw [e]
    cases hs : search (view str start nocase) r with
    | none => exact .inl ⟨rfl, spec.1 hs⟩
    | some v =>
      obtain ⟨i, w⟩ := v
      obtain ⟨h1, h2, h3, h4⟩ := spec.2 i w hs
      exact .inr ⟨i, w, rfl, h1, h2, h3, h4⟩
  · simp only at e
    rw [e]
    exact .inl ⟨rfl, hd⟩

/-- The same for `string-looking-at`, which looks at START only. -/
theorem C52_string_looking_at_partial {re str : List Nat} {start : Nat} {nocase : Bool} {r : Re}
    (hre : NoNul re) (hstr : NoNul str) (hstart : start ≤ str.length) (hp : parse re = .ok r)
    (hgood : r.good nocase = true) (hsize : 1 + size false r + 3 < 32767) :
    (∃ n, Reads .alts r re 1 n) ∧
    ∃ F D, ∀ depth fuel, F ≤ fuel →
      let x := view str start nocase
      let o := stringMatch true re str start nocase depth fuel
      (o = .overflow ∧ depth ≤ D) ∨
      (o = .noMatch ∧ ∀ j, ¬ Matches x r 0 j) ∨
      (∃ w, o = reported start 0 w ∧ Matches x r 0 w.1 ∧ (ways x r 0).head? = some w) := by
  refine ⟨parse_reads hp, ?_⟩
  have hw := parse_wf hre hp
  obtain ⟨g, q, hc, hF, hq, facts⟩ := compile_ok hp hw hgood hsize
  obtain ⟨F, D, h⟩ := regtry_yields (program_out (view_clean hstr start nocase) hw hgood hF hq (Nat.zero_le _))
  refine ⟨F, D, fun depth fuel hf => ?_⟩
  have hm : stringMatch true re str start nocase depth fuel =
      (regtry ((view str start nocase).at depth) g.mem fuel 0).outcome start := by
    unfold stringMatch
    rw [cstr_of hre, hc]
    simp only
    rw [if_neg (by omega)]
    simp only [Int.toNat_natCast, if_true, ctx_of hstr]
  simp only [hm]
  rcases h depth fuel hf with e | ⟨e, hd⟩
  · right
    simp only at e
    rw [e]
    have key := fun j => ways_matches (x := view str start nocase) (.inr (.inr hw)) (Nat.zero_le _) (i := 0) j
    cases hs : ways (view str start nocase) r 0 with
    | nil =>
      refine .inl ⟨rfl, fun j hj => ?_⟩
      obtain ⟨w, h1, _⟩ := (key j).2 hj
      rw [hs] at h1
      cases h1
    | cons w l =>
      refine .inr ⟨w, rfl, (key w.1).1 ⟨w, ?_, rfl⟩, rfl⟩
      rw [hs]
      exact List.mem_cons_self ..
  · simp only at e
    rw [e]
    exact .inl ⟨rfl, hd⟩

/-- A pattern that is not accepted gives an error and nothing else, whatever the string. -/
theorem C52_bad_pattern {re str : List Nat} {start : Nat} {nocase looking : Bool} {e : Err} (hre : NoNul re)
    (hp : parse re = .error e) (depth fuel : Nat) :
    stringMatch looking re str start nocase depth fuel = .error e ∧ e ≠ .fuel := by
  refine ⟨?_, fun h => parse_fuel re (h ▸ hp)⟩
  unfold stringMatch compile
  rw [cstr_of hre, hp]

/-! ### A case -/

def codes (s : String) : List Nat := s.toList.map Char.toNat

def parsesTo (s : List Nat) (r : Re) : Bool :=
  match parse s with
  | .ok r' => decide (r' = r)
  | .error _ => false

theorem parse_of {s : List Nat} {r : Re} (h : parsesTo s r = true) : parse s = .ok r := by
  unfold parsesTo at h
  split at h
  · rename_i h'
    rw [h', of_decide_eq_true h]
  · cases h

/-- `x*(foo|bar)y`, as in the manual. -/
def manualRe : Re :=
  .last (.seq (.rep .star true (.one (.lit [120])))
    (.seq (.grp 1 (.alt (.seq (.one (.lit (codes "foo"))) .eps) (.last (.seq (.one (.lit (codes "bar"))) .eps))))
      (.seq (.one (.lit [121])) .eps)))

example : parse (codes "x*(foo|bar)y") = .ok manualRe := parse_of (by decide +kernel)
example : manualRe.good false = true ∧ manualRe.good true = true ∧ 1 + size false manualRe + 3 < 32767 := by decide
example : NoNul (codes "x*(foo|bar)y") ∧ NoNul (codes "xxxbary") := by
  constructor <;> · intro c; revert c; decide
example : Matches (view (codes "xxxbary") 0 false) manualRe 0 7 := by
  refine (ways_matches (.inr (.inr (by decide))) (by decide) 7).1 ?_
  refine ⟨(7, [.opn 1 3, .close 1 6]), by decide +kernel, rfl⟩
example : (search (view (codes "xxxbary") 0 false) manualRe) = some (0, 7, [.opn 1 3, .close 1 6]) := by decide +kernel

/-- What of an outcome can be compared. -/
def Outcome.show : Outcome → Option (List (Option Nat × Option Nat))
  | .found st en => some ((List.range 10).map fun k => (st k, en k))
  | _ => none

/-- The two groups of the example in the manual are at 0…7 and 3…6. -/
example : ((stringMatch false (codes "x*(foo|bar)y") (codes "xxxbary") 0 false 2048 1000).show).map (·.take 2) =
    some [(some 0, some 7), (some 3, some 6)] := by decide +kernel

/-! ### Where the code is wrong -/

def Outcome.isCorrupt : Outcome → Bool
  | .corrupt => true
  | _ => false
def Outcome.isWild : Outcome → Bool
  | .wild => true
  | _ => false
def Outcome.isOverflow : Outcome → Bool
  | .overflow => true
  | _ => false
def Outcome.isNoMatch : Outcome → Bool
  | .noMatch => true
  | _ => false

theorem corrupt_of {o : Outcome} (h : o.isCorrupt = true) : o = .corrupt := by cases o <;> first | rfl | cases h
theorem wild_of {o : Outcome} (h : o.isWild = true) : o = .wild := by cases o <;> first | rfl | cases h
theorem overflow_of {o : Outcome} (h : o.isOverflow = true) : o = .overflow := by cases o <;> first | rfl | cases h
theorem noMatch_of {o : Outcome} (h : o.isNoMatch = true) : o = .noMatch := by cases o <;> first | rfl | cases h

/-- The meaning of a pattern, decided. -/
theorem matches_of {x : Ctx} {r : Re} {i j : Nat} (hw : r.wf .alts = true) (hi : i ≤ x.text.length)
    (h : ((ways x r i).map Prod.fst).contains j = true) : Matches x r i j := by
  refine (ways_matches (.inr (.inr hw)) hi j).1 ?_
  rw [List.contains_iff_mem, List.mem_map] at h
  exact h

/-- `a??b` matches `ab`, but `string-match` reports corrupted memory. -/
theorem C52_lazy_optional_violated :
    ∃ r, parse (codes "a??b") = .ok r ∧ Matches (view (codes "ab") 0 false) r 0 2 ∧
      stringMatch false (codes "a??b") (codes "ab") 0 false 2048 1000 = .corrupt := by
  refine ⟨.last (.seq (.rep .opt false (.one (.lit [97]))) (.seq (.one (.lit [98])) .eps)), parse_of (by decide +kernel), ?_, ?_⟩
  · exact matches_of (by decide) (by decide) (by decide +kernel)
  · exact corrupt_of (by decide +kernel)

/-- With a group behind it, compiling the pattern writes outside the program. -/
theorem C52_lazy_optional_wild_violated :
    (∃ r, parse (codes "a??(b)") = .ok r) ∧
    ∀ str start nocase depth fuel, stringMatch false (codes "a??(b)") str start nocase depth fuel = .wild := by
  refine ⟨⟨.last (.seq (.rep .opt false (.one (.lit [97]))) (.seq (.grp 1 (.last (.seq (.one (.lit [98])) .eps))) .eps)),
    parse_of (by decide +kernel)⟩, ?_⟩
  intro str start nocase depth fuel
  have h : (compile (cstr (codes "a??(b)"))).isNone = true := by decide +kernel
  unfold stringMatch
  rw [Option.isNone_iff_eq_none.1 h]

/-- `(ab)*?|c` matches the empty string anywhere; `string-match` does not find it in `x`. -/
theorem C52_lazy_alternative_violated :
    ∃ r, parse (codes "(ab)*?|c") = .ok r ∧ Matches (view (codes "x") 0 false) r 0 0 ∧
      stringMatch false (codes "(ab)*?|c") (codes "x") 0 false 2048 1000 = .noMatch := by
  refine ⟨.alt (.seq (.rep .star false (.grp 1 (.last (.seq (.one (.lit (codes "ab"))) .eps)))) .eps)
    (.last (.seq (.one (.lit (codes "c"))) .eps)), parse_of (by decide +kernel), ?_, ?_⟩
  · exact matches_of (by decide) (by decide) (by decide +kernel)
  · exact noMatch_of (by decide +kernel)

/-- `a\W` does not match `a`, but `string-match` finds it, up to behind the end of the string. -/
theorem C52_class_at_end_violated :
    ∃ r, parse (codes "a\\W") = .ok r ∧ (∀ i j, i ≤ 1 → ¬ Matches (view (codes "a") 0 false) r i j) ∧
      ((stringMatch false (codes "a\\W") (codes "a") 0 false 2048 1000).show).map (·.take 1) = some [(some 0, some 2)] := by
  refine ⟨.last (.seq (.one (.lit [97])) (.seq (.one .nword) .eps)), parse_of (by decide +kernel), ?_, by decide +kernel⟩
  have h := (search_spec (x := view (codes "a") 0 false)
    (r := .last (.seq (.one (.lit [97])) (.seq (.one .nword) .eps))) (by decide)).1 (by decide +kernel)
  exact h

/-- With IGNORE-CASE-P, `a*é` (in Latin-1) does not match itself. -/
theorem C52_high_byte_violated :
    ∃ r, parse [97, 42, 233] = .ok r ∧ Matches (view [97, 233] 0 true) r 0 2 ∧
      stringMatch true [97, 42, 233] [97, 233] 0 true 2048 1000 = .noMatch := by
  refine ⟨.last (.seq (.rep .star true (.one (.lit [97]))) (.seq (.one (.lit [233])) .eps)), parse_of (by decide +kernel), ?_, ?_⟩
  · exact matches_of (by decide) (by decide) (by decide +kernel)
  · exact noMatch_of (by decide +kernel)

/-- A START outside the string is not refused: the bytes there are read. -/
theorem C52_start_violated {re str : List Nat} {start : Int} {nocase looking : Bool} {g : Prog}
    (hc : compile (cstr re) = some (.ok g)) (h : start < 0 ∨ start > str.length) (depth fuel : Nat) :
    stringMatch looking re str start nocase depth fuel = .wild := by
  unfold stringMatch
  rw [hc]
  simp only
  rw [if_pos h]

/-- The loop of `(a)*` goes three levels down for each character. -/
theorem deep {x : Ctx} {m : Mem} (h4 : m 4 = some ⟨.branch, 20⟩) (h7 : m 7 = some ⟨.opn 1, 3⟩)
    (h10 : m 10 = some ⟨.branch, 8⟩) (h13 : m 13 = some ⟨.one (.lit [97]), 5⟩) (h18 : m 18 = some ⟨.close 1, 3⟩)
    (h21 : m 21 = some ⟨.back, 17⟩) (h24 : m 24 = some ⟨.branch, 3⟩) (hx : ∀ b ∈ x.text, b = 97) (hn : x.nocase = false) :
    ∀ k f d pos, x.depth ≤ d + 3 * k → pos + k ≤ x.text.length → 7 * k + 2 ≤ f → run x m f d 4 pos = .overflow := by
  intro k
  induction k with
  | zero =>
    intro f d pos hd _ hf
    obtain ⟨f, rfl⟩ : ∃ j, f = j + 2 := ⟨f - 2, by omega⟩
    simp [run, h4, Node.next, h24, alts, show x.depth ≤ d + 1 by omega]
  | succ k ih =>
    intro f d pos hd hp hf
    obtain ⟨f, rfl⟩ : ∃ j, f = j + 7 := ⟨f - 7, by omega⟩
    have hb : x.rd pos = some 97 := by
      unfold Ctx.rd
      rw [if_pos (by omega)]
      congr 1
      refine hx _ ?_
      rw [List.getD_eq_getElem?_getD, List.getElem?_eq_getElem (by omega)]
      exact List.getElem_mem _
    have hs : x.step (.lit [97]) pos = some (some (pos + 1)) := by
      simp [Ctx.step, hb, Ctx.stepAt, Ctx.litAt, Ctx.same, hn]
    by_cases c1 : x.depth ≤ d + 1
    · simp [run, h4, Node.next, h24, alts, c1]
    by_cases c2 : x.depth ≤ d + 1 + 1
    · simp [run, h4, Node.next, h24, alts, h7, c2]
    by_cases c3 : x.depth ≤ d + 1 + 1 + 1
    · simp [run, h4, Node.next, h24, alts, h7, h10, h13, h18, hs, c3]
    have := ih f (d + 1 + 1 + 1) (pos + 1) (by omega) (by omega) (by omega)
    simp [run, h4, Node.next, h24, alts, h7, h10, h13, h18, h21, hs, c1, c2, c3, this]

/-- Whatever the limit of the recursion is (it is 2048), a string of that length is too long for
`(a)*`, although the pattern matches it. -/
theorem C52_depth_violated (limit fuel : Nat) (hf : 7 * limit + 10 ≤ fuel) :
    ∃ r, parse (codes "(a)*") = .ok r ∧ r.good false = true ∧
      Matches (view (List.replicate limit 97) 0 false) r 0 limit ∧
      stringMatch true (codes "(a)*") (List.replicate limit 97) 0 false limit fuel = .overflow := by
  refine ⟨.last (.seq (.rep .star true (.grp 1 (.last (.seq (.one (.lit [97])) .eps)))) .eps), parse_of (by decide +kernel),
    by decide, ?_, ?_⟩
  · refine .last (.seq ?_ .eps)
    have key : ∀ k i, i + k = limit →
        Matches (view (List.replicate limit 97) 0 false) (.rep .star true (.grp 1 (.last (.seq (.one (.lit [97])) .eps)))) i limit := by
      intro k
      induction k with
      | zero => rintro i rfl; exact .star0
      | succ k ih =>
        intro i hi
        refine .star1 (j := i + 1) (.grp (.last (.seq (.one ?_) .eps))) (ih (i + 1) (by omega))
        refine ⟨rfl, by simp [view]; omega, fun k hk => ?_⟩
        have hk : k = 0 := by simp at hk; omega
        subst hk
        simp [view, Ctx.same, List.getElem?_replicate, show i < limit by omega]
    exact key limit 0 (by omega)
  · have hc : ∃ g, compile (codes "(a)*") = some (.ok g) ∧ g.mem 1 = some ⟨.branch, 29⟩ ∧ g.mem 4 = some ⟨.branch, 20⟩ ∧
        g.mem 7 = some ⟨.opn 1, 3⟩ ∧ g.mem 10 = some ⟨.branch, 8⟩ ∧ g.mem 13 = some ⟨.one (.lit [97]), 5⟩ ∧
        g.mem 18 = some ⟨.close 1, 3⟩ ∧ g.mem 21 = some ⟨.back, 17⟩ ∧ g.mem 24 = some ⟨.branch, 3⟩ ∧
        g.mem 30 = some ⟨.fin, 0⟩ := by
      have key : (match compile (codes "(a)*") with
        | some (.ok g) => decide (g.mem 1 = some ⟨.branch, 29⟩ ∧ g.mem 4 = some ⟨.branch, 20⟩ ∧
          g.mem 7 = some ⟨.opn 1, 3⟩ ∧ g.mem 10 = some ⟨.branch, 8⟩ ∧ g.mem 13 = some ⟨.one (.lit [97]), 5⟩ ∧
          g.mem 18 = some ⟨.close 1, 3⟩ ∧ g.mem 21 = some ⟨.back, 17⟩ ∧ g.mem 24 = some ⟨.branch, 3⟩ ∧
          g.mem 30 = some ⟨.fin, 0⟩)
        | _ => false) = true := by decide +kernel
      split at key
      · rename_i g hg
        exact ⟨g, hg, of_decide_eq_true key⟩
      · cases key
    obtain ⟨g, hc, h1, h4, h7, h10, h13, h18, h21, h24, h30⟩ := hc
    unfold stringMatch
    rw [show cstr (codes "(a)*") = codes "(a)*" by decide, hc]
    simp only
    rw [if_neg (by omega)]
    simp only [if_true]
    rw [show (0 : Int).toNat = ((0 : Nat) : Int).toNat from rfl, Int.toNat_natCast,
      ctx_of (by intro c hc; rw [(List.mem_replicate.1 hc).2]; decide)]
    obtain ⟨f, rfl⟩ : ∃ j, fuel = j + 1 := ⟨fuel - 1, by omega⟩
    unfold regtry
    split
    · rename_i e c heq
      exfalso
      split at heq
      · cases heq
      · have := deep (x := (view (List.replicate limit 97) 0 false).at limit) h4 h7 h10 h13 h18 h21 h24
          (by intro b hb; exact (List.mem_replicate.1 hb).2) rfl limit f 0 0 (by simp [Ctx.at]; omega)
          (by simp [Ctx.at, view]) (by omega)
        simp [run, h1, Node.next, h30, this] at heq
    · rename_i heq
      split
      · rfl
      · have := deep (x := (view (List.replicate limit 97) 0 false).at limit) h4 h7 h10 h13 h18 h21 h24
          (by intro b hb; exact (List.mem_replicate.1 hb).2) rfl limit f 0 0 (by simp [Ctx.at]; omega)
          (by simp [Ctx.at, view]) (by omega)
        simp [run, h1, Node.next, h30, this, Res.outcome]

end Rep.Regex
