import Verif.Regex.Props
import Mathlib.Logic.Function.Basic

/-
C55: the cache of compiled regular expressions.
-/

namespace Rep.Regex.Cache

open Rep.Regex

/-- `struct cached_regexp`, find.c:47-51.  The compiled program is represented by the text it was
compiled from. -/
structure Entry where
  regexp : Nat
  comp : List Nat
  deriving DecidableEq, Repr

/-- The strings by their addresses (`none`: free memory) and the list of cached expressions. -/
structure G where
  text : Nat → Option (List Nat)
  cache : List Entry

/-- The bytes of a string. -/
def G.str (g : G) (s : Nat) : List Nat := (g.text s).getD []

/-- The test of the loop of `rep_compile_regexp`, find.c:71-73. -/
def hit (g : G) (re : Nat) (e : Entry) : Bool :=
  decide (e.regexp = re) || decide (g.str e.regexp = g.str re)

def compiles (t : List Nat) : Bool :=
  match compile (cstr t) with
  | some (.ok _) => true
  | _ => false

/-- `rep_compile_regexp`, find.c:60-110: the text the returned program was compiled from. -/
def compileRegexp (g : G) (re : Nat) : G × Option (List Nat) :=
  match g.cache.find? (hit g re) with
  | some e => ({ g with cache := e :: g.cache.eraseP (hit g re) }, some e.comp)
  | none =>
    if compiles (g.str re) then ({ g with cache := ⟨re, g.str re⟩ :: g.cache }, some (g.str re))
    else (g, none)

/-- `rep_string_modified`, find.c:113-129.  After an entry is removed the loop goes on with the
`next` field of the entry after it, whether or not there is one: `none` is an access through a null
pointer. -/
def modified (s : Nat) : List Entry → Option (List Entry)
  | [] => some []
  | e :: l =>
    if e.regexp = s then
      match l with
      | [] => none
      | e' :: l' => (modified s l').map (e' :: ·)
    else (modified s l).map (e :: ·)

/-- The entries `mark_cached_regexps` keeps, find.c:131-159; `size` is what an entry counts. -/
def kept (size : List Nat → Nat) : Nat → List Entry → List Entry
  | _, [] => []
  | total, e :: l => if total < 1024 then e :: kept size (total + size e.comp) l else []

inductive Op
  /-- a new string -/
  | make (s : Nat) (t : List Nat)
  /-- `string-match` or `string-looking-at` -/
  | find (looking : Bool) (re str : Nat) (start : Int) (nocase : Bool)
  /-- `aset` or `translate-string`: the string has these bytes now -/
  | modify (s : Nat) (t : List Nat)
  /-- output to a stream made from the string, streams.c:228-252 and 345-368, if there is room -/
  | append (s : Nat) (t : List Nat)
  /-- garbage collection; `live` says what else is referred to -/
  | gc (live : Nat → Bool)

/-- What an operation does and returns; `none` is a crash.  Operations on strings that do not exist
and `make` where there is one do nothing. -/
def step (size : List Nat → Nat) (depth fuel : Nat) (g : G) : Op → Option (G × Option Outcome)
  | .make s t =>
    match g.text s with
    | some _ => some (g, none)
    | none => some ({ g with text := Function.update g.text s (some t) }, none)
  | .find looking re str start nocase =>
    match g.text re, g.text str with
    | some t, some u =>
      match compileRegexp g re with
      | (g', some c) => some (g', some (stringMatch looking c u start nocase depth fuel))
      | (g', none) => some (g', some (stringMatch looking t u start nocase depth fuel))
    | _, _ => some (g, none)
  | .modify s t =>
    match g.text s with
    | none => some (g, none)
    | some _ =>
      match modified s g.cache with
      | none => none
      | some c => some ({ text := Function.update g.text s (some t), cache := c }, none)
  | .append s t =>
    match g.text s with
    | none => some (g, none)
    | some u => some ({ g with text := Function.update g.text s (some (u ++ t)) }, none)
  | .gc live =>
    let c := kept size 0 g.cache
    some ({ text := fun s => if live s || c.any (fun e => decide (e.regexp = s)) then g.text s else none, cache := c }, none)

def run (size : List Nat → Nat) (depth fuel : Nat) (g : G) : List Op → Option G
  | [] => some g
  | o :: l =>
    match step size depth fuel g o with
    | none => none
    | some (g', _) => run size depth fuel g' l

def G.empty : G := ⟨fun _ => none, []⟩

/-! ### The specification -/

namespace Spec

/-- The strings used as patterns since they were made. -/
def patterns (g : G) (used : List Nat) : Op → List Nat
  | .make s _ => if g.text s = none then used.filter (· ≠ s) else used
  | .find _ re _ _ _ => re :: used
  | _ => used

/-- In the history no string is the target of a stream after it was used as a pattern. -/
def noStreams (size : List Nat → Nat) (depth fuel : Nat) (g : G) (used : List Nat) : List Op → Prop
  | [] => True
  | o :: l =>
    (∀ s t, o = .append s t → s ∉ used) ∧
    ∀ g' r, step size depth fuel g o = some (g', r) → noStreams size depth fuel g' (patterns g used o) l

end Spec

/-! ### Proofs -/

/-- Each entry is of a string that exists, compiled from its present text, and of one entry only. -/
structure Good (g : G) : Prop where
  fresh : ∀ e ∈ g.cache, g.text e.regexp = some e.comp
  nodup : (g.cache.map Entry.regexp).Nodup

theorem nodup_eraseP {p : Entry → Bool} {l : List Entry} {e : Entry} (h : (l.map Entry.regexp).Nodup)
    (hf : l.find? p = some e) : ((e :: l.eraseP p).map Entry.regexp).Nodup := by
  have hp := List.find?_some hf
  induction l with
  | nil => cases hf
  | cons a l ih =>
    rw [List.map_cons, List.nodup_cons] at h
    by_cases ha : p a = true
    · rw [List.find?_cons_of_pos ha] at hf
      cases hf
      rw [List.eraseP_cons_of_pos ha, List.map_cons, List.nodup_cons]
      exact h
    · rw [List.find?_cons_of_neg ha] at hf
      have ih := ih h.2 hf
      rw [List.eraseP_cons_of_neg ha]
      rw [List.map_cons, List.nodup_cons] at ih
      simp only [List.map_cons, List.nodup_cons, List.mem_cons, not_or]
      refine ⟨⟨?_, ih.1⟩, ?_, ih.2⟩
      · intro he
        exact h.1 (he ▸ List.mem_map_of_mem (List.mem_of_find?_eq_some hf))
      · intro hm
        obtain ⟨b, hb, hb'⟩ := List.mem_map.1 hm
        exact h.1 (hb' ▸ List.mem_map_of_mem (List.mem_of_mem_eraseP hb))

theorem compile_good {g : G} {re : Nat} {t : List Nat} (hg : Good g) (ht : g.text re = some t) :
    Good (compileRegexp g re).1 ∧ (compileRegexp g re).1.text = g.text ∧
    (∀ e ∈ (compileRegexp g re).1.cache, e ∈ g.cache ∨ e.regexp = re) ∧
    (∀ c, (compileRegexp g re).2 = some c → c = t) := by
  have hs : g.str re = t := by simp [G.str, ht]
  unfold compileRegexp
  cases hf : g.cache.find? (hit g re) with
  | some e =>
    have he := List.mem_of_find?_eq_some hf
    have hsub : ∀ x ∈ e :: g.cache.eraseP (hit g re), x ∈ g.cache := by
      intro x hx
      rcases List.mem_cons.1 hx with rfl | hx
      · exact he
      · exact List.mem_of_mem_eraseP hx
    refine ⟨⟨fun x hx => hg.fresh x (hsub x hx), nodup_eraseP hg.nodup hf⟩, rfl, fun x hx => .inl (hsub x hx), ?_⟩
    intro c hc
    simp only [Option.some.injEq] at hc
    subst hc
    have h1 := hg.fresh e he
    have h2 := List.find?_some hf
    simp only [hit, Bool.or_eq_true, decide_eq_true_eq] at h2
    rcases h2 with h2 | h2
    · rw [h2, ht] at h1
      exact (Option.some.inj h1).symm
    · rw [hs] at h2
      simpa [G.str, h1] using h2
  | none =>
    simp only
    by_cases hc : compiles (g.str re) = true
    · rw [if_pos hc]
      refine ⟨⟨?_, ?_⟩, rfl, ?_, ?_⟩
      · intro x hx
        rcases List.mem_cons.1 hx with rfl | hx
        · simp only [hs, ht]
        · exact hg.fresh x hx
      · rw [List.map_cons, List.nodup_cons]
        refine ⟨?_, hg.nodup⟩
        intro hm
        obtain ⟨b, hb, hb'⟩ := List.mem_map.1 hm
        have := List.find?_eq_none.1 hf b hb
        simp only at hb'
        simp [hit, hb'] at this
      · intro x hx
        rcases List.mem_cons.1 hx with rfl | hx
        · exact .inr rfl
        · exact .inl hx
      · intro c h
        simp only [Option.some.injEq] at h
        rw [← h, hs]
    · rw [if_neg hc]
      exact ⟨hg, rfl, fun x hx => .inl hx, fun c h => nomatch h⟩

theorem modified_sub {s : Nat} : ∀ {l c : List Entry}, (l.map Entry.regexp).Nodup → modified s l = some c →
    (∀ e ∈ c, e ∈ l ∧ e.regexp ≠ s) ∧ c.Sublist l := by
  intro l
  induction hn : l.length using Nat.strongRecOn generalizing l with
  | _ n ih =>
    intro c hnd h
    cases l with
    | nil =>
      unfold modified at h
      cases h
      exact ⟨(fun e he => nomatch he), List.Sublist.slnil⟩
    | cons e l =>
      simp only [List.length_cons] at hn
      rw [List.map_cons, List.nodup_cons] at hnd
      unfold modified at h
      by_cases he : e.regexp = s
      · rw [if_pos he] at h
        cases l with
        | nil => cases h
        | cons e' l' =>
          simp only [List.length_cons] at hn
          simp only [Option.map_eq_some_iff] at h
          obtain ⟨c', h1, rfl⟩ := h
          have hnd' := hnd.2
          rw [List.map_cons, List.nodup_cons] at hnd'
          obtain ⟨i1, i2⟩ := ih l'.length (by omega) rfl hnd'.2 h1
          refine ⟨?_, .cons _ (.cons_cons _ i2)⟩
          intro x hx
          rcases List.mem_cons.1 hx with rfl | hx
          · refine ⟨by simp, fun e0 => hnd.1 ?_⟩
            rw [he, ← e0]
            simp
          · exact ⟨by simp [(i1 x hx).1], (i1 x hx).2⟩
      · rw [if_neg he] at h
        simp only [Option.map_eq_some_iff] at h
        obtain ⟨c', h1, rfl⟩ := h
        obtain ⟨i1, i2⟩ := ih l.length (by omega) rfl hnd.2 h1
        refine ⟨?_, .cons_cons _ i2⟩
        intro x hx
        rcases List.mem_cons.1 hx with rfl | hx
        · exact ⟨by simp, he⟩
        · exact ⟨by simp [(i1 x hx).1], (i1 x hx).2⟩

theorem kept_prefix (size : List Nat → Nat) : ∀ n l, kept size n l <+: l
  | _, [] => List.prefix_refl _
  | n, e :: l => by
    unfold kept
    split
    · exact List.prefix_cons_inj e |>.2 (kept_prefix size _ l)
    · exact List.nil_prefix

theorem step_good {size : List Nat → Nat} {depth fuel : Nat} {g g' : G} {used : List Nat} {o : Op} {r : Option Outcome}
    (hg : Good g) (hu : ∀ e ∈ g.cache, e.regexp ∈ used) (ho : ∀ s t, o = .append s t → s ∉ used)
    (h : step size depth fuel g o = some (g', r)) : Good g' ∧ ∀ e ∈ g'.cache, e.regexp ∈ Spec.patterns g used o := by
  cases o with
  | make s t =>
    unfold step at h
    simp only at h
    cases ht : g.text s with
    | some _ =>
      rw [ht] at h
      simp only [Option.some.injEq, Prod.mk.injEq] at h
      obtain ⟨rfl, _⟩ := h
      refine ⟨hg, fun e he => ?_⟩
      simp only [Spec.patterns, ht]
      exact hu e he
    | none =>
      rw [ht] at h
      simp only [Option.some.injEq, Prod.mk.injEq] at h
      obtain ⟨rfl, _⟩ := h
      have hne : ∀ e ∈ g.cache, e.regexp ≠ s := by
        intro e he h
        have := hg.fresh e he
        rw [h, ht] at this
        cases this
      refine ⟨⟨?_, hg.nodup⟩, ?_⟩
      · intro e he
        simp only [Function.update_of_ne (hne e he)]
        exact hg.fresh e he
      · intro e he
        simp only [Spec.patterns, ht, if_true, List.mem_filter]
        exact ⟨hu e he, by simpa using hne e he⟩
  | find looking re str start nocase =>
    have old : Good g ∧ ∀ e ∈ g.cache, e.regexp ∈ Spec.patterns g used (.find looking re str start nocase) :=
      ⟨hg, fun e he => List.mem_cons_of_mem _ (hu e he)⟩
    unfold step at h
    simp only at h
    cases hr : g.text re with
    | none =>
      rw [hr] at h
      simp only [Option.some.injEq, Prod.mk.injEq] at h
      obtain ⟨rfl, _⟩ := h
      exact old
    | some t =>
      cases hs : g.text str with
      | none =>
        rw [hr, hs] at h
        simp only [Option.some.injEq, Prod.mk.injEq] at h
        obtain ⟨rfl, _⟩ := h
        exact old
      | some u =>
        rw [hr, hs] at h
        simp only at h
        obtain ⟨c1, _, c3, _⟩ := compile_good hg hr
        have new : Good (compileRegexp g re).1 ∧
            ∀ e ∈ (compileRegexp g re).1.cache, e.regexp ∈ Spec.patterns g used (.find looking re str start nocase) := by
          refine ⟨c1, fun e he => ?_⟩
          rcases c3 e he with h | h
          · exact List.mem_cons_of_mem _ (hu e h)
          · exact h ▸ List.mem_cons_self ..
        rcases hc : compileRegexp g re with ⟨g1, _ | c⟩
        · rw [hc] at h new
          simp only [Option.some.injEq, Prod.mk.injEq] at h
          obtain ⟨rfl, _⟩ := h
          exact new
        · rw [hc] at h new
          simp only [Option.some.injEq, Prod.mk.injEq] at h
          obtain ⟨rfl, _⟩ := h
          exact new
  | modify s t =>
    unfold step at h
    simp only at h
    cases ht : g.text s with
    | none =>
      rw [ht] at h
      simp only [Option.some.injEq, Prod.mk.injEq] at h
      obtain ⟨rfl, _⟩ := h
      exact ⟨hg, hu⟩
    | some u =>
      rw [ht] at h
      simp only at h
      cases hm : modified s g.cache with
      | none =>
        rw [hm] at h
        cases h
      | some c =>
        rw [hm] at h
        simp only [Option.some.injEq, Prod.mk.injEq] at h
        obtain ⟨rfl, _⟩ := h
        obtain ⟨m1, m2⟩ := modified_sub hg.nodup hm
        refine ⟨⟨fun e he => ?_, List.Nodup.sublist (m2.map _) hg.nodup⟩, fun e he => hu e (m1 e he).1⟩
        simp only [Function.update_of_ne (m1 e he).2]
        exact hg.fresh e (m1 e he).1
  | append s t =>
    unfold step at h
    simp only at h
    cases ht : g.text s with
    | none =>
      rw [ht] at h
      simp only [Option.some.injEq, Prod.mk.injEq] at h
      obtain ⟨rfl, _⟩ := h
      exact ⟨hg, hu⟩
    | some u =>
      rw [ht] at h
      simp only [Option.some.injEq, Prod.mk.injEq] at h
      obtain ⟨rfl, _⟩ := h
      refine ⟨⟨fun e he => ?_, hg.nodup⟩, hu⟩
      have : e.regexp ≠ s := fun h => ho s t rfl (h ▸ hu e he)
      simp only [Function.update_of_ne this]
      exact hg.fresh e he
  | gc live =>
    unfold step at h
    simp only [Option.some.injEq, Prod.mk.injEq] at h
    obtain ⟨rfl, _⟩ := h
    have hk := kept_prefix size 0 g.cache
    refine ⟨⟨fun e he => ?_, List.Nodup.sublist (hk.sublist.map _) hg.nodup⟩, fun e he => hu e (hk.subset he)⟩
    simp only
    rw [if_pos]
    · exact hg.fresh e (hk.subset he)
    · simp only [Bool.or_eq_true, List.any_eq_true, decide_eq_true_eq]
      exact .inr ⟨e, he, rfl⟩

theorem run_good {size : List Nat → Nat} {depth fuel : Nat} : ∀ {ops : List Op} {g g' : G} {used : List Nat}, Good g →
    (∀ e ∈ g.cache, e.regexp ∈ used) → Spec.noStreams size depth fuel g used ops → run size depth fuel g ops = some g' → Good g'
  | [], g, g', used, hg, _, _, h => by
    simp only [run, Option.some.injEq] at h
    exact h ▸ hg
  | o :: l, g, g', used, hg, hu, hn, h => by
    unfold run at h
    cases hs : step size depth fuel g o with
    | none =>
      rw [hs] at h
      cases h
    | some p =>
      obtain ⟨g1, r⟩ := p
      rw [hs] at h
      obtain ⟨h1, h2⟩ := step_good hg hu hn.1 hs
      exact run_good h1 h2 (hn.2 g1 r hs) h

/-- C55.  After every history (that did not crash) in which no string is the target of a stream
after it was used as a pattern, `string-match` and `string-looking-at` use the present text of
their argument: the result is that of matching without a cache. -/
theorem C55_no_cache_partial {size : List Nat → Nat} {depth fuel : Nat} {ops : List Op} {g : G}
    (hn : Spec.noStreams size depth fuel G.empty [] ops) (hr : run size depth fuel G.empty ops = some g)
    {re str : Nat} {t u : List Nat} (ht : g.text re = some t) (hu : g.text str = some u)
    (looking : Bool) (start : Int) (nocase : Bool) :
    ∃ g', step size depth fuel g (.find looking re str start nocase) =
      some (g', some (stringMatch looking t u start nocase depth fuel)) ∧ g'.text = g.text := by
  have hg : Good g := run_good (g := G.empty) ⟨(fun e he => nomatch he), List.nodup_nil⟩ (fun e he => nomatch he) hn hr
  obtain ⟨_, c2, _, c4⟩ := compile_good hg ht
  unfold step
  simp only [ht, hu]
  rcases hc : compileRegexp g re with ⟨g1, _ | c⟩
  · rw [hc] at c2
    exact ⟨g1, rfl, c2⟩
  · rw [hc] at c2 c4
    obtain rfl := c4 c rfl
    exact ⟨g1, rfl, c2⟩

theorem modified_none {s : Nat} : ∀ {l : List Entry}, (l.map Entry.regexp).Nodup →
    (modified s l = none ↔ ∃ e, l.getLast? = some e ∧ e.regexp = s) := by
  intro l
  induction hn : l.length using Nat.strongRecOn generalizing l with
  | _ n ih =>
    intro hnd
    cases l with
    | nil => simp [modified]
    | cons e l =>
      simp only [List.length_cons] at hn
      rw [List.map_cons, List.nodup_cons] at hnd
      unfold modified
      by_cases he : e.regexp = s
      · rw [if_pos he]
        cases l with
        | nil => simp [he]
        | cons e' l' =>
          simp only [List.length_cons] at hn
          have hnd' := hnd.2
          rw [List.map_cons, List.nodup_cons] at hnd'
          have i := ih l'.length (by omega) rfl hnd'.2
          simp only [Option.map_eq_none_iff, i]
          constructor
          · rintro ⟨x, h1, h2⟩
            have hx := List.mem_of_getLast? h1
            exact absurd (he.trans h2.symm ▸ (by
              rw [List.map_cons]
              exact List.mem_cons_of_mem _ (List.mem_map_of_mem hx))) hnd.1
          · rintro ⟨x, h1, h2⟩
            have hx : x ∈ e' :: l' := by
              rw [List.getLast?_cons_cons] at h1
              exact List.mem_of_getLast? h1
            exact absurd (he.trans h2.symm ▸ List.mem_map_of_mem hx) hnd.1
      · rw [if_neg he]
        have i := ih l.length (by omega) rfl hnd.2
        simp only [Option.map_eq_none_iff, i]
        cases l with
        | nil => simp [he]
        | cons e' l' => rw [List.getLast?_cons_cons]

/-- Exactly which `aset` and `translate-string` crash: those of the string of the oldest entry. -/
theorem C55_crash_iff {size : List Nat → Nat} {depth fuel : Nat} {ops : List Op} {g : G}
    (hn : Spec.noStreams size depth fuel G.empty [] ops) (hr : run size depth fuel G.empty ops = some g) (o : Op) :
    step size depth fuel g o = none ↔
      ∃ s t, o = .modify s t ∧ ∃ e, g.cache.getLast? = some e ∧ e.regexp = s := by
  have hg : Good g := run_good (g := G.empty) ⟨(fun e he => nomatch he), List.nodup_nil⟩ (fun e he => nomatch he) hn hr
  cases o with
  | modify s t =>
    have key := modified_none (s := s) hg.nodup
    unfold step
    simp only
    constructor
    · intro h
      refine ⟨s, t, rfl, key.1 ?_⟩
      cases ht : g.text s with
      | none => rw [ht] at h; cases h
      | some u =>
        rw [ht] at h
        cases hm : modified s g.cache with
        | none => rfl
        | some c => rw [hm] at h; cases h
    · rintro ⟨s', t', h, h'⟩
      cases h
      have hm := key.2 h'
      obtain ⟨e, he, rfl⟩ := h'
      rw [hg.fresh e (List.mem_of_getLast? he), hm]
  | make s t =>
    refine ⟨fun h => ?_, fun ⟨_, _, h, _⟩ => nomatch h⟩
    unfold step at h
    simp only at h
    split at h <;> cases h
  | find looking re str start nocase =>
    refine ⟨fun h => ?_, fun ⟨_, _, h, _⟩ => nomatch h⟩
    unfold step at h
    simp only at h
    split at h
    · split at h <;> cases h
    · cases h
  | append s t =>
    refine ⟨fun h => ?_, fun ⟨_, _, h, _⟩ => nomatch h⟩
    unfold step at h
    simp only at h
    split at h <;> cases h
  | gc live =>
    refine ⟨fun h => ?_, fun ⟨_, _, h, _⟩ => nomatch h⟩
    unfold step at h
    cases h

/-- `(setq s "a") (string-match s "ab") (aset s 0 ?b)`: a null pointer is followed. -/
theorem C55_aset_violated (size : List Nat → Nat) :
    (run size 2048 100 G.empty [.make 1 (codes "a"), .make 2 (codes "ab"), .find false 1 2 0 false]).isSome = true ∧
    run size 2048 100 G.empty [.make 1 (codes "a"), .make 2 (codes "ab"), .find false 1 2 0 false, .modify 1 (codes "b")] = none := by
  have hc : compiles (codes "a") = true := by decide +kernel
  constructor <;> simp [run, step, G.empty, compileRegexp, G.str, hc, modified, Function.update]

/-- A stream's string used as a pattern: after more output to the stream, the old pattern is
matched. -/
theorem C55_stream_violated (size : List Nat → Nat) :
    ∃ g c, run size 2048 100 G.empty [.make 1 (codes "a"), .make 2 (codes "aa"), .find false 1 2 0 false, .append 1 (codes "b")] =
      some g ∧ g.text 1 = some (codes "ab") ∧ g.text 2 = some (codes "aa") ∧
      (step size 2048 100 g (.find false 1 2 0 false)).map (·.2) = some (some c) ∧ c.isNoMatch = false ∧
      (stringMatch false (codes "ab") (codes "aa") 0 false 2048 100).isNoMatch = true := by
  have hc : compiles (codes "a") = true := by decide +kernel
  have hm : (stringMatch false (codes "a") (codes "aa") 0 false 2048 100).isNoMatch = false := by decide +kernel
  have hab : codes "a" ++ codes "b" = codes "ab" := by decide
  refine ⟨⟨_, _⟩, _, by simp [run, step, G.empty, compileRegexp, G.str, hc, Function.update]; exact ⟨rfl, rfl⟩, by simp [hab], by simp, ?_, hm,
    by decide +kernel⟩
  simp [step, compileRegexp, G.str, hit]

/-- The hypotheses of `C55_no_cache_partial` hold for a history with a change of a pattern and a
collection. -/
example (size : List Nat → Nat) :
    ∃ g, run size 2048 100 G.empty [.make 1 (codes "a"), .make 2 (codes "ab"), .make 3 (codes "b"), .find false 1 2 0 false,
      .find false 3 2 0 false, .modify 3 (codes "c"), .gc (fun s => s < 4)] = some g ∧ g.text 3 = some (codes "c") ∧
      Spec.noStreams size 2048 100 G.empty [] [.make 1 (codes "a"), .make 2 (codes "ab"), .make 3 (codes "b"), .find false 1 2 0 false,
      .find false 3 2 0 false, .modify 3 (codes "c"), .gc (fun s => s < 4)] := by
  have hc : compiles (codes "a") = true := by decide +kernel
  have hc' : compiles (codes "b") = true := by decide +kernel
  have hne : codes "a" ≠ codes "b" := by decide
  refine ⟨⟨_, _⟩, by simp [run, step, G.empty, compileRegexp, G.str, hc, hc', hit, hne, modified, Function.update]; exact ⟨rfl, rfl⟩, by simp, ?_⟩
  simp [Spec.noStreams]

end Rep.Regex.Cache
