import Verif.Regex.Quote

/-
`string-looking-at` with a pattern made by `quote-regexp`.
-/

namespace Rep.Regex

open Spec

theorem quote_nul {s : List Nat} (hs : NoNul s) : NoNul (quote s) := by
  induction s with
  | nil => intro c hc; cases hc
  | cons c s ih =>
    intro a ha
    rw [quote] at ha
    split at ha
    · rcases List.mem_cons.1 ha with rfl | ha
      · decide
      · rcases List.mem_cons.1 ha with rfl | ha
        · exact hs a (List.mem_cons_self ..)
        · exact ih hs.tail a ha
    · rcases List.mem_cons.1 ha with rfl | ha
      · exact hs a (List.mem_cons_self ..)
      · exact ih hs.tail a ha

theorem hasAt_prefix {s str : List Nat} : (view str 0 false).hasAt s 0 ↔ s <+: str := by
  simp only [Ctx.hasAt, view, List.drop_zero, Ctx.same, Nat.zero_add, Bool.false_eq_true, if_false]
  rw [List.prefix_iff_eq_take]
  constructor
  · rintro ⟨h1, h2⟩
    apply List.ext_getElem (by simp; omega)
    intro k hk hk'
    have := h2 k hk
    simp only [List.getD_eq_getElem?_getD, List.getElem?_eq_getElem hk,
      List.getElem?_eq_getElem (Nat.lt_of_lt_of_le hk h1), Option.getD_some] at this
    simpa using this
  · intro h
    have hl : s.length ≤ str.length := by
      have := congrArg List.length h
      simp at this
      omega
    refine ⟨hl, fun k hk => ?_⟩
    have : s[k]? = str[k]? := by
      conv => lhs; rw [h]
      rw [List.getElem?_take_of_lt hk]
    simp only [List.getD_eq_getElem?_getD, this]
    simp

/-- A pattern made by `quote-regexp` looks at a string that starts with the original one. -/
theorem looking_quote {s str : List Nat} (hs : NoNul s) (hstr : NoNul str)
    (hlen : 5 * s.length + 10 < 32767) :
    ∃ F, ∀ depth fuel, 0 < depth → F ≤ fuel →
      (stringMatch true (quote s) str 0 false depth fuel = .noMatch ∧ ¬ s <+: str) ∨
      (∃ st en, stringMatch true (quote s) str 0 false depth fuel = .found st en ∧ s <+: str ∧
        en 0 = some s.length) := by
  obtain ⟨b, hb, hp⟩ := parse_quote s
  have hq := quote_nul hs
  have hg : (Re.last b).good false = true := by rw [Re.good]; exact spells_good hb (fun h => by cases h)
  have hsz : 1 + size false (.last b) + 3 < 32767 := by
    have := spells_size hb true
    simp only [size]
    omega
  obtain ⟨_, F, D, h⟩ := C52_string_looking_at_partial (nocase := false) hq hstr (Nat.zero_le _) hp hg hsz
  have mat : ∀ j, Matches (view str 0 false) (.last b) 0 j ↔ j = s.length ∧ s <+: str := by
    intro j
    rw [← hasAt_prefix]
    have hm := spells_matches (x := view str 0 false) hb (i := 0) (j := j) (Nat.zero_le _)
    rw [Nat.zero_add] at hm
    rw [← hm]
    constructor
    · intro h; cases h; assumption
    · exact .last
  refine ⟨F, fun depth fuel hd hf => ?_⟩
  rcases h depth fuel hf with ⟨e, _⟩ | ⟨e, hn⟩ | ⟨w, e, hm, _⟩
  · exfalso
    have hw := parse_wf hq hp
    obtain ⟨g, q, hc, hF, hqf, _⟩ := compile_ok hp hw hg hsz
    have lev := level_program hb hF hqf
    have try_ok : ∀ x pos, 0 < x.depth → regtry x g.mem fuel pos ≠ .overflow := by
      intro x pos hx
      unfold regtry
      rw [if_neg (by omega)]
      have := lev x fuel 0 pos
      split
      · simp
      · exact this
    have := try_ok ((view str 0 false).at depth) 0 hd
    unfold stringMatch at e
    rw [cstr_of hq, hc] at e
    simp only at e
    rw [if_neg (by omega)] at e
    have e' : (regtry ((view str 0 false).at depth) g.mem fuel 0).outcome 0 = .overflow := by
      rw [← ctx_of hstr]
      exact e
    generalize regtry ((view str 0 false).at depth) g.mem fuel 0 = R at e' this
    cases R with
    | overflow => exact this rfl
    | fail | ok | corrupt | wild | fuel => simp [Res.outcome] at e'
  · exact .inl ⟨e, fun hpre => hn s.length ((mat _).2 ⟨rfl, hpre⟩)⟩
  · right
    obtain ⟨hj, hpre⟩ := (mat w.1).1 hm
    refine ⟨_, _, e, hpre, ?_⟩
    simp [groups, hj]

end Rep.Regex
