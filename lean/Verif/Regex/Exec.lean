import Verif.Regex.Run
import Verif.Regex.Search

/-
The search finds the first place with a match.
-/

namespace Rep.Regex

open Spec

def toFull : Option (Nat × Way) → Res
  | none => .fail
  | some v => .ok v.2.1 (groups v.1 v.2)

/-- A computation that takes the limit of the recursion and the bound on the steps has the result
`R`, unless the limit is `D` or less. -/
def Yields (g : Nat → Nat → Res) (R : Res) : Prop :=
  ∃ F D, ∀ depth f, F ≤ f → g depth f = R ∨ (g depth f = .overflow ∧ depth ≤ D)

theorem regtry_yields {x : Ctx} {m : Mem} {i : Nat} {R : Option Way} (h : Out x m 1 i R) :
    Yields (fun depth f => regtry (x.at depth) m f i) (toFull (R.map fun w => (i, w))) := by
  obtain ⟨F, D, h⟩ := h
  refine ⟨F, D, fun depth f hf => ?_⟩
  simp only [regtry]
  by_cases h0 : depth = 0
  · right
    rw [if_pos (by simp [Ctx.at, h0])]
    exact ⟨rfl, by omega⟩
  · rw [if_neg (by simp only [Ctx.at]; omega)]
    rcases h depth f 0 hf with e | ⟨e, hd⟩
    · left
      rw [e]
      cases R <;> rfl
    · right
      rw [e]
      exact ⟨rfl, by omega⟩

theorem firstTry_yields {x : Ctx} {m : Mem} {κ : Nat → Option Way} {L : List Nat}
    (h : ∀ i ∈ L, Yields (fun depth f => regtry (x.at depth) m f i) (toFull ((κ i).map fun w => (i, w)))) :
    Yields (fun depth f => firstTry (regtry (x.at depth) m f) L)
      (toFull (L.findSome? fun i => (κ i).map fun w => (i, w))) := by
  induction L with
  | nil => exact ⟨0, 0, fun _ _ _ => .inl rfl⟩
  | cons i L ih =>
    obtain ⟨F1, D1, h1⟩ := h i (List.mem_cons_self ..)
    obtain ⟨F2, D2, h2⟩ := ih fun j hj => h j (List.mem_cons_of_mem _ hj)
    refine ⟨max F1 F2, max D1 D2, fun depth f hf => ?_⟩
    simp only [firstTry, List.findSome?_cons]
    rcases h1 depth f (by omega) with e | ⟨e, hd⟩
    · simp only at e
      rw [e]
      cases hκ : κ i with
      | none =>
        simp only [Option.map_none, toFull]
        rcases h2 depth f (by omega) with e | ⟨e, hd⟩
        · exact .inl e
        · exact .inr ⟨e, by omega⟩
      | some w => exact .inl rfl
    · simp only at e
      right
      rw [e]
      exact ⟨rfl, by omega⟩

theorem occurs_ok {x : Ctx} {s : List Nat} (hs : (One.lit s).ok = true) {j : Nat} (hj : x.hasAt s j) :
    ∀ f pos, pos ≤ j → x.text.length + 1 ≤ f + pos → occurs x s f pos = true := by
  have hs' : s ≠ [] ∧ ∀ c ∈ s, c ≠ 0 := by
    simp only [One.ok, Bool.and_eq_true, List.all_eq_true] at hs
    refine ⟨?_, fun c hc => by simpa using hs.2 c hc⟩
    rintro rfl
    simp at hs
  have hl : 0 < s.length := List.length_pos_iff.2 hs'.1
  have hlen := hj.1
  intro f
  induction f with
  | zero => intro pos h1 h2; omega
  | succ f ih =>
    intro pos h1 h2
    rw [occurs]
    by_cases he : pos = j
    · subst he
      have a1 : x.same (s.headD 0) (x.text.getD pos 0) = true := by
        have := hj.2 0 hl
        cases s with
        | nil => exact absurd rfl hs'.1
        | cons c t => simpa using this
      rw [if_pos]
      have a2 : x.litAt s pos = some (some (pos + s.length)) := by
        rw [litAt_ok s hs'.2 pos (by omega), if_pos hj]
      rw [a1, a2]
      have : decide (pos < x.text.length) = true := by simp; omega
      rw [this]
      simp
    · split
      · rfl
      · rw [if_pos (by omega)]
        exact ih (pos + 1) (by omega) (by omega)

theorem occurs_at (x : Ctx) (depth : Nat) (s : List Nat) (f pos : Nat) : occurs (x.at depth) s f pos = occurs x s f pos := by
  have lit : ∀ (s : List Nat) pos, (x.at depth).litAt s pos = x.litAt s pos := by
    intro s
    induction s with
    | nil => intro pos; rfl
    | cons c s ih =>
      intro pos
      simp only [Ctx.litAt]
      have e1 : (x.at depth).rd pos = x.rd pos := rfl
      have e2 : ∀ a b, (x.at depth).same a b = x.same a b := fun _ _ => rfl
      simp only [e1, e2, ih]
  induction f generalizing pos with
  | zero => rfl
  | succ f ih =>
    simp only [occurs, ih, lit]
    rfl

/-- The search. -/
theorem regexec_yields {x : Ctx} {r : Re} {g : Prog} {q : Nat} (hx : x.Clean) (hw : r.wf .alts = true)
    (hg : r.good x.nocase = true) (hF : AFrag g.mem r 1 q) (hq : Op g.mem q .fin) (facts : Facts g r) :
    Yields (fun depth f => regexec (x.at depth) g f) (toFull (search x r)) := by
  have all : ∀ i, i ≤ x.text.length → Yields (fun depth f => regtry (x.at depth) g.mem f i)
      (toFull ((ways x r i).head?.map fun w => (i, w))) :=
    fun i hi => regtry_yields (program_out hx hw hg hF hq hi)
  have hmust : (search x r ≠ none) → mayMatch x g.must = true := by
    intro h
    obtain ⟨v, hv⟩ := Option.ne_none_iff_exists'.1 h
    obtain ⟨i, hi, hv⟩ := List.exists_of_findSome?_eq_some hv
    have hwi : ways x r i ≠ [] := by
      intro e
      rw [e] at hv
      simp at hv
    have hi' : i ≤ x.text.length := by
      have := List.mem_range.1 hi
      omega
    cases hm : g.must with
    | none => rfl
    | some s =>
      obtain ⟨h1, h2⟩ := facts.must s hm
      obtain ⟨j, hj⟩ := h2 x i hi' hwi
      exact occurs_ok h1 hj _ 0 (by omega) (by omega)
  have e0 : ∀ depth, mayMatch (x.at depth) g.must = mayMatch x g.must := by
    intro depth
    cases g.must with
    | none => rfl
    | some s => exact occurs_at ..
  by_cases hm : mayMatch x g.must = true
  · by_cases ha : g.anch = true
    · have e : search x r = (ways x r 0).head?.map fun w => (0, w) := by
        unfold search
        rw [List.range_succ_eq_map, List.findSome?_cons]
        cases hh : (ways x r 0).head?.map fun w => (0, w) with
        | some v => rfl
        | none =>
          simp only [List.findSome?_eq_none_iff, List.mem_map, List.mem_range]
          rintro i ⟨j, _, rfl⟩
          cases hws : ways x r (j + 1) with
          | nil => rfl
          | cons w l =>
            have := facts.anch ha x (j + 1) (by rw [hws]; simp)
            omega
      obtain ⟨F, D, h⟩ := all 0 (Nat.zero_le _)
      refine ⟨F, D, fun depth f hf => ?_⟩
      have := h depth f hf
      simp only [regexec, e0, if_pos hm, if_pos ha, e]
      exact this
    · have e : search x r = (starts x g.start).findSome? fun i => (ways x r i).head?.map fun w => (i, w) := by
        unfold search starts
        by_cases hs : g.start = 0
        · rw [if_pos hs]
        · rw [if_neg hs, List.range_succ, List.findSome?_append]
          have last : (ways x r x.text.length).head? = none := by
            cases hws : ways x r x.text.length with
            | nil => rfl
            | cons w l =>
              have := (facts.start hs x x.text.length (Nat.le_refl _) (by rw [hws]; simp)).1
              omega
          have : [x.text.length].findSome? (fun i => (ways x r i).head?.map fun w => (i, w)) = none := by
            simp [last]
          rw [this, Option.or_none]
          have key : ∀ L : List Nat, (∀ i ∈ L, i < x.text.length) →
              L.findSome? (fun i => (ways x r i).head?.map fun w => (i, w)) =
              (L.filter fun i => x.same g.start (x.text.getD i 0)).findSome?
                (fun i => (ways x r i).head?.map fun w => (i, w)) := by
            intro L
            induction L with
            | nil => intro _; rfl
            | cons i L ih =>
              intro hL
              rw [List.findSome?_cons, List.filter_cons, ih fun j hj => hL j (List.mem_cons_of_mem _ hj)]
              by_cases hsame : x.same g.start (x.text.getD i 0) = true
              · rw [if_pos hsame, List.findSome?_cons]
              · rw [if_neg hsame]
                cases hws : ways x r i with
                | nil => rfl
                | cons w l =>
                  have hi := hL i (List.mem_cons_self ..)
                  exact absurd (facts.start hs x i (by omega) (by rw [hws]; simp)).2 hsame
          exact key _ fun i hi => List.mem_range.1 hi
      obtain ⟨F, D, h⟩ := firstTry_yields (x := x) (m := g.mem) (κ := fun i => (ways x r i).head?) (L := starts x g.start)
        fun i hi => all i (by
          unfold starts at hi
          split at hi
          · have := List.mem_range.1 hi
            omega
          · have := List.mem_range.1 (List.mem_filter.1 hi).1
            omega)
      refine ⟨F, D, fun depth f hf => ?_⟩
      have := h depth f hf
      simp only [regexec, e0, if_pos hm, if_neg ha, e]
      exact this
  · have e : search x r = none := Classical.byContradiction fun h => hm (hmust h)
    refine ⟨0, 0, fun depth f _ => .inl ?_⟩
    simp only [regexec, e0, if_neg hm, e]
    rfl

/-- A pattern that the code handles right is compiled to a program of the right shape. -/
theorem compile_ok {s : List Nat} {r : Re} {nc : Bool} (hp : parse s = .ok r) (hw : r.wf .alts = true)
    (hg : r.good nc = true) (hs : 1 + size false r + 3 < 32767) :
    ∃ g q, compile s = some (.ok g) ∧ AFrag g.mem r 1 q ∧ Op g.mem q .fin ∧ Facts g r := by
  obtain ⟨e, q, h1, h2, h3, h4⟩ := emit_ok hw hg hs
  obtain ⟨g, k1, k2, k3⟩ := analyse_ok hw h2 h3 h4
  refine ⟨g, q, ?_, by rw [k2]; exact h2, by rw [k2]; exact ⟨_, h3, rfl⟩, k3⟩
  unfold compile
  rw [hp]
  simp only
  rw [if_neg (by omega), h1]
  simp [k1]

end Rep.Regex
