import Verif.Regex.Search

/-
The list of the ways to match is the relation `Matches`.
-/

namespace Rep.Regex

open Spec

theorem oneEnd_iff {x : Ctx} {o : One} {i j : Nat} (hi : i ≤ x.text.length) :
    oneEnd x o i = some j ↔ one x o i j := by
  unfold oneEnd
  rw [if_neg (by omega)]
  cases o with
  | lit s =>
    simp only [one, Option.ite_none_right_eq_some, Option.some.injEq, List.all_eq_true, List.mem_range]
    constructor
    · rintro ⟨⟨h1, h2⟩, rfl⟩
      exact ⟨rfl, h1, h2⟩
    · rintro ⟨rfl, h1, h2⟩
      exact ⟨⟨h1, h2⟩, rfl⟩
  | bol =>
    simp only [one, Option.ite_none_right_eq_some, Option.some.injEq, Bool.and_eq_true, beq_iff_eq]
    constructor
    · rintro ⟨⟨h1, h2⟩, rfl⟩; exact ⟨rfl, h2, h1⟩
    · rintro ⟨rfl, h1, h2⟩; exact ⟨⟨h2, h1⟩, rfl⟩
  | eol =>
    simp only [one, Option.ite_none_right_eq_some, Option.some.injEq, beq_iff_eq]
    constructor
    · rintro ⟨h, rfl⟩; exact ⟨rfl, h⟩
    · rintro ⟨rfl, h⟩; exact ⟨h, rfl⟩
  | wedge =>
    simp only [one, Option.ite_none_right_eq_some, Option.some.injEq, Bool.or_eq_true, Bool.and_eq_true, beq_iff_eq,
      bne_iff_ne, ne_eq]
    constructor
    · rintro ⟨(⟨h1, h2⟩ | h) | h, rfl⟩
      · exact ⟨rfl, hi, .inl ⟨h2, h1⟩⟩
      · exact ⟨rfl, hi, .inr (.inl h)⟩
      · exact ⟨rfl, hi, .inr (.inr h)⟩
    · rintro ⟨rfl, _, ⟨h1, h2⟩ | h | h⟩
      · exact ⟨.inl (.inl ⟨h2, h1⟩), rfl⟩
      · exact ⟨.inl (.inr h), rfl⟩
      · exact ⟨.inr h, rfl⟩
  | nwedge =>
    simp only [one, Option.ite_none_left_eq_some, Option.some.injEq, Bool.or_eq_true, Bool.and_eq_true, beq_iff_eq,
      bne_iff_ne, ne_eq, not_or, not_and, Classical.not_not]
    constructor
    · rintro ⟨⟨⟨h1, h2⟩, h3⟩, rfl⟩
      exact ⟨rfl, by omega, fun h0 h => h1 h h0, h3⟩
    · rintro ⟨rfl, h0, h1, h2⟩
      exact ⟨⟨⟨fun a b => h1 b a, by omega⟩, h2⟩, rfl⟩
  | any =>
    simp only [one, Option.ite_none_right_eq_some, Option.some.injEq]
    constructor
    · rintro ⟨h, rfl⟩; exact ⟨rfl, h⟩
    · rintro ⟨rfl, h⟩; exact ⟨h, rfl⟩
  | set neg s =>
    simp only [one, Option.ite_none_right_eq_some, Option.some.injEq, Bool.and_eq_true, decide_eq_true_eq, bne_iff_ne, ne_eq]
    have key : (¬ s.contains (x.text.getD i 0) = neg) ↔ (x.text.getD i 0 ∈ s ↔ neg = false) := by
      rw [← List.contains_iff_mem]
      cases s.contains (x.text.getD i 0) <;> cases neg <;> simp
    rw [key]
    constructor
    · rintro ⟨⟨h1, h2⟩, rfl⟩; exact ⟨rfl, h1, h2⟩
    · rintro ⟨rfl, h1, h2⟩; exact ⟨⟨h1, h2⟩, rfl⟩
  | word | nword | wspc | nwspc | digi | ndigi =>
    simp only [one, Option.ite_none_right_eq_some, Option.some.injEq, Bool.and_eq_true, decide_eq_true_eq,
      Bool.not_eq_eq_eq_not, Bool.not_true]
    constructor
    · rintro ⟨⟨h1, h2⟩, rfl⟩; exact ⟨rfl, h1, h2⟩
    · rintro ⟨rfl, h1, h2⟩; exact ⟨⟨h1, h2⟩, rfl⟩

/-- There is a way that ends at `j`. -/
def Ends (ws : List Way) (j : Nat) : Prop := ∃ w ∈ ws, w.1 = j

theorem ends_andThen {a : List Way} {b : Nat → List Way} {k : Nat} :
    Ends (andThen a b) k ↔ ∃ j, Ends a j ∧ Ends (b j) k := by
  simp only [Ends, andThen, List.mem_flatMap, List.mem_map]
  constructor
  · rintro ⟨w, ⟨u, hu, v, hv, rfl⟩, rfl⟩
    exact ⟨u.1, ⟨u, hu, rfl⟩, v, hv, rfl⟩
  · rintro ⟨_, ⟨u, hu, rfl⟩, v, hv, rfl⟩
    exact ⟨_, ⟨u, hu, v, hv, rfl⟩, rfl⟩

theorem ends_append {a b : List Way} {k : Nat} : Ends (a ++ b) k ↔ Ends a k ∨ Ends b k := by
  simp only [Ends, List.mem_append]
  constructor
  · rintro ⟨w, h | h, e⟩
    · exact .inl ⟨w, h, e⟩
    · exact .inr ⟨w, h, e⟩
  · rintro (⟨w, h, e⟩ | ⟨w, h, e⟩)
    · exact ⟨w, .inl h, e⟩
    · exact ⟨w, .inr h, e⟩

theorem ends_unit {i k : Nat} {l : List Ev} : Ends [(i, l)] k ↔ k = i := by
  simp [Ends, eq_comm]

theorem ends_cons {i k : Nat} {l : List Ev} {ws : List Way} : Ends ((i, l) :: ws) k ↔ k = i ∨ Ends ws k := by
  have := ends_append (a := [(i, l)]) (b := ws) (k := k)
  rw [ends_unit] at this
  exact this

theorem ends_star_succ {f : Nat → List Way} {g : Bool} {N i k : Nat} :
    Ends (star f g (N + 1) i) k ↔ k = i ∨ ∃ j, Ends (f i) j ∧ Ends (star f g N j) k := by
  rw [star]
  cases g with
  | true => rw [if_pos rfl, ends_append, ends_unit, ends_andThen, or_comm]
  | false => rw [if_neg (by simp), ends_cons, ends_andThen]

theorem ends_star {x : Ctx} {r : Re} {g : Bool}
    (ih : ∀ {i}, i ≤ x.text.length → ∀ j, Ends (ways x r i) j ↔ Matches x r i j)
    (adv : ∀ {i}, i ≤ x.text.length → ∀ w ∈ ways x r i, i < w.1 ∧ w.1 ≤ x.text.length) (k : Nat) :
    ∀ N i, i ≤ x.text.length → x.text.length < N + i →
      (Ends (star (ways x r) g N i) k ↔ Matches x (.rep .star g r) i k) := by
  intro N
  induction N with
  | zero => intro i h1 h2; omega
  | succ N ihN =>
    intro i hi hN
    rw [ends_star_succ]
    constructor
    · rintro (rfl | ⟨j, h1, h2⟩)
      · exact .star0
      · obtain ⟨w, hw, rfl⟩ := h1
        have := adv hi w hw
        refine .star1 ((ih hi _).1 ⟨w, hw, rfl⟩) ((ihN w.1 this.2 (by omega)).1 h2)
    · intro h
      cases h with
      | star0 => exact .inl rfl
      | star1 h1 h2 =>
        rename_i j
        obtain ⟨w, hw, rfl⟩ := (ih hi _).2 h1
        have := adv hi w hw
        exact .inr ⟨_, ⟨w, hw, rfl⟩, (ihN w.1 this.2 (by omega)).2 h2⟩

theorem ways_matches {x : Ctx} {r : Re} : (r.wf .piece = true ∨ r.wf .branch = true ∨ r.wf .alts = true) →
    ∀ {i}, i ≤ x.text.length → ∀ j, Ends (ways x r i) j ↔ Matches x r i j := by
  induction r with
  | eps =>
    intro _ i hi j
    simp only [ways, ends_unit]
    constructor
    · rintro rfl; exact .eps
    · intro h; cases h; rfl
  | one o =>
    intro _ i hi j
    have key : Ends (ways x (.one o) i) j ↔ oneEnd x o i = some j := by
      simp only [ways]
      cases oneEnd x o i with
      | none => simp [Ends]
      | some k => simp [ends_unit, eq_comm]
    rw [key, oneEnd_iff hi]
    constructor
    · exact .one
    · intro h; cases h; assumption
  | grp n r ih =>
    intro hw i hi j
    have hw' : r.wf .alts = true := by
      rcases hw with h | h | h
      · simpa [Re.wf] using h
      · simp [Re.wf] at h
      · simp [Re.wf] at h
    have key : Ends (ways x (.grp n r) i) j ↔ Ends (ways x r i) j := by
      simp only [Ends, ways, List.mem_map]
      constructor
      · rintro ⟨_, ⟨w, h, rfl⟩, rfl⟩
        exact ⟨w, h, rfl⟩
      · rintro ⟨w, h, rfl⟩
        exact ⟨_, ⟨w, h, rfl⟩, rfl⟩
    rw [key, ih (.inr (.inr hw')) hi]
    constructor
    · exact .grp
    · intro h; cases h; assumption
  | rep m g r ih =>
    intro hw i hi j
    have hw' : r.wf .piece = true ∧ (m = .opt ∨ r.hasWidth = true) := by
      rcases hw with h | h | h
      · simp only [Re.wf, Bool.and_eq_true, Bool.or_eq_true, beq_iff_eq] at h
        refine ⟨?_, ?_⟩
        · simp_all
        · simp_all
      · simp [Re.wf] at h
      · simp [Re.wf] at h
    have ih' := fun {i} (hi : i ≤ x.text.length) j => ih (.inl hw'.1) hi j
    have adv : r.hasWidth = true → ∀ {i}, i ≤ x.text.length → ∀ w ∈ ways x r i, i < w.1 ∧ w.1 ≤ x.text.length := by
      intro hh i hi w hw
      have := ways_le (.inl hw'.1) hi w hw
      exact ⟨this.2.2 hh, this.2.1⟩
    cases m with
    | opt =>
      have key : Ends (ways x (.rep .opt g r) i) j ↔ j = i ∨ Ends (ways x r i) j := by
        simp only [ways]
        cases g with
        | true => rw [if_pos rfl, ends_append, ends_unit, or_comm]
        | false => rw [if_neg (by simp), ends_cons]
      rw [key, ih' hi]
      constructor
      · rintro (rfl | h)
        · exact .opt0
        · exact .opt1 h
      · intro h
        cases h with
        | opt0 => exact .inl rfl
        | opt1 h => exact .inr h
    | star =>
      have hh := hw'.2.resolve_left (by simp)
      simp only [ways]
      exact ends_star ih' (adv hh) j _ i hi (by omega)
    | plus =>
      have hh := hw'.2.resolve_left (by simp)
      simp only [ways, ends_andThen]
      constructor
      · rintro ⟨k, ⟨w, h1, rfl⟩, h2⟩
        have := adv hh hi w h1
        exact .plus ((ih' hi _).1 ⟨w, h1, rfl⟩) ((ends_star ih' (adv hh) j _ w.1 this.2 (by omega)).1 h2)
      · intro h
        cases h with
        | plus h1 h2 =>
          obtain ⟨w, hw, rfl⟩ := (ih' hi _).2 h1
          have := adv hh hi w hw
          exact ⟨_, ⟨w, hw, rfl⟩, (ends_star ih' (adv hh) j _ w.1 this.2 (by omega)).2 h2⟩
  | seq a b iha ihb =>
    intro hw i hi j
    have hw' : a.wf .piece = true ∧ b.wf .branch = true := by
      rcases hw with h | h | h
      · simp [Re.wf] at h
      · simpa [Re.wf] using h
      · simp [Re.wf] at h
    simp only [ways, ends_andThen]
    constructor
    · rintro ⟨k, ⟨w, h1, rfl⟩, h2⟩
      have := (ways_le (.inl hw'.1) hi w h1).2.1
      exact .seq ((iha (.inl hw'.1) hi _).1 ⟨w, h1, rfl⟩) ((ihb (.inr (.inl hw'.2)) this _).1 h2)
    · intro h
      cases h with
      | seq h1 h2 =>
        obtain ⟨w, hw, rfl⟩ := (iha (.inl hw'.1) hi _).2 h1
        have := (ways_le (.inl hw'.1) hi w hw).2.1
        exact ⟨_, ⟨w, hw, rfl⟩, (ihb (.inr (.inl hw'.2)) this _).2 h2⟩
  | alt a b iha ihb =>
    intro hw i hi j
    have hw' : a.wf .branch = true ∧ b.wf .alts = true := by
      rcases hw with h | h | h
      · simp [Re.wf] at h
      · simp [Re.wf] at h
      · simpa [Re.wf] using h
    simp only [ways, ends_append, iha (.inr (.inl hw'.1)) hi, ihb (.inr (.inr hw'.2)) hi]
    constructor
    · rintro (h | h)
      · exact .left h
      · exact .right h
    · intro h
      cases h with
      | left h => exact .inl h
      | right h => exact .inr h
  | last a ih =>
    intro hw i hi j
    have hw' : a.wf .branch = true := by
      rcases hw with h | h | h
      · simp [Re.wf] at h
      · simp [Re.wf] at h
      · simpa [Re.wf] using h
    simp only [ways, ih (.inr (.inl hw')) hi]
    constructor
    · exact .last
    · intro h; cases h; assumption

/-- What the search finds is the first place with a match. -/
theorem search_spec {x : Ctx} {r : Re} (hw : r.wf .alts = true) :
    (search x r = none → ∀ i j, i ≤ x.text.length → ¬ Matches x r i j) ∧
    (∀ i w, search x r = some (i, w) → i ≤ x.text.length ∧ Matches x r i w.1 ∧ (ways x r i).head? = some w ∧
      ∀ i' j', i' < i → ¬ Matches x r i' j') := by
  have none_of : ∀ {i}, i ≤ x.text.length → (ways x r i).head?.map (fun w => (i, w)) = none → ∀ j, ¬ Matches x r i j := by
    intro i hi h j hm
    obtain ⟨w, hw, _⟩ := (ways_matches (.inr (.inr hw)) hi j).2 hm
    cases hws : ways x r i with
    | nil => rw [hws] at hw; cases hw
    | cons v l => rw [hws] at h; cases h
  constructor
  · intro h i j hi
    unfold search at h
    rw [List.findSome?_eq_none_iff] at h
    exact none_of hi (h i (List.mem_range.2 (by omega))) j
  · intro i w h
    unfold search at h
    obtain ⟨l1, a, l2, e, h1, h2⟩ := List.findSome?_eq_some_iff.1 h
    cases hws : (ways x r a).head? with
    | none => rw [hws] at h1; cases h1
    | some v =>
      rw [hws] at h1
      cases h1
      have hlen : l1.length = i ∧ l1 = List.range i ∧ i < x.text.length + 1 := by
        have hget : (List.range (x.text.length + 1))[l1.length]? = some i := by
          rw [e]; simp
        rw [List.getElem?_eq_some_iff] at hget
        obtain ⟨hl, hg⟩ := hget
        simp only [List.getElem_range] at hg
        rw [List.length_range] at hl
        refine ⟨hg, ?_, by omega⟩
        have ht : (List.range (x.text.length + 1)).take l1.length = l1 := by
          rw [e]; simp
        rw [List.take_range] at ht
        rw [← ht, ← hg]
        congr 1
        omega
      have hi : i ≤ x.text.length := by omega
      refine ⟨hi, ?_, hws, ?_⟩
      · refine (ways_matches (.inr (.inr hw)) hi _).1 ⟨w, ?_, rfl⟩
        exact List.mem_of_mem_head? hws
      · intro i' j' hi'
        refine none_of (by omega) ?_ j'
        exact h2 i' (by rw [hlen.2.1]; exact List.mem_range.2 hi')

end Rep.Regex
