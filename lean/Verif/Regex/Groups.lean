import Verif.Regex.Props

/-
Where the groups of a match are.
-/

namespace Rep.Regex

open Spec

def Spec.Ev.num : Ev → Nat
  | .opn n _ => n
  | .close n _ => n

/-- The events of the group `k` are pairs of an opening and a closing, in this order, between `lo`
and `hi`. -/
def Pairs (k lo hi : Nat) (l : List Ev) : Prop :=
  ∃ ps : List (Nat × Nat), l.filter (fun e => e.num == k) = ps.flatMap (fun p => [.opn k p.1, .close k p.2]) ∧
    ∀ p ∈ ps, lo ≤ p.1 ∧ p.1 ≤ p.2 ∧ p.2 ≤ hi

theorem Pairs.nil (k lo hi : Nat) : Pairs k lo hi [] := ⟨[], rfl, fun _ h => nomatch h⟩

theorem Pairs.append {k lo hi : Nat} {a b : List Ev} (ha : Pairs k lo hi a) (hb : Pairs k lo hi b) : Pairs k lo hi (a ++ b) := by
  obtain ⟨p, h1, h2⟩ := ha
  obtain ⟨q, h3, h4⟩ := hb
  refine ⟨p ++ q, by rw [List.filter_append, h1, h3, List.flatMap_append], fun x hx => ?_⟩
  rcases List.mem_append.1 hx with h | h
  · exact h2 x h
  · exact h4 x h

theorem Pairs.mono {k lo hi lo' hi' : Nat} {a : List Ev} (ha : Pairs k lo hi a) (h1 : lo' ≤ lo) (h2 : hi ≤ hi') :
    Pairs k lo' hi' a := by
  obtain ⟨p, h3, h4⟩ := ha
  exact ⟨p, h3, fun x hx => by have := h4 x hx; omega⟩

/-- The numbers of the groups of a pattern are from `n` up to before `n'`, inner ones after the outer
one. -/
def Re.numbered : Re → Nat → Nat → Prop
  | .eps, _, _ => True
  | .one _, _, _ => True
  | .grp k r, n, n' => n ≤ k ∧ k < n' ∧ r.numbered (k + 1) n'
  | .rep _ _ r, n, n' => r.numbered n n'
  | .seq a b, n, n' => a.numbered n n' ∧ b.numbered n n'
  | .alt a b, n, n' => a.numbered n n' ∧ b.numbered n n'
  | .last a, n, n' => a.numbered n n'

theorem numbered_mono {r : Re} : ∀ {n n' m m'}, r.numbered n n' → m ≤ n → n' ≤ m' → r.numbered m m' := by
  induction r with
  | eps => exact fun _ _ _ => trivial
  | one => exact fun _ _ _ => trivial
  | grp k r ih => exact fun h h1 h2 => ⟨by have := h.1; omega, by have := h.2.1; omega, ih h.2.2 (Nat.le_refl _) h2⟩
  | rep _ _ r ih => exact fun {n n' m m'} h h1 h2 => (ih (n := n) (n' := n') h h1 h2 : r.numbered m m')
  | seq a b iha ihb => exact fun h h1 h2 => ⟨iha h.1 h1 h2, ihb h.2 h1 h2⟩
  | alt a b iha ihb => exact fun h h1 h2 => ⟨iha h.1 h1 h2, ihb h.2 h1 h2⟩
  | last a ih => exact fun {n n' m m'} h h1 h2 => (ih (n := n) (n' := n') h h1 h2 : a.numbered m m')

theorem reads_numbered {k : Kind} {r : Re} {s : List Nat} {n n' : Nat} (h : Reads k r s n n') :
    n ≤ n' ∧ r.numbered n n' := by
  induction h with
  | bol | eol | any | set | nset | cls | quoted | lit => exact ⟨Nat.le_refl _, trivial⟩
  | grp _ _ ih => exact ⟨by omega, ⟨Nat.le_refl _, by omega, ih.2⟩⟩
  | atom _ ih => exact ih
  | rep _ _ ih => exact ih
  | nil => exact ⟨Nat.le_refl _, trivial⟩
  | cons _ _ iha ihb =>
    exact ⟨by omega, numbered_mono iha.2 (Nat.le_refl _) ihb.1, numbered_mono ihb.2 iha.1 (Nat.le_refl _)⟩
  | last _ ih => exact ih
  | alt _ _ iha ihb =>
    exact ⟨by omega, numbered_mono iha.2 (Nat.le_refl _) ihb.1, numbered_mono ihb.2 iha.1 (Nat.le_refl _)⟩

/-- Events are of groups of the pattern. -/
theorem ways_num {x : Ctx} {r : Re} : ∀ {n n'}, r.numbered n n' → ∀ i w, w ∈ ways x r i →
    ∀ e ∈ w.2, n ≤ e.num ∧ e.num < n' := by
  have andThen_num : ∀ {a : List Way} {b : Nat → List Way} {n n' : Nat},
      (∀ w ∈ a, ∀ e ∈ w.2, n ≤ e.num ∧ e.num < n') → (∀ i, ∀ w ∈ b i, ∀ e ∈ w.2, n ≤ e.num ∧ e.num < n') →
      ∀ w ∈ andThen a b, ∀ e ∈ w.2, n ≤ e.num ∧ e.num < n' := by
    intro a b n n' ha hb w hw e he
    simp only [andThen, List.mem_flatMap, List.mem_map] at hw
    obtain ⟨u, hu, v, hv, rfl⟩ := hw
    rcases List.mem_append.1 he with h | h
    · exact ha u hu e h
    · exact hb _ v hv e h
  have star_num : ∀ {f : Nat → List Way} {g : Bool} {n n' : Nat},
      (∀ i, ∀ w ∈ f i, ∀ e ∈ w.2, n ≤ e.num ∧ e.num < n') →
      ∀ N i, ∀ w ∈ star f g N i, ∀ e ∈ w.2, n ≤ e.num ∧ e.num < n' := by
    intro f g n n' hf N
    induction N with
    | zero =>
      intro i w hw e he
      simp only [star, List.mem_singleton] at hw
      rw [hw] at he
      cases he
    | succ N ih =>
      intro i w hw e he
      simp only [star] at hw
      have key : w ∈ andThen (f i) (star f g N) ∨ w = (i, []) := by
        split at hw
        · rcases List.mem_append.1 hw with h | h
          · exact .inl h
          · exact .inr (List.mem_singleton.1 h)
        · rcases List.mem_cons.1 hw with h | h
          · exact .inr h
          · exact .inl h
      rcases key with h | h
      · exact andThen_num (hf i) ih w h e he
      · rw [h] at he
        cases he
  induction r with
  | eps =>
    intro n n' _ i w hw e he
    simp only [ways, List.mem_singleton] at hw
    rw [hw] at he
    cases he
  | one o =>
    intro n n' _ i w hw e he
    simp only [ways] at hw
    split at hw
    · cases hw
    · rw [List.mem_singleton.1 hw] at he
      cases he
  | grp k r ih =>
    intro n n' h i w hw e he
    simp only [ways, List.mem_map] at hw
    obtain ⟨v, hv, rfl⟩ := hw
    have h1 := h.1
    have h2 := h.2.1
    rcases List.mem_cons.1 he with rfl | he
    · exact ⟨h1, h2⟩
    · rcases List.mem_append.1 he with he | he
      · have := ih h.2.2 i v hv e he
        omega
      · rw [List.mem_singleton.1 he]
        exact ⟨h1, h2⟩
  | rep m g r ih =>
    intro n n' h i w hw e he
    have ih' := fun i => ih (n := n) (n' := n') h i
    cases m with
    | opt =>
      simp only [ways] at hw
      have key : w ∈ ways x r i ∨ w = (i, []) := by
        split at hw
        · rcases List.mem_append.1 hw with h | h
          · exact .inl h
          · exact .inr (List.mem_singleton.1 h)
        · rcases List.mem_cons.1 hw with h | h
          · exact .inr h
          · exact .inl h
      rcases key with h | h
      · exact ih' i w h e he
      · rw [h] at he
        cases he
    | star => exact star_num ih' _ i w hw e he
    | plus => exact andThen_num (ih' i) (fun j => star_num ih' _ j) w hw e he
  | seq a b iha ihb =>
    intro n n' h i w hw e he
    exact andThen_num (iha h.1 i) (fun j => ihb h.2 j) w hw e he
  | alt a b iha ihb =>
    intro n n' h i w hw e he
    rcases List.mem_append.1 hw with h' | h'
    · exact iha h.1 i w h' e he
    · exact ihb h.2 i w h' e he
  | last a ih => exact fun {n n'} h i w hw e he => ih (n := n) (n' := n') h i w hw e he

/-- The events of each group are pairs within the match. -/
theorem ways_pairs {x : Ctx} {r : Re} (k : Nat) : (r.wf .piece = true ∨ r.wf .branch = true ∨ r.wf .alts = true) →
    ∀ {n n'}, r.numbered n n' → ∀ i w, i ≤ x.text.length → w ∈ ways x r i → Pairs k i w.1 w.2 := by
  have andThen_pairs : ∀ {a : List Way} {b : Nat → List Way} {i : Nat},
      (∀ w ∈ a, w.1 ≤ x.text.length ∧ i ≤ w.1 ∧ Pairs k i w.1 w.2) →
      (∀ j, j ≤ x.text.length → ∀ w ∈ b j, j ≤ w.1 ∧ Pairs k j w.1 w.2) →
      ∀ w ∈ andThen a b, Pairs k i w.1 w.2 := by
    intro a b i ha hb w hw
    simp only [andThen, List.mem_flatMap, List.mem_map] at hw
    obtain ⟨u, hu, v, hv, rfl⟩ := hw
    obtain ⟨h1, h2, h3⟩ := ha u hu
    obtain ⟨h4, h5⟩ := hb u.1 h1 v hv
    exact (h3.mono (Nat.le_refl _) h4).append (h5.mono h2 (Nat.le_refl _))
  have star_pairs : ∀ {f : Nat → List Way} {g : Bool},
      (∀ i, i ≤ x.text.length → ∀ w ∈ f i, w.1 ≤ x.text.length ∧ i ≤ w.1 ∧ Pairs k i w.1 w.2) →
      ∀ N i, i ≤ x.text.length → ∀ w ∈ star f g N i, i ≤ w.1 ∧ Pairs k i w.1 w.2 := by
    intro f g hf N
    induction N with
    | zero =>
      intro i hi w hw
      simp only [star, List.mem_singleton] at hw
      rw [hw]
      exact ⟨Nat.le_refl _, .nil ..⟩
    | succ N ih =>
      intro i hi w hw
      simp only [star] at hw
      have key : w ∈ andThen (f i) (star f g N) ∨ w = (i, []) := by
        split at hw
        · rcases List.mem_append.1 hw with h | h
          · exact .inl h
          · exact .inr (List.mem_singleton.1 h)
        · rcases List.mem_cons.1 hw with h | h
          · exact .inr h
          · exact .inl h
      rcases key with h | h
      · refine ⟨?_, andThen_pairs (hf i hi) ih w h⟩
        simp only [andThen, List.mem_flatMap, List.mem_map] at h
        obtain ⟨u, hu, v, hv, rfl⟩ := h
        obtain ⟨h1, h2, _⟩ := hf i hi u hu
        have := (ih u.1 h1 v hv).1
        simp only
        omega
      · rw [h]
        exact ⟨Nat.le_refl _, .nil ..⟩
  induction r with
  | eps =>
    intro _ n n' _ i w hi hw
    simp only [ways, List.mem_singleton] at hw
    rw [hw]
    exact .nil ..
  | one o =>
    intro _ n n' _ i w hi hw
    simp only [ways] at hw
    split at hw
    · cases hw
    · rw [List.mem_singleton.1 hw]
      exact .nil ..
  | grp m r ih =>
    intro hwf n n' h i w hi hw
    have hw' : r.wf .alts = true := by
      rcases hwf with h | h | h
      · simpa [Re.wf] using h
      · simp [Re.wf] at h
      · simp [Re.wf] at h
    simp only [ways, List.mem_map] at hw
    obtain ⟨v, hv, rfl⟩ := hw
    have hin := ways_le (.inr (.inr hw')) hi v hv
    by_cases hk : m = k
    · subst hk
      refine ⟨[(i, v.1)], ?_, ?_⟩
      · have : v.2.filter (fun e => e.num == m) = [] := by
          rw [List.filter_eq_nil_iff]
          intro e he
          have := ways_num h.2.2 i v hv e he
          simp only [beq_iff_eq]
          omega
        rw [List.filter_cons, if_pos (by simp [Ev.num]), List.filter_append, this]
        simp [Ev.num]
      · intro p hp
        rw [List.mem_singleton.1 hp]
        exact ⟨Nat.le_refl _, hin.1, Nat.le_refl _⟩
    · obtain ⟨ps, h1, h2⟩ := ih (.inr (.inr hw')) h.2.2 i v hi hv
      refine ⟨ps, ?_, h2⟩
      rw [List.filter_cons, if_neg (by simpa [Ev.num] using hk), List.filter_append, h1]
      rw [List.filter_cons, if_neg (by simpa [Ev.num] using hk)]
      simp
  | rep m g r ih =>
    intro hwf n n' h i w hi hw
    have hw' : r.wf .piece = true := by
      rcases hwf with h | h | h
      · simp only [Re.wf, Bool.and_eq_true] at h
        simp_all
      · simp [Re.wf] at h
      · simp [Re.wf] at h
    have ih' : ∀ i, i ≤ x.text.length → ∀ w ∈ ways x r i, w.1 ≤ x.text.length ∧ i ≤ w.1 ∧ Pairs k i w.1 w.2 := by
      intro i hi w hw
      have := ways_le (.inl hw') hi w hw
      exact ⟨this.2.1, this.1, ih (.inl hw') (n := n) (n' := n') h i w hi hw⟩
    cases m with
    | opt =>
      simp only [ways] at hw
      have key : w ∈ ways x r i ∨ w = (i, []) := by
        split at hw
        · rcases List.mem_append.1 hw with h | h
          · exact .inl h
          · exact .inr (List.mem_singleton.1 h)
        · rcases List.mem_cons.1 hw with h | h
          · exact .inr h
          · exact .inl h
      rcases key with h | h
      · exact (ih' i hi w h).2.2
      · rw [h]
        exact .nil ..
    | star => exact (star_pairs ih' _ i hi w hw).2
    | plus => exact andThen_pairs (ih' i hi) (fun j hj => star_pairs ih' _ j hj) w hw
  | seq a b iha ihb =>
    intro hwf n n' h i w hi hw
    have hw' : a.wf .piece = true ∧ b.wf .branch = true := by
      rcases hwf with h | h | h
      · simp [Re.wf] at h
      · simpa [Re.wf] using h
      · simp [Re.wf] at h
    refine andThen_pairs (fun u hu => ?_) (fun j hj v hv => ?_) w hw
    · have := ways_le (.inl hw'.1) hi u hu
      exact ⟨this.2.1, this.1, iha (.inl hw'.1) h.1 i u hi hu⟩
    · have := ways_le (.inr (.inl hw'.2)) hj v hv
      exact ⟨this.1, ihb (.inr (.inl hw'.2)) h.2 j v hj hv⟩
  | alt a b iha ihb =>
    intro hwf n n' h i w hi hw
    have hw' : a.wf .branch = true ∧ b.wf .alts = true := by
      rcases hwf with h | h | h
      · simp [Re.wf] at h
      · simp [Re.wf] at h
      · simpa [Re.wf] using h
    rcases List.mem_append.1 hw with h' | h'
    · exact iha (.inr (.inl hw'.1)) h.1 i w hi h'
    · exact ihb (.inr (.inr hw'.2)) h.2 i w hi h'
  | last a ih =>
    intro hwf n n' h i w hi hw
    have hw' : a.wf .branch = true := by
      rcases hwf with h | h | h
      · simp [Re.wf] at h
      · simp [Re.wf] at h
      · simpa [Re.wf] using h
    exact ih (.inr (.inl hw')) (n := n) (n' := n') h i w hi hw

theorem caps_filter (k : Nat) (l : List Ev) :
    (caps l).st k = (caps (l.filter fun e => e.num == k)).st k ∧ (caps l).en k = (caps (l.filter fun e => e.num == k)).en k := by
  induction l with
  | nil => exact ⟨rfl, rfl⟩
  | cons e l ih =>
    rw [List.filter_cons]
    cases e with
    | opn n i =>
      by_cases hn : n = k
      · subst hn
        rw [if_pos (by simp [Ev.num])]
        simp only [caps, Caps.open]
        rw [← ih.1]
        split
        · simp [ih.2]
        · exact ih
      · rw [if_neg (by simpa [Ev.num] using hn)]
        simp only [caps, Caps.open]
        split
        · refine ⟨?_, ih.2⟩
          simp only
          rw [if_neg (fun h => hn h.symm)]
          exact ih.1
        · exact ih
    | close n i =>
      by_cases hn : n = k
      · subst hn
        rw [if_pos (by simp [Ev.num])]
        simp only [caps, Caps.close]
        rw [← ih.2]
        split
        · simp [ih.1]
        · exact ih
      · rw [if_neg (by simpa [Ev.num] using hn)]
        simp only [caps, Caps.close]
        split
        · refine ⟨ih.1, ?_⟩
          simp only
          rw [if_neg (fun h => hn h.symm)]
          exact ih.2
        · exact ih

theorem pairs_caps {k lo hi : Nat} {l : List Ev} (h : Pairs k lo hi l) :
    ((caps l).st k = none ∧ (caps l).en k = none) ∨
    ∃ a b, (caps l).st k = some a ∧ (caps l).en k = some b ∧ lo ≤ a ∧ a ≤ b ∧ b ≤ hi := by
  obtain ⟨ps, h1, h2⟩ := h
  rw [(caps_filter k l).1, (caps_filter k l).2, h1]
  clear h1
  induction ps with
  | nil => exact .inl ⟨rfl, rfl⟩
  | cons p ps ih =>
    have ih := ih fun q hq => h2 q (List.mem_cons_of_mem _ hq)
    simp only [List.flatMap_cons, List.cons_append, List.nil_append, caps, Caps.open, Caps.close]
    rcases ih with ⟨e1, e2⟩ | ⟨a, b, e1, e2, h3⟩
    · right
      refine ⟨p.1, p.2, ?_, ?_, h2 p (List.mem_cons_self ..)⟩
      · simp [e1, e2]
      · simp [e1, e2]
    · right
      exact ⟨a, b, by simp [e1, e2], by simp [e1, e2], h3⟩

/-- C52.  The groups of a match are inside it, and each begins before it ends; a group has a start if
and only if it has an end. -/
theorem C52_groups_inside {re : List Nat} {r : Re} {x : Ctx} {i : Nat} {w : Way} (hre : NoNul re) (hp : parse re = .ok r)
    (hi : i ≤ x.text.length) (hw : (ways x r i).head? = some w) (k : Nat) :
    ((groups i w).st k = none ∧ (groups i w).en k = none) ∨
    ∃ a b, (groups i w).st k = some a ∧ (groups i w).en k = some b ∧ i ≤ a ∧ a ≤ b ∧ b ≤ w.1 := by
  have hwf := parse_wf hre hp
  obtain ⟨n, hr⟩ := parse_reads hp
  have hmem := List.mem_of_mem_head? hw
  by_cases hk : k = 0
  · subst hk
    exact .inr ⟨i, w.1, rfl, rfl, Nat.le_refl _, (ways_le (.inr (.inr hwf)) hi w hmem).1, Nat.le_refl _⟩
  · simp only [groups, if_neg hk]
    exact pairs_caps (ways_pairs k (.inr (.inr hwf)) (reads_numbered hr).2 i w hi hmem)

end Rep.Regex
