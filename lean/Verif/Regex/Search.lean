import Verif.Regex.Run

/-
What is recorded to speed up the search is right.
-/

namespace Rep.Regex

open Spec

theorem andThen_ne {a : List Way} {b : Nat → List Way} (h : andThen a b ≠ []) : a ≠ [] := by
  rintro rfl
  exact h rfl

theorem andThen_ne' {a : List Way} {b : Nat → List Way} (h : andThen a b ≠ []) : ∃ w ∈ a, b w.1 ≠ [] := by
  obtain ⟨v, hv⟩ := List.exists_mem_of_ne_nil _ h
  simp only [andThen, List.mem_flatMap, List.mem_map] at hv
  obtain ⟨w, h1, w', h2, _⟩ := hv
  exact ⟨w, h1, List.ne_nil_of_mem h2⟩

theorem ways_one_ne {x : Ctx} {o : One} {i : Nat} (h : ways x (.one o) i ≠ []) : oneEnd x o i ≠ none := by
  intro e
  simp [ways, e] at h

/-- If the first node is an atom, the pattern starts with it. -/
theorem first_one {m : Mem} {o : One} {r : Re} : ∀ {p q l : Nat}, Frag m r p q l → Op m p (.one o) →
    ∀ (x : Ctx) i, ways x r i ≠ [] → oneEnd x o i ≠ none := by
  induction r with
  | eps => exact fun h ho => nomatch h.1.inj ho
  | one o' =>
    intro p q l h ho x i hw
    cases h.1.inj ho
    exact ways_one_ne hw
  | grp n r _ => exact fun h ho => nomatch h.1.inj ho
  | rep mu g r ih =>
    intro p q l h ho x i hw
    unfold Frag at h
    split at h
    · have := h.1.inj ho
      cases mu <;> cases g <;> cases this
    · cases mu <;> cases g <;> simp only at h
      · exact nomatch h.1.inj ho
      · exact nomatch h.1.inj ho
      · obtain ⟨b, lx, h1, _⟩ := h
        exact ih h1 ho x i (andThen_ne hw)
      · obtain ⟨b, lx, h1, _⟩ := h
        exact ih h1 ho x i (andThen_ne hw)
      · exact nomatch h.1.inj ho
  | seq a b iha _ =>
    intro p q l h ho x i hw
    unfold Frag at h
    have hw' : ways x a i ≠ [] := andThen_ne hw
    split at h
    · exact iha h ho x i hw'
    · obtain ⟨q1, l1, h1, _⟩ := h
      exact iha h1 ho x i hw'
  | alt a b _ _ => exact fun h => nomatch h
  | last a _ => exact fun h => nomatch h

/-! ### The required string -/

/-- Every match of `r` contains the string `s`. -/
def Must (r : Re) (s : List Nat) : Prop :=
  (One.lit s).ok = true ∧ ∀ (x : Ctx) i, i ≤ x.text.length → ways x r i ≠ [] → ∃ j, x.hasAt s j

theorem longest_skip {m : Mem} {p k : Nat} {op : Opc} (h : Op m p op) (ho : ∀ s, op ≠ .one (.lit s))
    (hl : Link m p k) (f : Nat) (best : Option (List Nat)) : longest m (f + 1) p best = longest m f k best := by
  obtain ⟨nd, h1, h2⟩ := h
  rw [longest]
  simp only [h1, hl.next h1]
  congr 1
  rw [h2]
  split
  · exact absurd rfl (ho _)
  · rfl

/-- The loop gets from `p` to `k` with at most `k - p` steps and finds only required strings. -/
def Goes (m : Mem) (r : Re) (p k : Nat) : Prop :=
  ∀ f best, k - p ≤ f → ∃ f' best', longest m f p best = longest m f' k best' ∧ f ≤ f' + (k - p) ∧ f' ≤ f ∧
    (best' = best ∨ ∃ s, best' = some s ∧ Must r s)

theorem Goes.skip {m : Mem} {r : Re} {p k k' : Nat} {op : Opc} (h : Op m p op) (ho : ∀ s, op ≠ .one (.lit s))
    (hl : Link m p k) (hlt : p < k) (hle : k ≤ k') (hg : Goes m r k k') : Goes m r p k' := by
  intro f best hf
  obtain ⟨f, rfl⟩ : ∃ j, f = j + 1 := ⟨f - 1, by omega⟩
  obtain ⟨f', b', e, h1, h2, h3⟩ := hg f best (by omega)
  exact ⟨f', b', by rw [longest_skip h ho hl, e], by omega, by omega, h3⟩

theorem Goes.refl (m : Mem) (r : Re) (p : Nat) : Goes m r p p :=
  fun f best _ => ⟨f, best, rfl, by omega, Nat.le_refl _, .inl rfl⟩

theorem Goes.trans {m : Mem} {r : Re} {a b c : Nat} (h1 : Goes m r a b) (h2 : Goes m r b c) (hab : a ≤ b) (hbc : b ≤ c) :
    Goes m r a c := by
  intro f best hf
  obtain ⟨f', b', e, k1, k2, k3⟩ := h1 f best (by omega)
  obtain ⟨f'', b'', e', j1, j2, j3⟩ := h2 f' b' (by omega)
  refine ⟨f'', b'', by rw [e, e'], by omega, by omega, ?_⟩
  rcases j3 with rfl | j3
  · exact k3
  · exact .inr j3

theorem Goes.weak {m : Mem} {r r' : Re} {a b : Nat} (h : Goes m r a b)
    (hr : ∀ (x : Ctx) i, i ≤ x.text.length → ways x r' i ≠ [] → ∃ j, j ≤ x.text.length ∧ ways x r j ≠ []) :
    Goes m r' a b := by
  intro f best hf
  obtain ⟨f', b', e, k1, k2, k3⟩ := h f best hf
  refine ⟨f', b', e, k1, k2, k3.imp id ?_⟩
  rintro ⟨s, rfl, hs, hm⟩
  refine ⟨s, rfl, hs, fun x i hi hw => ?_⟩
  obtain ⟨j, hj, hw'⟩ := hr x i hi hw
  exact hm x j hj hw'

/-- A way ends in the text. -/
theorem ways_le {x : Ctx} {r : Re} : (r.wf .piece = true ∨ r.wf .branch = true ∨ r.wf .alts = true) →
    ∀ {i}, i ≤ x.text.length → ∀ w ∈ ways x r i, i ≤ w.1 ∧ w.1 ≤ x.text.length ∧ (r.hasWidth = true → i < w.1) := by
  have starLe : ∀ (f : Nat → List Way) (g : Bool),
      (∀ {i}, i ≤ x.text.length → ∀ w ∈ f i, i ≤ w.1 ∧ w.1 ≤ x.text.length) →
      ∀ N i, i ≤ x.text.length → ∀ w ∈ star f g N i, i ≤ w.1 ∧ w.1 ≤ x.text.length := by
    intro f g hf N
    induction N with
    | zero =>
      intro i hi w hw
      simp only [star, List.mem_singleton] at hw
      subst hw
      exact ⟨Nat.le_refl _, hi⟩
    | succ N ih =>
      intro i hi w hw
      have : w = (i, []) ∨ w ∈ andThen (f i) (star f g N) := by
        unfold star at hw
        split at hw <;> simp only [List.mem_append, List.mem_cons, List.not_mem_nil, or_false] at hw
        · exact hw.symm
        · exact hw
      rcases this with rfl | h
      · exact ⟨Nat.le_refl _, hi⟩
      · simp only [andThen, List.mem_flatMap, List.mem_map] at h
        obtain ⟨v, h1, v', h2, rfl⟩ := h
        have a := hf hi v h1
        have b := ih v.1 a.2 v' h2
        exact ⟨by omega, b.2⟩
  induction r with
  | eps =>
    intro _ i hi w hw
    simp only [ways, List.mem_singleton] at hw
    subst hw
    exact ⟨Nat.le_refl _, hi, fun h => nomatch h⟩
  | one o =>
    intro h i hi w hw
    have ho : o.ok = true := by
      rcases h with h | h | h
      · exact h
      · cases h
      · cases h
    simp only [ways] at hw
    cases he : oneEnd x o i with
    | none => simp [he] at hw
    | some j =>
      simp only [he, List.mem_singleton] at hw
      subst hw
      have := oneEnd_le ho he
      exact ⟨this.1, this.2.1, this.2.2⟩
  | grp n r ih =>
    intro h i hi w hw
    have h' : r.wf .alts = true := by
      rcases h with h | h | h
      · exact h
      · cases h
      · cases h
    simp only [ways, List.mem_map] at hw
    obtain ⟨v, hv, rfl⟩ := hw
    exact ih (.inr (.inr h')) hi v hv
  | rep mu g r ih =>
    intro h i hi w hw
    have h' : r.wf .piece = true ∧ (mu = .opt ∨ r.hasWidth = true) := by
      rcases h with h | h | h
      · simp only [Re.wf, Bool.and_eq_true] at h
        exact ⟨h.1.1, by simpa using h.1.2⟩
      · cases h
      · cases h
    have hr := @ih (.inl h'.1)
    have hf : ∀ {i}, i ≤ x.text.length → ∀ w ∈ ways x r i, i ≤ w.1 ∧ w.1 ≤ x.text.length :=
      fun hi w hw => ⟨(hr hi w hw).1, (hr hi w hw).2.1⟩
    cases mu with
    | star =>
      have := starLe _ g hf _ i hi w hw
      exact ⟨this.1, this.2, fun h => nomatch h⟩
    | plus =>
      simp only [ways, andThen, List.mem_flatMap, List.mem_map] at hw
      obtain ⟨v, h1, v', h2, rfl⟩ := hw
      have a := hr hi v h1
      have b := starLe _ g hf _ v.1 a.2.1 v' h2
      have := a.2.2 (by simpa using h'.2)
      exact ⟨by simp only; omega, b.2, fun _ => by simp only; omega⟩
    | opt =>
      have : w = (i, []) ∨ w ∈ ways x r i := by
        simp only [ways] at hw
        split at hw <;> simp only [List.mem_append, List.mem_cons, List.not_mem_nil, or_false] at hw
        · exact hw.symm
        · exact hw
      rcases this with rfl | hw
      · exact ⟨Nat.le_refl _, hi, fun h => nomatch h⟩
      · exact ⟨(hr hi w hw).1, (hr hi w hw).2.1, fun h => nomatch h⟩
  | seq a b iha ihb =>
    intro h i hi w hw
    have h' : a.wf .piece = true ∧ b.wf .branch = true := by
      rcases h with h | h | h
      · cases h
      · simpa only [Re.wf, Bool.and_eq_true] using h
      · cases h
    simp only [ways, andThen, List.mem_flatMap, List.mem_map] at hw
    obtain ⟨v, h1, v', h2, rfl⟩ := hw
    have A := iha (.inl h'.1) hi v h1
    have B := ihb (.inr (.inl h'.2)) A.2.1 v' h2
    refine ⟨by simp only; omega, B.2.1, fun h => ?_⟩
    simp only [Re.hasWidth, Bool.or_eq_true] at h
    rcases h with h | h
    · have := A.2.2 h; simp only; omega
    · have := B.2.2 h; simp only; omega
  | alt a b iha ihb =>
    intro h i hi w hw
    have h' : a.wf .branch = true ∧ b.wf .alts = true := by
      rcases h with h | h | h
      · cases h
      · cases h
      · simpa only [Re.wf, Bool.and_eq_true] using h
    simp only [ways, List.mem_append] at hw
    rcases hw with hw | hw
    · have := iha (.inr (.inl h'.1)) hi w hw
      exact ⟨this.1, this.2.1, fun h => this.2.2 (by simp only [Re.hasWidth, Bool.and_eq_true] at h; exact h.1)⟩
    · have := ihb (.inr (.inr h'.2)) hi w hw
      exact ⟨this.1, this.2.1, fun h => this.2.2 (by simp only [Re.hasWidth, Bool.and_eq_true] at h; exact h.2)⟩
  | last a iha =>
    intro h i hi w hw
    have h' : a.wf .branch = true := by
      rcases h with h | h | h
      · cases h
      · cases h
      · exact h
    exact iha (.inr (.inl h')) hi w hw

/-- Walking over `BRANCH` nodes to the end of the alternatives. -/
theorem goes_alts {m : Mem} {r r' : Re} : ∀ {p q : Nat}, AFrag m r p q → Goes m r' p q := by
  induction r with
  | alt a b _ ih =>
    intro p q h
    have hle := h.le
    obtain ⟨h0, q1, l1, h1, h2, _, h4⟩ := h
    have := h2.le
    have := h4.le
    exact .skip h0 (by simp) h1 (by omega) (by omega) (ih h4)
  | last a _ =>
    intro p q h
    have hle := h.le
    obtain ⟨h0, l1, h1, _⟩ := h
    exact .skip h0 (by simp) h1 (by omega) (Nat.le_refl _) (.refl _ _ _)
  | _ => exact fun h => nomatch h

theorem goes {m : Mem} {r : Re} : ∀ {p q l k : Nat}, (r.wf .piece = true ∨ r.wf .branch = true) →
    Frag m r p q l → Link m l k → l < k → Goes m r p k := by
  induction r with
  | eps =>
    intro p q l k _ h hl hlt
    obtain ⟨h1, rfl, rfl⟩ := h
    exact .skip h1 (by simp) hl hlt (Nat.le_refl _) (.refl _ _ _)
  | one o =>
    intro p q l k hw h hl hlt
    obtain ⟨h1, rfl, rfl⟩ := h
    by_cases ho : ∃ s, o = .lit s
    · obtain ⟨s, rfl⟩ := ho
      have hok : (One.lit s).ok = true := hw.resolve_right (fun h => nomatch h)
      intro f best hf
      obtain ⟨f, rfl⟩ : ∃ j, f = j + 1 := ⟨f - 1, by omega⟩
      obtain ⟨nd, n1, n2⟩ := h1
      have hm : Must (.one (.lit s)) s := by
        refine ⟨hok, fun x i hi hne => ⟨i, ?_⟩⟩
        by_cases hh : x.hasAt s i
        · exact hh
        · exact absurd ((oneEnd_lit hi).2 hh) (ways_one_ne hne)
      refine ⟨f, if (best.map List.length).getD 0 ≤ s.length then some s else best, ?_, by omega, by omega, ?_⟩
      · rw [longest]
        simp only [n1, hl.next n1, n2]
      · by_cases hb : (best.map List.length).getD 0 ≤ s.length
        · rw [if_pos hb]
          exact .inr ⟨s, rfl, hm⟩
        · rw [if_neg hb]
          exact .inl rfl
    · exact .skip h1 (by rintro s ⟨⟩; exact ho ⟨s, rfl⟩) hl hlt (Nat.le_refl _) (.refl _ _ _)
  | grp n r _ =>
    intro p q l k _ h hl hlt
    obtain ⟨h1, h2, h3, h4, rfl⟩ := h
    have := h3.le
    exact .skip h1 (by simp) h2 (by omega) (by omega)
      ((goes_alts h3).trans (.skip h4 (by simp) hl hlt (Nat.le_refl _) (.refl _ _ _)) (by omega) (by omega))
  | rep mu g r ih =>
    intro p q l k hw h hl hlt
    have hw' : r.wf .piece = true := by
      have := hw.resolve_right (fun h => nomatch h)
      simp only [Re.wf, Bool.and_eq_true] at this
      exact this.1.1
    have plus : ∀ {a b}, Goes m r a b → Goes m (.rep .plus g r) a b := fun h =>
      h.weak fun x i hi hne => ⟨i, hi, andThen_ne hne⟩
    unfold Frag at h
    split at h
    · obtain ⟨h1, _, rfl⟩ := h
      refine .skip h1 ?_ hl hlt (Nat.le_refl _) (.refl _ _ _)
      cases mu <;> cases g <;> simp [repOp]
    · cases mu <;> cases g <;> simp only at h
      · obtain ⟨h0, h1, h2, b, lx, h3, h4, h5, h6, h7, h8, rfl, rfl⟩ := h
        exact .skip h0 (by simp) h7 (by omega) (by omega) (.skip h2 (by simp) hl hlt (Nat.le_refl _) (.refl _ _ _))
      · obtain ⟨h0, b, lx, h3, h4, h5, h6, h7, h8, h9, h10, rfl, rfl⟩ := h
        have := h3.le
        exact .skip h0 (by simp) h7 (by omega) (by omega) (.skip h8 (by simp) h9 (by omega) (by omega)
          (.skip h10 (by simp) hl hlt (Nat.le_refl _) (.refl _ _ _)))
      · obtain ⟨b, lx, h3, h4, h5, h6, h7, h8, h9, h10, h11, rfl, rfl⟩ := h
        have := h3.le
        exact (plus (ih (.inl hw') h3 h4 (by omega))).trans (.skip h5 (by simp) h7 (by omega) (by omega)
          (.skip h8 (by simp) hl hlt (Nat.le_refl _) (.refl _ _ _))) (by omega) (by omega)
      · obtain ⟨b, lx, h3, h4, h5, h6, h7, h8, h9, h10, h11, rfl, rfl⟩ := h
        have := h3.le
        exact (plus (ih (.inl hw') h3 h4 (by omega))).trans (.skip h5 (by simp) h8 (by omega) (by omega)
          (.skip h9 (by simp) h10 (by omega) (by omega)
            (.skip h11 (by simp) hl hlt (Nat.le_refl _) (.refl _ _ _)))) (by omega) (by omega)
      · obtain ⟨h0, b, lx, h3, h4, h5, h6, h7, h8, rfl, rfl⟩ := h
        have := h3.le
        exact .skip h0 (by simp) h5 (by omega) (by omega) (.skip h6 (by simp) h7 (by omega) (by omega)
          (.skip h8 (by simp) hl hlt (Nat.le_refl _) (.refl _ _ _)))
  | seq a b iha ihb =>
    intro p q l k hw h hl hlt
    have hw' := hw.resolve_left (fun h => nomatch h)
    simp only [Re.wf, Bool.and_eq_true] at hw'
    have left : ∀ {c d}, Goes m a c d → Goes m (.seq a b) c d := fun h =>
      h.weak fun x i hi hne => ⟨i, hi, andThen_ne hne⟩
    have right : ∀ {c d}, Goes m b c d → Goes m (.seq a b) c d := fun h => h.weak fun x i hi hne => by
      obtain ⟨w, h1, h2⟩ := andThen_ne' hne
      exact ⟨w.1, (ways_le (.inl hw'.1) hi w h1).2.1, h2⟩
    unfold Frag at h
    split at h
    · exact left (iha (.inl hw'.1) h hl hlt)
    · obtain ⟨q1, l1, h1, h2, h3⟩ := h
      have := h1.le
      have := h3.le
      exact (left (iha (.inl hw'.1) h1 h2 (by omega))).trans (right (ihb (.inr hw'.2) h3 hl hlt)) (by omega) (by omega)
  | alt a b _ _ => exact fun _ h => nomatch h
  | last a _ => exact fun _ h => nomatch h

theorem longest_end {m : Mem} {q : Nat} {nd : Node} (h : m q = some nd) (hop : nd.op = .fin) (hn : nd.next q = none)
    (f : Nat) (best : Option (List Nat)) : longest m (f + 1) q best = some best := by
  rw [longest]
  simp only [h, hn, hop]

/-! ### The three records -/

/-- What `rep_regcomp` records is right. -/
structure Facts (g : Prog) (r : Re) : Prop where
  start : g.start ≠ 0 → ∀ (x : Ctx) i, i ≤ x.text.length → ways x r i ≠ [] →
    i < x.text.length ∧ x.same g.start (x.text.getD i 0) = true
  anch : g.anch = true → ∀ (x : Ctx) i, ways x r i ≠ [] → i = 0
  must : ∀ s, g.must = some s → Must r s

theorem analyse_ok {r : Re} {e : Em} {q : Nat} (hw : r.wf .alts = true) (hF : AFrag e.mem r 1 q)
    (hq : e.mem q = some ⟨.fin, 0⟩) (hc : q < e.code) : ∃ g, analyse r e = some g ∧ g.mem = e.mem ∧ Facts g r := by
  have hle := hF.le
  have none_ok : Facts ⟨e.mem, 0, false, none⟩ r := ⟨fun h => absurd rfl h, (fun h => nomatch h), (fun s h => nomatch h)⟩
  cases r with
  | alt a b =>
    obtain ⟨h0, q1, l1, h1, _, _, h4⟩ := hF
    obtain ⟨n1, k1, _⟩ := h0
    obtain ⟨n2, k2, k3⟩ := h4.op
    refine ⟨⟨e.mem, 0, false, none⟩, ?_, rfl, none_ok⟩
    unfold analyse
    simp only [k1, h1.next k1, k2, k3]
    rfl
  | last a =>
    obtain ⟨h0, l1, h1, h2, h3⟩ := hF
    have hl := h2.le
    have hwa : a.wf .branch = true := hw
    obtain ⟨n1, k1, _⟩ := h0
    obtain ⟨n4, k4, k5⟩ : ∃ n4, e.mem 4 = some n4 ∧ Op e.mem 4 n4.op := by
      have : ∃ op, Op e.mem 4 op := by
        have hk := h2.walk
        cases hk with
        | refl =>
          obtain ⟨nd, z, _⟩ := h3
          exact ⟨nd.op, nd, z, rfl⟩
        | step hk1 =>
          obtain ⟨nd, z, _⟩ := hk1
          exact ⟨nd.op, nd, z, rfl⟩
      obtain ⟨op, nd, z1, z2⟩ := this
      exact ⟨nd, z1, nd, z1, rfl⟩
    have fs : (match n4.op with
        | .one (.lit s) => s.headD 0
        | _ => 0) ≠ 0 → ∀ (x : Ctx) i, i ≤ x.text.length → ways x (.last a) i ≠ [] →
        i < x.text.length ∧ x.same (match n4.op with
          | .one (.lit s) => s.headD 0
          | _ => 0) (x.text.getD i 0) = true := by
      intro hne x i hi hway
      cases hop : n4.op with
      | one o =>
        rw [hop] at hne k5
        cases o with
        | lit s =>
          simp only at hne ⊢
          have hh := first_one h2 k5 x i hway
          have hat : x.hasAt s i := Classical.byContradiction fun h => hh ((oneEnd_lit hi).2 h)
          cases s with
          | nil => exact absurd rfl hne
          | cons c s =>
            have := hasAt_cons.1 hat
            exact ⟨this.1, by simpa using this.2.1⟩
        | _ => exact absurd rfl hne
      | _ => rw [hop] at hne; exact absurd rfl hne
    have fa : (n4.op == .one .bol) = true → ∀ (x : Ctx) i, ways x (.last a) i ≠ [] → i = 0 := by
      intro hb x i hway
      have hop : n4.op = .one .bol := by simpa using hb
      rw [hop] at k5
      have hh := first_one h2 k5 x i hway
      unfold oneEnd at hh
      split at hh
      · exact absurd rfl hh
      · simp only at hh
        split at hh
        · rename_i h
          simp only [Bool.and_eq_true, beq_iff_eq] at h
          exact h.2
        · exact absurd rfl hh
    unfold analyse
    simp only [k1, h1.next k1, hq, if_true, k4]
    by_cases hsp : (Re.last a).spstart = true
    · rw [if_pos hsp]
      have hgo : Goes e.mem (.last a) 4 q := (goes (.inr hwa) h2 h3 (by omega)).weak fun x i hi hne => ⟨i, hi, hne⟩
      obtain ⟨f', b', e1, e2, e3, e4⟩ := hgo (e.code + 1) none (by omega)
      obtain ⟨f', rfl⟩ : ∃ j, f' = j + 1 := ⟨f' - 1, by omega⟩
      rw [e1, longest_end hq rfl (by simp [Node.next])]
      refine ⟨_, rfl, rfl, fs, fa, fun s hs => ?_⟩
      rcases e4 with rfl | ⟨t, rfl, ht⟩
      · cases hs
      · cases hs
        exact ht
    · rw [if_neg hsp]
      exact ⟨_, rfl, rfl, fs, fa, (fun s hs => nomatch hs)⟩
  | _ => cases hw

end Rep.Regex
