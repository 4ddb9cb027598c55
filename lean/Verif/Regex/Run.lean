import Verif.Regex.Atoms

/-
The matcher on compiled code: the preferred way whose continuation succeeds.
-/

namespace Rep.Regex

open Spec

/-- From everywhere behind `lo` the node `k` leads to `κ`. -/
def Cont (x : Ctx) (m : Mem) (k : Nat) (κ : Nat → Option Way) (lo : Nat) (strict : Bool) : Prop :=
  ∀ j, lo ≤ j → (strict = true → lo < j) → j ≤ x.text.length → Out x m k j (κ j)

theorem Op.inj {m : Mem} {a : Nat} {o o' : Opc} (h : Op m a o) (h' : Op m a o') : o = o' := by
  obtain ⟨nd, a1, a2⟩ := h
  obtain ⟨nd', b1, b2⟩ := h'
  rw [a1] at b1
  cases b1
  rw [← a2, b2]

/-- Skipping a place because the next character is wrong loses nothing. -/
theorem could_none {x : Ctx} {m : Mem} {k j : Nat} {nq : Node} {R : Option Way} (hk : Ok x m k)
    (hq : m k = some nq) (hj : j ≤ x.text.length) (hR : Out x m k j R)
    (hc : x.could (lookahead nq.op) ((x.rd j).getD 0) = false) : R = none := by
  obtain ⟨op, h1, _, h3⟩ := hk
  have hop : op = nq.op := h1.inj ⟨nq, hq, rfl⟩
  subst hop
  cases hn : nq.op with
  | one o =>
    cases o with
    | lit s =>
      rw [hn] at hc h1
      cases s with
      | nil => simp [lookahead, Ctx.could] at hc
      | cons c s =>
        have hrd : x.rd j = some ((x.rd j).getD 0) := by
          unfold Ctx.rd
          split
          · rfl
          · rw [if_pos (by omega)]; rfl
        refine out_none h1 ?_ hR
        simp only [lookahead, List.headD_cons, Ctx.could, Bool.or_eq_false_iff] at hc
        unfold Ctx.step
        rw [if_neg (by simp), hrd]
        generalize (x.rd j).getD 0 = b at *
        have hs : x.same c b = false := by
          unfold Ctx.same
          have h2 := hc.2
          split at h2
          · rename_i hnc
            have hlt : up c < 128 := by
              have : c < 128 := h3 _ hn hnc c (List.mem_cons_self ..)
              unfold up
              split <;> omega
            rw [if_pos hnc]
            simp only [hlt, decide_true, Bool.and_true, beq_eq_false_iff_ne] at h2
            simp only [beq_eq_false_iff_ne]
            exact fun e => h2 e.symm
          · rename_i hnc
            rw [if_neg hnc]
            simp only [beq_eq_false_iff_ne] at h2 ⊢
            exact fun e => h2 e.symm
        simp [Ctx.stepAt, Ctx.litAt, hrd, hs]
    | _ => rw [hn] at hc; simp [lookahead, Ctx.could] at hc
  | _ => rw [hn] at hc; simp [lookahead, Ctx.could] at hc

/-- The loop over the places. -/
theorem tries {x : Ctx} {m : Mem} {k : Nat} {nq : Node} {κ : Nat → Option Way} (hk : Ok x m k) (hq : m k = some nq)
    (l : List Nat) (hl : ∀ j ∈ l, j ≤ x.text.length ∧ Out x m k j (κ j)) :
    ∃ F D, ∀ depth f d, F ≤ f →
      let t := firstTry (fun pos' =>
        if (x.at depth).could (lookahead nq.op) (((x.at depth).rd pos').getD 0) then
          (if d + 1 ≥ (x.at depth).depth then Res.overflow else run (x.at depth) m f (d + 1) k pos')
        else .fail) l
      t = toRes (l.findSome? κ) ∨ (t = .overflow ∧ depth ≤ d + D) := by
  induction l with
  | nil => exact ⟨0, 0, fun _ _ _ _ => .inl rfl⟩
  | cons j l ih =>
    obtain ⟨F2, D2, h2⟩ := ih fun i hi => hl i (List.mem_cons_of_mem _ hi)
    obtain ⟨hj, h1⟩ := hl j (List.mem_cons_self ..)
    obtain ⟨F1, D1, h1'⟩ := id h1
    refine ⟨F1 + F2, D1 + D2 + 1, fun depth f d hf => ?_⟩
    have h2' := h2 depth f d (by omega)
    simp only at h2' ⊢
    have rest : κ j = none →
        (firstTry (fun pos' =>
          if (x.at depth).could (lookahead nq.op) (((x.at depth).rd pos').getD 0) = true then
            (if d + 1 ≥ (x.at depth).depth then Res.overflow else run (x.at depth) m f (d + 1) k pos')
          else .fail) l = toRes ((j :: l).findSome? κ) ∨
        (firstTry (fun pos' =>
          if (x.at depth).could (lookahead nq.op) (((x.at depth).rd pos').getD 0) = true then
            (if d + 1 ≥ (x.at depth).depth then Res.overflow else run (x.at depth) m f (d + 1) k pos')
          else .fail) l = .overflow ∧ depth ≤ d + (D1 + D2 + 1))) := by
      intro hn
      rw [List.findSome?_cons, hn]
      rcases h2' with e | ⟨e, hb⟩
      · exact .inl e
      · exact .inr ⟨e, by omega⟩
    have hcd : (x.at depth).could (lookahead nq.op) (((x.at depth).rd j).getD 0) =
        x.could (lookahead nq.op) ((x.rd j).getD 0) := rfl
    rw [firstTry]
    by_cases hc : x.could (lookahead nq.op) ((x.rd j).getD 0) = true
    · rw [if_pos (by rw [hcd]; exact hc)]
      by_cases hd : d + 1 ≥ (x.at depth).depth
      · have hd' : d + 1 ≥ depth := hd
        rw [if_pos hd]
        exact .inr ⟨rfl, by omega⟩
      · rw [if_neg hd]
        rcases h1' depth f (d + 1) (by omega) with e | ⟨e, hb⟩
        · rw [e]
          cases hR : κ j with
          | none => exact rest hR
          | some w => exact .inl (by simp [List.findSome?_cons, hR, toRes])
        · rw [e]
          exact .inr ⟨rfl, by omega⟩
    · rw [if_neg (by rw [hcd]; exact hc)]
      exact rest (could_none hk hq hj h1 (by simpa using hc))

/-- The least number of repetitions. -/
def repMin (mu : Mult) : Nat := if mu = .plus then 1 else 0

theorem out_rep {x : Ctx} {m : Mem} {mu : Mult} {g : Bool} {o : One} {f : Nat → Bool} {p k i : Nat}
    {κ : Nat → Option Way} (h : Op m p (repOp mu g)) (ho : Op m (p + 3) (.one o)) (hf : x.repeats o = some f)
    (hl : Link m p k) (hk : Ok x m k) (hi : i ≤ x.text.length)
    (hc : ∀ j ∈ places g (repMin mu) i (cnt x f i), j ≤ x.text.length ∧ Out x m k j (κ j)) :
    Out x m p i ((places g (repMin mu) i (cnt x f i)).findSome? κ) := by
  obtain ⟨nd, h1, h2⟩ := h
  obtain ⟨no, h3, h4⟩ := ho
  obtain ⟨nq, h5, _⟩ := id hk.choose_spec.1
  obtain ⟨F, D, hT⟩ := tries hk h5 _ hc
  refine ⟨F + 2, D, fun depth fu d hfu => ?_⟩
  obtain ⟨fu, rfl⟩ : ∃ k, fu = k + 2 := ⟨fu - 2, by omega⟩
  have hr : (x.at depth).repeats o = some f := hf
  have hcnt : (x.at depth).count f i = some (cnt x f i) := by
    have : (x.at depth).count f i = x.count f i := rfl
    rw [this, Ctx.count, if_pos hi]
    rfl
  have e : run (x.at depth) m (fu + 2) d p i = firstTry (fun pos' =>
        if (x.at depth).could (lookahead nq.op) (((x.at depth).rd pos').getD 0) then
          (if d + 1 ≥ (x.at depth).depth then Res.overflow else run (x.at depth) m fu (d + 1) k pos')
        else .fail) (places g (repMin mu) i (cnt x f i)) := by
    have hrun : run (x.at depth) m (fu + 2) d p i = reps (x.at depth) m (fu + 1) d p nd g (repMin mu) i := by
      simp only [run, h1, h2]
      cases mu <;> cases g <;> rfl
    rw [hrun, reps]
    simp only [hl.next h1, h5, h3, h4, hr, hcnt]
  rw [e]
  exact hT depth fu d (by omega)

theorem pick_places (l : List Nat) (κ : Nat → Option Way) : pick (l.map fun j => (j, [])) κ = l.findSome? κ := by
  induction l with
  | nil => rfl
  | cons a l ih =>
    rw [List.map_cons, pick_cons, ih, List.findSome?_cons]
    cases κ a <;> rfl

/-- The first node of a good pattern is fit to be led to. -/
theorem first_ok {x : Ctx} {m : Mem} {r : Re} (hg : r.good x.nocase = true) :
    (∀ {p q l}, Frag m r p q l → Ok x m p) := by
  have plain : ∀ {p : Nat} {op : Opc}, Op m p op → op ≠ .branch → (∀ o, op ≠ .one o) → Ok x m p := by
    intro p op h h1 h2
    exact ⟨op, h, fun e => absurd e h1, fun _ e => absurd e (h2 _)⟩
  have br : ∀ {p k : Nat} {op : Opc}, Op m p .branch → Link m p k → Op m k op → Ok x m p := by
    intro p k op h1 h2 h3
    exact ⟨.branch, h1, fun _ => ⟨k, op, h2, h3⟩, fun s e => nomatch e⟩
  induction r with
  | eps => exact fun {p q l} h => plain h.1 (by simp) (by simp)
  | one o =>
    intro p q l h
    refine ⟨.one o, h.1, (fun e => nomatch e), ?_⟩
    rintro s e hn c hc
    cases e
    simp only [Re.good, Bool.and_eq_true, Bool.or_eq_true, hn, List.all_eq_true] at hg
    simpa using hg.2.resolve_left (by simp) c hc
  | grp n r _ => exact fun {p q l} h => plain h.1 (by simp) (by simp)
  | rep mu g r ih =>
    intro p q l h
    unfold Frag at h
    by_cases hs : mu ≠ .opt ∧ r.simple = true
    · rw [if_pos hs] at h
      refine plain h.1 ?_ ?_ <;> cases mu <;> cases g <;> simp [repOp]
    · rw [if_neg hs] at h
      have hr : r.good x.nocase = true := by
        simp only [Re.good, Bool.and_eq_true] at hg
        have := hg.2
        rw [if_neg (by simpa using hs)] at this
        exact this
      cases mu <;> cases g <;> simp only at h
      · obtain ⟨h0, _, h2, b, lx, _, _, _, _, h3, _⟩ := h
        exact br h0 h3 h2
      · obtain ⟨h0, b, lx, _, _, _, _, h3, h4, _⟩ := h
        exact br h0 h3 h4
      · obtain ⟨b, lx, h1, _⟩ := h
        exact ih hr h1
      · obtain ⟨b, lx, h1, _⟩ := h
        exact ih hr h1
      · obtain ⟨h0, b, lx, _, _, h3, h4, _⟩ := h
        exact br h0 h3 h4
  | seq a b iha _ =>
    intro p q l h
    simp only [Re.good, Bool.and_eq_true] at hg
    unfold Frag at h
    split at h
    · exact iha hg.1 h
    · obtain ⟨q1, l1, h1, _⟩ := h
      exact iha hg.1 h1
  | alt a b _ _ => exact fun {p q l} h => nomatch h
  | last a _ => exact fun {p q l} h => nomatch h

theorem ok_plain {x : Ctx} {m : Mem} {p : Nat} {op : Opc} (h : Op m p op) (h1 : op ≠ .branch) (h2 : ∀ o, op ≠ .one o) :
    Ok x m p := ⟨op, h, fun e => absurd e h1, fun _ e => absurd e (h2 _)⟩

theorem ok_branch {x : Ctx} {m : Mem} {p k : Nat} {op : Opc} (h : Op m p .branch) (hl : Link m p k) (hk : Op m k op) :
    Ok x m p := ⟨.branch, h, fun _ => ⟨k, op, hl, hk⟩, fun _ e => nomatch e⟩

theorem AFrag.op {m : Mem} {r : Re} {p q : Nat} (h : AFrag m r p q) : Op m p .branch := by
  cases r <;> first | exact h.1 | exact nomatch h

/-- The statement for pieces and branches. -/
def Runs (x : Ctx) (m : Mem) (r : Re) : Prop :=
  ∀ p q l k, Frag m r p q l → Link m l k → (r.tailNg = true → k = q) → Ok x m k →
    ∀ i κ, i ≤ x.text.length → Cont x m k κ i r.hasWidth → Out x m p i (pick (ways x r i) κ)

theorem Cont.mono {x : Ctx} {m : Mem} {k : Nat} {κ : Nat → Option Way} {lo lo' : Nat} {s s' : Bool}
    (h : Cont x m k κ lo s) (hlo : lo ≤ lo') (hs : s = true → s' = true ∨ lo < lo') : Cont x m k κ lo' s' := by
  intro j h1 h2 h3
  refine h j (by omega) (fun e => ?_) h3
  rcases hs e with e' | e'
  · have := h2 e'
    omega
  · omega

theorem star_succ (f : Nat → List Way) (g : Bool) (n i : Nat) (κ : Nat → Option Way) :
    pick (star f g (n + 1) i) κ =
      if g then (pick (f i) fun j => pick (star f g n j) κ).or (κ i)
      else (κ i).or (pick (f i) fun j => pick (star f g n j) κ) := by
  cases g
  · simp only [star, Bool.false_eq_true, if_false, pick_cons, pick_andThen]
  · simp only [star, if_true, pick_append, pick_andThen, pick_unit]

theorem or_again (a b : Option Way) : a.or (b.or a) = a.or b := by
  cases a <;> cases b <;> rfl

/-- Complex repetition. -/
theorem runs_rep {x : Ctx} {m : Mem} {mu : Mult} {g : Bool} {r : Re} (hs : ¬ (mu ≠ .opt ∧ r.simple = true))
    (hw : mu = .opt ∨ r.hasWidth = true) (ho : mu = .opt → r.tailNg = false) (hr : Runs x m r) :
    Runs x m (.rep mu g r) := by
  intro p q l k hF hl ht hk i κ hi hc
  unfold Frag at hF
  rw [if_neg hs] at hF
  cases mu <;> cases g <;> simp only at hF
  · -- non-greedy star
    obtain ⟨h0, h1, h2, b, lx, h3, h4, h5, h6, h7, h8, rfl, rfl⟩ := hF
    have hsimp : r.simple = false := by simpa using hs
    obtain rfl : k = b + 3 := ht (by simp [Re.tailNg, hsimp])
    have hw' : r.hasWidth = true := by simpa using hw
    have hc' : Cont x m (b + 3) κ i false := hc
    suffices ∀ N i, x.text.length - i < N → i ≤ x.text.length → Cont x m (b + 3) κ i false →
        Out x m p i (pick (star (ways x r) false N i) κ) from this _ i (by omega) hi hc'
    intro N
    induction N with
    | zero => intro i h; omega
    | succ N ih =>
      intro i hN hi hc
      have A : Out x m (p + 9) i (pick (ways x r i) fun j => pick (star (ways x r) false N j) κ) := by
        refine hr _ _ _ b h3 h4 (fun _ => rfl) (ok_plain h5 (by simp) (by simp)) i _ hi ?_
        intro j hj1 hj2 hj3
        have := hj2 hw'
        exact out_nothing (.inr h5) h6 (ih j (by omega) hj3 (hc.mono hj1 (fun h => nomatch h)))
      have B : Out x m (p + 3) i (κ i) := out_nothing (.inl h1) h8 (hc i (Nat.le_refl _) (fun h => nomatch h) hi)
      rw [star_succ, if_neg (by simp)]
      refine out_branch h0 h7 h2 ?_
      by_cases hb : Op m (b + 3) .branch
      · rw [← or_again]
        exact outA_step h0 h7 h2 B (outA_step h2 hl hb A
          (outA_of hk hb (hc i (Nat.le_refl _) (fun h => nomatch h) hi)))
      · obtain ⟨op, ho, _⟩ := hk
        exact outA_step h0 h7 h2 B (outA_last h2 hl ho (fun e => hb (e ▸ ho)) A)
  · -- greedy star
    obtain ⟨h0, b, lx, h3, h4, h5, h6, h7, h8, h9, h10, rfl, rfl⟩ := hF
    have hw' : r.hasWidth = true := by simpa using hw
    have hc' : Cont x m k κ i false := hc
    suffices ∀ N i, x.text.length - i < N → i ≤ x.text.length → Cont x m k κ i false →
        Out x m p i (pick (star (ways x r) true N i) κ) from this _ i (by omega) hi hc'
    intro N
    induction N with
    | zero => intro i h; omega
    | succ N ih =>
      intro i hN hi hc
      have A : Out x m (p + 3) i (pick (ways x r i) fun j => pick (star (ways x r) true N j) κ) := by
        refine hr _ _ _ b h3 h4 (fun _ => rfl) (ok_plain h5 (by simp) (by simp)) i _ hi ?_
        intro j hj1 hj2 hj3
        have := hj2 hw'
        exact out_nothing (.inr h5) h6 (ih j (by omega) hj3 (hc.mono hj1 (fun h => nomatch h)))
      have B : Out x m (b + 6) i (κ i) := out_nothing (.inl h10) hl (hc i (Nat.le_refl _) (fun h => nomatch h) hi)
      rw [star_succ, if_pos rfl]
      exact out_branch h0 h7 h8 (outA_step h0 h7 h8 A (outA_last h8 h9 h10 (by simp) B))
  · -- non-greedy plus
    obtain ⟨b, lx, h3, h4, h5, h6, h7, h8, h9, h10, h11, rfl, rfl⟩ := hF
    have hsimp : r.simple = false := by simpa using hs
    obtain rfl : k = b + 12 := ht (by simp [Re.tailNg, hsimp])
    have hw' : r.hasWidth = true := by simpa using hw
    have hc' : Cont x m (b + 12) κ i true := hc
    have L : ∀ N j, x.text.length - j < N → j ≤ x.text.length → Cont x m (b + 12) κ j false →
        Out x m b j (pick (star (ways x r) false N j) κ) := by
      intro N
      induction N with
      | zero => intro i h; omega
      | succ N ih =>
        intro i hN hi hc
        have A : Out x m (b + 9) i (pick (ways x r i) fun j => pick (star (ways x r) false N j) κ) := by
          refine out_nothing (.inr h9) h10 ?_
          refine hr _ _ _ b h3 h4 (fun _ => rfl) (ok_branch h5 h7 h8) i _ hi ?_
          intro j hj1 hj2 hj3
          have := hj2 hw'
          exact ih j (by omega) hj3 (hc.mono hj1 (fun h => nomatch h))
        have B : Out x m (b + 3) i (κ i) := out_nothing (.inl h6) h11 (hc i (Nat.le_refl _) (fun h => nomatch h) hi)
        rw [star_succ, if_neg (by simp)]
        refine out_branch h5 h7 h8 ?_
        by_cases hb : Op m (b + 12) .branch
        · rw [← or_again]
          exact outA_step h5 h7 h8 B (outA_step h8 hl hb A
            (outA_of hk hb (hc i (Nat.le_refl _) (fun h => nomatch h) hi)))
        · obtain ⟨op, ho, _⟩ := hk
          exact outA_step h5 h7 h8 B (outA_last h8 hl ho (fun e => hb (e ▸ ho)) A)
    rw [ways, pick_andThen]
    refine hr _ _ _ b h3 h4 (fun _ => rfl) (ok_branch h5 h7 h8) i _ hi ?_
    intro j hj1 hj2 hj3
    have := hj2 hw'
    exact L _ j (by omega) hj3 (hc'.mono hj1 fun _ => .inr this)
  · -- greedy plus
    obtain ⟨b, lx, h3, h4, h5, h6, h7, h8, h9, h10, h11, rfl, rfl⟩ := hF
    have hw' : r.hasWidth = true := by simpa using hw
    have hc' : Cont x m k κ i true := hc
    have L : ∀ N j, x.text.length - j < N → j ≤ x.text.length → Cont x m k κ j false →
        Out x m b j (pick (star (ways x r) true N j) κ) := by
      intro N
      induction N with
      | zero => intro i h; omega
      | succ N ih =>
        intro i hN hi hc
        have A : Out x m (b + 3) i (pick (ways x r i) fun j => pick (star (ways x r) true N j) κ) := by
          refine out_nothing (.inr h6) h7 ?_
          refine hr _ _ _ b h3 h4 (fun _ => rfl) (ok_branch h5 h8 h9) i _ hi ?_
          intro j hj1 hj2 hj3
          have := hj2 hw'
          exact ih j (by omega) hj3 (hc.mono hj1 (fun h => nomatch h))
        have B : Out x m (b + 9) i (κ i) := out_nothing (.inl h11) hl (hc i (Nat.le_refl _) (fun h => nomatch h) hi)
        rw [star_succ, if_pos rfl]
        exact out_branch h5 h8 h9 (outA_step h5 h8 h9 A (outA_last h9 h10 h11 (by simp) B))
    rw [ways, pick_andThen]
    refine hr _ _ _ b h3 h4 (fun _ => rfl) (ok_branch h5 h8 h9) i _ hi ?_
    intro j hj1 hj2 hj3
    have := hj2 hw'
    exact L _ j (by omega) hj3 (hc'.mono hj1 fun _ => .inr this)
  · -- optional
    obtain ⟨h0, b, lx, h3, h4, h5, h6, h7, h8, rfl, rfl⟩ := hF
    have hc' : Cont x m k κ i false := hc
    have N : ∀ j, i ≤ j → j ≤ x.text.length → Out x m (b + 3) j (κ j) := fun j h1 h2 =>
      out_nothing (.inl h8) hl (hc' j h1 (fun h => nomatch h) h2)
    have A : Out x m (p + 3) i (pick (ways x r i) κ) := by
      refine hr _ _ _ (b + 3) h3 h4 (fun h => ?_) (ok_plain h8 (by simp) (by simp)) i _ hi
        fun j h1 _ h2 => N j h1 h2
      rw [ho rfl] at h
      cases h
    rw [ways, if_pos rfl, pick_append, pick_unit]
    exact out_branch h0 h5 h6 (outA_step h0 h5 h6 A (outA_last h6 h7 h8 (by simp) (N i (Nat.le_refl _) hi)))

/-- Repetition of a simple atom. -/
theorem runs_simple {x : Ctx} {m : Mem} {mu : Mult} {g : Bool} {r : Re} (hs : mu ≠ .opt ∧ r.simple = true) :
    Runs x m (.rep mu g r) := by
  intro p q l k hF hl _ hk i κ hi hc
  obtain ⟨o, rfl⟩ := simple_one hs.2
  unfold Frag at hF
  rw [if_pos hs] at hF
  obtain ⟨h1, h2, rfl⟩ := hF
  obtain ⟨f, hf, hw⟩ := repeats_ok (x := x) hs.2
  have key : pick (ways x (.rep mu g (.one o)) i) κ = (places g (repMin mu) i (cnt x f i)).findSome? κ := by
    rw [← pick_places]
    congr 1
    cases mu with
    | star => exact star_places g hw _ i (by omega)
    | plus => exact plus_places g hw _ i (by omega)
    | opt => exact absurd rfl hs.1
  rw [key]
  refine out_rep h1 h2.1 hf hl hk hi fun j hj => ?_
  have hm := places_mem hj
  have hcl := cnt_le x f i
  refine ⟨by omega, hc j (by omega) (fun e => ?_) (by omega)⟩
  have : mu = .plus := by simpa [Re.hasWidth] using e
  subst this
  simp only [repMin, if_true] at hm
  omega

/-- The statement for alternatives. -/
def RunsA (x : Ctx) (m : Mem) (r : Re) : Prop :=
  ∀ p q op, AFrag m r p q → Op m q op → op ≠ .branch → (∀ o, op ≠ .one o) →
    ∀ i κ, i ≤ x.text.length → Cont x m q κ i r.hasWidth →
      OutA x m p i (pick (ways x r i) κ) ∧ Out x m p i (pick (ways x r i) κ)

theorem not_rep_tailNg {r : Re} (hp : r.wf .piece = true) (h : r.isRep = false) : r.tailNg = false := by
  cases r with
  | one o => rfl
  | grp n r => rfl
  | rep m g r => cases h
  | _ => cases hp

theorem runs {x : Ctx} (hx : x.Clean) (m : Mem) (r : Re) : r.good x.nocase = true →
    ((r.wf .piece = true ∨ r.wf .branch = true) → Runs x m r) ∧ (r.wf .alts = true → RunsA x m r) := by
  induction r with
  | eps =>
    intro _
    refine ⟨fun _ p q l k hF hl _ _ i κ hi hc => ?_, fun h => nomatch h⟩
    obtain ⟨h1, rfl, rfl⟩ := hF
    rw [ways, pick_unit]
    exact out_nothing (.inl h1) hl (hc i (Nat.le_refl _) (fun h => nomatch h) hi)
  | one o =>
    intro hg
    refine ⟨fun hw p q l k hF hl _ _ i κ hi hc => ?_, fun h => nomatch h⟩
    obtain ⟨h1, rfl, rfl⟩ := hF
    have ho : o.ok = true := hw.resolve_right (fun h => nomatch h)
    have hn : o.eatsNul = false := by
      simp only [Re.good, Bool.and_eq_true] at hg
      simpa using hg.1
    have hst := step_ok hx ho hn hi
    rw [ways]
    cases he : oneEnd x o i with
    | none =>
      rw [he] at hst
      exact out_one_fail h1 hst
    | some j =>
      rw [he] at hst
      have hj := oneEnd_le ho he
      simp only
      rw [pick_unit]
      exact out_one h1 hst hl (hc j hj.1 hj.2.2 hj.2.1)
  | grp n r ih =>
    intro hg
    refine ⟨fun hw p q l k hF hl _ _ i κ hi hc => ?_, fun h => nomatch h⟩
    obtain ⟨h1, h2, h3, h4, rfl⟩ := hF
    have hw' : r.wf .alts = true := hw.resolve_right (fun h => nomatch h)
    rw [ways, pick_grp]
    refine out_opn h1 h2 ((ih hg).2 hw' _ _ _ h3 h4 (by simp) (by simp) i _ hi ?_).2
    intro j hj1 hj2 hj3
    exact out_close h4 hl (hc j hj1 hj2 hj3)
  | rep mu g r ih =>
    intro hg
    refine ⟨fun hw => ?_, fun h => nomatch h⟩
    have hw' := hw.resolve_right (fun h => nomatch h)
    simp only [Re.wf, Bool.and_eq_true] at hw'
    by_cases hs : mu ≠ .opt ∧ r.simple = true
    · exact runs_simple hs
    · have hr : r.good x.nocase = true := by
        simp only [Re.good, Bool.and_eq_true] at hg
        have := hg.2
        rw [if_neg (by simpa using hs)] at this
        exact this
      refine runs_rep hs (by simpa using hw'.1.2) (fun _ => ?_) ((ih hr).1 (.inl hw'.1.1))
      exact not_rep_tailNg hw'.1.1 (by simpa using hw'.2)
  | seq a b iha ihb =>
    intro hg
    simp only [Re.good, Bool.and_eq_true] at hg
    refine ⟨fun hw p q l k hF hl ht hk i κ hi hc => ?_, fun h => nomatch h⟩
    have hw' := hw.resolve_left (fun h => nomatch h)
    simp only [Re.wf, Bool.and_eq_true] at hw'
    have hA := (iha hg.1).1 (.inl hw'.1)
    have hB := (ihb hg.2).1 (.inr hw'.2)
    unfold Frag at hF
    rw [ways, pick_andThen]
    by_cases he : b = .eps
    · subst he
      rw [if_pos rfl] at hF
      have : (fun j => pick (ways x .eps j) κ) = κ := by
        funext j
        rw [ways, pick_unit]
      rw [this]
      refine hA _ _ _ k hF hl (fun h => ht (by simp [Re.tailNg, h])) hk i κ hi ?_
      exact hc.mono (Nat.le_refl _) fun h => .inl (by simpa [Re.hasWidth] using h)
    · rw [if_neg he] at hF
      obtain ⟨q1, l1, h1, h2, h3⟩ := hF
      refine hA _ _ _ q1 h1 h2 (fun _ => rfl) (first_ok hg.2 h3) i _ hi ?_
      intro j hj1 hj2 hj3
      refine hB _ _ _ k h3 hl (fun h => ht (by simp [Re.tailNg, he, h])) hk j κ hj3 ?_
      refine hc.mono hj1 fun h => ?_
      simp only [Re.hasWidth, Bool.or_eq_true] at h
      rcases h with h | h
      · exact .inr (hj2 h)
      · exact .inl h
  | alt a b iha ihb =>
    intro hg
    simp only [Re.good, Bool.and_eq_true] at hg
    refine ⟨fun h => ?_, fun hw p q op hF ho hn1 hn2 i κ hi hc => ?_⟩
    · rcases h with h | h <;> cases h
    · simp only [Re.wf, Bool.and_eq_true] at hw
      obtain ⟨h0, q1, l1, h1, h2, h3, h4⟩ := hF
      have hB := (ihb hg.2).2 hw.2 _ _ _ h4 ho hn1 hn2 i κ hi
        (hc.mono (Nat.le_refl _) fun h => .inl (by simp only [Re.hasWidth, Bool.and_eq_true] at h; exact h.2))
      have hA := (iha hg.1.1).1 (.inr hw.1) _ _ _ q h2 h3 (fun h => by simp [h] at hg) (ok_plain ho hn1 hn2) i κ hi
        (hc.mono (Nat.le_refl _) fun h => .inl (by simp only [Re.hasWidth, Bool.and_eq_true] at h; exact h.1))
      rw [ways, pick_append]
      have := outA_step h0 h1 h4.op hA hB.1
      exact ⟨this, out_branch h0 h1 h4.op this⟩
  | last a iha =>
    intro hg
    refine ⟨fun h => ?_, fun hw p q op hF ho hn1 hn2 i κ hi hc => ?_⟩
    · rcases h with h | h <;> cases h
    · obtain ⟨h0, l1, h1, h2, h3⟩ := hF
      have hA := (iha hg).1 (.inr hw) _ _ _ q h2 h3 (fun _ => rfl) (ok_plain ho hn1 hn2) i κ hi
        (hc.mono (Nat.le_refl _) fun h => .inl h)
      rw [ways]
      exact ⟨outA_last h0 h1 ho hn1 hA, out_branch1 h0 h1 ho hn1 hA⟩

/-- A whole program at one place of the text. -/
theorem program_out {x : Ctx} (hx : x.Clean) {m : Mem} {r : Re} {q : Nat} (hw : r.wf .alts = true)
    (hg : r.good x.nocase = true) (hF : AFrag m r 1 q) (hq : Op m q .fin) {i : Nat} (hi : i ≤ x.text.length) :
    Out x m 1 i ((ways x r i).head?) := by
  have := ((runs hx m r hg).2 hw 1 q .fin hF hq (by simp) (by simp) i (fun j => some (j, [])) hi
    (fun j _ _ _ => out_fin hq)).2
  have e : pick (ways x r i) (fun j => some (j, [])) = (ways x r i).head? := by
    cases ways x r i with
    | nil => rfl
    | cons w l => simp [pick]
  rwa [e] at this

end Rep.Regex
