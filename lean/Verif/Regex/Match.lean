import Verif.Regex.Emit2

/-
The matcher on code of the right shape finds the preferred way to match.
-/

namespace Rep.Regex

open Spec

/-- The same with another limit of the recursion. -/
def Ctx.at (x : Ctx) (depth : Nat) : Ctx := { x with depth := depth }

def toRes : Option Way → Res
  | none => .fail
  | some w => .ok w.1 (caps w.2)

/-- The node at `p` leads to the result `R`, but for the limit of the recursion, which is not hit
if it is `D` or more above the present depth. -/
def Out (x : Ctx) (m : Mem) (p pos : Nat) (R : Option Way) : Prop :=
  ∃ F D, ∀ depth f d, F ≤ f →
    run (x.at depth) m f d p pos = toRes R ∨ (run (x.at depth) m f d p pos = .overflow ∧ depth ≤ d + D)

/-- The same for the loop over `BRANCH` nodes. -/
def OutA (x : Ctx) (m : Mem) (p pos : Nat) (R : Option Way) : Prop :=
  ∃ F D, ∀ depth f d, F ≤ f →
    alts (x.at depth) m f d p pos = toRes R ∨ (alts (x.at depth) m f d p pos = .overflow ∧ depth ≤ d + D)

/-- The way that is taken, when the rest of the pattern does `κ` from where a way ends. -/
def pick (ws : List Way) (κ : Nat → Option Way) : Option Way :=
  ws.findSome? fun w => (κ w.1).map fun w' => (w'.1, w.2 ++ w'.2)

theorem pick_append (a b : List Way) (κ : Nat → Option Way) : pick (a ++ b) κ = (pick a κ).or (pick b κ) := by
  simp [pick, List.findSome?_append]

theorem pick_unit (i : Nat) (κ : Nat → Option Way) : pick [(i, [])] κ = κ i := by
  simp only [pick, List.findSome?_cons, List.findSome?_nil, List.nil_append]
  cases κ i <;> rfl

theorem pick_cons (i : Nat) (ws : List Way) (κ : Nat → Option Way) : pick ((i, []) :: ws) κ = (κ i).or (pick ws κ) := by
  have := pick_append [(i, [])] ws κ
  rw [pick_unit] at this
  exact this

theorem pick_pre (ws : List Way) (l : List Ev) (κ : Nat → Option Way) :
    pick (ws.map fun w' => (w'.1, l ++ w'.2)) κ = (pick ws κ).map fun w => (w.1, l ++ w.2) := by
  induction ws with
  | nil => rfl
  | cons w ws ih =>
    simp only [pick, List.map_cons, List.findSome?_cons] at ih ⊢
    cases κ w.1 with
    | none => simpa using ih
    | some v => simp

theorem pick_head (w : Way) (a : List Way) (κ : Nat → Option Way) :
    pick (w :: a) κ = ((κ w.1).map fun w' => (w'.1, w.2 ++ w'.2)).or (pick a κ) := by
  have := pick_append [w] a κ
  simpa [pick] using this

theorem pick_andThen (a : List Way) (b : Nat → List Way) (κ : Nat → Option Way) :
    pick (andThen a b) κ = pick a fun j => pick (b j) κ := by
  induction a with
  | nil => rfl
  | cons w a ih =>
    have e : andThen (w :: a) b = (b w.1).map (fun w' => (w'.1, w.2 ++ w'.2)) ++ andThen a b := by
      simp [andThen]
    rw [e, pick_append, pick_pre, ih]
    rw [pick_head]

theorem pick_grp (ws : List Way) (n i : Nat) (κ : Nat → Option Way) :
    pick (ws.map fun w => (w.1, Ev.opn n i :: (w.2 ++ [.close n w.1]))) κ =
      (pick ws fun j => (κ j).map fun w => (w.1, Ev.close n j :: w.2)).map fun w => (w.1, Ev.opn n i :: w.2) := by
  induction ws with
  | nil => rfl
  | cons w ws ih =>
    simp only [pick, List.map_cons, List.findSome?_cons] at ih ⊢
    cases κ w.1 with
    | none => simpa using ih
    | some v => simp

/-! ### The nodes -/

theorem out_fin {x : Ctx} {m : Mem} {p pos : Nat} (h : Op m p .fin) : Out x m p pos (some (pos, [])) := by
  obtain ⟨nd, h1, h2⟩ := h
  refine ⟨1, 0, fun depth f d hf => .inl ?_⟩
  obtain ⟨f, rfl⟩ : ∃ k, f = k + 1 := ⟨f - 1, by omega⟩
  simp [run, h1, h2, toRes, caps]

theorem litAt_at (x : Ctx) (depth : Nat) (s : List Nat) : ∀ pos, (x.at depth).litAt s pos = x.litAt s pos := by
  induction s with
  | nil => intro _; rfl
  | cons c s ih =>
    intro pos
    simp only [Ctx.litAt]
    have e : (x.at depth).rd pos = x.rd pos := rfl
    rw [e]
    cases x.rd pos with
    | none => rfl
    | some b =>
      simp only [ih]
      rfl

theorem step_at (x : Ctx) (depth : Nat) (o : One) (pos : Nat) : (x.at depth).step o pos = x.step o pos := by
  unfold Ctx.step
  have e : (x.at depth).rd pos = x.rd pos := rfl
  rw [e]
  have key : ∀ b, (x.at depth).stepAt o pos b = x.stepAt o pos b := by
    intro b
    cases o <;> first | rfl | simp only [Ctx.stepAt, litAt_at]
  simp only [key]

theorem out_one_fail {x : Ctx} {m : Mem} {o : One} {p pos : Nat} (h : Op m p (.one o)) (hs : x.step o pos = some none) :
    Out x m p pos none := by
  obtain ⟨nd, h1, h2⟩ := h
  refine ⟨1, 0, fun depth f d hf => .inl ?_⟩
  obtain ⟨f, rfl⟩ : ∃ k, f = k + 1 := ⟨f - 1, by omega⟩
  simp [run, h1, h2, toRes, step_at, hs]

theorem out_one {x : Ctx} {m : Mem} {o : One} {p q pos pos' : Nat} {R : Option Way} (h : Op m p (.one o))
    (hs : x.step o pos = some (some pos')) (hl : Link m p q) (hq : Out x m q pos' R) : Out x m p pos R := by
  obtain ⟨nd, h1, h2⟩ := h
  obtain ⟨F, D, hq⟩ := hq
  refine ⟨F + 1, D, fun depth f d hf => ?_⟩
  obtain ⟨f, rfl⟩ : ∃ k, f = k + 1 := ⟨f - 1, by omega⟩
  have e : run (x.at depth) m (f + 1) d p pos = run (x.at depth) m f d q pos' := by
    simp [run, h1, h2, step_at, hs, hl.next h1]
  rw [e]
  exact hq depth f d (by omega)

theorem out_nothing {x : Ctx} {m : Mem} {p q pos : Nat} {R : Option Way} (h : Op m p .nothing ∨ Op m p .back)
    (hl : Link m p q) (hq : Out x m q pos R) : Out x m p pos R := by
  obtain ⟨F, D, hq⟩ := hq
  refine ⟨F + 1, D, fun depth f d hf => ?_⟩
  obtain ⟨f, rfl⟩ : ∃ k, f = k + 1 := ⟨f - 1, by omega⟩
  have e : run (x.at depth) m (f + 1) d p pos = run (x.at depth) m f d q pos := by
    rcases h with ⟨nd, h1, h2⟩ | ⟨nd, h1, h2⟩ <;> simp [run, h1, h2, hl.next h1]
  rw [e]
  exact hq depth f d (by omega)

theorem out_opn {x : Ctx} {m : Mem} {n p q pos : Nat} {R : Option Way} (h : Op m p (.opn n)) (hl : Link m p q)
    (hq : Out x m q pos R) : Out x m p pos (R.map fun w => (w.1, Ev.opn n pos :: w.2)) := by
  obtain ⟨nd, h1, h2⟩ := h
  obtain ⟨F, D, hq⟩ := hq
  refine ⟨F + 1, D + 1, fun depth f d hf => ?_⟩
  obtain ⟨f, rfl⟩ : ∃ k, f = k + 1 := ⟨f - 1, by omega⟩
  simp only [run, h1, h2, hl.next h1]
  by_cases hd : d + 1 ≥ (x.at depth).depth
  · have hd' : d + 1 ≥ depth := hd
    rw [if_pos hd]
    exact .inr ⟨rfl, by omega⟩
  · rw [if_neg hd]
    rcases hq depth f (d + 1) (by omega) with e | ⟨e, hb⟩
    · rw [e]
      cases R with
      | none => exact .inl rfl
      | some w => exact .inl rfl
    · rw [e]
      exact .inr ⟨rfl, by omega⟩

theorem out_close {x : Ctx} {m : Mem} {n p q pos : Nat} {R : Option Way} (h : Op m p (.close n)) (hl : Link m p q)
    (hq : Out x m q pos R) : Out x m p pos (R.map fun w => (w.1, Ev.close n pos :: w.2)) := by
  obtain ⟨nd, h1, h2⟩ := h
  obtain ⟨F, D, hq⟩ := hq
  refine ⟨F + 1, D + 1, fun depth f d hf => ?_⟩
  obtain ⟨f, rfl⟩ : ∃ k, f = k + 1 := ⟨f - 1, by omega⟩
  simp only [run, h1, h2, hl.next h1]
  by_cases hd : d + 1 ≥ (x.at depth).depth
  · have hd' : d + 1 ≥ depth := hd
    rw [if_pos hd]
    exact .inr ⟨rfl, by omega⟩
  · rw [if_neg hd]
    rcases hq depth f (d + 1) (by omega) with e | ⟨e, hb⟩
    · rw [e]
      cases R with
      | none => exact .inl rfl
      | some w => exact .inl rfl
    · rw [e]
      exact .inr ⟨rfl, by omega⟩

/-- A `BRANCH` with another behind it. -/
theorem out_branch {x : Ctx} {m : Mem} {p q pos : Nat} {R : Option Way} (h : Op m p .branch) (hl : Link m p q)
    (hb : Op m q .branch) (hq : OutA x m p pos R) : Out x m p pos R := by
  obtain ⟨nd, h1, h2⟩ := h
  obtain ⟨nq, h3, h4⟩ := hb
  obtain ⟨F, D, hq⟩ := hq
  refine ⟨F + 1, D, fun depth f d hf => ?_⟩
  obtain ⟨f, rfl⟩ : ∃ k, f = k + 1 := ⟨f - 1, by omega⟩
  have e : run (x.at depth) m (f + 1) d p pos = alts (x.at depth) m f d p pos := by
    simp [run, h1, h2, hl.next h1, h3, h4]
  rw [e]
  exact hq depth f d (by omega)

/-- A `BRANCH` that is the only one. -/
theorem out_branch1 {x : Ctx} {m : Mem} {p q pos : Nat} {op : Opc} {R : Option Way} (h : Op m p .branch)
    (hl : Link m p q) (hb : Op m q op) (hn : op ≠ .branch) (hq : Out x m (p + 3) pos R) : Out x m p pos R := by
  obtain ⟨nd, h1, h2⟩ := h
  obtain ⟨nq, h3, h4⟩ := hb
  obtain ⟨F, D, hq⟩ := hq
  refine ⟨F + 1, D, fun depth f d hf => ?_⟩
  obtain ⟨f, rfl⟩ : ∃ k, f = k + 1 := ⟨f - 1, by omega⟩
  have e : run (x.at depth) m (f + 1) d p pos = run (x.at depth) m f d (p + 3) pos := by
    simp [run, h1, h2, hl.next h1, h3, h4, hn]
  rw [e]
  exact hq depth f d (by omega)

/-- In the loop: try this one, then the next. -/
theorem outA_step {x : Ctx} {m : Mem} {p q pos : Nat} {R R' : Option Way} (h : Op m p .branch) (hl : Link m p q)
    (hb : Op m q .branch) (h1 : Out x m (p + 3) pos R) (h2 : OutA x m q pos R') : OutA x m p pos (R.or R') := by
  obtain ⟨nd, n1, n2⟩ := h
  obtain ⟨nq, n3, n4⟩ := hb
  obtain ⟨F1, D1, h1⟩ := h1
  obtain ⟨F2, D2, h2⟩ := h2
  refine ⟨F1 + F2 + 1, D1 + D2 + 1, fun depth f d hf => ?_⟩
  obtain ⟨f, rfl⟩ : ∃ k, f = k + 1 := ⟨f - 1, by omega⟩
  simp only [alts]
  by_cases hd : d + 1 ≥ (x.at depth).depth
  · have hd' : d + 1 ≥ depth := hd
    rw [if_pos hd]
    exact .inr ⟨rfl, by omega⟩
  · rw [if_neg hd]
    rcases h1 depth f (d + 1) (by omega) with e | ⟨e, hb⟩
    · rw [e]
      cases R with
      | none =>
        simp only [toRes, n1, hl.next n1, n3, n4, if_true, Option.none_or]
        rcases h2 depth f d (by omega) with e | ⟨e, hb⟩
        · exact .inl e
        · exact .inr ⟨e, by omega⟩
      | some w => exact .inl rfl
    · rw [e]
      exact .inr ⟨rfl, by omega⟩

/-- In the loop: the last one. -/
theorem outA_last {x : Ctx} {m : Mem} {p q pos : Nat} {op : Opc} {R : Option Way} (h : Op m p .branch) (hl : Link m p q)
    (hb : Op m q op) (hn : op ≠ .branch) (h1 : Out x m (p + 3) pos R) : OutA x m p pos R := by
  obtain ⟨nd, n1, n2⟩ := h
  obtain ⟨nq, n3, n4⟩ := hb
  obtain ⟨F1, D1, h1⟩ := h1
  refine ⟨F1 + 1, D1 + 1, fun depth f d hf => ?_⟩
  obtain ⟨f, rfl⟩ : ∃ k, f = k + 1 := ⟨f - 1, by omega⟩
  simp only [alts]
  by_cases hd : d + 1 ≥ (x.at depth).depth
  · have hd' : d + 1 ≥ depth := hd
    rw [if_pos hd]
    exact .inr ⟨rfl, by omega⟩
  · rw [if_neg hd]
    rcases h1 depth f (d + 1) (by omega) with e | ⟨e, hb⟩
    · rw [e]
      cases R with
      | none =>
        simp only [toRes, n1, hl.next n1, n3, n4, hn, if_false]
        exact .inl trivial
      | some w => exact .inl rfl
    · rw [e]
      exact .inr ⟨rfl, by omega⟩

/-- What is needed of the node a piece leads to. -/
def Ok (x : Ctx) (m : Mem) (k : Nat) : Prop :=
  ∃ op, Op m k op ∧ (op = .branch → ∃ k' op', Link m k k' ∧ Op m k' op') ∧
    (∀ s, op = .one (.lit s) → x.nocase = true → ∀ c ∈ s, c < 128)

/-- Entering the loop at a `BRANCH` is as good as running it. -/
theorem outA_of {x : Ctx} {m : Mem} {k pos : Nat} {R : Option Way} (hk : Ok x m k) (hb : Op m k .branch)
    (h : Out x m k pos R) : OutA x m k pos R := by
  obtain ⟨op, h1, h2, _⟩ := hk
  have : op = .branch := by
    obtain ⟨nd, a1, a2⟩ := h1
    obtain ⟨nd', b1, b2⟩ := hb
    rw [a1] at b1
    cases b1
    rw [← a2, b2]
  subst this
  obtain ⟨k', op', hl, ho⟩ := h2 rfl
  obtain ⟨nd, n1, n2⟩ := h1
  obtain ⟨nq, n3, n4⟩ := ho
  obtain ⟨F, D, h⟩ := h
  refine ⟨F + 1, D + 1, fun depth f d hf => ?_⟩
  by_cases hbr : op' = .branch
  · have e : run (x.at depth) m (f + 1) d k pos = alts (x.at depth) m f d k pos := by
      simp [run, n1, n2, hl.next n1, n3, n4, hbr]
    rw [← e]
    rcases h depth (f + 1) d (by omega) with e | ⟨e, hb⟩
    · exact .inl e
    · exact .inr ⟨e, by omega⟩
  · obtain ⟨f, rfl⟩ : ∃ k, f = k + 1 := ⟨f - 1, by omega⟩
    simp only [alts]
    by_cases hd : d + 1 ≥ (x.at depth).depth
    · have hd' : d + 1 ≥ depth := hd
      rw [if_pos hd]
      exact .inr ⟨rfl, by omega⟩
    · rw [if_neg hd]
      have e : run (x.at depth) m (f + 1) (d + 1) k pos = run (x.at depth) m f (d + 1) (k + 3) pos := by
        simp [run, n1, n2, hl.next n1, n3, n4, hbr]
      rw [← e]
      rcases h depth (f + 1) (d + 1) (by omega) with e | ⟨e, hb⟩
      · rw [e]
        cases R with
        | none =>
          simp only [toRes, n1, hl.next n1, n3, n4, hbr, if_false]
          exact .inl trivial
        | some w => exact .inl rfl
      · rw [e]
        exact .inr ⟨rfl, by omega⟩

/-- A node that fails at once fails. -/
theorem out_none {x : Ctx} {m : Mem} {o : One} {k pos : Nat} {R : Option Way} (hk : Op m k (.one o))
    (hs : x.step o pos = some none) (h : Out x m k pos R) : R = none := by
  obtain ⟨F, D, h⟩ := h
  obtain ⟨F', D', h'⟩ := out_one_fail hk hs
  have a := h (D + D' + 1) (F + F') 0 (by omega)
  have b := h' (D + D' + 1) (F + F') 0 (by omega)
  rcases b with b | ⟨_, b⟩
  · rw [b] at a
    rcases a with a | ⟨_, a⟩
    · cases R with
      | none => rfl
      | some w => cases a
    · omega
  · omega

end Rep.Regex
