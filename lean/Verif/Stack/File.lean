import Verif.Stack.Forms

/-
The code of a file fits the sizes of its functions, also when its bindings have been allocated.
-/

namespace Rep.Stack

open Rep.Compile

theorem uDefs_good (ds : List (Name × List Name × Exp)) (s : CSt) (u : Use)
    {r : List (Name × Nat)} {t : CSt} (h : cDefs ds s = some (r, t)) :
    s.lab ≤ t.lab ∧ Fits s.lab t.lab fun L => FnsOk L s.fns u.fns t.fns (uDefs ds s u).fns := by
  induction ds generalizing s u r with
  | nil =>
    simp only [cDefs, Option.some.injEq, Prod.mk.injEq] at h
    obtain ⟨_, rfl⟩ := h
    exact ⟨Nat.le_refl _, .triv fun L => .refl _ _ _⟩
  | cons d ds ih =>
    obtain ⟨x, ps, b⟩ := d
    simp only [cDefs, Option.bind_eq_bind, Option.bind_eq_some_iff] at h
    obtain ⟨⟨k1, s1⟩, h1, ⟨r2, s2⟩, h2, h⟩ := h
    simp only [Option.some.injEq, Prod.mk.injEq] at h
    obtain ⟨_, rfl⟩ := h
    simp only [uDefs, h1]
    have hd : ∀ r ∈ (⟨[], [], 0, 0⟩ : Ctx).recs, r.depth ≤ depth (⟨[], [], 0, 0⟩ : Ctx).recs := by simp
    obtain ⟨g, _⟩ := uExp_good _ true b _ (u.enter ps) h1 (lambda_ctx hd)
    have gf := Good.fn (A := fun _ => True) hd (Nat.zero_le _) (Nat.zero_le _) g
    have ft := gf.fits.imp fun L hL => (hL trivial).2
    obtain ⟨l2, f2⟩ := ih _ (u.close (uExp (lambdaHead ⟨[], [], 0, 0⟩ (some x) ps s).2.1 true b
      (lambdaHead ⟨[], [], 0, 0⟩ (some x) ps s).2.2 (u.enter ps))) h2
    have l1 : s.lab ≤ s1.lab := gf.lab
    exact ⟨Nat.le_trans l1 l2, (ft.and f2 l1 l2).imp fun L hL => hL.1.trans hL.2⟩

/-- The code of a file, before the allocation of bindings. -/
theorem file_good {p : Prog} {ds : List (Name × Nat)} {k : List I} {t : CSt} {w : Use}
    (h : compile1 p = some (ds, k, t)) (hu : uses p = some w) :
    ∃ L, Ty L w.v (w.b + 1) (some (0, 1)) k none ∧ List.Forall₂ (FnOk L) t.fns w.fns := by
  simp only [compile1, Option.bind_eq_bind, Option.bind_eq_some_iff] at h
  obtain ⟨⟨r, s⟩, h1, ⟨k1, s1⟩, h2, h⟩ := h
  simp only [Option.some.injEq, Prod.mk.injEq] at h
  obtain ⟨rfl, rfl, rfl⟩ := h
  simp only [uses, Option.bind_eq_bind, Option.bind_eq_some_iff] at hu
  obtain ⟨⟨r', s'⟩, h1', hu⟩ := hu
  rw [h1] at h1'
  simp only [Option.some.injEq, Prod.mk.injEq] at h1'
  obtain ⟨rfl, rfl⟩ := h1'
  simp only [Option.some.injEq] at hu
  obtain ⟨l1, f1⟩ := uDefs_good p.defs CSt.init ⟨0, 0, []⟩ h1
  have hc : CtxOk ⟨[], [⟨none, [], 0, 0, 0, s.lab, false⟩], 0, 0⟩
      ⟨0, 0, (uDefs p.defs CSt.init ⟨0, 0, []⟩).fns⟩ := by
    refine ⟨Nat.le_refl _, Nat.le_refl _, ?_, ?_⟩
    · simp [depth]
    · simp
  obtain ⟨g, gv⟩ := uExp_good _ true p.main _ _ h2 hc
  rw [hu] at g gv
  have f2 := (Fits.label s.lab (0, 1)).and g.fits (Nat.le_succ _) g.lab
  obtain ⟨f, hf⟩ := f1.and f2 l1 (Nat.le_trans (Nat.le_succ _) g.lab)
  obtain ⟨q, hx, hL⟩ := hf f fun _ _ _ => rfl
  have hrl : RL ⟨[], [⟨none, [], 0, 0, 0, s.lab, false⟩], 0, 0⟩ f := by
    intro r hr _
    simp only [List.mem_singleton] at hr
    subst hr
    exact hx
  obtain ⟨ty, q'⟩ := hL hrl
  refine ⟨f, ?_, ?_⟩
  · refine .cons (b := some (0, 1)) (by simp [tr0, hx]) (by simp [okH]) ?_
    exact (ty w.v (w.b + 1) (Nat.le_refl _) (Nat.le_refl _)).append (.one rfl rfl)
  · obtain ⟨fs, zs, e1, e2, r⟩ := q.trans q'
    rw [e1, e2]
    exact r

/-! ### Allocation of bindings -/

theorem tr0_alloc {L : Nat → H} {a o : Option H} {i : I} (Hp : Nat → Bool) (b : Nat)
    (h : tr0 L a i = some o) : tr0 L a (alloc Hp b i) = some o := by
  cases i with
  | lexBind x lex =>
    rcases a with _ | ⟨h1, b1⟩
    · simp only [tr0, Option.some.injEq] at h
      subst h
      simp only [alloc]
      split
      · split <;> rfl
      · rfl
    · rcases h1 with _ | h1
      · simp [tr0] at h
      · rcases b1 with _ | b1
        · simp [tr0] at h
        · simp only [tr0, Option.some.injEq] at h
          subst h
          simp only [alloc]
          split
          · split <;> rfl
          · rfl
  | lexRef x lex =>
    rcases a with _ | ⟨h1, b1⟩ <;> simp only [tr0, Option.some.injEq] at h <;> subst h <;>
      simp only [alloc] <;> split <;> try (split <;> rfl)
    all_goals rfl
  | lexSet x lex =>
    rcases a with _ | ⟨h1, b1⟩
    · simp only [tr0, Option.some.injEq] at h
      subst h
      simp only [alloc]
      split
      · split <;> rfl
      · rfl
    · rcases h1 with _ | h1
      · simp [tr0] at h
      · simp only [tr0, Option.some.injEq] at h
        subst h
        simp only [alloc]
        split
        · split <;> rfl
        · rfl
  | _ => exact h

theorem ty_alloc {L : Nat → H} {M N : Nat} {a b : Option H} {k : List I} (Hp : Nat → Bool) (n : Nat)
    (h : Ty L M N a k b) : Ty L M N a (k.map (alloc Hp n)) b := by
  obtain ⟨o, h, l⟩ := h
  refine ⟨o, ?_, l⟩
  induction k generalizing a with
  | nil => exact h
  | cons i k ih =>
    simp only [trs, tr, List.map_cons] at h ⊢
    cases h0 : tr0 L a i with
    | none => simp [h0] at h
    | some o' =>
      rw [h0] at h
      rw [tr0_alloc Hp n h0]
      simp only at h ⊢
      split at h
      · rename_i o2 h2
        exact ih h
      · simp at h

/-- The code of a compiled file, with `max-stack` and `max-b-stack`. -/
theorem compileS_good {u : Bool} {p : Prog} {z : Sized} (h : compileS u p = some z) :
    ∃ L, Ty L z.main.v (z.main.b + 1) (some (0, 1)) z.prog.main none ∧
      z.main.s = slots z.prog.main ∧
      List.Forall₂ (fun k y => Ty L y.v (y.b + 1) (some (0, 1)) k none ∧ y.s = slots k)
        z.prog.table z.table := by
  simp only [compileS, compile, Option.bind_eq_bind, Option.bind_eq_some_iff, Option.some.injEq] at h
  obtain ⟨t, ⟨⟨ds, k, s⟩, h1, rfl⟩, w, hw, rfl⟩ := h
  obtain ⟨L, hm, hf⟩ := file_good h1 hw
  refine ⟨L, ty_alloc _ _ hm, rfl, ?_⟩
  simp only [finish]
  generalize heapP u s = Hp
  generalize s.fns = fs at hf
  generalize w.fns = zs at hf
  induction hf with
  | nil => exact .nil
  | cons a _ ih => exact .cons ⟨ty_alloc _ _ a, rfl⟩ ih

end Rep.Stack
