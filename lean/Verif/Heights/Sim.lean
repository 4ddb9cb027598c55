import Verif.Heights.Spec
import Mathlib.Tactic.Set

/-
Compiled forms do what the interpreter does.
-/

namespace Rep.Heights

/-! ## Steps -/

theorem steps_add (W : World) (P : List Insn) (n m : Nat) (c : Conf) :
    steps W P (n + m) c = steps W P m (steps W P n c) := by
  induction n generalizing c with
  | zero => rw [Nat.zero_add]; rfl
  | succ n ih =>
    rw [Nat.succ_add]
    cases h : step W P c with
    | some d => simp only [steps, h, ih]
    | none =>
      simp only [steps, h]
      cases m with
      | zero => rfl
      | succ m => simp only [steps, h]

theorem Reaches.refl (W : World) (P : List Insn) (c : Conf) : Reaches W P c c := ⟨0, rfl⟩

theorem Reaches.trans {W : World} {P : List Insn} {c d e : Conf} (h : Reaches W P c d)
    (h' : Reaches W P d e) : Reaches W P c e := by
  obtain ⟨n, rfl⟩ := h
  obtain ⟨m, rfl⟩ := h'
  exact ⟨n + m, steps_add W P n m c⟩

/-- The instructions are in the code at this address. -/
def At (P : List Insn) (p : Nat) : List Insn → Prop
  | [] => True
  | i :: c => P[p]? = some i ∧ At P (p + 1) c

theorem at_append {P : List Insn} {p : Nat} {a b : List Insn} :
    At P p (a ++ b) ↔ At P p a ∧ At P (p + a.length) b := by
  induction a generalizing p with
  | nil => simp [At]
  | cons i a ih =>
    simp only [List.cons_append, At, ih, List.length_cons, and_assoc,
      show p + 1 + a.length = p + (a.length + 1) by omega]

theorem at_self (P Q : List Insn) : At (Q ++ P) Q.length P := by
  induction P generalizing Q with
  | nil => trivial
  | cons i P ih =>
    refine ⟨by simp, ?_⟩
    have := ih (Q ++ [i])
    simpa using this

theorem one {W : World} {P : List Insn} {p : Nat} {i : Insn} (h : P[p]? = some i) (st : List Val)
    (σ : Store) : Reaches W P (.run p st σ) (insn W i p st σ) :=
  ⟨1, by simp [steps, step, h]⟩

/-! ## Outcomes -/

/-- The machine gets to the place that belongs to the result. -/
def Out (W : World) (P : List Insn) (ctx : List Rec) (ss : List (List Val)) (m : Nat) (c : Conf)
    (p : Nat) (st : List Val) : Eval → Prop
  | none => True
  | some (.val v, σ) => Reaches W P c (.run p (v :: st) σ)
  | some (.err, σ) => Reaches W P c (.err σ)
  | some (.jump k v, σ) => k < m ∧ ∃ r s, ctx[k]? = some r ∧ ss[k]? = some s ∧
      Reaches W P c (.run r.label s (put σ r.x v))

variable {W : World} {P : List Insn} {ctx : List Rec} {ss : List (List Val)} {m : Nat}

theorem out_from {c d : Conf} {p : Nat} {st : List Val} {r : Eval} (h : Reaches W P c d)
    (h' : Out W P ctx ss m d p st r) : Out W P ctx ss m c p st r := by
  match r, h' with
  | none, _ => trivial
  | some (.val _, _), h' => exact h.trans h'
  | some (.err, _), h' => exact h.trans h'
  | some (.jump _ _, _), ⟨h1, r, s, h2, h3, h4⟩ => exact ⟨h1, r, s, h2, h3, h.trans h4⟩

theorem out_bind {c : Conf} {p p' : Nat} {st st' : List Val} {r : Eval} {f : Val → Store → Eval}
    (h : Out W P ctx ss 0 c p st r)
    (h' : ∀ v σ, Out W P ctx ss m (.run p (v :: st) σ) p' st' (f v σ)) :
    Out W P ctx ss m c p' st' (r.bind f) := by
  match r, h with
  | none, _ => trivial
  | some (.val v, σ), h => exact out_from h (h' v σ)
  | some (.err, _), h => exact h
  | some (.jump _ _, _), h => exact absurd h.1 (Nat.not_lt_zero _)

theorem out_to {c : Conf} {p p' : Nat} {st st' : List Val} {r : Eval}
    (h : Out W P ctx ss m c p st r)
    (h' : ∀ v σ, Reaches W P (.run p (v :: st) σ) (.run p' (v :: st') σ)) :
    Out W P ctx ss m c p' st' r := by
  match r, h with
  | none, _ => trivial
  | some (.val v, σ), h => exact h.trans (h' v σ)
  | some (.err, _), h => exact h
  | some (.jump _ _, _), h => exact h

/-! ## Heights -/

mutual
theorem comp_le : ∀ (ctx : List Rec) (p h : Nat) (e : Exp), h + 1 ≤ (comp ctx p h e).2
  | _, _, h, .const _ => Nat.le_refl _
  | _, _, h, .var _ => Nat.le_refl _
  | ctx, p, h, .op f a b => by
    have := comp_le ctx p h a
    have := comp_le ctx (p + (comp ctx p h a).1.length) (comp ctx p h a).2 b
    simp only [comp]
    omega
  | ctx, p, h, .set x e => comp_le ctx p h e
  | ctx, p, h, .seq a b => by
    have := comp_le ctx p h a
    have := comp_le ctx (p + (comp ctx p h a).1.length + 1) ((comp ctx p h a).2 - 1) b
    simp only [comp]
    omega
  | ctx, p, h, .cond c a b => by
    have := comp_le ctx p h c
    simp only [comp]
    set cc := comp ctx p h c
    set ca := comp ctx (p + cc.1.length + 1) (cc.2 - 1) a
    set cb := comp ctx (p + cc.1.length + 1 + ca.1.length + 1) (ca.2 - 1) b
    have : cc.2 - 1 + 1 ≤ ca.2 := comp_le _ _ _ _
    have : ca.2 - 1 + 1 ≤ cb.2 := comp_le _ _ _ _
    omega
  | ctx, p, h, .case k cs => by
    simp only [comp]
    set ck := comp ctx p h k
    set cc := compCases ctx (p + ck.1.length) ck.2 false cs
    have : h + 1 ≤ ck.2 := comp_le _ _ _ _
    have : ck.2 ≤ cc.2 := cases_le _ _ _ _ _
    omega
  | ctx, p, h, .loop x i b => by
    simp only [comp]
    set ci := comp ctx p h i
    set cb := comp (⟨p + ci.1.length + 1, x, ci.2 - 1⟩ :: ctx) (p + ci.1.length + 1) (ci.2 - 1) b
    have : h + 1 ≤ ci.2 := comp_le _ _ _ _
    have : ci.2 - 1 + 1 ≤ cb.2 := comp_le _ _ _ _
    omega
  | ctx, p, h, .jump n e => by
    have := comp_le ctx p h e
    simp only [comp]
    split <;> (dsimp only; omega)
  | ctx, p, h, .opt x d b => by
    simp only [comp]
    set cd := comp ctx p h d
    set cb := comp ctx (p + cd.1.length + 1) (cd.2 + 1 - 1) b
    have : h + 1 ≤ cd.2 := comp_le _ _ _ _
    have : cd.2 + 1 - 1 + 1 ≤ cb.2 := comp_le _ _ _ _
    omega

theorem cases_le : ∀ (ctx : List Rec) (p h : Nat) (d : Bool) (cs : Cases),
    h ≤ (compCases ctx p h d cs).2
  | _, _, h, _, .nil => Nat.le_refl _
  | ctx, p, h, d, .items k ks b r => by
    simp only [compCases]
    set cb := comp ctx (p + (itemTest k ks).length + 1) h b
    set cr := compCases ctx (p + (itemTest k ks).length + 1 + cb.1.length + 1) (cb.2 - 1) d r
    have : h + 1 ≤ cb.2 := comp_le _ _ _ _
    have : cb.2 - 1 ≤ cr.2 := cases_le _ _ _ _ _
    omega
  | ctx, p, h, d, .other b r => by
    simp only [compCases]
    set cb := comp ctx p h b
    set cr := compCases ctx (p + cb.1.length + 1) (cb.2 - 1) true r
    have : h + 1 ≤ cb.2 := comp_le _ _ _ _
    have : cb.2 - 1 ≤ cr.2 := cases_le _ _ _ _ _
    omega
end

/-- Without `case` and default values the compiler counts right. -/
theorem comp_eq : ∀ (ctx : List Rec) (p h : Nat) (e : Exp), e.drifts = false →
    (comp ctx p h e).2 = h + 1
  | _, _, h, .const _, _ => rfl
  | _, _, h, .var _, _ => rfl
  | ctx, p, h, .op f a b, hd => by
    simp only [Exp.drifts, Bool.or_eq_false_iff] at hd
    simp only [comp]
    rw [comp_eq _ _ _ b hd.2, comp_eq _ _ _ a hd.1]
    omega
  | ctx, p, h, .set x e, hd => comp_eq ctx p h e hd
  | ctx, p, h, .seq a b, hd => by
    simp only [Exp.drifts, Bool.or_eq_false_iff] at hd
    simp only [comp]
    rw [comp_eq _ _ _ b hd.2, comp_eq _ _ _ a hd.1]
    omega
  | ctx, p, h, .cond c a b, hd => by
    simp only [Exp.drifts, Bool.or_eq_false_iff] at hd
    simp only [comp]
    rw [comp_eq _ _ _ b hd.2, comp_eq _ _ _ a hd.1.2, comp_eq _ _ _ c hd.1.1]
    omega
  | ctx, p, h, .case k cs, hd => by cases hd
  | ctx, p, h, .loop x i b, hd => by
    simp only [Exp.drifts, Bool.or_eq_false_iff] at hd
    simp only [comp]
    rw [comp_eq _ _ _ b hd.2, comp_eq _ _ _ i hd.1]
    omega
  | ctx, p, h, .jump n e, hd => by
    have := comp_eq ctx p h e hd
    simp only [comp]
    split <;> (dsimp only; omega)
  | ctx, p, h, .opt x d b, hd => by cases hd

/-! ## The stack and what the compiler knows of it -/

/-- What has to be removed before a jump to this loop is what the compiler thinks, or everything. -/
def Frees (r : Rec) (s : List Val) (h : Nat) (st : List Val) : Prop :=
  ∃ pre, st = pre ++ s ∧ s.length ≤ r.sp ∧ (pre.length + r.sp = h ∨ r.sp = 0)

structure Fit (zs fs : List Bool) (ctx : List Rec) (ss : List (List Val)) (h : Nat)
    (st : List Val) : Prop where
  low : st.length ≤ h
  len : zs.length = fs.length
  free : ∀ k : Nat, fs[k]? = some true → ∃ r s, ctx[k]? = some r ∧ ss[k]? = some s ∧ Frees r s h st
  zero : ∀ k : Nat, zs[k]? = some true → ∃ r s, ctx[k]? = some r ∧ ss[k]? = some s ∧ Frees r s h st ∧
    r.sp = 0

theorem fit_nil {h : Nat} {st : List Val} (hl : st.length ≤ h) : Fit [] [] ctx ss h st :=
  ⟨hl, rfl, fun k hk => by simp at hk, fun k hk => by simp at hk⟩

theorem fit_push {zs fs : List Bool} {h : Nat} {st : List Val} (v : Val)
    (hf : Fit zs fs ctx ss h st) : Fit zs fs ctx ss (h + 1) (v :: st) := by
  have key : ∀ r s, Frees r s h st → Frees r s (h + 1) (v :: st) := by
    rintro r s ⟨pre, rfl, h1, h2⟩
    refine ⟨v :: pre, rfl, h1, ?_⟩
    rcases h2 with h2 | h2
    · left
      simp only [List.length_cons]
      omega
    · exact .inr h2
  refine ⟨by simpa using hf.low, hf.len, fun k hk => ?_, fun k hk => ?_⟩
  · obtain ⟨r, s, h1, h2, h3⟩ := hf.free k hk
    exact ⟨r, s, h1, h2, key r s h3⟩
  · obtain ⟨r, s, h1, h2, h3, h4⟩ := hf.zero k hk
    exact ⟨r, s, h1, h2, key r s h3, h4⟩

theorem fit_drift {zs fs : List Bool} {h h' : Nat} {st : List Val} (hh : h ≤ h')
    (hf : Fit zs fs ctx ss h st) : Fit zs zs ctx ss h' st := by
  have key : ∀ r s, Frees r s h st → r.sp = 0 → Frees r s h' st := by
    rintro r s ⟨pre, rfl, h1, -⟩ h2
    exact ⟨pre, rfl, h1, .inr h2⟩
  refine ⟨Nat.le_trans hf.low hh, rfl, fun k hk => ?_, fun k hk => ?_⟩
  · obtain ⟨r, s, h1, h2, h3, h4⟩ := hf.zero k hk
    exact ⟨r, s, h1, h2, key r s h3 h4⟩
  · obtain ⟨r, s, h1, h2, h3, h4⟩ := hf.zero k hk
    exact ⟨r, s, h1, h2, key r s h3 h4, h4⟩

theorem fit_after {zs fs : List Bool} {h p : Nat} {st : List Val} {ctx' : List Rec} (e : Exp)
    (hf : Fit zs fs ctx ss h st) :
    Fit zs (after e zs fs) ctx ss ((comp ctx' p h e).2 - 1) st := by
  unfold after
  have := comp_le ctx' p h e
  split
  · exact fit_drift (by omega) hf
  · rename_i hd
    rw [comp_eq _ _ _ e (by simpa using hd)]
    exact hf

theorem after_length {zs fs : List Bool} (e : Exp) (h : zs.length = fs.length) :
    (after e zs fs).length = fs.length := by
  unfold after
  split
  · exact h
  · rfl

theorem zero_after {z : Bool} {h p : Nat} {ctx' : List Rec} {e : Exp} (hz : z = true → h = 0)
    (hz' : (z && !e.drifts) = true) : (comp ctx' p h e).2 - 1 = 0 := by
  simp only [Bool.and_eq_true, Bool.not_eq_true'] at hz'
  rw [comp_eq _ _ _ e hz'.2]
  have := hz hz'.1
  omega

theorem pops {p : Nat} {pre s : List Val} {σ : Store}
    (ha : At P p (List.replicate pre.length .pop)) :
    Reaches W P (.run p (pre ++ s) σ) (.run (p + pre.length) s σ) := by
  induction pre generalizing p with
  | nil => exact .refl _ _ _
  | cons v pre ih =>
    simp only [List.length_cons, List.replicate_succ, At] at ha
    refine (one ha.1 _ _).trans ?_
    have := ih ha.2
    rw [show p + (v :: pre).length = p + 1 + pre.length by simp only [List.length_cons]; omega]
    exact this

theorem pop_between {p h : Nat} {r : Rec} {s st : List Val} {σ : Store} (hl : st.length ≤ h)
    (hf : Frees r s h st) (ha : At P p (popBetween h r.sp)) :
    Reaches W P (.run p st σ) (.run (p + (popBetween h r.sp).length) s σ) := by
  obtain ⟨pre, rfl, h1, h2⟩ := hf
  unfold popBetween at ha ⊢
  rw [List.length_append] at hl
  split at ha
  · rename_i hh
    rw [if_pos hh]
    have : pre = [] := List.eq_nil_of_length_eq_zero (by omega)
    subst this
    exact .refl _ _ _
  · rename_i hh
    rw [if_neg hh]
    split at ha
    · rename_i h0
      rw [if_pos h0]
      have : s = [] := List.eq_nil_of_length_eq_zero (by omega)
      subst this
      exact one ha.1 _ _
    · rename_i h0
      rw [if_neg h0]
      have hp : h - r.sp = pre.length := by omega
      rw [hp] at ha ⊢
      rw [List.length_replicate]
      exact pops ha

/-! ## The induction -/

/-- The claim for a bound on the depth of evaluation. -/
def S (W : World) (P : List Insn) (n : Nat) : Prop :=
  ∀ (e : Exp) (z : Bool) (zs fs : List Bool) (ctx : List Rec) (ss : List (List Val)) (p h : Nat)
    (st : List Val) (σ : Store), Ok z zs fs e → (z = true → h = 0) → Fit zs fs ctx ss h st →
    At P p (comp ctx p h e).1 →
    Out W P ctx ss fs.length (.run p st σ) (p + (comp ctx p h e).1.length) st (eval W n e σ)

/-- The claim for the calls of a loop. -/
def A (W : World) (P : List Insn) (n : Nat) : Prop :=
  ∀ (x : Nat) (b : Exp) (z : Bool) (zs fs : List Bool) (ctx : List Rec) (ss : List (List Val))
    (p h : Nat) (st : List Val) (σ : Store), Ok z (z :: zs) (true :: fs) b → (z = true → h = 0) →
    Fit (z :: zs) (true :: fs) (⟨p, x, h⟩ :: ctx) (st :: ss) h st →
    At P p (comp (⟨p, x, h⟩ :: ctx) p h b).1 →
    Out W P ctx ss fs.length (.run p st σ) (p + (comp (⟨p, x, h⟩ :: ctx) p h b).1.length) st
      (again W n x b σ)

theorem item_test {p : Nat} {k v : Val} {ks : List Val} {st : List Val} {σ : Store}
    (ha : At P p (itemTest k ks)) :
    Reaches W P (.run p (v :: st) σ)
      (.run (p + (itemTest k ks).length) (yes (decide (v ∈ k :: ks)) :: v :: st) σ) := by
  unfold itemTest at ha ⊢
  cases ks with
  | nil =>
    obtain ⟨h1, h2, h3, -⟩ := ha
    refine (one h1 _ _).trans ((one h2 _ _).trans ?_)
    have := one (W := W) h3 (k :: v :: v :: st) σ
    simp only [insn] at this
    rw [show (v == k) = decide (v ∈ [k]) by
      simp only [List.mem_singleton]
      by_cases hv : v = k <;> simp [hv]] at this
    exact this
  | cons k' ks =>
    obtain ⟨h1, h2, h3, -⟩ := ha
    refine (one h1 _ _).trans ((one h2 _ _).trans ?_)
    have := one (W := W) h3 (none :: v :: v :: st) σ
    simp only [insn] at this
    rw [show (k :: k' :: ks).contains v = decide (v ∈ k :: k' :: ks) by simp [List.contains_eq_mem]] at this
    exact this

theorem sim_cases {n : Nat} (hS : S W P n) : ∀ (cs : Cases) (zs fs : List Bool) (ctx : List Rec)
    (ss : List (List Val)) (p h : Nat) (v : Val) (st : List Val) (σ : Store), OkCases zs fs cs →
    Fit zs fs ctx ss h (v :: st) → At P p (compCases ctx p h false cs).1 →
    Out W P ctx ss fs.length (.run p (v :: st) σ) (p + (compCases ctx p h false cs).1.length)
      (v :: st) (match choose v cs with
        | some b => eval W n b σ
        | none => some (.val none, σ))
  | .nil, zs, fs, ctx, ss, p, h, v, st, σ, ho, hf, ha => one ha.1 _ _
  | .items k ks b r, zs, fs, ctx, ss, p, h, v, st, σ, ho, hf, ha => by
    simp only [compCases] at ha ⊢
    set cb := comp ctx (p + (itemTest k ks).length + 1) h b
    set cr := compCases ctx (p + (itemTest k ks).length + 1 + cb.1.length + 1) (cb.2 - 1) false r
    rw [List.append_assoc, at_append] at ha
    obtain ⟨h1, h2, h3⟩ := ha
    rw [show ∀ a b : List Insn, a.append b = a ++ b from fun _ _ => rfl, at_append] at h3
    obtain ⟨h3, h4, h5⟩ := h3
    refine out_from (item_test h1) (out_from (one h2 _ _) ?_)
    by_cases hv : v ∈ k :: ks
    · rw [show yes (decide (v ∈ k :: ks)) = some 1 by simp only [decide_eq_true hv, yes, if_true]]
      simp only [choose, if_pos hv, insn, if_true, Option.isSome_some]
      have := hS b false zs fs ctx ss _ h (v :: st) σ ho.1 (by simp) hf h3
      refine out_to this fun w σ' => ?_
      refine (one h4 _ _).trans ?_
      simp only [insn, List.length_append, List.length_cons]
      rw [show p + ((itemTest k ks).length + (cb.1.length + 1) + (cr.1.length + 1)) =
        p + (itemTest k ks).length + 1 + cb.1.length + 1 + cr.1.length by omega]
      exact .refl _ _ _
    · rw [show yes (decide (v ∈ k :: ks)) = none by
        simp only [decide_eq_false hv, yes, Bool.false_eq_true, if_false]]
      simp only [choose, if_neg hv, insn]
      have hf' := fit_after (ctx' := ctx) (p := p + (itemTest k ks).length + 1) b hf
      have := sim_cases hS r zs (after b zs fs) ctx ss _ _ v st σ ho.2 hf' h5
      rw [after_length b hf.len] at this
      simp only [List.length_append, List.length_cons]
      rw [show p + ((itemTest k ks).length + (cb.1.length + 1) + (cr.1.length + 1)) =
        p + (itemTest k ks).length + 1 + cb.1.length + 1 + cr.1.length by omega]
      refine out_from ?_ this
      simp only [Bool.false_eq_true, if_false, Option.isSome_none]
      rw [show p + (itemTest k ks).length + 1 + (cb.1.length + 1) =
        p + (itemTest k ks).length + 1 + cb.1.length + 1 by omega]
      exact .refl _ _ _
  | .other b r, zs, fs, ctx, ss, p, h, v, st, σ, ho, hf, ha => by
    simp only [compCases] at ha ⊢
    set cb := comp ctx p h b
    set cr := compCases ctx (p + cb.1.length + 1) (cb.2 - 1) true r
    rw [at_append] at ha
    obtain ⟨h3, h4, h5⟩ := ha
    simp only [choose]
    have := hS b false zs fs ctx ss _ h (v :: st) σ ho.1 (by simp) hf h3
    refine out_to this fun w σ' => ?_
    refine (one h4 _ _).trans ?_
    simp only [insn, List.length_append, List.length_cons]
    rw [show p + (cb.1.length + (cr.1.length + 1)) = p + cb.1.length + 1 + cr.1.length by omega]
    exact .refl _ _ _

theorem sim_step {n : Nat} (hS : S W P n) (hA : A W P n) : S W P (n + 1) := by
  intro e z zs fs ctx ss p h st σ ho hz hf ha
  have hl := hf.low
  cases e with
  | const v => exact one ha.1 _ _
  | var x => exact one ha.1 _ _
  | op f a b =>
    simp only [comp] at ha ⊢
    set ca := comp ctx p h a
    set cb := comp ctx (p + ca.1.length) ca.2 b
    rw [List.append_assoc, at_append, at_append] at ha
    obtain ⟨h1, h2, h3, -⟩ := ha
    simp only [eval]
    refine out_bind (hS a z [] [] ctx ss p h st σ ho.1 hz (fit_nil hl) h1) fun v σ1 => ?_
    have hle : h + 1 ≤ ca.2 := comp_le _ _ _ _
    refine out_bind (hS b false [] [] ctx ss _ _ (v :: st) σ1 ho.2 (by simp)
      (fit_nil (by simp only [List.length_cons]; omega)) h2) fun w σ2 => ?_
    have h4 := one (W := W) h3 (w :: v :: st) σ2
    simp only [insn] at h4
    cases hw : W f v w with
    | none =>
      rw [hw] at h4
      exact h4
    | some r =>
      rw [hw] at h4
      simp only [Out, List.length_append, List.length_cons, List.length_nil]
      rw [show p + (ca.1.length + cb.1.length + (0 + 1)) = p + ca.1.length + cb.1.length + 1 by omega]
      exact h4
  | set x e =>
    simp only [comp] at ha ⊢
    rw [at_append] at ha
    obtain ⟨h1, h2, h3, -⟩ := ha
    simp only [eval]
    refine out_bind (hS e z [] [] ctx ss p h st σ ho hz (fit_nil hl) h1) fun v σ1 => ?_
    simp only [Out, List.length_append, List.length_cons, List.length_nil]
    exact (one h2 _ _).trans (one h3 _ _)
  | seq a b =>
    simp only [comp] at ha ⊢
    set ca := comp ctx p h a
    set cb := comp ctx (p + ca.1.length + 1) (ca.2 - 1) b
    rw [at_append] at ha
    obtain ⟨h1, h2, h3⟩ := ha
    simp only [eval]
    refine out_bind (hS a z [] [] ctx ss p h st σ ho.1 hz (fit_nil hl) h1) fun v σ1 => ?_
    refine out_from (one h2 _ _) ?_
    have := hS b _ zs _ ctx ss _ _ st σ1 ho.2 (zero_after hz) (fit_after a hf) h3
    rw [after_length a hf.len] at this
    simp only [List.length_append, List.length_cons]
    rw [show p + (ca.1.length + (cb.1.length + 1)) = p + ca.1.length + 1 + cb.1.length by omega]
    exact this
  | cond c a b =>
    simp only [comp] at ha ⊢
    set cc := comp ctx p h c
    set ca := comp ctx (p + cc.1.length + 1) (cc.2 - 1) a
    set cb := comp ctx (p + cc.1.length + 1 + ca.1.length + 1) (ca.2 - 1) b
    rw [List.append_assoc, at_append] at ha
    obtain ⟨h1, h2, h3⟩ := ha
    rw [show ∀ a b : List Insn, a.append b = a ++ b from fun _ _ => rfl, at_append] at h3
    obtain ⟨h3, h4, h5⟩ := h3
    simp only [eval]
    refine out_bind (hS c z [] [] ctx ss p h st σ ho.1 hz (fit_nil hl) h1) fun v σ1 => ?_
    refine out_from (one h2 _ _) ?_
    have hfa := fit_after (ctx' := ctx) (p := p) c hf
    have hza := zero_after (ctx' := ctx) (p := p) (e := c) hz
    have hlen : p + (cc.1 ++ .jn (ca.1.length + 1) :: ca.1 ++ .skip cb.1.length :: cb.1).length =
        p + cc.1.length + 1 + ca.1.length + 1 + cb.1.length := by
      simp only [List.length_append, List.length_cons]
      omega
    rw [hlen]
    cases v with
    | some v =>
      simp only [insn, Option.isSome_some, if_true]
      have := hS a _ zs _ ctx ss _ _ st σ1 ho.2.1 hza hfa h3
      rw [after_length c hf.len] at this
      exact out_to this fun w σ2 => one h4 _ _
    | none =>
      simp only [insn, Option.isSome_none, Bool.false_eq_true, if_false]
      have := hS b _ zs _ ctx ss _ _ st σ1 ho.2.2 (zero_after hza) (fit_after a hfa) h5
      rw [after_length a (by rw [after_length c hf.len, hf.len]), after_length c hf.len] at this
      rw [show p + cc.1.length + 1 + (ca.1.length + 1) = p + cc.1.length + 1 + ca.1.length + 1 by omega]
      exact this
  | case k cs =>
    simp only [comp] at ha ⊢
    set ck := comp ctx p h k
    set cc := compCases ctx (p + ck.1.length) ck.2 false cs
    rw [List.append_assoc, at_append, at_append] at ha
    obtain ⟨h1, h2, h3, h4, -⟩ := ha
    simp only [eval]
    refine out_bind (hS k z [] [] ctx ss p h st σ ho.1 hz (fit_nil hl) h1) fun v σ1 => ?_
    have hf' := fit_push v (fit_after (ctx' := ctx) (p := p) k hf)
    have hle : h + 1 ≤ ck.2 := comp_le _ _ _ _
    have hck : ck.2 - 1 + 1 = ck.2 := by omega
    rw [show (comp ctx p h k).2 - 1 + 1 = ck.2 from hck] at hf'
    have := sim_cases hS cs zs (after k zs fs) ctx ss _ _ v st σ1 ho.2 hf' h2
    rw [after_length k hf.len] at this
    refine out_to this fun w σ2 => ?_
    simp only [List.length_append, List.length_cons, List.length_nil]
    rw [show p + (ck.1.length + cc.1.length + (0 + 1 + 1)) = p + ck.1.length + cc.1.length + 1 + 1 by omega]
    exact (one h3 _ _).trans (one h4 _ _)
  | loop x i b =>
    simp only [comp] at ha ⊢
    set ci := comp ctx p h i
    set cb := comp (⟨p + ci.1.length + 1, x, ci.2 - 1⟩ :: ctx) (p + ci.1.length + 1) (ci.2 - 1) b
    rw [at_append] at ha
    obtain ⟨h1, h2, h3⟩ := ha
    simp only [eval]
    refine out_bind (hS i z [] [] ctx ss p h st σ ho.1 hz (fit_nil hl) h1) fun v σ1 => ?_
    refine out_from (one h2 _ _) ?_
    have hfi := fit_after (ctx' := ctx) (p := p) i hf
    have hzi := zero_after (ctx' := ctx) (p := p) (e := i) hz
    have hfit : Fit ((z && !i.drifts) :: zs) (true :: after i zs fs)
        (⟨p + ci.1.length + 1, x, ci.2 - 1⟩ :: ctx) (st :: ss) (ci.2 - 1) st := by
      refine ⟨hfi.low, by simp [hfi.len], fun k hk => ?_, fun k hk => ?_⟩
      · cases k with
        | zero => exact ⟨_, _, rfl, rfl, [], rfl, hfi.low, .inl (Nat.zero_add _)⟩
        | succ k => exact hfi.free k hk
      · cases k with
        | zero =>
          simp only [List.getElem?_cons_zero, Option.some.injEq] at hk
          exact ⟨_, _, rfl, rfl, ⟨[], rfl, hfi.low, .inl (Nat.zero_add _)⟩, hzi hk⟩
        | succ k => exact hfi.zero k hk
    have := hA x b _ zs _ ctx ss _ _ st (put σ1 x v) ho.2 hzi hfit h3
    rw [after_length i hf.len] at this
    simp only [List.length_append, List.length_cons]
    rw [show p + (ci.1.length + (cb.1.length + 1)) = p + ci.1.length + 1 + cb.1.length by omega]
    exact this
  | jump k e =>
    have hfe := fit_after (ctx' := ctx) (p := p) e hf
    obtain ⟨r, s, hr, hs, hfr⟩ := hfe.free k ho.2
    simp only [comp, hr] at ha ⊢
    rw [List.append_assoc, at_append] at ha
    obtain ⟨h1, h2, h3⟩ := ha
    rw [show ∀ a b : List Insn, a.append b = a ++ b from fun _ _ => rfl, at_append] at h3
    obtain ⟨h3, h4, -⟩ := h3
    simp only [eval]
    refine out_bind (hS e z [] [] ctx ss p h st σ ho.1 hz (fit_nil hl) h1) fun v σ1 => ?_
    refine ⟨?_, r, s, hr, hs, ?_⟩
    · rw [← after_length e hf.len]
      exact (List.getElem?_eq_some_iff.1 ho.2).1
    · exact (one h2 _ _).trans ((pop_between hfe.low hfr h3).trans (one h4 _ _))
  | opt x d b =>
    simp only [comp] at ha ⊢
    set cd := comp ctx p h d
    set cb := comp ctx (p + cd.1.length + 1) (cd.2 + 1 - 1) b
    rw [at_append] at ha
    obtain ⟨h1, h2, h3⟩ := ha
    simp only [eval]
    refine out_bind (hS d z [] [] ctx ss p h st σ ho.1 hz (fit_nil hl) h1) fun v σ1 => ?_
    refine out_from (one h2 _ _) ?_
    have hle : h + 1 ≤ cd.2 := comp_le _ _ _ _
    have := hS b false zs zs ctx ss _ _ st (put σ1 x v) ho.2 (by simp) (fit_drift (by omega) hf) h3
    rw [hf.len] at this
    simp only [List.length_append, List.length_cons]
    rw [show p + (cd.1.length + (cb.1.length + 1)) = p + cd.1.length + 1 + cb.1.length by omega]
    exact this

theorem again_step {n : Nat} (hS : S W P n) (hA : A W P n) : A W P (n + 1) := by
  intro x b z zs fs ctx ss p h st σ ho hz hf ha
  have := hS b z _ _ _ _ p h st σ ho hz hf ha
  simp only [again]
  match hr : eval W n b σ with
  | none => trivial
  | some (.val v, σ1) =>
    rw [hr] at this
    exact this
  | some (.err, σ1) =>
    rw [hr] at this
    exact this
  | some (.jump 0 v, σ1) =>
    rw [hr] at this
    obtain ⟨-, r, s, h1, h2, h3⟩ := this
    simp only [List.getElem?_cons_zero, Option.some.injEq] at h1 h2
    subst h1 h2
    exact out_from h3 (hA x b z zs fs ctx ss p h st (put σ1 x v) ho hz hf ha)
  | some (.jump (k + 1) v, σ1) =>
    rw [hr] at this
    obtain ⟨h0, r, s, h1, h2, h3⟩ := this
    exact ⟨by simpa using h0, r, s, h1, h2, h3⟩

theorem sim (W : World) (P : List Insn) (n : Nat) : S W P n ∧ A W P n := by
  induction n with
  | zero => exact ⟨fun _ _ _ _ _ _ _ _ _ _ _ _ _ _ => trivial,
      fun _ _ _ _ _ _ _ _ _ _ _ _ _ _ _ => trivial⟩
  | succ n ih => exact ⟨sim_step ih.1 ih.2, again_step ih.1 ih.2⟩

end Rep.Heights
