import Verif.Stack.Typing
import Mathlib.Data.List.Forall2

/-
The code of a form fits the heights that the compiler counts, within the maxima that it declares.
-/

namespace Rep.Stack

open Rep.Compile

/-- The code of a function fits its sizes. -/
def FnOk (L : Nat → H) (f : Fn) (z : Nat × Nat) : Prop :=
  Ty L z.1 (z.2 + 1) (some (0, 1)) f.code none

/-- The functions that have been added to the table fit the sizes that have been added. -/
def FnsOk (L : Nat → H) (f : List Fn) (z : List (Nat × Nat)) (f' : List Fn)
    (z' : List (Nat × Nat)) : Prop :=
  ∃ fs zs, f' = f ++ fs ∧ z' = z ++ zs ∧ List.Forall₂ (FnOk L) fs zs

theorem FnsOk.refl (L : Nat → H) (f : List Fn) (z : List (Nat × Nat)) : FnsOk L f z f z :=
  ⟨[], [], by simp, by simp, .nil⟩

theorem FnsOk.trans {L : Nat → H} {f f' f'' : List Fn} {z z' z'' : List (Nat × Nat)}
    (h : FnsOk L f z f' z') (h' : FnsOk L f' z' f'' z'') : FnsOk L f z f'' z'' := by
  obtain ⟨fs, zs, rfl, rfl, h⟩ := h
  obtain ⟨fs', zs', rfl, rfl, h'⟩ := h'
  exact ⟨fs ++ fs', zs ++ zs', by simp, by simp, List.rel_append h h'⟩

/-- Compilation of some code: from state `s` and maxima `u` to `t` and `w`; the code takes the
heights from `a` to `b`, if `A` holds of the heights at labels. -/
structure Good (A : (Nat → H) → Prop) (a : H) (s : CSt) (u : Use) (k : List I) (t : CSt) (w : Use)
    (b : H) : Prop where
  mv : u.v ≤ w.v
  mb : u.b ≤ w.b
  lab : s.lab ≤ t.lab
  fits : Fits s.lab t.lab fun L => A L →
    (∀ M N, w.v ≤ M → w.b + 1 ≤ N → Ty L M N (some a) k (some b)) ∧
      FnsOk L s.fns u.fns t.fns w.fns

theorem Good.append {A : (Nat → H) → Prop} {a b c : H} {s t t' : CSt} {u w w' : Use} {k k' : List I}
    (h : Good A a s u k t w b) (h' : Good A b t w k' t' w' c) :
    Good A a s u (k ++ k') t' w' c := by
  refine ⟨Nat.le_trans h.mv h'.mv, Nat.le_trans h.mb h'.mb, Nat.le_trans h.lab h'.lab, ?_⟩
  refine (h.fits.and h'.fits h.lab h'.lab).imp fun L hL hA => ?_
  obtain ⟨p, q⟩ := hL.1 hA
  obtain ⟨p', q'⟩ := hL.2 hA
  refine ⟨fun M N hM hN => ?_, q.trans q'⟩
  exact (p M N (Nat.le_trans h'.mv hM) (Nat.le_trans (Nat.succ_le_succ h'.mb) hN)).append (p' M N hM hN)

/-- Code without labels of its own. -/
theorem Good.plain {A : (Nat → H) → Prop} {a b : H} {s t : CSt} {u w : Use} {k : List I}
    (hv : u.v ≤ w.v) (hb : u.b ≤ w.b) (hl : s.lab ≤ t.lab) (hf : t.fns = s.fns) (hz : w.fns = u.fns)
    (h : ∀ L M N, A L → w.v ≤ M → w.b + 1 ≤ N → Ty L M N (some a) k (some b)) :
    Good A a s u k t w b := by
  refine ⟨hv, hb, hl, .triv fun L hA => ⟨fun M N hM hN => h L M N hA hM hN, ?_⟩⟩
  rw [hf, hz]
  exact .refl _ _ _

/-- Code made with a new label. -/
theorem Good.label {A A' : (Nat → H) → Prop} {a b : H} {s t : CSt} {u w : Use} {k : List I} {x : H}
    (h : Good A' a { s with lab := s.lab + 1 } u k t w b)
    (hA : ∀ L, A L → L s.lab = x → A' L) : Good A a s u k t w b := by
  refine ⟨h.mv, h.mb, Nat.le_trans (Nat.le_succ _) h.lab, ?_⟩
  refine ((Fits.label s.lab x).and h.fits (Nat.le_succ _) h.lab).imp fun L hL hA' => ?_
  exact hL.2 (hA L hA' hL.1)

theorem Good.weaken {A A' : (Nat → H) → Prop} {a b : H} {s t : CSt} {u w : Use} {k : List I}
    (h : Good A' a s u k t w b) (hA : ∀ L, A L → A' L) : Good A a s u k t w b :=
  ⟨h.mv, h.mb, h.lab, h.fits.imp fun L hL hA' => hL (hA L hA')⟩

/-- As another state with the same functions and labels. -/
theorem Good.state {A : (Nat → H) → Prop} {a b : H} {s s' t t' : CSt} {u w : Use} {k : List I}
    (h : Good A a s u k t w b) (h1 : s'.lab ≤ s.lab) (h2 : t.lab ≤ t'.lab) (h3 : s'.fns = s.fns)
    (h4 : t'.fns = t.fns) : Good A a s' u k t' w b := by
  refine ⟨h.mv, h.mb, by have := h.lab; omega, ?_⟩
  rw [h3, h4]
  exact h.fits.mono h1 h2

/-- The heights at the labels of the functions that can be jumped to. -/
def RL (c : Ctx) (L : Nat → H) : Prop :=
  ∀ r ∈ c.recs, r.depth = depth c.recs → L r.label = (r.sp, r.bp + 1)

/-- A context with maxima. -/
structure CtxOk (c : Ctx) (u : Use) : Prop where
  sp : c.sp ≤ u.v
  bp : c.bp ≤ u.b
  deep : ∀ r ∈ c.recs, r.depth ≤ depth c.recs
  recs : ∀ r ∈ c.recs, r.depth = depth c.recs → r.sp ≤ c.sp ∧ r.bp ≤ c.bp

theorem CtxOk.mono {c : Ctx} {u w : Use} (h : CtxOk c u) (hv : u.v ≤ w.v) (hb : u.b ≤ w.b) :
    CtxOk c w :=
  ⟨Nat.le_trans h.sp hv, Nat.le_trans h.bp hb, h.deep, h.recs⟩

theorem CtxOk.good {c : Ctx} {u w : Use} {A : (Nat → H) → Prop} {a b : H} {s t : CSt} {k : List I}
    (h : CtxOk c u) (g : Good A a s u k t w b) : CtxOk c w :=
  h.mono g.mv g.mb

theorem CtxOk.push {c : Ctx} {u : Use} (h : CtxOk c u) (hv : c.sp + 1 ≤ u.v) :
    CtxOk { c with sp := c.sp + 1 } u :=
  ⟨hv, h.bp, h.deep, fun r hr hd => ⟨Nat.le_succ_of_le (h.recs r hr hd).1, (h.recs r hr hd).2⟩⟩

theorem CtxOk.frame {c : Ctx} {u : Use} {lex : Lex} (h : CtxOk c u) (hb : c.bp + 1 ≤ u.b) :
    CtxOk { c with bp := c.bp + 1, lex := lex } u :=
  ⟨h.sp, hb, h.deep, fun r hr hd => ⟨(h.recs r hr hd).1, Nat.le_succ_of_le (h.recs r hr hd).2⟩⟩

theorem CtxOk.lex {c : Ctx} {u : Use} {lex : Lex} (h : CtxOk c u) : CtxOk { c with lex := lex } u :=
  ⟨h.sp, h.bp, h.deep, h.recs⟩

theorem inc_v (u : Use) (n : Nat) : u.v ≤ (u.inc n).v ∧ n ≤ (u.inc n).v ∧ (u.inc n).b = u.b ∧
    (u.inc n).fns = u.fns := by
  simp [Use.inc, Nat.le_max_left, Nat.le_max_right]

theorem incB_b (u : Use) (n : Nat) : u.b ≤ (u.incB n).b ∧ n ≤ (u.incB n).b ∧ (u.incB n).v = u.v ∧
    (u.incB n).fns = u.fns := by
  simp [Use.incB, Nat.le_max_left, Nat.le_max_right]

/-! ### Pieces of code -/

theorem ty_pops (L : Nat → H) {M N h b : Nat} (n : Nat) (hM : h + n ≤ M) (hN : b ≤ N) :
    Ty L M N (some (h + n, b)) (List.replicate n .pop) (some (h, b)) := by
  induction n with
  | zero => exact .nil _ _ _ _
  | succ n ih =>
    rw [List.replicate_succ]
    refine .cons (b := some (h + n, b)) rfl ?_ (ih (by omega))
    simp [okH]; omega

/-- Each of some instructions takes a value off the stack. -/
theorem ty_takes {α : Type} (L : Nat → H) {M N h b : Nat} (f : α → I) (l : List α)
    (hf : ∀ x ∈ l, ∀ h, tr0 L (some (h + 1, b)) (f x) = some (some (h, b))) (hM : h + l.length ≤ M)
    (hN : b ≤ N) : Ty L M N (some (h + l.length, b)) (l.map f) (some (h, b)) := by
  induction l with
  | nil => exact .nil _ _ _ _
  | cons x l ih =>
    rw [List.length_cons] at hM ⊢
    rw [List.map_cons]
    refine .cons (b := some (h + l.length, b)) (hf x (by simp) (h + l.length)) ?_
      (ih (fun y hy => hf y (by simp [hy])) (by omega))
    simp [okH]; omega

theorem tr0_varset (L : Nat → H) (c : Ctx) (x : Name) (h b : Nat) :
    tr0 L (some (h + 1, b)) (varset c x) = some (some (h, b)) := by
  unfold varset
  split <;> rfl

theorem ty_bindAll (L : Nat → H) {M N h b : Nat} (xs : List Name) (lex : Lex) (n : Nat)
    (hM : h + xs.length ≤ M) (hN : b + 1 ≤ N) :
    Ty L M N (some (h + xs.length, b + 1)) (bindAll xs lex n).1 (some (h, b + 1)) := by
  induction xs generalizing lex n with
  | nil => exact .nil _ _ _ _
  | cons x xs ih =>
    rw [List.length_cons] at hM ⊢
    refine .cons (b := some (h + xs.length, b + 1)) rfl ?_ (ih _ _ (by omega))
    simp [okH]; omega

theorem ty_bindNils (L : Nat → H) {M N h b : Nat} (xs : List Name) (lex : Lex) (n : Nat)
    (hM : xs ≠ [] → h + 1 ≤ M) (hM' : h ≤ M) (hN : b + 1 ≤ N) :
    Ty L M N (some (h, b + 1)) (bindNils xs lex n).1 (some (h, b + 1)) := by
  induction xs generalizing lex n with
  | nil => exact .nil _ _ _ _
  | cons x xs ih =>
    have := hM (by simp)
    refine .cons (b := some (h + 1, b + 1)) rfl (by simp [okH]; omega) ?_
    refine .cons (b := some (h, b + 1)) rfl (by simp [okH]; omega) (ih _ _ (fun _ => this))

theorem ty_popBetween (L : Nat → H) {M N top bottom b : Nat} (h : bottom ≤ top) (hM : top ≤ M)
    (hN : b ≤ N) : Ty L M N (some (top, b)) (popBetween top bottom) (some (bottom, b)) := by
  unfold popBetween
  split
  · rename_i e
    subst e
    exact .nil _ _ _ _
  split
  · rename_i e
    subst e
    exact .one rfl (by simp [okH]; omega)
  · have := ty_pops L (h := bottom) (b := b) (M := M) (N := N) (top - bottom) (by omega) hN
    rwa [Nat.add_sub_cancel' h] at this

theorem ty_unbinds (L : Nat → H) {M N h b : Nat} (n : Nat) (hM : h ≤ M) (hN : b + n ≤ N) :
    Ty L M N (some (h, b + n)) (List.replicate n .unbind) (some (h, b)) := by
  induction n with
  | zero => exact .nil _ _ _ _
  | succ n ih =>
    rw [List.replicate_succ]
    refine .cons (b := some (h, b + n)) rfl ?_ (ih (by omega))
    simp [okH]; omega

theorem ty_unbindBetween (L : Nat → H) {M N h top bottom : Nat} (hb : bottom ≤ top) (hM : h ≤ M)
    (hN : top + 1 ≤ N) :
    Ty L M N (some (h, top + 1)) (unbindBetween top bottom) (some (h, bottom + 1)) := by
  unfold unbindBetween
  split
  · rename_i e
    subst e
    split
    · have : top = 0 := by omega
      subst this
      exact .nil _ _ _ _
    · exact .one rfl (by simp [okH]; omega)
  · have := ty_unbinds L (h := h) (b := bottom + 1) (M := M) (N := N) (top - bottom) hM (by omega)
    have e : bottom + 1 + (top - bottom) = top + 1 := by omega
    rwa [e] at this

/-- Removal of the frame of a function, and the start of a new one. -/
theorem ty_unbindBelow (L : Nat → H) {M N h top bp : Nat} (hb : bp ≤ top) (hM : h ≤ M)
    (hN : top + 1 ≤ N) :
    Ty L M N (some (h, top + 1)) (unbindBelow top bp ++ [.initBind]) (some (h, bp + 1)) := by
  unfold unbindBelow
  cases bp with
  | zero =>
    refine .cons (b := some (h, 0)) rfl (by simp [okH]; omega) (.one rfl (by simp [okH]; omega))
  | succ b =>
    exact (ty_unbindBetween L (by omega) hM hN).append (.one rfl (by simp [okH]; omega))

/-- A jump to the start of a function. -/
theorem ty_tailCall (L : Nat → H) {M N : Nat} {c : Ctx} {r : Rec} {extra : Nat} {s : CSt} {b : Option H}
    (hsp : r.sp ≤ c.sp) (hbp : r.bp ≤ c.bp) (hl : L r.label = (r.sp, r.bp + 1))
    (hM : c.sp + (r.args.length + extra) ≤ M) (hN : c.bp + 1 ≤ N) :
    Ty L M N (some (c.sp + (r.args.length + extra), c.bp + 1)) (tailCall c r extra s).1 b := by
  have jmp : Ty L M N (some (r.sp, r.bp + 1)) [.jmp r.label] b :=
    (Ty.one (b := none) (by simp [tr0, hl]) rfl).le (.inl rfl)
  have e : c.sp + (r.args.length + extra) = c.sp + extra + r.args.reverse.length := by
    rw [List.length_reverse]; omega
  rw [e] at hM ⊢
  unfold tailCall
  split
  · exact ((((ty_unbindBelow L hbp hM hN).append
      (ty_takes L (h := c.sp + extra) _ _ (fun _ _ _ => rfl) hM (by omega))).append
      (ty_pops L (h := c.sp) extra (by omega) (by omega))).append
      (ty_popBetween L hsp (by omega) (by omega))).append jmp
  · exact ((((ty_takes L (h := c.sp + extra) _ _ (fun x _ h => tr0_varset L c x h _) hM
      (by omega)).append
      (ty_pops L (h := c.sp) extra (by omega) (by omega))).append
      (ty_unbindBetween L hbp (by omega) hN)).append
      (ty_popBetween L hsp (by omega) (by omega))).append jmp

/-- Arguments pushed by a caller are taken. -/
theorem ty_reqArgs (L : Nat → H) {M N h b : Nat} (ps : List Name) (hM : h + ps.length ≤ M)
    (hN : b ≤ N) :
    Ty L M N (some (h, b)) (ps.map fun _ => .reqArg) (some (h + ps.length, b)) := by
  induction ps generalizing h with
  | nil => exact .nil _ _ _ _
  | cons x xs ih =>
    rw [List.length_cons] at hM ⊢
    have := ih (h := h + 1) (by omega)
    rw [Nat.add_assoc, Nat.add_comm 1] at this
    refine .cons (b := some (h + 1, b)) rfl (by simp [okH]; omega) this

theorem ty_lambdaHead (L : Nat → H) {M N : Nat} {c : Ctx} {nm : Option Name} {ps : List Name} {s : CSt}
    (hl : L s.lab = (0, 1)) (hM : ps.length ≤ M) (hN : 1 ≤ N) :
    Ty L M N (some (0, 1)) (lambdaHead c nm ps s).1 (some (0, 1)) := by
  unfold lambdaHead
  refine Ty.append (b := some (0, 1)) (Ty.append (ty_reqArgs L ps (by omega) hN) ?_)
    (.one (b := some (0, 1)) ?_ ?_)
  · have := ty_bindAll L (M := M) (N := N) (h := 0) (b := 0) ps.reverse c.lex s.cell
      (by rw [List.length_reverse]; omega) hN
    rw [List.length_reverse] at this
    exact this
  · simp [tr0, hl]
  · simp [okH, hN]

theorem ty_inlineHead (L : Nat → H) {M N : Nat} {c : Ctx} {nm : Option Name} {ps : List Name}
    {extra : Nat} {s : CSt} (hl : L s.lab = (c.sp, (inlineHead c nm ps extra s).2.1.bp + 1))
    (hM : c.sp + (ps.length + extra) ≤ M) (hN : (inlineHead c nm ps extra s).2.1.bp + 1 ≤ N) :
    Ty L M N (some (c.sp + (ps.length + extra), c.bp + 1)) (inlineHead c nm ps extra s).1
      (some (c.sp, (inlineHead c nm ps extra s).2.1.bp + 1)) := by
  unfold inlineHead at hl hN ⊢
  split
  · rename_i e
    simp only [e, if_true] at hl hN
    subst e
    simp only [List.length_nil, Nat.zero_add] at hM ⊢
    refine (ty_pops L extra hM hN).append (.one ?_ ?_)
    · simp [tr0, hl]
    · simp [okH]; omega
  · rename_i e
    simp only [e, if_false] at hl hN
    have e1 : c.sp + (ps.length + extra) = c.sp + extra + ps.reverse.length := by
      rw [List.length_reverse]; omega
    rw [e1] at hM ⊢
    refine Ty.append (Ty.append (Ty.append (k := [.initBind])
      (b := some (c.sp + extra + ps.reverse.length, c.bp + 1 + 1)) (.one rfl ?_)
      (ty_bindAll L _ _ _ hM hN)) (ty_pops L extra (by omega) hN)) (.one ?_ ?_)
    · simp [okH]; omega
    · simp [tr0, hl]
    · simp [okH]; omega

/-! ### Contexts of bodies -/

theorem lambda_rl {c : Ctx} {nm : Option Name} {ps : List Name} {s : CSt} {L : Nat → H}
    (hd : ∀ r ∈ c.recs, r.depth ≤ depth c.recs) (hl : L s.lab = (0, 1)) :
    RL (lambdaHead c nm ps s).2.1 L := by
  intro r hr hr'
  simp only [lambdaHead, List.mem_cons] at hr hr'
  rcases hr with hr | hr
  · subst hr; exact hl
  · have := hd r hr
    simp only [depth] at hr'
    cases hcr : c.recs with
    | nil => rw [hcr] at hr; simp at hr
    | cons r0 rs =>
      rw [hcr] at this hr'
      simp only [nextDepth, depth] at this hr'
      omega

theorem lambda_ctx {c : Ctx} {nm : Option Name} {ps : List Name} {s : CSt} {u : Use}
    (hd : ∀ r ∈ c.recs, r.depth ≤ depth c.recs) :
    CtxOk (lambdaHead c nm ps s).2.1 (u.enter ps) := by
  refine ⟨Nat.zero_le _, Nat.zero_le _, ?_, ?_⟩
  · intro r hr
    simp only [lambdaHead, List.mem_cons] at hr ⊢
    rcases hr with hr | hr
    · subst hr; exact Nat.le_refl _
    · have := hd r hr
      simp only [depth]
      cases hcr : c.recs with
      | nil => rw [hcr] at hr; simp at hr
      | cons r0 rs =>
        rw [hcr] at this
        simp only [nextDepth, depth] at this ⊢
        omega
  · intro r hr hr'
    simp only [lambdaHead, List.mem_cons] at hr hr' ⊢
    rcases hr with hr | hr
    · subst hr; exact ⟨Nat.le_refl _, Nat.le_refl _⟩
    · have := hd r hr
      simp only [depth] at hr'
      cases hcr : c.recs with
      | nil => rw [hcr] at hr; simp at hr
      | cons r0 rs =>
        rw [hcr] at this hr'
        simp only [nextDepth, depth] at this hr'
        omega

theorem inline_rl {c : Ctx} {nm : Option Name} {ps : List Name} {n : Nat} {s : CSt} {L : Nat → H}
    (h : RL c L) (hl : L s.lab = (c.sp, (inlineHead c nm ps n s).2.1.bp + 1)) :
    RL (inlineHead c nm ps n s).2.1 L := by
  intro r hr hr'
  unfold inlineHead at hr hr' hl
  split at hr
  · rename_i e
    simp only [e, if_true] at hr' hl
    simp only [List.mem_cons] at hr
    rcases hr with hr | hr
    · subst hr; exact hl
    · exact h r hr hr'
  · rename_i e
    simp only [e, if_false] at hr' hl
    simp only [List.mem_cons] at hr
    rcases hr with hr | hr
    · subst hr; exact hl
    · exact h r hr hr'

theorem inline_ctx {c : Ctx} {nm : Option Name} {ps : List Name} {n : Nat} {s : CSt} {u : Use}
    (h : CtxOk c u) : CtxOk (inlineHead c nm ps n s).2.1 (u.inline c ps) := by
  unfold inlineHead Use.inline
  split
  · refine ⟨h.sp, h.bp, ?_, ?_⟩
    · intro r hr
      simp only [List.mem_cons] at hr
      rcases hr with hr | hr
      · subst hr; exact Nat.le_refl _
      · exact h.deep r hr
    · intro r hr hr'
      simp only [List.mem_cons] at hr
      rcases hr with hr | hr
      · subst hr; exact ⟨Nat.le_refl _, Nat.le_refl _⟩
      · exact h.recs r hr hr'
  · refine ⟨h.sp, (incB_b u _).2.1, ?_, ?_⟩
    · intro r hr
      simp only [List.mem_cons] at hr
      rcases hr with hr | hr
      · subst hr; exact Nat.le_refl _
      · exact h.deep r hr
    · intro r hr hr'
      simp only [List.mem_cons] at hr
      rcases hr with hr | hr
      · subst hr; exact ⟨Nat.le_refl _, Nat.le_refl _⟩
      · exact ⟨(h.recs r hr hr').1, Nat.le_succ_of_le (h.recs r hr hr').2⟩

theorem inlineHead_sp (c : Ctx) (nm : Option Name) (ps : List Name) (n : Nat) (s : CSt) :
    (inlineHead c nm ps n s).2.1.sp = c.sp := by
  unfold inlineHead
  split <;> rfl

theorem inlineHead_lab (c : Ctx) (nm : Option Name) (ps : List Name) (n : Nat) (s : CSt) :
    (inlineHead c nm ps n s).2.2.lab = s.lab + 1 ∧ (inlineHead c nm ps n s).2.2.fns = s.fns := by
  unfold inlineHead
  split <;> exact ⟨rfl, rfl⟩

theorem inline_use (u : Use) (c : Ctx) (ps : List Name) : (u.inline c ps).v = u.v ∧
    u.b ≤ (u.inline c ps).b ∧ (u.inline c ps).fns = u.fns := by
  unfold Use.inline
  split
  · exact ⟨rfl, Nat.le_refl _, rfl⟩
  · exact ⟨rfl, (incB_b u _).1, rfl⟩

/-- The code after the body of a function that is compiled inline. -/
theorem ty_inlineTail (L : Nat → H) {M N h : Nat} {c : Ctx} {nm : Option Name} {ps : List Name}
    {n : Nat} {s : CSt} (hM : h ≤ M) (hN : c.bp + 1 ≤ N) :
    Ty L M N (some (h, (inlineHead c nm ps n s).2.1.bp + 1)) (inlineTail ps)
      (some (h, c.bp + 1)) := by
  unfold inlineHead inlineTail
  split
  · exact .nil _ _ _ _
  · exact .one rfl (by simp [okH]; omega)

end Rep.Stack
