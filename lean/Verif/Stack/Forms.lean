import Verif.Stack.Good

/-
Every form fits.
-/

namespace Rep.Stack

open Rep.Compile

/-- Nothing but a larger maximum. -/
theorem Good.inc {A : (Nat → H) → Prop} (a : H) (s : CSt) (u : Use) (n : Nat) :
    Good A a s u [] s (u.inc n) a :=
  .plain (inc_v u n).1 (Nat.le_of_eq (inc_v u n).2.2.1.symm) (Nat.le_refl _) rfl (inc_v u n).2.2.2
    fun _ _ _ _ _ _ => .nil _ _ _ _

theorem Good.incB {A : (Nat → H) → Prop} (a : H) (s : CSt) (u : Use) (n : Nat) :
    Good A a s u [] s (u.incB n) a :=
  .plain (Nat.le_of_eq (incB_b u n).2.2.1.symm) (incB_b u n).1 (Nat.le_refl _) rfl (incB_b u n).2.2.2
    fun _ _ _ _ _ _ => .nil _ _ _ _

/-- Code that does not touch the state of the compiler. -/
theorem Good.code {A : (Nat → H) → Prop} {a b : H} (s : CSt) (u : Use) {k : List I}
    (h : ∀ L M N, A L → u.v ≤ M → u.b + 1 ≤ N → Ty L M N (some a) k (some b)) :
    Good A a s u k s u b :=
  .plain (Nat.le_refl _) (Nat.le_refl _) (Nat.le_refl _) rfl rfl h

theorem Good.appendNil {A : (Nat → H) → Prop} {a b c : H} {s t t' : CSt} {u w w' : Use} {k : List I}
    (h : Good A a s u k t w b) (h' : Good A b t w [] t' w' c) : Good A a s u k t' w' c := by
  have := h.append h'
  rwa [List.append_nil] at this

theorem Good.nilAppend {A : (Nat → H) → Prop} {a b c : H} {s t t' : CSt} {u w w' : Use} {k : List I}
    (h : Good A a s u [] t w b) (h' : Good A b t w k t' w' c) : Good A a s u k t' w' c :=
  h.append h'

/-- One instruction that pushes a value. -/
theorem Good.push {A : (Nat → H) → Prop} {sp bp : Nat} (s : CSt) (u : Use) (i : I) (n : Nat)
    (hi : ∀ L, tr0 L (some (sp, bp + 1)) i = some (some (sp + 1, bp + 1))) (hn : sp + 1 ≤ n)
    (hb : bp ≤ u.b) : Good A (sp, bp + 1) s u [i] s (u.inc n) (sp + 1, bp + 1) := by
  refine Good.nilAppend (Good.inc _ s u n) (.code s _ fun L M N _ hM hN => .one (hi L) ?_)
  have := (inc_v u n).2.1
  have := (inc_v u n).2.2.1
  simp [okH]
  omega

theorem varref_push (c : Ctx) (x : Name) (s : CSt) : ∃ i, (varref c x s).1 = [i] ∧
    ∀ L h b, tr0 L (some (h, b)) i = some (some (h + 1, b)) := by
  unfold varref
  split
  · exact ⟨_, rfl, fun _ _ _ => rfl⟩
  · exact ⟨_, rfl, fun _ _ _ => rfl⟩

theorem varref_state (c : Ctx) (x : Name) (s : CSt) : (varref c x s).2.lab = s.lab ∧
    (varref c x s).2.fns = s.fns := by
  unfold varref
  split <;> exact ⟨rfl, rfl⟩

theorem noteModified_state (c : Ctx) (x : Name) (s : CSt) : (noteModified c x s).lab = s.lab ∧
    (noteModified c x s).fns = s.fns := by
  unfold noteModified
  split <;> exact ⟨rfl, rfl⟩

theorem tailCall_state (c : Ctx) (r : Rec) (n : Nat) (s : CSt) : (tailCall c r n s).2.lab = s.lab ∧
    (tailCall c r n s).2.fns = s.fns := by
  unfold tailCall
  split <;> exact ⟨rfl, rfl⟩

theorem Good.varref {A : (Nat → H) → Prop} {c : Ctx} {u : Use} (x : Name) (s : CSt) {n : Nat}
    (hn : c.sp + 1 ≤ n) (hb : c.bp ≤ u.b) :
    Good A (c.sp, c.bp + 1) s u (varref c x s).1 (varref c x s).2 (u.inc n)
      (c.sp + 1, c.bp + 1) := by
  obtain ⟨i, e, hi⟩ := varref_push c x s
  obtain ⟨e1, e2⟩ := varref_state c x s
  rw [e]
  exact (Good.push s u i n (fun L => hi L _ _) hn hb).state (Nat.le_refl _) (Nat.le_of_eq e1.symm)
    rfl e2

/-- A function, from its body. -/
theorem Good.fn {A : (Nat → H) → Prop} {c : Ctx} {nm : Option Name} {ps : List Name} {s t : CSt}
    {u w : Use} {k : List I} (hd : ∀ r ∈ c.recs, r.depth ≤ depth c.recs)
    (hsp : c.sp ≤ u.v) (hbp : c.bp ≤ u.b)
    (h : Good (RL (lambdaHead c nm ps s).2.1) (0, 1) (lambdaHead c nm ps s).2.2 (u.enter ps) k t w
      (1, 1)) :
    Good A (c.sp, c.bp + 1) s u
      (Compile.enclose c ((lambdaHead c nm ps s).1 ++ k ++ [.ret]) t).1
      (Compile.enclose c ((lambdaHead c nm ps s).1 ++ k ++ [.ret]) t).2
      ((u.close w).inc (c.sp + 1)) (c.sp + 1, c.bp + 1) := by
  have hl : (lambdaHead c nm ps s).2.2.lab = s.lab + 1 := rfl
  have hf : (lambdaHead c nm ps s).2.2.fns = s.fns := rfl
  have q := inc_v (u.close w) (c.sp + 1)
  refine ⟨q.1, Nat.le_of_eq q.2.2.1.symm, ?_, ?_⟩
  · have := h.lab
    show s.lab ≤ t.lab
    omega
  · have hfit := (Fits.label s.lab (0, 1)).and (by rw [← hl]; exact h.fits) (Nat.le_succ _)
      (by rw [← hl]; exact h.lab)
    refine Fits.imp (lo := s.lab) (hi := t.lab) hfit fun L hL _ => ⟨fun M N hM hN => ?_, ?_⟩
    · refine .one rfl ?_
      have := q.2.1
      rw [q.2.2.1] at hN
      simp only [okH, decide_eq_true_eq]
      have : (u.close w).b = u.b := rfl
      omega
    · obtain ⟨p, fs, zs, e1, e2, r⟩ := hL.2 (lambda_rl hd hL.1)
      rw [hf] at e1
      refine ⟨fs ++ [⟨(lambdaHead c nm ps s).1 ++ k ++ [.ret], c.lex⟩], zs ++ [(w.v, w.b)], ?_, ?_,
        List.rel_append r (.cons ?_ .nil)⟩
      · simp [Compile.enclose, noteClosure, e1]
      · rw [q.2.2.2]
        simp [Use.close, e2, Use.enter]
      · have hv := h.mv
        show Ty L w.v (w.b + 1) (some (0, 1)) ((lambdaHead c nm ps s).1 ++ k ++ [.ret]) none
        exact ((ty_lambdaHead L hL.1 hv (by omega)).append (p w.v (w.b + 1) (Nat.le_refl _)
          (Nat.le_refl _))).append (.one rfl rfl)

/-- A function compiled inline, from its body. -/
theorem Good.inline {c : Ctx} {nm : Option Name} {ps : List Name} {n : Nat} {s t : CSt} {u w : Use}
    {k : List I} (hc : CtxOk c u) (hn : c.sp + (ps.length + n) ≤ u.v)
    (h : Good (RL (inlineHead c nm ps n s).2.1)
      (c.sp, (inlineHead c nm ps n s).2.1.bp + 1) (inlineHead c nm ps n s).2.2 (u.inline c ps) k t w
      (c.sp + 1, (inlineHead c nm ps n s).2.1.bp + 1)) (hw : c.sp + 1 ≤ w.v) :
    Good (RL c) (c.sp + (ps.length + n), c.bp + 1) s u
      ((inlineHead c nm ps n s).1 ++ k ++ inlineTail ps) t w (c.sp + 1, c.bp + 1) := by
  obtain ⟨hl, hf⟩ := inlineHead_lab c nm ps n s
  obtain ⟨u1, u2, u3⟩ := inline_use u c ps
  have hx := (inline_ctx (nm := nm) (n := n) (s := s) (ps := ps) hc).bp
  have hv := h.mv
  have hb := h.mb
  have hlab := h.lab
  rw [hl] at hlab
  refine ⟨by omega, by omega, by omega, ?_⟩
  have hfit := (Fits.label s.lab (c.sp, (inlineHead c nm ps n s).2.1.bp + 1)).and
    (by rw [← hl]; exact h.fits) (Nat.le_succ _) hlab
  refine Fits.imp hfit fun L hL hA => ?_
  obtain ⟨p, q⟩ := hL.2 (inline_rl hA hL.1)
  rw [hf, u3] at q
  refine ⟨fun M N hM hN => ?_, q⟩
  have hbp := hc.bp
  exact ((ty_inlineHead L hL.1 (by omega) (by omega)).append (p M N hM hN)).append
    (ty_inlineTail L (by omega) (by omega))

/-- A jump to the start of a function. -/
theorem Good.tail {c : Ctx} {r : Rec} {n m : Nat} {s : CSt} {u : Use} (hc : CtxOk c u)
    (hr : r ∈ c.recs) (hd : r.depth = depth c.recs) (hm : m = r.args.length + n)
    (hn : c.sp + m ≤ u.v) {b : H} :
    Good (RL c) (c.sp + m, c.bp + 1) s u (tailCall c r n s).1 (tailCall c r n s).2
      (u.inc (c.sp + 1)) b := by
  obtain ⟨e1, e2⟩ := tailCall_state c r n s
  have q := inc_v u (c.sp + 1)
  refine .plain q.1 (Nat.le_of_eq q.2.2.1.symm) (Nat.le_of_eq e1.symm) e2 q.2.2.2 ?_
  intro L M N hA hM hN
  subst hm
  have hbp := hc.bp
  exact ty_tailCall L (hc.recs r hr hd).1 (hc.recs r hr hd).2 (hA r hr hd) (by omega)
    (by rw [q.2.2.1] at hN; omega)

theorem inlinable_mem {c : Ctx} {s : CSt} {x : Name} {rf : Bool} {r : Rec}
    (h : inlinable c s x rf = some r) : r ∈ c.recs ∧ r.depth = depth c.recs := by
  unfold inlinable at h
  split at h
  · rename_i r' hf
    simp only [Option.ite_none_right_eq_some, Option.some.injEq, Bool.and_eq_true, beq_iff_eq] at h
    obtain ⟨hd, rfl⟩ := h
    exact ⟨List.mem_of_find?_eq_some hf, hd.2⟩
  · simp at h

theorem Good.unbind {A : (Nat → H) → Prop} {sp bp : Nat} {s : CSt} {u : Use} (hv : sp ≤ u.v)
    (hb : bp ≤ u.b) : Good A (sp, bp + 1 + 1) s u [.unbind] s u (sp, bp + 1) :=
  .code _ _ fun L M N _ hM hN => .one rfl (by simp only [okH, decide_eq_true_eq]; omega)

/-- The call of a value below its arguments. -/
theorem Good.call {A : (Nat → H) → Prop} {sp bp n m : Nat} {s : CSt} {u : Use} (hm : m = sp + 1 + n)
    (hv : sp + 1 ≤ u.v) (hb : bp ≤ u.b) (c : Ctx) :
    Good A (m, bp + 1) s u [.call n] (noteCall c s) u (sp + 1, bp + 1) := by
  refine .plain (Nat.le_refl _) (Nat.le_refl _) (Nat.le_refl _) rfl rfl fun L M N _ hM hN => ?_
  subst hm
  refine .one (b := some (sp + 1, bp + 1)) ?_ (by simp [okH]; omega)
  have e : sp + 1 + n - n = sp + 1 := by omega
  have e' : n ≤ sp + n := by omega
  simp [tr0, e]
  omega

theorem uExp_call_other {c : Ctx} {rf : Bool} {f : Exp} {as : Exps} {s : CSt} {u : Use} (h : Other f) :
    uExp c rf (.call f as) s u = (match cExp c false f s with
      | some (_, t) => uArgs { c with sp := c.sp + 1 } as t (uExp c false f s u)
      | none => u) := by
  cases f with
  | lam ps b => exact absurd rfl (h.1 ps b)
  | var x => exact absurd rfl (h.2 x)
  | _ => simp only [uExp]; rfl

theorem uSets_other {c : Ctx} {x : Name} {e : Exp} {r : Binds} {s : CSt} {u : Use}
    (h : ∀ ps b, e ≠ .lam ps b) :
    uSets c (.cons x e r) s u = (match cExp c false e s with
      | some (_, t) => uSets c r t (uExp c false e s u)
      | none => u) := by
  cases e with
  | lam ps b => exact absurd rfl (h ps b)
  | _ => simp only [uSets]; rfl

set_option maxHeartbeats 400000 in
mutual
theorem uExp_good (c : Ctx) (rf : Bool) (e : Exp) (s : CSt) (u : Use) {k : List I} {t : CSt}
    (h : cExp c rf e s = some (k, t)) (hc : CtxOk c u) :
    Good (RL c) (c.sp, c.bp + 1) s u k t (uExp c rf e s u) (c.sp + 1, c.bp + 1) ∧
      c.sp + 1 ≤ (uExp c rf e s u).v := by
  match e with
  | .quote a =>
    simp only [cExp, Option.some.injEq, Prod.mk.injEq] at h
    obtain ⟨rfl, rfl⟩ := h
    simp only [uExp]
    exact ⟨.push s u _ _ (fun _ => rfl) (Nat.le_refl _) hc.bp, (inc_v _ _).2.1⟩
  | .var x =>
    simp only [cExp, Option.some.injEq] at h
    simp only [uExp]
    have g := Good.varref (A := RL c) x s (Nat.le_refl _) hc.bp
    rw [h] at g
    exact ⟨g, (inc_v _ _).2.1⟩
  | .set x e =>
    simp only [cExp, Option.bind_eq_bind, Option.bind_eq_some_iff] at h
    obtain ⟨⟨k1, s1⟩, h1, h⟩ := h
    simp only [Option.some.injEq, Prod.mk.injEq] at h
    obtain ⟨rfl, rfl⟩ := h
    simp only [uExp]
    obtain ⟨g, gv⟩ := uExp_good c false e s u h1 hc
    have q := inc_v (uExp c false e s u) (c.sp + 2)
    obtain ⟨e1, e2⟩ := noteModified_state c x s1
    refine ⟨g.append (.plain q.1 (Nat.le_of_eq q.2.2.1.symm) (Nat.le_of_eq e1.symm) e2 q.2.2.2 ?_),
      Nat.le_trans (Nat.le_succ _) q.2.1⟩
    intro L M N _ hM hN
    have := (hc.good g).bp
    rw [q.2.2.1] at hN
    have := q.2.1
    exact .cons (b := some (c.sp + 2, c.bp + 1)) rfl (by simp [okH]; omega)
      (.one (tr0_varset L c x _ _) (by simp [okH]; omega))
  | .seq a b =>
    simp only [cExp, Option.bind_eq_bind, Option.bind_eq_some_iff] at h
    obtain ⟨⟨k1, s1⟩, h1, ⟨k2, s2⟩, h2, h⟩ := h
    simp only [Option.some.injEq, Prod.mk.injEq] at h
    obtain ⟨rfl, rfl⟩ := h
    simp only [uExp, h1]
    obtain ⟨g, gv⟩ := uExp_good c false a s u h1 hc
    have hc1 := hc.good g
    obtain ⟨g', gv'⟩ := uExp_good c rf b s1 _ h2 hc1
    refine ⟨?_, gv'⟩
    have gp : Good (RL c) (c.sp + 1, c.bp + 1) s1 (uExp c false a s u) [.pop] s1
        (uExp c false a s u) (c.sp, c.bp + 1) := .code _ _ fun L M N _ hM hN => by
      have := hc1.bp
      exact .one rfl (by simp [okH]; omega)
    have := (g.append gp).append g'
    simpa using this
  | .cond cs =>
    simp only [cExp, Option.bind_eq_bind, Option.bind_eq_some_iff] at h
    obtain ⟨⟨k1, n1, s1⟩, h1, h⟩ := h
    simp only [Option.some.injEq, Prod.mk.injEq] at h
    obtain ⟨rfl, rfl⟩ := h
    simp only [uExp]
    refine ⟨?_, (inc_v _ _).2.1⟩
    have g := uCls_good c rf s.lab cs { s with lab := s.lab + 1 } u h1 hc
    have hb := (hc.good g).bp
    refine Good.label (A' := fun L => RL c L ∧ L s.lab = (c.sp + 1, c.bp + 1)) ?_
      (fun L hL hx => ⟨hL, hx⟩)
    rw [List.append_assoc]
    refine (g.appendNil (.inc _ _ _ (c.sp + 1))).append (.code _ _ ?_)
    intro L M N hA hM hN
    have q := inc_v (uCls c rf s.lab cs { s with lab := s.lab + 1 } u) (c.sp + 1)
    rw [q.2.2.1] at hN
    have := q.2.1
    refine Ty.append (b := some (c.sp + 1, c.bp + 1)) ?_ (.one (by simp [tr0, hA.2]) ?_)
    · cases n1
      · exact .nil _ _ _ _
      · exact .one rfl (by simp [okH]; omega)
    · simp [okH]; omega
  | .while q b =>
    simp only [cExp, Option.bind_eq_bind, Option.bind_eq_some_iff] at h
    obtain ⟨⟨k1, s1⟩, h1, ⟨k2, s2⟩, h2, h⟩ := h
    simp only [Option.some.injEq, Prod.mk.injEq] at h
    obtain ⟨rfl, rfl⟩ := h
    simp only [uExp, h1]
    obtain ⟨g, gv⟩ := uExp_good c false b { s with lab := s.lab + 2 } u h1 hc
    have hc1 := hc.good g
    obtain ⟨g', gv'⟩ := uExp_good c false q s1 _ h2 hc1
    refine ⟨?_, gv'⟩
    have hsp := hc.sp
    have hbp := hc.bp
    have hsp1 := hc1.sp
    have hbp1 := hc1.bp
    have hbp2 := (hc1.good g').bp
    refine Good.label (A' := fun L => RL c L ∧ L s.lab = (c.sp, c.bp + 1)) (x := (c.sp, c.bp + 1)) ?_
      (fun L hL hx => ⟨hL, hx⟩)
    refine Good.label (s := { s with lab := s.lab + 1 })
      (A' := fun L => RL c L ∧ L s.lab = (c.sp, c.bp + 1) ∧ L (s.lab + 1) = (c.sp, c.bp + 1))
      (x := (c.sp, c.bp + 1)) ?_ (fun L hL hx => ⟨hL.1, hL.2, hx⟩)
    have g0 : Good (fun L => RL c L ∧ L s.lab = (c.sp, c.bp + 1) ∧ L (s.lab + 1) = (c.sp, c.bp + 1))
        (c.sp, c.bp + 1) { s with lab := s.lab + 2 } u [.jmp (s.lab + 1), .label s.lab]
        { s with lab := s.lab + 2 } u (c.sp, c.bp + 1) := .code _ _ fun L M N hA hM hN => by
      refine .cons (b := none) (by simp [tr0, hA.2.2]) rfl (.one (by simp [tr0, hA.2.1]) ?_)
      simp [okH]; omega
    have g1 : Good (fun L => RL c L ∧ L s.lab = (c.sp, c.bp + 1) ∧ L (s.lab + 1) = (c.sp, c.bp + 1))
        (c.sp + 1, c.bp + 1) s1 (uExp c false b { s with lab := s.lab + 2 } u)
        [.pop, .label (s.lab + 1)] s1 (uExp c false b { s with lab := s.lab + 2 } u)
        (c.sp, c.bp + 1) := .code _ _ fun L M N hA hM hN => by
      refine .cons (b := some (c.sp, c.bp + 1)) rfl (by simp [okH]; omega)
        (.one (by simp [tr0, hA.2.2]) ?_)
      simp [okH]; omega
    have g2 : Good (fun L => RL c L ∧ L s.lab = (c.sp, c.bp + 1) ∧ L (s.lab + 1) = (c.sp, c.bp + 1))
        (c.sp + 1, c.bp + 1) s2
        (uExp c false q s1 (uExp c false b { s with lab := s.lab + 2 } u)) [.jpt s.lab] s2
        (uExp c false q s1 (uExp c false b { s with lab := s.lab + 2 } u)) (c.sp + 1, c.bp + 1) :=
      .code _ _ fun L M N hA hM hN => by
        refine .one (by simp [tr0, hA.2.1]) ?_
        simp [okH]; omega
    have := (((g0.append (g.weaken fun L hL => hL.1)).append g1).append
      (g'.weaken fun L hL => hL.1)).append g2
    simpa using this
  | .lam ps b =>
    simp only [cExp, Option.bind_eq_bind, Option.bind_eq_some_iff] at h
    obtain ⟨⟨k1, s1⟩, h1, h⟩ := h
    simp only [Option.some.injEq] at h
    simp only [uExp]
    refine ⟨?_, (inc_v _ _).2.1⟩
    obtain ⟨g, gv⟩ := uExp_good _ true b _ (u.enter ps) h1 (lambda_ctx hc.deep)
    have := Good.fn (A := RL c) hc.deep hc.sp hc.bp g
    rw [h] at this
    exact this
  | .call f as =>
    by_cases ho : Other f
    · rw [cExp_call_other ho] at h
      rw [uExp_call_other ho]
      simp only [Option.bind_eq_bind, Option.bind_eq_some_iff] at h
      obtain ⟨⟨k1, s1⟩, h1, ⟨k2, s2⟩, h2, h⟩ := h
      simp only [Option.some.injEq, Prod.mk.injEq] at h
      obtain ⟨rfl, rfl⟩ := h
      simp only [h1]
      obtain ⟨g, gv⟩ := uExp_good c false f s u h1 hc
      have hc1 := hc.good g
      obtain ⟨g', gv'⟩ := uArgs_good _ as s1 _ h2 (hc1.push gv)
      have g1 : Good (RL c) _ _ _ k2 _ _ _ := g'.weaken fun L hL => hL
      refine ⟨(g.append g1).append (.call rfl ?_ (hc1.good g1).bp c), ?_⟩
      · exact Nat.le_trans gv g1.mv
      · exact Nat.le_trans gv g1.mv
    match f with
    | .lam _ _ => simp [cExp] at h
    | .var x =>
      simp only [cExp] at h
      simp only [uExp]
      split at h
      · rename_i r hr
        simp only [Option.bind_eq_bind, Option.bind_eq_some_iff] at h
        obtain ⟨⟨k1, s1⟩, h1, h⟩ := h
        split at h
        · exact absurd h (by simp)
        rename_i hlen
        simp only [Option.some.injEq, Prod.mk.injEq] at h
        obtain ⟨rfl, rfl⟩ := h
        obtain ⟨g, gv⟩ := uArgs_good c as s u h1 hc
        obtain ⟨m1, m2⟩ := inlinable_mem hr
        simp only [hr]
        exact ⟨g.append (.tail (hc.good g) m1 m2 (by omega) gv), (inc_v _ _).2.1⟩
      · rename_i hr
        simp only [Option.bind_eq_bind, Option.bind_eq_some_iff] at h
        obtain ⟨⟨k1, s1⟩, h1, h⟩ := h
        simp only [Option.some.injEq, Prod.mk.injEq] at h
        obtain ⟨rfl, rfl⟩ := h
        simp only [hr]
        have g := Good.varref (A := RL c) (c := c) (u := u) x s (Nat.le_refl _) hc.bp
        have gv := (inc_v u (c.sp + 1)).2.1
        have hc1 := hc.good g
        obtain ⟨g', gv'⟩ := uArgs_good _ as _ _ h1 (hc1.push gv)
        have g1 : Good (RL c) _ _ _ k1 _ _ _ := g'.weaken fun L hL => hL
        refine ⟨(g.append g1).append (.call rfl ?_ (hc1.good g1).bp c), ?_⟩
        · exact Nat.le_trans gv g1.mv
        · exact Nat.le_trans gv g1.mv
    | .quote _ | .set _ _ | .seq _ _ | .cond _ | .while _ _ | .call _ _ | .inl _ _ _ | .lets _ _
    | .letrec _ _ | .named _ _ _ _ =>
      exact absurd ⟨(fun _ _ h => nomatch h), (fun _ h => nomatch h)⟩ ho
  | .inl ps b as =>
    simp only [cExp, Option.bind_eq_bind, Option.bind_eq_some_iff] at h
    obtain ⟨⟨k1, s1⟩, h1, h⟩ := h
    split at h
    · exact absurd h (by simp)
    rename_i hlen
    simp only [Option.bind_eq_some_iff] at h
    obtain ⟨⟨k2, s2⟩, h2, h⟩ := h
    simp only [Option.some.injEq, Prod.mk.injEq] at h
    obtain ⟨rfl, rfl⟩ := h
    simp only [uExp, h1]
    obtain ⟨g, gv⟩ := uArgs_good c as s u h1 hc
    have hc1 := hc.good g
    obtain ⟨g', gv'⟩ := uExp_good _ rf b _ ((uArgs c as s u).inline c ps) h2 (inline_ctx hc1)
    rw [inlineHead_sp] at g' gv'
    have e : as.length = ps.length + (as.length - ps.length) := by omega
    refine ⟨?_, gv'⟩
    have := Good.inline (n := as.length - ps.length) hc1 (by rw [← e]; exact gv) g' gv'
    rw [← e] at this
    have := g.append this
    simpa using this
  | .lets bs b =>
    simp only [cExp, Option.bind_eq_bind, Option.bind_eq_some_iff] at h
    obtain ⟨⟨k1, lex, s1⟩, h1, ⟨k2, s2⟩, h2, h⟩ := h
    simp only [Option.some.injEq, Prod.mk.injEq] at h
    obtain ⟨rfl, rfl⟩ := h
    simp only [uExp, h1]
    have q := incB_b u (c.bp + 1)
    have hcB : CtxOk c (u.incB (c.bp + 1)) := hc.mono (Nat.le_of_eq q.2.2.1.symm) q.1
    have g := uLets_good { c with bp := c.bp + 1 } bs s (u.incB (c.bp + 1)) h1
      (hcB.frame (lex := c.lex) q.2.1)
    have hc1 := hcB.good g
    obtain ⟨g', gv'⟩ := uExp_good { c with bp := c.bp + 1, lex := lex } rf b s1 _ h2
      (hc1.frame (Nat.le_trans q.2.1 g.mb))
    refine ⟨?_, gv'⟩
    have hbp := hc.bp
    have hsp := hc.sp
    have hbp2 := (hc1.good g').bp
    have gi : Good (RL c) (c.sp, c.bp + 1) s u [.initBind] s (u.incB (c.bp + 1))
        (c.sp, c.bp + 1 + 1) := (Good.incB _ s u (c.bp + 1)).nilAppend
      (.code _ _ fun L M N _ hM hN => by
        have := q.2.1
        rw [q.2.2.1] at hM
        exact .one rfl (by simp [okH]; omega))
    have ge : Good (RL c) (c.sp + 1, c.bp + 1 + 1) s2
        (uExp { c with bp := c.bp + 1, lex := lex } rf b s1
          (uLets { c with bp := c.bp + 1 } bs s (u.incB (c.bp + 1)))) [.unbind] s2 _
        (c.sp + 1, c.bp + 1) := .code _ _ fun L M N _ hM hN => by
      have : c.sp + 1 ≤ M := Nat.le_trans gv' hM
      exact .one rfl (by simp [okH]; omega)
    have := ((gi.append (g.weaken fun L hL => hL)).append (g'.weaken fun L hL => hL)).append ge
    simpa using this
  | .letrec bs b =>
    simp only [cExp] at h
    split at h
    · exact absurd h (by simp)
    simp only [Option.bind_eq_bind, Option.bind_eq_some_iff] at h
    obtain ⟨⟨k1, s1⟩, h1, ⟨k2, s2⟩, h2, h⟩ := h
    simp only [Option.some.injEq, Prod.mk.injEq] at h
    obtain ⟨rfl, rfl⟩ := h
    simp only [uExp, h1]
    have q := incB_b u (c.bp + 1)
    generalize hu1 : u.incB (c.bp + 1) = u1 at q
    have hcB : CtxOk c u1 := hc.mono (Nat.le_of_eq q.2.2.1.symm) q.1
    generalize hu2 : (if bs.names = [] then u1 else u1.inc (c.sp + 1)) = u2
    have gu : u1.v ≤ u2.v ∧ (bs.names ≠ [] → c.sp + 1 ≤ u2.v) ∧ u2.b = u1.b ∧ u2.fns = u1.fns := by
      subst hu2
      split
      · rename_i e
        exact ⟨Nat.le_refl _, fun h => absurd e h, rfl, rfl⟩
      · have := inc_v u1 (c.sp + 1)
        exact ⟨this.1, fun _ => this.2.1, this.2.2.1, this.2.2.2⟩
    have hsp := hc.sp
    have hbp := hc.bp
    have gi : Good (RL c) (c.sp, c.bp + 1) s u
        (.initBind :: (bindNils bs.names c.lex s.cell).1)
        { s with cell := (bindNils bs.names c.lex s.cell).2.2 } u2 (c.sp, c.bp + 1 + 1) := by
      refine .plain (by rw [q.2.2.1] at gu; exact gu.1) (by rw [gu.2.2.1]; exact q.1) (Nat.le_refl _)
        rfl (by rw [gu.2.2.2, q.2.2.2]) fun L M N _ hM hN => ?_
      rw [gu.2.2.1] at hN
      have := q.2.1
      have := gu.1
      rw [q.2.2.1] at this
      refine .cons (b := some (c.sp, c.bp + 1 + 1)) rfl (by simp [okH]; omega)
        (ty_bindNils L _ _ _ (fun hx => Nat.le_trans (gu.2.1 hx) hM) (by omega) (by omega))
    have hc2 := hc.good gi
    have hb2 : c.bp + 1 ≤ u2.b := by rw [gu.2.2.1]; exact q.2.1
    have g := uSets_good { c with bp := c.bp + 1, lex := (bindNils bs.names c.lex s.cell).2.1 } bs
      { s with cell := (bindNils bs.names c.lex s.cell).2.2 } u2 h1 (hc2.frame hb2)
    have hc3 := hc2.good g
    obtain ⟨g', gv'⟩ := uExp_good
      { c with bp := c.bp + 1, lex := (bindNils bs.names c.lex s.cell).2.1 } rf b s1 _ h2
      (hc3.frame (Nat.le_trans hb2 g.mb))
    refine ⟨?_, gv'⟩
    have hbp2 := (hc3.good g').bp
    have ge : Good (RL c) (c.sp + 1, c.bp + 1 + 1) s2 _ [.unbind] s2 _ (c.sp + 1, c.bp + 1) :=
      .code s2 (uExp { c with bp := c.bp + 1, lex := (bindNils bs.names c.lex s.cell).2.1 } rf b s1
        (uSets { c with bp := c.bp + 1, lex := (bindNils bs.names c.lex s.cell).2.1 } bs
          { s with cell := (bindNils bs.names c.lex s.cell).2.2 } u2)) fun L M N _ hM hN => by
        have : c.sp + 1 ≤ M := Nat.le_trans gv' hM
        exact .one rfl (by simp [okH]; omega)
    have := ((gi.append (g.weaken fun L hL => hL)).append (g'.weaken fun L hL => hL)).append ge
    simpa using this
  | .named x ps b as =>
    simp only [cExp, Option.bind_eq_bind, Option.bind_eq_some_iff] at h
    obtain ⟨⟨k1, s1⟩, h1, h⟩ := h
    simp only [uExp, h1]
    have q := incB_b u (c.bp + 1)
    have q1 := inc_v (u.incB (c.bp + 1)) (c.sp + 1)
    have hsp := hc.sp
    have hbp := hc.bp
    generalize hu1 : (u.incB (c.bp + 1)).inc (c.sp + 1) = u1 at q1
    have hc1 : CtxOk c u1 := hc.mono (by rw [q.2.2.1] at q1; exact q1.1) (by rw [q1.2.2.1]; exact q.1)
    have hb1 : c.bp + 1 ≤ u1.b := by rw [q1.2.2.1]; exact q.2.1
    have hc1' : CtxOk { c with bp := c.bp + 1, lex := (x, s.cell) :: c.lex } u1 := hc1.frame hb1
    obtain ⟨g0, gv0⟩ := uExp_good _ true b _ (u1.enter ps) h1 (lambda_ctx hc1'.deep)
    split at h
    · rename_i hnt
      simp only [hnt, if_true]
      have gf := Good.fn (A := RL c) hc1'.deep hc1'.sp hc1'.bp g0
      generalize hh : lambdaHead { c with bp := c.bp + 1, lex := (x, s.cell) :: c.lex } (some x) ps
        { s with cell := s.cell + 1 } = hd at *
      generalize hu2 : (u1.close (uExp hd.2.1 true b hd.2.2 (u1.enter ps))).inc (c.sp + 1) = u2 at *
      have gi : Good (RL c) (c.sp, c.bp + 1) s u
          [.initBind, .push .nil, .lexBind x ((x, s.cell) :: c.lex)]
          { s with cell := s.cell + 1 } u1 (c.sp, c.bp + 1 + 1) := by
        refine .plain (by rw [q.2.2.1] at q1; exact q1.1) (by rw [q1.2.2.1]; exact q.1)
          (Nat.le_refl _) rfl (by rw [q1.2.2.2, q.2.2.2]) fun L M N _ hM hN => ?_
        have := q1.2.1
        refine .cons (b := some (c.sp, c.bp + 1 + 1)) rfl (by simp [okH]; omega)
          (.cons (b := some (c.sp + 1, c.bp + 1 + 1)) rfl (by simp [okH]; omega) (.one rfl ?_))
        simp [okH]; omega
      have hc2 := hc1.good gf
      have hc2' : CtxOk { c with bp := c.bp + 1, lex := (x, s.cell) :: c.lex } u2 := hc1'.good gf
      have gs : Good (RL c) (c.sp + 1, c.bp + 1 + 1)
          (Compile.enclose { c with bp := c.bp + 1, lex := (x, s.cell) :: c.lex }
            (hd.1 ++ k1 ++ [.ret]) s1).2 u2 [.lexSet x ((x, s.cell) :: c.lex)]
          (Compile.enclose { c with bp := c.bp + 1, lex := (x, s.cell) :: c.lex }
            (hd.1 ++ k1 ++ [.ret]) s1).2 u2 (c.sp, c.bp + 1 + 1) := .code _ _ fun L M N _ hM hN => by
        have := hc2'.bp
        have : c.bp + 1 ≤ u2.b := this
        exact .one rfl (by simp [okH]; have := hc2.sp; omega)
      have gh := (gi.append gf).append gs
      split at h
      · rename_i r hr
        simp only [Option.bind_eq_some_iff] at h
        obtain ⟨⟨k2, s2⟩, h2, h⟩ := h
        split at h
        · exact absurd h (by simp)
        rename_i hlen
        simp only [Option.some.injEq, Prod.mk.injEq] at h
        obtain ⟨rfl, rfl⟩ := h
        simp only [hr]
        obtain ⟨g, gv⟩ := uArgs_good _ as _ u2 h2 hc2'
        obtain ⟨m1, m2⟩ := inlinable_mem hr
        refine ⟨?_, (inc_v _ _).2.1⟩
        have gt := Good.tail (s := s2) (n := as.length - r.args.length) (m := as.length)
          (b := (c.sp + 1, c.bp + 1 + 1)) (hc2'.good g) m1 m2
          (by omega) gv
        have hbb := ((hc2'.good g).good gt).bp
        have ge := Good.unbind (A := RL c) (sp := c.sp + 1) (bp := c.bp) (s := (tailCall
            { c with bp := c.bp + 1, lex := (x, s.cell) :: c.lex } r (as.length - r.args.length) s2).2)
          (Nat.le_trans (inc_v _ (c.sp + 1)).2.1 (Nat.le_refl _)) (Nat.le_of_succ_le hbb)
        have := ((gh.append (g.weaken fun L hL => hL)).append (gt.weaken fun L hL => hL)).append ge
        simpa using this
      · rename_i hr
        simp only [Option.bind_eq_some_iff] at h
        obtain ⟨⟨k2, s2⟩, h2, h⟩ := h
        simp only [Option.some.injEq, Prod.mk.injEq] at h
        obtain ⟨rfl, rfl⟩ := h
        simp only [hr]
        have gr := Good.varref (A := RL c) (c := { c with bp := c.bp + 1, lex := (x, s.cell) :: c.lex })
          (u := u2) x (Compile.enclose { c with bp := c.bp + 1, lex := (x, s.cell) :: c.lex }
            (hd.1 ++ k1 ++ [.ret]) s1).2 (Nat.le_refl _) hc2'.bp
        have gv := (inc_v u2 (c.sp + 1)).2.1
        have hc3 := hc2'.good gr
        obtain ⟨g', gv'⟩ := uArgs_good _ as _ _ h2 (hc3.push gv)
        have g1 : Good (RL c) _ _ _ k2 _ _ _ := g'.weaken fun L hL => hL
        have gvv := Nat.le_trans gv g1.mv
        have hbb := (hc3.good g1).bp
        refine ⟨?_, gvv⟩
        have gc := Good.call (A := RL c) (sp := c.sp) (bp := c.bp + 1) (n := as.length) (s := s2)
          rfl gvv hbb { c with bp := c.bp + 1, lex := (x, s.cell) :: c.lex }
        have ge := Good.unbind (A := RL c) (sp := c.sp + 1) (bp := c.bp)
          (s := noteCall { c with bp := c.bp + 1, lex := (x, s.cell) :: c.lex } s2) gvv
          (Nat.le_of_succ_le hbb)
        have := (((gh.append gr).append g1).append gc).append ge
        simpa using this
    · rename_i hnt
      simp only [hnt]
      simp only [Option.bind_eq_some_iff] at h
      obtain ⟨⟨k2, s2⟩, h2, h⟩ := h
      split at h
      · exact absurd h (by simp)
      rename_i hlen
      simp only [Option.bind_eq_some_iff] at h
      obtain ⟨⟨k3, s3⟩, h3, h⟩ := h
      simp only [Option.some.injEq, Prod.mk.injEq] at h
      obtain ⟨rfl, rfl⟩ := h
      have g0' := fn_grow (cExp_grow _ true b _ h1)
      have hl := g0'.later.lab
      generalize hh : lambdaHead { c with bp := c.bp + 1, lex := (x, s.cell) :: c.lex } (some x) ps
        { s with cell := s.cell + 1 } = hd at *
      simp only [h2]
      obtain ⟨g, gv⟩ := uArgs_good c as _ u h2 hc
      have hc2 := hc.good g
      obtain ⟨g', gv'⟩ := uExp_good _ rf b _ _ h3 (inline_ctx hc2)
      rw [inlineHead_sp] at g' gv'
      have e : as.length = ps.length + (as.length - ps.length) := by omega
      refine ⟨?_, gv'⟩
      have gi := Good.inline (n := as.length - ps.length) hc2 (by rw [← e]; exact gv) g' gv'
      rw [← e] at gi
      have gg := g.append gi
      have gst := gg.state (s' := s) hl (Nat.le_refl _) rfl rfl
      simpa using gst

theorem uArgs_good (c : Ctx) (es : Exps) (s : CSt) (u : Use) {k : List I} {t : CSt}
    (h : cArgs c es s = some (k, t)) (hc : CtxOk c u) :
    Good (RL c) (c.sp, c.bp + 1) s u k t (uArgs c es s u) (c.sp + es.length, c.bp + 1) ∧
      c.sp + es.length ≤ (uArgs c es s u).v := by
  match es with
  | .nil =>
    simp only [cArgs, Option.some.injEq, Prod.mk.injEq] at h
    obtain ⟨rfl, rfl⟩ := h
    simp only [uArgs, Exps.length]
    exact ⟨.code s u fun _ _ _ _ _ _ => .nil _ _ _ _, hc.sp⟩
  | .cons e es =>
    simp only [cArgs, Option.bind_eq_bind, Option.bind_eq_some_iff] at h
    obtain ⟨⟨k1, s1⟩, h1, ⟨k2, s2⟩, h2, h⟩ := h
    simp only [Option.some.injEq, Prod.mk.injEq] at h
    obtain ⟨rfl, rfl⟩ := h
    simp only [uArgs, h1, Exps.length]
    obtain ⟨g, gv⟩ := uExp_good c false e s u h1 hc
    obtain ⟨g', gv'⟩ := uArgs_good _ es s1 _ h2 ((hc.good g).push gv)
    have e1 : c.sp + (es.length + 1) = c.sp + 1 + es.length := by omega
    rw [e1]
    exact ⟨g.append (g'.weaken fun L hL => hL), gv'⟩

theorem uCls_good (c : Ctx) (rf : Bool) (fin : Nat) (cs : Clauses) (s : CSt) (u : Use) {k : List I}
    {n : Bool} {t : CSt} (h : cCls c rf fin cs s = some (k, n, t)) (hc : CtxOk c u) :
    Good (fun L => RL c L ∧ L fin = (c.sp + 1, c.bp + 1)) (c.sp, c.bp + 1) s u k t
      (uCls c rf fin cs s u) (if n then c.sp else c.sp + 1, c.bp + 1) := by
  match cs with
  | .nil =>
    simp only [cCls, Option.some.injEq, Prod.mk.injEq] at h
    obtain ⟨rfl, rfl, rfl⟩ := h
    simp only [uCls]
    exact .code s u fun _ _ _ _ _ _ => .nil _ _ _ _
  | .test q r =>
    simp only [cCls] at h
    simp only [uCls]
    split at h
    · rename_i hq
      simp only [Option.bind_eq_bind, Option.bind_eq_some_iff] at h
      obtain ⟨⟨k1, s1⟩, h1, h⟩ := h
      simp only [Option.some.injEq, Prod.mk.injEq] at h
      obtain ⟨rfl, rfl, rfl⟩ := h
      simp only [hq]
      obtain ⟨g, gv⟩ := uExp_good c rf q _ u h1 hc
      exact (g.state (s' := s) (Nat.le_succ _) (Nat.le_refl _) rfl rfl).weaken fun L hL => hL.1
    · rename_i hq
      simp only [hq]
      exact (uCls_good c rf fin r _ u h hc).state (s' := s) (Nat.le_succ _) (Nat.le_refl _) rfl rfl
    · rename_i hq
      simp only [Option.bind_eq_bind, Option.bind_eq_some_iff] at h
      obtain ⟨⟨k1, s1⟩, h1, h⟩ := h
      simp only [hq, h1]
      obtain ⟨g, gv⟩ := uExp_good c _ q _ u h1 hc
      have g1 := (g.state (s' := s) (Nat.le_succ _) (Nat.le_refl _) rfl rfl).weaken
        (A := fun L => RL c L ∧ L fin = (c.sp + 1, c.bp + 1)) fun L hL => hL.1
      have hc1 := hc.good g
      split at h
      · rename_i hr
        simp only [Option.some.injEq, Prod.mk.injEq] at h
        obtain ⟨rfl, rfl, rfl⟩ := h
        cases r with
        | nil => simp only [uCls]; exact g1
        | test _ _ => simp [Clauses.isNil] at hr
        | act _ _ _ => simp [Clauses.isNil] at hr
      · simp only [Option.bind_eq_some_iff] at h
        obtain ⟨⟨k2, n2, s2⟩, h2, h⟩ := h
        simp only [Option.some.injEq, Prod.mk.injEq] at h
        obtain ⟨rfl, rfl, rfl⟩ := h
        have g2 := uCls_good c rf fin r s1 _ h2 hc1
        have gj : Good (fun L => RL c L ∧ L fin = (c.sp + 1, c.bp + 1)) (c.sp + 1, c.bp + 1) s1
            (uExp c (rf && r.isNil) q { s with lab := s.lab + 1 } u) [.jtp fin] s1 _
            (c.sp, c.bp + 1) := .code _ _ fun L M N hA hM hN => by
          have := hc1.bp
          refine .one (by simp [tr0, hA.2]) (by simp [okH]; omega)
        have := (g1.append gj).append g2
        simpa using this
  | .act q b r =>
    simp only [cCls] at h
    simp only [uCls]
    split at h
    · rename_i hq
      simp only [Option.bind_eq_bind, Option.bind_eq_some_iff] at h
      obtain ⟨⟨k1, s1⟩, h1, h⟩ := h
      simp only [Option.some.injEq, Prod.mk.injEq] at h
      obtain ⟨rfl, rfl, rfl⟩ := h
      simp only [hq]
      obtain ⟨g, gv⟩ := uExp_good c rf b _ u h1 hc
      exact (g.state (s' := s) (Nat.le_succ _) (Nat.le_refl _) rfl rfl).weaken fun L hL => hL.1
    · rename_i hq
      simp only [hq]
      exact (uCls_good c rf fin r _ u h hc).state (s' := s) (Nat.le_succ _) (Nat.le_refl _) rfl rfl
    · rename_i hq
      simp only [Option.bind_eq_bind, Option.bind_eq_some_iff] at h
      obtain ⟨⟨k1, s1⟩, h1, ⟨k2, s2⟩, h2, h⟩ := h
      simp only [hq, h1, h2]
      obtain ⟨g, gv⟩ := uExp_good c false q _ u h1 hc
      have hc1 := hc.good g
      obtain ⟨g', gv'⟩ := uExp_good c rf b s1 _ h2 hc1
      have hc2 := hc1.good g'
      split at h
      · rename_i hr
        simp only [Option.some.injEq, Prod.mk.injEq] at h
        obtain ⟨rfl, rfl, rfl⟩ := h
        have gj : Good (fun L => RL c L ∧ L fin = (c.sp + 1, c.bp + 1)) (c.sp + 1, c.bp + 1) s1
            (uExp c false q { s with lab := s.lab + 1 } u) [.jnp fin] s1 _
            (c.sp, c.bp + 1) := .code _ _ fun L M N hA hM hN => by
          have := hc1.bp
          refine .one (by simp [tr0, hA.2]) (by simp [okH]; omega)
        have := (((g.state (s' := s) (Nat.le_succ _) (Nat.le_refl _) rfl rfl).weaken
          fun L hL => hL.1).append gj).append (g'.weaken fun L hL => hL.1)
        cases r with
        | nil => simp only [uCls]; simpa using this
        | test _ _ => simp [Clauses.isNil] at hr
        | act _ _ _ => simp [Clauses.isNil] at hr
      · simp only [Option.bind_eq_some_iff] at h
        obtain ⟨⟨k3, n3, s3⟩, h3, h⟩ := h
        simp only [Option.some.injEq, Prod.mk.injEq] at h
        obtain ⟨rfl, rfl, rfl⟩ := h
        have g3 := uCls_good c rf fin r s2 _ h3 hc2
        refine Good.label (x := (c.sp, c.bp + 1))
          (A' := fun L => (RL c L ∧ L fin = (c.sp + 1, c.bp + 1)) ∧ L s.lab = (c.sp, c.bp + 1)) ?_
          (fun L hL hx => ⟨hL, hx⟩)
        have gj : Good (fun L => (RL c L ∧ L fin = (c.sp + 1, c.bp + 1)) ∧ L s.lab = (c.sp, c.bp + 1))
            (c.sp + 1, c.bp + 1) s1
            (uExp c false q { s with lab := s.lab + 1 } u) [.jn s.lab] s1 _
            (c.sp, c.bp + 1) := .code _ _ fun L M N hA hM hN => by
          have := hc1.bp
          refine .one (by simp [tr0, hA.2]) (by simp [okH]; omega)
        have gk : Good (fun L => (RL c L ∧ L fin = (c.sp + 1, c.bp + 1)) ∧ L s.lab = (c.sp, c.bp + 1))
            (c.sp + 1, c.bp + 1) s2
            (uExp c rf b s1 (uExp c false q { s with lab := s.lab + 1 } u)) [.jmp fin, .label s.lab] s2
            _ (c.sp, c.bp + 1) := .code _ _ fun L M N hA hM hN => by
          have := hc2.bp
          have := hc2.sp
          refine .cons (b := none) (by simp [tr0, hA.1.2]) rfl (.one (by simp [tr0, hA.2])
            (by simp [okH]; omega))
        have := ((((g.weaken fun L hL => hL.1.1).append gj).append
          (g'.weaken fun L hL => hL.1.1)).append gk).append (g3.weaken fun L hL => hL.1)
        simpa using this

theorem uLets_good (c : Ctx) (bs : Binds) (s : CSt) (u : Use) {k : List I} {lex : Lex} {t : CSt}
    (h : cLets c bs s = some (k, lex, t)) (hc : CtxOk c u) :
    Good (RL c) (c.sp, c.bp + 1) s u k t (uLets c bs s u) (c.sp, c.bp + 1) := by
  match bs with
  | .nil =>
    simp only [cLets, Option.some.injEq, Prod.mk.injEq] at h
    obtain ⟨rfl, rfl, rfl⟩ := h
    simp only [uLets]
    exact .code s u fun _ _ _ _ _ _ => .nil _ _ _ _
  | .cons x e r =>
    simp only [cLets, Option.bind_eq_bind, Option.bind_eq_some_iff] at h
    obtain ⟨⟨k1, s1⟩, h1, ⟨k2, lex2, s2⟩, h2, h⟩ := h
    simp only [Option.some.injEq, Prod.mk.injEq] at h
    obtain ⟨rfl, rfl, rfl⟩ := h
    simp only [uLets, h1]
    obtain ⟨g, gv⟩ := uExp_good c false e s u h1 hc
    have hc1 := hc.good g
    have g' := uLets_good { c with lex := (x, s1.cell) :: c.lex } r { s1 with cell := s1.cell + 1 } _ h2
      hc1.lex
    have gb : Good (RL c) (c.sp + 1, c.bp + 1) s1 (uExp c false e s u)
        [.lexBind x ((x, s1.cell) :: c.lex)] s1 _ (c.sp, c.bp + 1) := .code _ _ fun L M N hA hM hN => by
      have := hc1.bp
      exact .one rfl (by simp [okH]; omega)
    have := (g.append gb).append ((g'.weaken (A := RL c) fun L hL => hL).state (s' := s1) (Nat.le_refl _)
      (Nat.le_refl _) rfl rfl)
    simpa using this

theorem uSets_good (c : Ctx) (bs : Binds) (s : CSt) (u : Use) {k : List I} {t : CSt}
    (h : cSets c bs s = some (k, t)) (hc : CtxOk c u) :
    Good (RL c) (c.sp, c.bp + 1) s u k t (uSets c bs s u) (c.sp, c.bp + 1) := by
  match bs with
  | .nil =>
    simp only [cSets, Option.some.injEq, Prod.mk.injEq] at h
    obtain ⟨rfl, rfl⟩ := h
    simp only [uSets]
    exact .code s u fun _ _ _ _ _ _ => .nil _ _ _ _
  | .cons x e r =>
    have gset : ∀ (s1 : CSt) (u1 : Use), CtxOk c u1 → Good (RL c) (c.sp + 1, c.bp + 1) s1 u1
        [varset c x] s1 u1 (c.sp, c.bp + 1) := fun s1 u1 hc1 => .code _ _ fun L M N _ hM hN => by
      have := hc1.bp
      have := hc1.sp
      exact .one (tr0_varset L c x _ _) (by simp [okH]; omega)
    by_cases ho : ∀ ps b, e ≠ .lam ps b
    · rw [cSets_other ho] at h
      rw [uSets_other ho]
      simp only [Option.bind_eq_bind, Option.bind_eq_some_iff] at h
      obtain ⟨⟨k1, s1⟩, h1, ⟨k2, s2⟩, h2, h⟩ := h
      simp only [Option.some.injEq, Prod.mk.injEq] at h
      obtain ⟨rfl, rfl⟩ := h
      simp only [h1]
      obtain ⟨g, gv⟩ := uExp_good c false e s u h1 hc
      have hc1 := hc.good g
      have g' := uSets_good c r s1 _ h2 hc1
      have := (g.append (gset s1 _ hc1)).append g'
      simpa using this
    match e with
    | .lam ps b =>
      simp only [cSets, Option.bind_eq_bind, Option.bind_eq_some_iff] at h
      obtain ⟨⟨k1, s1⟩, h1, ⟨k2, s2⟩, h2, h⟩ := h
      simp only [Option.some.injEq, Prod.mk.injEq] at h
      obtain ⟨rfl, rfl⟩ := h
      simp only [uSets, h1]
      obtain ⟨g0, gv0⟩ := uExp_good _ true b _ (u.enter ps) h1 (lambda_ctx hc.deep)
      have gf := Good.fn (A := RL c) hc.deep hc.sp hc.bp g0
      have hc1 := hc.good gf
      have g' := uSets_good c r _ _ h2 hc1
      have := (gf.append (gset _ _ hc1)).append g'
      simpa using this
    | .quote _ | .var _ | .set _ _ | .seq _ _ | .cond _ | .while _ _ | .call _ _ | .inl _ _ _
    | .lets _ _ | .letrec _ _ | .named _ _ _ _ =>
      exact absurd (fun _ _ h => nomatch h) ho
end

end Rep.Stack
