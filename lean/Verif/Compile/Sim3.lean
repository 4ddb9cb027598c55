import Verif.Compile.Sim2

/-
Arguments, `cond` and `while`.
-/

namespace Rep.Compile

variable {U : Setup}

theorem SOk.next {Gf : Name → Option Clo} {c c' : Ctx} {sc : Scope} {s s' : CSt} (h : SOk Gf c sc s)
    (hl : c'.lex = c.lex) (hr : c'.recs = c.recs) (hc : s.cell ≤ s'.cell) (ht : TagsOk s') :
    SOk Gf c' sc s' := by
  obtain ⟨h1, _, h3, h4, h5, h6, h7⟩ := h
  refine ⟨?_, ht, ?_, ?_, ?_, ?_, h7⟩
  · rw [hl]; exact h1.mono hc
  · rw [hl]; exact h3
  · rw [hl]; exact h4
  · rw [hr]; exact h5
  · rw [hr]; exact h6

theorem SOk.lab {Gf : Name → Option Clo} {c : Ctx} {sc : Scope} {s : CSt} (h : SOk Gf c sc s)
    (n : Nat) : SOk Gf c sc { s with lab := n } :=
  h.next rfl rfl (Nat.le_refl _) (tagsOk_of h.tags rfl rfl (Nat.le_refl _))

/-- After a form has been compiled. -/
theorem SOk.exp {Gf : Name → Option Clo} {c c' : Ctx} {rf : Bool} {e : Exp} {sc : Scope} {s s' : CSt}
    {k : List I} (h : SOk Gf c sc s) (hc : cExp c rf e s = some (k, s')) (hg : good sc e = true)
    (hl : c'.lex = c.lex) (hr : c'.recs = c.recs) : SOk Gf c' sc s' :=
  h.next hl hr (cExp_grow c rf e s hc).later.cell (cExp_tag c rf e s hc hg h.cells h.tags).1

theorem SOk.args {Gf : Name → Option Clo} {c c' : Ctx} {es : Exps} {sc : Scope} {s s' : CSt}
    {k : List I} (h : SOk Gf c sc s) (hc : cArgs c es s = some (k, s')) (hg : goodA sc es = true)
    (hl : c'.lex = c.lex) (hr : c'.recs = c.recs) : SOk Gf c' sc s' :=
  h.next hl hr (cArgs_grow c es s hc).later.cell (cArgs_tag c es s hc hg h.cells h.tags).1

/-- In another state, in the same scope. -/
theorem Here.next {fr : Fr} {c c' : Ctx} {sc : Scope} {X : List Name} {ρ : Env}
    {fs : List (List Ent)} {w w' : World} {S S' : SSt} {env bst env' bst' : List Nat}
    {slots slots' : Nat → Option TVal} {st st' : TSt}
    (h : Here (U := U) fr c sc X ρ fs w S env bst slots st)
    (hF : FR U fr fs w' S' env' bst' slots') (hw : WOk U w' S' st') (h1 : c'.lex = c.lex)
    (h2 : c'.bp = c.bp) : Here (U := U) fr c' sc X ρ fs w' S' env' bst' slots' st' :=
  ⟨h.ok, ⟨by rw [h1]; exact h.sco.lex, h.sco.coh, h.sco.kind, by rw [h2]; exact h.sco.bp⟩, hF, hw⟩

/-! ### Arguments -/

/-- What happens when the values of the arguments are on the stack. -/
def EndA (U : Setup) (fr : Fr) (w : World) (S : SSt) (fs : List (List Ent)) (pc : Nat)
    (stk : List TVal) (Q : Out → Prop) (vs : List SVal) (S' : SSt) : Prop :=
  ∀ w' env bst slots st vs', FR U fr fs w' S' env bst slots → WOk U w' S' st →
    LRel (VR U w') vs vs' → Ext fr.m w.n w S w' S' →
    GoesTo U.P U.table Q (U.mk' fr pc (vs'.reverse ++ stk) env bst slots st)

def SimArgs (U : Setup) (n : Nat) : Prop :=
  ∀ {fr : Fr} {c : Ctx} {es : Exps} {s : CSt} {k : List I} {s' : CSt} {sc : Scope}
    {X : List Name} {ρ : Env} {fs : List (List Ent)} {w : World} {S : SSt}
    {env bst : List Nat} {slots : Nat → Option TVal} {st : TSt} {stk : List TVal} {pc : Nat}
    {r : SRes (List SVal)} {Q : Out → Prop},
    cArgs c es s = some (k, s') → Fin U s' →
    Stat U c false sc s X [] (fun x => mentionsA x es) (fun _ => false) → goodA sc es = true →
    CodeAt fr.C pc k → Here (U := U) fr c sc X ρ fs w S env bst slots st →
    evalArgs U.P n ρ S es = some r →
    (∀ vs S1, r = .ok vs S1 → EndA U fr w S fs (pc + k.length) stk Q vs S1) →
    (∀ e S1, r = .err e S1 → ∀ w' st, WOk U w' S1 st → Q (.err e st)) →
    GoesTo U.P U.table Q (U.mk' fr pc stk env bst slots st)

theorem simArgs {n : Nat} (hE : ∀ m, m < n → SimE U m) : SimArgs U n := by
  induction n with
  | zero =>
    intro fr c es s k s' sc X ρ fs w S env bst slots st stk pc r Q h _ _ _ _ _ he
    simp [evalArgs] at he
  | succ n ih =>
    have ih : SimArgs U n := ih (fun m hm => hE m (Nat.lt_succ_of_lt hm))
    have hE : SimE U n := hE n (Nat.lt_succ_self n)
    intro fr c es s k s' sc X ρ fs w S env bst slots st stk pc r Q h hfin hs hg hc hh he hok herr
    cases es with
    | nil =>
      simp only [cArgs, Option.some.injEq, Prod.mk.injEq] at h
      obtain ⟨rfl, rfl⟩ := h
      simp only [evalArgs, Option.some.injEq] at he
      exact hok [] S he.symm w env bst slots st [] hh.fr hh.w .nil (.refl _ _ _ _)
    | cons e es =>
      simp only [cArgs, Option.bind_eq_bind, Option.bind_eq_some_iff] at h
      obtain ⟨⟨k1, s1⟩, h1, ⟨k2, s2⟩, h2, h⟩ := h
      simp only [Option.some.injEq, Prod.mk.injEq] at h
      obtain ⟨rfl, rfl⟩ := h
      simp only [goodA, Bool.and_eq_true] at hg
      have hs1 : SOk U.Gf { c with sp := c.sp + 1 } sc s1 := hs.sok.exp h1 hg.1 rfl rfl
      simp only [evalArgs] at he
      cases hv : eval U.P n ρ S e with
      | none => simp [hv] at he
      | some r1 =>
        rw [hv] at he
        refine hE (av := []) (r := r1) h1 (hfin.before (cArgs_grow _ es s1 h2).later)
          (hs.sub hs.sok rfl (fun x hx => .inl hx) hs.inSc (fun x hx => ?_) (fun x hx => ?_))
          hg.1 hc.left hh trivial hv ?_ ?_
        · simp only [mentionsA, Bool.or_eq_false_iff] at hx; exact hx.1
        · exact absurd hx (by simp)
        · intro v S1 hr w1 env1 bst1 slots1 st1 v1 p1 p2 p3 p4
          subst hr
          simp only at he
          cases hvs : evalArgs U.P n ρ S1 es with
          | none => simp [hvs] at he
          | some r2 =>
            rw [hvs] at he
            refine ih (r := r2) h2 hfin
              (hs.sub hs1 rfl (fun x hx => .inl hx) hs.inSc (fun x hx => ?_) (fun x hx => ?_))
              hg.2 hc.right (hh.next p1 p2 rfl rfl) hvs ?_ ?_
            · simp only [mentionsA, Bool.or_eq_false_iff] at hx; exact hx.2
            · exact absurd hx (by simp)
            · intro vs S2 hr2 w2 env2 bst2 slots2 st2 vs2 q1 q2 q3 q4
              subst hr2
              simp only [Option.some.injEq] at he
              have := hok (v :: vs) S2 he.symm w2 env2 bst2 slots2 st2 (v1 :: vs2) q1 q2
                (.cons (p3.mono q4.le) q3) (p4.trans q4 p4.le.n hh.fr.m)
              rw [List.length_append, ← Nat.add_assoc] at this
              simpa using this
            · intro e2 S2 hr2
              subst hr2
              simp only [Option.some.injEq] at he
              exact herr e2 S2 he.symm
        · intro e1 S1 hr
          subst hr
          simp only [Option.some.injEq] at he
          exact herr e1 S1 he.symm

theorem evalArgs_length {P : Prims} {n : Nat} {ρ : Env} {S S1 : SSt} {es : Exps} {vs : List SVal}
    (h : evalArgs P n ρ S es = some (.ok vs S1)) : vs.length = es.length := by
  induction n generalizing es S vs S1 with
  | zero => simp [evalArgs] at h
  | succ n ih =>
    cases es with
    | nil =>
      simp only [evalArgs, Option.some.injEq, SRes.ok.injEq] at h
      rw [← h.1]; rfl
    | cons e es =>
      simp only [evalArgs] at h
      split at h
      · split at h
        · rename_i h2
          simp only [Option.some.injEq, SRes.ok.injEq] at h
          rw [← h.1]
          simp [Exps.length, ih h2]
        · rename_i h3
          exact absurd h (h3 vs S1)
      · simp at h
      · simp at h

/-! ### `cond` -/

theorem squash_some {q : Exp} {b : Bool} (h : squash q = some b) :
    ∃ a, q = .quote a ∧ b = decide (a ≠ .nil) := by
  cases q with
  | quote a =>
    simp only [squash, Option.some.injEq] at h
    exact ⟨a, rfl, h.symm⟩
  | _ => simp [squash] at h

theorem atom_isNil (a : Atom) : (Val.atom (F := Clo) a).isNil = !decide (a ≠ .nil) := by
  cases a <;> rfl

/-- The clauses of a `cond`, whose end is at `pl`. -/
def SimCls (U : Setup) (n : Nat) : Prop :=
  ∀ {fr : Fr} {c : Ctx} {rf : Bool} {fin : Nat} {cs : Clauses} {s : CSt} {k : List I} {need : Bool}
    {s' : CSt} {sc : Scope} {X : List Name} {av : List Tgt} {ρ : Env} {fs : List (List Ent)}
    {w : World} {S : SSt} {env bst : List Nat} {slots : Nat → Option TVal} {st : TSt}
    {stk : List TVal} {pc pl : Nat} {r : SRes SVal} {Q : Out → Prop},
    cCls c rf fin cs s = some (k, need, s') → Fin U s' →
    Stat U c rf sc s X av (fun x => mentionsC x cs) (fun x => tailC x cs) → goodC sc cs = true →
    CodeAt fr.C pc (k ++ if need then [.push .nil] else []) → CodeAt fr.C pl [.label fin] →
    pl = pc + k.length + (if need then 1 else 0) →
    Here (U := U) fr c sc X ρ fs w S env bst slots st →
    Avs U fr r stk Q w S av ρ fs → evalCls U.P n ρ S cs = some r →
    (∀ v S1, r = .ok v S1 → EndK U fr w S fs pl stk Q v S1) →
    EndE (U := U) Q r → GoesTo U.P U.table Q (U.mk' fr pc stk env bst slots st)

theorem simCls {n : Nat} (hE : ∀ m, m < n → SimE U m) : SimCls U n := by
  induction n with
  | zero =>
    intro fr c rf fin cs s k need s' sc X av ρ fs w S env bst slots st stk pc pl r Q h _ _ _ _ _ _ _ _
      he
    simp [evalCls] at he
  | succ n ih =>
    have ih : SimCls U n := ih (fun m hm => hE m (Nat.lt_succ_of_lt hm))
    have hE : SimE U n := hE n (Nat.lt_succ_self n)
    intro fr c rf fin cs s k need s' sc X av ρ fs w S env bst slots st stk pc pl r Q h hfin hs hg hc
      hl hpl hh ha he hok herr
    cases cs with
    | nil =>
      simp only [cCls, Option.some.injEq, Prod.mk.injEq] at h
      obtain ⟨rfl, rfl, rfl⟩ := h
      simp only [evalCls, Option.some.injEq] at he
      refine GoesTo.step (step_push (k := []) hc) ?_
      have := hok .nil S he.symm w env bst slots st .nil hh.fr hh.w (.atom _) (.refl _ _ _ _)
      rw [hpl] at this
      exact this
    | test q r' =>
      rw [cCls] at h
      simp only [goodC, Bool.and_eq_true] at hg
      simp only [evalCls] at he
      have hsl : SOk U.Gf c sc { s with lab := s.lab + 1 } := hs.sok.lab _
      split at h
      · -- a constant that is not nil
        rename_i hq
        simp only [Option.bind_eq_bind, Option.bind_eq_some_iff] at h
        obtain ⟨⟨k1, s1⟩, h1, h⟩ := h
        simp only [Option.some.injEq, Prod.mk.injEq] at h
        obtain ⟨rfl, rfl, rfl⟩ := h
        obtain ⟨a, rfl, hb⟩ := squash_some hq
        simp only [Bool.false_eq_true, if_false, List.append_nil] at hc
        simp only [Bool.false_eq_true, if_false, Nat.add_zero] at hpl
        cases n with
        | zero => simp [eval] at he
        | succ n =>
          simp only [eval, atom_isNil, ← hb, Bool.not_true, Bool.false_eq_true, if_false] at he
          refine hE (r := r) h1 hfin
            (hs.tail hsl (fun h => h) (fun _ => rfl) rfl rfl (fun _ _ => rfl)
              (fun _ _ => by simp [mentions]) (fun _ _ => by simp [tailB])) hg.1 hc hh ha
            (by simpa [eval] using he) ?_ herr
          rw [← hpl]; exact hok
      · rename_i hq
        obtain ⟨a, rfl, hb⟩ := squash_some hq
        cases n with
        | zero => simp [eval] at he
        | succ n =>
          simp only [eval, atom_isNil, ← hb, Bool.not_false, if_true] at he
          refine ih (r := r) h hfin
            (hs.tail hsl (fun h => h) (fun _ => rfl) rfl rfl (fun _ _ => rfl)
              (fun x hx => ?_) (fun x hx => ?_)) hg.2 hc hl hpl hh ha he hok herr
          · simpa [mentionsC, hq] using hx
          · simpa [tailC, hq] using hx
      · rename_i hq
        simp only [Option.bind_eq_bind, Option.bind_eq_some_iff] at h
        obtain ⟨⟨k1, s1⟩, h1, h⟩ := h
        cases hv : eval U.P n ρ S q with
        | none => simp [hv] at he
        | some r1 =>
          rw [hv] at he
          split at h
          · -- the last clause
            rename_i hr
            simp only [Option.some.injEq, Prod.mk.injEq] at h
            obtain ⟨rfl, rfl, rfl⟩ := h
            simp only [Bool.false_eq_true, if_false, List.append_nil] at hc
            simp only [Bool.false_eq_true, if_false, Nat.add_zero] at hpl
            cases r' with
            | nil =>
              have hr1 : r1 = r := by
                cases r1 with
                | err e S1 => simpa using he
                | ok v S1 =>
                  simp only at he
                  split at he
                  · rename_i hn
                    cases n with
                    | zero => simp [evalCls] at he
                    | succ n =>
                      simp only [evalCls, Option.some.injEq] at he
                      rw [← he]
                      cases v with
                      | atom a => cases a <;> first | rfl | simp [Val.isNil] at hn
                      | _ => simp [Val.isNil] at hn
                  · simpa using he
              subst hr1
              refine hE (r := r1) h1 hfin
                (hs.tail hsl (fun h => ?_) (fun _ => rfl) rfl rfl (fun _ _ => rfl)
                  (fun x hx => ?_) (fun x hx => ?_)) hg.1 hc hh ha hv ?_ herr
              · simpa [Clauses.isNil] using h
              · simp only [mentionsC, hq, Bool.or_eq_false_iff] at hx; exact hx.1
              · simpa [tailC, hq, Clauses.isNil] using hx
              · rw [← hpl]; exact hok
            | _ => simp [Clauses.isNil] at hr
          · rename_i hr
            simp only [Bool.not_eq_true] at hr
            simp only [Option.bind_eq_some_iff] at h
            obtain ⟨⟨k2, need2, s2⟩, h2, h⟩ := h
            simp only [Option.some.injEq, Prod.mk.injEq] at h
            obtain ⟨rfl, rfl, rfl⟩ := h
            rw [hr, Bool.and_false] at h1
            have hm : ∀ x, mentionsC x (.test q r') = false →
                mentions x q = false ∧ mentionsC x r' = false := by
              intro x hx
              simpa only [mentionsC, hq, Bool.or_eq_false_iff] using hx
            have ht : ∀ x, tailC x (.test q r') = true →
                mentions x q = false ∧ tailC x r' = true := by
              intro x hx
              simpa [tailC, hq, hr] using hx
            rw [List.append_assoc] at hc
            have hs1 : SOk U.Gf c sc s1 := hsl.exp h1 hg.1 rfl rfl
            have hj : CodeAt fr.C (pc + k1.length)
                (.jtp fin :: (k2 ++ if need2 then [.push .nil] else [])) := hc.right
            refine hE (av := []) (r := r1) h1 (hfin.before (cCls_grow c rf fin r' s1 h2).later)
              (hs.sub hsl rfl (fun x hx => .inl hx) hs.inSc (fun x hx => (hm x hx).1)
                (fun x hx => (ht x hx).1)) hg.1 hc.left hh trivial hv ?_ ?_
            · intro v S1 hr1 w1 env1 bst1 slots1 st1 v1 p1 p2 p3 p4
              subst hr1
              refine GoesTo.step (step_jtp hh.ok hj hl) ?_
              simp only at he
              rw [p3.isNil] at he
              split at he
              · rename_i hn
                rw [if_pos hn]
                refine ih (r := r) h2 hfin
                  (hs.tail hs1 (fun h => h) (fun _ => rfl) rfl rfl (fun _ _ => rfl)
                    (fun x hx => (hm x hx).2) (fun x hx => (ht x hx).2)) hg.2 hj.tail hl ?_
                  (hh.next p1 p2 rfl rfl) (ha.later p4 hh.fr.m) he ?_ herr
                · rw [hpl]
                  simp only [List.length_append, List.length_cons]
                  omega
                · intro v' S' hr'
                  exact (hok v' S' hr').later p4 hh.fr.m
              · rename_i hn
                rw [if_neg hn]
                simp only [Option.some.injEq] at he
                exact hok v S1 he.symm w1 env1 bst1 slots1 st1 v1 p1 p2 p3 p4
            · intro e S1 hr1
              subst hr1
              simp only [Option.some.injEq] at he
              exact herr e S1 he.symm
    | act q b r' =>
      rw [cCls] at h
      simp only [goodC, Bool.and_eq_true] at hg
      simp only [evalCls] at he
      have hsl : SOk U.Gf c sc { s with lab := s.lab + 1 } := hs.sok.lab _
      split at h
      · rename_i hq
        simp only [Option.bind_eq_bind, Option.bind_eq_some_iff] at h
        obtain ⟨⟨k1, s1⟩, h1, h⟩ := h
        simp only [Option.some.injEq, Prod.mk.injEq] at h
        obtain ⟨rfl, rfl, rfl⟩ := h
        obtain ⟨a, rfl, hb⟩ := squash_some hq
        simp only [Bool.false_eq_true, if_false, List.append_nil] at hc
        simp only [Bool.false_eq_true, if_false, Nat.add_zero] at hpl
        cases n with
        | zero => simp [eval] at he
        | succ n =>
          simp only [eval, atom_isNil, ← hb, Bool.not_true, Bool.false_eq_true, if_false] at he
          refine hE (r := r) h1 hfin
            (hs.tail hsl (fun h => h) (fun _ => rfl) rfl rfl (fun _ _ => rfl)
              (fun x hx => ?_) (fun x hx => ?_)) hg.1.2 hc hh ha he ?_ herr
          · simpa [mentionsC, hq] using hx
          · simpa [tailC, hq] using hx
          · rw [← hpl]; exact hok
      · rename_i hq
        obtain ⟨a, rfl, hb⟩ := squash_some hq
        cases n with
        | zero => simp [eval] at he
        | succ n =>
          simp only [eval, atom_isNil, ← hb, Bool.not_false, if_true] at he
          refine ih (r := r) h hfin
            (hs.tail hsl (fun h => h) (fun _ => rfl) rfl rfl (fun _ _ => rfl)
              (fun x hx => ?_) (fun x hx => ?_)) hg.2 hc hl hpl hh ha he hok herr
          · simpa [mentionsC, hq] using hx
          · simpa [tailC, hq] using hx
      · rename_i hq
        simp only [Option.bind_eq_bind, Option.bind_eq_some_iff] at h
        obtain ⟨⟨k1, s1⟩, h1, ⟨k2, s2⟩, h2, h⟩ := h
        have hm : ∀ x, mentionsC x (.act q b r') = false →
            mentions x q = false ∧ mentions x b = false ∧ mentionsC x r' = false := by
          intro x hx
          simp only [mentionsC, hq, Bool.or_eq_false_iff] at hx
          exact ⟨hx.1.1, hx.1.2, hx.2⟩
        have ht : ∀ x, tailC x (.act q b r') = true →
            mentions x q = false ∧ tailB x b = true ∧ tailC x r' = true := by
          intro x hx
          simp only [tailC, hq, Bool.and_eq_true, Bool.not_eq_true'] at hx
          exact ⟨hx.1.1, hx.1.2, hx.2⟩
        have hs1 : SOk U.Gf c sc s1 := hsl.exp h1 hg.1.1 rfl rfl
        have hs2 : SOk U.Gf c sc s2 := hs1.exp h2 hg.1.2 rfl rfl
        cases hv : eval U.P n ρ S q with
        | none => simp [hv] at he
        | some r1 =>
          rw [hv] at he
          split at h
          · -- the last clause
            rename_i hr
            simp only [Option.some.injEq, Prod.mk.injEq] at h
            obtain ⟨rfl, rfl, rfl⟩ := h
            simp only [Bool.false_eq_true, if_false, List.append_nil] at hc
            simp only [Bool.false_eq_true, if_false, Nat.add_zero] at hpl
            have hj : CodeAt fr.C (pc + k1.length) (.jnp fin :: k2) := hc.right
            refine hE (av := []) (r := r1) h1 (hfin.before (cExp_grow c rf b s1 h2).later)
              (hs.sub hsl rfl (fun x hx => .inl hx) hs.inSc (fun x hx => (hm x hx).1)
                (fun x hx => (ht x hx).1)) hg.1.1 hc.left hh trivial hv ?_ ?_
            · intro v S1 hr1 w1 env1 bst1 slots1 st1 v1 p1 p2 p3 p4
              subst hr1
              refine GoesTo.step (step_jnp hh.ok hj hl) ?_
              simp only at he
              have hnil := p3.isNil
              rw [hnil] at he
              split at he
              · rename_i hn
                rw [if_pos hn]
                cases r' with
                | nil =>
                  cases n with
                  | zero => simp [evalCls] at he
                  | succ n =>
                    simp only [evalCls, Option.some.injEq] at he
                    have hvn : v = .nil := by
                      rw [← hnil] at hn
                      cases v with
                      | atom a => cases a <;> first | rfl | simp [Val.isNil] at hn
                      | _ => simp [Val.isNil] at hn
                    rw [hvn] at p3
                    exact hok _ S1 he.symm w1 env1 bst1 slots1 st1 v1 p1 p2 p3 p4
                | _ => simp [Clauses.isNil] at hr
              · rename_i hn
                rw [if_neg hn]
                refine hE (r := r) h2 hfin
                  (hs.tail hs1 (fun h => h) (fun _ => rfl) rfl rfl (fun _ _ => rfl)
                    (fun x hx => (hm x hx).2.1) (fun x hx => (ht x hx).2.1)) hg.1.2 hj.tail
                  (hh.next p1 p2 rfl rfl) (ha.later p4 hh.fr.m) he ?_ herr
                intro v' S' hr'
                have : pc + k1.length + 1 + k2.length = pl := by
                  rw [hpl]; simp only [List.length_append, List.length_cons]; omega
                rw [this]
                exact (hok v' S' hr').later p4 hh.fr.m
            · intro e S1 hr1
              subst hr1
              simp only [Option.some.injEq] at he
              exact herr e S1 he.symm
          · simp only [Option.bind_eq_some_iff] at h
            obtain ⟨⟨k3, need3, s3⟩, h3, h⟩ := h
            simp only [Option.some.injEq, Prod.mk.injEq] at h
            obtain ⟨rfl, rfl, rfl⟩ := h
            have g3 := (cCls_grow c rf fin r' s2 h3).later
            simp only [List.append_assoc, List.cons_append, List.nil_append] at hc
            have hj : CodeAt fr.C (pc + k1.length) (.jn s.lab :: (k2 ++ (.jmp fin ::
                (.label s.lab :: (k3 ++ if need3 then [.push .nil] else []))))) := hc.right
            have hjm : CodeAt fr.C (pc + k1.length + 1 + k2.length) (.jmp fin ::
                (.label s.lab :: (k3 ++ if need3 then [.push .nil] else []))) := hj.tail.right
            refine hE (av := []) (r := r1) h1
              (hfin.before ((cExp_grow c rf b s1 h2).later.trans g3))
              (hs.sub hsl rfl (fun x hx => .inl hx) hs.inSc (fun x hx => (hm x hx).1)
                (fun x hx => (ht x hx).1)) hg.1.1 hc.left hh trivial hv ?_ ?_
            · intro v S1 hr1 w1 env1 bst1 slots1 st1 v1 p1 p2 p3 p4
              subst hr1
              refine GoesTo.step (step_jn hh.ok hj hjm.tail) ?_
              simp only at he
              rw [p3.isNil] at he
              split at he
              · rename_i hn
                rw [if_pos hn]
                refine GoesTo.step (step_label hjm.tail) ?_
                refine ih (r := r) h3 hfin
                  (hs.tail hs2 (fun h => h) (fun _ => rfl) rfl rfl (fun _ _ => rfl)
                    (fun x hx => (hm x hx).2.2) (fun x hx => (ht x hx).2.2)) hg.2 hjm.tail.tail hl ?_
                  (hh.next p1 p2 rfl rfl) (ha.later p4 hh.fr.m) he ?_ herr
                · rw [hpl]
                  simp only [List.length_append, List.length_cons, List.length_nil]
                  omega
                · intro v' S' hr'
                  exact (hok v' S' hr').later p4 hh.fr.m
              · rename_i hn
                rw [if_neg hn]
                refine hE (r := r) h2 (hfin.before g3)
                  (hs.tail hs1 (fun h => h) (fun _ => rfl) rfl rfl (fun _ _ => rfl)
                    (fun x hx => (hm x hx).2.1) (fun x hx => (ht x hx).2.1)) hg.1.2 hj.tail.left
                  (hh.next p1 p2 rfl rfl) (ha.later p4 hh.fr.m) he ?_ herr
                intro v' S' hr' w2 env2 bst2 slots2 st2 v2 q1 q2 q3 q4
                refine GoesTo.step (step_jmp hh.ok hjm hl) ?_
                exact (hok v' S' hr').later p4 hh.fr.m w2 env2 bst2 slots2 st2 v2 q1 q2 q3 q4
            · intro e S1 hr1
              subst hr1
              simp only [Option.some.injEq] at he
              exact herr e S1 he.symm

/-! ### `while` -/

/-- From the second label on. -/
theorem sim_while {n : Nat} (hE : ∀ m, m < n → SimE U m)
    {fr : Fr} {c : Ctx} {q b : Exp} {s s1 s2 : CSt} {kb kq : List I} {l1 l2 : Nat} {sc : Scope}
    {X : List Name} {ρ : Env} {fs : List (List Ent)} {w : World} {S : SSt}
    {env bst : List Nat} {slots : Nat → Option TVal} {st : TSt} {stk : List TVal} {pc : Nat}
    {r : SRes SVal} {Q : Out → Prop}
    (h1 : cExp c false b s = some (kb, s1)) (h2 : cExp c false q s1 = some (kq, s2))
    (hfin : Fin U s2) (hsb : Stat U c false sc s X [] (fun x => mentions x b) (fun x => tailB x b))
    (hsq : Stat U c false sc s1 X [] (fun x => mentions x q) (fun x => tailB x q))
    (hgb : good sc b = true) (hgq : good sc q = true)
    (hc : CodeAt fr.C pc (.label l1 :: (kb ++ (.pop :: .label l2 :: (kq ++ [.jpt l1])))))
    (hh : Here (U := U) fr c sc X ρ fs w S env bst slots st)
    (he : eval U.P n ρ S (.while q b) = some r)
    (hok : ∀ v S1, r = .ok v S1 →
      EndK U fr w S fs (pc + 1 + kb.length + 1 + 1 + kq.length + 1) stk Q v S1)
    (herr : EndE (U := U) Q r) :
    GoesTo U.P U.table Q (U.mk' fr (pc + 1 + kb.length + 1) stk env bst slots st) := by
  induction n generalizing w S env bst slots st with
  | zero => simp [eval] at he
  | succ n ih =>
    have ih := @ih (fun m hm => hE m (Nat.lt_succ_of_lt hm))
    have hE : SimE U n := hE n (Nat.lt_succ_self n)
    have hcp : CodeAt fr.C (pc + 1 + kb.length) (.pop :: .label l2 :: (kq ++ [.jpt l1])) :=
      hc.tail.right
    refine GoesTo.step (step_label hcp.tail) ?_
    have hcq := hcp.tail.tail
    simp only [eval] at he
    cases hv : eval U.P n ρ S q with
    | none => simp [hv] at he
    | some r1 =>
      rw [hv] at he
      refine hE (av := []) (r := r1) h2 hfin hsq hgq hcq.left hh trivial hv ?_ ?_
      · intro v S1 hr1 w1 env1 bst1 slots1 st1 v1 p1 p2 p3 p4
        subst hr1
        refine GoesTo.step (step_jpt (k := []) hh.ok hcq.right hc) ?_
        simp only at he
        have hnil := p3.isNil
        rw [hnil] at he
        split at he
        · rename_i hn
          rw [if_pos hn]
          simp only [Option.some.injEq] at he
          have hvn : v = .nil := by
            rw [← hnil] at hn
            cases v with
            | atom a => cases a <;> first | rfl | simp [Val.isNil] at hn
            | _ => simp [Val.isNil] at hn
          rw [hvn] at p3
          exact hok _ S1 he.symm w1 env1 bst1 slots1 st1 v1 p1 p2 p3 p4
        · rename_i hn
          rw [if_neg hn]
          refine GoesTo.step (step_label hc) ?_
          cases hvb : eval U.P n ρ S1 b with
          | none => simp [hvb] at he
          | some r2 =>
            rw [hvb] at he
            refine hE (av := []) (r := r2) h1 (hfin.before (cExp_grow c false q s1 h2).later) hsb hgb
              hc.tail.left (hh.next p1 p2 rfl rfl) trivial hvb ?_ ?_
            · intro v2 S2 hr2 w2 env2 bst2 slots2 st2 v2' q1 q2 q3 q4
              subst hr2
              refine GoesTo.step (step_pop hcp) ?_
              refine ih (hh.next q1 q2 rfl rfl) he ?_
              intro v' S' hr'
              exact ((hok v' S' hr').later p4 hh.fr.m).later q4 p1.m
            · intro e S2 hr2
              subst hr2
              simp only [Option.some.injEq] at he
              exact herr e S2 he.symm
      · intro e S1 hr1
        subst hr1
        simp only [Option.some.injEq] at he
        exact herr e S1 he.symm

end Rep.Compile
