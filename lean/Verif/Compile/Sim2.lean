import Verif.Compile.Sim1

/-
Calls, and what is known of the parts of a form.
-/

namespace Rep.Compile

variable {U : Setup}

/-! ### Parts of a form -/

/-- A part whose value is not the value of the form. -/
theorem Stat.sub {c c' : Ctx} {rf : Bool} {sc sc' : Scope} {s s' : CSt} {X X' : List Name}
    {av : List Tgt} {mn tl mn' tl' : Name → Bool} (h : Stat U c rf sc s X av mn tl)
    (hsok : SOk U.Gf c' sc' s') (hr : c'.recs = c.recs)
    (hX : ∀ x ∈ X', x ∈ X ∨ mn' x = false) (hsc : ∀ x ∈ X', look x sc' ≠ none)
    (h1 : ∀ x, mn x = false → mn' x = false) (h2 : ∀ x, tl x = true → mn' x = false) :
    Stat U c' false sc' s' X' [] mn' tl' := by
  refine ⟨hsok, ?_, by simp, hsc, ?_, by simp, by simp, by simp⟩
  · intro x hx
    rcases hX x hx with hx | hx
    · rcases h.hid x hx with hx | ⟨t, ht, rfl, hi⟩
      · exact .inl (h1 x hx)
      · exact .inl (h2 _ (h.tl t ht hi))
    · exact .inl hx
  · intro y r hf hd hi
    rw [hr] at hf hd
    have hi' : r.inlined = true := by
      rcases hi with hi | hi
      · exact hi
      · exact absurd hi (by simp)
    rcases h.recs y r hf hd (.inl hi') with hy | ⟨t, ht, rfl, rfl⟩
    · exact .inl (h1 y hy)
    · exact .inl (h2 _ (h.tl t ht hi'))

/-- A part whose value is the value of the form. -/
theorem Stat.tail {c c' : Ctx} {rf rf' : Bool} {sc sc' : Scope} {s s' : CSt} {X : List Name}
    {av : List Tgt} {mn tl mn' tl' : Name → Bool} (h : Stat U c rf sc s X av mn tl)
    (hsok : SOk U.Gf c' sc' s') (hrf : rf' = true → rf = true)
    (hf : ∀ y, findLambda c'.recs y = findLambda c.recs y) (hd : depth c'.recs = depth c.recs)
    (hsp : c'.sp = c.sp) (hsc : ∀ x, look x sc ≠ none → look x sc' = look x sc)
    (h1 : ∀ x, mn x = false → mn' x = false) (h2 : ∀ x, tl x = true → tl' x = true) :
    Stat U c' rf' sc' s' X av mn' tl' := by
  refine ⟨hsok, ?_, fun t ht hi => h2 _ (h.tl t ht hi), ?_, ?_, ?_, ?_, ?_⟩
  · intro x hx
    rcases h.hid x hx with hx | hx
    · exact .inl (h1 x hx)
    · exact .inr hx
  · intro x hx
    rw [hsc x (h.inSc x hx)]
    exact h.inSc x hx
  · intro y r hfy hdr hi
    rw [hf y] at hfy
    rw [hd] at hdr
    rcases h.recs y r hfy hdr (hi.imp id hrf) with hy | hy
    · exact .inl (h1 y hy)
    · exact .inr hy
  · intro t ht hi
    rw [hf, hd]
    exact h.found t ht hi
  · intro t ht
    rw [hsp]; exact h.sp t ht
  · intro t ht
    have := h.ar t ht
    rw [hsc _ (by rw [this]; simp)]
    exact this

/-- A lambda expression is not called by name from outside. -/
theorem find_depth {c : Ctx} {Gf : Name → Option Clo} {sc : Scope} {s : CSt} (h : SOk Gf c sc s)
    {y : Name} {r : Rec} (hf : findLambda c.recs y = some r) : r.depth < nextDepth c.recs := by
  have hm : r ∈ c.recs := List.mem_of_find?_eq_some hf
  have := h.recD r hm
  cases hc : c.recs with
  | nil => rw [hc] at hm; simp at hm
  | cons r' l =>
    rw [hc] at this
    simp only [depth, nextDepth] at this ⊢
    omega

/-- The body of a function. -/
theorem lambda_stat {c : Ctx} {sc : Scope} {s : CSt} {nm : Option Name} {ps : List Name}
    {X : List Name} {av : List Tgt} {b : Exp} (h : SOk U.Gf c sc s) (hf : fresh sc ps = true)
    (hn : ∀ x, nm = some x → look x sc = some (some ps.length))
    (hX : ∀ x ∈ X, mentions x b = false) (hsc : ∀ x ∈ X, look x sc ≠ none)
    (hav : (nm = none ∧ av = []) ∨ ∃ t, av = [t] ∧ nm = some t.x ∧
      t.r = ⟨nm, ps, nextDepth c.recs, 0, 0, s.lab, false⟩) :
    Stat U (lambdaHead c nm ps s).2.1 true (vars ps ++ sc) (lambdaHead c nm ps s).2.2 X av
      (fun x => mentions x b) (fun x => tailB x b) := by
  have hfv := fresh_vars hf
  have hinl : ∀ t ∈ av, t.r.inlined = false := by
    intro t ht
    rcases hav with ⟨_, h0⟩ | ⟨t', h0, _, h1⟩
    · rw [h0] at ht; simp at ht
    · rw [h0] at ht
      rw [List.mem_singleton.1 ht, h1]
  refine ⟨lambdaHead_sok h hf (fun x hx => by rw [hn x hx]; simp), fun x hx => .inl (hX x hx),
    ?_, ?_, ?_, ?_, ?_, ?_⟩
  · intro t ht hi
    rw [hinl t ht] at hi
    exact absurd hi (by simp)
  · intro x hx
    rw [hfv.2 x (hsc x hx)]
    exact hsc x hx
  · intro y r hfy hd _
    simp only [lambdaHead, depth] at hfy hd
    by_cases hy : nm = some y
    · right
      rcases hav with ⟨h0, _⟩ | ⟨t, h0, h1, h2⟩
      · rw [h0] at hy; exact absurd hy (by simp)
      · refine ⟨t, by rw [h0]; exact .head _, ?_, ?_⟩
        · rw [hy] at h1
          simp only [Option.some.injEq] at h1
          exact h1.symm
        · have : findLambda (⟨nm, ps, nextDepth c.recs, 0, 0, s.lab, false⟩ :: c.recs) y =
              some ⟨nm, ps, nextDepth c.recs, 0, 0, s.lab, false⟩ := by
            simp [findLambda, hy]
          rw [this] at hfy
          simp only [Option.some.injEq] at hfy
          rw [h2, hfy]
    · rw [find_cons hy] at hfy
      have := find_depth h hfy
      omega
  · intro t ht hi
    rw [hinl t ht] at hi
    exact absurd hi (by simp)
  · intro t ht
    rcases hav with ⟨_, h0⟩ | ⟨t', h0, _, h1⟩
    · rw [h0] at ht; simp at ht
    · rw [h0] at ht
      rw [List.mem_singleton.1 ht, h1]
      rfl
  · intro t ht
    rcases hav with ⟨_, h0⟩ | ⟨t', h0, h1, h2⟩
    · rw [h0] at ht; simp at ht
    · rw [h0] at ht
      rw [List.mem_singleton.1 ht, h2]
      have := hn _ h1
      rw [hfv.2 _ (by rw [this]; simp)]
      exact this

/-- A closure. -/
theorem make_clo {fr : Fr} {c : Ctx} {sc : Scope} {s s1 : CSt} {nm : Option Name} {ps : List Name}
    {b : Exp} {k : List I} {X : List Name} {ρ : Env} {fs : List (List Ent)} {w : World} {S : SSt}
    {env bst : List Nat} {slots : Nat → Option TVal}
    (hcomp : cExp (lambdaHead c nm ps s).2.1 true b (lambdaHead c nm ps s).2.2 = some (k, s1))
    (hfin : Fin U (enclose c ((lambdaHead c nm ps s).1 ++ k ++ [.ret]) s1).2)
    (hsok : SOk U.Gf c sc s) (hf : fresh sc ps = true) (hg : good (vars ps ++ sc) b = true)
    (hs : Sco fr c sc X ρ fs) (hF : FR U fr fs w S env bst slots)
    (hX : ∀ x ∈ X, mentions x b = false) (hsc : ∀ x ∈ X, look x sc ≠ none)
    (hn : ∀ x, nm = some x → Frozen U.Gf w ρ x ⟨ps, b, ρ⟩ ∧ look x sc = some (some ps.length) ∧
      x ∉ X) : CloRel U w ⟨ps, b, ρ⟩ ⟨s1.fns.length, env⟩ := by
  refine ⟨c, nm, s, k, s1, sc, X, fs.flatten ++ fr.Eb, ?_, hcomp, ?_, hsok, hf, hg, hs.lex, hs.coh,
    hX, hsc, hs.kind, hF.fk, hF.lt, hF.env, hn⟩
  · obtain ⟨r, hr⟩ := hfin.1
    simp only [enclose, noteClosure] at hr
    rw [hr]
    simp
  · obtain ⟨⟨r, hr⟩, hi⟩ := hfin
    simp only [enclose, noteClosure] at hr
    exact ⟨⟨⟨(lambdaHead c nm ps s).1 ++ k ++ [.ret], c.lex⟩ :: r, by rw [hr]; simp⟩, hi⟩

/-! ### Calls -/

/-- A call does what `apply` does. -/
def SimApp (U : Setup) (n : Nat) : Prop :=
  ∀ {fr : Fr} {fs : List (List Ent)} {w : World} {S : SSt}
    {env bst : List Nat} {slots : Nat → Option TVal} {st : TSt} {stk : List TVal} {pc : Nat}
    {r : SRes SVal} {Q : Out → Prop} {v : SVal} {v' : TVal} {vs : List SVal} {vs' : List TVal}
    {k : List I},
    FR U fr fs w S env bst slots → WOk U w S st → VR U w v v' → LRel (VR U w) vs vs' →
    CodeAt fr.C pc (.call vs.length :: k) → apply U.P n v vs S = some r →
    (∀ v S1, r = .ok v S1 → EndK U fr w S fs (pc + 1) stk Q v S1) →
    EndE (U := U) Q r →
    GoesTo U.P U.table Q (U.mk' fr pc (vs'.reverse ++ v' :: stk) env bst slots st)

theorem step_reqArg {C : List I} {Eb : List Ent} {m pc : Nat} {ks : List Act} {v : TVal}
    {args : List TVal} {k : List I} {stk : List TVal}
    {env bst : List Nat} {slots : Nat → Option TVal} {st : TSt}
    (h : CodeAt C pc (.reqArg :: k)) :
    step U.P U.table (U.mk' ⟨C, Eb, m, ks, v :: args⟩ pc stk env bst slots st) =
      .next (U.mk' ⟨C, Eb, m, ks, args⟩ (pc + 1) (v :: stk) env bst slots st) := by
  have := fetch (U := U) (fr := ⟨C, Eb, m, ks, v :: args⟩) h
  simp [step, Setup.mk', this, alloc, Act.next]

theorem step_noArg {C : List I} {Eb : List Ent} {m pc : Nat} {ks : List Act}
    {k : List I} {stk : List TVal}
    {env bst : List Nat} {slots : Nat → Option TVal} {st : TSt}
    (h : CodeAt C pc (.reqArg :: k)) :
    step U.P U.table (U.mk' ⟨C, Eb, m, ks, []⟩ pc stk env bst slots st) = .err .missing st := by
  have := fetch (U := U) (fr := ⟨C, Eb, m, ks, []⟩) h
  simp [step, Setup.mk', this, alloc]

theorem step_ret {C : List I} {Eb : List Ent} {m pc : Nat} {a : Act} {ks : List Act}
    {args : List TVal} {k : List I} {v : TVal} {stk : List TVal}
    {env bst : List Nat} {slots : Nat → Option TVal} {st : TSt}
    (h : CodeAt C pc (.ret :: k)) :
    step U.P U.table (U.mk' ⟨C, Eb, m, a :: ks, args⟩ pc (v :: stk) env bst slots st) =
      .next ⟨{ a with stk := v :: a.stk }, ks, st⟩ := by
  have := fetch (U := U) (fr := ⟨C, Eb, m, a :: ks, args⟩) h
  simp [step, Setup.mk', this, alloc]

/-- The arguments are taken. -/
theorem req_many {C : List I} {Eb : List Ent} {m pc : Nat} {ks : List Act}
    {args : List TVal} {stk : List TVal} {env bst : List Nat} {slots : Nat → Option TVal} {st : TSt}
    {Q : Out → Prop} {ps : List Name} (hc : CodeAt C pc (ps.map fun _ => .reqArg))
    (hlt : args.length < ps.length → Q (.err .missing st))
    (hk : ps.length ≤ args.length → GoesTo U.P U.table Q
      (U.mk' ⟨C, Eb, m, ks, args.drop ps.length⟩ (pc + ps.length)
        ((args.take ps.length).reverse ++ stk) env bst slots st)) :
    GoesTo U.P U.table Q (U.mk' ⟨C, Eb, m, ks, args⟩ pc stk env bst slots st) := by
  induction ps generalizing args pc stk with
  | nil => simpa using hk
  | cons p ps ih =>
    cases args with
    | nil => exact GoesTo.err (step_noArg hc) (hlt (by simp))
    | cons v args =>
      refine GoesTo.step (step_reqArg hc) (ih hc.tail ?_ ?_)
      · intro h
        exact hlt (by simpa using h)
      · intro h
        have := hk (by simpa using h)
        simp only [List.length_cons, List.drop_succ_cons, List.take_succ_cons, List.reverse_cons,
          List.append_assoc, List.singleton_append] at this
        rw [show pc + 1 + ps.length = pc + (ps.length + 1) by omega]
        exact this

theorem LRel.take {α β : Type} {R : α → β → Prop} {a : List α} {b : List β} (h : LRel R a b)
    (n : Nat) : LRel R (a.take n) (b.take n) := by
  induction h generalizing n with
  | nil => simpa using LRel.nil
  | cons h _ ih =>
    cases n with
    | zero => exact .nil
    | succ n => exact .cons h (ih n)

theorem app_fn {n : Nat} (hE : SimE U n) {fr : Fr} {fs : List (List Ent)} {w : World} {S : SSt}
    {env bst : List Nat} {slots : Nat → Option TVal} {st : TSt} {stk : List TVal} {pc : Nat}
    {r : SRes SVal} {Q : Out → Prop} {clo : Clo} {tc : TClo} {vs : List SVal} {vs' : List TVal}
    {k : List I} (hF : FR U fr fs w S env bst slots) (hw : WOk U w S st) (hv : CloRel U w clo tc)
    (hvs : LRel (VR U w) vs vs') (hc : CodeAt fr.C pc (.call vs.length :: k))
    (ha : apply U.P (n + 1) (.fn clo) vs S = some r)
    (hok : ∀ v S1, r = .ok v S1 → EndK U fr w S fs (pc + 1) stk Q v S1)
    (herr : EndE (U := U) Q r) :
    GoesTo U.P U.table Q (U.mk' fr pc (vs'.reverse ++ .fn tc :: stk) env bst slots st) := by
  obtain ⟨c0, nm, s0, kb, s1, sc, X, E, hfn⟩ := hv
  have hlen := hvs.length
  -- the activation of the function
  let code := (lambdaHead c0 nm clo.ps s0).1 ++ kb ++ [.ret]
  let ka : Act := ⟨fr.C.map (alloc U.H fr.Eb.length), pc + 1, stk, env, bst, slots, fr.args⟩
  have hlenE : c0.lex.length = E.length := by rw [hfn.lex]; simp
  have htab : U.table[tc.fn]? = some (code.map (alloc U.H E.length)) := by
    simp only [Setup.table, List.getElem?_map, hfn.fn, Option.map_some, Setup.code]
    rw [hlenE]
  have hstep : step U.P U.table (U.mk' fr pc (vs'.reverse ++ .fn tc :: stk) env bst slots st) =
      .next (U.mk' ⟨code, E, w.n, ka :: fr.ks, vs'⟩ 0 [] tc.env [0] (fun _ => none) st) := by
    have hd : (vs'.reverse ++ .fn tc :: stk).drop vs.length = .fn tc :: stk := by
      rw [hlen]; simp
    have ht : (vs'.reverse ++ .fn tc :: stk).take vs.length = vs'.reverse := by
      rw [hlen]; simp
    simp [step, Setup.mk', fetch (U := U) hc, alloc, hd, ht, htab, Act.next, enter, ka]
  refine GoesTo.step hstep ?_
  have hmemT : (⟨code, c0.lex⟩ : Fn) ∈ U.T := List.mem_of_getElem? hfn.fn
  have hcodeAt : CodeAt code 0 code := ⟨[], [], by simp, rfl⟩
  have hcode : code = clo.ps.map (fun _ => I.reqArg) ++
      ((bindAll clo.ps.reverse c0.lex s0.cell).1 ++ (.label s0.lab :: kb ++ [.ret])) := by
    simp [code, lambdaHead]
  have hc0 : CodeAt code 0 (clo.ps.map (fun _ => I.reqArg) ++
      ((bindAll clo.ps.reverse c0.lex s0.cell).1 ++ (.label s0.lab :: kb ++ [.ret]))) := by
    rw [← hcode]; exact hcodeAt
  simp only [apply] at ha
  refine req_many hc0.left ?_ ?_
  · intro hlt
    have hb : bindPs clo.ps vs clo.env S = none := by
      simp only [bindPs, hlen]
      rw [if_pos hlt]
    rw [hb] at ha
    simp only [Option.some.injEq] at ha
    exact herr .missing S ha.symm w st hw
  · intro hle
    have hb : bindPs clo.ps vs clo.env S =
        some ((clo.ps.zip (List.range' S.σ.length clo.ps.length)).reverse ++ clo.env,
          { S with σ := S.σ ++ vs.take clo.ps.length }) := by
      simp only [bindPs, hlen]
      rw [if_neg (by omega)]
    rw [hb] at ha
    simp only at ha
    rw [← hw.n] at ha
    have hvs1 := hvs.take clo.ps.length
    have hl1 : (vs.take clo.ps.length).length = clo.ps.length := by
      rw [List.length_take, hlen]; omega
    generalize hvt : vs.take clo.ps.length = us at ha hvs1 hl1
    generalize vs'.take clo.ps.length = us' at hvs1
    generalize vs'.drop clo.ps.length = rest
    -- the new bindings
    obtain ⟨w1, a1, a2, a3, a4, a5, a6, a7⟩ := alloc_params hw us
    have hok' : FrOk U ⟨code, E, w.n, ka :: fr.ks, rest⟩ := by
      refine ⟨U.labels _ hmemT, ?_⟩
      intro x lex hi kk hkk
      refine U.capt _ hmemT x lex hi kk ?_
      rw [← hfn.lex] at hkk
      exact hkk
    have hF0 : FR U ⟨code, E, w.n, ka :: fr.ks, rest⟩ [[]] w1 { S with σ := S.σ ++ us } tc.env [0]
        (fun _ => none) := by
      refine ⟨?_, by simp [Setup.heap], trivial, ?_, by simp, by simp, ?_, a5.n⟩
      · simpa using jmap_mono a5 hfn.env
      · intro e he
        exact Nat.lt_of_lt_of_le (hfn.lt e (by simpa using he)) a5.n
      · intro e he
        have he' : e ∈ E := by simpa using he
        rw [a5.K _ (hfn.lt e he')]
        exact hfn.fk e he'
    have hmem : ∀ e ∈ (pents clo.ps s0.cell w.n).reverse, w.n ≤ e.loc ∧ e.loc < w.n + clo.ps.length :=
      fun e he => (pents_mem (List.mem_reverse.1 he)).2
    have hnd : ((pents clo.ps s0.cell w.n).reverse.map (·.loc)).Nodup := by
      rw [List.map_reverse, pents_loc]
      exact ((List.reverse_perm _).nodup_iff).2 List.nodup_range'
    have hc1 := hc0.right
    rw [List.length_map] at hc1
    refine bind_many (fr := ⟨code, E, w.n, ka :: fr.ks, rest⟩) hF0 a6 ?_ hnd
      (pents_vals hw.n (hvs1.mono fun _ _ h => VR.mono h a5) hl1).reverse hc1.left ?_ ?_
    · intro e he
      obtain ⟨q1, q2⟩ := hmem e he
      refine ⟨by rw [a1, hl1]; exact q2, q1, ?_, ?_, by simp⟩
      · rw [a2]
        cases hj : w.j e.loc with
        | none => rfl
        | some h =>
          obtain ⟨v, _, hv, _⟩ := hw.j _ _ hj
          have := (List.getElem?_eq_some_iff.1 hv).1
          rw [← hw.n] at this
          omega
      · rw [a4 _ q1, pents_fk _ _ _ e (List.mem_reverse.1 he)]
    · have := bindAll_params (U := U) (own := []) (Eb := E) clo.ps s0.cell w.n
      rw [List.nil_append, ← hfn.lex] at this
      simpa using this
    · intro w2 env2 bst2 slots2 st2 q1 q2 q3 q4 q5 q6 q7
      have hc2 := hc1.right
      have hx : Ext w.n w.n w S w2 { S with σ := S.σ ++ us } := by
        refine ⟨a5.trans q3, ?_, fun l _ => by rw [q5, a3], (a7 w.n (Nat.le_refl _)).σ⟩
        intro l hl
        rw [q7 l (fun e he => by have := (hmem e he).1; omega), a2]
      have hfr := fresh_spec hfn.fresh
      -- what happens when the function returns
      have hret : ∀ v S1, r = .ok v S1 → ∀ f',
          EndK U ⟨code, E, w.n, ka :: fr.ks, rest⟩ w2 { S with σ := S.σ ++ us } [f']
            (0 + clo.ps.length + (bindAll clo.ps.reverse c0.lex s0.cell).1.length + 1 + kb.length)
            [] Q v S1 := by
        intro v S1 hr f' w' env' bst' slots' st' v' p1 p2 p3 p4
        have hcr : CodeAt code (0 + clo.ps.length +
            (bindAll clo.ps.reverse c0.lex s0.cell).1.length + 1 + kb.length) [.ret] := by
          have := hc2.tail.right
          exact this
        have hx' : Ext w.n w.n w S w' S1 := hx.trans p4 hx.le.n (Nat.le_refl _)
        refine GoesTo.step (m' := U.mk' fr (pc + 1) (v' :: stk) env bst slots st') ?_ ?_
        · exact step_ret hcr
        · exact hok v S1 hr w' env bst slots st' v' (hF.after hx') p2 p3
            (hx'.less hF.m (Nat.le_refl _))
      have hc2' : CodeAt code (0 + clo.ps.length +
          (bindAll clo.ps.reverse c0.lex s0.cell).1.length) (.label s0.lab :: kb) := by
        have : CodeAt code (0 + clo.ps.length +
          (bindAll clo.ps.reverse c0.lex s0.cell).1.length) ((.label s0.lab :: kb) ++ [.ret]) := hc2
        exact this.left
      have hfvs := fresh_vars hfn.fresh
      have hplex : (lambdaHead c0 nm clo.ps s0).2.1.lex =
          (pents clo.ps s0.cell 0 ++ [].flatten ++ E).map Ent.lex := by
        have := bindAll_plex clo.ps c0.lex s0.cell 0
        rw [show (lambdaHead c0 nm clo.ps s0).2.1.lex = (bindAll clo.ps.reverse c0.lex s0.cell).2.1
          from rfl, this, hfn.lex]
        simp only [List.flatten_nil, List.append_nil, List.map_append]
      have hkind : ∀ e ∈ E, look e.name (vars clo.ps ++ sc) = some none → e.fk = false := by
        intro e he hk
        have hne : look e.name sc ≠ none :=
          hfn.sok.names (e.name, e.cell) (by rw [hfn.lex]; exact List.mem_map_of_mem he)
        rw [hfvs.2 _ hne] at hk
        exact hfn.kind e he hk
      have hpX : ∀ p ∈ clo.ps, p ∉ X := fun p hp hx => hfn.inSc p hx (hfr.2 p hp)
      cases hnm : nm with
      | none =>
        subst hnm
        refine GoesTo.step (step_label (fr := ⟨code, E, w.n, ka :: fr.ks, rest⟩) hc2') ?_
        refine hE (fr := ⟨code, E, w.n, ka :: fr.ks, rest⟩) (av := [])
          (fs := [pents clo.ps s0.cell w.n]) hfn.comp hfn.fin
          (lambda_stat hfn.sok hfn.fresh (fun x hx => absurd hx (by simp)) hfn.ment hfn.inSc
            (.inl ⟨rfl, rfl⟩)) hfn.good hc2'.tail ⟨hok', ⟨?_, ?_, ?_, rfl⟩, by simpa using q1, q2⟩
          trivial ha ?_ herr
        · rw [hplex]
          simp [pents_lex]
        · have := coh_params (n := s0.cell) (l := w.n) hfn.coh hfr.1
          simpa using this
        · intro e he hk
          simp only [List.flatten_cons, List.flatten_nil, List.append_nil, List.mem_append] at he
          rcases he with he | he
          · exact pents_fk _ _ _ e he
          · exact hkind e he hk
        · intro v S1 hr
          exact hret v S1 hr _
      | some x =>
        subst hnm
        obtain ⟨hz, hnx, hxX⟩ := hfn.name x rfl
        let t : Tgt := {
          r := ⟨some x, clo.ps, nextDepth c0.recs, 0, 0, s0.lab, false⟩
          x := x
          clo := clo
          cb := (lambdaHead c0 (some x) clo.ps s0).2.1
          rf := true
          sc := vars clo.ps ++ sc
          X := X
          s0 := (lambdaHead c0 (some x) clo.ps s0).2.2
          s1 := s1
          kb := kb
          pos := 0 + clo.ps.length + (bindAll clo.ps.reverse c0.lex s0.cell).1.length
          cell := s0.cell
          fsb := [] }
        have hT : TInv U ⟨code, E, w.n, ka :: fr.ks, rest⟩ r [] Q w2 { S with σ := S.σ ++ us } t [] := by
          refine ⟨hfn.comp, hfn.fin, hfn.good, hc2', ?_, rfl, hfr.1, fun p hp => vars_look hp, hpX,
            hplex, hfn.coh, ?_, ?_, rfl, ?_, ?_⟩
          · refine lambda_stat hfn.sok hfn.fresh ?_ hfn.ment hfn.inSc (.inr ⟨t, rfl, rfl, rfl⟩)
            intro y hy
            simp only [Option.some.injEq] at hy
            rw [← hy]; exact hnx
          · intro e he
            exact hkind e (by simpa [t] using he)
          · intro fp
            simp [Tgt.frames, t, lambdaHead]
          · exact hz.mono (a5.trans q3)
          · intro v S1 hr fp _
            exact hret v S1 hr fp
        refine body_run hE hok' hT trivial (l := w.n) ?_ q2 ha herr rfl
        have : t.frames (t.params w.n) = [pents clo.ps s0.cell w.n] := by
          simp [Tgt.frames, Tgt.params, t]
        rw [this]
        simpa using q1

theorem simApp {n : Nat} (hE : ∀ m, m < n → SimE U m) : SimApp U n := by
  intro fr fs w S env bst slots st stk pc r Q v v' vs vs' k hF hw hv hvs hc ha hok herr
  cases n with
  | zero => simp [apply] at ha
  | succ n =>
    have hlen := hvs.length
    have hd : ∀ u : TVal, (vs'.reverse ++ u :: stk).drop vs.length = u :: stk := by
      intro u; rw [hlen]; simp
    have ht : ∀ u : TVal, (vs'.reverse ++ u :: stk).take vs.length = vs'.reverse := by
      intro u; rw [hlen]; simp
    cases hv with
    | fn h => exact app_fn (hE n (Nat.lt_succ_self _)) hF hw h hvs hc ha hok herr
    | atom a =>
      simp only [apply, Option.some.injEq] at ha
      refine GoesTo.err (e := .invalid) (st := st) ?_ (herr _ _ ha.symm w st hw)
      simp [step, Setup.mk', fetch (U := U) hc, alloc, hd]
    | pair h1 h2 =>
      simp only [apply, Option.some.injEq] at ha
      refine GoesTo.err (e := .invalid) (st := st) ?_ (herr _ _ ha.symm w st hw)
      simp [step, Setup.mk', fetch (U := U) hc, alloc, hd]
    | prim p =>
      have hrel := U.P.rel (CloRel U w) p vs vs' hvs
      simp only [apply] at ha
      cases h1 : U.P.run p vs with
      | none =>
        cases h2 : U.P.run p vs' with
        | none =>
          rw [h1] at ha
          simp only [Option.some.injEq] at ha
          refine GoesTo.err (e := .prim) (st := st) ?_ (herr _ _ ha.symm w st hw)
          simp [step, Setup.mk', fetch (U := U) hc, alloc, hd, ht, h2]
        | some u' => simp [h1, h2] at hrel
      | some u =>
        cases h2 : U.P.run p vs' with
        | none => simp [h1, h2] at hrel
        | some u' =>
          simp only [h1, h2] at hrel
          rw [h1] at ha
          simp only [Option.some.injEq] at ha
          refine GoesTo.step (m' := U.mk' fr (pc + 1) (u' :: stk) env bst slots st) ?_
            (hok u S ha.symm w env bst slots st u' hF hw hrel (.refl _ _ _ _))
          simp [step, Setup.mk', fetch (U := U) hc, alloc, hd, ht, h2, Act.next]

end Rep.Compile
