/-
Internal definitions: the simulation of `P.plain` by `P.out`.
-/
import Verif.Define.Sim

namespace Rep.Define
open Rep.Forms

variable {P W : Type} {prim : P → List (Option Sexp) → W → Ans × W}
  {self : SJob P → SEnv → SSt P W → Option (Res (SVal P) × SSt P W)}

theorem Sm.some {r : Res (SVal P) × SSt P W} {x F} (h : Option.some x = Option.some r)
    (h2 : Sm x F) : Sm r F := by
  cases h; exact h2

/-- One level more on the other side. -/
theorem Sm.prognOne {e : Src} {env : SEnv} {st : SSt P W} {r}
    (h : Sm r (fun m => sev prim m (.expr e) env st)) :
    Sm r (fun m => sev prim m (.progn [e]) env st) := Sm.of (by simpa only [sstep] using h)

theorem Sm.prognE {es : List Src} {env : SEnv} {st : SSt P W} {r}
    (h : Sm r (fun m => sev prim m (.progn es) env st)) :
    Sm r (fun m => sev prim m (.expr (.progn es)) env st) := Sm.of (by simpa only [sstep] using h)

theorem Sm.condE {cs : List Clause} {env : SEnv} {st : SSt P W} {r}
    (h : Sm r (fun m => sev prim m (.cond cs) env st)) :
    Sm r (fun m => sev prim m (.expr (.cond cs)) env st) := Sm.of (by simpa only [sstep] using h)

theorem Sm.condNil {env : SEnv} {s st : SSt P W} (hs : SR s st) :
    Sm (.ok [.data .nil], s) (fun m => sev prim m (.cond []) env st) :=
  Sm.of (by simpa only [sstep] using Sm.ret (.cons (.data _) .nil) hs)

theorem sim_list (G : Good prim self) {es es' env} {s s' : SSt P W} {r} (hr : RL es es')
    (he : EFree env) (hs : SR s s') (h : sstep prim self (.list es) env s = some r) :
    Sm r (fun m => sev prim m (.list es') env s') := by
  refine Sm.of ?_
  cases hr with
  | nil => exact Sm.some h (Sm.ret .nil hs)
  | cons h1 h2 =>
    simp only [sstep] at h ⊢
    refine Sm.seq h (fun r h => G _ _ _ _ _ _ (.expr h1) he hs h) (fun v s v' s' hv hs h => ?_)
    refine Sm.seq h (fun r h => G _ _ _ _ _ _ (.list h2) he hs h) (fun w s w' s' hw hs h => ?_)
    exact Sm.some h (Sm.ret (.cons (VsR.shd hv) hw) hs)

theorem RB.of_list {es es' : List Src} (h : RL es es') : RB es es' := .same h

/-- A list of forms, in the same way on both sides. -/
theorem sim_same (G : Good prim self) {es es' env} {s s' : SSt P W} {r} (hr : RL es es')
    (he : EFree env) (hs : SR s s') (h : sstep prim self (.progn es) env s = some r) :
    Sm r (fun m => sev prim m (.progn es') env s') := by
  refine Sm.of ?_
  cases hr with
  | nil => exact Sm.some h (Sm.ret (.cons (.data _) .nil) hs)
  | cons h1 h2 =>
    cases h2 with
    | nil =>
      simp only [sstep] at h ⊢
      exact G _ _ _ _ _ _ (.expr h1) he hs h
    | cons h2 h3 =>
      simp only [sstep] at h ⊢
      refine Sm.seq h (fun r h => G _ _ _ _ _ _ (.expr h1) he hs h) (fun v s v' s' hv hs h => ?_)
      exact G _ _ _ _ _ _ (.progn (.same (.cons h2 h3))) he hs h

theorem sim_progn (G : Good prim self) {es es' env} {s s' : SSt P W} {r} (hr : RB es es')
    (he : EFree env) (hs : SR s s') (h : sstep prim self (.progn es) env s = some r) :
    Sm r (fun m => sev prim m (.progn es') env s') := by
  cases hr with
  | same hr => exact sim_same G hr he hs h
  | wrap hr => exact Sm.prognOne (Sm.prognE (sim_same G hr he hs h))
  | nil =>
    refine Sm.prognOne (Sm.of ?_)
    exact Sm.some h (Sm.ret (.cons (.data _) .nil) hs)
  | @doc n es es' hne hne' hr =>
    obtain ⟨a, l, rfl⟩ := List.exists_cons_of_ne_nil hne
    obtain ⟨a', l', rfl⟩ := List.exists_cons_of_ne_nil hne'
    refine Sm.of ?_
    simp only [sstep] at h ⊢
    refine Sm.seq h (fun r h => G _ _ _ _ _ _ (.expr (.int n)) he hs h)
      (fun v s v' s' hv hs h => ?_)
    exact G _ _ _ _ _ _ (.progn hr) he hs h

theorem sim_cond (G : Good prim self) {cs cs' env} {s s' : SSt P W} {r} (hr : RC cs cs')
    (he : EFree env) (hs : SR s s') (h : sstep prim self (.cond cs) env s = some r) :
    Sm r (fun m => sev prim m (.cond cs') env s') := by
  refine Sm.of ?_
  cases hr with
  | nil => exact Sm.some h (Sm.ret (.cons (.data _) .nil) hs)
  | cons h1 h2 h3 =>
    simp only [sstep] at h ⊢
    refine Sm.seq h (fun r h => G _ _ _ _ _ _ (.expr h1) he hs h) (fun v s v' s' hv hs h => ?_)
    simp only [(VsR.shd hv).isNil, ← h2.isEmpty] at h ⊢
    split at h
    · rename_i hn
      simp only [hn, if_true]
      exact G _ _ _ _ _ _ (.cond h3) he hs h
    · rename_i hn
      simp only [hn]
      split at h
      · rename_i hm
        simp only [hm, if_true]
        exact Sm.some h (Sm.ret (.cons (VsR.shd hv) .nil) hs)
      · rename_i hm
        simp only [hm]
        exact G _ _ _ _ _ _ (.progn (.same h2)) he hs h

theorem sim_inits (G : Good prim self) {bs bs' env} {s s' : SSt P W} {r} (hr : RBs bs bs')
    (he : EFree env) (hs : SR s s') (h : sstep prim self (.inits bs) env s = some r) :
    Sm r (fun m => sev prim m (.inits bs') env s') := by
  refine Sm.of ?_
  have main : ∀ {b b' : Binding} {bs bs' : List Binding}, RL b.es b'.es → RBs bs bs' →
      sstep prim self (.inits (b :: bs)) env s = some r →
      Sm r (fun m => sstep prim (sev prim m) (.inits (b' :: bs')) env s') := by
    intro b b' bs bs' h1 h2 h
    simp only [sstep] at h ⊢
    refine Sm.seq h (fun r h => G _ _ _ _ _ _ (.progn (.same h1)) he hs h)
      (fun v s v' s' hv hs h => ?_)
    refine Sm.seq h (fun r h => G _ _ _ _ _ _ (.inits h2) he hs h) (fun w s w' s' hw hs h => ?_)
    exact Sm.some h (Sm.ret (.cons (VsR.shd hv) hw) hs)
  cases hr with
  | nil => exact Sm.some h (Sm.ret .nil hs)
  | @plain x _ _ hx h2 => exact main (b := .plain x) (b' := .plain x) .nil h2 h
  | @forms x es es' _ _ hx h1 h2 =>
    exact main (b := .forms x es) (b' := .forms x es') h1 h2 h

theorem sim_initsL (G : Good prim self) {bs bs' env} {s s' : SSt P W} {r} (hr : RBs bs bs')
    (he : EFree env) (hs : SR s s') (h : sstep prim self (.inits bs) env s = some r) :
    Sm r (fun m => sev prim m (.list (bs'.map bindingForm)) env s') := by
  refine Sm.of ?_
  cases hr with
  | nil => exact Sm.some h (Sm.ret .nil hs)
  | plain hx h2 =>
    simp only [sstep, List.map_cons, bindingForm, Binding.es] at h ⊢
    refine Sm.seq h (fun r h => ?_) (fun v s v' s' hv hs h => ?_)
    · obtain ⟨r', ⟨n, hn⟩, hrr⟩ := G _ _ _ _ _ _ (.progn (.same .nil)) he hs h
      refine ⟨r', EvF.of ?_, hrr⟩
      have h3 := hn (n + 1) (by omega)
      simp only [sev, sstep] at h3
      exact ⟨0, fun m _ => by simpa only [sstep] using h3⟩
    · refine Sm.seq h (fun r h => G _ _ _ _ _ _ (.initsL h2) he hs h)
        (fun w s w' s' hw hs h => ?_)
      exact Sm.some h (Sm.ret (.cons (VsR.shd hv) hw) hs)
  | forms hx h1 h2 =>
    simp only [sstep, List.map_cons, bindingForm, Binding.es] at h ⊢
    refine Sm.seq h (fun r h => Sm.prognE (G _ _ _ _ _ _ (.progn (.same h1)) he hs h))
      (fun v s v' s' hv hs h => ?_)
    refine Sm.seq h (fun r h => G _ _ _ _ _ _ (.initsL h2) he hs h)
      (fun w s w' s' hw hs h => ?_)
    exact Sm.some h (Sm.ret (.cons (VsR.shd hv) hw) hs)

theorem sim_letStar (G : Good prim self) {bs bs' body body' env} {s s' : SSt P W} {r}
    (hr : RBs bs bs') (hb : RB body body')
    (he : EFree env) (hs : SR s s') (h : sstep prim self (.letStar bs body) env s = some r) :
    Sm r (fun m => sev prim m (.letStar bs' body') env s') := by
  refine Sm.of ?_
  have main : ∀ {b b' : Binding} {bs bs' : List Binding}, RL b.es b'.es → b'.var = b.var →
      free b.var = true → RBs bs bs' →
      sstep prim self (.letStar (b :: bs) body) env s = some r →
      Sm r (fun m => sstep prim (sev prim m) (.letStar (b' :: bs') body') env s') := by
    intro b b' bs bs' h1 hv hx h2 h
    simp only [sstep] at h ⊢
    refine Sm.seq h (fun r h => G _ _ _ _ _ _ (.progn (.same h1)) he hs h)
      (fun v s v' s' hv2 hs h => ?_)
    rw [hv, ← hs.store.length_eq]
    exact G _ _ _ _ _ _ (.letStar h2 hb) (he.push hx _)
      (hs.setStore (List.rel_append hs.store (.cons (VsR.shd hv2) .nil))) h
  cases hr with
  | nil => simp only [sstep] at h ⊢; exact G _ _ _ _ _ _ (.progn hb) he hs h
  | @plain x _ _ hx h2 => exact main (b := .plain x) (b' := .plain x) .nil rfl hx h2 h
  | @forms x es es' _ _ hx h1 h2 =>
    exact main (b := .forms x es) (b' := .forms x es') h1 rfl hx h2 h

theorem sim_assign (G : Good prim self) {bs bs' body body' env} {s s' : SSt P W} {r}
    (hr : RBs bs bs') (hb : RB body body')
    (he : EFree env) (hs : SR s s') (h : sstep prim self (.assign bs body) env s = some r) :
    Sm r (fun m => sev prim m (.assign bs' body') env s') := by
  refine Sm.of ?_
  have main : ∀ {b b' : Binding} {bs bs' : List Binding}, RL b.es b'.es → b'.var = b.var →
      RBs bs bs' →
      sstep prim self (.assign (b :: bs) body) env s = some r →
      Sm r (fun m => sstep prim (sev prim m) (.assign (b' :: bs') body') env s') := by
    intro b b' bs bs' h1 hv h2 h
    simp only [sstep] at h ⊢
    refine Sm.seq h (fun r h => G _ _ _ _ _ _ (.progn (.same h1)) he hs h)
      (fun v s v' s' hv2 hs h => ?_)
    rw [hv]
    cases hl : env.lookup b.var with
    | none =>
      simp only [hl] at h ⊢
      exact Sm.some h (Sm.fail hs)
    | some l =>
      simp only [hl] at h ⊢
      exact G _ _ _ _ _ _ (.assign h2 hb) he (hs.set (VsR.shd hv2) l) h
  cases hr with
  | nil => simp only [sstep] at h ⊢; exact G _ _ _ _ _ _ (.progn hb) he hs h
  | @plain x _ _ hx h2 => exact main (b := .plain x) (b' := .plain x) .nil rfl h2 h
  | @forms x es es' _ _ hx h1 h2 =>
    exact main (b := .forms x es) (b' := .forms x es') h1 rfl h2 h

theorem sim_or (G : Good prim self) {es es' env} {s s' : SSt P W} {r} (hr : RL es es')
    (he : EFree env) (hs : SR s s') (h : sstep prim self (.or es) env s = some r) :
    Sm r (fun m => sev prim m (.cond (es'.map (.mk · []))) env s') := by
  refine Sm.of ?_
  cases hr with
  | nil => exact Sm.some h (Sm.ret (.cons (.data _) .nil) hs)
  | cons h1 h2 =>
    simp only [sstep, List.map_cons] at h ⊢
    refine Sm.seq h (fun r h => G _ _ _ _ _ _ (.expr h1) he hs h) (fun v s v' s' hv hs h => ?_)
    simp only [(VsR.shd hv).isNil] at h ⊢
    split at h
    · rename_i hn
      simp only [hn, if_true]
      exact G _ _ _ _ _ _ (.or h2) he hs h
    · rename_i hn
      simp only [hn, List.isEmpty_nil, if_true]
      exact Sm.some h (Sm.ret (.cons (VsR.shd hv) .nil) hs)

theorem sim_and (G : Good prim self) {e e' es es' env} {s s' : SSt P W} {r} (h1 : R e e')
    (hr : RL es es') (he : EFree env) (hs : SR s s')
    (h : sstep prim self (.and (e :: es)) env s = some r) :
    Sm r (fun m => sev prim m (.expr (andOut (e' :: es'))) env s') := by
  cases hr with
  | nil =>
    simp only [andOut]
    refine Sm.condE (Sm.of ?_)
    simp only [sstep] at h ⊢
    refine Sm.seq h (fun r h => G _ _ _ _ _ _ (.expr h1) he hs h) (fun v s v' s' hv hs h => ?_)
    simp only [(VsR.shd hv).isNil, List.isEmpty_nil, if_true]
    split
    · rename_i hn
      have : shd v = .data .nil := by
        unfold SVal.isNil at hn
        split at hn
        · assumption
        · cases hn
      rw [this] at h
      exact Sm.some h (Sm.condNil hs)
    · exact Sm.some h (Sm.ret (.cons (VsR.shd hv) .nil) hs)
  | cons h2 h3 =>
    simp only [andOut]
    refine Sm.condE (Sm.of ?_)
    simp only [sstep] at h ⊢
    refine Sm.seq h (fun r h => G _ _ _ _ _ _ (.expr h1) he hs h) (fun v s v' s' hv hs h => ?_)
    simp only [(VsR.shd hv).isNil, List.isEmpty_cons] at h ⊢
    split at h
    · rename_i hn
      simp only [hn, if_true]
      exact Sm.some h (Sm.condNil hs)
    · rename_i hn
      simp only [hn]
      exact Sm.prognOne (G _ _ _ _ _ _ (.and h2 h3) he hs h)

theorem toRes_sim {vs vs' : List (SVal P)} (h : VsR vs vs') (a : Ans) {s s' : SSt P W}
    (hs : SR s s') :
    Sm (a.toRes .data vs, s) (fun _ => some (a.toRes .data vs', s')) := by
  cases a with
  | datum d => exact Sm.ret (.cons (.data _) .nil) hs
  | err d => exact Sm.fail hs
  | arg i =>
    have hg : ∀ (a b : List (SVal P)) (l : Nat), VsR a b →
        (a[l]? = none ∧ b[l]? = none) ∨ ∃ v v', a[l]? = some v ∧ b[l]? = some v' ∧ VR v v' := by
      intro a b l h
      induction h generalizing l with
      | nil => exact Or.inl (by simp)
      | cons h _ ih =>
        cases l with
        | zero => exact Or.inr ⟨_, _, rfl, rfl, h⟩
        | succ l => simpa using ih l
    rcases hg _ _ i h with ⟨h1, h2⟩ | ⟨v, v', h1, h2, hv⟩
    · simp only [Ans.toRes, h1, h2]; exact Sm.ret (.cons (.data _) .nil) hs
    · simp only [Ans.toRes, h1, h2]; exact Sm.ret (.cons hv .nil) hs

theorem sim_apply (G : Good prim self) {f f' vs vs' env} {s s' : SSt P W} {r} (hf : VR f f')
    (hv : VsR vs vs') (hs : SR s s')
    (h : sstep prim self (.apply f vs) env s = some r) :
    Sm r (fun m => sev prim m (.apply f' vs') env s') := by
  refine Sm.of ?_
  cases hf with
  | data d => exact Sm.some h (Sm.fail hs)
  | fn f =>
    simp only [sstep] at h ⊢
    rw [hv.view, hs.world]
    exact Sm.some h (toRes_sim hv _ ⟨hs.store, rfl⟩)
  | @clos ps body body' env' hps hb he' =>
    simp only [sstep] at h ⊢
    rcases alloc_sim ps hps he' hv hs.store with ⟨e, h1, h2⟩ | ⟨env2, s2, s2', h1, h2, he2, hs2⟩
    · simp only [h1, h2] at h ⊢
      exact Sm.some h (Sm.fail hs)
    · simp only [h1, h2] at h ⊢
      exact G _ _ _ _ _ _ (.progn hb) he2 (hs.setStore hs2) h

theorem pick_sim {v v' : SVal P} (hv : VR v v') : ∀ {cs cs' : List CaseClause}, RK cs cs' →
    (pick v cs = none ∧ pick v' cs' = none) ∨
    ∃ es es', pick v cs = Option.some es ∧ pick v' cs' = Option.some es' ∧ RL es es'
  | _, _, .nil => Or.inl ⟨rfl, rfl⟩
  | _, _, .otherwise h _ => Or.inr ⟨_, _, rfl, rfl, h⟩
  | _, _, .items (is := is) h h2 => by
    have hm : matchesKey is v' = matchesKey is v := by cases hv <;> rfl
    simp only [pick, hm]
    split
    · exact Or.inr ⟨_, _, rfl, rfl, h⟩
    · exact pick_sim hv h2

theorem const_lookup {x : String} {v : SVal P} (hx : x ∈ reserved)
    (hc : (constants P).lookup x = Option.some v) {env : SEnv} (he : EFree env) {st : SSt P W} :
    EvF (fun m => sev prim m (.expr (.var x)) env st) (.ok [v], st) := by
  refine EvF.of ⟨0, fun m _ => ?_⟩
  simp only [sstep, slookup, he x hx, hc]

/-- A condition of the other side that is known. -/
theorem Sm.condT {c : Src} {es : List Src} {rest : List Clause} {env : SEnv}
    {s0 s1 : SSt P W} {v : List (SVal P)} {r}
    (hc : EvF (fun m => sev prim m (.expr c) env s0) (.ok v, s1))
    (hn : (shd v).isNil = false) (hne : es ≠ [])
    (h : Sm r (fun m => sev prim m (.progn es) env s1)) :
    Sm r (fun m => sev prim m (.cond (.mk c es :: rest)) env s0) := by
  obtain ⟨r', h1, h2⟩ := h
  refine ⟨r', EvF.of ?_, h2⟩
  simp only [sstep]
  refine EvF.ok hc ?_
  have : es.isEmpty = false := by simpa using hne
  simpa only [hn, this, Bool.false_eq_true, if_false] using h1

theorem Sm.condF {c : Src} {es : List Src} {rest : List Clause} {env : SEnv}
    {s0 s1 : SSt P W} {v : List (SVal P)} {r}
    (hc : EvF (fun m => sev prim m (.expr c) env s0) (.ok v, s1))
    (hn : (shd v).isNil = true)
    (h : Sm r (fun m => sev prim m (.cond rest) env s1)) :
    Sm r (fun m => sev prim m (.cond (.mk c es :: rest)) env s0) := by
  obtain ⟨r', h1, h2⟩ := h
  refine ⟨r', EvF.of ?_, h2⟩
  simp only [sstep]
  refine EvF.ok hc ?_
  simpa only [hn, if_true] using h1

/-- `(not C)` -/
theorem not_ev {c : Src} {env : SEnv} (he : EFree env) {s0 s1 : SSt P W} {v : List (SVal P)}
    (hc : EvF (fun m => sev prim m (.expr c) env s0) (.ok v, s1)) :
    EvF (fun m => sev prim m (.expr (.call (.var "not") [c])) env s0)
      (.ok [.data (if (shd v).isNil then nm "t" else .nil)], s1) := by
  refine EvF.of ?_
  simp only [sstep]
  refine EvF.ok (const_lookup (v := .fn .not) (by decide) rfl he) ?_
  have hl : EvF (fun m => sev prim m (.list [c]) env s0) (.ok [shd v], s1) := by
    refine EvF.of ?_
    simp only [sstep]
    refine EvF.ok hc ?_
    have h0 : EvF (fun m => sev prim m (.list []) env s1) (Res.ok [], s1) :=
      EvF.of ⟨0, fun m _ => by simp only [sstep]⟩
    refine EvF.ok h0 ?_
    exact EvF.const _
  refine EvF.ok hl ?_
  refine EvF.of ?_
  have hsh : shd [SVal.fn (P := P) .not] = .fn .not := rfl
  rw [hsh]
  generalize shd v = x
  refine ⟨0, fun m _ => ?_⟩
  cases x with
  | data d => cases d <;> rfl
  | _ => rfl

theorem not_err {c : Src} {env : SEnv} (he : EFree env) {s0 s1 : SSt P W} {e : Err}
    (hc : EvF (fun m => sev prim m (.expr c) env s0) (.err e, s1)) :
    EvF (fun m => sev prim m (.expr (.call (.var "not") [c])) env s0) (.err e, s1) := by
  refine EvF.of ?_
  simp only [sstep]
  refine EvF.ok (const_lookup (v := .fn .not) (by decide) rfl he) ?_
  refine EvF.err (e := fun e s => (.err e, s)) ?_
  refine EvF.of ?_
  simp only [sstep]
  exact EvF.err (e := fun e s => (.err e, s)) hc

theorem sim_named (G : Good prim self) {f : String} {bs bs' body body' env} {s s' : SSt P W} {r}
    (hf : free f = true) (hr : RBs bs bs') (hb : RB body body') (he : EFree env) (hs : SR s s')
    (h : sstep prim self (.expr (.named f bs body)) env s = some r) :
    Sm r (fun m => sev prim m (.expr (.letrec [.forms f [.lambda (bs'.map Binding.var) body']]
        [.call (.var f) (bs'.map bindingForm)])) env s') := by
  simp only [sstep] at h
  have hlen := hs.store.length_eq
  let env' := (f, s.store.length) :: env
  have he' : EFree env' := he.push hf _
  let fv := SVal.clos (P := P) (bs.map Binding.var) body env'
  let fv' := SVal.clos (P := P) (bs'.map Binding.var) body' env'
  have hfv : VR fv fv' := by
    have : VR fv (SVal.clos (bs.map Binding.var) body' env') := .clos hr.free hb he'
    simpa only [fv', hr.vars] using this
  have hs2 : SR { s with store := s.store ++ [fv] } { s' with store := s'.store ++ [fv'] } :=
    hs.setStore (List.rel_append hs.store (.cons hfv .nil))
  have hlk : env'.lookup f = Option.some s.store.length := by simp [env', List.lookup]
  -- the function is defined
  suffices hcall : Sm r (fun m => sev prim m (.expr (.call (.var f) (bs'.map bindingForm))) env'
      { s' with store := s'.store ++ [fv'] }) by
    refine Sm.of ?_
    simp only [sstep, List.map_cons, List.map_nil, Binding.var, alloc, ← hlen]
    refine Sm.of ?_
    simp only [sstep, Binding.es, Binding.var]
    obtain ⟨r', h1, h2⟩ := hcall
    refine ⟨r', ?_, h2⟩
    refine EvF.ok (vs := [fv']) (s := { s' with store := s'.store ++ [SVal.data .nil] })
      (EvF.of ?_) ?_
    · simp only [sstep]
      exact EvF.of (EvF.const _)
    · show EvF (fun m => match env'.lookup f with
        | Option.some l => sev prim m (.assign [] [.call (.var f) (bs'.map bindingForm)]) env'
            { store := (s'.store ++ [SVal.data .nil]).set l (shd [fv']), world := s'.world }
        | none => Option.some (.err (.void (.name f)), _)) r'
      simp only [hlk]
      refine EvF.of ?_
      simp only [sstep]
      refine EvF.of ?_
      simp only [sstep]
      have : (s'.store ++ [SVal.data (P := P) .nil]).set s.store.length (shd [fv']) = s'.store ++ [fv'] := by
        rw [hlen]; simp [shd]
      rw [this]
      exact h1
  refine Sm.of ?_
  simp only [sstep]
  have hv : EvF (fun m => sev prim m (.expr (.var f)) env' { s' with store := s'.store ++ [fv'] })
      (.ok [fv'], { s' with store := s'.store ++ [fv'] }) := by
    refine EvF.of ⟨0, fun m _ => ?_⟩
    simp only [sstep, slookup, hlk, hlen]
    simp
  have h3 := Sm.seq h (fun r h => G _ _ _ _ _ _ (.initsL hr) he' hs2 h)
    (K := fun m vs s => sev prim m (.apply fv' vs) env' s)
    (fun v s v' s' hv hs h => G _ _ _ _ _ _ (.apply hfv hv) he' hs h)
  obtain ⟨r', h4, h5⟩ := h3
  exact ⟨r', EvF.ok hv h4, h5⟩

theorem sim_expr (G : Good prim self) {e e' env} {s s' : SSt P W} {r} (hr : R e e')
    (he : EFree env) (hs : SR s s') (h : sstep prim self (.expr e) env s = some r) :
    Sm r (fun m => sev prim m (.expr e') env s') := by
  cases hr with
  | int n => exact Sm.of (Sm.some h (Sm.ret (.cons (.data _) .nil) hs))
  | empty => exact Sm.of (Sm.some h (Sm.ret (.cons (.data _) .nil) hs))
  | quote d => exact Sm.of (Sm.some h (Sm.ret (.cons (.data _) .nil) hs))
  | var x => exact Sm.of (Sm.some h (slookup_sim hs))
  | lambda hp hb => exact Sm.of (Sm.some h (Sm.ret (.cons (.clos hp hb he) .nil) hs))
  | call hf ha =>
    refine Sm.of ?_
    simp only [sstep] at h ⊢
    refine Sm.seq h (fun r h => G _ _ _ _ _ _ (.expr hf) he hs h) (fun v s v' s' hv hs h => ?_)
    refine Sm.seq h (fun r h => G _ _ _ _ _ _ (.list ha) he hs h) (fun w s w' s' hw hs h => ?_)
    exact G _ _ _ _ _ _ (.apply (VsR.shd hv) hw) he hs h
  | @setq x e e' h1 =>
    refine Sm.of ?_
    simp only [sstep] at h ⊢
    refine Sm.seq h (fun r h => G _ _ _ _ _ _ (.expr h1) he hs h) (fun v s v' s' hv hs h => ?_)
    cases hl : env.lookup x with
    | none => simp only [hl] at h ⊢; exact Sm.some h (Sm.fail hs)
    | some l =>
      simp only [hl] at h ⊢
      exact Sm.some h (Sm.ret (.cons (VsR.shd hv) .nil) (hs.set (VsR.shd hv) l))
  | progn h1 =>
    simp only [sstep] at h
    exact Sm.prognE (G _ _ _ _ _ _ (.progn (.same h1)) he hs h)
  | cond h1 =>
    simp only [sstep] at h
    exact Sm.condE (G _ _ _ _ _ _ (.cond h1) he hs h)
  | @«let» bs bs' body body' h1 h2 =>
    refine Sm.of ?_
    simp only [sstep] at h ⊢
    refine Sm.seq h (fun r h => G _ _ _ _ _ _ (.inits h1) he hs h) (fun v s v' s' hv hs h => ?_)
    rw [h1.vars]
    rcases alloc_sim _ h1.free he hv hs.store with ⟨e, h3, h4⟩ | ⟨env2, s2, s2', h3, h4, he2, hs2⟩
    · simp only [h3, h4] at h ⊢
      exact Sm.some h (Sm.fail hs)
    · simp only [h3, h4] at h ⊢
      exact G _ _ _ _ _ _ (.progn h2) he2 (hs.setStore hs2) h
  | letStar h1 h2 =>
    refine Sm.of ?_
    simp only [sstep] at h ⊢
    exact G _ _ _ _ _ _ (.letStar h1 h2) he hs h
  | @letrec bs bs' body body' h1 h2 =>
    refine Sm.of ?_
    simp only [sstep] at h ⊢
    have hn : VsR (bs.map fun _ => SVal.data (P := P) .nil)
        (bs'.map fun _ => SVal.data (P := P) .nil) := by
      have hl : bs.length = bs'.length := by simpa using (congrArg List.length h1.vars).symm
      clear h h1 h2
      induction bs generalizing bs' with
      | nil => cases bs' with
        | nil => exact .nil
        | cons _ _ => cases hl
      | cons b bs ih => cases bs' with
        | nil => cases hl
        | cons b' bs' => exact .cons (.data _) (ih (by simpa using hl))
    rw [h1.vars]
    rcases alloc_sim _ h1.free he hn hs.store with ⟨e, h3, h4⟩ | ⟨env2, s2, s2', h3, h4, he2, hs2⟩
    · simp only [h3, h4] at h ⊢
      exact Sm.some h (Sm.fail hs)
    · simp only [h3, h4] at h ⊢
      exact G _ _ _ _ _ _ (.assign h1 h2) he2 (hs.setStore hs2) h
  | named hf h1 h2 => exact sim_named G hf h1 h2 he hs h
  | if2 hc ht =>
    refine Sm.condE (Sm.of ?_)
    simp only [sstep] at h ⊢
    refine Sm.seq h (fun r h => G _ _ _ _ _ _ (.expr hc) he hs h) (fun v s v' s' hv hs h => ?_)
    simp only [(VsR.shd hv).isNil, List.isEmpty_cons] at h ⊢
    split at h
    · rename_i hn
      simp only [hn, if_true]
      have h3 := G _ _ _ _ _ _ (.progn (.same .nil)) he hs h
      obtain ⟨r', ⟨n, hn⟩, hrr⟩ := h3
      refine ⟨r', EvF.of ?_, hrr⟩
      have h4 := hn (n + 1) (by omega)
      simp only [sev, sstep] at h4
      exact ⟨0, fun m _ => by simpa only [sstep] using h4⟩
    · rename_i hn
      simp only [hn]
      exact Sm.prognOne (G _ _ _ _ _ _ (.expr ht) he hs h)
  | if3 hc ht h1 h2 =>
    refine Sm.condE (Sm.of ?_)
    simp only [sstep] at h ⊢
    refine Sm.seq h (fun r h => G _ _ _ _ _ _ (.expr hc) he hs h) (fun v s v' s' hv hs h => ?_)
    simp only [(VsR.shd hv).isNil, List.isEmpty_cons] at h ⊢
    split at h
    · rename_i hn
      simp only [hn, if_true]
      exact Sm.condT (const_lookup (v := .data (nm "t")) (by decide) rfl he) rfl (by simp)
        (G _ _ _ _ _ _ (.progn (.same (.cons h1 h2))) he hs h)
    · rename_i hn
      simp only [hn]
      exact Sm.prognOne (G _ _ _ _ _ _ (.expr ht) he hs h)
  | case hk hcs =>
    refine Sm.of ?_
    simp only [sstep] at h ⊢
    refine Sm.seq h (fun r h => G _ _ _ _ _ _ (.expr hk) he hs h) (fun v s v' s' hv hs h => ?_)
    rcases pick_sim (VsR.shd hv) hcs with ⟨h1, h2⟩ | ⟨es, es', h1, h2, h3⟩
    · simp only [h1, h2] at h ⊢
      exact Sm.some h (Sm.ret (.cons (.data _) .nil) hs)
    · simp only [h1, h2] at h ⊢
      exact G _ _ _ _ _ _ (.progn (.same h3)) he hs h
  | when hc hb =>
    refine Sm.condE (Sm.of ?_)
    simp only [sstep] at h ⊢
    refine Sm.seq h (fun r h => G _ _ _ _ _ _ (.expr hc) he hs h) (fun v s v' s' hv hs h => ?_)
    simp only [(VsR.shd hv).isNil, List.isEmpty_cons] at h ⊢
    split at h
    · rename_i hn
      simp only [hn, if_true]
      exact Sm.some h (Sm.condNil hs)
    · rename_i hn
      simp only [hn]
      exact Sm.prognOne (Sm.prognE (G _ _ _ _ _ _ (.progn (.same hb)) he hs h))
  | «unless» hc hb =>
    refine Sm.condE ?_
    simp only [sstep] at h
    rcases andThen_some.1 h with ⟨er, s1, hx, rfl⟩ | ⟨v, s1, hx, h⟩
    · obtain ⟨r', h1, h2⟩ := G _ _ _ _ _ _ (.expr hc) he hs hx
      cases h2 with
      | err hs1 =>
        refine ⟨_, EvF.of ?_, .err hs1⟩
        simp only [sstep]
        exact EvF.err (e := fun e s => (.err e, s)) (not_err he h1)
    · obtain ⟨r', h1, h2⟩ := G _ _ _ _ _ _ (.expr hc) he hs hx
      cases h2 with
      | ok hv hs1 =>
        have h3 := not_ev he h1
        rw [(VsR.shd hv).isNil] at h3
        split at h
        · rename_i hn
          simp only [hn, if_true] at h3
          exact Sm.condT h3 rfl (by simp)
            (Sm.prognOne (Sm.prognE (G _ _ _ _ _ _ (.progn (.same hb)) he hs1 h)))
        · rename_i hn
          simp only [hn] at h3
          exact Sm.some h (Sm.condF h3 rfl (Sm.condNil hs1))
  | or0 =>
    simp only [sstep] at h
    have h3 := G _ _ _ _ _ _ (.or .nil) he hs h
    obtain ⟨r', ⟨n, hn⟩, hrr⟩ := h3
    have h4 := hn (n + 1) (by omega)
    simp only [sev, sstep, List.map_nil, Option.some.injEq] at h4
    subst h4
    exact ⟨_, const_lookup (v := .data .nil) (by decide) rfl he, hrr⟩
  | or h1 h2 =>
    simp only [sstep] at h
    exact Sm.condE (G _ _ _ _ _ _ (.or (.cons h1 h2)) he hs h)
  | and h1 =>
    cases h1 with
    | nil =>
      exact Sm.some h ⟨_, const_lookup (v := .data (nm "t")) (by decide) rfl he,
        .ok (.cons (.data _) .nil) hs⟩
    | cons h1 h2 =>
      simp only [sstep, List.isEmpty_cons] at h
      exact G _ _ _ _ _ _ (.and h1 h2) he hs h

theorem Good.step (G : Good prim self) : Good prim (sstep prim self) := by
  intro j j' env st st' r hj he hs h
  cases hj with
  | expr hr => exact sim_expr G hr he hs h
  | list hr => exact sim_list G hr he hs h
  | progn hr => exact sim_progn G hr he hs h
  | cond hr => exact sim_cond G hr he hs h
  | inits hr => exact sim_inits G hr he hs h
  | initsL hr => exact sim_initsL G hr he hs h
  | letStar h1 h2 => exact sim_letStar G h1 h2 he hs h
  | assign h1 h2 => exact sim_assign G h1 h2 he hs h
  | or hr => exact sim_or G hr he hs h
  | and h1 h2 => exact sim_and G h1 h2 he hs h
  | apply h1 h2 => exact sim_apply G h1 h2 hs h

theorem good (n : Nat) : Good prim (sev (W := W) prim n) := by
  induction n with
  | zero => intro j j' env st st' r _ _ _ h; cases h
  | succ n ih => exact Good.step ih

end Rep.Define
