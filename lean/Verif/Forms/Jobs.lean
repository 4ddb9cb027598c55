/-
Derived forms: the simulation for each rule.
-/
import Verif.Forms.Sim

namespace Rep.Forms

variable {P W : Type} {prim : P → List (Option Sexp) → W → Ans × W}
variable {self : SJob P → SEnv → SSt P W → Option (Res (SVal P) × SSt P W)}

theorem okL_cons {e : Src} {es : List Src} (h : okL (e :: es) = true) :
    e.ok = true ∧ okL es = true := by
  simpa [okL] using h

theorem sim_list (G : Good prim self) {es env env' μ} {s : SSt P W} {s' : St P W} {r}
    (h : sstep prim self (.list es) env s = some r) (ho : okL es = true)
    (he : EnvRel μ env env') (hs : StRel μ s s') :
    Simu μ s' r (Ev prim (.list (.ofList (es.map Src.text))) env' s') := by
  cases es with
  | nil =>
    cases h
    exact Simu.ret .nil hs Ev.list_nil
  | cons e es =>
    have ho := okL_cons ho
    simp only [sstep] at h
    refine Simu.imp (Simu.seq h (fun y hy => G _ _ _ _ _ _ _ _ hy (.expr ho.1 he) hs) ?_)
      (fun y hy => Ev.list_cons hy)
    intro vs s μ2 vs' s2' h hv hs hf
    refine Simu.seq h (fun y hy => G _ _ _ _ _ _ _ _ hy (.list ho.2 (he.mono hf.pre)) hs) ?_
    intro ws s μ3 ws' s3' h hw hs hf
    cases h
    exact Simu.ret (.cons (hv.hd.mono hf.pre) hw) hs rfl

theorem sim_listP (G : Good prim self) {es env env' μ} {s : SSt P W} {s' : St P W} {r}
    (h : sstep prim self (.list es) env s = some r) (ho : okL es = true)
    (he : EnvRel μ env env') (hs : StRel μ s s') :
    Simu μ s' r (Ev prim (.list (.ofList (es.map fun e => form "progn" (.ofList [e.text]))))
      env' s') := by
  cases es with
  | nil =>
    cases h
    exact Simu.ret .nil hs Ev.list_nil
  | cons e es =>
    have ho := okL_cons ho
    simp only [sstep] at h
    refine Simu.imp (Simu.seq h (fun y hy => G _ _ _ _ _ _ _ _ hy (.expr ho.1 he) hs) ?_)
      (fun y hy => Ev.list_cons (hy.imp
        (fun _ h => Ev.progn he.isFree (Ev.progn_one h)) (fun _ _ _ h => h)))
    intro vs s μ2 vs' s2' h hv hs hf
    refine Simu.seq h (fun y hy => G _ _ _ _ _ _ _ _ hy (.listP ho.2 (he.mono hf.pre)) hs) ?_
    intro ws s μ3 ws' s3' h hw hs hf
    cases h
    exact Simu.ret (.cons (hv.hd.mono hf.pre) hw) hs rfl

theorem sim_progn (G : Good prim self) {es env env' μ} {s : SSt P W} {s' : St P W} {r}
    (h : sstep prim self (.progn es) env s = some r) (ho : okL es = true)
    (he : EnvRel μ env env') (hs : StRel μ s s') :
    Simu μ s' r (Ev prim (.progn (.ofList (es.map Src.text))) env' s') := by
  cases es with
  | nil =>
    cases h
    exact Simu.ret (VsRel.one (.data _)) hs Ev.progn_nil
  | cons e es =>
    have ho := okL_cons ho
    cases es with
    | nil =>
      simp only [sstep] at h
      exact Simu.imp (G _ _ _ _ _ _ _ _ h (.expr ho.1 he) hs) (fun y hy => Ev.progn_one hy)
    | cons e2 es =>
      simp only [sstep] at h
      refine Simu.imp (Simu.seq h (fun y hy => G _ _ _ _ _ _ _ _ hy (.expr ho.1 he) hs) ?_)
        (fun y hy => Ev.progn_cons hy)
      intro vs s μ2 vs' s2' h hv hs hf
      exact G _ _ _ _ _ _ _ _ h (.progn ho.2 (he.mono hf.pre)) hs

theorem sim_cond (G : Good prim self) {cls env env' μ} {s : SSt P W} {s' : St P W} {r}
    (h : sstep prim self (.cond cls) env s = some r) (ho : okC cls = true)
    (he : EnvRel μ env env') (hs : StRel μ s s') :
    Simu μ s' r (Ev prim (.cond (.ofList (cls.map Clause.text))) env' s') := by
  cases cls with
  | nil =>
    cases h
    exact Simu.ret (VsRel.one (.data _)) hs Ev.cond_nil
  | cons cl cls =>
    cases cl with
    | mk c es =>
      simp only [okC, Clause.ok, Bool.and_eq_true] at ho
      simp only [sstep] at h
      simp only [List.map_cons, Sexp.ofList, Clause.text]
      refine Simu.imp (Simu.seq h (fun y hy => G _ _ _ _ _ _ _ _ hy (.expr ho.1.1 he) hs) ?_)
        (fun y hy => Ev.cond_cons hy)
      intro vs s μ2 vs' s2' h hv hs hf
      have hn := hv.hd.isNil
      by_cases hb : (shd vs).isNil = true
      · rw [if_pos hb] at h
        rw [hb] at hn
        exact Simu.imp (G _ _ _ _ _ _ _ _ h (.cond ho.2 (he.mono hf.pre)) hs)
          (fun y hy => Or.inl ⟨hn, hy⟩)
      · rw [if_neg hb] at h
        have hb : (shd vs).isNil = false := by simpa using hb
        rw [hb] at hn
        cases es with
        | nil =>
          have h : some (Res.ok [shd vs], s) = some r := h
          cases h
          refine Simu.ret (VsRel.one hv.hd) hs ?_
          exact Or.inr (Or.inr ⟨hn, by simp [textL], rfl⟩)
        | cons e es =>
          rw [if_neg (by simp)] at h
          refine Simu.imp (G _ _ _ _ _ _ _ _ h (.progn ho.1.2 (he.mono hf.pre)) hs) ?_
          intro y hy
          rw [textL_eq]
          exact Or.inr (Or.inl ⟨hn, ⟨_, _, rfl⟩, hy⟩)

theorem sim_inits (G : Good prim self) {bs env env' μ} {s : SSt P W} {s' : St P W} {r}
    (h : sstep prim self (.inits bs) env s = some r) (ho : okB bs = true)
    (he : EnvRel μ env env') (hs : StRel μ s s') :
    Simu μ s' r (Ev prim (.list (.ofList ((bs.map Binding.text).map bindValue))) env' s') := by
  cases bs with
  | nil =>
    cases h
    exact Simu.ret .nil hs Ev.list_nil
  | cons b bs =>
    simp only [okB, Bool.and_eq_true] at ho
    simp only [sstep] at h
    refine Simu.imp (Simu.seq h
      (fun y hy => G _ _ _ _ _ _ _ _ hy (.progn (binding_ok ho.1).2 he) hs) ?_)
      (fun y hy => Ev.list_cons (hy.imp
        (fun _ h => Ev.bindValue he.isFree h) (fun _ _ _ h => h)))
    intro vs s μ2 vs' s2' h hv hs hf
    refine Simu.seq h (fun y hy => G _ _ _ _ _ _ _ _ hy (.inits ho.2 (he.mono hf.pre)) hs) ?_
    intro ws s μ3 ws' s3' h hw hs hf
    cases h
    exact Simu.ret (.cons (hv.hd.mono hf.pre) hw) hs rfl

theorem sim_letStar (G : Good prim self) {bs body env env' μ} {s : SSt P W} {s' : St P W} {r}
    (h : sstep prim self (.letStar bs body) env s = some r) (ho : okB bs = true)
    (hb : okL body = true) (he : EnvRel μ env env') (hs : StRel μ s s') :
    Simu μ s' r (Ev prim
      (.expr ((bs.map Binding.text).foldr (fun b r => form "let" (.ofList [.ofList [b], r]))
        (form "progn" (textL body)))) env' s') := by
  cases bs with
  | nil =>
    simp only [sstep] at h
    refine Simu.imp (G _ _ _ _ _ _ _ _ h (.progn hb he) hs) (fun y hy => ?_)
    rw [← textL_eq] at hy
    exact Ev.progn he.isFree hy
  | cons b bs =>
    simp only [okB, Bool.and_eq_true] at ho
    simp only [sstep] at h
    simp only [List.map_cons, List.foldr_cons]
    generalize hrest : (bs.map Binding.text).foldr
      (fun b r => form "let" (.ofList [.ofList [b], r])) (form "progn" (textL body)) = rest
    refine Simu.imp (Y := Seq (Ev prim (.progn (.ofList (b.es.map Src.text))) env' s')
      (fun v s => Ev prim (.lambda (.cons (.ofList [nm b.var]) (.ofList [rest])) [hd v]) env' s))
      (Simu.seq h
      (fun y hy => G _ _ _ _ _ _ _ _ hy (.progn (binding_ok ho.1).2 he) hs) ?_) ?_
    · intro vs s μ2 vs' s2' h hv hs hf
      have hp : μ2 <+: μ2 ++ [s2'.store.length] := List.prefix_append _ _
      have hs2 := hs.push (hv.hd.mono hp)
      have hl : (μ2 ++ [s2'.store.length])[s.store.length]? = some s2'.store.length := by
        rw [← hs.len, List.getElem?_concat_length]
      have he2 := ((he.mono hf.pre).mono hp).push (binding_ok ho.1).1 hl
      have := G _ _ _ _ _ _ _ _ h (.letStar ho.2 hb he2) hs2
      rw [hrest] at this
      refine Simu.imp (this.frame (Frame.push _)) (fun y hy => ?_)
      exact Ev.lambda_ok rfl (Ev.progn_one hy)
    · intro y hy
      refine Ev.letR (bs := [b.text]) (body := [rest]) he.isFree ?_
      rw [List.map_singleton, List.map_singleton, bindVar_text]
      rcases hy with ⟨er, s, h1, h2⟩ | ⟨vs, s, h1, h2⟩
      · exact Or.inl ⟨er, s, Ev.list_one (Or.inl ⟨er, s, Ev.bindValue he.isFree h1, rfl⟩), h2⟩
      · exact Or.inr ⟨_, s, Ev.list_one (Or.inr ⟨vs, s, Ev.bindValue he.isFree h1, rfl⟩), h2⟩

theorem ofList_ne {xs ys : List Sexp} (h : ys ≠ []) : ∃ a d, Sexp.ofList (xs ++ ys) = .cons a d := by
  cases xs with
  | cons x xs => exact ⟨_, _, rfl⟩
  | nil =>
    cases ys with
    | nil => exact absurd rfl h
    | cons y ys => exact ⟨_, _, rfl⟩

theorem sim_assign (G : Good prim self) {bs body env env' μ} {s : SSt P W} {s' : St P W} {r}
    (h : sstep prim self (.assign bs body) env s = some r) (ho : okB bs = true)
    (hb : okL body = true) (hne : body ≠ []) (he : EnvRel μ env env') (hs : StRel μ s s') :
    Simu μ s' r (Ev prim
      (.progn (.ofList ((bs.map Binding.text).map setter ++ body.map Src.text))) env' s') := by
  cases bs with
  | nil =>
    simp only [sstep] at h
    exact G _ _ _ _ _ _ _ _ h (.progn hb he) hs
  | cons b bs =>
    simp only [okB, Bool.and_eq_true] at ho
    simp only [sstep] at h
    simp only [List.map_cons, List.cons_append, Sexp.ofList]
    obtain ⟨a, d, hcons⟩ := ofList_ne (xs := (bs.map Binding.text).map setter)
      (ys := body.map Src.text) (by simpa using hne)
    refine Simu.imp (Y := Seq (Ev prim (.progn (.ofList (b.es.map Src.text))) env' s')
      (fun v s r =>
        (∃ l, env'.lookup (.name b.var) = some l ∧
          Ev prim (.progn (.ofList ((bs.map Binding.text).map setter ++ body.map Src.text))) env'
            { s with store := s.store.set l (hd v) } r) ∨
        (env'.lookup (.name b.var) = none ∧ r = (.err (.void (.name b.var)), s))))
      (Simu.seq h
      (fun y hy => G _ _ _ _ _ _ _ _ hy (.progn (binding_ok ho.1).2 he) hs) ?_) ?_
    · intro vs s μ2 vs' s2' h hv hs hf
      cases hl : env.lookup b.var with
      | none =>
        rw [hl] at h
        cases h
        exact Simu.fail hs (Or.inr ⟨he.unbound _ hl, rfl⟩)
      | some l =>
        rw [hl] at h
        obtain ⟨l', h1, h2⟩ := (he.mono hf.pre).bound _ _ hl
        have := G _ _ _ _ _ _ _ _ h (.assign ho.2 hb hne (he.mono hf.pre)) (hs.set h1 hv.hd)
        exact Simu.imp (this.frame (Frame.set h1 _)) (fun y hy => Or.inl ⟨l', h2, hy⟩)
    · intro y hy
      rw [hcons] at hy ⊢
      refine Ev.progn_cons ?_
      rw [setter_text]
      rcases hy with ⟨er, s, h1, h2⟩ | ⟨vs, s, h1, h2⟩
      · exact Or.inl ⟨er, s, Ev.setq he.isFree
          (Or.inl ⟨er, s, Ev.bindValue he.isFree h1, rfl⟩), h2⟩
      · rcases h2 with ⟨l, h3, h4⟩ | ⟨h3, h4⟩
        · exact Or.inr ⟨_, _, Ev.setq he.isFree
            (Or.inr ⟨vs, s, Ev.bindValue he.isFree h1, Or.inl ⟨l, h3, rfl⟩⟩), h4⟩
        · exact Or.inl ⟨_, _, Ev.setq he.isFree
            (Or.inr ⟨vs, s, Ev.bindValue he.isFree h1, Or.inr ⟨h3, rfl⟩⟩), h4⟩

theorem sim_or (G : Good prim self) {es env env' μ} {s : SSt P W} {s' : St P W} {r}
    (h : sstep prim self (.or es) env s = some r) (ho : okL es = true)
    (he : EnvRel μ env env') (hs : StRel μ s s') :
    Simu μ s' r (Ev prim (.cond (.ofList ((es.map Src.text).map fun x => .ofList [x]))) env' s') := by
  cases es with
  | nil =>
    cases h
    exact Simu.ret (VsRel.one (.data _)) hs Ev.cond_nil
  | cons e es =>
    have ho := okL_cons ho
    simp only [sstep] at h
    simp only [List.map_cons, Sexp.ofList]
    refine Simu.imp (Simu.seq h (fun y hy => G _ _ _ _ _ _ _ _ hy (.expr ho.1 he) hs) ?_)
      (fun y hy => Ev.cond_cons hy)
    intro vs s μ2 vs' s2' h hv hs hf
    have hn := hv.hd.isNil
    by_cases hb : (shd vs).isNil = true
    · rw [if_pos hb] at h
      rw [hb] at hn
      exact Simu.imp (G _ _ _ _ _ _ _ _ h (.or ho.2 (he.mono hf.pre)) hs)
        (fun y hy => Or.inl ⟨hn, hy⟩)
    · rw [if_neg hb] at h
      have hb : (shd vs).isNil = false := by simpa using hb
      rw [hb] at hn
      cases h
      exact Simu.ret (VsRel.one hv.hd) hs (Or.inr (Or.inr ⟨hn, rfl, rfl⟩))

theorem wrapAnd_ne (x b : Sexp) : wrapAnd x b ≠ .nil := by
  unfold wrapAnd
  split <;> exact fun h => nomatch h

theorem sim_and (G : Good prim self) {es env env' μ} {s : SSt P W} {s' : St P W} {r}
    (h : sstep prim self (.and es) env s = some r) (ho : okL es = true) (hne : es ≠ [])
    (he : EnvRel μ env env') (hs : StRel μ s s') :
    Simu μ s' r (Ev prim (.expr ((es.map Src.text).foldr wrapAnd .nil)) env' s') := by
  cases es with
  | nil => exact absurd rfl hne
  | cons e es =>
    have ho := okL_cons ho
    cases es with
    | nil =>
      simp only [sstep] at h
      have ht : ([e].map Src.text).foldr wrapAnd .nil = form "cond" (.ofList [.ofList [e.text]]) := by
        simp [wrapAnd, form, Sexp.ofList]
      rw [ht]
      refine Simu.imp (Simu.seq h (fun y hy => G _ _ _ _ _ _ _ _ hy (.expr ho.1 he) hs) ?_)
        (fun y hy => Ev.cond he.isFree (Ev.cond_cons hy))
      intro vs s μ2 vs' s2' h hv hs hf
      have hn := hv.hd.isNil
      cases h
      by_cases hb : (shd vs).isNil = true
      · rw [hb] at hn
        have hd0 : hd vs' = .data .nil := by
          cases hx : hd vs' with
          | data d => rw [hx] at hn; cases d <;> first | rfl | cases hn
          | _ => rw [hx] at hn; cases hn
        refine Simu.ret (VsRel.one hv.hd) hs (Or.inl ⟨hn, ?_⟩)
        rw [hd0]
        exact Ev.cond_nil
      · have hb : (shd vs).isNil = false := by simpa using hb
        rw [hb] at hn
        exact Simu.ret (VsRel.one hv.hd) hs (Or.inr (Or.inr ⟨hn, rfl, rfl⟩))
    | cons e2 es =>
      simp only [sstep] at h
      have ht : ((e :: e2 :: es).map Src.text).foldr wrapAnd .nil
          = form "cond" (.ofList [.ofList [e.text,
            ((e2 :: es).map Src.text).foldr wrapAnd .nil]]) := by
        rw [List.map_cons, List.foldr_cons]
        have : ((e2 :: es).map Src.text).foldr wrapAnd .nil ≠ .nil := by
          rw [List.map_cons, List.foldr_cons]; exact wrapAnd_ne _ _
        rw [wrapAnd, if_pos this]
        rfl
      rw [ht]
      refine Simu.imp (Simu.seq h (fun y hy => G _ _ _ _ _ _ _ _ hy (.expr ho.1 he) hs) ?_)
        (fun y hy => Ev.cond he.isFree (Ev.cond_cons hy))
      intro vs s μ2 vs' s2' h hv hs hf
      have hn := hv.hd.isNil
      by_cases hb : (shd vs).isNil = true
      · rw [if_pos hb] at h
        rw [hb] at hn
        cases h
        exact Simu.ret (VsRel.one (.data _)) hs (Or.inl ⟨hn, Ev.cond_nil⟩)
      · rw [if_neg hb] at h
        have hb : (shd vs).isNil = false := by simpa using hb
        rw [hb] at hn
        exact Simu.imp (G _ _ _ _ _ _ _ _ h (.and ho.2 (by simp) (he.mono hf.pre)) hs)
          (fun y hy => Or.inr (Or.inl ⟨hn, ⟨_, _, rfl⟩, Ev.progn_one hy⟩))

theorem Ev.loop {g lt : Nat} {lam : Sexp} {envD env : Env} {args : Sexp} {st : St P W} {r}
    (hl : env.lookup (.gen g) = some lt) (hv : st.store[lt]? = some (.clos lam envD))
    (H : Seq (Ev prim (.list args) env st)
      (fun vs s => Ev prim (.apply (.clos lam envD) vs) env s) r) :
    Ev prim (.expr (.cons (.sym (.gen g)) args)) env st r := by
  have hev := Ev.sym (prim := prim) (s := .gen g) (env := env) (st := st)
  have hlk : lookup (.gen g) env st = .ok [.clos lam envD] := by
    unfold lookup
    rw [hl]
    dsimp only
    rw [hv]
  rw [hlk] at hev
  exact Ev.call rfl (Or.inr ⟨_, _, hev, ⟨(fun k hk => nomatch hk), H⟩⟩)

theorem sim_while (G : Good prim self) {c body env env' g envD μ} {s : SSt P W} {s' : St P W} {r}
    (h : sstep prim self (.while c body) env s = some r) (hc : c.ok = true)
    (hb : okL body = true) (hl : LoopAt μ s' env envD g (whileLam g c body)) (hs : StRel μ s s') :
    Simu μ s' r (Ev prim (.apply (.clos (whileLam g c body) envD) []) env' s') := by
  have he := hl.1
  simp only [sstep] at h
  refine Simu.imp (Simu.seq h (fun y hy => G _ _ _ _ _ _ _ _ hy (.expr hc he) hs) ?_)
    (fun y hy => Ev.apply_clos (Ev.lambda_ok (env' := envD) (store := s'.store) rfl
      (Ev.progn_one (Ev.cond he.isFree (Ev.cond_cons hy)))))
  intro vs s μ2 vs' s2' h hv hs hf
  have hn := hv.hd.isNil
  by_cases hbn : (shd vs).isNil = true
  · rw [if_pos hbn] at h
    rw [hbn] at hn
    cases h
    exact Simu.ret (VsRel.one (.data _)) hs (Or.inl ⟨hn, Ev.cond_nil⟩)
  · rw [if_neg hbn] at h
    have hbn : (shd vs).isNil = false := by simpa using hbn
    rw [hbn] at hn
    refine Simu.imp (Simu.seq h
      (fun y hy => G _ _ _ _ _ _ _ _ hy (.progn hb (he.mono hf.pre)) hs) ?_)
      (fun y hy => Or.inr (Or.inl ⟨hn, ⟨_, _, rfl⟩, Ev.progn_cons (hy.imp
        (fun _ h => Ev.progn he.isFree (by rw [textL_eq]; exact h)) (fun _ _ _ h => h))⟩))
    intro ws s μ3 ws' s3' h hw hs hf2
    have hl3 := hl.frame (hf.trans hf2)
    obtain ⟨lt, a, b, c', d⟩ := hl3.2
    refine Simu.imp (G _ _ _ _ _ _ envD _ h (.while hc hb hl3) hs) (fun y hy => ?_)
    exact Ev.progn_one (Ev.loop a d (Or.inr ⟨_, _, Ev.list_nil, hy⟩))

theorem okD_free : ∀ {vs : List DoVar}, okD vs = true → (vs.map DoVar.var).all free = true
  | [], _ => rfl
  | v :: vs, h => by
    simp only [okD, Bool.and_eq_true] at h
    rw [List.map_cons, List.all_cons, okD_free h.2, Bool.and_true]
    cases v <;> simp_all [DoVar.ok, DoVar.var]

theorem okD_init : ∀ {vs : List DoVar}, okD vs = true → okL (vs.map DoVar.init) = true
  | [], _ => by simp [okL]
  | v :: vs, h => by
    simp only [okD, Bool.and_eq_true] at h
    rw [List.map_cons]
    simp only [okL, Bool.and_eq_true]
    refine ⟨?_, okD_init h.2⟩
    cases v <;> simp_all [DoVar.ok, DoVar.init, Src.ok]

theorem okD_next : ∀ {vs : List DoVar}, okD vs = true → okL (vs.map DoVar.next) = true
  | [], _ => by simp [okL]
  | v :: vs, h => by
    simp only [okD, Bool.and_eq_true] at h
    rw [List.map_cons]
    simp only [okL, Bool.and_eq_true]
    refine ⟨?_, okD_next h.2⟩
    cases v <;> simp_all [DoVar.ok, DoVar.next, Src.ok, readable]

theorem sim_do (G : Good prim self) {vars test exprs body vs vs' env env' g envD μ}
    {s : SSt P W} {s' : St P W} {r}
    (h : sstep prim self (.do vars test exprs body vs) env s = some r) (hv : okD vars = true)
    (ht : test.ok = true) (hx : okL exprs = true) (hb : okL body = true) (hvs : VsRel μ vs vs')
    (hl : LoopAt μ s' env envD g (doLam g vars test exprs body)) (hs : StRel μ s s') :
    Simu μ s' r (Ev prim (.apply (.clos (doLam g vars test exprs body) envD) vs') env' s') := by
  have he := hl.1
  simp only [sstep] at h
  have hbind := bind_sim (vars.map DoVar.var) hvs he hs (okD_free hv)
  cases hA : alloc (vars.map DoVar.var) vs env s.store with
  | inl er =>
    rw [hA] at h hbind
    cases h
    exact Simu.fail hs (Ev.apply_clos (Ev.lambda_err hbind))
  | inr p =>
    obtain ⟨env2, st2⟩ := p
    rw [hA] at h hbind
    obtain ⟨μ2, e2', st2', hb1, he2, hs2, hf2, hg⟩ := hbind
    dsimp only at h
    refine Simu.imp (Simu.frame (Simu.seq h
      (fun y hy => G _ _ _ _ _ _ _ _ hy (.expr ht he2) hs2) ?_) hf2)
      (fun y hy => Ev.apply_clos (Ev.lambda_ok hb1 (Ev.progn_one (Ev.ifR he2.isFree hy))))
    intro vs s μ3 vs' s3' h hv3 hs hf3
    have hn := hv3.hd.isNil
    by_cases hbn : (shd vs).isNil = true
    · rw [if_pos hbn] at h
      rw [hbn] at hn
      refine Simu.imp (Simu.seq h
        (fun y hy => G _ _ _ _ _ _ _ _ hy (.progn hb (he2.mono hf3.pre)) hs) ?_)
        (fun y hy => Or.inl ⟨hn, Ev.progn_append _ hy⟩)
      intro ws s μ4 ws' s4' h hw hs hf4
      have hl4 := hl.frame ((hf2.trans hf3).trans hf4)
      obtain ⟨lt, a, b, c', d⟩ := hl4.2
      refine Simu.imp (Simu.seq h (fun y hy => G _ _ _ _ _ _ _ _ hy
        (.list (okD_next hv) ((he2.mono hf3.pre).mono hf4.pre)) hs) ?_)
        (fun y hy => Ev.loop ((hg g).trans a) d hy)
      intro us s μ5 us' s5' h hu hs hf5
      exact G _ _ _ _ _ _ _ _ h (.do hv ht hx hb hu (hl4.frame hf5)) hs
    · rw [if_neg hbn] at h
      have hbn : (shd vs).isNil = false := by simpa using hbn
      rw [hbn] at hn
      refine Simu.imp (G _ _ _ _ _ _ _ _ h (.progn hx (he2.mono hf3.pre)) hs) (fun y hy => ?_)
      exact Or.inr ⟨hn, Ev.progn he2.isFree (by rw [textL_eq]; exact hy)⟩

theorem toRes_sim {μ} {vs : List (SVal P)} {vs' : List (Val P)} (h : VsRel μ vs vs') (a : Ans) :
    RRel μ (a.toRes SVal.data vs) (a.toRes Val.data vs') := by
  cases a with
  | datum d => exact .ok (VsRel.one (.data d))
  | err d => exact .err _
  | arg i =>
    simp only [Ans.toRes]
    rcases h.get i with ⟨a, b⟩ | ⟨v, v', a, b, c⟩
    · rw [a, b]; exact .ok (VsRel.one (.data _))
    · rw [a, b]; exact .ok (VsRel.one c)

theorem sim_apply (G : Good prim self) {f f' vs vs' env env' μ} {s : SSt P W} {s' : St P W} {r}
    (h : sstep prim self (.apply f vs) env s = some r) (hf : VRel μ f f') (hvs : VsRel μ vs vs')
    (hs : StRel μ s s') : Simu μ s' r (Ev prim (.apply f' vs') env' s') := by
  cases hf with
  | data d =>
    cases h
    exact Simu.fail hs ⟨1, rfl⟩
  | fn f =>
    simp only [sstep] at h
    rw [← hvs.view, ← hs.world] at h
    cases h
    exact ⟨μ, _, _, ⟨1, rfl⟩, toRes_sim hvs _, hs.setWorld _,
      ⟨List.prefix_rfl, Nat.le_refl _, fun _ _ h => ⟨h, rfl⟩⟩⟩
  | @clos ps body e e' hp hb he =>
    simp only [sstep] at h
    have hbind := bind_sim ps hvs he hs hp
    cases hA : alloc ps vs e s.store with
    | inl er =>
      rw [hA] at h hbind
      cases h
      exact Simu.fail hs (Ev.apply_clos (Ev.lambda_err hbind))
    | inr p =>
      obtain ⟨env2, st2⟩ := p
      rw [hA] at h hbind
      obtain ⟨μ2, e2', st2', hb1, he2, hs2, hf2, hg⟩ := hbind
      dsimp only at h
      refine Simu.imp (Simu.frame (G _ _ _ _ _ _ _ _ h (.progn hb he2) hs2) hf2)
        (fun y hy => Ev.apply_clos (Ev.lambda_ok hb1 (by rw [textL_eq]; exact hy)))

end Rep.Forms
