/-
Derived forms: the simulation for each form.
-/
import Verif.Forms.Jobs

namespace Rep.Forms

variable {P W : Type} {prim : P → List (Option Sexp) → W → Ans × W}
variable {self : SJob P → SEnv → SSt P W → Option (Res (SVal P) × SSt P W)}

theorem sim_var {x : String} {env env' μ} {s : SSt P W} {s' : St P W} {r}
    (h : sstep prim self (.expr (.var x)) env s = some r) (ho : readable x = true)
    (he : EnvRel μ env env') (hs : StRel μ s s') :
    Simu μ s' r (Ev prim (.expr (nm x)) env' s') := by
  cases h
  exact ⟨μ, _, s', Ev.sym, lookup_sim ho he hs, hs, Frame.refl _ _⟩

theorem sim_call (G : Good prim self) {f : Src} {args env env' μ} {s : SSt P W} {s' : St P W} {r}
    (h : sstep prim self (.expr (.call f args)) env s = some r) (hf : f.ok = true)
    (ha : okL args = true) (he : EnvRel μ env env') (hs : StRel μ s s') :
    Simu μ s' r (Ev prim (.expr (.cons f.text (textL args))) env' s') := by
  simp only [sstep] at h
  rw [textL_eq]
  refine Simu.imp (Simu.seq h (fun y hy => G _ _ _ _ _ _ _ _ hy (.expr hf he) hs) ?_)
    (fun y hy => Ev.callT hf he.isFree hy)
  intro vs s μ2 vs' s2' h hv hs hfr
  refine Simu.imp (Simu.seq h
    (fun y hy => G _ _ _ _ _ _ _ _ hy (.list ha (he.mono hfr.pre)) hs) ?_)
    (fun y hy => ⟨hv.hd.not_kw, hy⟩)
  intro ws s μ3 ws' s3' h hw hs hfr2
  exact G _ _ _ _ _ _ _ _ h (.apply (hv.hd.mono hfr2.pre) hw) hs

theorem sim_setq (G : Good prim self) {x : String} {e : Src} {env env' μ} {s : SSt P W}
    {s' : St P W} {r}
    (h : sstep prim self (.expr (.setq x e)) env s = some r) (ho : e.ok = true)
    (he : EnvRel μ env env') (hs : StRel μ s s') :
    Simu μ s' r (Ev prim (.expr (form "setq" (.cons (nm x) (.cons e.text .nil)))) env' s') := by
  simp only [sstep] at h
  refine Simu.imp (Simu.seq h (fun y hy => G _ _ _ _ _ _ _ _ hy (.expr ho he) hs) ?_)
    (fun y hy => Ev.setq he.isFree hy)
  intro vs s μ2 vs' s2' h hv hs hf
  cases hl : env.lookup x with
  | none =>
    rw [hl] at h
    cases h
    exact Simu.fail hs (Or.inr ⟨he.unbound _ hl, rfl⟩)
  | some l =>
    rw [hl] at h
    cases h
    obtain ⟨l', h1, h2⟩ := (he.mono hf.pre).bound _ _ hl
    exact Simu.frame (Simu.ret (VsRel.one hv.hd) (hs.set h1 hv.hd) (Or.inl ⟨l', h2, rfl⟩))
      (Frame.set h1 _)

theorem sim_let (G : Good prim self) {bs body env env' μ} {s : SSt P W} {s' : St P W} {r}
    (h : sstep prim self (.expr (.let bs body)) env s = some r) (ho : okB bs = true)
    (hb : okL body = true) (he : EnvRel μ env env') (hs : StRel μ s s') :
    Simu μ s' r (Ev prim (.expr (form "let" (.cons (textB bs) (textL body)))) env' s') := by
  simp only [sstep] at h
  rw [textB_eq, textL_eq]
  refine Simu.imp (Simu.seq h (fun y hy => G _ _ _ _ _ _ _ _ hy (.inits ho he) hs) ?_)
    (fun y hy => Ev.letR he.isFree hy)
  intro vs s μ2 vs' s2' h hv hs hf
  rw [names_bindVar]
  have hbind := bind_sim (bs.map Binding.var) hv (he.mono hf.pre) hs (okB_free ho)
  cases hA : alloc (bs.map Binding.var) vs env s.store with
  | inl er =>
    rw [hA] at h hbind
    cases h
    exact Simu.fail hs (Ev.lambda_err hbind)
  | inr p =>
    obtain ⟨env2, st2⟩ := p
    rw [hA] at h hbind
    obtain ⟨μ3, e2', st2', hb1, he2, hs2, hf2, hg⟩ := hbind
    exact Simu.imp (Simu.frame (G _ _ _ _ _ _ _ _ h (.progn hb he2) hs2) hf2)
      (fun y hy => Ev.lambda_ok hb1 hy)

theorem letStarLoop_eq : ∀ (l : List Sexp) (b : Sexp),
    letStarLoop l b = l.foldl (fun r b => form "let" (.ofList [.ofList [b], r])) b
  | [], _ => rfl
  | x :: l, b => by rw [letStarLoop, List.foldl_cons, letStarLoop_eq l]; rfl

theorem sim_letStarE (G : Good prim self) {bs body env env' μ} {s : SSt P W} {s' : St P W} {r}
    (h : sstep prim self (.expr (.letStar bs body)) env s = some r) (ho : okB bs = true)
    (hb : okL body = true) (he : EnvRel μ env env') (hs : StRel μ s s') :
    Simu μ s' r (Ev prim (.expr (form "let*" (.cons (textB bs) (textL body)))) env' s') := by
  simp only [sstep] at h
  refine Simu.imp (G _ _ _ _ _ _ _ _ h (.letStar ho hb he) hs) (fun y hy => ?_)
  rw [textB_eq, textL_eq]
  refine Ev.macro (k := .letStar) (xs := .ofList (bs.map Binding.text) :: body.map Src.text)
    (x := ((bs.map Binding.text).foldr (fun b r => form "let" (.ofList [.ofList [b], r]))
        (form "progn" (textL body)))) (g := s'.gens) he.isFree (by decide) rfl rfl ?_ hy
  simp only [expand, expandLetStar, List.headD_cons, toList_ofList, List.tail_cons,
    letStarLoop_eq, List.foldl_reverse, textL_eq]
  rfl

theorem nils_ev {env : Env} {st : St P W} : ∀ (xs : List Sexp), (∀ x ∈ xs, bindValue x = .nil) →
    Ev prim (.list (.ofList (xs.map bindValue))) env st (.ok (xs.map fun _ => .data .nil), st)
  | [], _ => Ev.list_nil
  | x :: xs, h => by
    rw [List.map_cons, h x (by simp)]
    exact Ev.list_cons (Or.inr ⟨_, _, Ev.nil,
      Or.inr ⟨_, _, nils_ev xs (fun y hy => h y (by simp [hy])), rfl⟩⟩)

theorem nils_rel {μ} {α β : Type} : ∀ (xs : List α) (ys : List β), xs.length = ys.length →
    VsRel (P := P) μ (xs.map fun _ => .data .nil) (ys.map fun _ => .data .nil)
  | [], [], _ => .nil
  | _ :: xs, _ :: ys, h => .cons (.data _) (nils_rel xs ys (by simpa using h))
  | [], _ :: _, h => by simp at h
  | _ :: _, [], h => by simp at h

theorem sim_letrec (G : Good prim self) {bs body env env' μ} {s : SSt P W} {s' : St P W} {r}
    (h : sstep prim self (.expr (.letrec bs body)) env s = some r) (ho : okB bs = true)
    (hb : okL body = true) (hne : body ≠ []) (he : EnvRel μ env env') (hs : StRel μ s s') :
    Simu μ s' r (Ev prim (.expr (form "letrec" (.cons (textB bs) (textL body)))) env' s') := by
  simp only [sstep] at h
  rw [textB_eq, textL_eq]
  have hvars : ((bs.map Binding.text).map bindVar) = bs.map fun b => nm b.var := by
    rw [List.map_map]
    exact List.map_congr_left (fun b _ => bindVar_text b)
  have hmac : ∀ y, Ev prim (.lambda (.cons (names (bs.map Binding.var))
      (.ofList ((bs.map Binding.text).map setter ++ body.map Src.text)))
      (((bs.map Binding.text).map bindVar).map fun _ => .data .nil)) env' s' y →
      Ev prim (.expr (form "letrec" (.cons (.ofList (bs.map Binding.text))
        (.ofList (body.map Src.text))))) env' s' y := by
    intro y hy
    refine Ev.macro (k := .letrec) (xs := .ofList (bs.map Binding.text) :: body.map Src.text)
      (x := form "let" (.cons (.ofList ((bs.map Binding.text).map bindVar))
        (.ofList ((bs.map Binding.text).map setter ++ body.map Src.text))))
      (g := s'.gens) he.isFree (by decide) rfl rfl ?_ ?_
    · simp only [expand, expandLetrec, toList_ofList]; rfl
    · refine Ev.letR he.isFree (Or.inr ⟨_, _, nils_ev _ ?_, ?_⟩)
      · intro x hx
        rw [hvars] at hx
        obtain ⟨b, _, rfl⟩ := List.mem_map.1 hx
        rfl
      · have h2 : (((bs.map Binding.text).map bindVar).map bindVar)
            = (bs.map Binding.var).map nm := by
          rw [hvars, List.map_map, List.map_map]; rfl
        rw [h2]
        exact hy
  have hbind := bind_sim (P := P) (W := W) (bs.map Binding.var)
    (vs := bs.map fun _ => .data .nil)
    (vs' := ((bs.map Binding.text).map bindVar).map fun _ => .data .nil)
    (nils_rel _ _ (by simp)) he hs (okB_free ho)
  cases hA : alloc (bs.map Binding.var) (bs.map fun _ => .data .nil) env s.store with
  | inl er =>
    rw [hA] at h hbind
    cases h
    exact Simu.fail hs (hmac _ (Ev.lambda_err hbind))
  | inr p =>
    obtain ⟨env2, st2⟩ := p
    rw [hA] at h hbind
    obtain ⟨μ3, e2', st2', hb1, he2, hs2, hf2, hg⟩ := hbind
    exact Simu.imp (Simu.frame (G _ _ _ _ _ _ _ _ h (.assign ho hb hne he2) hs2) hf2)
      (fun y hy => hmac _ (Ev.lambda_ok hb1 hy))

theorem sim_named (G : Good prim self) {f : String} {bs body env env' μ} {s : SSt P W}
    {s' : St P W} {r}
    (h : sstep prim self (.expr (.named f bs body)) env s = some r) (hfr : free f = true)
    (ho : okB bs = true) (hb : okL body = true) (he : EnvRel μ env env') (hs : StRel μ s s') :
    Simu μ s' r (Ev prim (.expr (form "let" (.cons (nm f) (.cons (textB bs) (textL body)))))
      env' s') := by
  simp only [sstep] at h
  rw [textB_eq, textL_eq]
  have hfx : f ∉ reserved := by simpa [free] using hfr
  have hp : μ <+: μ ++ [s'.store.length] := List.prefix_append _ _
  have hl : (μ ++ [s'.store.length])[s.store.length]? = some s'.store.length := by
    rw [← hs.len, List.getElem?_concat_length]
  have he2 := (he.mono hp).push hfr hl
  have hvc : VRel (P := P) (μ ++ [s'.store.length])
      (.clos (bs.map Binding.var) body ((f, s.store.length) :: env))
      (.clos (.cons (.ofList ((bs.map Binding.text).map bindVar)) (.ofList (body.map Src.text)))
        ((.name f, s'.store.length) :: env')) := by
    rw [names_bindVar, ← textL_eq]
    exact .clos (okB_free ho) hb he2
  have hs2 := hs.push hvc
  refine Simu.imp (Simu.frame (Simu.seq h
    (fun y hy => G _ _ _ _ _ _ _ _ hy (.inits ho he2) hs2) ?_) (Frame.push _))
    (fun y hy => Ev.named (f := .name f) (fun x hx => by cases hx; exact hfx) he.isFree hy)
  intro vs s μ2 vs' s2' h hv hs hf
  exact G _ _ _ _ _ _ _ _ h (.apply (hvc.mono hf.pre) hv) hs

theorem sim_if (G : Good prim self) {c t : Src} {els env env' μ} {s : SSt P W} {s' : St P W} {r}
    (h : sstep prim self (.expr (.if c t els)) env s = some r) (hc : c.ok = true)
    (ht : t.ok = true) (ho : okL els = true) (he : EnvRel μ env env') (hs : StRel μ s s') :
    Simu μ s' r (Ev prim (.expr (form "if" (.cons c.text (.cons t.text (textL els))))) env' s') := by
  simp only [sstep] at h
  rw [textL_eq]
  refine Simu.imp (Simu.seq h (fun y hy => G _ _ _ _ _ _ _ _ hy (.expr hc he) hs) ?_)
    (fun y hy => Ev.ifR he.isFree hy)
  intro vs s μ2 vs' s2' h hv hs hf
  have hn := hv.hd.isNil
  by_cases hb : (shd vs).isNil = true
  · rw [if_pos hb] at h
    rw [hb] at hn
    exact Simu.imp (G _ _ _ _ _ _ _ _ h (.progn ho (he.mono hf.pre)) hs)
      (fun y hy => Or.inl ⟨hn, hy⟩)
  · rw [if_neg hb] at h
    have hb : (shd vs).isNil = false := by simpa using hb
    rw [hb] at hn
    exact Simu.imp (G _ _ _ _ _ _ _ _ h (.expr ht (he.mono hf.pre)) hs)
      (fun y hy => Or.inr ⟨hn, hy⟩)

theorem sim_when (G : Good prim self) {c : Src} {body env env' μ} {s : SSt P W} {s' : St P W} {r}
    (h : sstep prim self (.expr (.when c body)) env s = some r) (hc : c.ok = true)
    (ho : okL body = true) (he : EnvRel μ env env') (hs : StRel μ s s') :
    Simu μ s' r (Ev prim (.expr (form "when" (.cons c.text (textL body)))) env' s') := by
  simp only [sstep] at h
  rw [textL_eq]
  refine Simu.imp (Simu.seq h (fun y hy => G _ _ _ _ _ _ _ _ hy (.expr hc he) hs) ?_)
    (fun y hy => Ev.macro (k := .when) (xs := c.text :: body.map Src.text)
      (x := form "if" (.ofList [c.text, form "progn" (.ofList (body.map Src.text))]))
      (g := s'.gens) he.isFree (by decide) rfl rfl rfl (Ev.ifR (els := []) he.isFree hy))
  intro vs s μ2 vs' s2' h hv hs hf
  have hn := hv.hd.isNil
  by_cases hb : (shd vs).isNil = true
  · rw [if_pos hb] at h
    rw [hb] at hn
    cases h
    exact Simu.ret (VsRel.one (.data _)) hs (Or.inl ⟨hn, Ev.progn_nil⟩)
  · rw [if_neg hb] at h
    have hb : (shd vs).isNil = false := by simpa using hb
    rw [hb] at hn
    exact Simu.imp (G _ _ _ _ _ _ _ _ h (.progn ho (he.mono hf.pre)) hs)
      (fun y hy => Or.inr ⟨hn, Ev.progn he.isFree hy⟩)

theorem sim_unless (G : Good prim self) {c : Src} {body env env' μ} {s : SSt P W} {s' : St P W}
    {r} (h : sstep prim self (.expr (.unless c body)) env s = some r) (hc : c.ok = true)
    (ho : okL body = true) (he : EnvRel μ env env') (hs : StRel μ s s') :
    Simu μ s' r (Ev prim (.expr (form "unless" (.cons c.text (textL body)))) env' s') := by
  simp only [sstep] at h
  rw [textL_eq]
  refine Simu.imp (Y := Seq (Ev prim (.expr c.text) env' s') (fun v s r =>
      ((hd v).isNil = true ∧ Ev prim (.progn (.ofList (body.map Src.text))) env' s r) ∨
      ((hd v).isNil = false ∧ r = (.ok [.data .nil], s))))
    (Simu.seq h (fun y hy => G _ _ _ _ _ _ _ _ hy (.expr hc he) hs) ?_) ?_
  · intro vs s μ2 vs' s2' h hv hs hf
    have hn := hv.hd.isNil
    by_cases hb : (shd vs).isNil = true
    · rw [if_pos hb] at h
      rw [hb] at hn
      exact Simu.imp (G _ _ _ _ _ _ _ _ h (.progn ho (he.mono hf.pre)) hs)
        (fun y hy => Or.inl ⟨hn, hy⟩)
    · rw [if_neg hb] at h
      have hb : (shd vs).isNil = false := by simpa using hb
      rw [hb] at hn
      cases h
      exact Simu.ret (VsRel.one (.data _)) hs (Or.inr ⟨hn, rfl⟩)
  · intro y hy
    refine Ev.macro (k := .unless) (xs := c.text :: body.map Src.text)
      (x := form "if" (.ofList [form "not" (.ofList [c.text]),
        form "progn" (.ofList (body.map Src.text))]))
      (g := s'.gens) he.isFree (by decide) rfl rfl rfl (Ev.ifR (els := []) he.isFree ?_)
    rcases hy with ⟨er, s, h1, h2⟩ | ⟨v, s, h1, h2⟩
    · exact Or.inl ⟨er, s, Ev.notR he.isFree (Or.inl ⟨er, s, h1, rfl⟩), h2⟩
    · refine Or.inr ⟨_, s, Ev.notR he.isFree (Or.inr ⟨v, s, h1, rfl⟩), ?_⟩
      rcases h2 with ⟨h3, h4⟩ | ⟨h3, h4⟩
      · rw [h3]
        exact Or.inr ⟨rfl, Ev.progn he.isFree h4⟩
      · rw [h3, h4]
        exact Or.inl ⟨rfl, Ev.progn_nil⟩

theorem sim_orE (G : Good prim self) {es env env' μ} {s : SSt P W} {s' : St P W} {r}
    (h : sstep prim self (.expr (.or es)) env s = some r) (ho : okL es = true)
    (he : EnvRel μ env env') (hs : StRel μ s s') :
    Simu μ s' r (Ev prim (.expr (form "or" (textL es))) env' s') := by
  simp only [sstep] at h
  rw [textL_eq]
  refine Simu.imp (G _ _ _ _ _ _ _ _ h (.or ho he) hs) (fun y hy => ?_)
  by_cases hes : es = []
  · subst hes
    have := hy.det Ev.cond_nil
    subst this
    exact Ev.macro (k := .or) (xs := []) (x := nm "nil") (g := s'.gens) he.isFree (by decide)
      rfl rfl rfl (nil_val he.isFree)
  · refine Ev.macro (k := .or) (xs := es.map Src.text)
      (x := form "cond" (.ofList ((es.map Src.text).map fun x => .ofList [x])))
      (g := s'.gens) he.isFree (by decide) rfl rfl ?_ (Ev.cond he.isFree hy)
    simp only [expand, expandOr]
    rw [if_neg (by simpa using hes)]
    rfl

theorem andLoop_eq : ∀ (l : List Sexp) (b : Sexp), andLoop l b = l.foldl (fun b x => wrapAnd x b) b
  | [], _ => rfl
  | x :: l, b => by rw [andLoop, List.foldl_cons, andLoop_eq l]; rfl

theorem sim_andE (G : Good prim self) {es env env' μ} {s : SSt P W} {s' : St P W} {r}
    (h : sstep prim self (.expr (.and es)) env s = some r) (ho : okL es = true)
    (he : EnvRel μ env env') (hs : StRel μ s s') :
    Simu μ s' r (Ev prim (.expr (form "and" (textL es))) env' s') := by
  simp only [sstep] at h
  rw [textL_eq]
  by_cases hes : es = []
  · subst hes
    have h : some (Res.ok [SVal.data (nm "t")], s) = some r := h
    cases h
    exact Simu.ret (VsRel.one (.data _)) hs (Ev.macro (k := .and) (xs := []) (x := nm "t")
      (g := s'.gens) he.isFree (by decide) rfl rfl rfl (t_val he.isFree))
  · rw [if_neg (by simpa using hes)] at h
    refine Simu.imp (G _ _ _ _ _ _ _ _ h (.and ho hes he) hs) (fun y hy => ?_)
    refine Ev.macro (k := .and) (xs := es.map Src.text)
      (x := (es.map Src.text).foldr wrapAnd .nil)
      (g := s'.gens) he.isFree (by decide) rfl rfl ?_ hy
    simp only [expand, expandAnd]
    rw [if_neg (by simpa using hes), andLoop_eq, List.foldl_reverse]
    rfl

theorem sim_prog1 (G : Good prim self) {e : Src} {es env env' μ} {s : SSt P W} {s' : St P W} {r}
    (h : andThen (self (.expr e) env s) (fun v s =>
          andThen (self (.progn es) env s) (fun _ s =>
            some (.ok [shd v], s)) (fun e s => (.err e, s))) (fun e s => (.err e, s)) = some r)
    (ho : e.ok = true)
    (hes : okL es = true) (he : EnvRel μ env env') (hs : StRel μ s s') :
    Simu μ s' r (Ev prim (.expr (form "prog1" (.cons e.text (textL es)))) env' s') := by
  rw [textL_eq]
  have hn := he.isFree "lambda" (by decide)
  refine Simu.imp (Y := Seq (Ev prim (.expr e.text) env' { s' with gens := s'.gens + 1 })
      (fun v s => Seq (Ev prim (.progn (.ofList (es.map Src.text)))
        ((.gen s'.gens, s.store.length) :: env') { s with store := s.store ++ [hd v] })
        (fun _ s2 r => s2.store[s.store.length]? = some (hd v) ∧ r = (.ok [hd v], s2))))
    (Simu.frame (Simu.seq h
      (fun y hy => G _ _ _ _ _ _ _ _ hy (.expr ho he) (hs.gens _)) ?_)
      ⟨List.prefix_rfl, Nat.le_refl _, fun _ _ h => ⟨h, rfl⟩⟩) ?_
  · intro vs s μ2 vs' s2' h hv hs hf
    refine Simu.frame (Simu.seq h (fun y hy => G _ _ _ _ _ _ _ _ hy
      (.progn hes ((he.mono hf.pre).gen _ _)) (hs.extra (hd vs'))) ?_) (Frame.extra _)
    intro ws s μ3 ws' s3' h hw hs3 hf3
    cases h
    have hk := (hf3.keep s2'.store.length (by simp) hs.fresh).2
    refine Simu.ret (VsRel.one (hv.hd.mono hf3.pre)) hs3 ⟨?_, rfl⟩
    rw [hk]
    simp
  · intro y hy
    refine Ev.macro (k := .prog1) (xs := e.text :: es.map Src.text)
      (x := .ofList [.cons (nm "lambda") (.cons (.ofList [.sym (.gen s'.gens)])
        (.ofList (es.map Src.text ++ [.sym (.gen s'.gens)]))), e.text])
      (g := s'.gens + 1) he.isFree (by decide) rfl rfl rfl ?_
    refine Ev.inline (lam := .cons (.ofList [.sym (.gen s'.gens)])
        (.ofList (es.map Src.text ++ [.sym (.gen s'.gens)]))) (by simp [isLambda, nm, hn]) ?_
    rcases hy with ⟨er, s, h1, h2⟩ | ⟨v, s, h1, h2⟩
    · exact Or.inl ⟨er, s, Ev.list_one (Or.inl ⟨er, s, h1, rfl⟩), h2⟩
    · refine Or.inr ⟨_, s, Ev.list_one (Or.inr ⟨v, s, h1, rfl⟩), ?_⟩
      refine Ev.lambda_ok (env' := (.gen s'.gens, s.store.length) :: env')
        (store := s.store ++ [hd v]) rfl (Ev.progn_append _ ?_)
      refine h2.imp (fun _ h => h) ?_
      rintro ws s2 y ⟨h3, h4⟩
      rw [h4]
      have hlk : lookup (.gen s'.gens) ((.gen s'.gens, s.store.length) :: env') s2
          = .ok [hd v] := by
        unfold lookup
        rw [List.lookup_cons]
        simp [h3]
      rw [← hlk]
      exact Ev.sym

theorem sim_prog2 (G : Good prim self) {a b : Src} {es env env' μ} {s : SSt P W} {s' : St P W} {r}
    (h : sstep prim self (.expr (.prog2 a b es)) env s = some r) (ha : a.ok = true)
    (hb : b.ok = true) (hes : okL es = true) (he : EnvRel μ env env') (hs : StRel μ s s') :
    Simu μ s' r (Ev prim (.expr (form "prog2" (.cons a.text (.cons b.text (textL es))))) env' s') := by
  simp only [sstep] at h
  refine Simu.imp (Simu.seq h (fun y hy => G _ _ _ _ _ _ _ _ hy (.expr ha he) hs) ?_)
    (fun y hy => ?_) (Y := Seq (Ev prim (.expr a.text) env' s')
      (fun _ s => Ev prim (.expr (form "prog1" (.cons b.text (textL es)))) env' s))
  · intro vs s μ2 vs' s2' h hv hs hf
    exact sim_prog1 G h hb hes (he.mono hf.pre) hs
  · rw [textL_eq] at hy ⊢
    refine Ev.macro (k := .prog2) (xs := a.text :: b.text :: es.map Src.text)
      (x := form "progn" (.ofList [a.text, form "prog1" (.ofList (b.text :: es.map Src.text))]))
      (g := s'.gens) he.isFree (by decide) rfl rfl rfl (Ev.progn he.isFree (Ev.progn_cons ?_))
    exact hy.imp (fun _ h => h) (fun _ _ _ h => Ev.progn_one h)

theorem sim_whileE (G : Good prim self) {c : Src} {body env env' μ} {s : SSt P W} {s' : St P W}
    {r} (h : sstep prim self (.expr (.while c body)) env s = some r) (hc : c.ok = true)
    (hb : okL body = true) (he : EnvRel μ env env') (hs : StRel μ s s') :
    Simu μ s' r (Ev prim (.expr (form "while" (.cons c.text (textL body)))) env' s') := by
  simp only [sstep] at h
  have hs2 := (hs.gens (s'.gens + 1)).extra
    (.clos (whileLam s'.gens c body) ((.gen s'.gens, s'.store.length) :: env'))
  have hl : LoopAt μ { s' with gens := s'.gens + 1, store := s'.store ++
      [.clos (whileLam s'.gens c body) ((.gen s'.gens, s'.store.length) :: env')] } env
      ((.gen s'.gens, s'.store.length) :: env') s'.gens (whileLam s'.gens c body) := by
    refine ⟨he.gen _ _, s'.store.length, ?_, by simp, hs.fresh, by simp⟩
    rw [List.lookup_cons]; simp
  refine Simu.imp (Simu.frame (G _ _ _ _ _ _ ((.gen s'.gens, s'.store.length) :: env') _ h
    (.while hc hb hl) hs2) (Frame.gens (g := s'.gens + 1) (Frame.extra _))) (fun y hy => ?_)
  rw [textL_eq]
  refine Ev.macro (k := .while) (xs := c.text :: body.map Src.text)
    (x := form "let" (.cons (.sym (.gen s'.gens)) (.cons (.ofList [])
      (.ofList [form "cond" (.ofList [.ofList [c.text, form "progn" (textL body),
        .ofList [.sym (.gen s'.gens)]]])]))))
    (g := s'.gens + 1) he.isFree (by decide) rfl rfl (by rw [textL_eq]; rfl) ?_
  refine Ev.named (f := .gen s'.gens) (bs := []) (fun x hx => by cases hx) he.isFree ?_
  exact Or.inr ⟨_, _, Ev.list_nil, hy⟩

theorem doInit_text (v : DoVar) : doInit v.text = some (.ofList [nm v.var, v.init.text]) := by
  cases v <;> simp [DoVar.text, doInit, DoVar.var, DoVar.init, Src.text, Sexp.car]

theorem doStep_text (v : DoVar) : doStep v.text = v.next.text := by
  cases v <;> simp [DoVar.text, doStep, DoVar.next, Src.text, Sexp.car, Sexp.cdr]

theorem mapM_doInit : ∀ (vars : List DoVar), (vars.map DoVar.text).mapM doInit
    = some (vars.map fun v => Sexp.ofList [nm v.var, v.init.text])
  | [] => rfl
  | v :: vars => by
    rw [List.map_cons, List.mapM_cons, doInit_text, mapM_doInit vars]; rfl

theorem sim_doE (G : Good prim self) {vars} {test : Src} {exprs body env env' μ} {s : SSt P W}
    {s' : St P W} {r} (h : sstep prim self (.expr (.do vars test exprs body)) env s = some r)
    (hv : okD vars = true) (ht : test.ok = true) (hx : okL exprs = true) (hb : okL body = true)
    (he : EnvRel μ env env') (hs : StRel μ s s') :
    Simu μ s' r (Ev prim (.expr (form "do" (.cons (textD vars)
      (.cons (.cons test.text (textL exprs)) (textL body))))) env' s') := by
  simp only [sstep] at h
  have hs2 := (hs.gens (s'.gens + 1)).extra
    (.clos (doLam s'.gens vars test exprs body) ((.gen s'.gens, s'.store.length) :: env'))
  have hl : LoopAt μ { s' with gens := s'.gens + 1, store := s'.store ++
      [.clos (doLam s'.gens vars test exprs body) ((.gen s'.gens, s'.store.length) :: env')] } env
      ((.gen s'.gens, s'.store.length) :: env') s'.gens (doLam s'.gens vars test exprs body) := by
    refine ⟨he.gen _ _, s'.store.length, ?_, by simp, hs.fresh, by simp⟩
    rw [List.lookup_cons]; simp
  refine Simu.imp (Simu.frame (Simu.seq h (fun y hy => G _ _ _ _ _ _ _ _ hy
    (.listP (okD_init hv) hl.1) hs2) ?_ (K := fun vs s => Ev prim
      (.apply (.clos (doLam s'.gens vars test exprs body)
        ((.gen s'.gens, s'.store.length) :: env')) vs)
        ((.gen s'.gens, s'.store.length) :: env') s)) (Frame.gens (g := s'.gens + 1) (Frame.extra _))) (fun y hy => ?_)
  · intro vs s μ2 vs' s2' h hvs hs hf
    exact G _ _ _ _ _ _ _ _ h (.do hv ht hx hb hvs (hl.frame hf)) hs
  · rw [textD_eq, textL_eq body]
    have hvars : (vars.map fun v => Sexp.ofList [nm v.var, v.init.text]).map bindVar
        = (vars.map DoVar.var).map nm := by
      rw [List.map_map, List.map_map]; rfl
    have hvals : (vars.map fun v => Sexp.ofList [nm v.var, v.init.text]).map bindValue
        = (vars.map DoVar.init).map fun e => form "progn" (.ofList [e.text]) := by
      rw [List.map_map, List.map_map]; rfl
    refine Ev.macro (k := .do) (xs := .ofList (vars.map DoVar.text) ::
        .cons test.text (textL exprs) :: body.map Src.text)
      (x := form "let" (.cons (.sym (.gen s'.gens)) (.cons
        (.ofList (vars.map fun v => Sexp.ofList [nm v.var, v.init.text]))
        (.ofList [form "if" (.cons test.text
    (.cons (form "progn" (textL exprs)) (.ofList (body.map Src.text ++
      [.cons (.sym (.gen s'.gens)) (.ofList ((vars.map DoVar.next).map Src.text))]))))]))))
      (g := s'.gens + 1) he.isFree (by decide) rfl rfl ?_ ?_
    · have hst : (vars.map DoVar.text).map doStep = (vars.map DoVar.next).map Src.text := by
        rw [List.map_map, List.map_map]
        exact List.map_congr_left (fun v _ => doStep_text v)
      simp only [expand, expandDo, toList_ofList, Option.bind_eq_bind, Option.bind_some,
        mapM_doInit, hst, Sexp.car, Sexp.cdr]
      rfl
    · refine Ev.named (f := .gen s'.gens) (fun x hx => by cases hx) he.isFree ?_
      rw [hvars, hvals]
      exact hy

/-! ### `case` -/

theorem caseLoop_eq (tem : Sexp) : ∀ (l acc : List Sexp),
    caseLoop tem l acc = acc.reverse ++ l.map (caseClause tem)
  | [], acc => by simp [caseLoop]
  | x :: l, acc => by rw [caseLoop, caseLoop_eq tem l]; simp

theorem memql_any (d : Sexp) : ∀ (is : List Sexp),
    (memqlData d (.ofList is) = .nil) ↔ (is.any fun i => eqlData i d) = false
  | [] => by simp [memqlData, Sexp.ofList]
  | i :: is => by
    simp only [memqlData, Sexp.ofList, List.any_cons]
    cases eqlData i d with
    | true => simp
    | false => simpa using memql_any d is

/-- The test of a clause. -/
theorem case_test {is : List Sexp} (hne : is ≠ []) {es : List Src} {g lt : Nat} {env : Env}
    (hf : Free env) {st : St P W} {v : SVal P} {v' : Val P} {μ}
    (hl : env.lookup (.gen g) = some lt) (hs : st.store[lt]? = some v') (hv : VRel μ v v') :
    ∃ c u, caseClause (.sym (.gen g)) (CaseClause.text (.items is es)) = .cons c (textL es) ∧
      Ev prim (.expr c) env st (.ok [u], st) ∧ u.isNil = !matchesKey is v := by
  have htem := Ev.sym (prim := prim) (s := .gen g) (env := env) (st := st)
  have hlk : lookup (.gen g) env st = .ok [v'] := by
    unfold lookup
    rw [hl]
    dsimp only
    rw [hs]
  rw [hlk] at htem
  cases is with
  | nil => exact absurd rfl hne
  | cons i is =>
    cases is with
    | nil =>
      refine ⟨form "eql" (.ofList [.sym (.gen g), form "quote" (.ofList [i])]), ?_⟩
      have h0 : Ev prim (.expr (nm "eql")) env st (.ok [.fn .eql], st) := by
        have : lookup (.name "eql") env st = .ok [.fn .eql] := lookup_res hf (by decide) rfl
        rw [← this]
        exact Ev.sym
      have hargs : Ev prim (.list (.ofList [.sym (.gen g), form "quote" (.ofList [i])])) env st
          (.ok [v', .data i], st) :=
        Ev.list_cons (Or.inr ⟨_, _, htem, Or.inr ⟨_, _,
          Ev.list_one (Or.inr ⟨_, _, Ev.quote hf, rfl⟩), rfl⟩⟩)
      refine ⟨.data (match v with | .data d => bool (eqlData i d) | _ => .nil), ?_, ?_, ?_⟩
      · simp [caseClause, CaseClause.text, Sexp.car, Sexp.cdr, Sexp.ofList, nm, form]
      · refine Ev.call rfl (Or.inr ⟨_, _, h0, ⟨(fun k hk => nomatch hk),
          Or.inr ⟨_, _, hargs, 1, ?_⟩⟩⟩)
        cases hv <;> rfl
      · cases hv with
        | data d =>
          simp only [matchesKey, List.any_cons, List.any_nil, Bool.or_false]
          cases eqlData i d <;> rfl
        | fn f => rfl
        | clos _ _ _ => rfl
    | cons i2 is =>
      refine ⟨form "memql" (.ofList [.sym (.gen g),
        form "quote" (.ofList [.ofList (i :: i2 :: is)])]), ?_⟩
      have h0 : Ev prim (.expr (nm "memql")) env st (.ok [.fn .memql], st) := by
        have : lookup (.name "memql") env st = .ok [.fn .memql] := lookup_res hf (by decide) rfl
        rw [← this]
        exact Ev.sym
      have hargs : Ev prim (.list (.ofList [.sym (.gen g),
          form "quote" (.ofList [.ofList (i :: i2 :: is)])])) env st
          (.ok [v', .data (.ofList (i :: i2 :: is))], st) :=
        Ev.list_cons (Or.inr ⟨_, _, htem, Or.inr ⟨_, _,
          Ev.list_one (Or.inr ⟨_, _, Ev.quote hf, rfl⟩), rfl⟩⟩)
      refine ⟨.data (match v with
        | .data d => memqlData d (.ofList (i :: i2 :: is)) | _ => .nil), ?_, ?_, ?_⟩
      · simp [caseClause, CaseClause.text, Sexp.car, Sexp.cdr, Sexp.ofList, nm, form]
      · refine Ev.call rfl (Or.inr ⟨_, _, h0, ⟨(fun k hk => nomatch hk),
          Or.inr ⟨_, _, hargs, 1, ?_⟩⟩⟩)
        cases hv <;> rfl
      · cases hv with
        | data d =>
          have := memql_any d (i :: i2 :: is)
          simp only [matchesKey]
          cases hb : ((i :: i2 :: is).any fun i => eqlData i d) with
          | false => rw [this.2 hb]; rfl
          | true =>
            have hn : memqlData d (.ofList (i :: i2 :: is)) ≠ .nil := by
              intro h; rw [this.1 h] at hb; cases hb
            cases hm : memqlData d (.ofList (i :: i2 :: is)) with
            | nil => exact absurd hm hn
            | _ => rfl
        | fn f => rfl
        | clos _ _ _ => rfl

/-- The clauses. -/
theorem case_cond {g lt : Nat} {env : Env} (hf : Free env) {st : St P W} {v : SVal P}
    {v' : Val P} {μ} (hl : env.lookup (.gen g) = some lt) (hs : st.store[lt]? = some v')
    (hv : VRel μ v v') : ∀ (cls : List CaseClause), okK cls = true →
    (∀ es, pick v cls = some es → okL es = true ∧ ∀ r,
      Ev prim (.progn (.ofList (es.map Src.text))) env st r →
      Ev prim (.cond (.ofList ((cls.map CaseClause.text).map (caseClause (.sym (.gen g))))))
        env st r) ∧
    (pick v cls = none →
      Ev prim (.cond (.ofList ((cls.map CaseClause.text).map (caseClause (.sym (.gen g))))))
        env st (.ok [.data .nil], st))
  | [], _ => ⟨(fun es h => nomatch h), fun _ => Ev.cond_nil⟩
  | .otherwise es :: cls, ho => by
    simp only [okK, CaseClause.ok, Bool.and_eq_true, Bool.not_eq_true'] at ho
    refine ⟨?_, fun h => nomatch h⟩
    intro es' h
    cases h
    refine ⟨ho.1.2, fun r hr => ?_⟩
    have ht : caseClause (.sym (.gen g)) (CaseClause.text (.otherwise es))
        = .cons (nm "t") (textL es) := by
      simp [caseClause, CaseClause.text, Sexp.car, Sexp.cdr]
    rw [List.map_cons, List.map_cons, ht]
    refine Ev.cond_cons (Or.inr ⟨_, _, t_val hf, Or.inr (Or.inl ⟨rfl, ?_, ?_⟩)⟩)
    · cases es with
      | nil => simp at ho
      | cons e es => rw [textL_eq]; exact ⟨_, _, rfl⟩
    · rw [textL_eq]; exact hr
  | .items is es :: cls, ho => by
    simp only [okK, CaseClause.ok, Bool.and_eq_true, Bool.not_eq_true'] at ho
    have hne : is ≠ [] := by
      intro h; subst h; simp at ho
    obtain ⟨c, u, h1, h2, h3⟩ := case_test (prim := prim) hne (es := es) hf hl hs hv
    have ih := case_cond hf hl hs hv cls ho.2
    rw [List.map_cons, List.map_cons, h1]
    cases hm : matchesKey is v with
    | true =>
      rw [hm] at h3
      refine ⟨?_, fun h => ?_⟩
      · intro es' h
        simp only [pick, hm, if_true] at h
        cases h
        refine ⟨ho.1.2, fun r hr => ?_⟩
        refine Ev.cond_cons (Or.inr ⟨_, _, h2, Or.inr (Or.inl ⟨h3, ?_, ?_⟩)⟩)
        · cases es with
          | nil => simp at ho
          | cons e es => rw [textL_eq]; exact ⟨_, _, rfl⟩
        · rw [textL_eq]; exact hr
      · simp [pick, hm] at h
    | false =>
      rw [hm] at h3
      refine ⟨?_, fun h => ?_⟩
      · intro es' h
        simp only [pick, hm] at h
        obtain ⟨a, b⟩ := ih.1 es' h
        exact ⟨a, fun r hr => Ev.cond_cons (Or.inr ⟨_, _, h2, Or.inl ⟨h3, b r hr⟩⟩)⟩
      · simp only [pick, hm] at h
        exact Ev.cond_cons (Or.inr ⟨_, _, h2, Or.inl ⟨h3, ih.2 h⟩⟩)

theorem sim_case (G : Good prim self) {key : Src} {cls env env' μ} {s : SSt P W} {s' : St P W}
    {r} (h : sstep prim self (.expr (.case key cls)) env s = some r) (hk : key.ok = true)
    (ho : okK cls = true) (he : EnvRel μ env env') (hs : StRel μ s s') :
    Simu μ s' r (Ev prim (.expr (form "case" (.cons key.text (textK cls)))) env' s') := by
  simp only [sstep] at h
  refine Simu.imp (Y := Seq (Ev prim (.expr key.text) env' { s' with gens := s'.gens + 1 })
      (fun v s => Ev prim (.cond (.ofList ((cls.map CaseClause.text).map
          (caseClause (.sym (.gen s'.gens))))))
        ((.gen s'.gens, s.store.length) :: env') { s with store := s.store ++ [hd v] }))
    (Simu.frame (Simu.seq h
      (fun y hy => G _ _ _ _ _ _ _ _ hy (.expr hk he) (hs.gens _)) ?_)
      ⟨List.prefix_rfl, Nat.le_refl _, fun _ _ h => ⟨h, rfl⟩⟩) ?_
  · intro vs s μ2 vs' s2' h hv hs hf
    have he2 := (he.mono hf.pre).gen s'.gens s2'.store.length
    have hcc := case_cond (prim := prim) (g := s'.gens) he2.isFree
      (st := { s2' with store := s2'.store ++ [hd vs'] }) (lt := s2'.store.length)
      (v' := hd vs') (by rw [List.lookup_cons]; simp) (by simp) hv.hd cls ho
    refine Simu.frame ?_ (Frame.extra (hd vs'))
    cases hp : pick (shd vs) cls with
    | none =>
      rw [hp] at h
      cases h
      exact Simu.ret (VsRel.one (.data _)) (hs.extra _) (hcc.2 hp)
    | some es =>
      rw [hp] at h
      obtain ⟨a, b⟩ := hcc.1 es hp
      exact Simu.imp (G _ _ _ _ _ _ _ _ h (.progn a he2) (hs.extra _)) (fun y hy => b y hy)
  · intro y hy
    rw [textK_eq]
    refine Ev.macro (k := .case) (xs := key.text :: cls.map CaseClause.text)
      (x := form "let" (.cons (.ofList [.ofList [.sym (.gen s'.gens), key.text]])
        (.ofList [form "cond" (.ofList ((cls.map CaseClause.text).map
          (caseClause (.sym (.gen s'.gens)))))])))
      (g := s'.gens + 1) he.isFree (by decide) rfl rfl ?_ ?_
    · simp only [expand, expandCase, caseLoop_eq, List.reverse_nil, List.nil_append]; rfl
    · refine Ev.letR he.isFree ?_
      have hp : ∀ {st : St P W} {z}, Ev prim (.expr key.text) env' st z →
          Ev prim (.expr (form "progn" (.ofList [key.text]))) env' st z :=
        fun hz => Ev.progn he.isFree (Ev.progn_one hz)
      rcases hy with ⟨er, s, h1, h2⟩ | ⟨v, s, h1, h2⟩
      · exact Or.inl ⟨er, s, Ev.list_one (Or.inl ⟨er, s, hp h1, rfl⟩), h2⟩
      · exact Or.inr ⟨_, s, Ev.list_one (Or.inr ⟨v, s, hp h1, rfl⟩),
          Ev.lambda_ok (env' := (.gen s'.gens, s.store.length) :: env')
            (store := s.store ++ [hd v]) rfl
            (Ev.progn_one (Ev.cond (he.isFree.gen _ _) h2))⟩

/-! ### All forms -/

theorem sim_expr (G : Good prim self) {e : Src} {env env' μ} {s : SSt P W} {s' : St P W} {r}
    (h : sstep prim self (.expr e) env s = some r) (ho : e.ok = true)
    (he : EnvRel μ env env') (hs : StRel μ s s') :
    Simu μ s' r (Ev prim (.expr e.text) env' s') := by
  cases e with
  | int n => cases h; simp only [Src.text]; exact Simu.ret (VsRel.one (.data _)) hs Ev.int
  | empty => cases h; simp only [Src.text]; exact Simu.ret (VsRel.one (.data _)) hs Ev.nil
  | quote d =>
    cases h; simp only [Src.text]
    exact Simu.ret (VsRel.one (.data _)) hs (Ev.quote he.isFree)
  | var x => simp only [Src.text]; exact sim_var h (by simpa [Src.ok] using ho) he hs
  | lambda ps body =>
    simp only [Src.ok, Bool.and_eq_true] at ho
    cases h; simp only [Src.text]
    exact Simu.ret (VsRel.one (.clos ho.1 ho.2 he)) hs (Ev.lambda he.isFree)
  | call f args =>
    simp only [Src.ok, Bool.and_eq_true] at ho
    simp only [Src.text]; exact sim_call G h ho.1 ho.2 he hs
  | setq x e =>
    simp only [Src.ok, Bool.and_eq_true] at ho
    simp only [Src.text]; exact sim_setq G h ho.2 he hs
  | progn es =>
    simp only [Src.ok] at ho
    simp only [Src.text]
    rw [textL_eq]
    exact Simu.imp (G _ _ _ _ _ _ _ _ h (.progn ho he) hs) (fun y hy => Ev.progn he.isFree hy)
  | cond cls =>
    simp only [Src.ok] at ho
    simp only [Src.text]
    rw [textC_eq]
    exact Simu.imp (G _ _ _ _ _ _ _ _ h (.cond ho he) hs) (fun y hy => Ev.cond he.isFree hy)
  | «let» bs body =>
    simp only [Src.ok, Bool.and_eq_true] at ho
    simp only [Src.text]; exact sim_let G h ho.1 ho.2 he hs
  | letStar bs body =>
    simp only [Src.ok, Bool.and_eq_true] at ho
    simp only [Src.text]; exact sim_letStarE G h ho.1 ho.2 he hs
  | letrec bs body =>
    simp only [Src.ok, Bool.and_eq_true, Bool.not_eq_true'] at ho
    simp only [Src.text]
    exact sim_letrec G h ho.1.1 ho.2 (by intro hh; subst hh; simp at ho) he hs
  | named f bs body =>
    simp only [Src.ok, Bool.and_eq_true] at ho
    simp only [Src.text]; exact sim_named G h ho.1.1 ho.1.2 ho.2 he hs
  | «if» c t els =>
    simp only [Src.ok, Bool.and_eq_true] at ho
    simp only [Src.text]; exact sim_if G h ho.1.1 ho.1.2 ho.2 he hs
  | case key cls =>
    simp only [Src.ok, Bool.and_eq_true] at ho
    simp only [Src.text]; exact sim_case G h ho.1 ho.2 he hs
  | when c body =>
    simp only [Src.ok, Bool.and_eq_true] at ho
    simp only [Src.text]; exact sim_when G h ho.1 ho.2 he hs
  | «unless» c body =>
    simp only [Src.ok, Bool.and_eq_true] at ho
    simp only [Src.text]; exact sim_unless G h ho.1 ho.2 he hs
  | or es =>
    simp only [Src.ok] at ho
    simp only [Src.text]; exact sim_orE G h ho he hs
  | and es =>
    simp only [Src.ok] at ho
    simp only [Src.text]; exact sim_andE G h ho he hs
  | «do» vars test exprs body =>
    simp only [Src.ok, Bool.and_eq_true] at ho
    simp only [Src.text]; exact sim_doE G h ho.1.1.1 ho.1.1.2 ho.1.2 ho.2 he hs
  | «while» c body =>
    simp only [Src.ok, Bool.and_eq_true] at ho
    simp only [Src.text]; exact sim_whileE G h ho.1 ho.2 he hs
  | prog1 e es =>
    simp only [Src.ok, Bool.and_eq_true] at ho
    simp only [sstep] at h
    simp only [Src.text]; exact sim_prog1 G h ho.1 ho.2 he hs
  | prog2 a b es =>
    simp only [Src.ok, Bool.and_eq_true] at ho
    simp only [Src.text]; exact sim_prog2 G h ho.1.1 ho.1.2 ho.2 he hs

theorem Good.step (G : Good prim self) : Good prim (sstep prim self) := by
  intro j e s r μ j' e' s' h hj hs
  cases hj with
  | expr ho he => exact sim_expr G h ho he hs
  | list ho he => exact sim_list G h ho he hs
  | listP ho he => exact sim_listP G h ho he hs
  | progn ho he => exact sim_progn G h ho he hs
  | cond ho he => exact sim_cond G h ho he hs
  | inits ho he => exact sim_inits G h ho he hs
  | letStar ho hb he => exact sim_letStar G h ho hb he hs
  | assign ho hb hne he => exact sim_assign G h ho hb hne he hs
  | or ho he => exact sim_or G h ho he hs
  | and ho hne he => exact sim_and G h ho hne he hs
  | «while» hc hb hl => exact sim_while G h hc hb hl hs
  | «do» hv ht hx hb hvs hl => exact sim_do G h hv ht hx hb hvs hl hs
  | apply hf hvs => exact sim_apply G h hf hvs hs

theorem good (n : Nat) : Good prim (sev (W := W) prim n) := by
  induction n with
  | zero => intro j e s r μ j' e' s' h; cases h
  | succ n ih => exact ih.step

end Rep.Forms
