/-
Internal definitions: the properties.
-/
import Verif.Define.Step
import Verif.Forms.Props

namespace Rep.Define
open Rep.Forms

variable {P W : Type} {prim : P → List (Option Sexp) → W → Ans × W} {str : Int → Bool}

/-! ### `P.plain` and `P.out` -/

theorem curry_R : ∀ (h : Head) {e e' : Src}, h.params.all free = true → R e e' →
    R (h.curry e) (h.curry e')
  | .name _, _, _, _, hr => hr
  | .app h ps, _, _, hp, hr => by
    simp only [Head.params, List.all_append, Bool.and_eq_true] at hp
    exact curry_R h hp.2 (.lambda hp.1 (.same (.cons hr .nil)))

theorem doc_RB {b : List Src} {e : Src} (h : RB b [e]) (hb : b ≠ []) :
    ∀ (doc : List Int), RB (doc.map .int ++ b) (doc.map .int ++ [e])
  | [] => h
  | n :: doc => .doc (by simp [hb]) (by simp) (doc_RB h hb doc)

theorem docBody_RB {doc : List Int} {b : Body} (hd : docOk str doc b = true)
    (h : RB b.plain [b.out]) : RB (doc.map .int ++ b.plain) (doc.map .int ++ [b.out]) := by
  match b with
  | .mk [] [] =>
    simp only [docOk, List.isEmpty_iff] at hd
    subst hd
    exact h
  | .mk [] (e :: es) => exact doc_RB h (by simp [Body.plain, plainL]) doc
  | .mk (d :: ds) es => exact doc_RB h (by simp [Body.plain]) doc

theorem okL_append : ∀ (l es : List Src), okL (l ++ es) = true ↔ okL l = true ∧ okL es = true
  | [], es => by simp [okL]
  | e :: l, es => by simp [okL, okL_append l es, and_assoc]

theorem okL_ints (doc : List Int) : okL (doc.map .int) = true := by
  induction doc with
  | nil => rfl
  | cons n doc ih => simpa [okL, Src.ok] using ih

mutual
theorem plain_out : ∀ (e : ISrc), e.plain.ok = true → e.ok str = true → R e.plain e.out
  | .int n, _, _ => .int n
  | .empty, _, _ => .empty
  | .var x, _, _ => .var x
  | .quote d, _, _ => .quote d
  | .lambda ps doc body, hp, ho => by
    simp only [ISrc.plain, Src.ok, Bool.and_eq_true, okL_append] at hp
    simp only [ISrc.ok, Bool.and_eq_true] at ho
    exact .lambda hp.1 (docBody_RB ho.1.2 (plain_body body hp.2.2 ho.2))
  | .call f args, hp, ho => by
    simp only [ISrc.plain, Src.ok, Bool.and_eq_true] at hp
    simp only [ISrc.ok, Bool.and_eq_true] at ho
    exact .call (plain_out f hp.1 ho.1) (plain_list args hp.2 ho.2)
  | .setq x e, hp, ho => by
    simp only [ISrc.plain, Src.ok, Bool.and_eq_true] at hp
    simp only [ISrc.ok, Bool.and_eq_true] at ho
    exact .setq (plain_out e hp.2 ho.2)
  | .progn es, hp, ho => by
    simp only [ISrc.plain, Src.ok] at hp
    simp only [ISrc.ok] at ho
    exact .progn (plain_list es hp ho)
  | .cond cs, hp, ho => by
    simp only [ISrc.plain, Src.ok] at hp
    simp only [ISrc.ok] at ho
    exact .cond (plain_clauses cs hp ho)
  | .let bs body, hp, ho => by
    simp only [ISrc.plain, Src.ok, Bool.and_eq_true] at hp
    simp only [ISrc.ok, Bool.and_eq_true] at ho
    exact .let (plain_bindings bs hp.1 ho.1) (plain_body body hp.2 ho.2)
  | .letStar bs body, hp, ho => by
    simp only [ISrc.plain, Src.ok, Bool.and_eq_true] at hp
    simp only [ISrc.ok, Bool.and_eq_true] at ho
    exact .letStar (plain_bindings bs hp.1 ho.1) (plain_body body hp.2 ho.2)
  | .letrec bs body, hp, ho => by
    simp only [ISrc.plain, Src.ok, Bool.and_eq_true] at hp
    simp only [ISrc.ok, Bool.and_eq_true] at ho
    exact .letrec (plain_bindings bs hp.1.1 ho.1) (plain_body body hp.2 ho.2)
  | .named f bs body, hp, ho => by
    simp only [ISrc.plain, Src.ok, Bool.and_eq_true] at hp
    simp only [ISrc.ok, Bool.and_eq_true] at ho
    have hv : outV bs = (outB bs).map bindingForm := by
      clear hp ho
      induction bs with
      | nil => rfl
      | cons b bs ih =>
        simp only [outV, outB, List.map_cons, ih]
        cases b <;> rfl
    simp only [ISrc.plain, ISrc.out, hv]
    exact .named hp.1.1 (plain_bindings bs hp.1.2 ho.1.1.2) (plain_body body hp.2 ho.2)
  | .if c t [], hp, ho => by
    simp only [ISrc.plain, Src.ok, Bool.and_eq_true] at hp
    simp only [ISrc.ok, Bool.and_eq_true] at ho
    exact .if2 (plain_out c hp.1.1 ho.1.1) (plain_out t hp.1.2 ho.1.2)
  | .if c t (e :: els), hp, ho => by
    simp only [ISrc.plain, Src.ok, Bool.and_eq_true, plainL, okL] at hp
    simp only [ISrc.ok, Bool.and_eq_true, iokL] at ho
    exact .if3 (plain_out c hp.1.1 ho.1.1) (plain_out t hp.1.2 ho.1.2)
      (plain_out e hp.2.1 ho.2.1) (plain_list els hp.2.2 ho.2.2)
  | .case k cs, hp, ho => by
    simp only [ISrc.plain, Src.ok, Bool.and_eq_true] at hp
    simp only [ISrc.ok, Bool.and_eq_true] at ho
    exact .case (plain_out k hp.1 ho.1) (plain_cases cs hp.2 ho.2)
  | .when c body, hp, ho => by
    simp only [ISrc.plain, Src.ok, Bool.and_eq_true] at hp
    simp only [ISrc.ok, Bool.and_eq_true] at ho
    exact .when (plain_out c hp.1 ho.1) (plain_list body hp.2 ho.2)
  | .unless c body, hp, ho => by
    simp only [ISrc.plain, Src.ok, Bool.and_eq_true] at hp
    simp only [ISrc.ok, Bool.and_eq_true] at ho
    exact .unless (plain_out c hp.1 ho.1) (plain_list body hp.2 ho.2)
  | .or [], _, _ => .or0
  | .or (e :: es), hp, ho => by
    simp only [ISrc.plain, Src.ok, Bool.and_eq_true, plainL, okL] at hp
    simp only [ISrc.ok, Bool.and_eq_true, iokL] at ho
    have hv : ∀ l : List ISrc, outO l = (outL l).map (.mk · []) := by
      intro l
      induction l with
      | nil => rfl
      | cons b bs ih => simp [outO, outL, ih]
    simp only [ISrc.plain, plainL, ISrc.out, hv]
    exact .or (plain_out e hp.1 ho.1) (plain_list es hp.2 ho.2)
  | .and es, hp, ho => by
    simp only [ISrc.plain, Src.ok] at hp
    simp only [ISrc.ok] at ho
    exact .and (plain_list es hp ho)
theorem plain_list : ∀ (es : List ISrc), okL (plainL es) = true → iokL str es = true →
    RL (plainL es) (outL es)
  | [], _, _ => .nil
  | e :: es, hp, ho => by
    simp only [plainL, okL, Bool.and_eq_true] at hp
    simp only [iokL, Bool.and_eq_true] at ho
    exact .cons (plain_out e hp.1 ho.1) (plain_list es hp.2 ho.2)
theorem plain_body : ∀ (b : Body), okL b.plain = true → b.ok str = true → RB b.plain [b.out]
  | .mk [] [], _, _ => .nil
  | .mk [] [e], hp, ho => by
    simp only [Body.plain, plainL, okL, Bool.and_eq_true] at hp
    simp only [Body.ok, iokD, iokL, Bool.and_eq_true] at ho
    exact .same (.cons (plain_out e hp.1 ho.2.1) .nil)
  | .mk [] (e :: e2 :: es), hp, ho => by
    simp only [Body.plain, plainL, okL, Bool.and_eq_true] at hp
    simp only [Body.ok, iokD, iokL, Bool.and_eq_true] at ho
    exact .wrap (.cons (plain_out e hp.1 ho.2.1) (.cons (plain_out e2 hp.2.1 ho.2.2.1)
      (plain_list es hp.2.2 ho.2.2.2)))
  | .mk (d :: ds) es, hp, ho => by
    simp only [Body.plain, okL, Src.ok, okB, Bool.and_eq_true] at hp
    simp only [Body.ok, iokD, Bool.and_eq_true] at ho
    exact .same (.cons (.letrec (plain_def d (plainD ds) (outD ds) hp.1.1.1.1 ho.1.1
      (plain_defs ds hp.1.1.1.2 ho.1.2)) (.same (plain_list es hp.1.2 ho.2))) .nil)
theorem plain_def : ∀ (d : Def) (bs bs' : List Binding), d.plain.ok = true → d.ok str = true →
    RBs bs bs' → RBs (d.plain :: bs) (d.out :: bs')
  | .var x e, bs, bs', hp, ho, h => by
    simp only [Def.plain, Binding.ok, okL, Bool.and_eq_true] at hp
    simp only [Def.ok, Bool.and_eq_true] at ho
    exact .forms hp.1 (.cons (plain_out e hp.2.1 ho.2) .nil) h
  | .fn hd ps doc body, bs, bs', hp, ho, h => by
    simp only [Def.plain, Binding.ok, okL, Bool.and_eq_true] at hp
    simp only [Def.ok, Bool.and_eq_true] at ho
    obtain ⟨hl, hpar⟩ := curry_ok hd _ hp.2.1
    simp only [Src.ok, Bool.and_eq_true, okL_append] at hl
    exact .forms hp.1 (.cons (curry_R hd hpar (.lambda hl.1
      (docBody_RB ho.1.2 (plain_body body hl.2.2 ho.2)))) .nil) h
theorem plain_defs : ∀ (ds : List Def), okB (plainD ds) = true → iokD str ds = true →
    RBs (plainD ds) (outD ds)
  | [], _, _ => .nil
  | d :: ds, hp, ho => by
    simp only [plainD, okB, Bool.and_eq_true] at hp
    simp only [iokD, Bool.and_eq_true] at ho
    exact plain_def d _ _ hp.1 ho.1 (plain_defs ds hp.2 ho.2)
theorem plain_bindings : ∀ (bs : List IBinding), okB (plainB bs) = true → iokB str bs = true →
    RBs (plainB bs) (outB bs)
  | [], _, _ => .nil
  | .plain x :: bs, hp, ho => by
    simp only [plainB, okB, Bool.and_eq_true, IBinding.plain', Binding.ok] at hp
    simp only [iokB, Bool.and_eq_true] at ho
    exact .plain hp.1 (plain_bindings bs hp.2 ho.2)
  | .forms x es :: bs, hp, ho => by
    simp only [plainB, okB, Bool.and_eq_true, IBinding.plain', Binding.ok] at hp
    simp only [iokB, Bool.and_eq_true, IBinding.ok] at ho
    exact .forms hp.1.1 (plain_list es hp.1.2 ho.1.2) (plain_bindings bs hp.2 ho.2)
theorem plain_clauses : ∀ (cs : List IClause), okC (plainC cs) = true → iokC str cs = true →
    RC (plainC cs) (outC cs)
  | [], _, _ => .nil
  | .mk c es :: cs, hp, ho => by
    simp only [plainC, okC, Bool.and_eq_true, IClause.plain, Clause.ok] at hp
    simp only [iokC, Bool.and_eq_true, IClause.ok] at ho
    exact .cons (plain_out c hp.1.1 ho.1.1) (plain_list es hp.1.2 ho.1.2)
      (plain_clauses cs hp.2 ho.2)
theorem plain_cases : ∀ (cs : List ICase), okK (plainK cs) = true → iokK str cs = true →
    RK (plainK cs) (outK cs)
  | [], _, _ => .nil
  | .items is es :: cs, hp, ho => by
    simp only [plainK, okK, Bool.and_eq_true, ICase.plain, CaseClause.ok] at hp
    simp only [iokK, Bool.and_eq_true, ICase.ok] at ho
    exact .items (plain_list es hp.1.2 ho.1) (plain_cases cs hp.2 ho.2)
  | .otherwise es :: cs, hp, ho => by
    simp only [plainK, okK, Bool.and_eq_true, ICase.plain, CaseClause.ok] at hp
    simp only [iokK, Bool.and_eq_true, ICase.ok] at ho
    exact .otherwise (plain_list es hp.1.2 ho.1) (plain_cases cs hp.2 ho.2)
end

/-! ### The program made is one of Verif/Forms -/

theorem andOut_ok : ∀ {es : List Src}, okL es = true → (andOut es).ok = true
  | [], _ => by decide
  | [e], h => by simpa [andOut, Src.ok, okC, Clause.ok, okL] using h
  | e :: e2 :: es, h => by
    have h' := h
    simp only [okL, Bool.and_eq_true] at h'
    have := andOut_ok (es := e2 :: es) (by simp only [okL, Bool.and_eq_true]; exact h'.2)
    simp [andOut, Src.ok, okC, Clause.ok, okL, h'.1, this]

mutual
theorem R_ok : ∀ {e e' : Src}, R e e' → e.ok = true → e'.ok = true
  | _, _, .int _, h => h
  | _, _, .empty, h => h
  | _, _, .quote _, h => h
  | _, _, .var _, h => h
  | _, _, .lambda _ hb, h => by
    simp only [Src.ok, Bool.and_eq_true] at h ⊢
    exact ⟨h.1, RB_ok hb h.2⟩
  | _, _, .call hf ha, h => by
    simp only [Src.ok, Bool.and_eq_true] at h ⊢
    exact ⟨R_ok hf h.1, RL_ok ha h.2⟩
  | _, _, .setq he, h => by
    simp only [Src.ok, Bool.and_eq_true] at h ⊢
    exact ⟨h.1, R_ok he h.2⟩
  | _, _, .progn hl, h => RL_ok hl h
  | _, _, .cond hc, h => RC_ok hc h
  | _, _, .let hbs hb, h => by
    simp only [Src.ok, Bool.and_eq_true] at h ⊢
    exact ⟨RBs_ok hbs h.1, RB_ok hb h.2⟩
  | _, _, .letStar hbs hb, h => by
    simp only [Src.ok, Bool.and_eq_true] at h ⊢
    exact ⟨RBs_ok hbs h.1, RB_ok hb h.2⟩
  | _, _, .letrec hbs hb, h => by
    simp only [Src.ok, Bool.and_eq_true] at h ⊢
    exact ⟨⟨RBs_ok hbs h.1.1, RB_ne hb h.1.2⟩, RB_ok hb h.2⟩
  | _, _, .named hf hbs hb, h => by
    simp only [Src.ok, Bool.and_eq_true] at h
    have hv := RBs_vals hbs h.1.2
    have h2 := RB_ok hb h.2
    have h3 := hbs.free
    rw [← hbs.vars] at h3
    simp only [Src.ok, okB, Binding.ok, okL, Bool.and_eq_true, readable, Bool.or_eq_true,
      List.isEmpty_cons, Bool.not_false, true_and, and_true]
    exact ⟨⟨h.1.1, h3, h2⟩, Or.inl h.1.1, hv⟩
  | _, _, .if2 hc ht, h => by
    simp only [Src.ok, Bool.and_eq_true] at h
    simp [Src.ok, okC, Clause.ok, okL, R_ok hc h.1.1, R_ok ht h.1.2]
  | _, _, .if3 hc ht he hl, h => by
    simp only [Src.ok, okL, Bool.and_eq_true] at h
    have : readable "t" = true := by decide
    simp [Src.ok, okC, Clause.ok, okL, R_ok hc h.1.1, R_ok ht h.1.2, R_ok he h.2.1,
      RL_ok hl h.2.2, this]
  | _, _, .case hk hcs, h => by
    simp only [Src.ok, Bool.and_eq_true] at h ⊢
    exact ⟨R_ok hk h.1, RK_ok hcs h.2⟩
  | _, _, .when hc hb, h => by
    simp only [Src.ok, Bool.and_eq_true] at h
    simp [Src.ok, okC, Clause.ok, okL, R_ok hc h.1, RL_ok hb h.2]
  | _, _, .unless hc hb, h => by
    simp only [Src.ok, Bool.and_eq_true] at h
    have : readable "not" = true := by decide
    simp [Src.ok, okC, Clause.ok, okL, R_ok hc h.1, RL_ok hb h.2, this]
  | _, _, .or0, _ => by decide
  | _, _, .or (es' := es') he hl, h => by
    simp only [Src.ok, okL, Bool.and_eq_true] at h
    have h1 := R_ok he h.1
    have h2 := RL_ok hl h.2
    have : ∀ l : List Src, okL l = true → okC (l.map (.mk · [])) = true := by
      intro l hl
      induction l with
      | nil => rfl
      | cons a l ih =>
        simp only [okL, Bool.and_eq_true] at hl
        simp [okC, Clause.ok, okL, hl.1, ih hl.2]
    exact this _ (by simp [okL, h1, h2])
  | _, _, .and hl, h => andOut_ok (RL_ok hl h)
theorem RB_ok : ∀ {es es' : List Src}, RB es es' → okL es = true → okL es' = true
  | _, _, .same h, ho => RL_ok h ho
  | _, _, .wrap h, ho => by simp [okL, Src.ok, RL_ok h ho]
  | _, _, .nil, _ => by decide
  | _, _, .doc _ _ h, ho => by
    simp only [okL, Bool.and_eq_true] at ho ⊢
    exact ⟨by simp [Src.ok], RB_ok h ho.2⟩
theorem RB_ne : ∀ {es es' : List Src}, RB es es' → (!es.isEmpty) = true → (!es'.isEmpty) = true
  | _, _, .same h, ho => by rw [← h.isEmpty]; exact ho
  | _, _, .wrap _, _ => rfl
  | _, _, .nil, _ => rfl
  | _, _, .doc _ _ _, _ => rfl
theorem RL_ok : ∀ {es es' : List Src}, RL es es' → okL es = true → okL es' = true
  | _, _, .nil, _ => rfl
  | _, _, .cons h h2, ho => by
    simp only [okL, Bool.and_eq_true] at ho ⊢
    exact ⟨R_ok h ho.1, RL_ok h2 ho.2⟩
theorem RBs_ok : ∀ {bs bs' : List Binding}, RBs bs bs' → okB bs = true → okB bs' = true
  | _, _, .nil, _ => rfl
  | _, _, .plain hx h, ho => by
    simp only [okB, Binding.ok, Bool.and_eq_true] at ho ⊢
    exact ⟨hx, RBs_ok h ho.2⟩
  | _, _, .forms hx hl h, ho => by
    simp only [okB, Binding.ok, Bool.and_eq_true] at ho ⊢
    exact ⟨⟨hx, RL_ok hl ho.1.2⟩, RBs_ok h ho.2⟩
theorem RBs_vals : ∀ {bs bs' : List Binding}, RBs bs bs' → okB bs = true →
    okL (bs'.map bindingForm) = true
  | _, _, .nil, _ => rfl
  | _, _, .plain hx h, ho => by
    simp only [okB, Binding.ok, Bool.and_eq_true] at ho
    simp [bindingForm, okL, Src.ok, RBs_vals h ho.2]
  | _, _, .forms hx hl h, ho => by
    simp only [okB, Binding.ok, Bool.and_eq_true] at ho
    simp [bindingForm, okL, Src.ok, RBs_vals h ho.2, RL_ok hl ho.1.2]
theorem RC_ok : ∀ {cs cs' : List Clause}, RC cs cs' → okC cs = true → okC cs' = true
  | _, _, .nil, _ => rfl
  | _, _, .cons hc hl h, ho => by
    simp only [okC, Clause.ok, Bool.and_eq_true] at ho ⊢
    exact ⟨⟨R_ok hc ho.1.1, RL_ok hl ho.1.2⟩, RC_ok h ho.2⟩
theorem RK_ok : ∀ {cs cs' : List CaseClause}, RK cs cs' → okK cs = true → okK cs' = true
  | _, _, .nil, _ => rfl
  | _, _, .items hl h, ho => by
    simp only [okK, CaseClause.ok, Bool.and_eq_true, ← hl.isEmpty] at ho ⊢
    exact ⟨⟨ho.1.1, RL_ok hl ho.1.2⟩, RK_ok h ho.2⟩
  | _, _, .otherwise hl h, ho => by
    simp only [okK, CaseClause.ok, Bool.and_eq_true, ← hl.isEmpty] at ho ⊢
    exact ⟨⟨ho.1.1, RL_ok hl ho.1.2⟩, RK_ok h ho.2⟩
end

/-! ### The theorem -/

theorem VsR.shown {vs vs' : List (SVal P)} (h : VsR vs vs') :
    vs'.map SVal.shown = vs.map SVal.shown := by
  induction h with
  | nil => rfl
  | cons h _ ih =>
    simp only [List.map_cons, ih]
    cases h <;> rfl

theorem globals_free (gs : List (String × Global P)) (hg : gs.all (fun g => free g.1) = true) :
    EFree ((gs.map Prod.fst).zipIdx) := by
  intro x hx
  have : ∀ (l : List String) (k : Nat), (∀ y ∈ l, free y = true) → (l.zipIdx k).lookup x = none := by
    intro l
    induction l with
    | nil => intro k _; rfl
    | cons y l ih =>
      intro k hl
      have hy := hl y (by simp)
      have hne : (x == y) = false := by
        have : x ≠ y := by
          rintro rfl
          simp only [free, decide_eq_true_eq] at hy
          exact hy hx
        simpa using this
      simp only [List.zipIdx_cons, List.lookup, hne]
      exact ih _ (fun z hz => hl z (by simp [hz]))
  refine this _ _ (fun y hy => ?_)
  obtain ⟨g, hg1, rfl⟩ := List.mem_map.1 hy
  exact List.all_eq_true.1 hg g hg1

/-- Bodies with internal definitions: `(with-internal-definitions BODY...)` expands into a form
which, evaluated, gives the value and the effects of the same body with `letrec` in
place of its internal definitions, at every level; and the expansion and the
value are the same in every run.  What is missing: that the expansion does not
finish when the meaning is undefined; `do`, `while`, `prog1` and `prog2` forms; and the
programs that the guards exclude. -/
theorem C79_defines_partial {n : Nat} {gs : List (String × Global P)} {b : Body} {w : W}
    {r : Seen P W} (hg : gs.all (fun g => free g.1) = true) (hp : okL b.plain = true)
    (ho : b.ok str = true) (h : meaning prim n gs (.progn b.plain) w = some r) :
    ∃ y, (∃ k, ∀ m, k ≤ m → withInternalDefinitions str m b.text = some y) ∧
      (∃ m, evaluate prim m gs y w = some r) ∧
      ∀ m r', evaluate prim m gs y w = some r' → r' = r := by
  refine ⟨b.out.text, ?_, ?_⟩
  · obtain ⟨k, hk⟩ := scan_internals b hp ho BoundOk.nil
    exact ⟨k, fun m hm => by
      have := hk m hm 0
      simp only at this
      rw [withInternalDefinitions, this]; rfl⟩
  have hrel := plain_body b hp ho
  have hok : b.out.ok = true := by
    have := RB_ok hrel hp
    simpa [okL] using this
  -- the meaning of the program made
  obtain ⟨⟨r0, s0⟩, h0, rfl⟩ := Option.map_eq_some_iff.1 h
  have hinit : SR (P := P) (W := W)
      ⟨gs.map fun g => match g.2 with | .datum d => .data d | .fn p => .fn (.prim p), w⟩
      ⟨gs.map fun g => match g.2 with | .datum d => .data d | .fn p => .fn (.prim p), w⟩ := by
    refine ⟨?_, rfl⟩
    show VsR _ _
    clear h hg h0
    induction gs with
    | nil => exact .nil
    | cons g gs ih =>
      refine .cons ?_ ih
      obtain ⟨x, g⟩ := g
      cases g
      · exact .data _
      · exact .fn _
  cases n with
  | zero => cases h0
  | succ n =>
    have h1 : sev prim n (.progn b.plain) ((gs.map Prod.fst).zipIdx)
        ⟨gs.map fun g => match g.2 with | .datum d => .data d | .fn p => .fn (.prim p), w⟩ =
        some (r0, s0) := by
      simp only [sev, sstep] at h0
      exact h0
    obtain ⟨r', ⟨m, hm⟩, hrr⟩ := good n _ _ _ _ _ _ (.progn hrel) (globals_free gs hg) hinit h1
    have h2 := hm (m + 1) (by omega)
    simp only [sev, sstep] at h2
    have hmean : meaning prim m gs b.out w = some ⟨r0.shown SVal.shown,
        (s0.store.take gs.length).map SVal.shown, s0.world⟩ := by
      unfold meaning
      refine (congrArg (Option.map _) h2).trans ?_
      cases hrr with
      | ok hv hs =>
        simp only [Option.map_some, Res.shown, VsR.shown hv, List.map_take, VsR.shown hs.store,
          hs.world]
      | err hs =>
        simp only [Option.map_some, Res.shown, List.map_take, VsR.shown hs.store, hs.world]
    exact C76_forms_partial hg hok hmean

/-! ### Instances -/

/-- Constants that stand for strings. -/
def strings (n : Int) : Bool := decide (100 ≤ n)

/-- ```
(define start n)
(define ((adder k) x) "documentation" (define neg (- 0 k)) (emit neg) (- x neg))
(define (down i) (if (eql i 0) 0 (emit i) (down (- i 1))))
(down start)
(let ((y ((adder 5) 2))) (define (twice f) (f (f y))) (twice (adder 1)))
``` -/
def sample : Body :=
  .mk
    [.var "start" (.var "n"),
     .fn (.app (.name "adder") ["k"]) ["x"] [100]
       (.mk [.var "neg" (.call (.var "-") [.int 0, .var "k"])]
         [.call (.var "emit") [.var "neg"], .call (.var "-") [.var "x", .var "neg"]]),
     .fn (.name "down") ["i"] []
       (.mk [] [.if (.call (.var "eql") [.var "i", .int 0]) (.int 0)
         [.call (.var "emit") [.var "i"],
          .call (.var "down") [.call (.var "-") [.var "i", .int 1]]]])]
    [.call (.var "down") [.var "start"],
     .let [.forms "y" [.call (.call (.var "adder") [.int 5]) [.int 2]]]
       (.mk [.fn (.name "twice") ["f"] [] (.mk []
           [.call (.var "f") [.call (.var "f") [.var "y"]]])]
         [.call (.var "twice") [.call (.var "adder") [.int 1]]])]

def sampleSeen : Seen Two (List Sexp) :=
  ⟨.ok [.datum (.int 9)], [.fn (.prim .emit), .fn (.prim .sub), .datum (.int 3)],
   [.int 3, .int 2, .int 1, .int (-5), .int (-1), .int (-1)]⟩

theorem sample_meaning :
    meaning two 60 twoGlobals (.progn sample.plain) [] = some sampleSeen := by
  decide +kernel

/-- The hypotheses of the theorem hold of `sample`. -/
example : ∃ y, (∃ k, ∀ m, k ≤ m → withInternalDefinitions strings m sample.text = some y) ∧
    (∃ m, evaluate two m twoGlobals y [] = some sampleSeen) ∧
    ∀ m r', evaluate two m twoGlobals y [] = some r' → r' = sampleSeen :=
  C79_defines_partial (by decide +kernel) (by decide +kernel) (by decide +kernel) sample_meaning

/-! ### Where definitions do not do what is documented -/

/-- The documented meaning of the body gives `r`, its expansion `r'`. -/
def Differs (b : Body) (r r' : Res (Shown Two)) : Prop :=
  (meaning two 30 [] (.progn b.plain) []).map Seen.result = some r ∧
  ((withInternalDefinitions strings 30 b.text).bind fun y =>
    (evaluate two 40 [] y []).map Seen.result) = some r' ∧ r ≠ r'

instance (b r r') : Decidable (Differs b r r') := inferInstanceAs (Decidable (_ ∧ _ ∧ _))

/-- A function whose body is a string returns the string: with
`(define (f) "hello")`, `(f)`.  But the string is taken as documentation, and the
function returns false. -/
theorem C79_string_body_violated :
    Differs (.mk [.fn (.name "f") [] [] (.mk [] [.int 100])] [.call (.var "f") []])
      (.ok [.datum (.int 100)]) (.ok [.datum .nil]) := by
  decide +kernel

/-- An internal definition binds its name in the whole body.  But a definition of
the name of a macro does not hide the macro: with `(define (unless x) x)`,
`(unless 5)` returns false; a parameter with that name does hide it. -/
theorem C79_macro_name_violated :
    Differs (.mk [.fn (.name "unless") ["x"] [] (.mk [] [.var "x"])]
        [.call (.var "unless") [.int 5]])
      (.ok [.datum (.int 5)]) (.ok [.datum .nil]) ∧
    ((withInternalDefinitions strings 30 (Body.text
        (.mk [.fn (.name "f") ["unless"] [] (.mk [] [.call (.var "unless") [.int 5]])]
          [.call (.var "f") [.lambda ["x"] [] (.mk [] [.var "x"])]]))).bind fun y =>
      (evaluate two 40 [] y []).map Seen.result) = some (.ok [.datum (.int 5)]) := by
  decide +kernel

/-- The value of a body of definitions only is that of no forms, false; but
`(define x 1)` in a body by itself gives 1. -/
theorem C79_only_definitions_violated :
    Differs (.mk [.var "x" (.int 1)] []) (.ok [.datum .nil]) (.ok [.datum (.int 1)]) := by
  decide +kernel

end Rep.Define
