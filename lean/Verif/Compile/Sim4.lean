import Verif.Compile.Sim3

/-
`let*` and `letrec`.
-/

namespace Rep.Compile

variable {U : Setup}

theorem F_new {w : World} {S : SSt} {st : TSt} (hw : WOk U w S st) {l : Nat} (hl : w.n ≤ l) :
    w.F l = none := by
  cases h : w.F l with
  | none => rfl
  | some c =>
    have := (List.getElem?_eq_some_iff.1 (hw.F l c h).2).1
    rw [← hw.n] at this
    omega

theorem j_new {w : World} {S : SSt} {st : TSt} (hw : WOk U w S st) {l : Nat} (hl : w.n ≤ l) :
    w.j l = none := by
  cases h : w.j l with
  | none => rfl
  | some c =>
    obtain ⟨v, _, hv, _⟩ := hw.j _ _ h
    have := (List.getElem?_eq_some_iff.1 hv).1
    rw [← hw.n] at this
    omega

/-- One new binding. -/
theorem bind_one {fr : Fr} {f : List Ent} {fs : List (List Ent)} {w : World} {S : SSt}
    {env bst : List Nat} {slots : Nat → Option TVal} {st : TSt} {v : SVal} {v' : TVal}
    {pc : Nat} {stk : List TVal} {Q : Out → Prop} {x : Name} {n : Nat} {lex : Lex} {k : List I}
    (hF : FR U fr (f :: fs) w S env bst slots) (hw : WOk U w S st) (hv : VR U w v v') (fk : Bool)
    (hlex : lex = ((f :: fs).flatten ++ fr.Eb).map Ent.lex)
    (hc : CodeAt fr.C pc (.lexBind x ((x, n) :: lex) :: k))
    (hk : ∀ w' env' bst' slots' st',
      FR U fr ((⟨x, n, w.n, fk⟩ :: f) :: fs) w' { S with σ := S.σ ++ [v] } env' bst' slots' →
      WOk U w' { S with σ := S.σ ++ [v] } st' → w.Le w' → w'.n = w.n + 1 → w'.F = w.F →
      (∀ l, l < w.n → w'.j l = w.j l) → Ext fr.m w.n w S w' { S with σ := S.σ ++ [v] } →
      GoesTo U.P U.table Q (U.mk' fr (pc + 1) stk env' bst' slots' st')) :
    GoesTo U.P U.table Q (U.mk' fr pc (v' :: stk) env bst slots st) := by
  obtain ⟨h1, h2⟩ := hw.alloc [v] w.F (fun l => if l < w.n then w.K l else fk) (fun _ _ => rfl)
    (fun l hl => by simp [hl]) (by
      intro l c hl hn
      rw [F_new hw hn] at hl
      exact absurd hl (by simp))
  have hF1 : FR U fr (f :: fs) ⟨w.n + [v].length, w.j, w.F, fun l => if l < w.n then w.K l else fk⟩
      { S with σ := S.σ ++ [v] } env bst slots := by
    refine hF.move h2 (fun e _ h => h) ?_
    intro e he _
    refine List.getElem?_append_left ?_
    rw [← hw.n]
    exact hF.lt e (List.mem_append_left _ he)
  have hbc : BindCode U fr.Eb.length (f :: fs).flatten [⟨x, n, w.n, fk⟩]
      [.lexBind x ((x, n) :: lex)] := by
    have := bindAll_code (U := U) (own := (f :: fs).flatten) (Eb := fr.Eb)
      (es := [⟨x, n, w.n, fk⟩]) (xs := [x]) (n := n) (by simp [Ent.lex])
    rw [← hlex] at this
    exact this
  have hcc : CodeAt fr.C pc ([.lexBind x ((x, n) :: lex)] ++ k) := hc
  refine bind_many (vs' := [v']) hF1 h1 ?_ (by simp) (.cons ⟨v, ?_, hv.mono h2⟩ .nil) hcc.left hbc ?_
  · intro e he
    rw [List.mem_singleton] at he
    subst he
    refine ⟨by simp, hF.m, j_new hw (Nat.le_refl _), by simp, ?_⟩
    intro e' he'
    exact Nat.ne_of_lt (hF.lt e' (List.mem_append_left _ he'))
  · simp [hw.n]
  · intro w' env' bst' slots' st' q1 q2 q3 q4 q5 q6 q7
    have hj : ∀ l, l < w.n → w'.j l = w.j l := by
      intro l hl
      refine q7 l ?_
      intro e he
      rw [List.mem_singleton] at he
      subst he
      exact Nat.ne_of_lt hl
    refine hk w' env' bst' slots' st' (by simpa using q1) q2 (h2.trans q3) q4 q5 hj
      ⟨h2.trans q3, hj, fun l _ => by rw [q5], ?_⟩
    intro l hl _
    exact List.getElem?_append_left (by rw [← hw.n]; exact Nat.lt_of_lt_of_le hl hF.m)

theorem Coh.cons {X : List Name} {ρ : Env} {E : List Ent} (h : Coh X ρ E) (e : Ent) :
    Coh X ((e.name, e.loc) :: ρ) (e :: E) := by
  intro x hx
  simp only [List.map_cons, look, Ent.src]
  split
  · rfl
  · exact h x hx

/-! ### `let*` -/

def SimLets (U : Setup) (n : Nat) : Prop :=
  ∀ {fr : Fr} {c : Ctx} {rf : Bool} {bs : Binds} {b : Exp} {s : CSt} {k : List I} {lex : Lex}
    {s1 : CSt} {k' : List I} {s' : CSt} {sc : Scope}
    {X : List Name} {av : List Tgt} {ρ : Env} {f : List Ent} {fs : List (List Ent)} {w : World}
    {S : SSt} {env bst : List Nat} {slots : Nat → Option TVal} {st : TSt} {stk : List TVal}
    {pc : Nat} {r : SRes SVal} {Q : Out → Prop},
    cLets c bs s = some (k, lex, s1) → cExp { c with lex := lex } rf b s1 = some (k', s') →
    Fin U s' →
    Stat U c rf sc s X av (fun x => mentionsB x bs || mentions x b)
      (fun x => !mentionsB x bs && tailB x b) → goodL sc bs = true → good (bs.after sc) b = true →
    CodeAt fr.C pc (k ++ (k' ++ [.unbind])) →
    Here (U := U) fr c sc X ρ (f :: fs) w S env bst slots st →
    Avs U fr r stk Q w S av ρ fs → evalLets U.P n ρ S bs b = some r →
    (∀ v S1, r = .ok v S1 → EndK U fr w S fs (pc + k.length + k'.length + 1) stk Q v S1) →
    EndE (U := U) Q r → GoesTo U.P U.table Q (U.mk' fr pc stk env bst slots st)

/-- The body of a `let*` or a `letrec`. -/
theorem sim_body {n : Nat} (hE : SimE U n) {fr : Fr} {c : Ctx} {rf : Bool} {b : Exp} {s : CSt}
    {k' : List I} {s' : CSt} {sc : Scope}
    {X : List Name} {av : List Tgt} {ρ : Env} {f : List Ent} {fs : List (List Ent)} {w : World}
    {S : SSt} {env bst : List Nat} {slots : Nat → Option TVal} {st : TSt} {stk : List TVal}
    {pc : Nat} {r : SRes SVal} {Q : Out → Prop} (h : cExp c rf b s = some (k', s')) (hfin : Fin U s')
    (hs : Stat U c rf sc s X av (fun x => mentions x b) (fun x => tailB x b))
    (hg : good sc b = true) (hc : CodeAt fr.C pc (k' ++ [.unbind]))
    (hh : Here (U := U) fr c sc X ρ (f :: fs) w S env bst slots st)
    (ha : Avs U fr r stk Q w S av ρ fs) (he : eval U.P n ρ S b = some r)
    (hok : ∀ v S1, r = .ok v S1 → EndK U fr w S fs (pc + k'.length + 1) stk Q v S1)
    (herr : EndE (U := U) Q r) : GoesTo U.P U.table Q (U.mk' fr pc stk env bst slots st) := by
  refine hE (r := r) h hfin hs hg hc.left hh (ha.ext (fun _ _ => rfl) [f]) he ?_ herr
  intro v S1 hr w1 env1 bst1 slots1 st1 v1 p1 p2 p3 p4
  obtain ⟨env2, bst2, q1, q2⟩ := step_unbind' (st := st1) p1 (v1 :: stk) hc.right
  refine GoesTo.step q1 ?_
  exact hok v S1 hr w1 env2 bst2 slots1 st1 v1 q2 p2 p3 p4

theorem simLets {n : Nat} (hE : ∀ m, m < n → SimE U m) : SimLets U n := by
  induction n with
  | zero =>
    intro fr c rf bs b s k lex s1 k' s' sc X av ρ f fs w S env bst slots st stk pc r Q _ _ _ _ _ _ _ _
      _ he
    simp [evalLets] at he
  | succ n ih =>
    have ih : SimLets U n := ih (fun m hm => hE m (Nat.lt_succ_of_lt hm))
    have hE : SimE U n := hE n (Nat.lt_succ_self n)
    intro fr c rf bs b s k lex s1 k' s' sc X av ρ f fs w S env bst slots st stk pc r Q h hb hfin hs hg
      hgb hc hh ha he hok herr
    cases bs with
    | nil =>
      simp only [cLets, Option.some.injEq, Prod.mk.injEq] at h
      obtain ⟨rfl, rfl, rfl⟩ := h
      simp only [evalLets] at he
      refine sim_body hE hb hfin ?_ hgb hc hh ha he hok herr
      refine hs.tail hs.sok (fun h => h) (fun _ => rfl) rfl rfl (fun _ _ => rfl) ?_ ?_
      · intro x hx; simpa [mentionsB] using hx
      · intro x hx; simpa [mentionsB] using hx
    | cons x e r' =>
      simp only [cLets, Option.bind_eq_bind, Option.bind_eq_some_iff] at h
      obtain ⟨⟨k1, s2⟩, h1, ⟨k2, lex2, s3⟩, h2, h⟩ := h
      simp only [Option.some.injEq, Prod.mk.injEq] at h
      obtain ⟨rfl, rfl, rfl⟩ := h
      simp only [goodL, Bool.and_eq_true] at hg
      obtain ⟨⟨hge, hfr⟩, hgr⟩ := hg
      have hfx : look x sc = none := (fresh_spec hfr).2 x (.head _)
      simp only [evalLets] at he
      have hs2 : SOk U.Gf c sc s2 := hs.sok.exp h1 hge rfl rfl
      have hsc : ∀ y, look y sc ≠ none → look y ((x, none) :: sc) = look y sc := by
        intro y hy
        have : x ≠ y := fun h => hy (by rw [← h]; exact hfx)
        rw [look, if_neg this]
      have hs3 : SOk U.Gf { c with lex := (x, s2.cell) :: c.lex } ((x, none) :: sc)
          { s2 with cell := s2.cell + 1 } := by
        refine hs2.ext (new := [(x, s2.cell)]) (hs2.cells.cons x)
          (tagsOk_of hs2.tags rfl rfl (Nat.le_succ _)) rfl (by simp) ?_ hsc (fun r hr => .inl hr)
          (Nat.le_refl _)
        intro y hy
        simp only [List.map_cons, List.map_nil, List.mem_singleton] at hy
        subst hy
        exact ⟨hfx, by simp [look]⟩
      have g2 := (cLets_grow { c with lex := (x, s2.cell) :: c.lex } r'
        { s2 with cell := s2.cell + 1 } h2).later
      have g3 := (cExp_grow _ rf b s3 hb).later
      have gs : Later s2 s' := (later_cell (Nat.le_succ _)).trans (g2.trans g3)
      have hm : ∀ y, (mentionsB y (.cons x e r') || mentions y b) = false →
          mentions y e = false ∧ (mentionsB y r' || mentions y b) = false := by
        intro y hy
        simp only [mentionsB, Bool.or_eq_false_iff] at hy ⊢
        exact ⟨hy.1.1, hy.1.2, hy.2⟩
      have ht : ∀ y, (!mentionsB y (.cons x e r') && tailB y b) = true →
          mentions y e = false ∧ (!mentionsB y r' && tailB y b) = true := by
        intro y hy
        simp only [mentionsB, Bool.and_eq_true, Bool.not_eq_true', Bool.or_eq_false_iff] at hy ⊢
        exact ⟨hy.1.1, hy.1.2, hy.2⟩
      simp only [List.append_assoc, List.cons_append] at hc
      have hcb : CodeAt fr.C (pc + k1.length) (.lexBind x ((x, s2.cell) :: c.lex) ::
          (k2 ++ (k' ++ [.unbind]))) := hc.right
      cases hv : eval U.P n ρ S e with
      | none => simp [hv] at he
      | some r1 =>
        rw [hv] at he
        refine hE (av := []) (r := r1) h1 (hfin.before gs)
          (hs.sub hs.sok rfl (fun x hx => .inl hx) hs.inSc (fun y hy => (hm y hy).1)
            (fun y hy => (ht y hy).1)) hge hc.left hh trivial hv ?_ ?_
        · intro v S1 hr1 w1 env1 bst1 slots1 st1 v1 p1 p2 p3 p4
          subst hr1
          simp only at he
          rw [← p2.n] at he
          refine bind_one p1 p2 p3 false hh.sco.lex hcb ?_
          intro w2 env2 bst2 slots2 st2 q1 q2 q3 q4 q5 q6 q7
          have hx : Ext fr.m w.n w S w2 { S1 with σ := S1.σ ++ [v] } := p4.trans q7 p4.le.n hh.fr.m
          refine ih (r := r) (f := ⟨x, s2.cell, w1.n, false⟩ :: f) h2 hb hfin
            (hs.tail hs3 (fun h => h) (fun _ => rfl) rfl rfl hsc (fun y hy => (hm y hy).2)
              (fun y hy => (ht y hy).2)) hgr hgb hcb.tail
            ⟨hh.ok, ⟨?_, hh.sco.coh.cons ⟨x, s2.cell, w1.n, false⟩, ?_, hh.sco.bp⟩, q1, q2⟩
            ((ha.later hx hh.fr.m).ext ?_ []) he ?_ herr
          · show (x, s2.cell) :: c.lex = _
            rw [hh.sco.lex]
            rfl
          · intro e' he' hk'
            rcases List.mem_cons.1 he' with rfl | he'
            · rfl
            · refine hh.sco.kind e' he' ?_
              rw [hsc] at hk'
              · exact hk'
              · refine hs.sok.names (e'.name, e'.cell) ?_
                rw [hh.sco.lex]
                exact List.mem_map_of_mem he'
          · intro t ht'
            have : x ≠ t.x := fun h => by
              have := hs.ar t ht'
              rw [← h, hfx] at this
              exact absurd this (by simp)
            rw [look, if_neg this]
          · intro v' S' hr'
            have := (hok v' S' hr').later hx hh.fr.m
            simp only [List.length_append, List.length_cons] at this
            rw [show pc + k1.length + 1 + k2.length + k'.length + 1 =
              pc + (k1.length + (k2.length + 1)) + k'.length + 1 by omega]
            exact this
        · intro e1 S1 hr1
          subst hr1
          simp only [Option.some.injEq] at he
          exact herr e1 S1 he.symm

/-! ### `letrec` -/

theorem Binds.scope_other {x : Name} {e : Exp} {r : Binds} (h : ∀ ps b, e ≠ .lam ps b) :
    (Binds.cons x e r).scope = (x, none) :: r.scope := by
  cases e with
  | lam ps b => exact absurd rfl (h ps b)
  | _ => rfl

theorem Binds.scope_names : (bs : Binds) → bs.scope.map (·.1) = bs.names
  | .nil => rfl
  | .cons x e r => by
    by_cases h : ∃ ps b, e = .lam ps b
    · obtain ⟨ps, b, rfl⟩ := h
      simp [Binds.scope, Binds.names, scope_names r]
    · rw [scope_other (fun ps b hh => h ⟨ps, b, hh⟩)]
      simp [Binds.names, scope_names r]

theorem nodup_map_inj {α β : Type} {f : α → β} {l : List α} (h : (l.map f).Nodup) {a b : α}
    (ha : a ∈ l) (hb : b ∈ l) (hf : f a = f b) : a = b := by
  induction l with
  | nil => simp at ha
  | cons c l ih =>
    rw [List.map_cons, List.nodup_cons] at h
    rcases List.mem_cons.1 ha with ha1 | ha1
    · rcases List.mem_cons.1 hb with hb1 | hb1
      · rw [ha1, hb1]
      · rw [ha1] at hf
        exact absurd (by rw [hf]; exact List.mem_map_of_mem hb1) h.1
    · rcases List.mem_cons.1 hb with hb1 | hb1
      · rw [hb1] at hf
        exact absurd (by rw [← hf]; exact List.mem_map_of_mem ha1) h.1
      · exact ih h.2 ha1 hb1

/-- An entry is the first one of its name. -/
theorem ent_split {E : List Ent} (h : (E.map (·.name)).Nodup) {e : Ent} (he : e ∈ E) :
    ∃ E1 E2, E = E1 ++ e :: E2 ∧ ∀ e' ∈ E1, e'.name ≠ e.name := by
  obtain ⟨E1, E2, rfl⟩ := List.append_of_mem he
  refine ⟨E1, E2, rfl, ?_⟩
  intro e' he' hn
  rw [List.map_append, List.nodup_append] at h
  exact h.2.2 _ (List.mem_map_of_mem he') _ (List.mem_map_of_mem (.head _)) hn

theorem look_split {E1 E2 : List Ent} {e : Ent} (h : ∀ e' ∈ E1, e'.name ≠ e.name) :
    look e.name ((E1 ++ e :: E2).map Ent.src) = some e.loc := by
  rw [List.map_append, look_append, look_none.2]
  · simp [look, Ent.src]
  · intro hm
    rw [List.map_map] at hm
    obtain ⟨e', he', hn⟩ := List.mem_map.1 hm
    exact h e' he' hn

/-- After a function has been compiled. -/
theorem SOk.lam {Gf : Name → Option Clo} {c : Ctx} {sc : Scope} {s s1 : CSt} {nm : Option Name}
    {ps : List Name} {b : Exp} {k code : List I} (h : SOk Gf c sc s)
    (hc : cExp (lambdaHead c nm ps s).2.1 true b (lambdaHead c nm ps s).2.2 = some (k, s1))
    (hf : fresh sc ps = true) (hg : good (vars ps ++ sc) b = true)
    (hn : ∀ x, nm = some x → look x sc ≠ none) : SOk Gf c sc (enclose c code s1).2 := by
  have h1 := lambdaHead_sok h hf hn
  have g1 := (cExp_grow _ true b _ hc).later.cell
  have t1 := (cExp_tag _ true b _ hc hg h1.cells h1.tags).1
  refine h.next rfl rfl ?_ (tagsOk_of t1 rfl rfl (Nat.le_refl _))
  refine Nat.le_trans ?_ g1
  exact (bindAll_spec ps.reverse c.lex s.cell).1

def SimSets (U : Setup) (n : Nat) : Prop :=
  ∀ {fr : Fr} {c : Ctx} {rf : Bool} {bs : Binds} {b : Exp} {s : CSt} {k : List I}
    {s1 : CSt} {k' : List I} {s' : CSt} {sc : Scope}
    {X : List Name} {av : List Tgt} {ρ : Env} {f : List Ent} {fs : List (List Ent)} {w0 w : World}
    {S0 S : SSt} {env bst : List Nat} {slots : Nat → Option TVal} {st : TSt} {stk : List TVal}
    {pc : Nat} {r : SRes SVal} {Q : Out → Prop},
    cSets c bs s = some (k, s1) → cExp c rf b s1 = some (k', s') → Fin U s' →
    Stat U c rf sc s X av (fun x => mentionsB x bs || mentions x b)
      (fun x => !mentionsB x bs && tailB x b) → goodB sc bs = true → good sc b = true →
    CodeAt fr.C pc (k ++ (k' ++ [.unbind])) →
    Here (U := U) fr c sc X ρ (f :: fs) w S env bst slots st →
    Avs U fr r stk Q w0 S0 av ρ fs → Ext fr.m w0.n w0 S0 w S → fr.m ≤ w0.n →
    (∀ x m, (x, m) ∈ bs.scope → look x sc = some m ∧ x ∉ X ∧
      (m ≠ none → ∃ e ∈ f, e.name = x ∧ e.fk = true ∧ w.F e.loc = none ∧ w0.n ≤ e.loc)) →
    bs.names.Nodup → evalSets U.P n ρ S bs b = some r →
    (∀ v S1, r = .ok v S1 → EndK U fr w0 S0 fs (pc + k.length + k'.length + 1) stk Q v S1) →
    EndE (U := U) Q r → GoesTo U.P U.table Q (U.mk' fr pc stk env bst slots st)

theorem simSets {n : Nat} (hE : ∀ m, m < n → SimE U m) : SimSets U n := by
  induction n with
  | zero =>
    intro fr c rf bs b s k s1 k' s' sc X av ρ f fs w0 w S0 S env bst slots st stk pc r Q _ _ _ _ _ _ _
      _ _ _ _ _ _ he
    simp [evalSets] at he
  | succ n ih =>
    have ih : SimSets U n := ih (fun m hm => hE m (Nat.lt_succ_of_lt hm))
    have hE : SimE U n := hE n (Nat.lt_succ_self n)
    intro fr c rf bs b s k s1 k' s' sc X av ρ f fs w0 w S0 S env bst slots st stk pc r Q h hb hfin hs
      hg hgb hc hh ha hx0 hm0 hbs hnd he hok herr
    cases bs with
    | nil =>
      simp only [cSets, Option.some.injEq, Prod.mk.injEq] at h
      obtain ⟨rfl, rfl⟩ := h
      simp only [evalSets] at he
      refine sim_body hE hb hfin ?_ hgb hc hh (ha.later hx0 hm0) he
        (fun v S1 hr => (hok v S1 hr).later hx0 hm0) herr
      refine hs.tail hs.sok (fun h => h) (fun _ => rfl) rfl rfl (fun _ _ => rfl) ?_ ?_
      · intro x hx; simpa [mentionsB] using hx
      · intro x hx; simpa [mentionsB] using hx
    | cons x e r' =>
      simp only [goodB, Bool.and_eq_true] at hg
      simp only [evalSets] at he
      have hm : ∀ y, (mentionsB y (.cons x e r') || mentions y b) = false →
          mentions y e = false ∧ (mentionsB y r' || mentions y b) = false := by
        intro y hy
        simp only [mentionsB, Bool.or_eq_false_iff] at hy ⊢
        exact ⟨hy.1.1, hy.1.2, hy.2⟩
      have ht : ∀ y, (!mentionsB y (.cons x e r') && tailB y b) = true →
          mentions y e = false ∧ (!mentionsB y r' && tailB y b) = true := by
        intro y hy
        simp only [mentionsB, Bool.and_eq_true, Bool.not_eq_true', Bool.or_eq_false_iff] at hy ⊢
        exact ⟨hy.1.1, hy.1.2, hy.2⟩
      simp only [Binds.names, List.nodup_cons] at hnd
      have hrn : ∀ y m, (y, m) ∈ r'.scope → y ≠ x := by
        intro y m hy hyx
        have := List.mem_map_of_mem (f := (·.1)) hy
        rw [Binds.scope_names] at this
        exact hnd.1 (by rw [← hyx]; exact this)
      by_cases hlam : ∃ ps b0, e = .lam ps b0
      · obtain ⟨ps, b0, rfl⟩ := hlam
        simp only [cSets, Option.bind_eq_bind, Option.bind_eq_some_iff] at h
        obtain ⟨⟨k1, s2⟩, h1, ⟨k2, s3⟩, h2, h⟩ := h
        simp only [Option.some.injEq, Prod.mk.injEq] at h
        obtain ⟨rfl, rfl⟩ := h
        simp only [good, Bool.and_eq_true] at hg
        obtain ⟨⟨hf, hgl⟩, hgr⟩ := hg
        obtain ⟨hxs, hxX, hent⟩ := hbs x (some ps.length) (.head _)
        obtain ⟨e, hef, hen, hefk, hFe, hle⟩ := hent (by simp)
        have hs2 : SOk U.Gf c sc (enclose c ((lambdaHead c (some x) ps s).1 ++ k1 ++ [.ret]) s2).2 :=
          hs.sok.lam h1 hf hgl (fun y hy => by
            simp only [Option.some.injEq] at hy
            rw [← hy, hxs]; simp)
        have hfin2 : Fin U (enclose c ((lambdaHead c (some x) ps s).1 ++ k1 ++ [.ret]) s2).2 :=
          hfin.before ((cSets_grow c r' _ h2).later.trans (cExp_grow c rf b s3 hb).later)
        -- where the function is
        have hnames : (((f :: fs).flatten ++ fr.Eb).map (·.name)).Nodup := by
          have := hs.sok.nodup
          rw [hh.sco.lex, List.map_map] at this
          exact this
        have heE : e ∈ (f :: fs).flatten ++ fr.Eb := by
          simp only [List.flatten_cons, List.mem_append]
          exact .inl (.inl hef)
        obtain ⟨E1, E2, hsp, hE1⟩ := ent_split hnames heE
        have hlook : look x ρ = some e.loc := by
          rw [hh.sco.coh x hxX, hsp, ← hen]
          exact look_split hE1
        have hlt : e.loc < S.σ.length := by
          rw [← hh.w.n]
          exact hh.fr.lt e heE
        have hK : w.K e.loc = true := by rw [hh.fr.fk e heE, hefk]
        -- from now on the function has this name
        let clo : Clo := ⟨ps, b0, ρ⟩
        let w1 : World := ⟨w.n, w.j, fun l => if l = e.loc then some clo else w.F l, w.K⟩
        have hle1 : w.Le w1 := by
          refine ⟨Nat.le_refl _, fun _ _ h => h, ?_, fun _ _ => rfl⟩
          intro l c' hl
          show (if l = e.loc then some clo else w.F l) = some c'
          rw [if_neg]
          · exact hl
          · intro hll
            rw [hll, hFe] at hl
            exact absurd hl (by simp)
        have hF1 : FR U fr (f :: fs) w1 S env bst slots :=
          hh.fr.move hle1 (fun _ _ h => h) (fun _ _ _ => rfl)
        have hv : VR U w1 (.fn clo) (.fn ⟨s2.fns.length, env⟩) := by
          refine .fn (make_clo (X := X) h1 hfin2 hs.sok hf hgl hh.sco hF1 ?_ hs.inSc ?_)
          · intro y hy
            rcases hs.hid y hy with hy | ⟨t, ht', rfl, hi⟩
            · exact (hm y hy).1
            · exact (ht _ (hs.tl t ht' hi)).1
          · intro y hy
            simp only [Option.some.injEq] at hy
            subst hy
            exact ⟨.inl ⟨e.loc, hlook, if_pos rfl⟩, hxs, hxX⟩
        cases n with
        | zero => simp [eval] at he
        | succ n =>
          simp only [eval] at he
          have hset : setVar ρ S x (.fn clo) = { S with σ := S.σ.set e.loc (.fn clo) } := by
            simp [setVar, hlook]
          rw [hset] at he
          have hce : CodeAt fr.C pc (.enclose s2.fns.length :: (varset c x :: (k2 ++
              (k' ++ [.unbind])))) := by
            simpa [enclose] using hc
          refine GoesTo.step (step_enclose hce) ?_
          obtain ⟨slots', st', q1, q2, q3, q4⟩ := step_set_ent (w' := w1) hh.ok hh.sco.lex hh.fr hh.w
            hsp hen (fun e' he' => by rw [← hen]; exact hE1 e' he') hle1 rfl rfl (by
              intro l c' hl
              by_cases hll : l = e.loc
              · subst hll
                simp only [w1, if_true, Option.some.injEq] at hl
                subst hl
                exact ⟨hK, by rw [List.getElem?_set_self hlt]⟩
              · simp only [w1, if_neg hll] at hl
                have := hh.w.F l c' hl
                refine ⟨this.1, ?_⟩
                rw [List.getElem?_set_ne (fun h => hll h.symm)]
                exact this.2) hv hce.tail stk
          refine GoesTo.step q1 ?_
          have hx1 : Ext fr.m w0.n w0 S0 w1 { S with σ := S.σ.set e.loc (.fn clo) } := by
            refine ⟨hx0.le.trans hle1, hx0.j, ?_, ?_⟩
            · intro l hl
              show (if l = e.loc then some clo else w.F l) = w0.F l
              rw [if_neg (by omega)]
              exact hx0.F l hl
            · intro l hl hj
              rw [← hx0.σ l hl hj]
              exact q4 l hl (by rw [hx0.j l (Nat.lt_of_lt_of_le hl hm0)]; exact hj)
          refine ih (r := r) h2 hb hfin
            (hs.tail hs2 (fun h => h) (fun _ => rfl) rfl rfl (fun _ _ => rfl)
              (fun y hy => (hm y hy).2) (fun y hy => (ht y hy).2)) hgr hgb hce.tail.tail
            (hh.next q2 q3 rfl rfl) ha hx1 hm0 ?_ hnd.2 he ?_ herr
          · intro y m hy
            obtain ⟨a1, a2, a3⟩ := hbs y m (.tail _ hy)
            refine ⟨a1, a2, fun hmn => ?_⟩
            obtain ⟨e', b1, b2, b3, b4, b5⟩ := a3 hmn
            refine ⟨e', b1, b2, b3, ?_, b5⟩
            show (if e'.loc = e.loc then some clo else w.F e'.loc) = none
            rw [if_neg]
            · exact b4
            · intro hll
              have hn1 : (f.map (·.loc)).Nodup := by
                have := hh.fr.nodup
                rw [List.flatten_cons, List.map_append, List.nodup_append] at this
                exact this.1
              have := nodup_map_inj hn1 b1 hef hll
              rw [this] at b2
              exact hrn y m hy (by rw [← b2, hen])
          · intro v' S' hr'
            have := hok v' S' hr'
            simp only [enclose, List.length_append, List.length_cons, List.length_nil] at this
            rw [show pc + 1 + 1 + k2.length + k'.length + 1 =
              pc + (0 + 1 + (k2.length + 1)) + k'.length + 1 by omega]
            exact this
      · have hlam' : ∀ ps b0, e ≠ .lam ps b0 := fun ps b0 h => hlam ⟨ps, b0, h⟩
        rw [cSets_other hlam'] at h
        simp only [Option.bind_eq_bind, Option.bind_eq_some_iff] at h
        obtain ⟨⟨k1, s2⟩, h1, ⟨k2, s3⟩, h2, h⟩ := h
        simp only [Option.some.injEq, Prod.mk.injEq] at h
        obtain ⟨rfl, rfl⟩ := h
        rw [Binds.scope_other hlam'] at hbs
        obtain ⟨hxs, hxX, _⟩ := hbs x none (.head _)
        have hs2 : SOk U.Gf c sc s2 := hs.sok.exp h1 hg.1 rfl rfl
        have gs : Later s2 s' := (cSets_grow c r' _ h2).later.trans (cExp_grow c rf b s3 hb).later
        simp only [List.append_assoc, List.cons_append] at hc
        have hcs : CodeAt fr.C (pc + k1.length) (varset c x :: (k2 ++ (k' ++ [.unbind]))) := hc.right
        cases hv : eval U.P n ρ S e with
        | none => simp [hv] at he
        | some r1 =>
          rw [hv] at he
          refine hE (av := []) (r := r1) h1 (hfin.before gs)
            (hs.sub hs.sok rfl (fun x hx => .inl hx) hs.inSc (fun y hy => (hm y hy).1)
              (fun y hy => (ht y hy).1)) hg.1 hc.left hh trivial hv ?_ ?_
          · intro v S1 hr1 w1 env1 bst1 slots1 st1 v1 p1 p2 p3 p4
            subst hr1
            simp only at he
            have hh1 := hh.next (c' := c) p1 p2 rfl rfl
            obtain ⟨slots', st', q1, q2, q3, q4⟩ := step_set hh.ok hh1.sco hs2 p1 p2 hxX
              (by simp [assignable, hxs]) p3 hcs stk
            refine GoesTo.step q1 ?_
            have hx1 : Ext fr.m w0.n w0 S0 w1 (setVar ρ S1 x v) := by
              have := hx0.trans p4 hx0.le.n hm0
              exact this.trans q4 this.le.n hm0
            refine ih (r := r) h2 hb hfin
              (hs.tail hs2 (fun h => h) (fun _ => rfl) rfl rfl (fun _ _ => rfl)
                (fun y hy => (hm y hy).2) (fun y hy => (ht y hy).2)) hg.2 hgb hcs.tail
              (hh1.next q2 q3 rfl rfl) ha hx1 hm0 ?_ hnd.2 he ?_ herr
            · intro y m hy
              obtain ⟨a1, a2, a3⟩ := hbs y m (.tail _ hy)
              refine ⟨a1, a2, fun hmn => ?_⟩
              obtain ⟨e', b1, b2, b3, b4, b5⟩ := a3 hmn
              refine ⟨e', b1, b2, b3, ?_, b5⟩
              rw [p4.F _ (hh.fr.lt e' ?_)]
              · exact b4
              · simp only [List.flatten_cons, List.mem_append]
                exact .inl (.inl b1)
            · intro v' S' hr'
              have := hok v' S' hr'
              simp only [List.length_append, List.length_cons] at this
              rw [show pc + k1.length + 1 + k2.length + k'.length + 1 =
                pc + (k1.length + (k2.length + 1)) + k'.length + 1 by omega]
              exact this
          · intro e1 S1 hr1
            subst hr1
            simp only [Option.some.injEq] at he
            exact herr e1 S1 he.symm

/-- The variables of a `letrec`, in the order in which they are bound. -/
def lents : Scope → Nat → Nat → List Ent
  | [], _, _ => []
  | (x, m) :: r, n, l => ⟨x, n, l, m.isSome⟩ :: lents r (n + 1) (l + 1)

theorem lents_lex (bs : Scope) (n l : Nat) (lex : Lex) :
    (bindNils (bs.map (·.1)) lex n).2.1 = (lents bs n l).reverse.map Ent.lex ++ lex := by
  induction bs generalizing n l lex with
  | nil => rfl
  | cons e bs ih =>
    obtain ⟨x, m⟩ := e
    simp only [List.map_cons, bindNils, lents, List.reverse_cons, List.map_append, List.map_nil]
    rw [ih (n + 1) (l + 1)]
    simp [Ent.lex]

theorem lents_src (bs : Scope) (n l : Nat) :
    (lents bs n l).map Ent.src = (bs.map (·.1)).zip (List.range' l bs.length) := by
  induction bs generalizing n l with
  | nil => rfl
  | cons e bs ih =>
    obtain ⟨x, m⟩ := e
    simp [lents, Ent.src, List.range'_succ, ih]

theorem lents_mem {bs : Scope} {n l : Nat} {x : Name} {m : Option Nat} (h : (x, m) ∈ bs) :
    ∃ e ∈ lents bs n l, e.name = x ∧ e.fk = m.isSome ∧ l ≤ e.loc := by
  induction bs generalizing n l with
  | nil => simp at h
  | cons e bs ih =>
    obtain ⟨y, m'⟩ := e
    rcases List.mem_cons.1 h with hh | h
    · simp only [Prod.mk.injEq] at hh
      exact ⟨⟨y, n, l, m'.isSome⟩, .head _, hh.1.symm, by rw [hh.2], Nat.le_refl _⟩
    · obtain ⟨e, h1, h2, h3, h4⟩ := ih (n := n + 1) (l := l + 1) h
      exact ⟨e, .tail _ h1, h2, h3, by omega⟩

theorem lents_kind {bs : Scope} {n l : Nat} {e : Ent} (h : e ∈ lents bs n l) :
    ∃ m, (e.name, m) ∈ bs ∧ e.fk = m.isSome := by
  induction bs generalizing n l with
  | nil => simp [lents] at h
  | cons e' bs ih =>
    obtain ⟨y, m'⟩ := e'
    rcases List.mem_cons.1 h with rfl | h
    · exact ⟨m', .head _, rfl⟩
    · obtain ⟨m, h1, h2⟩ := ih h
      exact ⟨m, .tail _ h1, h2⟩

/-- The variables of a `letrec` are bound to nil. -/
theorem nils_run {fr : Fr} {bs : Scope} {f : List Ent} {fs : List (List Ent)} {w : World} {S : SSt}
    {env bst : List Nat} {slots : Nat → Option TVal} {st : TSt}
    {pc : Nat} {stk : List TVal} {Q : Out → Prop} {n : Nat} {lex : Lex}
    (hF : FR U fr (f :: fs) w S env bst slots) (hw : WOk U w S st)
    (hlex : lex = ((f :: fs).flatten ++ fr.Eb).map Ent.lex)
    (hc : CodeAt fr.C pc (bindNils (bs.map (·.1)) lex n).1)
    (hk : ∀ w' env' bst' slots' st',
      FR U fr (((lents bs n w.n).reverse ++ f) :: fs) w'
        { S with σ := S.σ ++ (bs.map (·.1)).map (fun _ => .nil) } env' bst' slots' →
      WOk U w' { S with σ := S.σ ++ (bs.map (·.1)).map (fun _ => .nil) } st' → w'.F = w.F →
      Ext fr.m w.n w S w' { S with σ := S.σ ++ (bs.map (·.1)).map (fun _ => .nil) } →
      GoesTo U.P U.table Q (U.mk' fr (pc + (bindNils (bs.map (·.1)) lex n).1.length) stk env' bst'
        slots' st')) :
    GoesTo U.P U.table Q (U.mk' fr pc stk env bst slots st) := by
  induction bs generalizing f w S env bst slots st pc n lex with
  | nil =>
    have := hk w env bst slots st (by simpa [lents] using hF) (by simpa using hw) rfl
      (by simpa using Ext.refl _ _ _ _)
    simpa [bindNils] using this
  | cons e bs ih =>
    obtain ⟨x, m⟩ := e
    simp only [List.map_cons, bindNils] at hc hk
    refine GoesTo.step (step_push hc) ?_
    refine bind_one (v := .nil) hF hw (.atom _) m.isSome hlex hc.tail ?_
    intro w1 env1 bst1 slots1 st1 p1 p2 p3 p4 p5 p6 p7
    refine ih p1 p2 ?_ hc.tail.tail ?_
    · rw [hlex]
      simp [Ent.lex]
    · intro w2 env2 bst2 slots2 st2 q1 q2 q3 q4
      have := hk w2 env2 bst2 slots2 st2 ?_ ?_ (by rw [q3, p5]) ?_
      · simp only [List.length_cons] at this
        rw [show pc + 1 + 1 + (bindNils (bs.map (·.1)) ((x, n) :: lex) (n + 1)).1.length =
          pc + ((bindNils (bs.map (·.1)) ((x, n) :: lex) (n + 1)).1.length + 1 + 1) by omega]
        exact this
      · rw [p4] at q1
        simpa [lents] using q1
      · simpa using q2
      · have := p7.trans q4 p7.le.n hF.m
        simpa using this

end Rep.Compile
