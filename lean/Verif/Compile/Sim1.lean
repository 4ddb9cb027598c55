import Verif.Compile.Sim0

/-
Where execution can jump to, and what jumps and calls do.
-/

namespace Rep.Compile

/-! ### Compilation in an extended scope -/

theorem SOk.later {Gf : Name → Option Clo} {c : Ctx} {sc : Scope} {s s' : CSt} (h : SOk Gf c sc s)
    (hl : s.cell ≤ s'.cell) (ht : TagsOk s') : SOk Gf c sc s' :=
  ⟨h.cells.mono hl, ht, h.names, h.nodup, h.recN, h.recD, h.gf⟩

theorem SOk.ext {Gf : Name → Option Clo} {c c' : Ctx} {sc sc' : Scope} {s s' : CSt}
    (h : SOk Gf c sc s) (hc : CellsOk c'.lex s'.cell) (ht : TagsOk s') {new : Lex}
    (hl : c'.lex = new ++ c.lex) (hn : (new.map (·.1)).Nodup)
    (hf : ∀ x ∈ new.map (·.1), look x sc = none ∧ look x sc' ≠ none)
    (hs : ∀ x, look x sc ≠ none → look x sc' = look x sc)
    (hr : ∀ r ∈ c'.recs, r ∈ c.recs ∨
      ((∀ x, r.name = some x → look x sc' ≠ none) ∧ r.depth ≤ depth c'.recs))
    (hd : depth c.recs ≤ depth c'.recs) : SOk Gf c' sc' s' := by
  refine ⟨hc, ht, ?_, ?_, ?_, ?_, ?_⟩
  · intro e he
    rw [hl, List.mem_append] at he
    rcases he with he | he
    · exact (hf e.1 (List.mem_map_of_mem he)).2
    · rw [hs _ (h.names e he)]; exact h.names e he
  · rw [hl, List.map_append, List.nodup_append]
    refine ⟨hn, h.nodup, ?_⟩
    intro a ha b hb hab
    obtain ⟨e, he, rfl⟩ := List.mem_map.1 hb
    exact h.names e he (by rw [← hab]; exact (hf a ha).1)
  · intro r hr' x hx
    rcases hr r hr' with h1 | h1
    · have := h.recN r h1 x hx
      rw [hs x this]; exact this
    · exact h1.1 x hx
  · intro r hr'
    rcases hr r hr' with h1 | h1
    · exact Nat.le_trans (h.recD r h1) hd
    · exact h1.2
  · intro x cl hx
    have := h.gf x cl hx
    rw [hs x (by rw [this]; simp)]
    exact this

theorem vars_look {ps : List Name} {sc : Scope} {p : Name} (h : p ∈ ps) :
    look p (vars ps ++ sc) = some none := by
  induction ps with
  | nil => simp at h
  | cons q ps ih =>
    simp only [vars, List.map_cons, List.cons_append, look]
    split
    · rfl
    · rename_i hq
      rcases List.mem_cons.1 h with rfl | h
      · exact absurd rfl hq
      · exact ih h

theorem bindAll_plex (ps : List Name) (lex : Lex) (n l : Nat) :
    (bindAll ps.reverse lex n).2.1 = (pents ps n l).map Ent.lex ++ lex := by
  rw [(bindAll_lex _ _ _).1, pents_lex, List.length_reverse]

theorem pents_lex_names (ps : List Name) (n l : Nat) :
    ((pents ps n l).map Ent.lex).map (·.1) = ps := by
  rw [List.map_map]
  exact pents_name ps n l

theorem nextDepth_ge (recs : List Rec) : depth recs ≤ nextDepth recs := by
  cases recs with
  | nil => exact Nat.le_refl _
  | cons r l => exact Nat.le_succ _

theorem lambdaHead_sok {Gf : Name → Option Clo} {c : Ctx} {sc : Scope} {s : CSt}
    (h : SOk Gf c sc s) {nm : Option Name} {ps : List Name} (hf : fresh sc ps = true)
    (hn : ∀ x, nm = some x → look x sc ≠ none) :
    SOk Gf (lambdaHead c nm ps s).2.1 (vars ps ++ sc) (lambdaHead c nm ps s).2.2 := by
  have hfr := fresh_spec hf
  have hfv := fresh_vars hf
  refine h.ext (bindAll_cells h.cells) ?_ (bindAll_plex ps c.lex s.cell 0) ?_ ?_ hfv.2 ?_ ?_
  · refine tagsOk_of h.tags rfl rfl ?_
    exact (bindAll_spec ps.reverse c.lex s.cell).1
  · rw [pents_lex_names]; exact hfr.1
  · rw [pents_lex_names]
    intro x hx
    exact ⟨hfr.2 x hx, by rw [vars_look hx]; simp⟩
  · intro r hr
    simp only [lambdaHead, List.mem_cons] at hr
    rcases hr with rfl | hr
    · right
      refine ⟨?_, Nat.le_refl _⟩
      intro x hx
      rw [hfv.2 x (hn x hx)]
      exact hn x hx
    · exact .inl hr
  · exact nextDepth_ge _

theorem inlineHead_sok {Gf : Name → Option Clo} {c : Ctx} {sc : Scope} {s : CSt}
    (h : SOk Gf c sc s) {nm : Option Name} {ps : List Name} {n : Nat} (hf : fresh sc ps = true)
    (hn : ∀ x, nm = some x → look x sc ≠ none) :
    SOk Gf (inlineHead c nm ps n s).2.1 (vars ps ++ sc) (inlineHead c nm ps n s).2.2 := by
  have hfr := fresh_spec hf
  have hfv := fresh_vars hf
  by_cases hps : ps = []
  · subst hps
    refine h.ext (new := []) ?_ ?_ ?_ (by simp) (by simp) (fun x _ => rfl) ?_ ?_
    · simpa [inlineHead] using h.cells
    · simp only [inlineHead, if_true]
      exact tagsOk_of h.tags rfl rfl (Nat.le_refl _)
    · simp [inlineHead]
    · intro r hr
      simp only [inlineHead, if_true, List.mem_cons] at hr
      rcases hr with rfl | hr
      · right
        refine ⟨hn, ?_⟩
        simp [inlineHead, depth]
      · exact .inl hr
    · simp [inlineHead, depth]
  · refine h.ext (new := (pents ps s.cell 0).map Ent.lex) ?_ ?_ ?_ ?_ ?_ hfv.2 ?_ ?_
    · simp only [inlineHead, hps, if_false]
      exact bindAll_cells h.cells
    · simp only [inlineHead, hps, if_false]
      exact tagsOk_of h.tags rfl rfl (bindAll_spec ps.reverse c.lex s.cell).1
    · simp only [inlineHead, hps, if_false]
      exact bindAll_plex ps c.lex s.cell 0
    · rw [pents_lex_names]; exact hfr.1
    · rw [pents_lex_names]
      intro x hx
      exact ⟨hfr.2 x hx, by rw [vars_look hx]; simp⟩
    · intro r hr
      simp only [inlineHead, hps, if_false, List.mem_cons] at hr
      rcases hr with rfl | hr
      · right
        refine ⟨?_, ?_⟩
        · intro x hx
          rw [hfv.2 x (hn x hx)]
          exact hn x hx
        · simp [inlineHead, hps, depth]
      · exact .inl hr
    · simp [inlineHead, hps, depth]

theorem look_nodup {α : Type} {l : List (Name × α)} {x : Name} {a : α}
    (h : (l.map (·.1)).Nodup) (hm : (x, a) ∈ l) : look x l = some a := by
  induction l with
  | nil => simp at hm
  | cons e l ih =>
    obtain ⟨y, b⟩ := e
    rw [List.map_cons, List.nodup_cons] at h
    rcases List.mem_cons.1 hm with hh | hm
    · simp only [Prod.mk.injEq] at hh
      simp [look, hh.1, hh.2]
    · have : y ≠ x := fun hy => h.1 (by rw [hy]; exact List.mem_map_of_mem (f := (·.1)) hm)
      rw [look, if_neg this]
      exact ih h.2 hm

/-! ### Targets of jumps -/

/-- A place that execution can jump to: the start of the body of a function that is executed, with
what is known there. -/
structure Tgt where
  r : Rec
  x : Name
  clo : Clo
  cb : Ctx
  rf : Bool
  sc : Scope
  X : List Name
  s0 : CSt
  s1 : CSt
  kb : List I
  pos : Nat
  cell : Nat
  fsb : List (List Ent)

/-- The variables of the parameters, with some bindings. -/
def Tgt.params (t : Tgt) (l : Nat) : List Ent := pents t.r.args t.cell l

/-- The frames of bindings at the start of the body. -/
def Tgt.frames (t : Tgt) (fp : List Ent) : List (List Ent) :=
  if t.r.inlined = true ∧ t.r.args = [] then t.fsb else fp :: t.fsb

variable (U : Setup)

/-- What is known where a form is compiled: the names `X` are not available as variables, and `av`
are the functions that can be called by jumps. -/
structure Stat (c : Ctx) (rf : Bool) (sc : Scope) (s : CSt) (X : List Name) (av : List Tgt)
    (mn tl : Name → Bool) : Prop where
  sok : SOk U.Gf c sc s
  hid : ∀ x ∈ X, mn x = false ∨ ∃ t ∈ av, t.x = x ∧ t.r.inlined = true
  tl : ∀ t ∈ av, t.r.inlined = true → tl t.x = true
  inSc : ∀ x ∈ X, look x sc ≠ none
  recs : ∀ y r, findLambda c.recs y = some r → r.depth = depth c.recs →
    (r.inlined = true ∨ rf = true) → mn y = false ∨ ∃ t ∈ av, t.x = y ∧ t.r = r
  found : ∀ t ∈ av, t.r.inlined = true →
    findLambda c.recs t.x = some t.r ∧ t.r.depth = depth c.recs
  sp : ∀ t ∈ av, t.r.sp = c.sp
  ar : ∀ t ∈ av, look t.x sc = some (some t.r.args.length)

/-- What is known of a target. -/
structure TInv (fr : Fr) (r : SRes SVal) (stk : List TVal) (Q : Out → Prop) (w : World) (S : SSt)
    (t : Tgt) (outer : List Tgt) : Prop where
  comp : cExp t.cb t.rf t.clo.body t.s0 = some (t.kb, t.s1)
  fin : Fin U t.s1
  good : good t.sc t.clo.body = true
  code : CodeAt fr.C t.pos (.label t.r.label :: t.kb)
  stat : Stat U t.cb t.rf t.sc t.s0 t.X (t :: outer) (fun x => mentions x t.clo.body)
    (fun x => tailB x t.clo.body)
  ps : t.clo.ps = t.r.args
  nodup : t.r.args.Nodup
  pk : ∀ p ∈ t.r.args, look p t.sc = some none
  pX : ∀ p ∈ t.r.args, p ∉ t.X
  lex : t.cb.lex = (t.params 0 ++ t.fsb.flatten ++ fr.Eb).map Ent.lex
  coh : Coh t.X t.clo.env (t.fsb.flatten ++ fr.Eb)
  kind : ∀ e ∈ t.fsb.flatten ++ fr.Eb, look e.name t.sc = some none → e.fk = false
  bp : ∀ fp, (t.frames fp).length = t.cb.bp + 1
  rbp : t.r.bp = t.cb.bp
  frz : Frozen U.Gf w t.clo.env t.x t.clo
  ends : ∀ v S1, r = .ok v S1 → ∀ fp, fp.map Ent.lex = (t.params 0).map Ent.lex →
    EndK U fr w S (t.frames fp) (t.pos + 1 + t.kb.length) stk Q v S1

/-- Where a target is, seen from where execution is. -/
structure Dyn (w : World) (t : Tgt) (ρ : Env) (fs : List (List Ent)) : Prop where
  frz : Frozen U.Gf w ρ t.x t.clo
  fs : ∃ fs1 fp, fs = fs1 ++ t.frames fp ∧ fp.map Ent.lex = (t.params 0).map Ent.lex

/-- The targets. -/
def Avs (fr : Fr) (r : SRes SVal) (stk : List TVal) (Q : Out → Prop) (w : World) (S : SSt) :
    List Tgt → Env → List (List Ent) → Prop
  | [], _, _ => True
  | t :: o, ρ, fs => Dyn U w t ρ fs ∧ TInv U fr r stk Q w S t o ∧
      Avs fr r stk Q w S o t.clo.env t.fsb ∧ Avs fr r stk Q w S o ρ fs

variable {U}

theorem EndK.later {fr : Fr} {w w' : World} {S S' : SSt} {fs : List (List Ent)} {pc : Nat}
    {stk : List TVal} {Q : Out → Prop} {v : SVal} {S1 : SSt}
    (h : EndK U fr w S fs pc stk Q v S1) (he : Ext fr.m w.n w S w' S') (hm : fr.m ≤ w.n) :
    EndK U fr w' S' fs pc stk Q v S1 := by
  intro w'' env bst slots st v' h1 h2 h3 h4
  exact h w'' env bst slots st v' h1 h2 h3 (he.trans h4 he.le.n hm)

theorem TInv.later {fr : Fr} {r : SRes SVal} {stk : List TVal} {Q : Out → Prop} {w w' : World}
    {S S' : SSt} {t : Tgt} {o : List Tgt} (h : TInv U fr r stk Q w S t o)
    (he : Ext fr.m w.n w S w' S') (hm : fr.m ≤ w.n) : TInv U fr r stk Q w' S' t o :=
  ⟨h.comp, h.fin, h.good, h.code, h.stat, h.ps, h.nodup, h.pk, h.pX, h.lex, h.coh, h.kind, h.bp,
    h.rbp, h.frz.mono he.le, fun v S1 hr fp hfp => (h.ends v S1 hr fp hfp).later he hm⟩

theorem Avs.later {fr : Fr} {r : SRes SVal} {stk : List TVal} {Q : Out → Prop} {w w' : World}
    {S S' : SSt} {av : List Tgt} {ρ : Env} {fs : List (List Ent)}
    (h : Avs U fr r stk Q w S av ρ fs) (he : Ext fr.m w.n w S w' S') (hm : fr.m ≤ w.n) :
    Avs U fr r stk Q w' S' av ρ fs := by
  induction av generalizing ρ fs with
  | nil => trivial
  | cons t o ih =>
    obtain ⟨h1, h2, h3, h4⟩ := h
    exact ⟨⟨h1.frz.mono he.le, h1.fs⟩, h2.later he hm, ih h3, ih h4⟩

theorem Avs.ext {fr : Fr} {r : SRes SVal} {stk : List TVal} {Q : Out → Prop} {w : World}
    {S : SSt} {av : List Tgt} {ρ ρ' : Env} {fs : List (List Ent)}
    (h : Avs U fr r stk Q w S av ρ fs) (hρ : ∀ t ∈ av, look t.x ρ' = look t.x ρ)
    (g : List (List Ent)) : Avs U fr r stk Q w S av ρ' (g ++ fs) := by
  induction av with
  | nil => trivial
  | cons t o ih =>
    obtain ⟨h1, h2, h3, h4⟩ := h
    refine ⟨⟨?_, ?_⟩, h2, h3, ih h4 (fun t' ht' => hρ t' (.tail _ ht'))⟩
    · have := h1.frz
      unfold Frozen at this ⊢
      rw [hρ t (.head _)]
      exact this
    · obtain ⟨fs1, fp, e1, e2⟩ := h1.fs
      exact ⟨g ++ fs1, fp, by rw [e1, List.append_assoc], e2⟩

theorem Avs.get {fr : Fr} {r : SRes SVal} {stk : List TVal} {Q : Out → Prop} {w : World}
    {S : SSt} {av : List Tgt} {ρ : Env} {fs : List (List Ent)}
    (h : Avs U fr r stk Q w S av ρ fs) {t : Tgt} (ht : t ∈ av) :
    ∃ o, Dyn U w t ρ fs ∧ TInv U fr r stk Q w S t o ∧ Avs U fr r stk Q w S o t.clo.env t.fsb := by
  induction av with
  | nil => simp at ht
  | cons t' o ih =>
    obtain ⟨h1, h2, h3, h4⟩ := h
    rcases List.mem_cons.1 ht with rfl | ht
    · exact ⟨o, h1, h2, h3⟩
    · exact ih h4 ht

theorem Tgt.frames_flatten {t : Tgt} {fp : List Ent}
    (h : fp.map Ent.lex = (t.params 0).map Ent.lex) :
    (t.frames fp).flatten = fp ++ t.fsb.flatten := by
  unfold Tgt.frames
  split
  · rename_i hh
    rw [Tgt.params, hh.2] at h
    simp only [pents, List.map_nil, List.map_eq_nil_iff] at h
    rw [h]; rfl
  · rfl

/-! ### The simulation -/

/-- Where execution of the code of a form starts. -/
structure Here (fr : Fr) (c : Ctx) (sc : Scope) (X : List Name) (ρ : Env) (fs : List (List Ent))
    (w : World) (S : SSt) (env bst : List Nat) (slots : Nat → Option TVal) (st : TSt) : Prop where
  ok : FrOk U fr
  sco : Sco fr c sc X ρ fs
  fr : FR U fr fs w S env bst slots
  w : WOk U w S st

/-- What happens if the form signals an error. -/
def EndE (Q : Out → Prop) (r : SRes SVal) : Prop :=
  ∀ e S1, r = .err e S1 → ∀ w' st, WOk U w' S1 st → Q (.err e st)

/-- The code of a form does what the interpreter does. -/
def SimE (U : Setup) (n : Nat) : Prop :=
  ∀ {fr : Fr} {c : Ctx} {rf : Bool} {e : Exp} {s : CSt} {k : List I} {s' : CSt} {sc : Scope}
    {X : List Name} {av : List Tgt} {ρ : Env} {fs : List (List Ent)} {w : World} {S : SSt}
    {env bst : List Nat} {slots : Nat → Option TVal} {st : TSt} {stk : List TVal} {pc : Nat}
    {r : SRes SVal} {Q : Out → Prop},
    cExp c rf e s = some (k, s') → Fin U s' →
    Stat U c rf sc s X av (fun x => mentions x e) (fun x => tailB x e) → good sc e = true →
    CodeAt fr.C pc k → Here (U := U) fr c sc X ρ fs w S env bst slots st →
    Avs U fr r stk Q w S av ρ fs → eval U.P n ρ S e = some r →
    (∀ v S1, r = .ok v S1 → EndK U fr w S fs (pc + k.length) stk Q v S1) →
    EndE (U := U) Q r → GoesTo U.P U.table Q (U.mk' fr pc stk env bst slots st)

theorem LRel.append {α β : Type} {R : α → β → Prop} {a a' : List α} {b b' : List β}
    (h : LRel R a b) (h' : LRel R a' b') : LRel R (a ++ a') (b ++ b') := by
  induction h with
  | nil => exact h'
  | cons h _ ih => exact .cons h ih

theorem LRel.reverse {α β : Type} {R : α → β → Prop} {a : List α} {b : List β}
    (h : LRel R a b) : LRel R a.reverse b.reverse := by
  induction h with
  | nil => exact .nil
  | cons h _ ih => simp only [List.reverse_cons]; exact ih.append (.cons h .nil)

/-- The values of new bindings. -/
theorem pents_vals {w : World} {ps : List Name} {n l : Nat} {σ : List SVal} {vs : List SVal}
    {vs' : List TVal} (hl : l = σ.length) (h : LRel (VR U w) vs vs') (hn : vs.length = ps.length) :
    LRel (fun e v' => ∃ v, (σ ++ vs)[e.loc]? = some v ∧ VR U w v v') (pents ps n l) vs' := by
  induction h generalizing ps l σ with
  | nil =>
    cases ps with
    | nil => exact .nil
    | cons p ps => simp at hn
  | cons h h' ih =>
    rename_i a b as bs
    cases ps with
    | nil => simp at hn
    | cons p ps =>
      refine .cons ⟨a, ?_, h⟩ ?_
      · simp [hl]
      · have := ih (l := l + 1) (σ := σ ++ [a]) (by simp [hl]) (by simpa using hn)
        simpa using this

/-- New bindings for parameters, which are not in compiled code yet. -/
theorem alloc_params {w : World} {S : SSt} {st : TSt} (hw : WOk U w S st) (vs : List SVal) :
    ∃ w1, w1.n = w.n + vs.length ∧ w1.j = w.j ∧ w1.F = w.F ∧ (∀ l, w.n ≤ l → w1.K l = false) ∧
      w.Le w1 ∧ WOk U w1 { S with σ := S.σ ++ vs } st ∧
      ∀ m, m ≤ w.n → Ext m w.n w S w1 { S with σ := S.σ ++ vs } := by
  obtain ⟨h1, h2⟩ := hw.alloc vs w.F (fun l => if l < w.n then w.K l else false) (fun _ _ => rfl)
    (fun l hl => by simp [hl]) (by
      intro l c hl hn
      have := (List.getElem?_eq_some_iff.1 (hw.F l c hl).2).1
      rw [← hw.n] at this
      omega)
  refine ⟨⟨w.n + vs.length, w.j, w.F, fun l => if l < w.n then w.K l else false⟩, rfl, rfl, rfl, ?_,
    h2, h1, ?_⟩
  · intro l hl
    simp only
    rw [if_neg (by omega)]
  · intro m hm
    refine ⟨h2, fun _ _ => rfl, fun _ _ => rfl, ?_⟩
    intro l hl _
    exact List.getElem?_append_left (by rw [← hw.n]; omega)

theorem coh_params {X : List Name} {ρ : Env} {E : List Ent} {ps : List Name} {n l : Nat}
    (h : Coh X ρ E) (hn : ps.Nodup) :
    Coh X ((ps.zip (List.range' l ps.length)).reverse ++ ρ) (pents ps n l ++ E) := by
  intro x hx
  rw [look_append, List.map_append, look_append, pents_src, h x hx, look_reverse]
  have : (ps.zip (List.range' l ps.length)).map (·.1) = ps := by
    rw [← pents_src ps n l, List.map_map]
    exact pents_name ps n l
  rw [this]
  exact hn

/-- The variables of an extended environment. -/
theorem look_params {ρ : Env} {ps : List Name} {l : Nat} {x : Name} (h : x ∉ ps) :
    look x ((ps.zip (List.range' l ps.length)).reverse ++ ρ) = look x ρ := by
  rw [look_append, look_none.2]
  · rfl
  · intro hm
    rw [List.map_reverse, List.mem_reverse] at hm
    rw [← pents_src ps 0 l, List.map_map] at hm
    have : ((fun x => x.1) ∘ Ent.src) = fun e : Ent => e.name := rfl
    rw [this, pents_name] at hm
    exact h hm

/-- At the start of the body of a target, with the parameters bound. -/
theorem body_run {n : Nat} (hE : SimE U n) {fr : Fr} (hf : FrOk U fr) {r : SRes SVal}
    {stk : List TVal} {Q : Out → Prop} {w : World} {S : SSt} {t : Tgt} {o : List Tgt}
    (hT : TInv U fr r stk Q w S t o) (hO : Avs U fr r stk Q w S o t.clo.env t.fsb) {l : Nat}
    {env bst : List Nat} {slots : Nat → Option TVal} {st : TSt}
    (hF : FR U fr (t.frames (t.params l)) w S env bst slots) (hw : WOk U w S st)
    (he : eval U.P n ((t.clo.ps.zip (List.range' l t.clo.ps.length)).reverse ++ t.clo.env) S
      t.clo.body = some r)
    (herr : EndE (U := U) Q r) {pc : Nat} (hpc : pc = t.pos) :
    GoesTo U.P U.table Q (U.mk' fr pc stk env bst slots st) := by
  subst hpc
  refine GoesTo.step (step_label hT.code) ?_
  have hpl : (t.params l).map Ent.lex = (t.params 0).map Ent.lex := by
    simp only [Tgt.params, pents_lex]
  have hfl := t.frames_flatten hpl
  rw [hT.ps] at he
  have hlook : ∀ t' ∈ t :: o,
      look t'.x ((t.r.args.zip (List.range' l t.r.args.length)).reverse ++ t.clo.env) =
        look t'.x t.clo.env := by
    intro t' ht'
    refine look_params (fun hm => ?_)
    have h1 := hT.pk _ hm
    rw [hT.stat.ar t' ht'] at h1
    simp at h1
  have hfsuf : ∃ g, t.frames (t.params l) = g ++ t.fsb := by
    unfold Tgt.frames
    split
    · exact ⟨[], rfl⟩
    · exact ⟨[_], rfl⟩
  refine hE hT.comp hT.fin hT.stat hT.good hT.code.tail ⟨hf, ⟨?_, ?_, ?_, ?_⟩, hF, hw⟩
    (av := t :: o) ⟨⟨?_, ⟨[], t.params l, rfl, hpl⟩⟩, hT, hO, ?_⟩ he ?_ herr
  · rw [hT.lex, hfl]
    simp only [List.map_append, hpl]
  · rw [hfl, List.append_assoc]
    exact coh_params hT.coh hT.nodup
  · intro e he' hk
    rw [hfl, List.append_assoc, List.mem_append] at he'
    rcases he' with he' | he'
    · exact pents_fk _ _ _ e he'
    · exact hT.kind e he' hk
  · exact hT.bp _
  · have := hT.frz
    unfold Frozen at this ⊢
    rw [hlook t (.head _)]
    exact this
  · obtain ⟨g, hg⟩ := hfsuf
    rw [hg]
    exact hO.ext (fun t' ht' => hlook t' (.tail _ ht')) g
  · intro v S1 hr
    exact hT.ends v S1 hr _ hpl

/-- `compile-tail-call`: a jump to the start of a function. -/
theorem jump {n : Nat} (hE : SimE U n) {fr : Fr} (hf : FrOk U fr) {r : SRes SVal}
    {stk : List TVal} {Q : Out → Prop} {w : World} {S : SSt} {t : Tgt} {o : List Tgt} {ρ : Env}
    {fs : List (List Ent)} {c : Ctx}
    (hT : TInv U fr r stk Q w S t o) (hO : Avs U fr r stk Q w S o t.clo.env t.fsb)
    (hD : Dyn U w t ρ fs) (hlex : c.lex = (fs.flatten ++ fr.Eb).map Ent.lex)
    (hnd : (c.lex.map (·.1)).Nodup) (hbp : fs.length = c.bp + 1) (hsp : t.r.sp = c.sp)
    {env bst : List Nat} {slots : Nat → Option TVal} {st : TSt}
    (hF : FR U fr fs w S env bst slots) (hw : WOk U w S st) {vs : List SVal} {vs' : List TVal}
    (hvs : LRel (VR U w) vs vs') (hlen : vs.length = t.r.args.length) {s : CSt}
    (hfin : Fin U (tailCall c t.r 0 s).2) {pc : Nat} (hc : CodeAt fr.C pc (tailCall c t.r 0 s).1)
    (he : eval U.P n ((t.clo.ps.zip (List.range' S.σ.length t.clo.ps.length)).reverse ++ t.clo.env)
      { S with σ := S.σ ++ vs } t.clo.body = some r)
    (herr : EndE (U := U) Q r) :
    GoesTo U.P U.table Q (U.mk' fr pc (vs'.reverse ++ stk) env bst slots st) := by
  obtain ⟨w1, a1, a2, a3, a4, a5, a6, a7⟩ := alloc_params hw vs
  have hF1 : FR U fr fs w1 { S with σ := S.σ ++ vs } env bst slots := by
    refine hF.move a5 (fun e _ h => by rw [a2]; exact h) ?_
    intro e he' _
    refine List.getElem?_append_left ?_
    rw [← hw.n]
    exact hF.lt e (List.mem_append_left _ he')
  have hext := a7 fr.m hF.m
  have hn0 : S.σ.length = w.n := hw.n.symm
  rw [hn0] at he
  -- the new bindings
  have hes : ∀ e ∈ (t.params w.n).reverse, e.loc < w1.n ∧ fr.m ≤ e.loc ∧ w1.j e.loc = none ∧
      w1.K e.loc = e.fk ∧ ∀ e' ∈ fs.flatten, e'.loc ≠ e.loc := by
    intro e he'
    rw [List.mem_reverse] at he'
    obtain ⟨_, q1, q2⟩ := pents_mem he'
    refine ⟨by rw [a1, hlen]; exact q2, Nat.le_trans hF.m q1, ?_, ?_, ?_⟩
    · rw [a2]
      cases hj : w.j e.loc with
      | none => rfl
      | some h =>
        obtain ⟨v, _, hv, _⟩ := hw.j _ _ hj
        have := (List.getElem?_eq_some_iff.1 hv).1
        rw [hn0] at this
        omega
    · rw [a4 _ q1, pents_fk _ _ _ e he']
    · intro e' he''
      have := hF.lt e' (List.mem_append_left _ he'')
      omega
  have hnodup : ((t.params w.n).reverse.map (·.loc)).Nodup := by
    rw [List.map_reverse, Tgt.params, pents_loc]
    exact ((List.reverse_perm _).nodup_iff).2 List.nodup_range'
  have hvals : LRel (fun e v' => ∃ v, (S.σ ++ vs)[e.loc]? = some v ∧ VR U w1 v v')
      (t.params w.n).reverse vs'.reverse :=
    (pents_vals hw.n (hvs.mono fun _ _ h => VR.mono h a5) hlen).reverse
  have hpl : ∀ l, (t.params l).map Ent.lex = (t.params 0).map Ent.lex := by
    intro l
    simp only [Tgt.params, pents_lex]
  obtain ⟨fs1, fp, hfs, hfp⟩ := hD.fs
  have hlen1 : fs1.length + (t.cb.bp + 1) = c.bp + 1 := by
    rw [← hbp, hfs, List.length_append, hT.bp]
  have hrb := hT.rbp
  have hfl := t.frames_flatten hfp
  have hpop : popBetween c.sp t.r.sp = [] := by rw [hsp]; simp [popBetween]
  -- at the end of the jump
  have hfinal : ∀ (w2 : World) env2 bst2 slots2 st2,
      FR U fr (t.frames (t.params w.n)) w2 { S with σ := S.σ ++ vs } env2 bst2 slots2 →
      WOk U w2 { S with σ := S.σ ++ vs } st2 → w1.Le w2 → w2.F = w1.F →
      (∀ l, l < w.n → w2.j l = w1.j l) →
      GoesTo U.P U.table Q (U.mk' fr t.pos stk env2 bst2 slots2 st2) := by
    intro w2 env2 bst2 slots2 st2 h1 h2 h3 h4 h5
    have hx : Ext fr.m w.n w S w2 { S with σ := S.σ ++ vs } :=
      ⟨a5.trans h3, fun l hl => by rw [h5 l hl, a2], fun l _ => by rw [h4, a3], hext.σ⟩
    exact body_run hE hf (hT.later hx hF.m) (hO.later hx hF.m) h1 h2 he herr rfl
  unfold tailCall at hc hfin
  split at hc
  · -- the parameters are bound anew
    rename_i henc
    have hne : t.r.args ≠ [] := by
      intro h0
      rw [h0] at henc
      simp [anyEnclosed] at henc
    have hfr : ∀ fp, t.frames fp = fp :: t.fsb := by
      intro fp
      unfold Tgt.frames
      rw [if_neg (fun h => hne h.2)]
    rw [hfr] at hfs
    have hb1 : t.fsb.length = t.r.bp := by
      have := hT.bp fp
      rw [hfr] at this
      simp only [List.length_cons] at this
      omega
    simp only [List.replicate_zero, List.append_nil, hpop, List.append_assoc] at hc
    refine unbindBelow_run (t := c.bp) (b := t.r.bp) hF1 hbp (by omega) hc.left ?_
    intro env2 bst2 hF2
    have hdrop : fs.drop (c.bp - t.r.bp + 1) = t.fsb := by
      rw [hfs, show fs1 ++ fp :: t.fsb = (fs1 ++ [fp]) ++ t.fsb by simp]
      rw [show c.bp - t.r.bp + 1 = (fs1 ++ [fp]).length by simp; omega]
      simp
    rw [hdrop] at hF2
    have hc2 := hc.right
    refine GoesTo.step (step_initBind (k := _) hc2) ?_
    have hc3 : CodeAt fr.C (pc + (unbindBelow c.bp t.r.bp).length + 1)
        ((t.r.args.reverse.map fun x => I.lexBind x c.lex) ++ [.jmp t.r.label]) := hc2.tail
    have hmap : (t.r.args.reverse.map fun x => I.lexBind x c.lex) =
        (t.params w.n).reverse.map fun e => .lexBind e.name c.lex := by
      have : t.r.args = (t.params w.n).map (·.name) := (pents_name _ _ _).symm
      rw [this, ← List.map_reverse, List.map_map]
      rfl
    rw [hmap] at hc3
    refine bind_many hF2.push a6 ?_ hnodup hvals hc3.left ?_ ?_
    · intro e he'
      obtain ⟨q1, q2, q3, q4, q5⟩ := hes e he'
      refine ⟨q1, q2, q3, q4, ?_⟩
      intro e' he''
      apply q5 e'
      rw [hfs]
      simp only [List.flatten_cons, List.nil_append, List.flatten_append, List.mem_append] at he'' ⊢
      exact .inr (.inr he'')
    · have : ([] :: t.fsb).flatten = t.fsb.flatten := by simp
      rw [this]
      refine rebind_code (A := fs1.flatten) ?_ hnd
      rw [hlex, hfs, List.reverse_reverse]
      simp only [List.flatten_append, List.flatten_cons, List.map_append, List.append_assoc, hfp, hpl]
    · intro w2 env3 bst3 slots3 st3 q1 q2 q3 q4 q5 q6 q7
      refine GoesTo.step (step_jmp hf (k := []) hc3.right hT.code) ?_
      refine hfinal w2 env3 bst3 slots3 st3 ?_ q2 q3 q5 ?_
      · rw [hfr]
        simpa using q1
      · intro l hl
        refine q7 l (fun e he' => ?_)
        rw [List.mem_reverse] at he'
        have := (pents_mem he').2.1
        omega
  · -- the parameters are assigned
    rename_i henc
    rw [if_neg henc] at hfin
    simp only [List.replicate_zero, List.append_nil, hpop, List.append_assoc] at hc
    have hmap : t.r.args.reverse.map (varset c) =
        (t.params w.n).reverse.map fun e => varset c e.name := by
      have : t.r.args = (t.params w.n).map (·.name) := (pents_name _ _ _).symm
      rw [this, ← List.map_reverse, List.map_map]
      rfl
    rw [hmap] at hc
    have hunb : ∀ slots2, FR U fr (fs1 ++ t.frames (t.params w.n)) w1 { S with σ := S.σ ++ vs } env
        bst slots2 → GoesTo U.P U.table Q (U.mk' fr (pc + (t.params w.n).reverse.length) stk env bst
          slots2 st) := by
      intro slots2 hF2
      have hlen2 : (fs1 ++ t.frames (t.params w.n)).length = c.bp + 1 := by
        rw [List.length_append, hT.bp]; exact hlen1
      have hc2 := hc.right
      rw [List.length_map] at hc2
      refine unbindBetween_run (t := c.bp) (b := t.r.bp) hF2 hlen2 (by omega) hc2.left ?_
      intro env3 bst3 hF3
      refine GoesTo.step (step_jmp hf (k := []) hc2.right hT.code) ?_
      refine hfinal w1 env3 bst3 slots2 st ?_ a6 (.refl _) rfl (fun _ _ => rfl)
      rw [show c.bp - t.r.bp = fs1.length by omega] at hF3
      simpa using hF3
    by_cases h0 : t.r.inlined = true ∧ t.r.args = []
    · have hp0 : t.params w.n = [] := by simp [Tgt.params, h0.2, pents]
      have hv0 : vs' = [] := by
        rw [hp0] at hvals
        have := hvals.length
        simp only [List.reverse_nil, List.length_nil, List.length_reverse] at this
        exact List.length_eq_zero_iff.1 this.symm
      have hfr : ∀ fp, t.frames fp = t.fsb := fun fp => by simp [Tgt.frames, h0]
      rw [hv0]
      rw [hfr] at hfs
      have := hunb slots (by rw [hfr, ← hfs]; exact hF1)
      rw [hp0] at this
      simpa using this
    · have hfr : ∀ fp, t.frames fp = fp :: t.fsb := fun fp => by simp only [Tgt.frames, if_neg h0]
      rw [hfr] at hfs
      refine inplace_many (c := c) (f := []) (fs1 := fs1) (fs := t.fsb) (os := fp.reverse)
        (es := (t.params w.n).reverse) (by simpa [hfs] using hF1) (by simpa [hfs] using hlex) hnd
        ?_ ?_ hnodup hvals hc.left ?_
      · rw [List.map_reverse, List.map_reverse, hfp, hpl]
      · intro e he'
        obtain ⟨q1, q2, q3, q4, q5⟩ := hes e he'
        refine ⟨?_, q1, q2, q3, q4, by simpa [hfs] using q5⟩
        have hin : e.cell ∈ t.r.args.filterMap (fun x => look x c.lex) := by
          rw [List.mem_filterMap]
          rw [List.mem_reverse] at he'
          refine ⟨e.name, (pents_mem he').1, ?_⟩
          have hl2 : c.lex = fs1.flatten.map Ent.lex ++ ((t.params w.n).map Ent.lex ++
              (t.fsb.flatten ++ fr.Eb).map Ent.lex) := by
            rw [hlex, hfs]
            simp only [List.flatten_append, List.flatten_cons, List.map_append, List.append_assoc,
              hfp, hpl]
          have hm : (e.name, e.cell) ∈ c.lex := by
            rw [hl2]
            exact List.mem_append_right _ (List.mem_append_left _ (List.mem_map_of_mem he'))
          exact look_nodup hnd hm
        exact hfin.2 _ (List.mem_append_left _ hin)
      · intro slots2 hF2
        exact hunb slots2 (by rw [hfr]; simpa using hF2)

end Rep.Compile
