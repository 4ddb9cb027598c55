/-
Derived forms: the evaluator follows the meaning of the program.
-/
import Verif.Forms.Derived
import Mathlib.Tactic.Tauto

namespace Rep.Forms

variable {P W : Type} {prim : P → List (Option Sexp) → W → Ans × W}

/-- The evaluator reaches a result that agrees with `r`. -/
def Simu (μ : List Nat) (s' : St P W) (r : Res (SVal P) × SSt P W)
    (Y : Res (Val P) × St P W → Prop) : Prop :=
  ∃ μ2 r' s2', Y (r', s2') ∧ RRel μ2 r.1 r' ∧ StRel μ2 r.2 s2' ∧ Frame μ s' μ2 s2'

theorem Simu.imp {μ} {s' : St P W} {r} {Y Z : Res (Val P) × St P W → Prop}
    (h : Simu μ s' r Y) (hi : ∀ y, Y y → Z y) : Simu μ s' r Z := by
  obtain ⟨μ2, r', s2', a, b⟩ := h
  exact ⟨μ2, r', s2', hi _ a, b⟩

theorem Simu.frame {μ μ2} {s' s2' : St P W} {r} {Y : Res (Val P) × St P W → Prop}
    (h : Simu μ2 s2' r Y) (hf : Frame μ s' μ2 s2') : Simu μ s' r Y := by
  obtain ⟨μ3, r', s3', a, b, c, d⟩ := h
  exact ⟨μ3, r', s3', a, b, c, hf.trans d⟩

theorem Simu.ret {μ} {s : SSt P W} {s' : St P W} {vs vs'} {Y : Res (Val P) × St P W → Prop}
    (hv : VsRel μ vs vs') (hs : StRel μ s s') (hy : Y (.ok vs', s')) :
    Simu μ s' (.ok vs, s) Y :=
  ⟨μ, _, s', hy, .ok hv, hs, Frame.refl _ _⟩

theorem Simu.fail {μ} {s : SSt P W} {s' : St P W} {e : Err} {Y : Res (Val P) × St P W → Prop}
    (hs : StRel μ s s') (hy : Y (.err e, s')) : Simu μ s' (.err e, s) Y :=
  ⟨μ, _, s', hy, .err e, hs, Frame.refl _ _⟩

theorem Simu.seq {x : Option (Res (SVal P) × SSt P W)}
    {k : List (SVal P) → SSt P W → Option (Res (SVal P) × SSt P W)} {r} {μ} {s' : St P W}
    {X : Res (Val P) × St P W → Prop}
    {K : List (Val P) → St P W → Res (Val P) × St P W → Prop}
    (h : andThen x k (fun e s => (.err e, s)) = some r)
    (hx : ∀ y, x = some y → Simu μ s' y X)
    (hk : ∀ vs s μ2 vs' s2', k vs s = some r → VsRel μ2 vs vs' → StRel μ2 s s2' →
      Frame μ s' μ2 s2' → Simu μ2 s2' r (K vs' s2')) :
    Simu μ s' r (Seq X K) := by
  rw [andThen_some] at h
  rcases h with ⟨er, s, h1, h2⟩ | ⟨vs, s, h1, h2⟩
  · obtain ⟨μ2, r', s2', a, b, c, d⟩ := hx _ h1
    cases b
    subst h2
    exact ⟨μ2, _, s2', Or.inl ⟨er, s2', a, rfl⟩, .err er, c, d⟩
  · obtain ⟨μ2, r', s2', a, b, c, d⟩ := hx _ h1
    cases b with
    | ok hv =>
      obtain ⟨μ3, r'', s3', a', b', c', d'⟩ := hk _ _ _ _ _ h2 hv c d
      exact ⟨μ3, r'', s3', Or.inr ⟨_, _, a, a'⟩, b', c', d.trans d'⟩

/-! ### Texts -/

theorem textL_eq (es : List Src) : textL es = .ofList (es.map Src.text) := by
  induction es with
  | nil => simp [textL, Sexp.ofList]
  | cons e es ih => simp [textL, Sexp.ofList, ih]

theorem textB_eq (bs : List Binding) : textB bs = .ofList (bs.map Binding.text) := by
  induction bs with
  | nil => simp [textB, Sexp.ofList]
  | cons e es ih => simp [textB, Sexp.ofList, ih]

theorem textC_eq (cs : List Clause) : textC cs = .ofList (cs.map Clause.text) := by
  induction cs with
  | nil => simp [textC, Sexp.ofList]
  | cons e es ih => simp [textC, Sexp.ofList, ih]

theorem textK_eq (cs : List CaseClause) : textK cs = .ofList (cs.map CaseClause.text) := by
  induction cs with
  | nil => simp [textK, Sexp.ofList]
  | cons e es ih => simp [textK, Sexp.ofList, ih]

theorem textD_eq (vs : List DoVar) : textD vs = .ofList (vs.map DoVar.text) := by
  induction vs with
  | nil => simp [textD, Sexp.ofList]
  | cons e es ih => simp [textD, Sexp.ofList, ih]

theorem bindVar_text (b : Binding) : bindVar b.text = nm b.var := by
  cases b <;> simp [Binding.text, bindVar, Binding.var, nm]

theorem okB_free : ∀ {bs : List Binding}, okB bs = true → (bs.map Binding.var).all free = true
  | [], _ => rfl
  | b :: bs, h => by
    simp only [okB, Bool.and_eq_true] at h
    rw [List.map_cons, List.all_cons, okB_free h.2, Bool.and_true]
    cases b with
    | plain x => simpa [Binding.ok, Binding.var] using h.1
    | forms x es =>
      have := h.1
      simp only [Binding.ok, Bool.and_eq_true] at this
      exact this.1

theorem binding_ok {b : Binding} (h : b.ok = true) : free b.var = true ∧ okL b.es = true := by
  cases b with
  | plain x => exact ⟨by simpa [Binding.ok, Binding.var] using h, rfl⟩
  | forms x es => simpa [Binding.ok, Binding.var, Binding.es] using h

theorem names_bindVar (bs : List Binding) :
    Sexp.ofList ((bs.map Binding.text).map bindVar) = names (bs.map Binding.var) := by
  unfold names
  congr 1
  rw [List.map_map, List.map_map]
  apply List.map_congr_left
  intro b _
  exact bindVar_text b

/-- The function of a `while` loop. -/
def whileLam (g : Nat) (c : Src) (body : List Src) : Sexp :=
  .cons .nil (.ofList [form "cond" (.ofList [.ofList [c.text,
    form "progn" (textL body), .ofList [.sym (.gen g)]]])])

/-- The function of a `do` loop. -/
def doLam (g : Nat) (vars : List DoVar) (test : Src) (exprs body : List Src) : Sexp :=
  .cons (names (vars.map DoVar.var)) (.ofList [form "if" (.cons test.text
    (.cons (form "progn" (textL exprs)) (.ofList (body.map Src.text ++
      [.cons (.sym (.gen g)) (.ofList ((vars.map DoVar.next).map Src.text))]))))])

/-- A step of `and` (interpreter.jl:266-269). -/
def wrapAnd (x body : Sexp) : Sexp :=
  if body ≠ .nil then .ofList [nm "cond", .ofList [x, body]] else .ofList [nm "cond", .ofList [x]]

/-- The function of the loop is at hand. -/
def LoopAt (μ : List Nat) (s' : St P W) (e : SEnv) (envD : Env) (g : Nat) (lam : Sexp) : Prop :=
  EnvRel μ e envD ∧ ∃ lt, envD.lookup (.gen g) = some lt ∧ lt < s'.store.length ∧ lt ∉ μ ∧
    s'.store[lt]? = some (.clos lam envD)

theorem LoopAt.frame {μ μ2} {s' s2' : St P W} {e envD g lam} (h : LoopAt μ s' e envD g lam)
    (hf : Frame μ s' μ2 s2') : LoopAt μ2 s2' e envD g lam := by
  obtain ⟨a, lt, b, c, d, f⟩ := h
  obtain ⟨x, y⟩ := hf.keep lt c d
  exact ⟨a.mono hf.pre, lt, b, Nat.lt_of_lt_of_le c hf.len, x, y.trans f⟩

/-- What the evaluator has to do. -/
inductive JRel (μ : List Nat) (s' : St P W) : SJob P → SEnv → Job P → Env → Prop
  | expr {e env env'} (ho : e.ok = true) (he : EnvRel μ env env') :
    JRel μ s' (.expr e) env (.expr e.text) env'
  | list {es env env'} (ho : okL es = true) (he : EnvRel μ env env') :
    JRel μ s' (.list es) env (.list (.ofList (es.map Src.text))) env'
  | listP {es env env'} (ho : okL es = true) (he : EnvRel μ env env') :
    JRel μ s' (.list es) env
      (.list (.ofList (es.map fun e => form "progn" (.ofList [e.text])))) env'
  | progn {es env env'} (ho : okL es = true) (he : EnvRel μ env env') :
    JRel μ s' (.progn es) env (.progn (.ofList (es.map Src.text))) env'
  | cond {cls env env'} (ho : okC cls = true) (he : EnvRel μ env env') :
    JRel μ s' (.cond cls) env (.cond (.ofList (cls.map Clause.text))) env'
  | inits {bs env env'} (ho : okB bs = true) (he : EnvRel μ env env') :
    JRel μ s' (.inits bs) env (.list (.ofList ((bs.map Binding.text).map bindValue))) env'
  | letStar {bs body env env'} (ho : okB bs = true) (hb : okL body = true)
      (he : EnvRel μ env env') :
    JRel μ s' (.letStar bs body) env
      (.expr ((bs.map Binding.text).foldr (fun b r => form "let" (.ofList [.ofList [b], r]))
        (form "progn" (textL body)))) env'
  | assign {bs body env env'} (ho : okB bs = true) (hb : okL body = true) (hne : body ≠ [])
      (he : EnvRel μ env env') :
    JRel μ s' (.assign bs body) env
      (.progn (.ofList ((bs.map Binding.text).map setter ++ body.map Src.text))) env'
  | or {es env env'} (ho : okL es = true) (he : EnvRel μ env env') :
    JRel μ s' (.or es) env (.cond (.ofList ((es.map Src.text).map fun x => .ofList [x]))) env'
  | and {es env env'} (ho : okL es = true) (hne : es ≠ []) (he : EnvRel μ env env') :
    JRel μ s' (.and es) env (.expr ((es.map Src.text).foldr wrapAnd .nil)) env'
  | while {c body env env' g envD} (hc : c.ok = true) (hb : okL body = true)
      (hl : LoopAt μ s' env envD g (whileLam g c body)) :
    JRel μ s' (.while c body) env (.apply (.clos (whileLam g c body) envD) []) env'
  | do {vars test exprs body vs vs' env env' g envD} (hv : okD vars = true) (ht : test.ok = true)
      (hx : okL exprs = true) (hb : okL body = true) (hvs : VsRel μ vs vs')
      (hl : LoopAt μ s' env envD g (doLam g vars test exprs body)) :
    JRel μ s' (.do vars test exprs body vs) env
      (.apply (.clos (doLam g vars test exprs body) envD) vs') env'
  | apply {f f' vs vs' env env'} (hf : VRel μ f f') (hvs : VsRel μ vs vs') :
    JRel μ s' (.apply f vs) env (.apply f' vs') env'

/-- The parts are followed. -/
def Good (prim : P → List (Option Sexp) → W → Ans × W)
    (self : SJob P → SEnv → SSt P W → Option (Res (SVal P) × SSt P W)) : Prop :=
  ∀ j e s r μ j' e' s', self j e s = some r → JRel μ s' j e j' e' → StRel μ s s' →
    Simu μ s' r (Ev prim j' e' s')

variable {self : SJob P → SEnv → SSt P W → Option (Res (SVal P) × SSt P W)}

/-! ### Variables -/

theorem table_none {x : String} (h : free x = true) : (table P).lookup x = none := by
  have hx : x ∉ reserved := by simpa [free] using h
  have : (table P).map Prod.fst = reserved := rfl
  rw [← this] at hx
  rw [List.lookup_eq_none_iff]
  intro p hp
  rw [bne_iff_ne]
  intro hh
  exact hx (hh ▸ List.mem_map_of_mem hp)

theorem constants_none {x : String} (h : free x = true) : (constants P).lookup x = none := by
  have hx : x ∉ reserved := by simpa [free] using h
  rw [List.lookup_eq_none_iff]
  intro p hp
  rw [bne_iff_ne]
  intro hh
  have h1 : x ∈ (constants P).map Prod.fst := hh ▸ List.mem_map_of_mem hp
  have h2 : (constants P).map Prod.fst = ["nil", "t", "not", "eql", "memql"] := rfl
  rw [h2] at h1
  apply hx
  revert h1
  simp only [List.mem_cons, reserved]
  tauto

theorem lookup_sim {x : String} (hx : readable x = true) {μ env env'} {s : SSt P W} {s' : St P W}
    (he : EnvRel μ env env') (hs : StRel μ s s') :
    RRel μ (slookup x env s) (lookup (.name x) env' s') := by
  unfold slookup lookup
  cases hl : env.lookup x with
  | some l =>
    obtain ⟨l', h1, h2⟩ := he.bound x l hl
    rw [h2]
    dsimp only
    have hlt : l < s.store.length := by
      rw [← hs.len]; exact (List.getElem?_eq_some_iff.1 h1).1
    obtain ⟨l2, v', h3, h4, h5⟩ := hs.val l _ (List.getElem?_eq_getElem hlt)
    have : l2 = l' := Option.some.inj (h3.symm.trans h1)
    subst this
    rw [List.getElem?_eq_getElem hlt, h4]
    exact .ok (VsRel.one h5)
  | none =>
    rw [he.unbound x hl]
    dsimp only
    unfold readable at hx
    rw [Bool.or_eq_true] at hx
    rcases hx with hx | hx
    · rw [table_none hx, constants_none hx]
      exact .err _
    · have hx' : x ∈ ["nil", "t", "not", "eql", "memql"] := by simpa using hx
      simp only [List.mem_cons, List.not_mem_nil, or_false] at hx'
      rcases hx' with rfl | rfl | rfl | rfl | rfl
      · exact .ok (VsRel.one (.data _))
      · exact .ok (VsRel.one (.data _))
      · exact .ok (VsRel.one (.fn _))
      · exact .ok (VsRel.one (.fn _))
      · exact .ok (VsRel.one (.fn _))

/-! ### Calls -/

theorem text_ne_lambda {f : Src} (h : f.ok = true) : f.text ≠ nm "lambda" := by
  cases f with
  | var x =>
    simp only [Src.text, nm]
    intro hh
    injection hh with hh
    injection hh with hh
    subst hh
    exact absurd h (by simp [Src.ok, readable, free, reserved])
  | _ => simp [Src.text, form, nm]

theorem isLambda_text {e : Src} (h : e.ok = true) (env : Env) :
    (∃ ps body, e = .lambda ps body) ∨ isLambda e.text env = none := by
  cases e with
  | lambda ps body => exact Or.inl ⟨ps, body, rfl⟩
  | call f args =>
    refine Or.inr ?_
    simp only [Src.ok, Bool.and_eq_true] at h
    have := text_ne_lambda h.1
    unfold isLambda
    simp only [Src.text]
    split
    · rename_i heq
      injection heq with h1 h2
      exact absurd h1 this
    · rfl
  | int n => exact Or.inr (by simp [Src.text, isLambda])
  | empty => exact Or.inr (by simp [Src.text, isLambda])
  | var x => exact Or.inr (by simp [Src.text, isLambda, nm])
  | _ => exact Or.inr (by simp [Src.text, isLambda, nm, form])

theorem Ev.apply_inv {lam : Sexp} {vs : List (Val P)} {env env' : Env} {st : St P W} {r}
    (h : Ev prim (.apply (.clos lam env') vs) env st r) : Ev prim (.lambda lam vs) env' st r := by
  obtain ⟨n, h⟩ := h
  cases n with
  | zero => cases h
  | succ n => exact ⟨n, h⟩

theorem Ev.callT {f : Src} (hf : f.ok = true) {args : Sexp} {env : Env} (hfree : Free env)
    {st : St P W} {r}
    (H : Seq (Ev prim (.expr f.text) env st) (fun fs s r =>
      (∀ k, hd fs ≠ .kw k) ∧
      Seq (Ev prim (.list args) env s) (fun vs s => Ev prim (.apply (hd fs) vs) env s) r) r) :
    Ev prim (.expr (.cons f.text args)) env st r := by
  rcases isLambda_text hf env with ⟨ps, body, rfl⟩ | hl
  · have h0 : Ev prim (.expr (Src.text (.lambda ps body))) env st
        (.ok [.clos (.cons (names ps) (textL body)) env], st) := by
      simp only [Src.text]; exact Ev.lambda hfree
    have hn := hfree "lambda" (by decide)
    refine Ev.inline (lam := .cons (names ps) (textL body))
      (by simp [Src.text, isLambda, form, nm, hn]) ?_
    rcases H with ⟨er, s, h1, h2⟩ | ⟨vs, s, h1, _, h2⟩
    · cases h1.det h0
    · have := h1.det h0
      cases this
      exact h2.imp (fun _ h => h) (fun _ _ _ h => Ev.apply_inv h)
  · exact Ev.call hl H

/-! ### The value of a binding -/

theorem Ev.bindValue {b : Binding} {env : Env} {st : St P W} {r} (hf : Free env)
    (H : Ev prim (.progn (.ofList (b.es.map Src.text))) env st r) :
    Ev prim (.expr (bindValue b.text)) env st r := by
  cases b with
  | plain x =>
    have := H.det Ev.progn_nil
    subst this
    simp only [Binding.text, Forms.bindValue, nm]
    exact Ev.nil
  | forms x es =>
    simp only [Binding.text, Forms.bindValue]
    rw [textL_eq]
    exact Ev.progn hf H

theorem setter_text (b : Binding) :
    setter b.text = form "setq" (.cons (nm b.var) (.cons (bindValue b.text) .nil)) := by
  cases b <;> simp [Binding.text, setter, Binding.var, bindValue, nm, form, Sexp.ofList]

end Rep.Forms
