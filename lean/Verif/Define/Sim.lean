/-
Internal definitions: two programs that differ as `P.plain` and `P.out` do have
the same meaning.
-/
import Verif.Define.Forms
import Verif.Forms.Rules
import Mathlib.Data.List.Forall2

namespace Rep.Define
open Rep.Forms

variable {P W : Type} {prim : P → List (Option Sexp) → W → Ans × W}

/-! ### More steps do no harm -/

/-- If the one is defined, so is the other, and they are the same. -/
def Le {α : Type} (x y : Option α) : Prop := ∀ r, x = some r → y = some r

theorem Le.refl {α : Type} (x : Option α) : Le x x := fun _ h => h

theorem Le.andThen {V S V' S' : Type} {x x' : Option (Res V × S)}
    {k k' : List V → S → Option (Res V' × S')} {e : Err → S → Res V' × S'}
    (hx : Le x x') (hk : ∀ vs s, Le (k vs s) (k' vs s)) :
    Le (Forms.andThen x k e) (Forms.andThen x' k' e) :=
  fun _ h => andThen_mono hx (fun vs s => hk vs s) h

theorem sstep_mono {f g : SJob P → SEnv → SSt P W → Option (Res (SVal P) × SSt P W)}
    (ih : ∀ j env st, Le (f j env st) (g j env st)) (j : SJob P) (env : SEnv) (st : SSt P W) :
    Le (sstep prim f j env st) (sstep prim g j env st) := by
  cases j with
  | expr e =>
    cases e <;> simp only [sstep] <;> repeat' first
      | exact ih _ _ _
      | exact Le.refl _
      | refine Le.andThen (ih _ _ _) (fun _ _ => ?_)
      | split
  | _ =>
    simp only [sstep]
    repeat' first
      | exact ih _ _ _
      | exact Le.refl _
      | refine Le.andThen (ih _ _ _) (fun _ _ => ?_)
      | split

theorem sev_succ : ∀ (n : Nat) (j : SJob P) (env : SEnv) (st : SSt P W),
    Le (sev prim n j env st) (sev prim (n + 1) j env st) := by
  intro n
  induction n with
  | zero => intro j env st r h; cases h
  | succ n ih => intro j env st; exact sstep_mono ih j env st

theorem sev_mono {n m : Nat} (hle : n ≤ m) (j : SJob P) (env : SEnv) (st : SSt P W) :
    Le (sev prim n j env st) (sev prim m j env st) := by
  induction hle with
  | refl => exact Le.refl _
  | step _ ih => exact fun r h => sev_succ _ _ _ _ _ (ih r h)

/-- The computation ends, from some number of steps on. -/
def EvF {α : Type} (F : Nat → Option α) (r : α) : Prop := ∃ n, ∀ m, n ≤ m → F m = some r

theorem EvF.const {α : Type} (r : α) : EvF (fun _ => some r) r := ⟨0, fun _ _ => rfl⟩

theorem EvF.of {j : SJob P} {env : SEnv} {st : SSt P W} {r}
    (h : EvF (fun m => sstep prim (sev prim m) j env st) r) :
    EvF (fun m => sev prim m j env st) r := by
  obtain ⟨n, hn⟩ := h
  refine ⟨n + 1, fun m hm => ?_⟩
  obtain ⟨m, rfl⟩ : ∃ k, m = k + 1 := ⟨m - 1, by omega⟩
  exact hn m (by omega)

theorem EvF.ok {V S V' S' : Type} {f : Nat → Option (Res V × S)}
    {k : Nat → List V → S → Option (Res V' × S')} {e : Err → S → Res V' × S'} {vs s r}
    (h : EvF f (.ok vs, s)) (h2 : EvF (fun m => k m vs s) r) :
    EvF (fun m => andThen (f m) (k m) e) r := by
  obtain ⟨n, hn⟩ := h
  obtain ⟨n2, hn2⟩ := h2
  exact ⟨max n n2, fun m hm => by
    simp only [andThen, hn m (by omega), hn2 m (by omega)]⟩

theorem EvF.err {V S V' S' : Type} {f : Nat → Option (Res V × S)}
    {k : Nat → List V → S → Option (Res V' × S')} {e : Err → S → Res V' × S'} {er s}
    (h : EvF f (.err er, s)) : EvF (fun m => andThen (f m) (k m) e) (e er s) := by
  obtain ⟨n, hn⟩ := h
  exact ⟨n, fun m hm => by simp only [andThen, hn m hm]⟩

/-! ### Programs that mean the same -/

/-- The forms that give the values of bindings. -/
def bindingForm : Binding → Src
  | .plain _ => .empty
  | .forms _ es => .progn es

mutual
/-- The second program is the first with some forms written in another way. -/
inductive R : Src → Src → Prop
  | int (n : Int) : R (.int n) (.int n)
  | empty : R .empty .empty
  | quote (d : Sexp) : R (.quote d) (.quote d)
  | var (x : String) : R (.var x) (.var x)
  | lambda {ps body body'} : ps.all free = true → RB body body' →
      R (.lambda ps body) (.lambda ps body')
  | call {f f' args args'} : R f f' → RL args args' → R (.call f args) (.call f' args')
  | setq {x e e'} : R e e' → R (.setq x e) (.setq x e')
  | progn {es es'} : RL es es' → R (.progn es) (.progn es')
  | cond {cs cs'} : RC cs cs' → R (.cond cs) (.cond cs')
  | «let» {bs bs' body body'} : RBs bs bs' → RB body body' → R (.let bs body) (.let bs' body')
  | letStar {bs bs' body body'} : RBs bs bs' → RB body body' →
      R (.letStar bs body) (.letStar bs' body')
  | letrec {bs bs' body body'} : RBs bs bs' → RB body body' →
      R (.letrec bs body) (.letrec bs' body')
  | named {f bs bs' body body'} : free f = true → RBs bs bs' → RB body body' →
      R (.named f bs body) (.letrec [.forms f [.lambda (bs'.map Binding.var) body']]
        [.call (.var f) (bs'.map bindingForm)])
  | if2 {c c' t t'} : R c c' → R t t' → R (.if c t []) (.cond [.mk c' [t']])
  | if3 {c c' t t' e e' els els'} : R c c' → R t t' → R e e' → RL els els' →
      R (.if c t (e :: els)) (.cond [.mk c' [t'], .mk (.var "t") (e' :: els')])
  | case {k k' cs cs'} : R k k' → RK cs cs' → R (.case k cs) (.case k' cs')
  | when {c c' body body'} : R c c' → RL body body' →
      R (.when c body) (.cond [.mk c' [.progn body']])
  | unless {c c' body body'} : R c c' → RL body body' →
      R (.unless c body) (.cond [.mk (.call (.var "not") [c']) [.progn body']])
  | or0 : R (.or []) (.var "nil")
  | or {e e' es es'} : R e e' → RL es es' →
      R (.or (e :: es)) (.cond ((e' :: es').map (.mk · [])))
  | and {es es'} : RL es es' → R (.and es) (andOut es')
/-- Bodies. -/
inductive RB : List Src → List Src → Prop
  | same {es es'} : RL es es' → RB es es'
  | wrap {es es'} : RL es es' → RB es [.progn es']
  | nil : RB [] [.empty]
  | doc {n es es'} : es ≠ [] → es' ≠ [] → RB es es' → RB (.int n :: es) (.int n :: es')
inductive RL : List Src → List Src → Prop
  | nil : RL [] []
  | cons {e e' es es'} : R e e' → RL es es' → RL (e :: es) (e' :: es')
inductive RBs : List Binding → List Binding → Prop
  | nil : RBs [] []
  | plain {x bs bs'} : free x = true → RBs bs bs' → RBs (.plain x :: bs) (.plain x :: bs')
  | forms {x es es' bs bs'} : free x = true → RL es es' → RBs bs bs' →
      RBs (.forms x es :: bs) (.forms x es' :: bs')
inductive RC : List Clause → List Clause → Prop
  | nil : RC [] []
  | cons {c c' es es' cs cs'} : R c c' → RL es es' → RC cs cs' →
      RC (.mk c es :: cs) (.mk c' es' :: cs')
inductive RK : List CaseClause → List CaseClause → Prop
  | nil : RK [] []
  | items {is es es' cs cs'} : RL es es' → RK cs cs' →
      RK (.items is es :: cs) (.items is es' :: cs')
  | otherwise {es es' cs cs'} : RL es es' → RK cs cs' →
      RK (.otherwise es :: cs) (.otherwise es' :: cs')
end

theorem RL.eqNil {es es' : List Src} (h : RL es es') : es = [] ↔ es' = [] := by
  cases h <;> simp

theorem RL.isEmpty {es es' : List Src} (h : RL es es') : es.isEmpty = es'.isEmpty := by
  cases h <;> rfl

theorem RBs.vars {bs bs' : List Binding} : RBs bs bs' →
    bs'.map Binding.var = bs.map Binding.var
  | .nil => rfl
  | .plain _ h => by simp [Binding.var, h.vars]
  | .forms _ _ h => by simp [Binding.var, h.vars]

theorem RBs.free {bs bs' : List Binding} : RBs bs bs' → (bs.map Binding.var).all free = true
  | .nil => rfl
  | .plain hx h => by
    rw [List.map_cons, List.all_cons, h.free, Bool.and_true]; exact hx
  | .forms hx _ h => by
    rw [List.map_cons, List.all_cons, h.free, Bool.and_true]; exact hx

/-! ### Values and states -/

/-- No reserved name is bound. -/
def EFree (env : SEnv) : Prop := ∀ x ∈ reserved, env.lookup x = none

theorem EFree.push {env : SEnv} (h : EFree env) {x : String} (hx : free x = true) (l : Nat) :
    EFree ((x, l) :: env) := by
  intro y hy
  have hne : y ≠ x := by
    rintro rfl
    simp only [Forms.free, decide_eq_true_eq] at hx
    exact hx hy
  have : (y == x) = false := by simpa using hne
  simp [List.lookup, this, h y hy]

inductive VR : SVal P → SVal P → Prop
  | data (d : Sexp) : VR (.data d) (.data d)
  | fn (f : Fn P) : VR (.fn f) (.fn f)
  | clos {ps body body' env} : ps.all free = true → RB body body' → EFree env →
      VR (.clos ps body env) (.clos ps body' env)

abbrev VsR (vs vs' : List (SVal P)) : Prop := List.Forall₂ VR vs vs'

theorem VR.isNil {v v' : SVal P} (h : VR v v') : v'.isNil = v.isNil := by cases h <;> rfl

theorem VR.view {v v' : SVal P} (h : VR v v') : v'.view = v.view := by cases h <;> rfl

theorem VsR.shd {vs vs' : List (SVal P)} (h : VsR vs vs') : VR (Forms.shd vs) (Forms.shd vs') := by
  cases h with
  | nil => exact VR.data _
  | cons h _ => exact h

theorem VsR.view {vs vs' : List (SVal P)} (h : VsR vs vs') :
    vs'.map SVal.view = vs.map SVal.view := by
  induction h with
  | nil => rfl
  | cons h _ ih => simp [h.view, ih]

structure SR (s s' : SSt P W) : Prop where
  store : VsR s.store s'.store
  world : s'.world = s.world

inductive RR : Res (SVal P) × SSt P W → Res (SVal P) × SSt P W → Prop
  | ok {vs vs' s s'} : VsR vs vs' → SR s s' → RR (.ok vs, s) (.ok vs', s')
  | err {e s s'} : SR s s' → RR (.err e, s) (.err e, s')

/-- The other computation ends in the same way. -/
def Sm (r : Res (SVal P) × SSt P W) (F : Nat → Option (Res (SVal P) × SSt P W)) : Prop :=
  ∃ r', EvF F r' ∧ RR r r'

theorem Sm.ret {vs vs' : List (SVal P)} {s s' : SSt P W} (hv : VsR vs vs') (hs : SR s s') :
    Sm (.ok vs, s) (fun _ => some (.ok vs', s')) := ⟨_, EvF.const _, .ok hv hs⟩

theorem Sm.fail {e : Err} {s s' : SSt P W} (hs : SR s s') :
    Sm (.err e, s) (fun _ => some ((.err e, s') : Res (SVal P) × SSt P W)) :=
  ⟨_, EvF.const _, .err hs⟩

theorem Sm.of {j : SJob P} {env : SEnv} {st : SSt P W} {r}
    (h : Sm r (fun m => sstep prim (sev prim m) j env st)) :
    Sm r (fun m => sev prim m j env st) := by
  obtain ⟨r', h1, h2⟩ := h
  exact ⟨r', EvF.of h1, h2⟩

theorem Sm.seq {x : Option (Res (SVal P) × SSt P W)}
    {k : List (SVal P) → SSt P W → Option (Res (SVal P) × SSt P W)}
    {F : Nat → Option (Res (SVal P) × SSt P W)}
    {K : Nat → List (SVal P) → SSt P W → Option (Res (SVal P) × SSt P W)} {r}
    (h : andThen x k (fun e s => (.err e, s)) = some r)
    (hx : ∀ r, x = some r → Sm r F)
    (hk : ∀ vs s vs' s', VsR vs vs' → SR s s' → k vs s = some r → Sm r (fun m => K m vs' s')) :
    Sm r (fun m => andThen (F m) (K m) (fun e s => (.err e, s))) := by
  rcases andThen_some.1 h with ⟨er, s, he, rfl⟩ | ⟨vs, s, he, h2⟩
  · obtain ⟨r', h1, h3⟩ := hx _ he
    cases h3 with
    | err hs => exact ⟨_, EvF.err h1, .err hs⟩
  · obtain ⟨r', h1, h3⟩ := hx _ he
    cases h3 with
    | ok hv hs =>
      obtain ⟨r'', h4, h5⟩ := hk _ _ _ _ hv hs h2
      exact ⟨r'', EvF.ok h1 h4, h5⟩

/-- What corresponds to what. -/
inductive JR : SJob P → SJob P → Prop
  | expr {e e'} : R e e' → JR (.expr e) (.expr e')
  | list {es es'} : RL es es' → JR (.list es) (.list es')
  | progn {es es'} : RB es es' → JR (.progn es) (.progn es')
  | cond {cs cs'} : RC cs cs' → JR (.cond cs) (.cond cs')
  | inits {bs bs'} : RBs bs bs' → JR (.inits bs) (.inits bs')
  | initsL {bs bs'} : RBs bs bs' → JR (.inits bs) (.list (bs'.map bindingForm))
  | letStar {bs bs' body body'} : RBs bs bs' → RB body body' →
      JR (.letStar bs body) (.letStar bs' body')
  | assign {bs bs' body body'} : RBs bs bs' → RB body body' →
      JR (.assign bs body) (.assign bs' body')
  | or {es es'} : RL es es' → JR (.or es) (.cond (es'.map (.mk · [])))
  | and {e e' es es'} : R e e' → RL es es' → JR (.and (e :: es)) (.expr (andOut (e' :: es')))
  | apply {f f' vs vs'} : VR f f' → VsR vs vs' → JR (.apply f vs) (.apply f' vs')

/-- Corresponding jobs end in the same way. -/
def Good (prim : P → List (Option Sexp) → W → Ans × W)
    (self : SJob P → SEnv → SSt P W → Option (Res (SVal P) × SSt P W)) : Prop :=
  ∀ j j' env st st' r, JR j j' → EFree env → SR st st' → self j env st = some r →
    Sm r (fun m => sev prim m j' env st')

theorem alloc_sim : ∀ (xs : List String) {vs vs' : List (SVal P)} {env : SEnv}
    {store store' : List (SVal P)}, xs.all free = true → EFree env → VsR vs vs' →
    VsR store store' →
    (∃ e, alloc xs vs env store = .inl e ∧ alloc xs vs' env store' = .inl e) ∨
    (∃ env2 s2 s2', alloc xs vs env store = .inr (env2, s2) ∧
      alloc xs vs' env store' = .inr (env2, s2') ∧ EFree env2 ∧ VsR s2 s2')
  | [], vs, vs', env, store, store', _, he, _, hs =>
    Or.inr ⟨env, store, store', by simp [alloc], by simp [alloc], he, hs⟩
  | x :: xs, [], _, env, store, store', _, _, .nil, _ => Or.inl ⟨_, rfl, rfl⟩
  | x :: xs, v :: vs, v' :: vs', env, store, store', hx, he, .cons hv hvs, hs => by
    simp only [List.all_cons, Bool.and_eq_true] at hx
    have := alloc_sim xs hx.2 (he.push hx.1 store.length) hvs
      (List.rel_append hs (List.Forall₂.cons hv .nil) : VsR (store ++ [v]) (store' ++ [v']))
    simpa only [alloc, hs.length_eq] using this

theorem slookup_sim {x : String} {env : SEnv} {s s' : SSt P W} (hs : SR s s') :
    Sm (slookup x env s, s) (fun _ => some (slookup x env s', s')) := by
  unfold slookup
  cases env.lookup x with
  | some l =>
    have hg : ∀ (a b : List (SVal P)) (l : Nat), VsR a b →
        (a[l]? = none ∧ b[l]? = none) ∨ ∃ v v', a[l]? = some v ∧ b[l]? = some v' ∧ VR v v' := by
      intro a b l h
      induction h generalizing l with
      | nil => exact Or.inl (by simp)
      | cons h _ ih =>
        cases l with
        | zero => exact Or.inr ⟨_, _, rfl, rfl, h⟩
        | succ l => simpa using ih l
    rcases hg _ _ l hs.store with ⟨h1, h2⟩ | ⟨v, v', h1, h2, hv⟩
    · simp only [h1, h2]; exact Sm.fail hs
    · simp only [h1, h2]; exact Sm.ret (.cons hv .nil) hs
  | none =>
    cases hc : (constants P).lookup x with
    | none => simp only; exact Sm.fail hs
    | some v =>
      simp only
      refine Sm.ret (.cons ?_ .nil) hs
      have : v ∈ (constants P).map Prod.snd := by
        have hm : ∀ (l : List (String × SVal P)), l.lookup x = some v → v ∈ l.map Prod.snd := by
          intro l hl
          induction l with
          | nil => simp at hl
          | cons p l ih =>
            obtain ⟨k, w⟩ := p
            simp only [List.lookup] at hl
            split at hl
            · simp [Option.some.inj hl]
            · simp only [List.map_cons, List.mem_cons]; exact Or.inr (ih hl)
        exact hm _ hc
      simp only [constants, List.map_cons, List.map_nil, List.mem_cons, List.not_mem_nil,
        or_false] at this
      rcases this with rfl | rfl | rfl | rfl | rfl
      · exact .data _
      · exact .data _
      · exact .fn _
      · exact .fn _
      · exact .fn _

theorem SR.set {s s' : SSt P W} (h : SR s s') {v v' : SVal P} (hv : VR v v') (l : Nat) :
    SR { s with store := s.store.set l v } { s' with store := s'.store.set l v' } := by
  refine ⟨?_, h.world⟩
  have : ∀ (a b : List (SVal P)) (l : Nat), VsR a b → VsR (a.set l v) (b.set l v') := by
    intro a b l h
    induction h generalizing l with
    | nil => exact .nil
    | cons h h2 ih =>
      cases l with
      | zero => exact .cons hv h2
      | succ l => exact .cons h (ih l)
  exact this _ _ l h.store

theorem SR.setStore {s s' : SSt P W} (h : SR s s') {a b : List (SVal P)} (hv : VsR a b) :
    SR { s with store := a } { s' with store := b } := ⟨hv, h.world⟩

end Rep.Define
