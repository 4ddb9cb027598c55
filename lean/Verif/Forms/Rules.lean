/-
Derived forms: evaluation rules of the model, without step counts.
-/
import Verif.Forms.Spec

namespace Rep.Forms

variable {P W : Type} {prim : P → List (Option Sexp) → W → Ans × W}

/-- Errors end a computation. -/
abbrev failM (e : Err) (s : St P W) : Res (Val P) × St P W := (.err e, s)

theorem andThen_some {V S V' S' : Type} {x : Option (Res V × S)}
    {k : List V → S → Option (Res V' × S')} {e : Err → S → Res V' × S'} {r} :
    andThen x k e = some r ↔
      (∃ er s, x = some (.err er, s) ∧ r = e er s) ∨
      (∃ vs s, x = some (.ok vs, s) ∧ k vs s = some r) := by
  unfold andThen
  constructor
  · intro h
    split at h
    · cases h
    · rename_i er s
      exact Or.inl ⟨er, s, rfl, (Option.some.inj h).symm⟩
    · rename_i vs s
      exact Or.inr ⟨vs, s, rfl, h⟩
  · rintro (⟨er, s, rfl, rfl⟩ | ⟨vs, s, rfl, h⟩)
    · rfl
    · exact h

theorem andThen_mono {V S V' S' : Type} {x x' : Option (Res V × S)}
    {k k' : List V → S → Option (Res V' × S')} {e : Err → S → Res V' × S'} {r}
    (hx : ∀ y, x = some y → x' = some y)
    (hk : ∀ vs s y, k vs s = some y → k' vs s = some y) :
    andThen x k e = some r → andThen x' k' e = some r := by
  rw [andThen_some, andThen_some]
  rintro (⟨er, s, h, h2⟩ | ⟨vs, s, h, h2⟩)
  · exact Or.inl ⟨er, s, hx _ h, h2⟩
  · exact Or.inr ⟨vs, s, hx _ h, hk _ _ _ h2⟩

theorem step_mono {f g : Job P → Env → St P W → Option (Res (Val P) × St P W)}
    (ih : ∀ j env st r, f j env st = some r → g j env st = some r)
    (j : Job P) (env : Env) (st : St P W) (r)
    (h : step prim f j env st = some r) : step prim g j env st = some r := by
  cases j with
  | expr x =>
    cases x with
    | nil => exact h
    | int i => exact h
    | sym s => exact h
    | cons hd' args =>
      simp only [step] at h ⊢
      cases hl : isLambda hd' env with
      | some lam =>
        rw [hl] at h
        exact andThen_mono (fun y hy => ih _ _ _ _ hy) (fun vs s y hy => ih _ _ _ _ hy) h
      | none =>
        rw [hl] at h
        refine andThen_mono (fun y hy => ih _ _ _ _ hy) (fun fs s y hy => ?_) h
        cases hf : hd fs with
        | kw k => rw [hf] at hy; exact ih _ _ _ _ hy
        | data d =>
          rw [hf] at hy
          exact andThen_mono (fun y hy => ih _ _ _ _ hy) (fun vs s y hy => ih _ _ _ _ hy) hy
        | clos l e =>
          rw [hf] at hy
          exact andThen_mono (fun y hy => ih _ _ _ _ hy) (fun vs s y hy => ih _ _ _ _ hy) hy
        | fn f =>
          rw [hf] at hy
          exact andThen_mono (fun y hy => ih _ _ _ _ hy) (fun vs s y hy => ih _ _ _ _ hy) hy
  | list xs =>
    cases xs with
    | nil => exact h
    | int i => exact h
    | sym s => exact h
    | cons a d =>
      simp only [step] at h ⊢
      exact andThen_mono (fun y hy => ih _ _ _ _ hy)
        (fun vs s y hy => andThen_mono (fun y hy => ih _ _ _ _ hy) (fun _ _ _ h => h) hy) h
  | progn xs =>
    cases xs with
    | nil => exact h
    | int i => exact h
    | sym s => exact h
    | cons a d =>
      cases d with
      | cons b d =>
        simp only [step] at h ⊢
        exact andThen_mono (fun y hy => ih _ _ _ _ hy) (fun vs s y hy => ih _ _ _ _ hy) h
      | nil => simp only [step] at h ⊢; exact ih _ _ _ _ h
      | int i => simp only [step] at h ⊢; exact ih _ _ _ _ h
      | sym s => simp only [step] at h ⊢; exact ih _ _ _ _ h
  | cond xs =>
    cases xs with
    | nil => exact h
    | int i => exact h
    | sym s => exact h
    | cons a d =>
      cases a with
      | nil => exact h
      | int i => exact h
      | sym s => exact h
      | cons c fs =>
        simp only [step] at h ⊢
        refine andThen_mono (fun y hy => ih _ _ _ _ hy) (fun vs s y hy => ?_) h
        split at hy
        · rename_i hn
          rw [if_pos hn]; exact ih _ _ _ _ hy
        · rename_i hn
          rw [if_neg hn]
          cases fs with
          | nil => exact hy
          | int i => exact hy
          | sym s => exact hy
          | cons _ _ => exact ih _ _ _ _ hy
  | setq xs res =>
    cases xs with
    | nil => exact h
    | int i => exact h
    | sym s => exact h
    | cons a d =>
      cases a with
      | nil => exact h
      | int i => exact h
      | cons _ _ => exact h
      | sym x =>
        cases d with
        | nil => exact h
        | int i => exact h
        | sym s => exact h
        | cons e rest =>
          simp only [step] at h ⊢
          refine andThen_mono (fun y hy => ih _ _ _ _ hy) (fun vs s y hy => ?_) h
          split at hy
          · exact ih _ _ _ _ hy
          · exact hy
  | special k xs =>
    cases k <;> simp only [step] at h ⊢ <;>
      first
      | exact h
      | exact ih _ _ _ _ h
      | (split at h
         · exact ih _ _ _ _ h
         · exact h)
  | lambda lam vs =>
    cases lam with
    | nil => exact h
    | int i => exact h
    | sym s => exact h
    | cons ps body =>
      simp only [step] at h ⊢
      split at h
      · exact ih _ _ _ _ h
      · exact h
  | apply f vs =>
    cases f with
    | clos lam env' => simp only [step] at h ⊢; exact ih _ _ _ _ h
    | data d => exact h
    | fn f => exact h
    | kw k => exact h

theorem ev_succ : ∀ (n : Nat) (j : Job P) (env : Env) (st : St P W) r,
    ev prim n j env st = some r → ev prim (n + 1) j env st = some r := by
  intro n
  induction n with
  | zero => intro j env st r h; cases h
  | succ n ih => intro j env st r h; exact step_mono ih j env st r h

theorem ev_mono {n m : Nat} (hle : n ≤ m) {j : Job P} {env : Env} {st : St P W} {r}
    (h : ev prim n j env st = some r) : ev prim m j env st = some r := by
  induction hle with
  | refl => exact h
  | step _ ih => exact ev_succ _ _ _ _ _ ih

/-- The job ends with the result. -/
def Ev (prim : P → List (Option Sexp) → W → Ans × W) (j : Job P) (env : Env) (st : St P W)
    (r : Res (Val P) × St P W) : Prop :=
  ∃ n, ev prim n j env st = some r

/-- Evaluation is deterministic. -/
theorem Ev.det {j : Job P} {env : Env} {st : St P W} {r r'}
    (h : Ev prim j env st r) (h' : Ev prim j env st r') : r = r' := by
  obtain ⟨n, h⟩ := h
  obtain ⟨m, h'⟩ := h'
  have a := ev_mono (Nat.le_max_left n m) h
  have b := ev_mono (Nat.le_max_right n m) h'
  exact Option.some.inj (a.symm.trans b)

/-- One computation after another. -/
def Seq (X : Res (Val P) × St P W → Prop)
    (K : List (Val P) → St P W → Res (Val P) × St P W → Prop)
    (r : Res (Val P) × St P W) : Prop :=
  (∃ er s, X (.err er, s) ∧ r = (.err er, s)) ∨ (∃ vs s, X (.ok vs, s) ∧ K vs s r)

theorem seq_ev {x : Nat → Option (Res (Val P) × St P W)}
    {k : Nat → List (Val P) → St P W → Option (Res (Val P) × St P W)} {r}
    (hx : ∀ n m y, n ≤ m → x n = some y → x m = some y)
    (hk : ∀ n m vs s y, n ≤ m → k n vs s = some y → k m vs s = some y)
    (h : Seq (fun y => ∃ n, x n = some y) (fun vs s y => ∃ n, k n vs s = some y) r) :
    ∃ n, andThen (x n) (k n) failM = some r := by
  rcases h with ⟨er, s, ⟨n, h1⟩, h2⟩ | ⟨vs, s, ⟨n, h1⟩, m, h2⟩
  · exact ⟨n, andThen_some.2 (Or.inl ⟨er, s, h1, h2⟩)⟩
  · exact ⟨max n m, andThen_some.2 (Or.inr ⟨vs, s, hx _ _ _ (Nat.le_max_left _ _) h1,
      hk _ _ _ _ _ (Nat.le_max_right _ _) h2⟩)⟩

theorem Ev.of {j : Job P} {env : Env} {st : St P W} {r}
    (h : ∃ n, ev prim (n + 1) j env st = some r) : Ev prim j env st r :=
  let ⟨n, h⟩ := h; ⟨n + 1, h⟩

theorem seq2 {j1 : Job P} {e1 : Env} {st : St P W}
    {j2 : List (Val P) → Job P} {e2 : Env} {r}
    (h : Seq (Ev prim j1 e1 st) (fun vs s => Ev prim (j2 vs) e2 s) r) :
    ∃ n, andThen (ev prim n j1 e1 st) (fun vs s => ev prim n (j2 vs) e2 s) failM = some r :=
  seq_ev (x := fun n => ev prim n j1 e1 st) (k := fun n vs s => ev prim n (j2 vs) e2 s)
    (fun _ _ _ hle h => ev_mono hle h) (fun _ _ _ _ _ hle h => ev_mono hle h) h

/-! ### Rules -/

theorem Ev.sym {s : Sym} {env : Env} {st : St P W} :
    Ev prim (.expr (.sym s)) env st (lookup s env st, st) := ⟨1, rfl⟩

theorem Ev.int {i : Int} {env : Env} {st : St P W} :
    Ev prim (.expr (.int i)) env st (.ok [.data (.int i)], st) := ⟨1, rfl⟩

theorem Ev.nil {env : Env} {st : St P W} :
    Ev prim (.expr .nil) env st (.ok [.data .nil], st) := ⟨1, rfl⟩

/-- A call. -/
theorem Ev.call {h args : Sexp} {env : Env} {st : St P W} {r}
    (hl : isLambda h env = none)
    (H : Seq (Ev prim (.expr h) env st) (fun fs s r =>
      (∀ k, hd fs ≠ .kw k) ∧
      Seq (Ev prim (.list args) env s) (fun vs s => Ev prim (.apply (hd fs) vs) env s) r) r) :
    Ev prim (.expr (.cons h args)) env st r := by
  apply Ev.of
  simp only [ev, step, hl]
  refine seq_ev (x := fun n => ev prim n (.expr h) env st)
    (k := fun n fs s => match hd fs with
      | .kw k => ev prim n (.special k args) env s
      | f => andThen (ev prim n (.list args) env s)
          (fun vs s => ev prim n (.apply f vs) env s) failM)
    (fun _ _ _ hle h => ev_mono hle h) ?_ ?_
  · intro n m fs s y hle hy
    try dsimp only at hy ⊢
    split at hy
    · exact ev_mono hle hy
    · exact andThen_mono (fun _ h => ev_mono hle h) (fun _ _ _ h => ev_mono hle h) hy
  · rcases H with ⟨er, s, h1, h2⟩ | ⟨fs, s, h1, hk, h2⟩
    · exact Or.inl ⟨er, s, h1, h2⟩
    · refine Or.inr ⟨fs, s, h1, ?_⟩
      obtain ⟨n, hn⟩ := seq2 h2
      refine ⟨n, ?_⟩
      try dsimp only
      split
      · rename_i k hkk
        exact absurd hkk (hk k)
      · exact hn

/-- A call of a lambda expression. -/
theorem Ev.inline {h args lam : Sexp} {env : Env} {st : St P W} {r}
    (hl : isLambda h env = some lam)
    (H : Seq (Ev prim (.list args) env st) (fun vs s => Ev prim (.lambda lam vs) env s) r) :
    Ev prim (.expr (.cons h args)) env st r := by
  apply Ev.of
  simp only [ev, step, hl]
  exact seq2 H

theorem Ev.list_nil {env : Env} {st : St P W} :
    Ev prim (.list .nil) env st (.ok [], st) := ⟨1, rfl⟩

theorem Ev.list_cons {a d : Sexp} {env : Env} {st : St P W} {r}
    (H : Seq (Ev prim (.expr a) env st) (fun v s =>
      Seq (Ev prim (.list d) env s) (fun vs s r => r = (.ok (hd v :: vs), s))) r) :
    Ev prim (.list (.cons a d)) env st r := by
  apply Ev.of
  simp only [ev, step]
  refine seq_ev (x := fun n => ev prim n (.expr a) env st)
    (k := fun n v s => andThen (ev prim n (.list d) env s)
      (fun vs s => some (.ok (hd v :: vs), s)) failM)
    (fun _ _ _ hle h => ev_mono hle h)
    (fun _ _ _ _ _ hle hy => andThen_mono (fun _ h => ev_mono hle h) (fun _ _ _ h => h) hy) ?_
  rcases H with ⟨er, s, h1, h2⟩ | ⟨v, s, h1, h2⟩
  · exact Or.inl ⟨er, s, h1, h2⟩
  · refine Or.inr ⟨v, s, h1, ?_⟩
    refine seq_ev (x := fun n => ev prim n (.list d) env s)
      (k := fun _ vs s => some (.ok (hd v :: vs), s))
      (fun _ _ _ hle h => ev_mono hle h) (fun _ _ _ _ _ _ h => h) ?_
    rcases h2 with ⟨er, s, h1, h2⟩ | ⟨vs, s, h1, h2⟩
    · exact Or.inl ⟨er, s, h1, h2⟩
    · exact Or.inr ⟨vs, s, h1, 0, by rw [h2]⟩

theorem Ev.progn_nil {env : Env} {st : St P W} :
    Ev prim (.progn .nil) env st (.ok [.data .nil], st) := ⟨1, rfl⟩

theorem Ev.progn_one {a : Sexp} {env : Env} {st : St P W} {r}
    (H : Ev prim (.expr a) env st r) : Ev prim (.progn (.cons a .nil)) env st r := by
  apply Ev.of
  exact H

theorem Ev.progn_cons {a b d : Sexp} {env : Env} {st : St P W} {r}
    (H : Seq (Ev prim (.expr a) env st) (fun _ s => Ev prim (.progn (.cons b d)) env s) r) :
    Ev prim (.progn (.cons a (.cons b d))) env st r := by
  apply Ev.of
  simp only [ev, step]
  exact seq2 (j2 := fun _ => .progn (.cons b d)) H

theorem Ev.cond_nil {env : Env} {st : St P W} :
    Ev prim (.cond .nil) env st (.ok [.data .nil], st) := ⟨1, rfl⟩

theorem Ev.cond_cons {c fs rest : Sexp} {env : Env} {st : St P W} {r}
    (H : Seq (Ev prim (.expr c) env st) (fun v s r =>
      ((hd v).isNil = true ∧ Ev prim (.cond rest) env s r) ∨
      ((hd v).isNil = false ∧ (∃ a d, fs = .cons a d) ∧ Ev prim (.progn fs) env s r) ∨
      ((hd v).isNil = false ∧ fs = .nil ∧ r = (.ok [hd v], s))) r) :
    Ev prim (.cond (.cons (.cons c fs) rest)) env st r := by
  apply Ev.of
  simp only [ev, step]
  refine seq_ev (x := fun n => ev prim n (.expr c) env st)
    (k := fun n v s => if (hd v).isNil then ev prim n (.cond rest) env s
            else match (generalizing := false) fs with
              | .cons _ _ => ev prim n (.progn fs) env s
              | _ => some (.ok [hd v], s))
    (fun _ _ _ hle h => ev_mono hle h) ?_ ?_
  · intro n m vs s y hle hy
    try dsimp only at hy ⊢
    split at hy
    · rename_i hn
      rw [if_pos hn]; exact ev_mono hle hy
    · rename_i hn
      rw [if_neg hn]
      cases fs with
      | cons _ _ => exact ev_mono hle hy
      | nil => exact hy
      | int i => exact hy
      | sym s => exact hy
  · rcases H with ⟨er, s, h1, h2⟩ | ⟨v, s, h1, h2⟩
    · exact Or.inl ⟨er, s, h1, h2⟩
    · refine Or.inr ⟨v, s, h1, ?_⟩
      try dsimp only
      rcases h2 with ⟨hn, n, h2⟩ | ⟨hn, ⟨a, d, rfl⟩, n, h2⟩ | ⟨hn, rfl, h2⟩
      · exact ⟨n, by rw [if_pos hn]; exact h2⟩
      · exact ⟨n, by rw [if_neg (by rw [hn]; decide)]; exact h2⟩
      · exact ⟨0, by rw [if_neg (by rw [hn]; decide), h2]⟩

theorem Ev.setq_one {x : Sym} {e : Sexp} {v0 : Val P} {env : Env} {st : St P W} {r}
    (H : Seq (Ev prim (.expr e) env st) (fun v s r =>
      (∃ l, env.lookup x = some l ∧ r = (.ok [hd v], { s with store := s.store.set l (hd v) })) ∨
      (env.lookup x = none ∧ r = (.err (.void x), s))) r) :
    Ev prim (.setq (.cons (.sym x) (.cons e .nil)) v0) env st r := by
  apply Ev.of
  simp only [ev, step]
  refine seq_ev (x := fun n => ev prim n (.expr e) env st)
    (k := fun n v s => match env.lookup x with
            | some l =>
              ev prim n (.setq .nil (hd v)) env { s with store := s.store.set l (hd v) }
            | none => some (.err (.void x), s))
    (fun _ _ _ hle h => ev_mono hle h) ?_ ?_
  · intro n m vs s y hle hy
    try dsimp only at hy ⊢
    split at hy
    · exact ev_mono hle hy
    · exact hy
  · rcases H with ⟨er, s, h1, h2⟩ | ⟨v, s, h1, h2⟩
    · exact Or.inl ⟨er, s, h1, h2⟩
    · refine Or.inr ⟨v, s, h1, ?_⟩
      try dsimp only
      rcases h2 with ⟨l, hl, h2⟩ | ⟨hl, h2⟩
      · exact ⟨1, by rw [hl, h2]; rfl⟩
      · exact ⟨0, by rw [hl, h2]⟩

theorem Ev.lambda_ok {ps body : Sexp} {vs : List (Val P)} {env env' : Env} {st : St P W}
    {store r} (hb : bindParams ps vs env st.store = .inr (env', store))
    (H : Ev prim (.progn body) env' { st with store := store } r) :
    Ev prim (.lambda (.cons ps body) vs) env st r := by
  obtain ⟨n, H⟩ := H
  exact ⟨n + 1, by simp only [ev, step, hb]; exact H⟩

theorem Ev.lambda_err {ps body : Sexp} {vs : List (Val P)} {env : Env} {st : St P W} {e}
    (hb : bindParams ps vs env st.store = .inl e) :
    Ev prim (.lambda (.cons ps body) vs) env st (.err e, st) :=
  ⟨1, by simp only [ev, step, hb]⟩

theorem Ev.apply_clos {lam : Sexp} {vs : List (Val P)} {env env' : Env} {st : St P W} {r}
    (H : Ev prim (.lambda lam vs) env' st r) :
    Ev prim (.apply (.clos lam env') vs) env st r := by
  obtain ⟨n, H⟩ := H
  exact ⟨n + 1, H⟩

/-- No reserved name is bound in the environment. -/
def Free (env : Env) : Prop := ∀ x ∈ reserved, env.lookup (.name x) = none

theorem Free.gen {env : Env} (h : Free env) (g l : Nat) : Free ((.gen g, l) :: env) := by
  intro x hx
  rw [List.lookup_cons]
  exact h x hx

/-- A reserved name has its own value. -/
theorem lookup_res {x : String} {env : Env} {st : St P W} {v : Val P} (h : Free env)
    (hx : x ∈ reserved) (hv : (table P).lookup x = some v) :
    lookup (.name x) env st = .ok [v] := by
  unfold lookup
  rw [h x hx]
  dsimp only
  rw [hv]

/-- A special form or a macro call. -/
theorem Ev.kw {h : String} {args : Sexp} {env : Env} {st : St P W} {r} {k : Kw} (hf : Free env)
    (hh : h ∈ reserved) (hk : (table P).lookup h = some (.kw k))
    (H : Ev prim (.special k args) env st r) :
    Ev prim (.expr (.cons (nm h) args)) env st r := by
  obtain ⟨n, H⟩ := H
  have hno : isLambda (nm h) env = none := by
    rfl
  refine ⟨n + 2, ?_⟩
  have h1 : ev prim (n + 1) (.expr (nm h)) env st = some (.ok [.kw k], st) := by
    show some (lookup (.name h) env st, st) = _
    rw [lookup_res hf hh hk]
  rw [ev, step]
  simp only [hno, h1, andThen, hd, List.headD]
  exact ev_succ _ _ _ _ _ H

/-- The macros. -/
def Kw.isMacro : Kw → Bool
  | .quote | .lambda | .cond | .setq | .progn => false
  | _ => true

/-- A macro call is its expansion. -/
theorem Ev.mac {k : Kw} {xs x : Sexp} {g : Nat} {env : Env} {st : St P W} {r}
    (hm : k.isMacro = true) (hx : xs.toList.bind (expand k · st.gens) = some (x, g))
    (H : Ev prim (.expr x) env { st with gens := g } r) :
    Ev prim (.special k xs) env st r := by
  obtain ⟨n, H⟩ := H
  refine ⟨n + 1, ?_⟩
  cases k <;> first | exact absurd hm (by decide) | (simp only [ev, step, hx]; exact H)

end Rep.Forms
