/-
Derived forms: evaluation rules for the macros of the model.
-/
import Verif.Forms.Rel

namespace Rep.Forms

variable {P W : Type} {prim : P → List (Option Sexp) → W → Ans × W}

theorem Seq.imp {X X' : Res (Val P) × St P W → Prop}
    {K K' : List (Val P) → St P W → Res (Val P) × St P W → Prop} {r}
    (h : Seq X K r) (hx : ∀ y, X y → X' y) (hk : ∀ vs s y, K vs s y → K' vs s y) :
    Seq X' K' r := by
  rcases h with ⟨er, s, a, b⟩ | ⟨vs, s, a, b⟩
  · exact Or.inl ⟨er, s, hx _ a, b⟩
  · exact Or.inr ⟨vs, s, hx _ a, hk _ _ _ b⟩

theorem toList_ofList (xs : List Sexp) : (Sexp.ofList xs).toList = some xs := by
  induction xs with
  | nil => rfl
  | cons x xs ih => simp only [Sexp.ofList, Sexp.toList, ih]; rfl

theorem Ev.progn {xs : Sexp} {env : Env} {st : St P W} {r} (hf : Free env)
    (H : Ev prim (.progn xs) env st r) : Ev prim (.expr (form "progn" xs)) env st r := by
  refine Ev.kw hf (by decide) rfl ?_
  obtain ⟨n, H⟩ := H
  exact ⟨n + 1, H⟩

theorem Ev.cond {xs : Sexp} {env : Env} {st : St P W} {r} (hf : Free env)
    (H : Ev prim (.cond xs) env st r) : Ev prim (.expr (form "cond" xs)) env st r := by
  refine Ev.kw hf (by decide) rfl ?_
  obtain ⟨n, H⟩ := H
  exact ⟨n + 1, H⟩

theorem Ev.quote {d : Sexp} {env : Env} {st : St P W} (hf : Free env) :
    Ev prim (.expr (form "quote" (.cons d .nil))) env st (.ok [.data d], st) :=
  Ev.kw hf (by decide) rfl ⟨1, rfl⟩

theorem Ev.lambda {xs : Sexp} {env : Env} {st : St P W} (hf : Free env) :
    Ev prim (.expr (form "lambda" xs)) env st (.ok [.clos xs env], st) :=
  Ev.kw hf (by decide) rfl ⟨1, rfl⟩

theorem Ev.setq {x : Sym} {e : Sexp} {env : Env} {st : St P W} {r} (hf : Free env)
    (H : Seq (Ev prim (.expr e) env st) (fun v s r =>
      (∃ l, env.lookup x = some l ∧ r = (.ok [hd v], { s with store := s.store.set l (hd v) })) ∨
      (env.lookup x = none ∧ r = (.err (.void x), s))) r) :
    Ev prim (.expr (form "setq" (.cons (.sym x) (.cons e .nil)))) env st r := by
  refine Ev.kw hf (by decide) rfl ?_
  obtain ⟨n, H⟩ := Ev.setq_one (v0 := .data .nil) H
  exact ⟨n + 1, H⟩

/-- A macro call by name. -/
theorem Ev.macro {h : String} {k : Kw} {xs : List Sexp} {x : Sexp} {g : Nat} {env : Env}
    {st : St P W} {r} (hf : Free env) (hh : h ∈ reserved)
    (hk : (table P).lookup h = some (.kw k)) (hm : k.isMacro = true)
    (hx : expand k xs st.gens = some (x, g))
    (H : Ev prim (.expr x) env { st with gens := g } r) :
    Ev prim (.expr (form h (.ofList xs))) env st r :=
  Ev.kw hf hh hk (Ev.mac hm (by rw [toList_ofList]; exact hx) H)

theorem Ev.list_one {a : Sexp} {env : Env} {st : St P W} {r}
    (H : Seq (Ev prim (.expr a) env st) (fun v s r => r = (.ok [hd v], s)) r) :
    Ev prim (.list (.cons a .nil)) env st r := by
  refine Ev.list_cons (H.imp (fun _ h => h) ?_)
  intro v s y hy
  exact Or.inr ⟨[], s, Ev.list_nil, hy⟩

theorem Ev.progn_inv {a b d : Sexp} {env : Env} {st : St P W} {r}
    (h : Ev prim (.progn (.cons a (.cons b d))) env st r) :
    Seq (Ev prim (.expr a) env st) (fun _ s => Ev prim (.progn (.cons b d)) env s) r := by
  obtain ⟨n, h⟩ := h
  cases n with
  | zero => cases h
  | succ n =>
    simp only [ev, step] at h
    rw [andThen_some] at h
    rcases h with ⟨er, s, h1, h2⟩ | ⟨vs, s, h1, h2⟩
    · exact Or.inl ⟨er, s, ⟨n, h1⟩, h2⟩
    · exact Or.inr ⟨vs, s, ⟨n, h1⟩, n, h2⟩

theorem Ev.progn_one_inv {a : Sexp} {env : Env} {st : St P W} {r}
    (h : Ev prim (.progn (.cons a .nil)) env st r) : Ev prim (.expr a) env st r := by
  obtain ⟨n, h⟩ := h
  cases n with
  | zero => cases h
  | succ n => exact ⟨n, h⟩

theorem ofList_append_one (xs : List Sexp) (a : Sexp) :
    ∃ b d, Sexp.ofList (xs ++ [a]) = .cons b d := by
  cases xs with
  | nil => exact ⟨_, _, rfl⟩
  | cons x xs => exact ⟨_, _, rfl⟩

/-- Forms followed by one more form. -/
theorem Ev.progn_append {a : Sexp} {env : Env} : ∀ (xs : List Sexp) {st : St P W} {r},
    Seq (Ev prim (.progn (.ofList xs)) env st) (fun _ s => Ev prim (.expr a) env s) r →
    Ev prim (.progn (.ofList (xs ++ [a]))) env st r
  | [], st, r, H => by
    refine Ev.progn_one ?_
    rcases H with ⟨er, s, h1, h2⟩ | ⟨vs, s, h1, h2⟩
    · have := h1.det Ev.progn_nil
      cases this
    · have := h1.det Ev.progn_nil
      cases this
      exact h2
  | [x], st, r, H => by
    refine Ev.progn_cons (H.imp (fun y hy => Ev.progn_one_inv hy) ?_)
    intro vs s y hy
    exact Ev.progn_one hy
  | x :: x2 :: xs, st, r, H => by
    refine Ev.progn_cons ?_
    have ih := fun {st : St P W} {r} => Ev.progn_append (a := a) (env := env)
      (x2 :: xs) (st := st) (r := r)
    rcases H with ⟨er, s, h1, h2⟩ | ⟨vs, s, h1, h2⟩
    · rcases Ev.progn_inv h1 with ⟨er', s', h3, h4⟩ | ⟨vs', s', h3, h4⟩
      · refine Or.inl ⟨er, s, ?_, h2⟩
        rw [h4]
        exact h3
      · exact Or.inr ⟨vs', s', h3, ih (Or.inl ⟨er, s, h4, h2⟩)⟩
    · rcases Ev.progn_inv h1 with ⟨er', s', h3, h4⟩ | ⟨vs', s', h3, h4⟩
      · cases h4
      · exact Or.inr ⟨vs', s', h3, ih (Or.inr ⟨vs, s, h4, h2⟩)⟩

theorem t_val {env : Env} {st : St P W} (hf : Free env) :
    Ev prim (.expr (nm "t")) env st (.ok [.data (nm "t")], st) := by
  have : lookup (.name "t") env st = .ok [.data (nm "t")] := lookup_res hf (by decide) rfl
  rw [← this]
  exact Ev.sym

theorem nil_val {env : Env} {st : St P W} (hf : Free env) :
    Ev prim (.expr (nm "nil")) env st (.ok [.data .nil], st) := by
  have : lookup (.name "nil") env st = .ok [.data .nil] := lookup_res hf (by decide) rfl
  rw [← this]
  exact Ev.sym

/-- `if`. -/
theorem Ev.ifR {c t : Sexp} {els : List Sexp} {env : Env} {st : St P W} {r} (hf : Free env)
    (H : Seq (Ev prim (.expr c) env st) (fun v s r =>
      ((hd v).isNil = true ∧ Ev prim (.progn (.ofList els)) env s r) ∨
      ((hd v).isNil = false ∧ Ev prim (.expr t) env s r)) r) :
    Ev prim (.expr (form "if" (.cons c (.cons t (.ofList els))))) env st r := by
  by_cases he : els = []
  · subst he
    refine Ev.macro (k := .if) (xs := [c, t]) hf (by decide) rfl rfl rfl ?_
    refine Ev.cond hf (Ev.cond_cons (H.imp (fun _ h => h) ?_))
    rintro v s y (⟨h1, h2⟩ | ⟨h1, h2⟩)
    · have := h2.det Ev.progn_nil
      subst this
      exact Or.inl ⟨h1, Ev.cond_nil⟩
    · exact Or.inr (Or.inl ⟨h1, ⟨_, _, rfl⟩, Ev.progn_one h2⟩)
  · have hx : expand .if (c :: t :: els) st.gens
        = some (.ofList [nm "cond", .ofList [c, t], .cons (nm "t") (.ofList els)], st.gens) := by
      simp only [expand, expandIf, if_neg he]; rfl
    refine Ev.macro (k := .if) (xs := c :: t :: els) hf (by decide) rfl rfl hx ?_
    refine Ev.cond hf (Ev.cond_cons (H.imp (fun _ h => h) ?_))
    rintro v s y (⟨h1, h2⟩ | ⟨h1, h2⟩)
    · refine Or.inl ⟨h1, ?_⟩
      refine Ev.cond_cons (Or.inr ⟨_, _, t_val hf, ?_⟩)
      refine Or.inr (Or.inl ⟨rfl, ?_, h2⟩)
      cases els with
      | nil => exact absurd rfl he
      | cons a b => exact ⟨_, _, rfl⟩
    · exact Or.inr (Or.inl ⟨h1, ⟨_, _, rfl⟩, Ev.progn_one h2⟩)

/-- `not`. -/
theorem Ev.notR {c : Sexp} {env : Env} {st : St P W} {r} (hf : Free env)
    (H : Seq (Ev prim (.expr c) env st)
      (fun v s r => r = (.ok [.data (bool (hd v).isNil)], s)) r) :
    Ev prim (.expr (form "not" (.cons c .nil))) env st r := by
  have h0 : Ev prim (.expr (nm "not")) env st (.ok [.fn .not], st) := by
    have : lookup (.name "not") env st = .ok [.fn .not] := lookup_res hf (by decide) rfl
    rw [← this]
    exact Ev.sym
  refine Ev.call rfl (Or.inr ⟨_, _, h0, ⟨(fun k hk => nomatch hk), ?_⟩⟩)
  rcases H with ⟨er, s, h1, h2⟩ | ⟨v, s, h1, h2⟩
  · exact Or.inl ⟨er, s, Ev.list_one (Or.inl ⟨er, s, h1, rfl⟩), h2⟩
  · refine Or.inr ⟨_, s, Ev.list_one (Or.inr ⟨v, s, h1, rfl⟩), 1, ?_⟩
    rw [h2]
    cases hv : hd v with
    | data d => cases d <;> rfl
    | clos l e => rfl
    | fn f => rfl
    | kw k => rfl

/-- `let`, without a name. -/
theorem Ev.letR {bs body : List Sexp} {env : Env} {st : St P W} {r} (hf : Free env)
    (H : Seq (Ev prim (.list (.ofList (bs.map bindValue))) env st)
      (fun vs s => Ev prim (.lambda (.cons (.ofList (bs.map bindVar)) (.ofList body)) vs) env s) r) :
    Ev prim (.expr (form "let" (.cons (.ofList bs) (.ofList body)))) env st r := by
  have hx : expand .let (.ofList bs :: body) st.gens
      = some (.cons (.cons (nm "lambda") (.cons (.ofList (bs.map bindVar)) (.ofList body)))
          (.ofList (bs.map bindValue)), st.gens) := by
    have : expandLet (.ofList bs :: body)
        = some (.cons (.cons (nm "lambda") (.cons (.ofList (bs.map bindVar)) (.ofList body)))
          (.ofList (bs.map bindValue))) := by
      have hn : ∀ f, Sexp.ofList bs ≠ .sym f := by
        intro f; cases bs <;> exact fun h => nomatch h
      unfold expandLet
      split
      · rename_i f rest heq
        exact absurd (List.cons_eq_cons.1 heq).1 (hn f)
      · simp only [List.headD_cons, toList_ofList, List.tail_cons]; rfl
    simp only [expand, this]; rfl
  refine Ev.macro (k := .let) (xs := .ofList bs :: body) hf (by decide) rfl rfl hx ?_
  refine Ev.inline (lam := .cons (.ofList (bs.map bindVar)) (.ofList body)) ?_ H
  have := hf "lambda" (by decide)
  simp [isLambda, nm, this]

/-- `let` with a name: a new location holding the function, and a call of it. -/
theorem Ev.named {f : Sym} (hfr : ∀ x, f = .name x → x ∉ reserved) {bs body : List Sexp}
    {env : Env} {st : St P W} {r} (hf : Free env)
    (H : Seq (Ev prim (.list (.ofList (bs.map bindValue))) ((f, st.store.length) :: env)
        { st with store := st.store ++ [.clos (.cons (.ofList (bs.map bindVar)) (.ofList body))
          ((f, st.store.length) :: env)] })
      (fun vs s => Ev prim (.apply (.clos (.cons (.ofList (bs.map bindVar)) (.ofList body))
          ((f, st.store.length) :: env)) vs) ((f, st.store.length) :: env) s) r) :
    Ev prim (.expr (form "let" (.cons (.sym f) (.cons (.ofList bs) (.ofList body))))) env st r := by
  have hx : expand .let (.sym f :: .ofList bs :: body) st.gens
      = some (form "letrec" (.ofList [.ofList [.ofList [.sym f,
          .cons (nm "lambda") (.cons (.ofList (bs.map bindVar)) (.ofList body))]],
        .cons (.sym f) (.ofList (bs.map bindValue))]), st.gens) := by
    simp only [expand, expandLet, List.headD_cons, toList_ofList, List.tail_cons]; rfl
  have hfe : Free ((f, st.store.length) :: env) := by
    intro x hx
    rw [List.lookup_cons]
    have hne : (Sym.name x == f) = false := by
      rw [beq_eq_false_iff_ne]
      intro h
      exact hfr x h.symm hx
    rw [hne]
    exact hf x hx
  refine Ev.macro (k := .let) (xs := .sym f :: .ofList bs :: body) hf (by decide) rfl rfl hx ?_
  refine Ev.macro (k := .letrec) (g := st.gens) (x := form "let" (.cons (.ofList [.sym f])
    (.ofList [form "setq" (.ofList [.sym f, form "progn" (.ofList [.cons (nm "lambda")
        (.cons (.ofList (bs.map bindVar)) (.ofList body))])]),
      .cons (.sym f) (.ofList (bs.map bindValue))]))) hf (by decide) rfl rfl rfl ?_
  refine Ev.letR (bs := [.sym f]) hf ?_
  refine Or.inr ⟨[.data .nil], st, ?_, ?_⟩
  · exact Ev.list_one (Or.inr ⟨_, _, Ev.nil, rfl⟩)
  · refine Ev.lambda_ok (env' := (f, st.store.length) :: env)
      (store := st.store ++ [.data .nil]) rfl ?_
    refine Ev.progn_cons (Or.inr ⟨_, _, Ev.setq hfe (Or.inr ⟨_, _,
      Ev.progn hfe (Ev.progn_one (Ev.lambda hfe)), Or.inl ⟨st.store.length, ?_, rfl⟩⟩), ?_⟩)
    · rw [List.lookup_cons]; simp
    · refine Ev.progn_one ?_
      have hset : (st.store ++ [Val.data .nil]).set st.store.length
          (.clos (.cons (.ofList (bs.map bindVar)) (.ofList body)) ((f, st.store.length) :: env))
          = st.store ++ [.clos (.cons (.ofList (bs.map bindVar)) (.ofList body))
            ((f, st.store.length) :: env)] := by
        simp
      simp only [hd, List.headD_cons, hset]
      have hlk : lookup f ((f, st.store.length) :: env)
          { st with store := st.store ++ [.clos (.cons (.ofList (bs.map bindVar)) (.ofList body))
            ((f, st.store.length) :: env)] }
          = .ok [.clos (.cons (.ofList (bs.map bindVar)) (.ofList body))
            ((f, st.store.length) :: env)] := by
        unfold lookup
        rw [List.lookup_cons]
        simp
      have hev := Ev.sym (prim := prim) (s := f) (env := (f, st.store.length) :: env)
          (st := { st with store := st.store ++ [.clos (.cons (.ofList (bs.map bindVar))
            (.ofList body)) ((f, st.store.length) :: env)] })
      rw [hlk] at hev
      exact Ev.call rfl (Or.inr ⟨_, _, hev, ⟨(fun k hk => nomatch hk), H⟩⟩)

end Rep.Forms
