import Verif.Prim.Ops

/-
Execution follows evaluation.
-/

namespace Rep.Prim

open Rep.Number (Num Res)

/-- The outcome of compiled code agrees with that of the interpreter. -/
def Agree {α β : Type} (sh : Prop) (g : α → β) (o : Out α) (o' : Out β) : Prop :=
  match o with
  | .ok v tr => o' = .ok (g v) tr
  | .err e tr => (o' = .ub ∧ ¬ sh) ∨
      ∃ e' tr', o' = .err e' tr' ∧ tr' <+: tr ∧ (sh → e' = e ∧ tr' = tr)
  | .ub => True

theorem agree_bind {α β γ δ : Type} {sh : Prop} {g : α → β} {h : γ → δ} {o : Out α} {o' : Out β}
    {K : α → Trace → Out γ} {K' : β → Trace → Out δ} (ho : Agree sh g o o')
    (hk : ∀ v tr, o = .ok v tr → Agree sh h (K v tr) (K' (g v) tr)) :
    Agree sh h (o.bind K) (o'.bind K') := by
  cases o with
  | ok v tr =>
    simp only [Agree] at ho
    subst ho
    exact hk v tr rfl
  | err e tr =>
    rcases ho with ⟨rfl, hs⟩ | ⟨e', tr', rfl, hp, hs⟩
    · exact .inl ⟨rfl, hs⟩
    · exact .inr ⟨e', tr', rfl, hp, hs⟩
  | ub => trivial

theorem agree_of_eq {α β : Type} {sh : Prop} {g : α → β} {o : Out α} {o' : Out β}
    (h : o' = o.bind fun v tr => .ok (g v) tr) : Agree sh g o o' := by
  subst h
  cases o with
  | ok v tr => rfl
  | err e tr => exact .inr ⟨e, tr, rfl, List.prefix_refl _, fun _ => ⟨rfl, rfl⟩⟩
  | ub => trivial

/-- Another interpretation that is undefined more often. -/
theorem agree_weaken {α β γ : Type} {sh : Prop} {h : β → γ} {o : Out α} {K L : α → Trace → Out β}
    {o' : Out γ} (ha : Agree sh h (o.bind L) o')
    (hk : ∀ v tr, o = .ok v tr → K v tr = .ub ∨ K v tr = L v tr) : Agree sh h (o.bind K) o' := by
  cases o with
  | ok v tr =>
    rcases hk v tr rfl with e | e
    · simp only [Out.bind, e]
      trivial
    · simp only [Out.bind, e]
      exact ha
  | err e tr => exact ha
  | ub => trivial

theorem exec_append (W : World) (c d : Code) (st : List Val) (tr : Trace) :
    exec W (c ++ d) st tr = (exec W c st tr).bind fun st tr => exec W d st tr := by
  induction c generalizing st tr with
  | nil => rfl
  | cons i c ih =>
    simp only [List.cons_append, exec]
    cases h : step W i st tr with
    | ok st tr => exact ih st tr
    | _ => rfl

theorem exec_one (W : World) (i : Insn) (st : List Val) (tr : Trace) :
    exec W [i] st tr = step W i st tr := by
  simp only [exec]
  cases step W i st tr <;> rfl

/-- The codes of arguments agree with the arguments, one after the other. -/
def Sims (sh : Prop) (W : World) : List Form → List (C Code) → Trace → Prop
  | [], [], _ => True
  | f :: fs, c :: cs, tr =>
    (∀ code, c = .ok code → ∀ st, Agree sh (· :: st) (eval W f tr) (exec W code st tr)) ∧
      ∀ v tr', eval W f tr = .ok v tr' → Sims sh W fs cs tr'
  | _, _, _ => False

theorem bind_ok {α β : Type} {r : C α} {f : α → C β} {v : β} (h : r.bind f = .ok v) :
    ∃ x, r = .ok x ∧ f x = .ok v := by
  cases r with
  | ok x => exact ⟨x, rfl, h⟩
  | error => cases h
  | crash => cases h

theorem evalArgs_length (W : World) {fs : List Form} {tr tr' : Trace} {vs : List Val}
    (h : evalArgs W fs tr = .ok vs tr') : vs.length = fs.length := by
  induction fs generalizing tr vs tr' with
  | nil =>
    simp only [evalArgs, Out.ok.injEq] at h
    simp [← h.1]
  | cons f fs ih =>
    simp only [evalArgs] at h
    cases hf : eval W f tr with
    | ok v t =>
      rw [hf] at h
      simp only [Out.bind] at h
      cases hr : evalArgs W fs t with
      | ok ws t' =>
        rw [hr] at h
        simp only [Out.ok.injEq] at h
        rw [← h.1, List.length_cons, List.length_cons, ih hr]
      | _ => rw [hr] at h; cases h
    | _ => rw [hf] at h; cases h

theorem all_cons {c : C Code} {cs : List (C Code)} {ds : List Code} (h : all (c :: cs) = .ok ds) :
    ∃ d es, c = .ok d ∧ all cs = .ok es ∧ ds = d :: es := by
  unfold all at h
  cases c with
  | ok d =>
    simp only [C.bind] at h
    cases he : all cs with
    | ok es =>
      rw [he] at h
      cases h
      exact ⟨d, es, rfl, rfl, rfl⟩
    | _ => rw [he] at h; cases h
  | _ => cases h

theorem all_length {cs : List (C Code)} {ds : List Code} (h : all cs = .ok ds) :
    ds.length = cs.length := by
  induction cs generalizing ds with
  | nil => cases h; rfl
  | cons c cs ih =>
    obtain ⟨d, es, _, he, rfl⟩ := all_cons h
    simp [ih he]

/-- The arguments one after the other. -/
theorem sim_args {sh : Prop} {W : World} {fs : List Form} {cs : List (C Code)} {ds : List Code}
    {tr : Trace} (hs : Sims sh W fs cs tr) (ha : all cs = .ok ds) (st : List Val) :
    Agree sh (fun vs => vs.reverse ++ st) (evalArgs W fs tr) (exec W ds.flatten st tr) := by
  induction fs generalizing cs ds tr st with
  | nil =>
    cases cs with
    | nil =>
      cases ha
      simp [evalArgs, Agree, exec]
    | cons c cs => exact hs.elim
  | cons f fs ih =>
    cases cs with
    | nil => exact hs.elim
    | cons c cs =>
      obtain ⟨d, es, rfl, he, rfl⟩ := all_cons ha
      obtain ⟨h1, h2⟩ := hs
      rw [List.flatten_cons, exec_append, evalArgs]
      refine agree_bind (h1 d rfl st) fun v tr' hv => ?_
      have := ih (h2 v tr' hv) he (v :: st)
      have h3 := agree_bind (K := fun vs tr => Out.ok (v :: vs) tr)
        (K' := fun st tr => Out.ok st tr) (h := fun vs => vs.reverse ++ st) this fun vs tr _ => by
          simp [Agree]
      revert h3
      cases exec W es.flatten (v :: st) tr' <;> exact id

/-! ## Traces grow -/

def Grows {α : Type} (tr : Trace) (o : Out α) : Prop :=
  match o with
  | .ok _ t => tr <+: t
  | .err _ t => tr <+: t
  | .ub => True

theorem grows_bind {α β : Type} {tr : Trace} {o : Out α} {K : α → Trace → Out β} (h : Grows tr o)
    (hk : ∀ v t, Grows t (K v t)) : Grows tr (o.bind K) := by
  cases o with
  | ok v t =>
    have := hk v t
    simp only [Out.bind]
    cases hr : K v t with
    | ok w u => rw [hr] at this; exact List.IsPrefix.trans h this
    | err e u => rw [hr] at this; exact List.IsPrefix.trans h this
    | ub => trivial
  | err e t => exact h
  | ub => trivial

theorem grows_out {α : Type} {tr t : Trace} (r : Res α) (h : tr <+: t) : Grows tr (out r t) := by
  cases r <;> first | exact h | trivial

theorem grows_prim (W : World) (b : B) (vs : List Val) (tr : Trace) : Grows tr (prim W b vs tr) := by
  unfold prim
  apply grows_out
  split
  · exact List.prefix_append _ _
  · exact List.prefix_refl _

theorem grows_apply (W : World) (f : Val) (vs : List Val) (tr : Trace) :
    Grows tr (applyFun W f vs tr) := by
  unfold applyFun
  split
  · exact grows_prim W _ vs tr
  · split
    · exact List.prefix_append _ _
    · exact List.prefix_append _ _
  · exact List.prefix_refl _

theorem grows_applyArgs (W : World) (vs : List Val) (tr : Trace) : Grows tr (applyArgs W vs tr) := by
  unfold applyArgs
  split
  · exact List.prefix_refl _
  · dsimp only
    split
    · exact List.prefix_refl _
    · split
      · exact List.prefix_refl _
      · exact grows_apply W _ _ tr

mutual
theorem grows_eval (W : World) : ∀ (f : Form) (tr : Trace), Grows tr (eval W f tr)
  | .const v, tr => List.prefix_refl _
  | .var x, tr => by
    simp only [eval]
    split <;> exact List.prefix_refl _
  | .app f args, tr => by
    simp only [eval]
    exact grows_bind (grows_eval W f tr) fun v t =>
      grows_bind (grows_args W args t) fun vs t => grows_apply W v vs t
  | .call b args, tr => by
    simp only [eval]
    exact grows_bind (grows_args W args tr) fun vs t => grows_prim W b vs t
  | .apply args, tr => by
    simp only [eval]
    exact grows_bind (grows_args W args tr) fun vs t => grows_applyArgs W vs t

theorem grows_args (W : World) : ∀ (fs : List Form) (tr : Trace), Grows tr (evalArgs W fs tr)
  | [], tr => List.prefix_refl _
  | f :: fs, tr => by
    simp only [evalArgs]
    exact grows_bind (grows_eval W f tr) fun v t =>
      grows_bind (grows_args W fs t) fun vs t => List.prefix_refl _
end

/-! ## Handlers -/

theorem out_bind (r : Res Val) (k : Val → Res Val) (tr : Trace) :
    out (r.bind k) tr = (out r tr).bind fun v tr => out (k v) tr := by
  cases r <;> rfl

/-- Instructions between the arguments. -/
theorem sim_folds {sh : Prop} {W : World} (o : Op2) {fs : List Form} {cs : List (C Code)}
    {ds : List Code} {tr : Trace} (hs : Sims sh W fs cs tr) (ha : all cs = .ok ds)
    (hl : sh → fs.length ≤ 1) (s : Val) (st : List Val) :
    Agree sh (· :: st) ((evalArgs W fs tr).bind fun vs tr => out (folds W o s vs) tr)
      (exec W (ds.flatMap fun d => d ++ [.op2 o]) (s :: st) tr) := by
  induction fs generalizing cs ds tr s with
  | nil =>
    cases cs with
    | nil =>
      cases ha
      simp [evalArgs, Agree, exec, Out.bind, folds, out]
    | cons c cs => exact hs.elim
  | cons f fs ih =>
    cases cs with
    | nil => exact hs.elim
    | cons c cs =>
      obtain ⟨d, es, rfl, he, rfl⟩ := all_cons ha
      obtain ⟨h1, h2⟩ := hs
      have hb : (evalArgs W (f :: fs) tr).bind (fun vs tr => out (folds W o s vs) tr) =
          (eval W f tr).bind fun v t => (evalArgs W fs t).bind fun vs t => out (folds W o s (v :: vs)) t := by
        simp only [evalArgs]
        cases eval W f tr with
        | ok v t =>
          simp only [Out.bind]
          cases evalArgs W fs t <;> rfl
        | _ => rfl
      rw [hb, List.flatMap_cons, List.append_assoc, exec_append]
      refine agree_bind (h1 d rfl (s :: st)) fun v t hv => ?_
      rw [exec_append, exec_one]
      simp only [step]
      have hg := grows_args W fs t
      cases hr : exec2 W o s v with
      | ok s' =>
        simp only [folds, hr, Res.bind, out, Out.bind]
        exact ih (h2 v t hv) he (fun h => by have := hl h; simp only [List.length_cons] at this; omega) s'
      | ub =>
        simp only [folds, hr, Res.bind, out, Out.bind]
        cases hf : fs with
        | nil => simp [evalArgs, Agree]
        | cons g gs =>
          cases evalArgs W (g :: gs) t with
          | ok vs u => trivial
          | err e u =>
            refine .inl ⟨rfl, fun h => ?_⟩
            have := hl h
            rw [hf] at this
            simp at this
          | ub => trivial
      | _ =>
        simp only [folds, hr, Res.bind, out, Out.bind]
        cases hf : fs with
        | nil => exact .inr ⟨_, _, rfl, List.prefix_refl _, fun _ => ⟨rfl, rfl⟩⟩
        | cons g gs =>
          have hns : ¬ sh := fun h => by
            have := hl h
            rw [hf] at this
            simp at this
          rw [hf] at hg
          cases he : evalArgs W (g :: gs) t with
          | ok vs u =>
            rw [he] at hg
            exact .inr ⟨_, _, rfl, hg, fun h => (hns h).elim⟩
          | err e u =>
            rw [he] at hg
            exact .inr ⟨_, _, rfl, hg, fun h => (hns h).elim⟩
          | ub => trivial

theorem prim_out {W : World} {b : B} (h : b ≠ .smatch) (vs : List Val) (tr : Trace) :
    prim W b vs tr = out (pure W b vs) tr := by
  rw [prim, if_neg h]

theorem each_length {W : World} {fs : List Form} :
    (compileEach W fs).length = fs.length := by
  induction fs with
  | nil => rfl
  | cons f fs ih => simp [compileEach, ih]

/-- `compile-binary-op`. -/
theorem sim_binary {sh : Prop} {W : World} {b : B} {o : Op2} (hb : b.op2 = some o) {fs : List Form}
    {cs : List (C Code)} {code : Code} {tr : Trace} (hs : Sims sh W fs cs tr) (hcl : cs.length = fs.length)
    (hl : sh → fs.length ≤ 2) (hc : binary cs o = .ok code) (st : List Val) :
    Agree sh (· :: st) ((evalArgs W fs tr).bind fun vs tr => prim W b vs tr) (exec W code st tr) := by
  have hnm : b ≠ .smatch := by rintro rfl; cases hb
  unfold binary at hc
  split at hc
  · cases hc
  · rename_i hlen
    obtain ⟨ds, ha, hc⟩ := bind_ok hc
    cases fs with
    | nil =>
      cases cs with
      | nil => simp at hlen
      | cons c cs => exact hs.elim
    | cons f fs =>
      cases cs with
      | nil => exact hs.elim
      | cons c cs =>
        have hal := all_length ha
        obtain ⟨d, es, rfl, he, rfl⟩ := all_cons ha
        cases hc
        obtain ⟨h1, h2⟩ := hs
        have hb' : (evalArgs W (f :: fs) tr).bind (fun vs tr => prim W b vs tr) =
            (eval W f tr).bind fun v t => (evalArgs W fs t).bind fun vs t => prim W b (v :: vs) t := by
          simp only [evalArgs]
          cases eval W f tr with
          | ok v t =>
            simp only [Out.bind]
            cases evalArgs W fs t <;> rfl
          | _ => rfl
        rw [hb', exec_append]
        refine agree_bind (h1 d rfl st) fun v t hv => ?_
        refine agree_weaken (sim_folds o (h2 v t hv) he (fun h => ?_) v st) fun vs t' hvs => ?_
        · have := hl h
          simp only [List.length_cons] at this
          omega
        · rw [prim_out hnm]
          have hvl := evalArgs_length W hvs
          cases vs with
          | nil =>
            simp only [List.length_nil, List.length_cons] at hvl hcl hlen
            omega
          | cons w ws =>
            rcases pure_folds W hb v w ws with h | h
            · left
              rw [h]
              rfl
            · right
              exact h t'

theorem sim_one {sh : Prop} {W : World} {o : Op1} {c : Code} {E : Out Val} {k : Val → Res Val}
    {st : List Val} {tr : Trace} (h : Agree sh (· :: st) E (exec W c st tr))
    (hk : ∀ v t, E = .ok v t → Same (k v) (exec1 W o v)) :
    Agree sh (· :: st) (E.bind fun v t => out (k v) t) (exec W (c ++ [.op1 o]) st tr) := by
  rw [exec_append]
  refine agree_bind h fun v t hv => ?_
  rw [exec_one]
  apply agree_of_eq
  simp only [step]
  rw [hk v t hv t]

/-- `compile-1-args`. -/
theorem sim_args1 {sh : Prop} {W : World} {o : Op1} {fs : List Form}
    {cs : List (C Code)} {code : Code} {tr : Trace} (hs : Sims sh W fs cs tr)
    (hl : fs.length ≤ 1) (hc : args1 cs o = .ok code) {k : List Val → Res Val}
    (hk : ∀ vs t, evalArgs W fs tr = .ok vs t → Same (k vs) (exec1 W o (arg vs 0))) (st : List Val) :
    Agree sh (· :: st) ((evalArgs W fs tr).bind fun vs tr => out (k vs) tr) (exec W code st tr) := by
  unfold args1 at hc
  obtain ⟨c, h1, hc⟩ := bind_ok hc
  cases hc
  cases fs with
  | nil =>
    cases cs with
    | nil =>
      cases h1
      have := hk [] tr rfl
      refine sim_one (E := .ok .nil tr) (k := fun _ => k []) rfl fun v t h => ?_
      cases h
      exact this
    | cons c cs => exact hs.elim
  | cons f fs =>
    cases fs with
    | cons g gs => simp at hl
    | nil =>
      cases cs with
      | nil => exact hs.elim
      | cons c' cs =>
        simp only [argCode, List.getD_cons_zero] at h1
        have he : (evalArgs W [f] tr).bind (fun vs tr => out (k vs) tr) =
            (eval W f tr).bind fun v t => out (k [v]) t := by
          simp only [evalArgs]
          cases eval W f tr <;> rfl
        rw [he]
        refine sim_one (hs.1 c h1 st) fun v t hv => ?_
        exact hk [v] t (by simp [evalArgs, hv, Out.bind])

/-- `compile-2-args`. -/
theorem sim_args2 {sh : Prop} {W : World} {o : Op2} {fs : List Form}
    {cs : List (C Code)} {code : Code} {tr : Trace} (hs : Sims sh W fs cs tr)
    (hl : fs.length ≤ 2) (hcl : cs.length = fs.length) (hc : args2 cs o = .ok code) {k : List Val → Res Val}
    (hk : ∀ vs t, evalArgs W fs tr = .ok vs t → Same (k vs) (exec2 W o (arg vs 0) (arg vs 1)))
    (st : List Val) :
    Agree sh (· :: st) ((evalArgs W fs tr).bind fun vs tr => out (k vs) tr) (exec W code st tr) := by
  unfold args2 at hc
  obtain ⟨c, h1, hc⟩ := bind_ok hc
  obtain ⟨d, h2, hc⟩ := bind_ok hc
  cases hc
  suffices hA : Agree sh (fun vs => arg vs 1 :: arg vs 0 :: st) (evalArgs W fs tr)
      (exec W (c ++ d) st tr) by
    rw [exec_append]
    refine agree_bind hA fun vs t hv => ?_
    rw [exec_one]
    apply agree_of_eq
    simp only [step]
    rw [hk vs t hv t]
  clear hk
  match fs, cs, hs, hl, hcl, h1, h2 with
  | [], [], hs, _, _, h1, h2 =>
    cases h1
    cases h2
    rfl
  | [f], [c'], hs, _, _, h1, h2 =>
    simp only [argCode, List.getD_cons_zero] at h1
    cases h2
    rw [exec_append, evalArgs]
    refine agree_bind (hs.1 c h1 st) fun v t hv => ?_
    rfl
  | [f, g], [c', d'], hs, _, _, h1, h2 =>
    simp only [argCode, List.getD_cons_zero, List.getD_cons_succ] at h1 h2
    rw [exec_append, evalArgs]
    refine agree_bind (hs.1 c h1 st) fun v t hv => ?_
    have := (hs.2 v t hv).1 d h2 (v :: st)
    have h3 := agree_bind (K := fun w t => Out.ok [v, w] t) (K' := fun st t => Out.ok st t)
      (h := fun vs => arg vs 1 :: arg vs 0 :: st) this fun w t _ => rfl
    simp only [evalArgs]
    revert h3
    cases exec W d (v :: st) t <;> cases eval W g t <;> exact id

/-- A call by the `call` instruction. -/
theorem sim_calling {sh : Prop} {W : World} {F : Out Val} {fc : C Code} {fs : List Form}
    {cs : List (C Code)} {code : Code} {tr : Trace} {st : List Val} (hcl : cs.length = fs.length)
    (hf : ∀ c, fc = .ok c → Agree sh (· :: st) F (exec W c st tr))
    (hs : ∀ v t, F = .ok v t → Sims sh W fs cs t) (hc : calling fc cs = .ok code) :
    Agree sh (· :: st) (F.bind fun f t => (evalArgs W fs t).bind fun vs t => applyFun W f vs t)
      (exec W code st tr) := by
  unfold calling at hc
  obtain ⟨c, h1, hc⟩ := bind_ok hc
  obtain ⟨ds, h2, hc⟩ := bind_ok hc
  cases hc
  have hl := all_length h2
  rw [List.append_assoc, exec_append]
  refine agree_bind (hf c h1) fun v t hv => ?_
  rw [exec_append]
  refine agree_bind (sim_args (hs v t hv) h2 (v :: st)) fun vs t' hvs => ?_
  have hvl := evalArgs_length W hvs
  rw [exec_one]
  apply agree_of_eq
  have hn : ds.length = vs.reverse.length := by simp [hl, hcl, hvl]
  simp only [step]
  rw [hn, List.drop_left, List.take_left, List.reverse_reverse]

end Rep.Prim
