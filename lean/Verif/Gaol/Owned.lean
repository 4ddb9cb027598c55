import Verif.Gaol.Lemmas
import Mathlib.Tactic.Tauto

/-
A variable that unrestricted code has declared: its flags and its place in the environments stay, and its
value is changed only by those who may use it.
-/

namespace Rep.Gaol

variable {s : St} {cur t : Sid} {v : Sym}

/-- What stays of an owned variable. -/
structure Keeps (v : Sym) (s s' : St) : Prop where
  flags : s'.flags v = s.flags v
  env : ∀ t, ((s'.struc t).env = .all ↔ (s.struc t).env = .all)
  listed : ∀ t, searchEnv (s'.struc t).env v = searchEnv (s.struc t).env v

theorem Keeps.refl (v : Sym) (s : St) : Keeps v s s := ⟨rfl, fun _ => Iff.rfl, fun _ => rfl⟩

theorem Keeps.trans {s₁ s₂ s₃ : St} (a : Keeps v s₁ s₂) (b : Keeps v s₂ s₃) : Keeps v s₁ s₃ :=
  ⟨b.flags.trans a.flags, fun t => (b.env t).trans (a.env t), fun t => (b.listed t).trans (a.listed t)⟩

theorem Keeps.of_eq {s s' : St} (hf : s'.flags = s.flags) (hs : ∀ t, (s'.struc t).env = (s.struc t).env) :
    Keeps v s s' :=
  ⟨by rw [hf], fun t => by rw [hs], fun t => by rw [hs]⟩

/-- Its value stays. -/
structure Same (v : Sym) (s s' : St) : Prop where
  globals : s'.globals v = s.globals v
  vb : vb s'.binds v = vb s.binds v

theorem Same.refl (v : Sym) (s : St) : Same v s s := ⟨rfl, rfl⟩

theorem Same.trans {s₁ s₂ s₃ : St} (a : Same v s₁ s₂) (b : Same v s₂ s₃) : Same v s₁ s₃ :=
  ⟨b.globals.trans a.globals, b.vb.trans a.vb⟩

theorem Same.dynRef {s' : St} (h : Same v s s') : dynRef s' v = dynRef s v := by
  unfold Rep.Gaol.dynRef
  rw [search_vb, search_vb, h.vb, h.globals]

theorem Owned.keep {s' : St} (h : Owned s v) (k : Keeps v s s') : Owned s' v := by
  unfold Owned at *
  rw [k.flags]
  exact h

theorem listed_iff : Listed s t v ↔ searchEnv (s.struc t).env v ≠ 0 := by
  unfold Listed searchEnv
  cases (s.struc t).env with
  | all => simp
  | only l => by_cases hv : v ∈ l <;> simp [hv]

theorem Keeps.mayUse {s' : St} (k : Keeps v s s') : MayUse s' t v ↔ MayUse s t v := by
  unfold MayUse Unrestricted
  rw [listed_iff, listed_iff, k.flags, k.env, k.listed]

/-- `spec < 0` is the unrestricted environment. -/
theorem searchEnv_neg : searchEnv (s.struc t).env v < 0 ↔ (s.struc t).env = .all := by
  unfold searchEnv
  split
  · rename_i h
    rw [h]
    simp
  · rename_i h
    rw [h]
    split <;> simp

theorem searchEnv_pos : searchEnv (s.struc t).env v > 0 ↔ (s.struc t).env ≠ .all ∧ Listed s t v := by
  unfold searchEnv Listed
  split
  · simp_all
  · split <;> simp_all

theorem readable_iff : readable s t v = true ↔ MayUse s t v := by
  unfold readable MayUse Unrestricted
  rw [Bool.or_eq_true, Bool.and_eq_true, decide_eq_true_iff, decide_eq_true_iff, searchEnv_neg, searchEnv_pos,
    Bool.not_eq_true']
  tauto

theorem not_mayUse (h : ¬ MayUse s t v) :
    searchEnv (s.struc t).env v = 0 ∨ (searchEnv (s.struc t).env v > 0 ∧ (s.flags v).weakMod = true) := by
  by_cases hl : Listed s t v
  · right
    have hu : (s.struc t).env ≠ .all := fun hu => h (.inl hu)
    refine ⟨searchEnv_pos.mpr ⟨hu, hl⟩, ?_⟩
    cases hw : (s.flags v).weakMod
    · exact absurd (Or.inr ⟨hl, hw⟩) h
    · rfl
  · left
    by_contra hc
    exact hl (listed_iff.mpr hc)

/-! Assignments. -/

theorem keep_dynSet (x : Option Val) : Keeps v s (dynSet s v x) := .of_eq (by simp) (fun _ => by simp)

theorem keep_doSet (h : (s.flags v).special = true) (x : Option Val) : Keeps v s (doSet s cur v x).2 := by
  unfold doSet
  rw [if_pos h]
  split
  · split
    · exact .refl _ _
    · exact keep_dynSet _
  · exact .refl _ _

theorem doSet_barred (h : (s.flags v).special = true) (hb : ¬ MayUse s cur v) (x : Option Val) :
    doSet s cur v x = (.err, s) := by
  unfold doSet
  rw [if_pos h]
  rcases not_mayUse hb with h0 | ⟨hp, hw⟩
  · rw [if_neg (by simp [h0])]
  · rw [if_pos (by omega), if_pos (by simp [hp, hw])]

theorem keep_setDefault (h : (s.flags v).special = true) (x : Val) : Keeps v s (setDefault s cur v x).2 := by
  unfold setDefault
  rw [if_pos h]
  split
  · split
    · exact .refl _ _
    · exact keep_dynSet _
  · exact .refl _ _

theorem setDefault_barred (h : (s.flags v).special = true) (hb : ¬ MayUse s cur v) (x : Val) :
    setDefault s cur v x = (.err, s) := by
  unfold setDefault
  rw [if_pos h]
  rcases not_mayUse hb with h0 | ⟨hp, hw⟩
  · rw [if_neg (by simp [h0])]
  · rw [if_pos (by omega), if_pos (by simp [hp, hw])]

theorem symbolValue_barred (h : (s.flags v).special = true) (hb : ¬ MayUse s cur v) :
    symbolValue s cur v = none := by
  unfold symbolValue
  rw [if_pos h, if_neg (by rw [readable_iff]; exact hb)]

theorem defaultValue_barred (h : (s.flags v).special = true) (hb : ¬ MayUse s cur v) :
    defaultValue s cur v = none := by
  unfold defaultValue
  rw [if_pos h, if_neg (by rw [readable_iff]; exact hb)]

theorem symbolValue_mayUse (h : (s.flags v).special = true) (hb : MayUse s cur v) :
    symbolValue s cur v = dynRef s v := by
  unfold symbolValue
  rw [if_pos h, if_pos (readable_iff.mpr hb)]

theorem defaultValue_mayUse (h : (s.flags v).special = true) (hb : MayUse s cur v) :
    defaultValue s cur v = dynRef s v := by
  unfold defaultValue
  rw [if_pos h, if_pos (readable_iff.mpr hb)]

/-! Declarations. -/

theorem keep_put (p : Sym) (x : Val) : Keeps v s (put s cur v p x).2 := by
  unfold put
  split
  · exact .refl _ _
  · exact .of_eq rfl fun _ => rfl

theorem same_put (p : Sym) (x : Val) : Same v s (put s cur v p x).2 := by
  unfold put
  split
  · exact .refl _ _
  · exact ⟨rfl, rfl⟩

theorem keep_defvarBound (h : (s.flags v).special = true) : Keeps v s (defvarBound s cur v).2 := by
  unfold defvarBound
  split
  · split
    · exact keep_doSet h _
    · exact .refl _ _
  · exact .refl _ _

theorem defvarBound_barred (h : (s.flags v).special = true) (hb : ¬ MayUse s cur v) :
    defvarBound s cur v = ((dynRef s v).isSome, s) := by
  unfold defvarBound defaultBoundp
  rw [symbolValue_barred h hb, if_pos h]
  cases dynRef s v <;> simp [isAuto]

theorem defvarValue_owned (h : Owned s v) (x : Val) (b : Bool) :
    defvarValue s cur v x b = if b then s else gdefine s v (some x) := by
  unfold defvarValue
  rw [if_pos h.1]
  simp only [h.2.2]
  cases b <;> simp

theorem keep_gdefine (x : Option Val) : Keeps v s (gdefine s v x) := .of_eq rfl fun _ => rfl

theorem keep_defvarFlags (h : Owned s v) {spec : Int} (hs : spec ≠ 0) : Keeps v s (defvarFlags s cur v spec) := by
  have hf : upd s.flags v { s.flags v with special := true, defvar := true } v = s.flags v := by
    have h' := h
    rw [upd_same]
    unfold Owned at h'
    cases hv : s.flags v
    simp_all
  unfold defvarFlags
  dsimp only
  rw [if_neg hs, if_neg (by simp [h.2.2])]
  exact ⟨hf, fun _ => Iff.rfl, fun _ => rfl⟩

theorem same_defvarFlags {spec : Int} : Same v s (defvarFlags s cur v spec) := by
  unfold defvarFlags
  dsimp only
  split
  · exact ⟨rfl, rfl⟩
  · split <;> exact ⟨rfl, rfl⟩

theorem keep_defvar (h : Owned s v) (x : Val) (doc : Option Val) : Keeps v s (defvar s cur v x doc).2 := by
  have hb := keep_defvarBound (cur := cur) h.1
  have ho := h.keep hb
  unfold defvar
  dsimp only
  split
  · exact hb
  · rename_i hc
    have hs : searchEnv ((defvarBound s cur v).2.struc cur).env v ≠ 0 := fun h0 => hc ⟨h0, ho.2.1, ho.2.2⟩
    have hk : Keeps v (defvarBound s cur v).2 (defvarValue (defvarBound s cur v).2 cur v x (defvarBound s cur v).1) := by
      rw [defvarValue_owned ho]
      split
      · exact .refl _ _
      · exact keep_gdefine _
    have h' := (hb.trans hk).trans (keep_defvarFlags (cur := cur) (ho.keep hk) hs)
    split
    · exact h'
    · exact h'.trans (keep_put _ _)

theorem same_defvar_barred (h : Owned s v) (hb : ¬ MayUse s cur v) (hx : (dynRef s v).isSome = true) (x : Val)
    (doc : Option Val) : Same v s (defvar s cur v x doc).2 := by
  unfold defvar
  dsimp only
  rw [defvarBound_barred h.1 hb, hx]
  dsimp only
  split
  · exact .refl _ _
  · rw [defvarValue_owned h, if_pos rfl]
    split
    · exact same_defvarFlags
    · exact same_defvarFlags.trans (same_put _ _)

theorem keep_makeSpecial (h : Owned s v) : Keeps v s (makeSpecial s cur v).2 := by
  unfold makeSpecial
  split
  · exact .refl _ _
  · dsimp only
    rw [if_pos h.1]
    refine ⟨?_, fun _ => Iff.rfl, fun _ => rfl⟩
    show upd s.flags v _ v = _
    rw [upd_same]
    have h1 := h.1
    cases hv : s.flags v
    simp_all

theorem same_makeSpecial (h : Owned s v) : Same v s (makeSpecial s cur v).2 := by
  unfold makeSpecial
  split
  · exact .refl _ _
  · dsimp only
    rw [if_pos h.1]
    exact ⟨rfl, rfl⟩

theorem keep_compiledDefvar (h : Owned s v) (x : Val) : Keeps v s (compiledDefvar s cur v x).2 := by
  have hm := keep_makeSpecial (cur := cur) h
  unfold compiledDefvar
  split
  · rename_i s' he
    rw [he] at hm
    exact hm
  · rename_i r s' _ he
    rw [he] at hm
    split
    · exact hm
    · exact hm.trans (keep_doSet (h.keep hm).1 _)

theorem same_compiledDefvar (h : Owned s v) (hx : (dynRef s v).isSome = true) (x : Val) :
    Same v s (compiledDefvar s cur v x).2 := by
  have hm := keep_makeSpecial (cur := cur) h
  have hs := same_makeSpecial (cur := cur) h
  unfold compiledDefvar
  split
  · rename_i s' he
    rw [he] at hs
    exact hs
  · rename_i r s' _ he
    rw [he] at hm hs
    split
    · exact hs
    · rename_i hn
      by_cases hb : MayUse s' cur v
      · rw [symbolValue_mayUse (h.keep hm).1 hb, hs.dynRef] at hn
        exact absurd hx hn
      · rw [doSet_barred (h.keep hm).1 hb]
        exact hs

theorem keep_addHookInit (h : Owned s v) (nil : Val) : Keeps v s (addHookInit s cur v nil).2 := by
  have hm := keep_makeSpecial (cur := cur) h
  unfold addHookInit
  split
  · exact .refl _ _
  · split
    · rename_i s' he
      rw [he] at hm
      exact hm
    · rename_i r s' _ he
      rw [he] at hm
      exact hm.trans (keep_doSet (h.keep hm).1 _)

theorem keep_addHook (h : Owned s v) (x nil : Val) : Keeps v s (addHook s cur v x nil).2 := by
  have hm := keep_addHookInit (cur := cur) h nil
  unfold addHook
  split
  · rename_i s' he
    rw [he] at hm
    exact hm
  · rename_i r s' _ he
    rw [he] at hm
    split
    · exact hm
    · exact hm.trans (keep_doSet (h.keep hm).1 _)

theorem same_addHook_barred (h : Owned s v) (hb : ¬ MayUse s cur v) (x nil : Val) :
    Same v s (addHook s cur v x nil).2 := by
  have hm := keep_makeSpecial (cur := cur) h
  have hs := same_makeSpecial (cur := cur) h
  have hi : Same v s (addHookInit s cur v nil).2 ∧ Keeps v s (addHookInit s cur v nil).2 := by
    refine ⟨?_, keep_addHookInit h nil⟩
    unfold addHookInit
    split
    · exact .refl _ _
    · split
      · rename_i s' he
        rw [he] at hs
        exact hs
      · rename_i r s' _ he
        rw [he] at hm hs
        rw [doSet_barred (h.keep hm).1 (fun hc => hb (hm.mayUse.mp hc))]
        exact hs
  unfold addHook
  split
  · rename_i s' he
    rw [he] at hi
    exact hi.1
  · rename_i r s' _ he
    rw [he] at hi
    split
    · exact hi.1
    · rw [doSet_barred (h.keep hi.2).1 (fun hc => hb (hi.2.mayUse.mp hc))]
      exact hi.1

/-- Every operation keeps the flags of an owned variable and its place in the environments. -/
theorem keep_step (h : Owned s v) (o : Op) : Keeps v s (step s cur o).2 := by
  by_cases hv : o.sym = v
  · subst hv
    cases o <;> simp only [step, Op.sym] at h ⊢
    case symbolValue => exact .refl _ _
    case defaultValue => exact .refl _ _
    case boundp => exact .refl _ _
    case defaultBoundp => exact .refl _ _
    case specialp => exact .refl _ _
    case set => exact keep_doSet h.1 _
    case setDefault => exact keep_setDefault h.1 _
    case makunbound => exact keep_doSet h.1 _
    case define => exact .of_eq rfl fun _ => by simp
    case defvar => exact keep_defvar h _ _
    case compiledDefvar => exact keep_compiledDefvar h _
    case makeSpecial => exact keep_makeSpecial h
    case addHook => exact keep_addHook h _ _
    case get => exact .refl _ _
    case put => exact keep_put _ _
    case setplist => split; exacts [.refl _ _, .of_eq rfl fun _ => rfl]
    case symbolPlist => split <;> exact .refl _ _
  · have k := keeps_step (s := s) (cur := cur) o
    exact ⟨k.flags _ (Ne.symm hv), k.env, fun t => k.listed t _ (Ne.symm hv)⟩

/-- An operation by those who may not use an owned variable, or that does not assign to it, keeps its
value. -/
theorem same_step (h : Owned s v) (hx : (dynRef s v).isSome = true) (o : Op)
    (ho : MayUse s cur v → ¬ o.assigns v) : Same v s (step s cur o).2 := by
  by_cases hv : o.sym = v
  · subst hv
    cases o <;> simp only [step, Op.sym, Op.assigns, not_true, not_false_eq_true, implies_true, imp_false] at h hx ho ⊢
    case symbolValue => exact .refl _ _
    case defaultValue => exact .refl _ _
    case boundp => exact .refl _ _
    case defaultBoundp => exact .refl _ _
    case specialp => exact .refl _ _
    case set => rw [doSet_barred h.1 ho]; exact .refl _ _
    case setDefault => rw [setDefault_barred h.1 ho]; exact .refl _ _
    case makunbound => rw [doSet_barred h.1 ho]; exact .refl _ _
    case define => exact ⟨rfl, rfl⟩
    case defvar => exact same_defvar_barred h ho hx _ _
    case compiledDefvar => exact same_compiledDefvar h hx _
    case makeSpecial => exact same_makeSpecial h
    case addHook => exact same_addHook_barred h ho _ _
    case get => exact .refl _ _
    case put => exact same_put _ _
    case setplist => split; exacts [.refl _ _, ⟨rfl, rfl⟩]
    case symbolPlist => split <;> exact .refl _ _
  · have k := keeps_step (s := s) (cur := cur) o
    exact ⟨k.globals _ (Ne.symm hv), k.vb _ (Ne.symm hv)⟩

theorem keep_run (c : Cmd) (t : Sid) (s : St) (h : Owned s v) : Keeps v s (run c t s).2.2 := by
  induction c generalizing t s with
  | op o => exact keep_step h o
  | seq a b iha ihb =>
    simp only [run]
    split
    · exact (iha t s h).trans (ihb t _ (h.keep (iha t s h)))
    · exact iha t s h
  | letIn u x b ih =>
    simp only [run]
    split
    · split
      · have k := ih t { s with binds := (u, some x) :: s.binds } h
        exact ⟨k.flags, k.env, k.listed⟩
      · exact .refl _ _
    · have k := ih t { s with lex := (u, some x) :: s.lex } h
      exact ⟨k.flags, k.env, k.listed⟩
  | guarded b ih => exact ih t s h
  | call t' b ih =>
    have k := ih t' { s with lex := [] } h
    exact ⟨k.flags, k.env, k.listed⟩

theorem Cmd.Ops.mono {P Q : Sid → Op → Prop} (h : ∀ t o, P t o → Q t o) (c : Cmd) (t : Sid) (hc : c.Ops P t) :
    c.Ops Q t := by
  induction c generalizing t with
  | op o => exact h _ _ hc
  | seq a b iha ihb => exact ⟨iha _ hc.1, ihb _ hc.2⟩
  | letIn v x b ih => exact ih _ hc
  | guarded b ih => exact ih _ hc
  | call t' b ih => exact ih _ hc

theorem Cmd.Lets.mono {P Q : Sid → Sym → Prop} (h : ∀ t o, P t o → Q t o) (c : Cmd) (t : Sid) (hc : c.Lets P t) :
    c.Lets Q t := by
  induction c generalizing t with
  | op o => trivial
  | seq a b iha ihb => exact ⟨iha _ hc.1, ihb _ hc.2⟩
  | letIn v x b ih => exact ⟨h _ _ hc.1, ih _ hc.2⟩
  | guarded b ih => exact ih _ hc
  | call t' b ih => exact ih _ hc

/-- The bindings after `let` are those before it. -/
theorem vb_pop {l l' : List (Sym × Option Val)} {b : Sym × Option Val} (hk : l'.map Prod.fst = (b :: l).map Prod.fst)
    (hv : vb l' v = vb (b :: l) v) : vb (pop l') v = vb l v := by
  cases l' with
  | nil => simp at hk
  | cons a l' =>
    simp only [List.map_cons, List.cons.injEq] at hk
    simp only [pop, List.tail_cons]
    unfold vb at *
    simp only [List.filter_cons] at hv
    by_cases h : a.1 = v
    · rw [if_pos (by simpa using h), if_pos (by simpa [← hk.1] using h)] at hv
      exact (List.cons.inj hv).2
    · rw [if_neg (by simpa using h), if_neg (by simpa [← hk.1] using h)] at hv
      exact hv

theorem dynRef_isSome_push {u : Sym} {x : Val} (hx : (dynRef s v).isSome = true) :
    (dynRef { s with binds := (u, some x) :: s.binds } v).isSome = true := by
  unfold dynRef at *
  simp only [search]
  by_cases h : u = v
  · simp [h]
  · simpa [h] using hx

/-- The value of an owned variable is the same after a program whose operations assign to it only where it
may not be used. -/
theorem same_run (c : Cmd) (t : Sid) (s : St) (h : Owned s v) (hx : (dynRef s v).isSome = true)
    (ho : c.Ops (fun t o => MayUse s t v → ¬ o.assigns v) t) : Same v s (run c t s).2.2 := by
  induction c generalizing t s with
  | op o => exact same_step h hx o ho
  | seq a b iha ihb =>
    have ha := iha t s h hx ho.1
    have ka := keep_run a t s h
    simp only [run]
    split
    · refine ha.trans (ihb t _ (h.keep ka) (by rw [ha.dynRef]; exact hx) ?_)
      exact ho.2.mono fun t o hp hm => hp (ka.mayUse.mp hm)
    · exact ha
  | letIn u x b ih =>
    simp only [run]
    split
    · split
      · have hk := (run_keys b t { s with binds := (u, some x) :: s.binds }).1
        have k := ih t { s with binds := (u, some x) :: s.binds } h (dynRef_isSome_push hx)
          (ho.mono fun t o hp hm => hp hm)
        exact ⟨k.globals, vb_pop hk k.vb⟩
      · exact .refl _ _
    · have k := ih t { s with lex := (u, some x) :: s.lex } h hx (ho.mono fun t o hp hm => hp hm)
      exact ⟨k.globals, k.vb⟩
  | guarded b ih => exact ih t s h hx ho
  | call t' b ih =>
    have k := ih t' { s with lex := [] } h hx (Cmd.Ops.mono (fun t o hp hm => hp hm) b t' ho)
    exact ⟨k.globals, k.vb⟩

/-- Those who may use it see one value all the time. -/
theorem sees_run {x : Val} (c : Cmd) (t : Sid) (s : St) (h : Owned s v) (hx : dynRef s v = some x)
    (ho : c.Ops (fun t o => MayUse s t v → ¬ o.assigns v) t)
    (hl : c.Lets (fun t u => u = v → ¬ Listed s t v) t) :
    SeesOnly (fun t => MayUse s t v) v x (run c t s).1 := by
  have hxs : (dynRef s v).isSome = true := by rw [hx]; rfl
  induction c generalizing t s with
  | op o =>
    intro e he hp hr
    simp only [run, List.mem_singleton] at he
    subst he
    dsimp only at hp hr ⊢
    rcases hr with rfl | rfl
    · simp only [step, symbolValue_mayUse h.1 hp, hx, signalVoid]
    · simp only [step, defaultValue_mayUse h.1 hp, hx, signalVoid]
  | seq a b iha ihb =>
    have ha := same_run a t s h hxs ho.1
    have ka := keep_run a t s h
    have sa := iha t s h hx ho.1 hl.1 hxs
    simp only [run]
    split
    · have sb := ihb t _ (h.keep ka) (by rw [ha.dynRef]; exact hx)
        (ho.2.mono fun t o hp hm => hp (ka.mayUse.mp hm))
        (hl.2.mono fun t u hp hu hc => hp hu (by
          rw [listed_iff] at hc ⊢
          rwa [ka.listed] at hc)) (by rw [ha.dynRef]; exact hxs)
      intro e he hp hr
      rcases List.mem_append.mp he with he | he
      · exact sa e he hp hr
      · exact sb e he (ka.mayUse.mpr hp) hr
    · exact sa
  | letIn u y b ih =>
    simp only [run]
    split
    · rename_i hsp
      split
      · rename_i hspec
        have hu : u ≠ v := by
          intro huv
          subst huv
          exact hl.1 rfl (listed_iff.mpr hspec)
        have hd : dynRef { s with binds := (u, some y) :: s.binds } v = some x := by
          unfold dynRef at hx ⊢
          simp only [search, if_neg hu]
          exact hx
        exact ih t { s with binds := (u, some y) :: s.binds } h hd (ho.mono fun t o hp hm => hp hm) hl.2
          (by rw [hd]; rfl)
      · intro e he
        simp at he
    · exact ih t { s with lex := (u, some y) :: s.lex } h hx (ho.mono fun t o hp hm => hp hm) hl.2 hxs
  | guarded b ih => exact ih t s h hx ho hl hxs
  | call t' b ih =>
    exact ih t' { s with lex := [] } h hx (Cmd.Ops.mono (fun t o hp hm => hp hm) b t' ho) hl hxs

end Rep.Gaol
