import Verif.Gaol.Spec

/-
What every operation does to the flags, the environments and the bindings.
-/

namespace Rep.Gaol

variable {s : St} {cur t : Sid} {v u : Sym}

@[simp] theorem upd_same {α} (f : Nat → α) (k : Nat) (x : α) : upd f k x k = x := by simp [upd]

theorem upd_ne {α} (f : Nat → α) {k n : Nat} (x : α) (h : n ≠ k) : upd f k x n = f n := by simp [upd, h]

theorem search_assign_ne (l : List (Sym × Option Val)) (x : Option Val) (h : u ≠ v) :
    search (assign l v x) u = search l u := by
  induction l with
  | nil => rfl
  | cons a l ih =>
    obtain ⟨k, y⟩ := a
    simp only [assign]
    by_cases hk : k = v
    · subst hk
      simp [search, Ne.symm h]
    · simp only [if_neg hk, search, ih]

/-- The bindings of one variable, innermost first. -/
def vb (l : List (Sym × Option Val)) (v : Sym) : List (Sym × Option Val) := l.filter fun b => decide (b.1 = v)

theorem search_vb (l : List (Sym × Option Val)) (v : Sym) : search l v = (vb l v).head?.map Prod.snd := by
  induction l with
  | nil => rfl
  | cons a l ih =>
    obtain ⟨k, y⟩ := a
    by_cases hk : k = v
    · simp [search, vb, hk]
    · simp only [search, if_neg hk, ih, vb]
      rw [List.filter_cons_of_neg (by simpa using hk)]

theorem vb_assign_ne (l : List (Sym × Option Val)) (x : Option Val) (h : u ≠ v) :
    vb (assign l v x) u = vb l u := by
  induction l with
  | nil => rfl
  | cons a l ih =>
    obtain ⟨k, y⟩ := a
    simp only [assign]
    by_cases hk : k = v
    · subst hk
      simp [vb, Ne.symm h]
    · rw [if_neg hk]
      simp only [vb, List.filter_cons] at ih ⊢
      rw [ih]

theorem keys_assign (l : List (Sym × Option Val)) (v : Sym) (x : Option Val) :
    (assign l v x).map Prod.fst = l.map Prod.fst := by
  induction l with
  | nil => rfl
  | cons a l ih =>
    obtain ⟨k, y⟩ := a
    simp only [assign]
    by_cases hk : k = v
    · simp [hk]
    · simp [if_neg hk, ih]

theorem search_none_of_keys {l l' : List (Sym × Option Val)} (h : l.map Prod.fst = l'.map Prod.fst)
    (hn : search l v = none) : search l' v = none := by
  induction l' generalizing l with
  | nil => rfl
  | cons a l' ih =>
    obtain ⟨k, y⟩ := a
    cases l with
    | nil => simp at h
    | cons b l =>
      obtain ⟨k', y'⟩ := b
      simp only [List.map_cons, List.cons.injEq] at h
      obtain ⟨rfl, h⟩ := h
      simp only [search] at hn ⊢
      split at hn
      · simp at hn
      · rename_i hk
        rw [if_neg hk]
        exact ih h hn

/-! Frame of the setters. -/

section
variable (x : Option Val)
@[simp] theorem sdefine_flags : (sdefine s t v x).flags = s.flags := rfl
@[simp] theorem sdefine_globals : (sdefine s t v x).globals = s.globals := rfl
@[simp] theorem sdefine_binds : (sdefine s t v x).binds = s.binds := rfl
@[simp] theorem sdefine_plist : (sdefine s t v x).plist = s.plist := rfl
@[simp] theorem sdefine_lex : (sdefine s t v x).lex = s.lex := rfl
@[simp] theorem sdefine_user : (sdefine s t v x).user = s.user := rfl
@[simp] theorem sdefine_env (t' : Sid) : ((sdefine s t v x).struc t').env = (s.struc t').env := by
  simp only [sdefine, upd]; split
  · rename_i h; rw [h]
  · rfl
@[simp] theorem gdefine_flags : (gdefine s v x).flags = s.flags := rfl
@[simp] theorem gdefine_binds : (gdefine s v x).binds = s.binds := rfl
@[simp] theorem gdefine_plist : (gdefine s v x).plist = s.plist := rfl
@[simp] theorem gdefine_lex : (gdefine s v x).lex = s.lex := rfl
@[simp] theorem gdefine_user : (gdefine s v x).user = s.user := rfl
@[simp] theorem gdefine_struc : (gdefine s v x).struc = s.struc := rfl
@[simp] theorem dynSet_flags : (dynSet s v x).flags = s.flags := by unfold dynSet; split <;> rfl
@[simp] theorem dynSet_plist : (dynSet s v x).plist = s.plist := by unfold dynSet; split <;> rfl
@[simp] theorem dynSet_lex : (dynSet s v x).lex = s.lex := by unfold dynSet; split <;> rfl
@[simp] theorem dynSet_user : (dynSet s v x).user = s.user := by unfold dynSet; split <;> rfl
@[simp] theorem dynSet_struc : (dynSet s v x).struc = s.struc := by unfold dynSet; split <;> rfl
@[simp] theorem dynSet_keys : (dynSet s v x).binds.map Prod.fst = s.binds.map Prod.fst := by
  unfold dynSet; split
  · simp [keys_assign]
  · rfl
theorem dynSet_search (h : u ≠ v) : search (dynSet s v x).binds u = search s.binds u := by
  unfold dynSet; split
  · simp [search_assign_ne _ _ h]
  · rfl
theorem dynSet_vb (h : u ≠ v) : vb (dynSet s v x).binds u = vb s.binds u := by
  unfold dynSet; split
  · simp [vb_assign_ne _ _ h]
  · rfl
theorem dynSet_globals (h : u ≠ v) : (dynSet s v x).globals u = s.globals u := by
  unfold dynSet; split
  · rfl
  · simp [gdefine, upd_ne _ _ h]
end

/-- What an operation keeps, whatever it is about: nothing happens to the value, the flags and the
property list of another symbol. -/
structure KeepsOther (v : Sym) (s s' : St) : Prop where
  keys : s'.binds.map Prod.fst = s.binds.map Prod.fst
  lexKeys : s'.lex.map Prod.fst = s.lex.map Prod.fst
  user : s'.user = s.user
  flags : ∀ u, u ≠ v → s'.flags u = s.flags u
  globals : ∀ u, u ≠ v → s'.globals u = s.globals u
  vb : ∀ u, u ≠ v → vb s'.binds u = vb s.binds u
  lex : ∀ u, u ≠ v → Rep.Gaol.search s'.lex u = Rep.Gaol.search s.lex u
  plist : ∀ u, u ≠ v → s'.plist u = s.plist u
  env : ∀ t, ((s'.struc t).env = .all ↔ (s.struc t).env = .all)
  listed : ∀ t u, u ≠ v → (searchEnv (s'.struc t).env u = searchEnv (s.struc t).env u)
  own : ∀ t u, u ≠ v → (s'.struc t).own u = (s.struc t).own u
  imported : ∀ t, (s'.struc t).imported = (s.struc t).imported

theorem KeepsOther.refl (v : Sym) (s : St) : KeepsOther v s s :=
  ⟨rfl, rfl, rfl, fun _ _ => rfl, fun _ _ => rfl, fun _ _ => rfl, fun _ _ => rfl, fun _ _ => rfl,
    fun _ => Iff.rfl, fun _ _ _ => rfl, fun _ _ _ => rfl, fun _ => rfl⟩

theorem KeepsOther.trans {s₁ s₂ s₃ : St} (a : KeepsOther v s₁ s₂) (b : KeepsOther v s₂ s₃) :
    KeepsOther v s₁ s₃ :=
  ⟨b.keys.trans a.keys, b.lexKeys.trans a.lexKeys, b.user.trans a.user,
    fun u h => (b.flags u h).trans (a.flags u h), fun u h => (b.globals u h).trans (a.globals u h),
    fun u h => (b.vb u h).trans (a.vb u h), fun u h => (b.lex u h).trans (a.lex u h),
    fun u h => (b.plist u h).trans (a.plist u h), fun t => (b.env t).trans (a.env t),
    fun t u h => (b.listed t u h).trans (a.listed t u h), fun t u h => (b.own t u h).trans (a.own t u h),
    fun t => (b.imported t).trans (a.imported t)⟩

theorem keeps_sdefine (x : Option Val) : KeepsOther v s (sdefine s t v x) := by
  refine ⟨rfl, rfl, rfl, fun _ _ => rfl, fun _ _ => rfl, fun _ _ => rfl, fun _ _ => rfl, fun _ _ => rfl,
    fun t' => by simp, fun t' u h => by simp, ?_, ?_⟩
  · intro t' u h
    simp only [sdefine, upd]
    split
    · rename_i ht
      subst ht
      exact upd_ne _ _ h
    · rfl
  · intro t'
    simp only [sdefine, upd]
    split
    · rename_i ht
      subst ht
      rfl
    · rfl

theorem keeps_gdefine (x : Option Val) : KeepsOther v s (gdefine s v x) :=
  ⟨rfl, rfl, rfl, fun _ _ => rfl, fun u h => upd_ne _ _ h, fun _ _ => rfl, fun _ _ => rfl, fun _ _ => rfl,
    fun _ => Iff.rfl, fun _ _ _ => rfl, fun _ _ _ => rfl, fun _ => rfl⟩

theorem keeps_dynSet (x : Option Val) : KeepsOther v s (dynSet s v x) :=
  ⟨dynSet_keys x, by simp, by simp, fun _ _ => by simp, fun u h => dynSet_globals x h,
    fun u h => dynSet_vb x h, fun _ _ => by simp, fun _ _ => by simp, fun _ => by simp,
    fun _ _ _ => by simp, fun _ _ _ => by simp, fun _ => by simp⟩

theorem keeps_flags (f : Flags) : KeepsOther v s { s with flags := upd s.flags v f } :=
  ⟨rfl, rfl, rfl, fun u h => upd_ne _ _ h, fun _ _ => rfl, fun _ _ => rfl, fun _ _ => rfl, fun _ _ => rfl,
    fun _ => Iff.rfl, fun _ _ _ => rfl, fun _ _ _ => rfl, fun _ => rfl⟩

theorem keeps_plist (l : List (Sym × Val)) : KeepsOther v s { s with plist := upd s.plist v l } :=
  ⟨rfl, rfl, rfl, fun _ _ => rfl, fun _ _ => rfl, fun _ _ => rfl, fun _ _ => rfl, fun u h => upd_ne _ _ h,
    fun _ => Iff.rfl, fun _ _ _ => rfl, fun _ _ _ => rfl, fun _ => rfl⟩

theorem keeps_lex (x : Option Val) : KeepsOther v s { s with lex := assign s.lex v x } :=
  ⟨rfl, keys_assign _ _ _, rfl, fun _ _ => rfl, fun _ _ => rfl, fun _ _ => rfl,
    fun u h => search_assign_ne _ _ h, fun _ _ => rfl, fun _ => Iff.rfl, fun _ _ _ => rfl,
    fun _ _ _ => rfl, fun _ => rfl⟩

theorem keeps_structureSet (x : Option Val) : KeepsOther v s (structureSet s t v x).2 := by
  unfold structureSet
  split
  · split
    · exact keeps_sdefine _
    · exact .refl _ _
  · exact keeps_sdefine _

theorem keeps_doSet (x : Option Val) : KeepsOther v s (doSet s cur v x).2 := by
  unfold doSet
  split
  · split
    · split
      · exact .refl _ _
      · exact keeps_dynSet _
    · exact .refl _ _
  · split
    · exact keeps_lex _
    · exact keeps_structureSet _

theorem keeps_setDefault (x : Val) : KeepsOther v s (setDefault s cur v x).2 := by
  unfold setDefault
  split
  · split
    · split
      · exact .refl _ _
      · exact keeps_dynSet _
    · exact .refl _ _
  · exact keeps_structureSet _

theorem keeps_put (p : Sym) (x : Val) : KeepsOther v s (put s cur v p x).2 := by
  unfold put
  split
  · exact .refl _ _
  · exact keeps_plist _

theorem keeps_initial {y : Val} {s' : St} (h : (if (s.flags v).special then none else initialValue s v) = some (y, s')) :
    ∃ u, s' = sdefine s u v none ∧ s.user = some u ∧ (s.flags v).special = false ∧ sref (s.struc u) v = some y := by
  split at h
  · simp at h
  · rename_i hs
    unfold initialValue at h
    split at h
    · simp at h
    · rename_i w hw
      split at h
      · rename_i x hx
        simp only [Option.some.injEq, Prod.mk.injEq] at h
        exact ⟨w, h.2.symm, hw, by simpa using hs, h.1 ▸ hx⟩
      · simp at h

theorem keeps_defvarBound : KeepsOther v s (defvarBound s cur v).2 := by
  unfold defvarBound
  split
  · split
    · exact keeps_doSet _
    · exact .refl _ _
  · exact .refl _ _

theorem keeps_defvarValue (x : Val) (b : Bool) : KeepsOther v s (defvarValue s cur v x b) := by
  unfold defvarValue
  split
  · rename_i y s' h
    obtain ⟨u, rfl, -, -⟩ := keeps_initial h
    exact (keeps_sdefine none).trans (keeps_gdefine _)
  · split
    · exact keeps_gdefine _
    · exact .refl _ _

theorem keeps_defvarFlags (spec : Int) : KeepsOther v s (defvarFlags s cur v spec) := by
  unfold defvarFlags
  dsimp only
  split
  · refine ⟨rfl, rfl, rfl, fun u h => upd_ne _ _ h, fun _ _ => rfl, fun _ _ => rfl, fun _ _ => rfl,
      fun _ _ => rfl, ?_, ?_, ?_, ?_⟩
    · intro t
      simp only [upd]
      split
      · rename_i h
        subst h
        cases (s.struc t).env <;> simp
      · exact Iff.rfl
    · intro t u hu
      simp only [upd]
      split
      · rename_i h
        subst h
        cases (s.struc t).env <;> simp [searchEnv, hu]
      · rfl
    · intro t u hu
      simp only [upd]
      split
      · rename_i h
        subst h
        rfl
      · rfl
    · intro t
      simp only [upd]
      split
      · rename_i h
        subst h
        rfl
      · rfl
  · split
    · exact keeps_flags _
    · exact keeps_flags _

theorem keeps_defvar (x : Val) (doc : Option Val) : KeepsOther v s (defvar s cur v x doc).2 := by
  unfold defvar
  dsimp only
  split
  · exact keeps_defvarBound
  · have h := keeps_defvarBound.trans ((keeps_defvarValue (cur := cur) x (defvarBound s cur v).1).trans
      (keeps_defvarFlags (s := defvarValue (defvarBound s cur v).2 cur v x (defvarBound s cur v).1) (cur := cur)
        (v := v) (searchEnv ((defvarBound s cur v).2.struc cur).env v)))
    split
    · exact h
    · exact h.trans (keeps_put _ _)

theorem keeps_makeSpecial : KeepsOther v s (makeSpecial s cur v).2 := by
  unfold makeSpecial
  split
  · exact .refl _ _
  · dsimp only
    split
    · rename_i y s' h
      obtain ⟨u, rfl, -, -⟩ := keeps_initial h
      exact ((keeps_sdefine none).trans (keeps_gdefine _)).trans (keeps_flags _)
    · exact keeps_flags _

theorem keeps_compiledDefvar (x : Val) : KeepsOther v s (compiledDefvar s cur v x).2 := by
  have h := keeps_makeSpecial (s := s) (cur := cur) (v := v)
  unfold compiledDefvar
  split
  · rename_i s' he
    rw [he] at h
    exact h
  · rename_i r s' _ he
    rw [he] at h
    split
    · exact h
    · exact h.trans (keeps_doSet _)

theorem keeps_addHookInit (nil : Val) : KeepsOther v s (addHookInit s cur v nil).2 := by
  unfold addHookInit
  split
  · exact .refl _ _
  · have h := keeps_makeSpecial (s := s) (cur := cur) (v := v)
    split
    · rename_i s' he
      rw [he] at h
      exact h
    · rename_i r s' _ he
      rw [he] at h
      exact h.trans (keeps_doSet _)

theorem keeps_addHook (x nil : Val) : KeepsOther v s (addHook s cur v x nil).2 := by
  have hr := keeps_addHookInit (s := s) (cur := cur) (v := v) nil
  unfold addHook
  split
  · rename_i s' he
    rw [he] at hr
    exact hr
  · rename_i r s' _ he
    rw [he] at hr
    split
    · exact hr
    · exact hr.trans (keeps_doSet _)

theorem keeps_step (o : Op) : KeepsOther o.sym s (step s cur o).2 := by
  cases o <;> simp only [step, Op.sym]
  case symbolValue => exact .refl _ _
  case defaultValue => exact .refl _ _
  case boundp => exact .refl _ _
  case defaultBoundp => exact .refl _ _
  case specialp => exact .refl _ _
  case set => exact keeps_doSet _
  case setDefault => exact keeps_setDefault _
  case makunbound => exact keeps_doSet _
  case define => exact keeps_sdefine _
  case defvar => exact keeps_defvar _ _
  case compiledDefvar => exact keeps_compiledDefvar _
  case makeSpecial => exact keeps_makeSpecial
  case addHook => exact keeps_addHook _ _
  case get => exact .refl _ _
  case put => exact keeps_put _ _
  case setplist => split; exacts [.refl _ _, keeps_plist _]
  case symbolPlist => split <;> exact .refl _ _

/-- The stack of bindings is as high at the end as at the start. -/
theorem run_keys (c : Cmd) (t : Sid) (s : St) :
    (run c t s).2.2.binds.map Prod.fst = s.binds.map Prod.fst ∧
    (run c t s).2.2.lex.map Prod.fst = s.lex.map Prod.fst := by
  induction c generalizing t s with
  | op o => exact ⟨(keeps_step o).keys, (keeps_step o).lexKeys⟩
  | seq a b iha ihb =>
    simp only [run]
    split
    · exact ⟨(ihb _ _).1.trans (iha _ _).1, (ihb _ _).2.trans (iha _ _).2⟩
    · exact iha _ _
  | letIn v x b ih =>
    simp only [run]
    split
    · split
      · have h := ih t { s with binds := (v, some x) :: s.binds }
        refine ⟨?_, h.2⟩
        simp only [pop, List.map_tail, h.1]
        rfl
      · exact ⟨rfl, rfl⟩
    · have h := ih t { s with lex := (v, some x) :: s.lex }
      refine ⟨h.1, ?_⟩
      simp only [pop, List.map_tail, h.2]
      rfl
  | guarded b ih => exact ih t s
  | call t' b ih =>
    have h := ih t' { s with lex := [] }
    exact ⟨h.1, rfl⟩

theorem run_user (c : Cmd) (t : Sid) (s : St) : (run c t s).2.2.user = s.user := by
  induction c generalizing t s with
  | op o => exact (keeps_step o).user
  | seq a b iha ihb =>
    simp only [run]
    split
    · exact (ihb _ _).trans (iha _ _)
    · exact iha _ _
  | letIn v x b ih =>
    simp only [run]
    split
    · split
      · exact ih t _
      · rfl
    · exact ih t _
  | guarded b ih => exact ih t s
  | call t' b ih => exact ih t' _

end Rep.Gaol
