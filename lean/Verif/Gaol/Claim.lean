import Verif.Gaol.Owned

/-
A variable that restricted code has declared before unrestricted code does; property lists; ordinary
variables.
-/

namespace Rep.Gaol

variable {s : St} {cur t : Sid} {v u : Sym}

/-- The bindings of the other structures stay, or are removed. -/
def OwnOr (cur : Sid) (s s' : St) : Prop :=
  ∀ t, t ≠ cur → ∀ u, (s'.struc t).own u = (s.struc t).own u ∨ (s'.struc t).own u = none

theorem OwnOr.refl (cur : Sid) (s : St) : OwnOr cur s s := fun _ _ _ => .inl rfl

theorem OwnOr.trans {s₁ s₂ s₃ : St} (a : OwnOr cur s₁ s₂) (b : OwnOr cur s₂ s₃) : OwnOr cur s₁ s₃ := by
  intro t ht u
  rcases b t ht u with h | h
  · rw [h]
    exact a t ht u
  · exact .inr h

theorem OwnOr.of_own {s s' : St} (h : ∀ t, (s'.struc t).own = (s.struc t).own) : OwnOr cur s s' :=
  fun t _ u => .inl (by rw [h])

theorem ownOr_sdefine (x : Option Val) : OwnOr cur s (sdefine s cur v x) := by
  intro t ht u
  left
  simp only [sdefine, upd_ne _ _ ht]

theorem ownOr_remove : OwnOr cur s (sdefine s t v none) := by
  intro t' _ u
  simp only [sdefine, upd]
  split
  · rename_i h
    subst h
    by_cases hu : u = v
    · right; simp [hu]
    · left; exact upd_ne _ _ hu
  · exact .inl rfl

theorem ownOr_dynSet (x : Option Val) : OwnOr cur s (dynSet s v x) := .of_own fun _ => by simp

theorem ownOr_structureSet (x : Option Val) : OwnOr cur s (structureSet s cur v x).2 := by
  unfold structureSet
  split
  · split
    · exact ownOr_sdefine _
    · exact .refl _ _
  · exact ownOr_sdefine _

theorem ownOr_doSet (x : Option Val) : OwnOr cur s (doSet s cur v x).2 := by
  unfold doSet
  split
  · split
    · split
      · exact .refl _ _
      · exact ownOr_dynSet _
    · exact .refl _ _
  · split
    · exact .of_own fun _ => rfl
    · exact ownOr_structureSet _

theorem ownOr_setDefault (x : Val) : OwnOr cur s (setDefault s cur v x).2 := by
  unfold setDefault
  split
  · split
    · split
      · exact .refl _ _
      · exact ownOr_dynSet _
    · exact .refl _ _
  · exact ownOr_structureSet _

theorem ownOr_put (p : Sym) (x : Val) : OwnOr cur s (put s cur v p x).2 := by
  unfold put
  split
  · exact .refl _ _
  · exact .of_own fun _ => rfl

theorem ownOr_defvarBound : OwnOr cur s (defvarBound s cur v).2 := by
  unfold defvarBound
  split
  · split
    · exact ownOr_doSet _
    · exact .refl _ _
  · exact .refl _ _

theorem ownOr_gdefine (x : Option Val) : OwnOr cur s (gdefine s v x) := .of_own fun _ => rfl

theorem ownOr_defvarValue (x : Val) (b : Bool) : OwnOr cur s (defvarValue s cur v x b) := by
  unfold defvarValue
  split
  · rename_i y s' h
    obtain ⟨w, rfl, -, -⟩ := keeps_initial h
    exact ownOr_remove.trans (ownOr_gdefine _)
  · split
    · exact ownOr_gdefine _
    · exact .refl _ _

theorem ownOr_defvarFlags (spec : Int) : OwnOr cur s (defvarFlags s cur v spec) := by
  refine .of_own fun t => ?_
  unfold defvarFlags
  dsimp only
  split
  · simp only [upd]
    split
    · rename_i h
      subst h
      rfl
    · rfl
  · split <;> rfl

theorem ownOr_defvar (x : Val) (doc : Option Val) : OwnOr cur s (defvar s cur v x doc).2 := by
  unfold defvar
  dsimp only
  split
  · exact ownOr_defvarBound
  · have h := (ownOr_defvarBound (s := s) (cur := cur) (v := v)).trans ((ownOr_defvarValue (cur := cur) (v := v) x (defvarBound s cur v).1).trans
      (ownOr_defvarFlags (v := v) (searchEnv ((defvarBound s cur v).2.struc cur).env v)))
    split
    · exact h
    · exact h.trans (ownOr_put _ _)

theorem ownOr_makeSpecial : OwnOr cur s (makeSpecial s cur v).2 := by
  unfold makeSpecial
  split
  · exact .refl _ _
  · dsimp only
    split
    · rename_i y s' h
      obtain ⟨w, rfl, -, -⟩ := keeps_initial h
      exact ownOr_remove.trans (.of_own fun _ => rfl)
    · exact .of_own fun _ => rfl

theorem ownOr_compiledDefvar (x : Val) : OwnOr cur s (compiledDefvar s cur v x).2 := by
  have h := ownOr_makeSpecial (s := s) (cur := cur) (v := v)
  unfold compiledDefvar
  split
  · rename_i s' he
    rw [he] at h
    exact h
  · rename_i r s' _ he
    rw [he] at h
    split
    · exact h
    · exact h.trans (ownOr_doSet _)

theorem ownOr_addHook (x nil : Val) : OwnOr cur s (addHook s cur v x nil).2 := by
  have hi : OwnOr cur s (addHookInit s cur v nil).2 := by
    have h := ownOr_makeSpecial (s := s) (cur := cur) (v := v)
    unfold addHookInit
    split
    · exact .refl _ _
    · split
      · rename_i s' he
        rw [he] at h
        exact h
      · rename_i r s' _ he
        rw [he] at h
        exact h.trans (ownOr_doSet _)
  unfold addHook
  split
  · rename_i s' he
    rw [he] at hi
    exact hi
  · rename_i r s' _ he
    rw [he] at hi
    split
    · exact hi
    · exact hi.trans (ownOr_doSet _)

theorem ownOr_step (o : Op) : OwnOr cur s (step s cur o).2 := by
  cases o <;> simp only [step]
  case symbolValue => exact .refl _ _
  case defaultValue => exact .refl _ _
  case boundp => exact .refl _ _
  case defaultBoundp => exact .refl _ _
  case specialp => exact .refl _ _
  case set => exact ownOr_doSet _
  case setDefault => exact ownOr_setDefault _
  case makunbound => exact ownOr_doSet _
  case define => exact ownOr_sdefine _
  case defvar => exact ownOr_defvar _ _
  case compiledDefvar => exact ownOr_compiledDefvar _
  case makeSpecial => exact ownOr_makeSpecial
  case addHook => exact ownOr_addHook _ _
  case get => exact .refl _ _
  case put => exact ownOr_put _ _
  case setplist => split; exacts [.refl _ _, .of_own fun _ => rfl]
  case symbolPlist => split <;> exact .refl _ _

theorem sref_none {s' : St} (hi : (s'.struc t).imported = (s.struc t).imported)
    (ho : (s'.struc t).own v = (s.struc t).own v ∨ (s'.struc t).own v = none) (h : sref (s.struc t) v = none) :
    sref (s'.struc t) v = none := by
  unfold sref at h ⊢
  split at h
  · simp at h
  · rename_i hn
    rw [hn, or_self] at ho
    rw [ho, hi]
    exact h

/-! Before unrestricted code declares the variable. -/

/-- Nobody has declared it, and no restricted structure lists it; or restricted code has declared it. -/
def Unowned (s : St) (v : Sym) : Prop :=
  (s.flags v = {} ∧ ∀ t, (s.struc t).env ≠ .all → searchEnv (s.struc t).env v = 0) ∨
  ((s.flags v).special = true ∧ (s.flags v).defvar = true ∧ (s.flags v).weak = true ∧ (s.flags v).weakMod = false)

theorem doSet_flags (x : Option Val) : (doSet s cur v x).2.flags = s.flags ∧
    ∀ t, ((doSet s cur v x).2.struc t).env = (s.struc t).env := by
  unfold doSet structureSet
  repeat' split
  all_goals simp

theorem setDefault_flags (x : Val) : (setDefault s cur v x).2.flags = s.flags ∧
    ∀ t, ((setDefault s cur v x).2.struc t).env = (s.struc t).env := by
  unfold setDefault structureSet
  repeat' split
  all_goals simp

theorem put_flags (p : Sym) (x : Val) : (put s cur v p x).2.flags = s.flags ∧ (put s cur v p x).2.struc = s.struc := by
  unfold put
  split <;> exact ⟨rfl, rfl⟩

theorem Unowned.of_eq {s' : St} (h : Unowned s v) (hf : s'.flags = s.flags)
    (hs : ∀ t, (s'.struc t).env = (s.struc t).env) : Unowned s' v := by
  unfold Unowned at *
  rw [hf]
  rcases h with ⟨h1, h2⟩ | h
  · exact .inl ⟨h1, fun t ht => by rw [hs] at ht ⊢; exact h2 t ht⟩
  · exact .inr h

theorem defvarBound_flags : (defvarBound s cur v).2.flags = s.flags ∧
    ∀ t, ((defvarBound s cur v).2.struc t).env = (s.struc t).env := by
  unfold defvarBound
  split
  · split
    · exact doSet_flags _
    · exact ⟨rfl, fun _ => rfl⟩
  · exact ⟨rfl, fun _ => rfl⟩

theorem defvarValue_flags (x : Val) (b : Bool) : (defvarValue s cur v x b).flags = s.flags ∧
    ∀ t, ((defvarValue s cur v x b).struc t).env = (s.struc t).env := by
  unfold defvarValue
  split
  · rename_i y s' h
    obtain ⟨w, rfl, -, -⟩ := keeps_initial h
    simp
  · split
    · exact ⟨rfl, fun _ => rfl⟩
    · exact ⟨rfl, fun _ => rfl⟩

theorem unowned_makeSpecial (h : Unowned s v) (hc : (s.struc cur).env ≠ .all) : Unowned (makeSpecial s cur v).2 v := by
  unfold makeSpecial
  split
  · exact h
  · rename_i h0
    rcases h with ⟨_, h2⟩ | h
    · exact absurd (h2 cur hc) h0
    · right
      dsimp only
      rw [if_pos h.1]
      dsimp only
      rw [upd_same]
      exact ⟨rfl, h.2⟩

theorem unowned_compiledDefvar (h : Unowned s v) (hc : (s.struc cur).env ≠ .all) (x : Val) :
    Unowned (compiledDefvar s cur v x).2 v := by
  have hm := unowned_makeSpecial h hc
  unfold compiledDefvar
  split
  · rename_i s' he
    rw [he] at hm
    exact hm
  · rename_i r s' _ he
    rw [he] at hm
    split
    · exact hm
    · exact hm.of_eq (doSet_flags _).1 (doSet_flags _).2

theorem unowned_addHook (h : Unowned s v) (hc : (s.struc cur).env ≠ .all) (x nil : Val) :
    Unowned (addHook s cur v x nil).2 v := by
  have hm := unowned_makeSpecial h hc
  have hi : Unowned (addHookInit s cur v nil).2 v := by
    unfold addHookInit
    split
    · exact h
    · split
      · rename_i s' he
        rw [he] at hm
        exact hm
      · rename_i r s' _ he
        rw [he] at hm
        exact hm.of_eq (doSet_flags _).1 (doSet_flags _).2
  unfold addHook
  split
  · rename_i s' he
    rw [he] at hi
    exact hi
  · rename_i r s' _ he
    rw [he] at hi
    split
    · exact hi
    · exact hi.of_eq (doSet_flags _).1 (doSet_flags _).2

theorem unowned_defvar (h : Unowned s v) (hc : (s.struc cur).env ≠ .all) (x : Val) (doc : Option Val) :
    Unowned (defvar s cur v x doc).2 v := by
  have hb := defvarBound_flags (s := s) (cur := cur) (v := v)
  have hv := defvarValue_flags (s := (defvarBound s cur v).2) (cur := cur) (v := v) x (defvarBound s cur v).1
  have h1 : Unowned (defvarValue (defvarBound s cur v).2 cur v x (defvarBound s cur v).1) v :=
    (h.of_eq hb.1 hb.2).of_eq hv.1 hv.2
  have hc1 : ((defvarValue (defvarBound s cur v).2 cur v x (defvarBound s cur v).1).struc cur).env ≠ .all := by
    rw [hv.2, hb.2]
    exact hc
  have hspec : searchEnv ((defvarBound s cur v).2.struc cur).env v =
      searchEnv ((defvarValue (defvarBound s cur v).2 cur v x (defvarBound s cur v).1).struc cur).env v := by
    rw [hv.2]
  unfold defvar
  dsimp only
  split
  · exact h.of_eq hb.1 hb.2
  · have hf : Unowned (defvarFlags (defvarValue (defvarBound s cur v).2 cur v x (defvarBound s cur v).1) cur v
        (searchEnv ((defvarBound s cur v).2.struc cur).env v)) v := by
      rw [hspec]
      generalize defvarValue (defvarBound s cur v).2 cur v x (defvarBound s cur v).1 = s₁ at h1 hc1 ⊢
      unfold defvarFlags
      dsimp only
      split
      · right
        dsimp only
        rw [upd_same]
        refine ⟨rfl, rfl, rfl, ?_⟩
        rcases h1 with ⟨h1, -⟩ | h1
        · rw [h1]
        · exact h1.2.2.2
      · rename_i h0
        rcases h1 with ⟨-, h2⟩ | h1
        · exact absurd (h2 cur hc1) h0
        · rw [if_neg (by simp [hc1])]
          right
          dsimp only
          rw [upd_same]
          exact ⟨rfl, rfl, h1.2.2⟩
    split
    · exact hf
    · exact hf.of_eq (put_flags _ _).1 fun _ => by rw [(put_flags _ _).2]

theorem unowned_step (h : Unowned s v) (hc : (s.struc cur).env ≠ .all) (o : Op) : Unowned (step s cur o).2 v := by
  by_cases hv : o.sym = v
  · subst hv
    cases o <;> simp only [step, Op.sym] at h ⊢
    case symbolValue => exact h
    case defaultValue => exact h
    case boundp => exact h
    case defaultBoundp => exact h
    case specialp => exact h
    case set => exact h.of_eq (doSet_flags _).1 (doSet_flags _).2
    case setDefault => exact h.of_eq (setDefault_flags _).1 (setDefault_flags _).2
    case makunbound => exact h.of_eq (doSet_flags _).1 (doSet_flags _).2
    case define => exact h.of_eq rfl fun _ => by simp
    case defvar => exact unowned_defvar h hc _ _
    case compiledDefvar => exact unowned_compiledDefvar h hc _
    case makeSpecial => exact unowned_makeSpecial h hc
    case addHook => exact unowned_addHook h hc _ _
    case get => exact h
    case put => exact h.of_eq (put_flags _ _).1 fun _ => by rw [(put_flags _ _).2]
    case setplist => split; exacts [h, h.of_eq rfl fun _ => rfl]
    case symbolPlist => split <;> exact h
  · have k := keeps_step (s := s) (cur := cur) o
    unfold Unowned at *
    rw [k.flags _ (Ne.symm hv)]
    rcases h with ⟨h1, h2⟩ | h
    · refine .inl ⟨h1, fun t ht => ?_⟩
      rw [k.listed t _ (Ne.symm hv)]
      exact h2 t (fun hc => ht ((k.env t).mpr hc))
    · exact .inr h

/-- Restricted code leaves the variable unowned, and does not bind it in an unrestricted structure. -/
theorem unowned_run (c : Cmd) (t : Sid) (s : St) (h : Unowned s v)
    (hc : c.Ops (fun t _ => (s.struc t).env ≠ .all) t) :
    Unowned (run c t s).2.2 v ∧ (∀ t', ((run c t s).2.2.struc t').env = .all ↔ (s.struc t').env = .all) ∧
    (∀ t', (s.struc t').env = .all → sref (s.struc t') v = none → sref ((run c t s).2.2.struc t') v = none) := by
  induction c generalizing t s with
  | op o =>
    have k := keeps_step (s := s) (cur := t) o
    refine ⟨unowned_step h hc o, k.env, fun t' ht hr => ?_⟩
    exact sref_none (k.imported t') (ownOr_step o t' (fun he => by subst he; exact hc ht) v) hr
  | seq a b iha ihb =>
    obtain ⟨a1, a2, a3⟩ := iha t s h hc.1
    simp only [run]
    split
    · obtain ⟨b1, b2, b3⟩ := ihb t _ a1 (hc.2.mono fun t _ hp hq => hp ((a2 t).mp hq))
      exact ⟨b1, fun t' => (b2 t').trans (a2 t'), fun t' ht hr => b3 t' ((a2 t').mpr ht) (a3 t' ht hr)⟩
    · exact ⟨a1, a2, a3⟩
  | letIn u x b ih =>
    simp only [run]
    split
    · split
      · obtain ⟨b1, b2, b3⟩ := ih t { s with binds := (u, some x) :: s.binds } h hc
        exact ⟨b1, b2, b3⟩
      · exact ⟨h, fun _ => Iff.rfl, fun _ _ hr => hr⟩
    · obtain ⟨b1, b2, b3⟩ := ih t { s with lex := (u, some x) :: s.lex } h hc
      exact ⟨b1, b2, b3⟩
  | guarded b ih => exact ih t s h hc
  | call t' b ih =>
    obtain ⟨b1, b2, b3⟩ := ih t' { s with lex := [] } h hc
    exact ⟨b1, b2, b3⟩

/-- The declaration by unrestricted code gives it the value, and takes it away from the restricted ones. -/
theorem defvar_takes {x : Val} {doc : Option Val} (h : Unowned s v) (ht : (s.struc t).env = .all)
    (hr : sref (s.struc t) v = none) (hu : ∀ w, s.user = some w → sref (s.struc w) v = none)
    (hb : search s.binds v = none) :
    Owned (defvar s t v x doc).2 v ∧ dynRef (defvar s t v x doc).2 v = some x ∧
    ∀ t', MayUse (defvar s t v x doc).2 t' v ↔ (s.struc t').env = .all := by
  have hspec : ∀ s' : St, (s'.struc t).env = .all → searchEnv (s'.struc t).env v = -1 := fun s' h => by rw [h]; rfl
  have hdb := defvarBound_flags (s := s) (cur := t) (v := v)
  have ko := keeps_defvarBound (s := s) (cur := t) (v := v)
  have hput : ∀ (s' : St) (d : Val), Owned s' v → dynRef s' v = some x →
      (∀ t', MayUse s' t' v ↔ (s.struc t').env = .all) →
      Owned (put s' t v docSym d).2 v ∧ dynRef (put s' t v docSym d).2 v = some x ∧
      ∀ t', MayUse (put s' t v docSym d).2 t' v ↔ (s.struc t').env = .all := by
    intro s' d h1 h2 h3
    have k := keep_put (s := s') (cur := t) (v := v) docSym d
    have q := same_put (s := s') (cur := t) (v := v) docSym d
    exact ⟨h1.keep k, by rw [q.dynRef]; exact h2, fun t' => k.mayUse.trans (h3 t')⟩
  have hmain : ∀ s' : St, s' = defvarFlags (defvarValue (defvarBound s t v).2 t v x (defvarBound s t v).1) t v (-1) →
      Owned s' v ∧ dynRef s' v = some x ∧ ∀ t', MayUse s' t' v ↔ (s.struc t').env = .all := by
    intro s' hs'
    have hkeys : search (defvarBound s t v).2.binds v = none := search_none_of_keys ko.keys.symm hb
    have hval : defvarValue (defvarBound s t v).2 t v x (defvarBound s t v).1 = gdefine (defvarBound s t v).2 v (some x) := by
      rcases h with ⟨hf, hl⟩ | hw
      · have hbn : defvarBound s t v = (false, s) := by
          unfold defvarBound defaultBoundp
          rw [hf, hr]
          rfl
        rw [hbn]
        unfold defvarValue initialValue
        dsimp only
        rw [hf]
        cases hw : s.user with
        | none => simp
        | some w => simp [hu w hw]
      · unfold defvarValue
        rw [hdb.1, if_pos hw.1]
        dsimp only
        rw [hw.2.2.1, hw.2.2.2, hdb.2, ht]
        simp
    rw [hval] at hs'
    have hd : ∀ s'' : St, s''.binds = (defvarBound s t v).2.binds → s''.globals v = some x → dynRef s'' v = some x := by
      intro s'' h1 h2
      unfold dynRef
      rw [h1, hkeys, h2]
    have hg : (gdefine (defvarBound s t v).2 v (some x)).globals v = some x := by simp [gdefine]
    rcases h with ⟨hf, hl⟩ | hw
    · have he : s' = { (gdefine (defvarBound s t v).2 v (some x)) with
          flags := upd s.flags v { special := true, defvar := true } } := by
        rw [hs']
        unfold defvarFlags
        dsimp only
        rw [if_neg (by omega), gdefine_flags, hdb.1, hf]
        simp
      rw [he]
      refine ⟨⟨by simp, by simp, by simp⟩, hd _ rfl hg, fun t' => ?_⟩
      unfold MayUse Unrestricted
      simp only [gdefine_struc, upd_same, and_true]
      rw [listed_iff]
      simp only [gdefine_struc]
      rw [hdb.2]
      constructor
      · rintro (h | h)
        · exact h
        · by_contra hc
          exact h (hl t' hc)
      · exact .inl
    · have he : s' = { (gdefine (defvarBound s t v).2 v (some x)) with
          flags := upd s.flags v { special := true, defvar := true, weakMod := true } } := by
        rw [hs']
        unfold defvarFlags
        dsimp only
        rw [if_neg (by omega), if_pos (by rw [gdefine_struc, gdefine_flags, hdb.1, hdb.2, ht, hw.2.2.1]; rfl),
          gdefine_flags, hdb.1]
      rw [he]
      refine ⟨⟨by simp, by simp, by simp⟩, hd _ rfl hg, fun t' => ?_⟩
      unfold MayUse Unrestricted
      simp [hdb.2]
  unfold defvar
  dsimp only
  have hs1 : searchEnv ((defvarBound s t v).2.struc t).env v = -1 := hspec _ (by rw [hdb.2]; exact ht)
  rw [hs1, if_neg (by simp)]
  have hm := hmain _ rfl
  split
  · exact hm
  · exact hput _ _ hm.1 hm.2.1 hm.2.2

/-! Property lists. -/

theorem plist_defvar (h : Owned s v) (hl : searchEnv (s.struc cur).env v = 0) (x : Val) (doc : Option Val) :
    (defvar s cur v x doc).2.plist v = s.plist v := by
  have hb : ¬ MayUse s cur v := by
    rintro (h | ⟨h, -⟩)
    · unfold Unrestricted at h
      rw [h] at hl
      simp [searchEnv] at hl
    · exact listed_iff.mp h hl
  unfold defvar
  dsimp only
  rw [defvarBound_barred h.1 hb]
  dsimp only
  rw [if_pos ⟨hl, h.2.1, h.2.2⟩]

theorem plist_doSet (x : Option Val) : (doSet s cur v x).2.plist = s.plist := by
  unfold doSet structureSet
  repeat' split
  all_goals simp

theorem plist_setDefault (x : Val) : (setDefault s cur v x).2.plist = s.plist := by
  unfold setDefault structureSet
  repeat' split
  all_goals simp

theorem plist_makeSpecial : (makeSpecial s cur v).2.plist = s.plist := by
  unfold makeSpecial
  split
  · rfl
  · dsimp only
    split
    · rename_i y s' h
      obtain ⟨w, rfl, -, -⟩ := keeps_initial h
      rfl
    · rfl

theorem plist_compiledDefvar (x : Val) : (compiledDefvar s cur v x).2.plist = s.plist := by
  have h := plist_makeSpecial (s := s) (cur := cur) (v := v)
  unfold compiledDefvar
  split
  · rename_i s' he
    rw [he] at h
    exact h
  · rename_i r s' _ he
    rw [he] at h
    split
    · exact h
    · rw [plist_doSet]
      exact h

theorem plist_addHook (x nil : Val) : (addHook s cur v x nil).2.plist = s.plist := by
  have hi : (addHookInit s cur v nil).2.plist = s.plist := by
    have h := plist_makeSpecial (s := s) (cur := cur) (v := v)
    unfold addHookInit
    split
    · rfl
    · split
      · rename_i s' he
        rw [he] at h
        exact h
      · rename_i r s' _ he
        rw [he] at h
        rw [plist_doSet]
        exact h
  unfold addHook
  split
  · rename_i s' he
    rw [he] at hi
    exact hi
  · rename_i r s' _ he
    rw [he] at hi
    split
    · exact hi
    · rw [plist_doSet]
      exact hi

theorem plist_step (h : Owned s v) (o : Op) (hl : o.sym = v → ¬ Listed s cur v) :
    (step s cur o).2.plist v = s.plist v := by
  by_cases hv : o.sym = v
  · have hl := hl hv
    rw [listed_iff, not_not] at hl
    subst hv
    cases o <;> simp only [step, Op.sym] at h hl ⊢
    case set => rw [plist_doSet]
    case setDefault => rw [plist_setDefault]
    case makunbound => rw [plist_doSet]
    case define => rfl
    case defvar => exact plist_defvar h hl _ _
    case compiledDefvar => rw [plist_compiledDefvar]
    case makeSpecial => rw [plist_makeSpecial]
    case addHook => rw [plist_addHook]
    case put => unfold put; rw [if_pos hl]
    case setplist => rw [if_pos hl]
    case symbolPlist => rw [if_pos hl]
  · exact (keeps_step (s := s) (cur := cur) o).plist _ (Ne.symm hv)

theorem plist_run (c : Cmd) (t : Sid) (s : St) (h : Owned s v)
    (hc : c.Ops (fun t o => o.sym = v → ¬ Listed s t v) t) : (run c t s).2.2.plist v = s.plist v := by
  induction c generalizing t s with
  | op o => exact plist_step h o hc
  | seq a b iha ihb =>
    have ka := keep_run (v := v) a t s h
    simp only [run]
    split
    · rw [ihb t _ (h.keep ka) (hc.2.mono fun t o hp hu hl => hp hu (by
        rw [listed_iff] at hl ⊢
        rwa [ka.listed] at hl))]
      exact iha t s h hc.1
    · exact iha t s h hc.1
  | letIn u x b ih =>
    simp only [run]
    split
    · split
      · exact ih t { s with binds := (u, some x) :: s.binds } h hc
      · rfl
    · exact ih t { s with lex := (u, some x) :: s.lex } h hc
  | guarded b ih => exact ih t s h hc
  | call t' b ih => exact ih t' { s with lex := [] } h hc

/-! Ordinary variables of other structures. -/

theorem own_step (hs : (s.flags v).special = false) (o : Op) (hd : ¬ o.declares v) (ht : t ≠ cur) :
    ((step s cur o).2.flags v).special = false ∧ sref ((step s cur o).2.struc t) v = sref (s.struc t) v := by
  by_cases hv : o.sym = v
  · have hsd : ∀ x, ∀ s' : St, s' = sdefine s cur v x → (s'.flags v).special = false ∧ sref (s'.struc t) v = sref (s.struc t) v := by
      intro x s' he
      rw [he]
      refine ⟨hs, ?_⟩
      simp only [sdefine, upd_ne _ _ ht]
    have hss : ∀ x, ((structureSet s cur v x).2.flags v).special = false ∧
        sref ((structureSet s cur v x).2.struc t) v = sref (s.struc t) v := by
      intro x
      unfold structureSet
      split
      · split
        · exact hsd _ _ rfl
        · exact ⟨hs, rfl⟩
      · exact hsd _ _ rfl
    have hset : ∀ x, ((doSet s cur v x).2.flags v).special = false ∧
        sref ((doSet s cur v x).2.struc t) v = sref (s.struc t) v := by
      intro x
      unfold doSet
      rw [if_neg (by simp [hs])]
      split
      · exact ⟨hs, rfl⟩
      · exact hss _
    subst hv
    cases o <;> simp only [step, Op.sym, Op.declares, not_true] at hs hd hsd hss hset ⊢
    case symbolValue => exact ⟨hs, trivial⟩
    case defaultValue => exact ⟨hs, trivial⟩
    case boundp => exact ⟨hs, trivial⟩
    case defaultBoundp => exact ⟨hs, trivial⟩
    case specialp => exact ⟨hs, trivial⟩
    case set => exact hset _
    case setDefault =>
      unfold setDefault
      rw [if_neg (by simp [hs])]
      exact hss _
    case makunbound => exact hset _
    case define => exact hsd _ _ rfl
    case get => exact ⟨hs, trivial⟩
    case put => rw [(put_flags _ _).1, (put_flags _ _).2]; exact ⟨hs, rfl⟩
    case setplist => split <;> exact ⟨hs, rfl⟩
    case symbolPlist => split <;> exact ⟨hs, rfl⟩
  · have k := keeps_step (s := s) (cur := cur) o
    refine ⟨by rw [k.flags _ (Ne.symm hv)]; exact hs, ?_⟩
    unfold sref
    rw [k.own t _ (Ne.symm hv), k.imported]

theorem own_run (c : Cmd) (t' : Sid) (s : St) (hs : (s.flags v).special = false)
    (hc : c.Ops (fun t' o => t' ≠ t ∧ ¬ o.declares v) t') :
    ((run c t' s).2.2.flags v).special = false ∧ sref ((run c t' s).2.2.struc t) v = sref (s.struc t) v := by
  induction c generalizing t' s with
  | op o => exact own_step hs o hc.2 (Ne.symm hc.1)
  | seq a b iha ihb =>
    obtain ⟨a1, a2⟩ := iha t' s hs hc.1
    simp only [run]
    split
    · obtain ⟨b1, b2⟩ := ihb t' _ a1 hc.2
      exact ⟨b1, b2.trans a2⟩
    · exact ⟨a1, a2⟩
  | letIn u x b ih =>
    simp only [run]
    split
    · split
      · exact ih t' { s with binds := (u, some x) :: s.binds } hs hc
      · exact ⟨hs, rfl⟩
    · exact ih t' { s with lex := (u, some x) :: s.lex } hs hc
  | guarded b ih => exact ih t' s hs hc
  | call w b ih => exact ih w { s with lex := [] } hs hc

end Rep.Gaol
