import Verif.Gaol.Owned

/-
Two runs that differ only in the value of a variable: those who may not use it see no difference.
-/

namespace Rep.Gaol

variable {s₁ s₂ : St} {cur : Sid} {v u : Sym}

/-- The relation between the two lists of bindings. -/
abbrev BRel (v : Sym) (a b : Sym × Option Val) : Prop :=
  a.1 = b.1 ∧ (a.1 ≠ v → a.2 = b.2) ∧ a.2.isSome = b.2.isSome

/-- The operation is about another variable, or comes from one who may not use the variable. -/
def Ok (s : St) (cur : Sid) (v u : Sym) : Prop := u ≠ v ∨ (Owned s v ∧ ¬ MayUse s cur v)

theorem search_rel {l₁ l₂ : List (Sym × Option Val)} (h : List.Forall₂ (BRel v) l₁ l₂) (hu : u ≠ v) :
    search l₁ u = search l₂ u := by
  induction h with
  | nil => rfl
  | @cons a b l₁ l₂ hab _ ih =>
    obtain ⟨k, x⟩ := a
    obtain ⟨k', y⟩ := b
    obtain ⟨rfl, h2, _⟩ := hab
    simp only [search]
    by_cases hk : k = u
    · subst hk
      have := h2 hu
      simp_all
    · simp [hk, ih]

theorem search_rel_some {l₁ l₂ : List (Sym × Option Val)} (h : List.Forall₂ (BRel v) l₁ l₂) :
    (search l₁ v).map Option.isSome = (search l₂ v).map Option.isSome := by
  induction h with
  | nil => rfl
  | @cons a b l₁ l₂ hab _ ih =>
    obtain ⟨k, x⟩ := a
    obtain ⟨k', y⟩ := b
    obtain ⟨rfl, h2, h3⟩ := hab
    simp only [search]
    by_cases hk : k = v
    · simpa [hk] using h3
    · simp [hk, ih]

theorem assign_rel {l₁ l₂ : List (Sym × Option Val)} (h : List.Forall₂ (BRel v) l₁ l₂) (x : Option Val) :
    List.Forall₂ (BRel v) (assign l₁ u x) (assign l₂ u x) := by
  induction h with
  | nil => exact .nil
  | @cons a b l₁ l₂ hab hl ih =>
    obtain ⟨k, y⟩ := a
    obtain ⟨k', y'⟩ := b
    have hk' : k = k' := hab.1
    subst hk'
    simp only [assign]
    split
    · exact .cons ⟨rfl, fun _ => rfl, rfl⟩ hl
    · exact .cons hab ih

theorem SameBut.dynRef (h : SameBut v s₁ s₂) (hu : u ≠ v) : dynRef s₁ u = dynRef s₂ u := by
  unfold Rep.Gaol.dynRef
  rw [search_rel h.binds hu, h.globals u hu]

theorem SameBut.dynRef_some (h : SameBut v s₁ s₂) (u : Sym) :
    (Rep.Gaol.dynRef s₁ u).isSome = (Rep.Gaol.dynRef s₂ u).isSome := by
  by_cases hu : u = v
  · subst hu
    have hs := search_rel_some h.binds
    unfold Rep.Gaol.dynRef
    cases h1 : search s₁.binds u <;> cases h2 : search s₂.binds u <;> simp_all [h.bound]
  · rw [h.dynRef hu]

theorem SameBut.owned (h : SameBut v s₁ s₂) : Owned s₁ u ↔ Owned s₂ u := by
  unfold Owned
  rw [h.flags]

theorem SameBut.mayUse (h : SameBut v s₁ s₂) (t : Sid) : MayUse s₁ t u ↔ MayUse s₂ t u := by
  unfold MayUse Unrestricted Listed
  rw [h.flags, h.struc]

theorem SameBut.ok (h : SameBut v s₁ s₂) (k : Ok s₁ cur v u) : Ok s₂ cur v u := by
  unfold Ok at *
  rwa [h.owned, h.mayUse] at k

theorem SameBut.searchEnv (h : SameBut v s₁ s₂) (t : Sid) : (s₂.struc t).env = (s₁.struc t).env := by rw [h.struc]

/-- States that are written out. -/
local macro "same_but" h:ident : tactic =>
  `(tactic| exact ⟨by first | rfl | exact ($h).flags, by first | rfl | exact ($h).lex, by first | rfl | exact ($h).plist,
    by first | rfl | exact ($h).struc, by first | rfl | exact ($h).user, ($h).globals, ($h).bound, ($h).binds⟩)

theorem SameBut.setStruc (h : SameBut v s₁ s₂) (f : Sid → Struc) :
    SameBut v { s₁ with struc := f } { s₂ with struc := f } :=
  ⟨h.flags, h.lex, h.plist, rfl, h.user, h.globals, h.bound, h.binds⟩

theorem SameBut.setFlags (h : SameBut v s₁ s₂) (f : Sym → Flags) :
    SameBut v { s₁ with flags := f } { s₂ with flags := f } :=
  ⟨rfl, h.lex, h.plist, h.struc, h.user, h.globals, h.bound, h.binds⟩

theorem SameBut.setPlist (h : SameBut v s₁ s₂) (f : Sym → List (Sym × Val)) :
    SameBut v { s₁ with plist := f } { s₂ with plist := f } :=
  ⟨h.flags, h.lex, rfl, h.struc, h.user, h.globals, h.bound, h.binds⟩

theorem SameBut.setLex (h : SameBut v s₁ s₂) (f : List (Sym × Option Val)) :
    SameBut v { s₁ with lex := f } { s₂ with lex := f } :=
  ⟨h.flags, rfl, h.plist, h.struc, h.user, h.globals, h.bound, h.binds⟩

theorem SameBut.sdefine (h : SameBut v s₁ s₂) (t : Sid) (u : Sym) (x : Option Val) :
    SameBut v (sdefine s₁ t u x) (sdefine s₂ t u x) := by
  unfold Rep.Gaol.sdefine
  rw [h.struc]
  same_but h

theorem SameBut.gdefine (h : SameBut v s₁ s₂) (u : Sym) (x : Option Val) :
    SameBut v (gdefine s₁ u x) (gdefine s₂ u x) := by
  refine ⟨h.flags, h.lex, h.plist, h.struc, h.user, ?_, ?_, h.binds⟩
  · intro w hw
    simp only [Rep.Gaol.gdefine, upd]
    split
    · rfl
    · exact h.globals w hw
  · simp only [Rep.Gaol.gdefine, upd]
    split
    · rfl
    · exact h.bound

theorem SameBut.dynSet (h : SameBut v s₁ s₂) (hu : u ≠ v) (x : Option Val) :
    SameBut v (dynSet s₁ u x) (dynSet s₂ u x) := by
  unfold Rep.Gaol.dynSet
  rw [search_rel h.binds hu]
  split
  · exact ⟨h.flags, h.lex, h.plist, h.struc, h.user, h.globals, h.bound, assign_rel h.binds x⟩
  · exact h.gdefine u x

/-- Two results are the same, and the states still differ only in the variable. -/
def Both (v : Sym) (r₁ r₂ : Res × St) : Prop := r₁.1 = r₂.1 ∧ SameBut v r₁.2 r₂.2

theorem SameBut.symbolValue (h : SameBut v s₁ s₂) (k : Ok s₁ cur v u) :
    symbolValue s₁ cur u = symbolValue s₂ cur u := by
  rcases k with hu | ⟨ho, hb⟩
  · unfold Rep.Gaol.symbolValue readable
    rw [h.dynRef hu, h.flags, h.struc, h.lex]
  · by_cases hu : u = v
    · subst hu
      rw [symbolValue_barred ho.1 hb, symbolValue_barred (h.owned.mp ho).1 (by rwa [← h.mayUse])]
    · unfold Rep.Gaol.symbolValue readable
      rw [h.dynRef hu, h.flags, h.struc, h.lex]

theorem SameBut.defaultValue (h : SameBut v s₁ s₂) (k : Ok s₁ cur v u) :
    defaultValue s₁ cur u = defaultValue s₂ cur u := by
  by_cases hu : u = v
  · subst hu
    rcases k with hu | ⟨ho, hb⟩
    · exact absurd rfl hu
    · rw [defaultValue_barred ho.1 hb, defaultValue_barred (h.owned.mp ho).1 (by rwa [← h.mayUse])]
  · unfold Rep.Gaol.defaultValue readable
    rw [h.dynRef hu, h.flags, h.struc]

theorem SameBut.defaultBoundp (h : SameBut v s₁ s₂) : defaultBoundp s₁ cur u = defaultBoundp s₂ cur u := by
  unfold Rep.Gaol.defaultBoundp
  rw [h.dynRef_some, h.flags, h.struc]

theorem SameBut.structureSet (h : SameBut v s₁ s₂) (t : Sid) (u : Sym) (x : Option Val) :
    Both v (structureSet s₁ t u x) (structureSet s₂ t u x) := by
  unfold Rep.Gaol.structureSet
  rw [h.struc]
  cases x with
  | none => exact ⟨rfl, h.sdefine _ _ _⟩
  | some y =>
    dsimp only
    split
    · exact ⟨rfl, h.sdefine _ _ _⟩
    · exact ⟨rfl, h⟩

theorem SameBut.doSet (h : SameBut v s₁ s₂) (k : Ok s₁ cur v u) (x : Option Val) :
    Both v (doSet s₁ cur u x) (doSet s₂ cur u x) := by
  by_cases hu : u = v
  · subst hu
    rcases k with hu | ⟨ho, hb⟩
    · exact absurd rfl hu
    · rw [doSet_barred ho.1 hb, doSet_barred (h.owned.mp ho).1 (by rwa [← h.mayUse])]
      exact ⟨rfl, h⟩
  · unfold Rep.Gaol.doSet
    rw [h.flags, h.struc, h.lex]
    split
    · split
      · split
        · exact ⟨rfl, h⟩
        · exact ⟨rfl, h.dynSet hu x⟩
      · exact ⟨rfl, h⟩
    · split
      · exact ⟨rfl, by same_but h⟩
      · exact h.structureSet _ _ _

theorem SameBut.setDefault (h : SameBut v s₁ s₂) (k : Ok s₁ cur v u) (x : Val) :
    Both v (setDefault s₁ cur u x) (setDefault s₂ cur u x) := by
  by_cases hu : u = v
  · subst hu
    rcases k with hu | ⟨ho, hb⟩
    · exact absurd rfl hu
    · rw [setDefault_barred ho.1 hb, setDefault_barred (h.owned.mp ho).1 (by rwa [← h.mayUse])]
      exact ⟨rfl, h⟩
  · unfold Rep.Gaol.setDefault
    rw [h.flags, h.struc]
    split
    · split
      · split
        · exact ⟨rfl, h⟩
        · exact ⟨rfl, h.dynSet hu _⟩
      · exact ⟨rfl, h⟩
    · exact h.structureSet _ _ _

theorem SameBut.put (h : SameBut v s₁ s₂) (p : Sym) (x : Val) :
    Both v (put s₁ cur u p x) (put s₂ cur u p x) := by
  unfold Rep.Gaol.put
  rw [h.struc, h.plist]
  split
  · exact ⟨rfl, h⟩
  · exact ⟨rfl, by same_but h⟩

theorem SameBut.initialValue (h : SameBut v s₁ s₂) :
    (initialValue s₁ u = none ∧ initialValue s₂ u = none) ∨
    ∃ y s₁' s₂', initialValue s₁ u = some (y, s₁') ∧ initialValue s₂ u = some (y, s₂') ∧ SameBut v s₁' s₂' := by
  unfold Rep.Gaol.initialValue
  rw [h.user]
  cases s₂.user with
  | none => exact .inl ⟨rfl, rfl⟩
  | some w =>
    dsimp only
    rw [h.struc]
    cases hr : sref (s₂.struc w) u with
    | none => exact .inl ⟨rfl, rfl⟩
    | some y => exact .inr ⟨y, _, _, rfl, rfl, h.sdefine _ _ _⟩

theorem SameBut.defvarBound (h : SameBut v s₁ s₂) (k : Ok s₁ cur v u) :
    (defvarBound s₁ cur u).1 = (defvarBound s₂ cur u).1 ∧
    SameBut v (defvarBound s₁ cur u).2 (defvarBound s₂ cur u).2 := by
  unfold Rep.Gaol.defvarBound
  rw [h.defaultBoundp, h.symbolValue k]
  split
  · split
    · exact ⟨rfl, (h.doSet k _).2⟩
    · exact ⟨rfl, h⟩
  · exact ⟨rfl, h⟩

theorem SameBut.defvarValue (h : SameBut v s₁ s₂) (x : Val) (b : Bool) :
    SameBut v (defvarValue s₁ cur u x b) (defvarValue s₂ cur u x b) := by
  have hrest : SameBut v
      (if !b || ((s₁.flags u).weak && !(s₁.flags u).weakMod && (s₁.struc cur).env == .all) then
        Rep.Gaol.gdefine s₁ u (some x) else s₁)
      (if !b || ((s₂.flags u).weak && !(s₂.flags u).weakMod && (s₂.struc cur).env == .all) then
        Rep.Gaol.gdefine s₂ u (some x) else s₂) := by
    rw [h.flags, h.struc]
    split
    · exact h.gdefine _ _
    · exact h
  unfold Rep.Gaol.defvarValue
  by_cases hs : (s₁.flags u).special = true
  · have hs' : (s₂.flags u).special = true := by rw [← h.flags]; exact hs
    rw [if_pos hs, if_pos hs']
    exact hrest
  · have hs' : ¬ (s₂.flags u).special = true := by rw [← h.flags]; exact hs
    rw [if_neg hs, if_neg hs']
    rcases h.initialValue (u := u) with ⟨h1, h2⟩ | ⟨y, a, b', h1, h2, h3⟩
    · rw [h1, h2]
      exact hrest
    · rw [h1, h2]
      exact h3.gdefine _ _

theorem SameBut.defvarFlags (h : SameBut v s₁ s₂) (spec : Int) :
    SameBut v (defvarFlags s₁ cur u spec) (defvarFlags s₂ cur u spec) := by
  unfold Rep.Gaol.defvarFlags
  dsimp only
  rw [h.flags, h.struc]
  split
  · exact ⟨rfl, h.lex, h.plist, rfl, h.user, h.globals, h.bound, h.binds⟩
  · split
    · same_but h
    · same_but h

theorem SameBut.defvar (h : SameBut v s₁ s₂) (k : Ok s₁ cur v u) (x : Val) (doc : Option Val) :
    Both v (defvar s₁ cur u x doc) (defvar s₂ cur u x doc) := by
  obtain ⟨hb, hs⟩ := h.defvarBound k
  unfold Rep.Gaol.defvar
  dsimp only
  rw [← hb, ← hs.flags, ← hs.struc]
  split
  · exact ⟨rfl, hs⟩
  · have hf := (hs.defvarValue (cur := cur) (u := u) x (Rep.Gaol.defvarBound s₁ cur u).1).defvarFlags (cur := cur) (u := u)
      (Rep.Gaol.searchEnv ((Rep.Gaol.defvarBound s₁ cur u).2.struc cur).env u)
    split
    · exact ⟨rfl, hf⟩
    · exact hf.put _ _

theorem SameBut.makeSpecial (h : SameBut v s₁ s₂) :
    Both v (makeSpecial s₁ cur u) (makeSpecial s₂ cur u) := by
  unfold Rep.Gaol.makeSpecial
  by_cases h0 : Rep.Gaol.searchEnv (s₁.struc cur).env u = 0
  · rw [if_pos h0, if_pos (by rw [← h.struc]; exact h0)]
    exact ⟨rfl, h⟩
  · have h0' : ¬ Rep.Gaol.searchEnv (s₂.struc cur).env u = 0 := by rw [← h.struc]; exact h0
    rw [if_neg h0, if_neg h0']
    refine ⟨rfl, ?_⟩
    dsimp only
    have hrest : SameBut v
        { s₁ with flags := upd s₁.flags u { s₁.flags u with special := true } }
        { s₂ with flags := upd s₂.flags u { s₂.flags u with special := true } } := by
      rw [h.flags]
      same_but h
    by_cases hs : (s₁.flags u).special = true
    · have hs' : (s₂.flags u).special = true := by rw [← h.flags]; exact hs
      rw [if_pos hs, if_pos hs']
      exact hrest
    · have hs' : ¬ (s₂.flags u).special = true := by rw [← h.flags]; exact hs
      rw [if_neg hs, if_neg hs']
      rcases h.initialValue (u := u) with ⟨h1, h2⟩ | ⟨y, a, b', h1, h2, h3⟩
      · rw [h1, h2]
        exact hrest
      · rw [h1, h2]
        have h4 := h3.gdefine u (some y)
        have h5 := h4.setFlags (upd (Rep.Gaol.gdefine a u (some y)).flags u
          { (Rep.Gaol.gdefine a u (some y)).flags u with special := true })
        dsimp only
        rw [show (Rep.Gaol.gdefine b' u (some y)).flags = (Rep.Gaol.gdefine a u (some y)).flags from h4.flags.symm]
        exact h5

theorem ok_makeSpecial {s : St} (k : Ok s cur v u) : Ok (makeSpecial s cur u).2 cur v u := by
  rcases k with hu | ⟨ho, hb⟩
  · exact .inl hu
  · by_cases hu : u = v
    · subst hu
      have hk := keep_makeSpecial (cur := cur) ho
      exact .inr ⟨ho.keep hk, by rwa [hk.mayUse]⟩
    · exact .inl hu

theorem ok_doSet {s : St} (k : Ok s cur v u) (x : Option Val) : Ok (doSet s cur u x).2 cur v u := by
  rcases k with hu | ⟨ho, hb⟩
  · exact .inl hu
  · by_cases hu : u = v
    · subst hu
      have hk := keep_doSet (cur := cur) ho.1 x
      exact .inr ⟨ho.keep hk, by rwa [hk.mayUse]⟩
    · exact .inl hu

theorem SameBut.compiledDefvar (h : SameBut v s₁ s₂) (k : Ok s₁ cur v u) (x : Val) :
    Both v (compiledDefvar s₁ cur u x) (compiledDefvar s₂ cur u x) := by
  have hm := h.makeSpecial (cur := cur) (u := u)
  have ho := ok_makeSpecial k
  unfold Rep.Gaol.compiledDefvar
  obtain ⟨hr, hs⟩ := hm
  cases h1 : Rep.Gaol.makeSpecial s₁ cur u with
  | mk r₁ t₁ =>
    cases h2 : Rep.Gaol.makeSpecial s₂ cur u with
    | mk r₂ t₂ =>
      rw [h1, h2] at hr hs
      rw [h1] at ho
      dsimp only at hr hs ho
      subst hr
      have hv : ∀ (d : Res), Both v
          (if (Rep.Gaol.symbolValue t₁ cur u).isSome then (d, t₁) else Rep.Gaol.doSet t₁ cur u (some x))
          (if (Rep.Gaol.symbolValue t₂ cur u).isSome then (d, t₂) else Rep.Gaol.doSet t₂ cur u (some x)) := by
        intro d
        rw [hs.symbolValue ho]
        split
        · exact ⟨rfl, hs⟩
        · exact hs.doSet ho _
      cases r₁ with
      | err => exact ⟨rfl, hs⟩
      | val _ => exact hv _
      | flag _ => exact hv _
      | props _ => exact hv _

theorem SameBut.addHookInit (h : SameBut v s₁ s₂) (k : Ok s₁ cur v u) (nil : Val) :
    Both v (addHookInit s₁ cur u nil) (addHookInit s₂ cur u nil) ∧ Ok (addHookInit s₁ cur u nil).2 cur v u := by
  have hm := h.makeSpecial (cur := cur) (u := u)
  have ho := ok_makeSpecial k
  unfold Rep.Gaol.addHookInit
  rw [h.symbolValue k]
  split
  · exact ⟨⟨rfl, h⟩, k⟩
  · obtain ⟨hr, hs⟩ := hm
    cases h1 : Rep.Gaol.makeSpecial s₁ cur u with
    | mk r₁ t₁ =>
      cases h2 : Rep.Gaol.makeSpecial s₂ cur u with
      | mk r₂ t₂ =>
        rw [h1, h2] at hr hs
        rw [h1] at ho
        dsimp only at hr hs ho
        subst hr
        cases r₁ with
        | err => exact ⟨⟨rfl, hs⟩, ho⟩
        | val _ => exact ⟨hs.doSet ho _, ok_doSet ho _⟩
        | flag _ => exact ⟨hs.doSet ho _, ok_doSet ho _⟩
        | props _ => exact ⟨hs.doSet ho _, ok_doSet ho _⟩

theorem SameBut.addHook (h : SameBut v s₁ s₂) (k : Ok s₁ cur v u) (x nil : Val) :
    Both v (addHook s₁ cur u x nil) (addHook s₂ cur u x nil) := by
  obtain ⟨⟨hr, hs⟩, ho⟩ := h.addHookInit k nil
  unfold Rep.Gaol.addHook
  cases h1 : Rep.Gaol.addHookInit s₁ cur u nil with
  | mk r₁ t₁ =>
    cases h2 : Rep.Gaol.addHookInit s₂ cur u nil with
    | mk r₂ t₂ =>
      rw [h1, h2] at hr hs
      rw [h1] at ho
      dsimp only at hr hs ho
      subst hr
      have hv : Both v
          (match Rep.Gaol.symbolValue t₁ cur u with
            | none => (.err, t₁)
            | some old => Rep.Gaol.doSet t₁ cur u (some (.cons x old)))
          (match Rep.Gaol.symbolValue t₂ cur u with
            | none => (.err, t₂)
            | some old => Rep.Gaol.doSet t₂ cur u (some (.cons x old))) := by
        rw [hs.symbolValue ho]
        split
        · exact ⟨rfl, hs⟩
        · exact hs.doSet ho _
      cases r₁ with
      | err => exact ⟨rfl, hs⟩
      | val _ => exact hv
      | flag _ => exact hv
      | props _ => exact hv

theorem SameBut.step (h : SameBut v s₁ s₂) (o : Op) (k : Ok s₁ cur v o.sym) :
    Both v (step s₁ cur o) (step s₂ cur o) := by
  cases o <;> simp only [Rep.Gaol.step, Op.sym] at k ⊢
  case symbolValue => exact ⟨by rw [h.symbolValue k], h⟩
  case defaultValue => exact ⟨by rw [h.defaultValue k], h⟩
  case boundp => exact ⟨by rw [h.symbolValue k], h⟩
  case defaultBoundp => exact ⟨by rw [h.defaultBoundp], h⟩
  case specialp => exact ⟨by rw [h.flags], h⟩
  case set => exact h.doSet k _
  case setDefault => exact h.setDefault k _
  case makunbound => exact h.doSet k _
  case define => exact ⟨rfl, h.sdefine _ _ _⟩
  case defvar => exact h.defvar k _ _
  case compiledDefvar => exact h.compiledDefvar k _
  case makeSpecial => exact h.makeSpecial
  case addHook => exact h.addHook k _ _
  case get => exact ⟨by rw [h.plist], h⟩
  case put => exact h.put _ _
  case setplist =>
    rw [h.struc, h.plist]
    split
    · exact ⟨rfl, h⟩
    · exact ⟨rfl, by same_but h⟩
  case symbolPlist =>
    rw [h.struc, h.plist]
    split
    · exact ⟨rfl, h⟩
    · exact ⟨rfl, h⟩

theorem tail_rel {l₁ l₂ : List (Sym × Option Val)} (h : List.Forall₂ (BRel v) l₁ l₂) :
    List.Forall₂ (BRel v) (pop l₁) (pop l₂) := by
  cases h with
  | nil => exact .nil
  | cons _ h => exact h

theorem SameBut.run (c : Cmd) (t : Sid) (s₁ s₂ : St) (h : SameBut v s₁ s₂) (ho : Owned s₁ v)
    (hc : c.Ops (fun t o => o.sym = v → ¬ MayUse s₁ t v) t) :
    (run c t s₁).1 = (run c t s₂).1 ∧ (run c t s₁).2.1 = (run c t s₂).2.1 ∧
      SameBut v (run c t s₁).2.2 (run c t s₂).2.2 := by
  induction c generalizing t s₁ s₂ with
  | op o =>
    have hk : Ok s₁ t v o.sym := by
      by_cases hu : o.sym = v
      · exact .inr ⟨ho, hc hu⟩
      · exact .inl hu
    obtain ⟨h1, h2⟩ := h.step o hk
    simp only [Rep.Gaol.run]
    exact ⟨by rw [h1], by rw [h1], h2⟩
  | seq a b iha ihb =>
    obtain ⟨e1, e2, e3⟩ := iha t s₁ s₂ h ho hc.1
    have ka := keep_run (v := v) a t s₁ ho
    simp only [Rep.Gaol.run]
    rw [← e2]
    split
    · obtain ⟨f1, f2, f3⟩ := ihb t _ _ e3 (ho.keep ka)
        (hc.2.mono fun t o hp hu hm => hp hu (ka.mayUse.mp hm))
      exact ⟨by rw [e1, f1], f2, f3⟩
    · exact ⟨e1, e2, e3⟩
  | letIn u x b ih =>
    have hf : (s₂.flags u).special = (s₁.flags u).special := by rw [h.flags]
    have he : Rep.Gaol.searchEnv (s₂.struc t).env u = Rep.Gaol.searchEnv (s₁.struc t).env u := by rw [h.struc]
    simp only [Rep.Gaol.run, hf, he]
    split
    · split
      · obtain ⟨e1, e2, e3⟩ := ih t { s₁ with binds := (u, some x) :: s₁.binds } { s₂ with binds := (u, some x) :: s₂.binds }
          ⟨h.flags, h.lex, h.plist, h.struc, h.user, h.globals, h.bound, .cons ⟨rfl, fun _ => rfl, rfl⟩ h.binds⟩ ho
          (hc.mono fun t o hp hu hm => hp hu hm)
        exact ⟨e1, e2, ⟨e3.flags, e3.lex, e3.plist, e3.struc, e3.user, e3.globals, e3.bound, tail_rel e3.binds⟩⟩
      · exact ⟨rfl, rfl, h⟩
    · obtain ⟨e1, e2, e3⟩ := ih t { s₁ with lex := (u, some x) :: s₁.lex } { s₂ with lex := (u, some x) :: s₂.lex }
          ⟨h.flags, by rw [h.lex], h.plist, h.struc, h.user, h.globals, h.bound, h.binds⟩ ho
          (hc.mono fun t o hp hu hm => hp hu hm)
      exact ⟨e1, e2, ⟨e3.flags, by show pop _ = pop _; rw [e3.lex], e3.plist, e3.struc, e3.user, e3.globals, e3.bound, e3.binds⟩⟩
  | guarded b ih =>
    obtain ⟨e1, e2, e3⟩ := ih t s₁ s₂ h ho hc
    exact ⟨e1, rfl, e3⟩
  | call t' b ih =>
    obtain ⟨e1, e2, e3⟩ := ih t' { s₁ with lex := [] } { s₂ with lex := [] } (h.setLex []) ho
      (Cmd.Ops.mono (fun t o hp hu hm => hp hu hm) b t' hc)
    simp only [Rep.Gaol.run]
    exact ⟨e1, e2, ⟨e3.flags, h.lex, e3.plist, e3.struc, e3.user, e3.globals, e3.bound, e3.binds⟩⟩

end Rep.Gaol
