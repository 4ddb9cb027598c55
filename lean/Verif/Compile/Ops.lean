import Verif.Compile.Rel

/-
What single instructions do to corresponding states.
-/

namespace Rep.Compile

variable {U : Setup}

/-! ### Steps -/

theorem fetch {fr : Fr} {pc : Nat} {i : I} {k : List I} (h : CodeAt fr.C pc (i :: k)) :
    (fr.C.map (alloc U.H fr.Eb.length))[pc]? = some (alloc U.H fr.Eb.length i) := by
  rw [List.getElem?_map, h.get]
  rfl

theorem step_push {fr : Fr} {pc : Nat} {a : Atom} {k : List I} {stk : List TVal}
    {env bst : List Nat} {slots : Nat → Option TVal} {st : TSt} (h : CodeAt fr.C pc (.push a :: k)) :
    step U.P U.table (U.mk' fr pc stk env bst slots st) =
      .next (U.mk' fr (pc + 1) (.atom a :: stk) env bst slots st) := by
  simp [step, Setup.mk', fetch (U := U) h, alloc, Act.next]

theorem step_pop {fr : Fr} {pc : Nat} {k : List I} {v : TVal} {stk : List TVal}
    {env bst : List Nat} {slots : Nat → Option TVal} {st : TSt} (h : CodeAt fr.C pc (.pop :: k)) :
    step U.P U.table (U.mk' fr pc (v :: stk) env bst slots st) =
      .next (U.mk' fr (pc + 1) stk env bst slots st) := by
  simp [step, Setup.mk', fetch (U := U) h, alloc, Act.next]

theorem step_dup {fr : Fr} {pc : Nat} {k : List I} {v : TVal} {stk : List TVal}
    {env bst : List Nat} {slots : Nat → Option TVal} {st : TSt} (h : CodeAt fr.C pc (.dup :: k)) :
    step U.P U.table (U.mk' fr pc (v :: stk) env bst slots st) =
      .next (U.mk' fr (pc + 1) (v :: v :: stk) env bst slots st) := by
  simp [step, Setup.mk', fetch (U := U) h, alloc, Act.next]

theorem step_label {fr : Fr} {pc l : Nat} {k : List I} {stk : List TVal}
    {env bst : List Nat} {slots : Nat → Option TVal} {st : TSt} (h : CodeAt fr.C pc (.label l :: k)) :
    step U.P U.table (U.mk' fr pc stk env bst slots st) =
      .next (U.mk' fr (pc + 1) stk env bst slots st) := by
  simp [step, Setup.mk', fetch (U := U) h, alloc, Act.next]

theorem step_initBind {fr : Fr} {pc : Nat} {k : List I} {stk : List TVal}
    {env bst : List Nat} {slots : Nat → Option TVal} {st : TSt} (h : CodeAt fr.C pc (.initBind :: k)) :
    step U.P U.table (U.mk' fr pc stk env bst slots st) =
      .next (U.mk' fr (pc + 1) stk env (0 :: bst) slots st) := by
  simp [step, Setup.mk', fetch (U := U) h, alloc, Act.next]

theorem step_unbind {fr : Fr} {pc : Nat} {k : List I} {stk : List TVal} {b : Nat}
    {env bst : List Nat} {slots : Nat → Option TVal} {st : TSt} (h : CodeAt fr.C pc (.unbind :: k)) :
    step U.P U.table (U.mk' fr pc stk env (b :: bst) slots st) =
      .next (U.mk' fr (pc + 1) stk (env.drop b) bst slots st) := by
  simp [step, Setup.mk', fetch (U := U) h, alloc, Act.next]

theorem step_enclose {fr : Fr} {pc n : Nat} {k : List I} {stk : List TVal}
    {env bst : List Nat} {slots : Nat → Option TVal} {st : TSt} (h : CodeAt fr.C pc (.enclose n :: k)) :
    step U.P U.table (U.mk' fr pc stk env bst slots st) =
      .next (U.mk' fr (pc + 1) (.fn ⟨n, env⟩ :: stk) env bst slots st) := by
  simp [step, Setup.mk', fetch (U := U) h, alloc, Act.next]

theorem goto_at {fr : Fr} {pc p l : Nat} {k : List I} {stk stk' : List TVal}
    {env bst : List Nat} {slots : Nat → Option TVal} {st : TSt} (hf : FrOk U fr)
    (hl : CodeAt fr.C p (.label l :: k)) :
    goto (U.mk' fr pc stk env bst slots st) stk' l =
      .next (U.mk' fr p stk' env bst slots st) := by
  simp [goto, Setup.mk', label_pos hf.labels hl.get]

theorem step_jmp {fr : Fr} {pc p l : Nat} {k k' : List I} {stk : List TVal}
    {env bst : List Nat} {slots : Nat → Option TVal} {st : TSt} (hf : FrOk U fr)
    (h : CodeAt fr.C pc (.jmp l :: k)) (hl : CodeAt fr.C p (.label l :: k')) :
    step U.P U.table (U.mk' fr pc stk env bst slots st) =
      .next (U.mk' fr p stk env bst slots st) := by
  have := goto_at (pc := pc) (stk := stk) (stk' := stk) (env := env) (bst := bst) (slots := slots)
    (st := st) hf hl
  simp only [Setup.mk'] at this ⊢
  simp [step, fetch (U := U) h, alloc, this]

theorem step_jn {fr : Fr} {pc p l : Nat} {k k' : List I} {v : TVal} {stk : List TVal}
    {env bst : List Nat} {slots : Nat → Option TVal} {st : TSt} (hf : FrOk U fr)
    (h : CodeAt fr.C pc (.jn l :: k)) (hl : CodeAt fr.C p (.label l :: k')) :
    step U.P U.table (U.mk' fr pc (v :: stk) env bst slots st) =
      .next (U.mk' fr (if v.isNil then p else pc + 1) stk env bst slots st) := by
  have := goto_at (pc := pc) (stk := v :: stk) (stk' := stk) (env := env) (bst := bst)
    (slots := slots) (st := st) hf hl
  simp only [Setup.mk'] at this ⊢
  cases hv : v.isNil <;> simp [step, fetch (U := U) h, alloc, this, hv, Act.next]

theorem step_jpt {fr : Fr} {pc p l : Nat} {k k' : List I} {v : TVal} {stk : List TVal}
    {env bst : List Nat} {slots : Nat → Option TVal} {st : TSt} (hf : FrOk U fr)
    (h : CodeAt fr.C pc (.jpt l :: k)) (hl : CodeAt fr.C p (.label l :: k')) :
    step U.P U.table (U.mk' fr pc (v :: stk) env bst slots st) =
      .next (if v.isNil then U.mk' fr (pc + 1) (v :: stk) env bst slots st
        else U.mk' fr p stk env bst slots st) := by
  have := goto_at (pc := pc) (stk := v :: stk) (stk' := stk) (env := env) (bst := bst)
    (slots := slots) (st := st) hf hl
  simp only [Setup.mk'] at this ⊢
  cases hv : v.isNil <;> simp [step, fetch (U := U) h, alloc, this, hv, Act.next]

theorem step_jnp {fr : Fr} {pc p l : Nat} {k k' : List I} {v : TVal} {stk : List TVal}
    {env bst : List Nat} {slots : Nat → Option TVal} {st : TSt} (hf : FrOk U fr)
    (h : CodeAt fr.C pc (.jnp l :: k)) (hl : CodeAt fr.C p (.label l :: k')) :
    step U.P U.table (U.mk' fr pc (v :: stk) env bst slots st) =
      .next (if v.isNil then U.mk' fr p (v :: stk) env bst slots st
        else U.mk' fr (pc + 1) stk env bst slots st) := by
  have := goto_at (pc := pc) (stk := v :: stk) (stk' := v :: stk) (env := env) (bst := bst)
    (slots := slots) (st := st) hf hl
  simp only [Setup.mk'] at this ⊢
  cases hv : v.isNil <;> simp [step, fetch (U := U) h, alloc, this, hv, Act.next]

theorem step_jtp {fr : Fr} {pc p l : Nat} {k k' : List I} {v : TVal} {stk : List TVal}
    {env bst : List Nat} {slots : Nat → Option TVal} {st : TSt} (hf : FrOk U fr)
    (h : CodeAt fr.C pc (.jtp l :: k)) (hl : CodeAt fr.C p (.label l :: k')) :
    step U.P U.table (U.mk' fr pc (v :: stk) env bst slots st) =
      .next (if v.isNil then U.mk' fr (pc + 1) stk env bst slots st
        else U.mk' fr p (v :: stk) env bst slots st) := by
  have := goto_at (pc := pc) (stk := v :: stk) (stk' := v :: stk) (env := env) (bst := bst)
    (slots := slots) (st := st) hf hl
  simp only [Setup.mk'] at this ⊢
  cases hv : v.isNil <;> simp [step, fetch (U := U) h, alloc, this, hv, Act.next]

/-! ### Variables -/

/-- A name is that of no variable of a list, or of the first one that has it. -/
theorem look_ent (x : Name) (E : List Ent) :
    ((∀ e ∈ E, e.name ≠ x) ∧ look x (E.map Ent.lex) = none ∧ look x (E.map Ent.src) = none) ∨
    ∃ E1 e E2, E = E1 ++ e :: E2 ∧ e.name = x ∧ (∀ e' ∈ E1, e'.name ≠ x) ∧
      look x (E.map Ent.lex) = some e.cell ∧ look x (E.map Ent.src) = some e.loc := by
  induction E with
  | nil => exact .inl ⟨by simp, rfl, rfl⟩
  | cons a E ih =>
    by_cases ha : a.name = x
    · exact .inr ⟨[], a, E, rfl, ha, by simp, by simp [look, Ent.lex, ha], by simp [look, Ent.src, ha]⟩
    · rcases ih with ⟨h1, h2, h3⟩ | ⟨E1, e, E2, h1, h2, h3, h4, h5⟩
      · refine .inl ⟨?_, ?_, ?_⟩
        · intro e he
          rcases List.mem_cons.1 he with rfl | he
          · exact ha
          · exact h1 e he
        · simpa [look, Ent.lex, ha] using h2
        · simpa [look, Ent.src, ha] using h3
      · refine .inr ⟨a :: E1, e, E2, by simp [h1], h2, ?_, ?_, ?_⟩
        · intro e' he'
          rcases List.mem_cons.1 he' with rfl | he'
          · exact ha
          · exact h3 e' he'
        · simpa [look, Ent.lex, ha] using h4
        · simpa [look, Ent.src, ha] using h5

theorem heapAddr_at {H : Nat → Bool} {E1 E2 : List Ent} {e : Ent} {x : Name} (hx : e.name = x)
    (hn : ∀ e' ∈ E1, e'.name ≠ x) (hH : H e.cell = true) :
    heapAddr H x ((E1 ++ e :: E2).map Ent.lex) = (E1.filter fun e => H e.cell).length := by
  induction E1 with
  | nil => simp [heapAddr, Ent.lex, hH, hx]
  | cons a E1 ih =>
    have := ih (fun e' he' => hn e' (.tail _ he'))
    have ha := hn a (.head _)
    simp only [List.cons_append, List.map_cons, heapAddr, Ent.lex] at this ⊢
    cases hH' : H a.cell
    · simp [hH']; simpa using this
    · simp [hH', ha]; simpa using this

theorem slotAddr_at {H : Nat → Bool} {E1 o2 Eb : List Ent} {e : Ent} {x : Name} (hx : e.name = x)
    (hn : ∀ e' ∈ E1, e'.name ≠ x) :
    slotAddr H Eb.length x ((E1 ++ e :: (o2 ++ Eb)).map Ent.lex) =
      (o2.filter fun e => !H e.cell).length := by
  induction E1 with
  | nil =>
    simp only [List.nil_append, List.map_cons, slotAddr, Ent.lex, hx, if_true, List.map_append,
      List.length_append, List.length_map, Nat.add_sub_cancel]
    rw [List.take_append_of_le_length (by simp), List.take_of_length_le (by simp), List.filter_map,
      List.length_map]
    rfl
  | cons a E1 ih =>
    have := ih (fun e' he' => hn e' (.tail _ he'))
    have ha := hn a (.head _)
    simp only [List.cons_append, List.map_cons, slotAddr, Ent.lex, ha, if_false] at this ⊢
    exact this

/-- The binding in the heap of a variable. -/
theorem env_at {w : World} {E1 E2 : List Ent} {e : Ent} {env : List Nat}
    (h : env.map some = (U.heap (E1 ++ e :: E2)).map fun e => w.j e.loc) (hH : U.H e.cell = true) :
    ∃ a, env[(U.heap E1).length]? = some a ∧ w.j e.loc = some a := by
  have h1 : U.heap (E1 ++ e :: E2) = U.heap E1 ++ e :: U.heap E2 := by
    simp [Setup.heap, List.filter_append, List.filter_cons, hH]
  rw [h1] at h
  have h2 : (env.map some)[(U.heap E1).length]? = some (w.j e.loc) := by
    rw [h]; simp
  rw [List.getElem?_map] at h2
  cases ha : env[(U.heap E1).length]? with
  | none => rw [ha] at h2; simp at h2
  | some a =>
    rw [ha] at h2
    simp only [Option.map_some, Option.some.injEq] at h2
    exact ⟨a, rfl, h2.symm⟩

theorem slots_at {w : World} {S : SSt} {slots : Nat → Option TVal} {o1 o2 : List Ent} {e : Ent}
    (h : Slots U w S slots (o1 ++ e :: o2)) (hH : U.H e.cell = false) :
    w.j e.loc = none ∧ ∃ v v', S.σ[e.loc]? = some v ∧ slots (U.slot o2) = some v' ∧ VR U w v v' := by
  induction o1 with
  | nil => exact h.1 hH
  | cons a o1 ih => exact ih h.2

/-- Where a variable is that an instruction of the activation names: it is in the heap, or it is
one of the activation. -/
theorem ent_case {fr : Fr} (hf : FrOk U fr) {o E1 E2 : List Ent} {e : Ent} {x : Name}
    (hE : o ++ fr.Eb = E1 ++ e :: E2) (hx : e.name = x) (hn : ∀ e' ∈ E1, e'.name ≠ x)
    {lex : Lex} (hi : .lexRef x lex ∈ fr.C ∨ .lexSet x lex ∈ fr.C) (hH : U.H e.cell = false) :
    ∃ o2, o = E1 ++ e :: o2 ∧ E2 = o2 ++ fr.Eb := by
  rcases List.append_eq_append_iff.1 hE with ⟨r, h1, h2⟩ | ⟨r, h1, h2⟩
  · exfalso
    have : look x (fr.Eb.map Ent.lex) = some e.cell := by
      have hr : ∀ e' ∈ r, e'.name ≠ x := fun e' he' => hn e' (by rw [h1]; simp [he'])
      rw [h2]
      clear h2 h1
      induction r with
      | nil => simp [look, Ent.lex, hx]
      | cons a r ih =>
        have ha := hr a (.head _)
        simp only [List.cons_append, List.map_cons, look, Ent.lex, ha, if_false] at ih ⊢
        exact ih (fun e' he' => hr e' (.tail _ he'))
    have := hf.capt x lex hi _ this
    rw [hH] at this
    exact absurd this (by simp)
  · cases r with
    | nil =>
      exfalso
      simp only [List.nil_append] at h2
      have : look x (fr.Eb.map Ent.lex) = some e.cell := by
        rw [← h2]; simp [look, Ent.lex, hx]
      have := hf.capt x lex hi _ this
      rw [hH] at this
      exact absurd this (by simp)
    | cons a r =>
      simp only [List.cons_append, List.cons.injEq] at h2
      obtain ⟨rfl, h2⟩ := h2
      exact ⟨r, h1, h2⟩

/-- The instruction that fetches a variable. -/
def refI (c : Ctx) (x : Name) : I := match look x c.lex with
  | some _ => .lexRef x c.lex
  | none => .refg x

theorem varref_code (c : Ctx) (x : Name) (s : CSt) : (varref c x s).1 = [refI c x] := by
  unfold varref refI
  cases look x c.lex <;> rfl

theorem CodeAt.mem {C : List I} {pc : Nat} {i : I} {k : List I} (h : CodeAt C pc (i :: k)) :
    i ∈ C := List.mem_of_getElem? h.get

theorem getVar_state (ρ : Env) (S : SSt) (x : Name) :
    (∃ v, getVar ρ S x = .ok v S) ∨ getVar ρ S x = .err .void S := by
  unfold getVar
  split
  · split
    · exact .inl ⟨_, rfl⟩
    · exact .inr rfl
  · split
    · exact .inl ⟨_, rfl⟩
    · exact .inr rfl

theorem step_var {fr : Fr} (hf : FrOk U fr) {c : Ctx} {sc : Scope} {X : List Name} {ρ : Env}
    {fs : List (List Ent)} {w : World} {S : SSt} {env bst : List Nat} {slots : Nat → Option TVal}
    {st : TSt} (hs : Sco fr c sc X ρ fs) (hF : FR U fr fs w S env bst slots) (hw : WOk U w S st)
    {x : Name} (hx : x ∉ X) {pc : Nat} {k : List I} (hc : CodeAt fr.C pc (refI c x :: k))
    (stk : List TVal) :
    (∃ v v', getVar ρ S x = .ok v S ∧ VR U w v v' ∧
      step U.P U.table (U.mk' fr pc stk env bst slots st) =
        .next (U.mk' fr (pc + 1) (v' :: stk) env bst slots st)) ∨
    (getVar ρ S x = .err .void S ∧
      step U.P U.table (U.mk' fr pc stk env bst slots st) = .err .void st) := by
  have hcoh := hs.coh x hx
  rcases look_ent x (fs.flatten ++ fr.Eb) with ⟨_, h2, h3⟩ | ⟨E1, e, E2, h1, h2, h3, h4, h5⟩
  · -- a global variable
    rw [← hs.lex] at h2
    rw [h3] at hcoh
    have hi : refI c x = .refg x := by simp [refI, h2]
    rw [hi] at hc
    have hg := hw.g x
    cases hS : S.g x with
    | none =>
      cases hT : st.g x with
      | none =>
        refine .inr ⟨by simp [getVar, hcoh, hS], ?_⟩
        simp [step, Setup.mk', fetch (U := U) hc, alloc, hT]
      | some v' => simp [hS, hT] at hg
    | some v =>
      cases hT : st.g x with
      | none => simp [hS, hT] at hg
      | some v' =>
        simp only [hS, hT] at hg
        refine .inl ⟨v, v', by simp [getVar, hcoh, hS], hg, ?_⟩
        simp [step, Setup.mk', fetch (U := U) hc, alloc, hT, Act.next]
  · rw [← hs.lex] at h4
    rw [h5] at hcoh
    have hi : refI c x = .lexRef x c.lex := by simp [refI, h4]
    rw [hi] at hc
    left
    cases hH : U.H e.cell with
    | true =>
      have henv := hF.env
      rw [h1] at henv
      obtain ⟨a, ha, hj⟩ := env_at henv hH
      obtain ⟨v, v', hv, hv', hr⟩ := hw.j _ _ hj
      have haddr := heapAddr_at (H := U.H) (E2 := E2) h2 h3 hH
      rw [← h1, ← hs.lex] at haddr
      have : (E1.filter fun e => U.H e.cell).length = (U.heap E1).length := rfl
      rw [this] at haddr
      refine ⟨v, v', by simp [getVar, hcoh, hv], hr, ?_⟩
      simp [step, Setup.mk', fetch (U := U) hc, alloc, h4, hH, haddr, ha, hv', Act.next]
    | false =>
      obtain ⟨o2, ho, h6⟩ := ent_case hf h1 h2 h3 (.inl hc.mem) hH
      have hsl := hF.slots
      rw [ho] at hsl
      obtain ⟨_, v, v', hv, hv', hr⟩ := slots_at hsl hH
      have haddr := slotAddr_at (H := U.H) (o2 := o2) (Eb := fr.Eb) h2 h3
      rw [← h6, ← h1, ← hs.lex] at haddr
      have : (o2.filter fun e => !U.H e.cell).length = U.slot o2 := rfl
      rw [this] at haddr
      refine ⟨v, v', by simp [getVar, hcoh, hv], hr, ?_⟩
      simp [step, Setup.mk', fetch (U := U) hc, alloc, h4, hH, haddr, hv', Act.next]

/-! ### Moving to another state -/

theorem Slots.move {w w' : World} {S S' : SSt} {slots : Nat → Option TVal} {o : List Ent}
    (h : Slots U w S slots o) (hw : w.Le w')
    (hj : ∀ e ∈ o, w.j e.loc = none → w'.j e.loc = none)
    (hσ : ∀ e ∈ o, w.j e.loc = none → S'.σ[e.loc]? = S.σ[e.loc]?) : Slots U w' S' slots o := by
  induction o with
  | nil => trivial
  | cons e o ih =>
    refine ⟨fun hH => ?_, ih h.2 (fun e' he' => hj e' (.tail _ he')) (fun e' he' => hσ e' (.tail _ he'))⟩
    obtain ⟨h1, v, v', h2, h3, h4⟩ := h.1 hH
    exact ⟨hj e (.head _) h1, v, v', by rw [hσ e (.head _) h1]; exact h2, h3, h4.mono hw⟩

theorem FR.move {fr : Fr} {fs : List (List Ent)} {w w' : World} {S S' : SSt} {env bst : List Nat}
    {slots : Nat → Option TVal} (h : FR U fr fs w S env bst slots) (hw : w.Le w')
    (hj : ∀ e ∈ fs.flatten, w.j e.loc = none → w'.j e.loc = none)
    (hσ : ∀ e ∈ fs.flatten, w.j e.loc = none → S'.σ[e.loc]? = S.σ[e.loc]?) :
    FR U fr fs w' S' env bst slots :=
  ⟨jmap_mono hw h.env, h.bst, h.slots.move hw hj hσ,
    fun e he => Nat.lt_of_lt_of_le (h.lt e he) hw.n, h.own, h.nodup,
    fun e he => by rw [hw.K _ (h.lt e he)]; exact h.fk e he, Nat.le_trans h.m hw.n⟩

/-- After a call, the variables of the caller are as they were. -/
theorem FR.after {fr : Fr} {fs : List (List Ent)} {w w' : World} {S S' : SSt} {env bst : List Nat}
    {slots : Nat → Option TVal} (h : FR U fr fs w S env bst slots) (he : Ext w.n w.n w S w' S') :
    FR U fr fs w' S' env bst slots :=
  h.move he.le
    (fun e h' hj => by rw [he.j _ (h.lt e (List.mem_append_left _ h'))]; exact hj)
    (fun e h' hj => he.σ _ (h.lt e (List.mem_append_left _ h')) hj)

/-! ### Assignment -/

theorem slots_lt {w : World} {S : SSt} {slots slots' : Nat → Option TVal} {o : List Ent}
    (h : Slots U w S slots o) (he : ∀ n, n < U.slot o → slots' n = slots n) :
    Slots U w S slots' o := by
  induction o with
  | nil => trivial
  | cons e o ih =>
    have hle : U.slot o ≤ U.slot (e :: o) := by
      simp only [Setup.slot, List.filter_cons]
      split <;> simp
    refine ⟨fun hH => ?_, ih h.2 (fun n hn => he n (Nat.lt_of_lt_of_le hn hle))⟩
    obtain ⟨h1, v, v', h2, h3, h4⟩ := h.1 hH
    refine ⟨h1, v, v', h2, ?_, h4⟩
    rw [he _ ?_]
    · exact h3
    · simp [Setup.slot, List.filter_cons, hH]

theorem slot_append_le (a b : List Ent) : U.slot b ≤ U.slot (a ++ b) := by
  simp [Setup.slot, List.filter_append]

/-- Assignment of a variable that is in a slot. -/
theorem slots_set {w : World} {S : SSt} {slots : Nat → Option TVal} {o1 o2 : List Ent} {e : Ent}
    (h : Slots U w S slots (o1 ++ e :: o2)) (hH : U.H e.cell = false) {v : SVal} {v' : TVal}
    (hv : VR U w v v') (hl : e.loc < S.σ.length)
    (hn : ((o1 ++ e :: o2).map (·.loc)).Nodup) :
    Slots U w { S with σ := S.σ.set e.loc v } (fun n => if n = U.slot o2 then some v' else slots n)
      (o1 ++ e :: o2) := by
  have hother : ∀ l, l ≠ e.loc → (S.σ.set e.loc v)[l]? = S.σ[l]? := fun l hl =>
    List.getElem?_set_ne (fun h => hl h.symm)
  induction o1 with
  | nil =>
    simp only [List.nil_append, List.map_cons, List.nodup_cons, List.mem_map] at hn
    refine ⟨fun _ => ⟨(h.1 hH).1, v, v', ?_, by simp, hv⟩, ?_⟩
    · show (S.σ.set e.loc v)[e.loc]? = _
      rw [List.getElem?_set_self hl]
    · have h2 := slots_lt h.2 (slots' := fun n => if n = U.slot o2 then some v' else slots n)
        (fun n hn' => by rw [if_neg (by omega)])
      refine h2.move (.refl w) (fun _ _ h => h) (fun e' he' _ => hother _ ?_)
      exact fun hh => hn.1 ⟨e', he', hh⟩
  | cons a o1 ih =>
    simp only [List.cons_append, List.map_cons, List.nodup_cons, List.mem_map] at hn
    refine ⟨fun hHa => ?_, ih h.2 hn.2⟩
    obtain ⟨h1, u, u', h2, h3, h4⟩ := h.1 hHa
    refine ⟨h1, u, u', ?_, ?_, h4⟩
    · rw [← h2]
      exact hother _ (fun hh => hn.1 ⟨e, by simp, hh.symm⟩)
    · have : U.slot o2 < U.slot (o1 ++ e :: o2) := by
        have := slot_append_le (U := U) o1 (e :: o2)
        have h5 : U.slot (e :: o2) = U.slot o2 + 1 := by simp [Setup.slot, List.filter_cons, hH]
        omega
      show (if U.slot (o1 ++ e :: o2) = U.slot o2 then some v' else slots (U.slot (o1 ++ e :: o2))) = _
      rw [if_neg (Nat.ne_of_gt this)]
      exact h3

/-- The instruction that assigns a variable. -/
theorem varset_ent {c : Ctx} {x : Name} {k : Nat} (h : look x c.lex = some k) :
    varset c x = .lexSet x c.lex := by simp [varset, h]

theorem step_set_ent {fr : Fr} (hf : FrOk U fr) {c : Ctx}
    {fs : List (List Ent)} {w w' : World} {S : SSt} {env bst : List Nat} {slots : Nat → Option TVal}
    {st : TSt} (hlex : c.lex = (fs.flatten ++ fr.Eb).map Ent.lex)
    (hF : FR U fr fs w S env bst slots) (hw : WOk U w S st)
    {x : Name} {E1 E2 : List Ent} {e : Ent} (h1 : fs.flatten ++ fr.Eb = E1 ++ e :: E2)
    (h2 : e.name = x) (h3 : ∀ e' ∈ E1, e'.name ≠ x) {v : SVal} {v' : TVal}
    (hle : w.Le w') (hn : w'.n = w.n) (hj : w'.j = w.j)
    (hF' : ∀ l c, w'.F l = some c → w'.K l = true ∧ (S.σ.set e.loc v)[l]? = some (.fn c))
    (hv : VR U w' v v') {pc : Nat} {k : List I} (hc : CodeAt fr.C pc (varset c x :: k))
    (stk : List TVal) :
    ∃ slots' st', step U.P U.table (U.mk' fr pc (v' :: stk) env bst slots st) =
        .next (U.mk' fr (pc + 1) stk env bst slots' st') ∧
      FR U fr fs w' { S with σ := S.σ.set e.loc v } env bst slots' ∧
      WOk U w' { S with σ := S.σ.set e.loc v } st' ∧
      ∀ l, l < fr.m → w.j l = none → (S.σ.set e.loc v)[l]? = S.σ[l]? := by
  have h4 : look x c.lex = some e.cell := by
    rw [hlex, h1]
    clear hc hlex h1
    induction E1 with
    | nil => simp [look, Ent.lex, h2]
    | cons a r ih =>
      have ha := h3 a (.head _)
      simp only [List.cons_append, List.map_cons, look, Ent.lex, ha, if_false] at ih ⊢
      exact ih (fun e' he' => h3 e' (.tail _ he'))
  rw [varset_ent h4] at hc
  have hlt : e.loc < S.σ.length := by
    rw [← hw.n]
    exact hF.lt e (by rw [h1]; simp)
  have hother : ∀ l, l ≠ e.loc → (S.σ.set e.loc v)[l]? = S.σ[l]? := fun l hl =>
    List.getElem?_set_ne (fun h => hl h.symm)
  have hself : (S.σ.set e.loc v)[e.loc]? = some v := List.getElem?_set_self hlt
  have hg : ∀ x, match S.g x, st.g x with
      | some v, some v' => VR U w' v v'
      | none, none => True
      | _, _ => False := by
    intro y
    have := hw.g y
    cases h5 : S.g y <;> cases h6 : st.g y <;> simp only [h5, h6] at this ⊢
    exact this.mono hle
  have hFR := hF.move (S' := S) hle (fun e _ h => by rw [hj]; exact h) (fun _ _ _ => rfl)
  cases hH : U.H e.cell with
  | true =>
    have henv := hF.env
    rw [h1] at henv
    obtain ⟨a, ha, hja⟩ := env_at henv hH
    obtain ⟨u, u', hu, hu', _⟩ := hw.j _ _ hja
    have haddr := heapAddr_at (H := U.H) (E2 := E2) h2 h3 hH
    rw [← h1, ← hlex] at haddr
    have hal : a < st.heap.length := (List.getElem?_eq_some_iff.1 hu').1
    have : (E1.filter fun e => U.H e.cell).length = (U.heap E1).length := rfl
    rw [this] at haddr
    refine ⟨slots, { st with heap := st.heap.set a v' }, ?_, ?_, ?_, ?_⟩
    · simp [step, Setup.mk', fetch (U := U) hc, alloc, h4, hH, haddr, ha, Act.next]
    · refine hFR.move (.refl w') (fun _ _ h => h) (fun e' _ hj' => hother _ ?_)
      intro hh
      rw [hh, hj, hja] at hj'
      exact absurd hj' (by simp)
    · refine ⟨by simpa [hn] using hw.n, ?_, ?_, hF', hg, hw.gf⟩
      · intro l h hl
        rw [hj] at hl
        by_cases hle' : l = e.loc
        · subst hle'
          rw [hja] at hl
          simp only [Option.some.injEq] at hl
          subst hl
          exact ⟨v, v', hself, List.getElem?_set_self hal, hv⟩
        · obtain ⟨q, q', hq, hq', hr⟩ := hw.j _ _ hl
          refine ⟨q, q', by rw [← hq]; exact hother l hle', ?_, hr.mono hle⟩
          rw [← hq']
          refine List.getElem?_set_ne (fun hh => hle' ?_)
          subst hh
          exact hw.inj _ _ _ hl hja
      · intro l l' h hl hl'
        rw [hj] at hl hl'
        exact hw.inj l l' h hl hl'
    · intro l hl hjl
      refine hother l (fun hh => ?_)
      rw [hh, hja] at hjl
      exact absurd hjl (by simp)
  | false =>
    obtain ⟨o2, ho, h6⟩ := ent_case hf h1 h2 h3 (.inr hc.mem) hH
    have haddr := slotAddr_at (H := U.H) (o2 := o2) (Eb := fr.Eb) h2 h3
    rw [← h6, ← h1, ← hlex] at haddr
    have : (o2.filter fun e => !U.H e.cell).length = U.slot o2 := rfl
    rw [this] at haddr
    have hsl := hFR.slots
    have hnd := hFR.nodup
    rw [ho] at hsl hnd
    have hje := (slots_at hsl hH).1
    refine ⟨fun n => if n = U.slot o2 then some v' else slots n, st, ?_, ?_, ?_, ?_⟩
    · simp [step, Setup.mk', fetch (U := U) hc, alloc, h4, hH, haddr, Act.next]
    · refine ⟨hFR.env, hFR.bst, ?_, hFR.lt, hFR.own, hFR.nodup, hFR.fk, hFR.m⟩
      rw [ho]
      exact slots_set hsl hH hv hlt hnd
    · refine ⟨by simpa [hn] using hw.n, ?_, ?_, hF', hg, hw.gf⟩
      · intro l h hl
        have hne : l ≠ e.loc := by
          intro hh
          rw [hh, hje] at hl
          exact absurd hl (by simp)
        rw [hj] at hl
        obtain ⟨q, q', hq, hq', hr⟩ := hw.j _ _ hl
        exact ⟨q, q', by rw [← hq]; exact hother l hne, hq', hr.mono hle⟩
      · intro l l' h hl hl'
        rw [hj] at hl hl'
        exact hw.inj l l' h hl hl'
    · intro l hl _
      refine hother l (fun hh => ?_)
      have := hF.own e (by rw [ho]; simp)
      omega

/-- `setq` of a variable that is not the name of a function. -/
theorem step_set {fr : Fr} (hf : FrOk U fr) {c : Ctx} {sc : Scope} {X : List Name} {ρ : Env}
    {fs : List (List Ent)} {w : World} {S : SSt} {env bst : List Nat} {slots : Nat → Option TVal}
    {st : TSt} {s : CSt} (hs : Sco fr c sc X ρ fs) (hso : SOk U.Gf c sc s)
    (hF : FR U fr fs w S env bst slots) (hw : WOk U w S st)
    {x : Name} (hx : x ∉ X) (ha : assignable sc x = true) {v : SVal} {v' : TVal} (hv : VR U w v v')
    {pc : Nat} {k : List I} (hc : CodeAt fr.C pc (varset c x :: k)) (stk : List TVal) :
    ∃ slots' st', step U.P U.table (U.mk' fr pc (v' :: stk) env bst slots st) =
        .next (U.mk' fr (pc + 1) stk env bst slots' st') ∧
      FR U fr fs w (setVar ρ S x v) env bst slots' ∧ WOk U w (setVar ρ S x v) st' ∧
      Ext fr.m w.n w S w (setVar ρ S x v) := by
  have hcoh := hs.coh x hx
  rcases look_ent x (fs.flatten ++ fr.Eb) with ⟨_, h2, h3⟩ | ⟨E1, e, E2, h1, h2, h3, h4, h5⟩
  · -- a global variable
    rw [← hs.lex] at h2
    rw [h3] at hcoh
    have hi : varset c x = .setg x := by simp [varset, h2]
    rw [hi] at hc
    have hsv : setVar ρ S x v = { S with g := fun y => if y = x then some v else S.g y } := by
      simp [setVar, hcoh]
    rw [hsv]
    refine ⟨slots, { st with g := fun y => if y = x then some v' else st.g y }, ?_, ?_, ?_, ?_⟩
    · simp [step, Setup.mk', fetch (U := U) hc, alloc, Act.next]
    · exact hF.move (.refl w) (fun _ _ h => h) (fun _ _ _ => rfl)
    · refine ⟨hw.n, hw.j, hw.inj, hw.F, ?_, ?_⟩
      · intro y
        by_cases hy : y = x
        · simp only [hy, if_true]; exact hv
        · simp only [hy, if_false]; exact hw.g y
      · intro y cl hy
        have : y ≠ x := by
          rintro rfl
          have := hso.gf y cl hy
          simp [assignable, this] at ha
        simp only [this, if_false]
        exact hw.gf y cl hy
    · exact ⟨.refl w, fun _ _ => rfl, fun _ _ => rfl, fun _ _ _ => rfl⟩
  · rw [h5] at hcoh
    have hsv : setVar ρ S x v = { S with σ := S.σ.set e.loc v } := by simp [setVar, hcoh]
    have he : e ∈ fs.flatten ++ fr.Eb := by rw [h1]; simp
    have hkn : look x sc = some none := by
      have hne := hso.names (x, e.cell) (by rw [hs.lex]; rw [← h2]; exact List.mem_map_of_mem he)
      simp only at hne
      unfold assignable at ha
      cases hq : look x sc with
      | none => exact absurd hq hne
      | some q =>
        cases q with
        | none => rfl
        | some m => simp [hq] at ha
    have hfk : e.fk = false := hs.kind e he (by rw [h2]; exact hkn)
    have hK : w.K e.loc = false := by rw [hF.fk e he]; exact hfk
    obtain ⟨slots', st', p1, p2, p3, p4⟩ := step_set_ent hf hs.lex hF hw h1 h2 h3 (.refl w) rfl rfl
      (v := v) (by
        intro l cl hl
        obtain ⟨q1, q2⟩ := hw.F l cl hl
        refine ⟨q1, ?_⟩
        rw [← q2]
        refine List.getElem?_set_ne (fun hh => ?_)
        rw [← hh, hK] at q1
        exact absurd q1 (by simp)) hv hc stk
    rw [hsv]
    exact ⟨slots', st', p1, p2, p3, .refl w, fun _ _ => rfl, fun _ _ => rfl, p4⟩

/-! ### Bindings -/

/-- New bindings of the interpreter. -/
theorem WOk.alloc {w : World} {S : SSt} {st : TSt} (h : WOk U w S st) (vs : List SVal)
    (F : Nat → Option Clo) (K : Nat → Bool) (hF : ∀ l, l < w.n → F l = w.F l)
    (hK : ∀ l, l < w.n → K l = w.K l)
    (hn : ∀ l c, F l = some c → w.n ≤ l → K l = true ∧ (S.σ ++ vs)[l]? = some (.fn c)) :
    WOk U ⟨w.n + vs.length, w.j, F, K⟩ { S with σ := S.σ ++ vs } st ∧
      w.Le ⟨w.n + vs.length, w.j, F, K⟩ := by
  have hlt : ∀ (l : Nat) (c : Clo), w.F l = some c → l < w.n := by
    intro l c hl
    rw [h.n]
    exact (List.getElem?_eq_some_iff.1 (h.F l c hl).2).1
  have hold : ∀ (l : Nat) (v : SVal), S.σ[l]? = some v → (S.σ ++ vs)[l]? = some v := by
    intro l v hv
    rw [List.getElem?_append_left (List.getElem?_eq_some_iff.1 hv).1]
    exact hv
  have hle : w.Le ⟨w.n + vs.length, w.j, F, K⟩ :=
    ⟨Nat.le_add_right _ _, fun _ _ h => h, (fun l c hl => by show F l = _; rw [hF l (hlt l c hl)]; exact hl), hK⟩
  refine ⟨⟨by simp [h.n], ?_, h.inj, ?_, ?_, h.gf⟩, hle⟩
  · intro l a hl
    obtain ⟨v, v', h1, h2, h3⟩ := h.j l a hl
    exact ⟨v, v', hold l v h1, h2, h3.mono hle⟩
  · intro l c hl
    by_cases hl' : l < w.n
    · simp only [hF l hl'] at hl
      obtain ⟨h1, h2⟩ := h.F l c hl
      exact ⟨by simp only [hK l hl']; exact h1, hold _ _ h2⟩
    · exact hn l c hl (Nat.le_of_not_lt hl')
  · intro y
    have := h.g y
    cases h5 : S.g y <;> cases h6 : st.g y <;> simp only [h5, h6] at this ⊢
    exact this.mono hle

/-- The instruction that makes a binding. -/
def bindI (own : List Ent) (e : Ent) : I :=
  if U.H e.cell then .bind else .slotSet (U.slot own)

/-- A binding of the interpreter that compiled code does not have yet gets one. -/
theorem step_bind {fr : Fr} {f : List Ent} {fs : List (List Ent)} {w : World} {S : SSt}
    {env bst : List Nat} {slots : Nat → Option TVal} {st : TSt}
    (hF : FR U fr (f :: fs) w S env bst slots) (hw : WOk U w S st) {e : Ent} {v : SVal} {v' : TVal}
    (hl : e.loc < w.n) (hm : fr.m ≤ e.loc) (hj : w.j e.loc = none)
    (hown : ∀ e' ∈ (f :: fs).flatten, e'.loc ≠ e.loc) (hfk : w.K e.loc = e.fk)
    (hσ : S.σ[e.loc]? = some v) (hv : VR U w v v') {pc : Nat} {x : Name} {lex : Lex} {k : List I}
    (hc : CodeAt fr.C pc (.lexBind x lex :: k))
    (hi : alloc U.H fr.Eb.length (.lexBind x lex) = bindI (U := U) (f :: fs).flatten e)
    (stk : List TVal) :
    ∃ w' env' bst' slots' st', step U.P U.table (U.mk' fr pc (v' :: stk) env bst slots st) =
        .next (U.mk' fr (pc + 1) stk env' bst' slots' st') ∧
      FR U fr ((e :: f) :: fs) w' S env' bst' slots' ∧ WOk U w' S st' ∧ w.Le w' ∧
      w'.n = w.n ∧ w'.F = w.F ∧ w'.K = w.K ∧ ∀ l, l ≠ e.loc → w'.j l = w.j l := by
  have hft := fetch (U := U) hc
  rw [hi] at hft
  cases hH : U.H e.cell with
  | true =>
    rw [bindI, hH, if_pos rfl] at hft
    have hb : bst = (U.heap f).length :: fs.map fun f => (U.heap f).length := hF.bst
    have hle : w.Le ⟨w.n, fun l => if l = e.loc then some st.heap.length else w.j l, w.F, w.K⟩ := by
      refine ⟨Nat.le_refl _, ?_, fun _ _ h => h, fun _ _ => rfl⟩
      intro l a hla
      simp only
      split
      · rename_i hh; rw [hh, hj] at hla; exact absurd hla (by simp)
      · exact hla
    refine ⟨⟨w.n, fun l => if l = e.loc then some st.heap.length else w.j l, w.F, w.K⟩,
      st.heap.length :: env, ((U.heap f).length + 1) :: fs.map fun f => (U.heap f).length, slots,
      { st with heap := st.heap ++ [v'] }, ?_, ?_, ?_, hle, rfl, rfl, rfl, ?_⟩
    · simp [step, Setup.mk', hft, hb, Act.next]
    · have h1 := hF.move (S' := S) hle (fun e' he' h => by
        simp only
        rw [if_neg (hown e' he')]; exact h) (fun _ _ _ => rfl)
      refine ⟨?_, ?_, ?_, ?_, ?_, ?_, ?_, h1.m⟩
      · have h2 := h1.env
        simp only [List.flatten_cons, List.cons_append, Setup.heap, List.filter_cons, hH, if_true,
          List.map_cons] at h2 ⊢
        rw [h2]
      · simp [Setup.heap, List.filter_cons, hH]
      · refine ⟨fun hH' => ?_, h1.slots⟩
        rw [hH] at hH'
        exact absurd hH' (by simp)
      · intro e' he'
        rcases List.mem_cons.1 he' with rfl | he'
        · exact hl
        · exact h1.lt e' he'
      · intro e' he'
        rcases List.mem_cons.1 he' with rfl | he'
        · exact hm
        · exact h1.own e' he'
      · show (((e :: f) :: fs).flatten.map (·.loc)).Nodup
        simp only [List.flatten_cons, List.cons_append, List.map_cons, List.nodup_cons]
        refine ⟨?_, by simpa using hF.nodup⟩
        rw [List.mem_map]
        rintro ⟨e', he', hh⟩
        exact hown e' (by simpa using he') hh
      · intro e' he'
        rcases List.mem_cons.1 he' with rfl | he'
        · exact hfk
        · exact h1.fk e' he'
    · refine ⟨hw.n, ?_, ?_, hw.F, ?_, hw.gf⟩
      · intro l a hla
        simp only at hla
        split at hla
        · rename_i hh
          simp only [Option.some.injEq] at hla
          subst hla
          exact ⟨v, v', by rw [hh]; exact hσ, by simp, hv.mono hle⟩
        · obtain ⟨u, u', h1, h2, h3⟩ := hw.j l a hla
          refine ⟨u, u', h1, ?_, h3.mono hle⟩
          rw [List.getElem?_append_left (List.getElem?_eq_some_iff.1 h2).1]
          exact h2
      · intro l l' a h1 h2
        simp only at h1 h2
        have hnew : ∀ l, w.j l = some st.heap.length → False := by
          intro l hl
          obtain ⟨_, _, _, h, _⟩ := hw.j _ _ hl
          have := (List.getElem?_eq_some_iff.1 h).1
          omega
        split at h1 <;> split at h2
        · rename_i h3 h4; rw [h3, h4]
        · simp only [Option.some.injEq] at h1; subst h1; exact (hnew _ h2).elim
        · simp only [Option.some.injEq] at h2; subst h2; exact (hnew _ h1).elim
        · exact hw.inj l l' a h1 h2
      · intro y
        have := hw.g y
        cases h5 : S.g y <;> cases h6 : st.g y <;> simp only [h5, h6] at this ⊢
        exact this.mono hle
    · intro l hl'
      simp [hl']
  | false =>
    have hn : (bindI (U := U) (f :: fs).flatten e) = .slotSet (U.slot (f :: fs).flatten) := by
      simp [bindI, hH]
    rw [hn] at hft
    refine ⟨w, env, bst, fun n => if n = U.slot (f :: fs).flatten then some v' else slots n, st, ?_,
      ?_, hw, .refl w, rfl, rfl, rfl, fun _ _ => rfl⟩
    · simp [step, Setup.mk', hft, Act.next]
    · refine ⟨?_, ?_, ⟨fun _ => ⟨hj, v, v', hσ, ?_, hv⟩, ?_⟩, ?_, ?_, ?_, ?_, hF.m⟩
      · rw [hF.env]
        simp [Setup.heap, hH]
      · rw [hF.bst]
        simp [Setup.heap, hH]
      · simp
      · exact slots_lt hF.slots (fun n hn => if_neg (Nat.ne_of_lt hn))
      · intro e' he'
        rcases List.mem_cons.1 he' with rfl | he'
        · exact hl
        · exact hF.lt e' he'
      · intro e' he'
        rcases List.mem_cons.1 he' with rfl | he'
        · exact hm
        · exact hF.own e' he'
      · show (((e :: f) :: fs).flatten.map (·.loc)).Nodup
        simp only [List.flatten_cons, List.cons_append, List.map_cons, List.nodup_cons]
        refine ⟨?_, by simpa using hF.nodup⟩
        rw [List.mem_map]
        rintro ⟨e', he', hh⟩
        exact hown e' (by simpa using he') hh
      · intro e' he'
        rcases List.mem_cons.1 he' with rfl | he'
        · exact hfk
        · exact hF.fk e' he'

/-- A new frame. -/
theorem FR.push {fr : Fr} {fs : List (List Ent)} {w : World} {S : SSt} {env bst : List Nat}
    {slots : Nat → Option TVal} (h : FR U fr fs w S env bst slots) :
    FR U fr ([] :: fs) w S env (0 :: bst) slots :=
  ⟨by simpa using h.env, by simp [h.bst, Setup.heap], by simpa using h.slots,
    by simpa using h.lt, by simpa using h.own, by simpa using h.nodup, by simpa using h.fk, h.m⟩

theorem slots_right {w : World} {S : SSt} {slots : Nat → Option TVal} {a b : List Ent}
    (h : Slots U w S slots (a ++ b)) : Slots U w S slots b := by
  induction a with
  | nil => exact h
  | cons e a ih => exact ih h.2

/-- Without its innermost frames. -/
theorem FR.drop {fr : Fr} {fs1 fs : List (List Ent)} {w : World} {S : SSt} {env bst : List Nat}
    {slots : Nat → Option TVal} (h : FR U fr (fs1 ++ fs) w S env bst slots) :
    FR U fr fs w S (env.drop (U.heap fs1.flatten).length) (bst.drop fs1.length) slots := by
  refine ⟨?_, ?_, ?_, ?_, ?_, ?_, ?_, h.m⟩
  · have := h.env
    rw [List.map_drop, this]
    rw [List.flatten_append, List.append_assoc]
    generalize fs1.flatten = a
    simp only [Setup.heap, List.filter_append, List.map_append]
    rw [List.drop_append_of_le_length (by simp)]
    simp
  · rw [h.bst]
    simp [List.map_append]
  · have := h.slots
    rw [List.flatten_append] at this
    exact slots_right this
  · intro e he
    apply h.lt e
    rw [List.flatten_append, List.append_assoc]
    exact List.mem_append_right _ he
  · intro e he
    apply h.own e
    rw [List.flatten_append]
    exact List.mem_append_right _ he
  · have := h.nodup
    rw [List.flatten_append, List.map_append] at this
    exact (List.nodup_append.1 this).2.1
  · intro e he
    apply h.fk e
    rw [List.flatten_append, List.append_assoc]
    exact List.mem_append_right _ he

theorem step_unbind' {fr : Fr} {f : List Ent} {fs : List (List Ent)} {w : World} {S : SSt}
    {env bst : List Nat} {slots : Nat → Option TVal} {st : TSt}
    (hF : FR U fr (f :: fs) w S env bst slots) {pc : Nat} {k : List I} (stk : List TVal)
    (hc : CodeAt fr.C pc (.unbind :: k)) :
    ∃ env' bst', step U.P U.table (U.mk' fr pc stk env bst slots st) =
        .next (U.mk' fr (pc + 1) stk env' bst' slots st) ∧ FR U fr fs w S env' bst' slots := by
  have hb : bst = (U.heap f).length :: fs.map fun f => (U.heap f).length := hF.bst
  have := FR.drop (fs1 := [f]) (fs := fs) hF
  refine ⟨env.drop (U.heap f).length, fs.map fun f => (U.heap f).length, ?_, ?_⟩
  · rw [hb]; exact step_unbind hc
  · simpa [hb] using this

end Rep.Compile
