import Verif.Compile.Machine

/-
What compilation does to its state: labels are new and different, the functions enclosed so far
stay, and the record of the variables assigned by jumps only grows.
-/

namespace Rep.Compile

def labelOf : I → Option Nat
  | .label l => some l
  | _ => none

def labelsOf (k : List I) : List Nat := k.filterMap labelOf

@[simp] theorem labelsOf_nil : labelsOf [] = [] := rfl
@[simp] theorem labelsOf_append (a b : List I) : labelsOf (a ++ b) = labelsOf a ++ labelsOf b := by
  simp [labelsOf]
theorem labelsOf_cons (i : I) (k : List I) :
    labelsOf (i :: k) = (match labelOf i with | some l => [l] | none => []) ++ labelsOf k := by
  unfold labelsOf
  cases h : labelOf i <;> simp [List.filterMap_cons, h]

/-- Code whose labels are different and within a range. -/
def Labs (lo hi : Nat) (k : List I) : Prop :=
  (labelsOf k).Nodup ∧ ∀ l ∈ labelsOf k, lo ≤ l ∧ l < hi

theorem Labs.nolabel {lo hi : Nat} {k : List I} (h : labelsOf k = []) : Labs lo hi k := by
  simp [Labs, h]

theorem Labs.mono {lo hi lo' hi' : Nat} {k : List I} (h : Labs lo hi k) (h1 : lo' ≤ lo)
    (h2 : hi ≤ hi') : Labs lo' hi' k :=
  ⟨h.1, fun l hl => ⟨Nat.le_trans h1 (h.2 l hl).1, Nat.lt_of_lt_of_le (h.2 l hl).2 h2⟩⟩

theorem Labs.append {lo mid hi : Nat} {a b : List I} (ha : Labs lo mid a) (hb : Labs mid hi b)
    (h1 : lo ≤ mid) (h2 : mid ≤ hi) : Labs lo hi (a ++ b) := by
  refine ⟨?_, ?_⟩
  · rw [labelsOf_append, List.nodup_append]
    refine ⟨ha.1, hb.1, fun x hx y hy => ?_⟩
    have := (ha.2 x hx).2
    have := (hb.2 y hy).1
    omega
  · intro l hl
    rw [labelsOf_append, List.mem_append] at hl
    rcases hl with hl | hl
    · have := ha.2 l hl; omega
    · have := hb.2 l hl; omega

theorem Labs.single {lo hi l : Nat} (h1 : lo ≤ l) (h2 : l < hi) : Labs lo hi [.label l] := by
  refine ⟨?_, ?_⟩ <;> simp [labelsOf_cons, labelOf]
  omega

/-- The order of two pieces of code does not matter. -/
theorem Labs.comm {lo hi : Nat} {a b : List I} (h : Labs lo hi (a ++ b)) : Labs lo hi (b ++ a) := by
  refine ⟨?_, ?_⟩
  · have := h.1
    rw [labelsOf_append] at this ⊢
    exact (List.perm_append_comm.nodup_iff).1 this
  · intro l hl
    apply h.2
    rw [labelsOf_append, List.mem_append] at hl ⊢
    exact hl.symm

/-- Labels only depend on the labels. -/
theorem Labs.congr {lo hi : Nat} {a b : List I} (h : Labs lo hi a) (e : labelsOf b = labelsOf a) :
    Labs lo hi b := by
  unfold Labs
  rw [e]
  exact h

/-- From one state of the compiler to a later one. -/
structure Later (s s' : CSt) : Prop where
  lab : s.lab ≤ s'.lab
  cell : s.cell ≤ s'.cell
  fns : ∃ r, s'.fns = s.fns ++ r ∧ ∀ f ∈ r, (labelsOf f.code).Nodup
  inplace : ∀ k ∈ s.inplace, k ∈ s'.inplace
  modified : ∀ k ∈ s.modified, k ∈ s'.modified

theorem Later.refl (s : CSt) : Later s s :=
  ⟨Nat.le_refl _, Nat.le_refl _, ⟨[], by simp, by simp⟩, fun _ h => h, fun _ h => h⟩

theorem Later.trans {a b c : CSt} (h1 : Later a b) (h2 : Later b c) : Later a c := by
  obtain ⟨r1, e1, n1⟩ := h1.fns
  obtain ⟨r2, e2, n2⟩ := h2.fns
  refine ⟨Nat.le_trans h1.lab h2.lab, Nat.le_trans h1.cell h2.cell, ⟨r1 ++ r2, ?_, ?_⟩,
    fun k h => h2.inplace k (h1.inplace k h), fun k h => h2.modified k (h1.modified k h)⟩
  · rw [e2, e1, List.append_assoc]
  · intro f hf
    rcases List.mem_append.1 hf with h | h
    · exact n1 f h
    · exact n2 f h

/-- Compilation of some code. -/
structure Grow (s : CSt) (k : List I) (s' : CSt) : Prop where
  later : Later s s'
  labs : Labs s.lab s'.lab k

theorem Grow.append {a b c : CSt} {k k' : List I} (h1 : Grow a k b) (h2 : Grow b k' c) :
    Grow a (k ++ k') c :=
  ⟨h1.later.trans h2.later, h1.labs.append h2.labs h1.later.lab h2.later.lab⟩

theorem Grow.plain {a b : CSt} {k : List I} (h : Later a b) (hk : labelsOf k = []) : Grow a k b :=
  ⟨h, .nolabel hk⟩

theorem Grow.congr {a b : CSt} {k k' : List I} (h : Grow a k b) (e : labelsOf k' = labelsOf k) :
    Grow a k' b :=
  ⟨h.later, h.labs.congr e⟩

/-- Code that uses a label made before it. -/
theorem Grow.label {s t : CSt} {k k' : List I} (h : Grow { s with lab := s.lab + 1 } k t)
    (e : labelsOf k' = labelsOf k ++ [s.lab] ∨ labelsOf k' = s.lab :: labelsOf k) :
    Grow s k' t := by
  refine ⟨⟨Nat.le_of_succ_le h.later.lab, h.later.cell, h.later.fns, h.later.inplace,
    h.later.modified⟩, ?_⟩
  have h1 : Labs s.lab (s.lab + 1) [.label s.lab] := .single (Nat.le_refl _) (Nat.lt_succ_self _)
  have h2 := h1.append h.labs (Nat.le_succ _) h.later.lab
  rcases e with e | e
  · exact (h2.comm).congr (by simp [e, labelsOf_cons, labelOf])
  · exact h2.congr (by simp [e, labelsOf_cons, labelOf])

theorem later_cell {s : CSt} {n : Nat} (h : s.cell ≤ n) : Later s { s with cell := n } :=
  ⟨Nat.le_refl _, h, ⟨[], by simp, by simp⟩, fun _ h => h, fun _ h => h⟩

theorem later_lab {s : CSt} {n : Nat} (h : s.lab ≤ n) : Later s { s with lab := n } :=
  ⟨h, Nat.le_refl _, ⟨[], by simp, by simp⟩, fun _ h => h, fun _ h => h⟩

theorem varref_later (c : Ctx) (x : Name) (s : CSt) : Later s (varref c x s).2 := by
  unfold varref
  split
  · exact ⟨Nat.le_refl _, Nat.le_refl _, ⟨[], by simp, by simp⟩, fun _ h => h, fun _ h => h⟩
  · exact .refl s

theorem varref_labels (c : Ctx) (x : Name) (s : CSt) : labelsOf (varref c x s).1 = [] := by
  unfold varref
  split <;> rfl

theorem varset_labels (c : Ctx) (x : Name) : labelsOf [varset c x] = [] := by
  unfold varset
  split <;> rfl

theorem varset_labelOf (c : Ctx) (x : Name) : labelOf (varset c x) = none := by
  unfold varset
  split <;> rfl

theorem noteModified_later (c : Ctx) (x : Name) (s : CSt) : Later s (noteModified c x s) := by
  unfold noteModified
  split
  · exact ⟨Nat.le_refl _, Nat.le_refl _, ⟨[], by simp, by simp⟩, fun _ h => h,
      fun _ h => List.mem_cons_of_mem _ h⟩
  · exact .refl s

theorem noteCall_later (c : Ctx) (s : CSt) : Later s (noteCall c s) :=
  ⟨Nat.le_refl _, Nat.le_refl _, ⟨[], by simp [noteCall], by simp⟩, fun _ h => h, fun _ h => h⟩

theorem bindAll_spec (xs : List Name) (lex : Lex) (n : Nat) :
    n ≤ (bindAll xs lex n).2.2 ∧ labelsOf (bindAll xs lex n).1 = [] := by
  induction xs generalizing lex n with
  | nil => simp [bindAll]
  | cons x xs ih =>
    have := ih ((x, n) :: lex) (n + 1)
    refine ⟨?_, ?_⟩
    · simp only [bindAll]; omega
    · simp only [bindAll, labelsOf_cons, labelOf]; simp [this.2]

theorem bindNils_spec (xs : List Name) (lex : Lex) (n : Nat) :
    n ≤ (bindNils xs lex n).2.2 ∧ labelsOf (bindNils xs lex n).1 = [] := by
  induction xs generalizing lex n with
  | nil => simp [bindNils]
  | cons x xs ih =>
    have := ih ((x, n) :: lex) (n + 1)
    refine ⟨?_, ?_⟩
    · simp only [bindNils]; omega
    · simp only [bindNils, labelsOf_cons, labelOf]; simp [this.2]

theorem labelsOf_replicate (n : Nat) (i : I) (h : labelOf i = none) :
    labelsOf (List.replicate n i) = [] := by
  induction n with
  | zero => rfl
  | succ n ih => rw [List.replicate_succ, labelsOf_cons, h, ih]; rfl

theorem labelsOf_map {α : Type} (f : α → I) (l : List α) (h : ∀ a, labelOf (f a) = none) :
    labelsOf (l.map f) = [] := by
  induction l with
  | nil => rfl
  | cons a l ih => rw [List.map_cons, labelsOf_cons, h, ih]; rfl

theorem popBetween_labels (a b : Nat) : labelsOf (popBetween a b) = [] := by
  unfold popBetween
  split
  · rfl
  · split
    · rfl
    · exact labelsOf_replicate _ _ rfl

theorem unbindBetween_labels (a b : Nat) : labelsOf (unbindBetween a b) = [] := by
  unfold unbindBetween
  split
  · split <;> rfl
  · exact labelsOf_replicate _ _ rfl

theorem unbindBelow_labels (a b : Nat) : labelsOf (unbindBelow a b) = [] := by
  unfold unbindBelow
  split
  · rfl
  · exact unbindBetween_labels _ _

theorem tailCall_grow (c : Ctx) (r : Rec) (e : Nat) (s : CSt) :
    Grow s (tailCall c r e s).1 (tailCall c r e s).2 := by
  unfold tailCall
  split
  · refine .plain (.refl s) ?_
    simp only [labelsOf_append, unbindBelow_labels, popBetween_labels,
      labelsOf_replicate _ _ (show labelOf I.pop = none from rfl)]
    rw [labelsOf_map _ _ (fun _ => rfl)]
    rfl
  · refine .plain ⟨Nat.le_refl _, Nat.le_refl _, ⟨[], by simp, by simp⟩,
      fun _ h => List.mem_append_right _ h, fun _ h => h⟩ ?_
    simp only [labelsOf_append, unbindBetween_labels, popBetween_labels,
      labelsOf_replicate _ _ (show labelOf I.pop = none from rfl)]
    rw [labelsOf_map _ _ (varset_labelOf c)]
    rfl

theorem inlineHead_grow (c : Ctx) (nm : Option Name) (ps : List Name) (e : Nat) (s : CSt) :
    Grow s (inlineHead c nm ps e s).1 (inlineHead c nm ps e s).2.2 := by
  unfold inlineHead
  split
  · refine ⟨later_lab (Nat.le_succ _), ?_⟩
    refine (Labs.single (Nat.le_refl _) (Nat.lt_succ_self _)).congr ?_
    simp [labelsOf_replicate _ _ (show labelOf I.pop = none from rfl)]
  · have h := bindAll_spec ps.reverse c.lex s.cell
    refine ⟨⟨Nat.le_succ _, h.1, ⟨[], by simp, by simp⟩, fun _ h => h, fun _ h => h⟩, ?_⟩
    refine (Labs.single (Nat.le_refl _) (Nat.lt_succ_self _)).congr ?_
    simp only [labelsOf_append, h.2, labelsOf_cons, labelOf,
      labelsOf_replicate _ _ (show labelOf I.pop = none from rfl)]
    simp

theorem inlineTail_labels (ps : List Name) : labelsOf (inlineTail ps) = [] := by
  unfold inlineTail
  split <;> rfl

theorem lambdaHead_grow (c : Ctx) (nm : Option Name) (ps : List Name) (s : CSt) :
    Grow s (lambdaHead c nm ps s).1 (lambdaHead c nm ps s).2.2 := by
  have h := bindAll_spec ps.reverse c.lex s.cell
  unfold lambdaHead
  refine ⟨⟨Nat.le_succ _, h.1, ⟨[], by simp, by simp⟩, fun _ h => h, fun _ h => h⟩, ?_⟩
  refine (Labs.single (Nat.le_refl _) (Nat.lt_succ_self _)).congr ?_
  simp only [labelsOf_append, h.2]
  rw [labelsOf_map _ _ (fun _ => rfl)]
  rfl

theorem enclose_later (c : Ctx) {s s' : CSt} {k : List I} (h : Grow s k s') :
    Later s (enclose c k s').2 := by
  refine ⟨h.later.lab, h.later.cell, ?_, h.later.inplace, h.later.modified⟩
  obtain ⟨r, e, n⟩ := h.later.fns
  refine ⟨r ++ [⟨k, c.lex⟩], ?_, ?_⟩
  · simp [enclose, noteClosure, e]
  · intro f hf
    rcases List.mem_append.1 hf with h' | h'
    · exact n f h'
    · rw [List.mem_singleton.1 h']; exact h.labs.1

theorem enclose_grow (c : Ctx) {s s' : CSt} {k : List I} (h : Grow s k s') :
    Grow s (enclose c k s').1 (enclose c k s').2 :=
  .plain (enclose_later c h) rfl

theorem reload_later {s t : CSt} (h : Later s t) : Later s (reload s t) :=
  ⟨h.lab, h.cell, ⟨[], by simp [reload], by simp⟩, fun _ h => h, fun _ h => h⟩

/-- The code of a function. -/
theorem fn_grow {c : Ctx} {nm : Option Name} {ps : List Name} {s t : CSt} {k : List I}
    (h : Grow (lambdaHead c nm ps s).2.2 k t) :
    Grow s ((lambdaHead c nm ps s).1 ++ k ++ [.ret]) t :=
  ((lambdaHead_grow c nm ps s).append h).congr (by simp [labelsOf_cons, labelOf])

/-- A function position that is neither a variable nor a lambda expression. -/
def Other (f : Exp) : Prop := (∀ ps b, f ≠ .lam ps b) ∧ ∀ x, f ≠ .var x

theorem cExp_call_other {c : Ctx} {rf : Bool} {f : Exp} {as : Exps} {s : CSt} (h : Other f) :
    cExp c rf (.call f as) s = (do
      let (k, s) ← cExp c false f s
      let (k', s) ← cArgs { c with sp := c.sp + 1 } as s
      some (k ++ k' ++ [.call as.length], noteCall c s)) := by
  cases f with
  | lam ps b => exact absurd rfl (h.1 ps b)
  | var x => exact absurd rfl (h.2 x)
  | _ => rfl

theorem cSets_other {c : Ctx} {x : Name} {e : Exp} {r : Binds} {s : CSt}
    (h : ∀ ps b, e ≠ .lam ps b) :
    cSets c (.cons x e r) s = (do
      let (k, s) ← cExp c false e s
      let (k', s) ← cSets c r s
      some (k ++ varset c x :: k', s)) := by
  cases e with
  | lam ps b => exact absurd rfl (h ps b)
  | _ => rfl

mutual
theorem cExp_grow (c : Ctx) (rf : Bool) (e : Exp) (s : CSt) {k : List I} {s' : CSt}
    (h : cExp c rf e s = some (k, s')) : Grow s k s' := by
  match e with
  | .quote a =>
    simp only [cExp, Option.some.injEq, Prod.mk.injEq] at h
    obtain ⟨rfl, rfl⟩ := h
    exact .plain (.refl s) rfl
  | .var x =>
    simp only [cExp, Option.some.injEq] at h
    have := Grow.plain (varref_later c x s) (varref_labels c x s)
    rw [h] at this
    exact this
  | .set x e =>
    simp only [cExp, Option.bind_eq_bind, Option.bind_eq_some_iff] at h
    obtain ⟨⟨k1, s1⟩, h1, h⟩ := h
    simp only [Option.some.injEq, Prod.mk.injEq] at h
    obtain ⟨rfl, rfl⟩ := h
    have g := (cExp_grow c false e s h1).append
      (Grow.plain (noteModified_later c x s1) (rfl : labelsOf [] = []))
    exact g.congr (by simp only [labelsOf_append, labelsOf_cons, varset_labelOf]; simp [labelOf])
  | .seq a b =>
    simp only [cExp, Option.bind_eq_bind, Option.bind_eq_some_iff] at h
    obtain ⟨⟨k1, s1⟩, h1, ⟨k2, s2⟩, h2, h⟩ := h
    simp only [Option.some.injEq, Prod.mk.injEq] at h
    obtain ⟨rfl, rfl⟩ := h
    have g := (cExp_grow c false a s h1).append (cExp_grow c rf b s1 h2)
    exact g.congr (by simp [labelsOf_cons, labelOf])
  | .cond cs =>
    simp only [cExp, Option.bind_eq_bind, Option.bind_eq_some_iff] at h
    obtain ⟨⟨k1, n1, s1⟩, h1, h⟩ := h
    simp only [Option.some.injEq, Prod.mk.injEq] at h
    obtain ⟨rfl, rfl⟩ := h
    have g := cCls_grow c rf s.lab cs _ h1
    refine g.label (.inl ?_)
    cases n1 <;> simp [labelsOf_cons, labelOf]
  | .while q b =>
    simp only [cExp, Option.bind_eq_bind, Option.bind_eq_some_iff] at h
    obtain ⟨⟨k1, s1⟩, h1, ⟨k2, s2⟩, h2, h⟩ := h
    simp only [Option.some.injEq, Prod.mk.injEq] at h
    obtain ⟨rfl, rfl⟩ := h
    have g1 := cExp_grow c false b _ h1
    have g2 := cExp_grow c false q s1 h2
    have g : Grow { s with lab := s.lab + 1 } (k1 ++ [.label (s.lab + 1)]) s1 :=
      Grow.label (s := { s with lab := s.lab + 1 }) g1
        (.inl (by simp [labelsOf_cons, labelOf]))
    exact (g.append g2).label (.inr (by simp [labelsOf_cons, labelOf]))
  | .lam ps b =>
    simp only [cExp, Option.bind_eq_bind, Option.bind_eq_some_iff] at h
    obtain ⟨⟨k1, s1⟩, h1, h⟩ := h
    simp only [Option.some.injEq] at h
    have g := enclose_grow c (fn_grow (cExp_grow _ true b _ h1))
    rw [h] at g
    exact g
  | .call f as =>
    by_cases ho : Other f
    · rw [cExp_call_other ho] at h
      simp only [Option.bind_eq_bind, Option.bind_eq_some_iff] at h
      obtain ⟨⟨k1, s1⟩, h1, ⟨k2, s2⟩, h2, h⟩ := h
      simp only [Option.some.injEq, Prod.mk.injEq] at h
      obtain ⟨rfl, rfl⟩ := h
      have g := ((cExp_grow c false f s h1).append (cArgs_grow _ as s1 h2)).append
        (Grow.plain (noteCall_later c s2) (rfl : labelsOf [.call as.length] = []))
      exact g
    match f with
    | .lam _ _ => simp [cExp] at h
    | .var x =>
      simp only [cExp] at h
      split at h
      · simp only [Option.bind_eq_bind, Option.bind_eq_some_iff] at h
        obtain ⟨⟨k1, s1⟩, h1, h⟩ := h
        split at h
        · exact absurd h (by simp)
        simp only [Option.some.injEq, Prod.mk.injEq] at h
        obtain ⟨rfl, rfl⟩ := h
        exact (cArgs_grow c as s h1).append (tailCall_grow _ _ _ _)
      · simp only [Option.bind_eq_bind, Option.bind_eq_some_iff] at h
        obtain ⟨⟨k1, s1⟩, h1, h⟩ := h
        simp only [Option.some.injEq, Prod.mk.injEq] at h
        obtain ⟨rfl, rfl⟩ := h
        have g := ((Grow.plain (varref_later c x s) (varref_labels c x s)).append
          (cArgs_grow _ as _ h1)).append
          (Grow.plain (noteCall_later c s1) (rfl : labelsOf [.call as.length] = []))
        exact g
    | .quote _ | .set _ _ | .seq _ _ | .cond _ | .while _ _ | .call _ _ | .inl _ _ _ | .lets _ _
    | .letrec _ _ | .named _ _ _ _ =>
      exact absurd ⟨(fun _ _ h => nomatch h), (fun _ h => nomatch h)⟩ ho
  | .inl ps b as =>
    simp only [cExp, Option.bind_eq_bind, Option.bind_eq_some_iff] at h
    obtain ⟨⟨k1, s1⟩, h1, h⟩ := h
    split at h
    · exact absurd h (by simp)
    simp only [Option.bind_eq_some_iff] at h
    obtain ⟨⟨k2, s2⟩, h2, h⟩ := h
    simp only [Option.some.injEq, Prod.mk.injEq] at h
    obtain ⟨rfl, rfl⟩ := h
    have g := ((cArgs_grow c as s h1).append (inlineHead_grow c none ps _ s1)).append
      (cExp_grow _ rf b _ h2)
    exact g.congr (by simp [inlineTail_labels])
  | .lets bs b =>
    simp only [cExp, Option.bind_eq_bind, Option.bind_eq_some_iff] at h
    obtain ⟨⟨k1, lex, s1⟩, h1, ⟨k2, s2⟩, h2, h⟩ := h
    simp only [Option.some.injEq, Prod.mk.injEq] at h
    obtain ⟨rfl, rfl⟩ := h
    have g := (cLets_grow _ bs s h1).append (cExp_grow _ rf b s1 h2)
    exact g.congr (by simp [labelsOf_cons, labelOf])
  | .letrec bs b =>
    simp only [cExp] at h
    split at h
    · exact absurd h (by simp)
    simp only [Option.bind_eq_bind, Option.bind_eq_some_iff] at h
    obtain ⟨⟨k1, s1⟩, h1, ⟨k2, s2⟩, h2, h⟩ := h
    simp only [Option.some.injEq, Prod.mk.injEq] at h
    obtain ⟨rfl, rfl⟩ := h
    have hb := bindNils_spec bs.names c.lex s.cell
    have g := ((Grow.plain (later_cell hb.1) hb.2).append (cSets_grow _ bs _ h1)).append
      (cExp_grow _ rf b s1 h2)
    exact g.congr (by simp [labelsOf_cons, labelOf])
  | .named x ps b as =>
    simp only [cExp, Option.bind_eq_bind, Option.bind_eq_some_iff] at h
    obtain ⟨⟨k1, s1⟩, h1, h⟩ := h
    have hc : Later s { s with cell := s.cell + 1 } := later_cell (Nat.le_succ _)
    have g0 := fn_grow (cExp_grow _ true b _ h1)
    split at h
    · -- not compiled inline
      have g1 := (Grow.plain hc (rfl : labelsOf [] = [])).append
        (enclose_grow { c with bp := c.bp + 1, lex := (x, s.cell) :: c.lex } g0)
      split at h
      · rename_i r _
        simp only [Option.bind_eq_some_iff] at h
        obtain ⟨⟨k2, s2⟩, h2, h⟩ := h
        split at h
        · exact absurd h (by simp)
        simp only [Option.some.injEq, Prod.mk.injEq] at h
        obtain ⟨rfl, rfl⟩ := h
        have g := (g1.append (cArgs_grow _ as _ h2)).append
          (tailCall_grow { c with bp := c.bp + 1, lex := (x, s.cell) :: c.lex } r
            (as.length - r.args.length) s2)
        exact g.congr (by simp [labelsOf_cons, labelOf, enclose])
      · simp only [Option.bind_eq_some_iff] at h
        obtain ⟨⟨k2, s2⟩, h2, h⟩ := h
        simp only [Option.some.injEq, Prod.mk.injEq] at h
        obtain ⟨rfl, rfl⟩ := h
        have g := ((g1.append (Grow.plain (varref_later _ x _)
          (varref_labels { c with bp := c.bp + 1, lex := (x, s.cell) :: c.lex } x s1))).append
          (cArgs_grow _ as _ h2)).append
          (Grow.plain (noteCall_later { c with bp := c.bp + 1, lex := (x, s.cell) :: c.lex } s2)
            (rfl : labelsOf [.call as.length] = []))
        refine g.congr ?_
        simp [labelsOf_cons, labelOf, enclose, varref_labels]
    · simp only [Option.bind_eq_some_iff] at h
      obtain ⟨⟨k2, s2⟩, h2, h⟩ := h
      split at h
      · exact absurd h (by simp)
      simp only [Option.bind_eq_some_iff] at h
      obtain ⟨⟨k3, s3⟩, h3, h⟩ := h
      simp only [Option.some.injEq, Prod.mk.injEq] at h
      obtain ⟨rfl, rfl⟩ := h
      have hl : Later s (reload s (enclose { c with bp := c.bp + 1, lex := (x, s.cell) :: c.lex }
          _ s1).2) := reload_later (hc.trans (enclose_later _ g0))
      have g := (((Grow.plain hl (rfl : labelsOf [] = [])).append (cArgs_grow c as _ h2)).append
        (inlineHead_grow c (some x) ps _ s2)).append (cExp_grow _ rf b _ h3)
      exact g.congr (by simp [inlineTail_labels])

theorem cArgs_grow (c : Ctx) (es : Exps) (s : CSt) {k : List I} {s' : CSt}
    (h : cArgs c es s = some (k, s')) : Grow s k s' := by
  match es with
  | .nil =>
    simp only [cArgs, Option.some.injEq, Prod.mk.injEq] at h
    obtain ⟨rfl, rfl⟩ := h
    exact .plain (.refl s) rfl
  | .cons e es =>
    simp only [cArgs, Option.bind_eq_bind, Option.bind_eq_some_iff] at h
    obtain ⟨⟨k1, s1⟩, h1, ⟨k2, s2⟩, h2, h⟩ := h
    simp only [Option.some.injEq, Prod.mk.injEq] at h
    obtain ⟨rfl, rfl⟩ := h
    exact (cExp_grow c false e s h1).append (cArgs_grow _ es s1 h2)

theorem cCls_grow (c : Ctx) (rf : Bool) (fin : Nat) (cs : Clauses) (s : CSt) {k : List I} {n : Bool}
    {s' : CSt} (h : cCls c rf fin cs s = some (k, n, s')) : Grow s k s' := by
  have hl : Grow s [] { s with lab := s.lab + 1 } := .plain (later_lab (Nat.le_succ _)) rfl
  match cs with
  | .nil =>
    simp only [cCls, Option.some.injEq, Prod.mk.injEq] at h
    obtain ⟨rfl, rfl, rfl⟩ := h
    exact .plain (.refl s) rfl
  | .test q r =>
    simp only [cCls] at h
    split at h
    · simp only [Option.bind_eq_bind, Option.bind_eq_some_iff] at h
      obtain ⟨⟨k1, s1⟩, h1, h⟩ := h
      simp only [Option.some.injEq, Prod.mk.injEq] at h
      obtain ⟨rfl, rfl, rfl⟩ := h
      exact hl.append (cExp_grow c rf q _ h1)
    · exact hl.append (cCls_grow c rf fin r _ h)
    · simp only [Option.bind_eq_bind, Option.bind_eq_some_iff] at h
      obtain ⟨⟨k1, s1⟩, h1, h⟩ := h
      have g := hl.append (cExp_grow c _ q _ h1)
      split at h
      · simp only [Option.some.injEq, Prod.mk.injEq] at h
        obtain ⟨rfl, rfl, rfl⟩ := h
        exact g
      · simp only [Option.bind_eq_some_iff] at h
        obtain ⟨⟨k2, n2, s2⟩, h2, h⟩ := h
        simp only [Option.some.injEq, Prod.mk.injEq] at h
        obtain ⟨rfl, rfl, rfl⟩ := h
        exact (g.append (cCls_grow c rf fin r _ h2)).congr (by simp [labelsOf_cons, labelOf])
  | .act q b r =>
    simp only [cCls] at h
    split at h
    · simp only [Option.bind_eq_bind, Option.bind_eq_some_iff] at h
      obtain ⟨⟨k1, s1⟩, h1, h⟩ := h
      simp only [Option.some.injEq, Prod.mk.injEq] at h
      obtain ⟨rfl, rfl, rfl⟩ := h
      exact hl.append (cExp_grow c rf b _ h1)
    · exact hl.append (cCls_grow c rf fin r _ h)
    · simp only [Option.bind_eq_bind, Option.bind_eq_some_iff] at h
      obtain ⟨⟨k1, s1⟩, h1, ⟨k2, s2⟩, h2, h⟩ := h
      have g := (cExp_grow c _ q _ h1).append (cExp_grow c rf b _ h2)
      split at h
      · simp only [Option.some.injEq, Prod.mk.injEq] at h
        obtain ⟨rfl, rfl, rfl⟩ := h
        exact (hl.append g).congr (by simp [labelsOf_cons, labelOf])
      · simp only [Option.bind_eq_some_iff] at h
        obtain ⟨⟨k3, n3, s3⟩, h3, h⟩ := h
        simp only [Option.some.injEq, Prod.mk.injEq] at h
        obtain ⟨rfl, rfl, rfl⟩ := h
        have g1 : Grow s ((k1 ++ k2) ++ [.label s.lab]) s2 :=
          g.label (.inl (by simp [labelsOf_cons, labelOf]))
        exact (g1.append (cCls_grow c rf fin r _ h3)).congr (by simp [labelsOf_cons, labelOf])

theorem cLets_grow (c : Ctx) (bs : Binds) (s : CSt) {k : List I} {lex : Lex} {s' : CSt}
    (h : cLets c bs s = some (k, lex, s')) : Grow s k s' := by
  match bs with
  | .nil =>
    simp only [cLets, Option.some.injEq, Prod.mk.injEq] at h
    obtain ⟨rfl, rfl, rfl⟩ := h
    exact .plain (.refl s) rfl
  | .cons x e r =>
    simp only [cLets, Option.bind_eq_bind, Option.bind_eq_some_iff] at h
    obtain ⟨⟨k1, s1⟩, h1, ⟨k2, lex2, s2⟩, h2, h⟩ := h
    simp only [Option.some.injEq, Prod.mk.injEq] at h
    obtain ⟨rfl, rfl, rfl⟩ := h
    have g := ((cExp_grow c false e s h1).append
      (Grow.plain (later_cell (Nat.le_succ _)) (rfl : labelsOf [] = []))).append
      (cLets_grow _ r _ h2)
    exact g.congr (by simp [labelsOf_cons, labelOf])

theorem cSets_grow (c : Ctx) (bs : Binds) (s : CSt) {k : List I} {s' : CSt}
    (h : cSets c bs s = some (k, s')) : Grow s k s' := by
  match bs with
  | .nil =>
    simp only [cSets, Option.some.injEq, Prod.mk.injEq] at h
    obtain ⟨rfl, rfl⟩ := h
    exact .plain (.refl s) rfl
  | .cons x e r =>
    by_cases ho : ∀ ps b, e ≠ .lam ps b
    · rw [cSets_other ho] at h
      simp only [Option.bind_eq_bind, Option.bind_eq_some_iff] at h
      obtain ⟨⟨k1, s1⟩, h1, ⟨k2, s2⟩, h2, h⟩ := h
      simp only [Option.some.injEq, Prod.mk.injEq] at h
      obtain ⟨rfl, rfl⟩ := h
      have g := (cExp_grow c false e s h1).append (cSets_grow c r _ h2)
      exact g.congr (by simp [labelsOf_cons, varset_labelOf])
    match e with
    | .lam ps b =>
      simp only [cSets, Option.bind_eq_bind, Option.bind_eq_some_iff] at h
      obtain ⟨⟨k1, s1⟩, h1, ⟨k2, s2⟩, h2, h⟩ := h
      simp only [Option.some.injEq, Prod.mk.injEq] at h
      obtain ⟨rfl, rfl⟩ := h
      have g := (enclose_grow c (fn_grow (cExp_grow _ true b _ h1))).append (cSets_grow c r _ h2)
      exact g.congr (by simp [labelsOf_cons, varset_labelOf])
    | .quote _ | .var _ | .set _ _ | .seq _ _ | .cond _ | .while _ _ | .call _ _ | .inl _ _ _
    | .lets _ _ | .letrec _ _ | .named _ _ _ _ =>
      exact absurd (fun _ _ h => nomatch h) ho
end

end Rep.Compile
