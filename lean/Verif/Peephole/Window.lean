import Verif.Peephole.Machine

/-
Replacing a window of instructions without labels by another one.

`pre ++ w ++ post` and `pre ++ w' ++ post` behave alike if, from every state, running `w` and
running `w'` leads to places the two codes have in common (`Meet`).
-/

namespace Rep.Peep

variable {M : Machine} {D : Insn Nat → Bool}

/-- `Leads D c n cfg x`: `n` steps from `cfg` lead to `x`, a place in the code or an outcome. -/
inductive Leads (D : Insn Nat → Bool) (c : Code) : Nat → Cfg M → Cfg M ⊕ Out M → Prop
  | refl {cfg} : Leads D c 0 cfg (.inl cfg)
  | stop {cfg o} : step D c cfg = .inr o → Leads D c 1 cfg (.inr o)
  | step {n cfg cfg' x} : step D c cfg = .inl cfg' → Leads D c n cfg' x →
      Leads D c (n + 1) cfg x

theorem Leads.trans {c : Code} {n m : Nat} {a b : Cfg M} {x : Cfg M ⊕ Out M}
    (h : Leads D c n a (.inl b)) (h' : Leads D c m b x) : Leads D c (n + m) a x := by
  generalize hy : (Sum.inl b : Cfg M ⊕ Out M) = y at h
  induction h with
  | refl => cases hy; simpa using h'
  | stop _ => cases hy
  | @step n cfg cfg' x hs _ ih =>
    have := ih hy
    have e : n + 1 + m = (n + m) + 1 := by omega
    rw [e]
    exact .step hs this

theorem Leads.ends {c : Code} {n : Nat} {a : Cfg M} {o : Out M}
    (h : Leads D c n a (.inr o)) : Ends D c a o := by
  generalize hy : (Sum.inr o : Cfg M ⊕ Out M) = y at h
  induction h with
  | refl => cases hy
  | stop hs => cases hy; exact .stop hs
  | step hs _ ih => exact .step hs (ih hy)

theorem Leads.ends_of {c : Code} {n : Nat} {a b : Cfg M} {o : Out M}
    (h : Leads D c n a (.inl b)) (h' : Ends D c b o) : Ends D c a o := by
  generalize hy : (Sum.inl b : Cfg M ⊕ Out M) = y at h
  induction h with
  | refl => cases hy; exact h'
  | stop _ => cases hy
  | step hs _ ih => exact .step hs (ih hy)

/-- A run that passes `b` goes on from there. -/
theorem Leads.runs {c : Code} {n m : Nat} {a b : Cfg M} {o : Out M}
    (h : Leads D c n a (.inl b)) (h' : Runs D c m a o) :
    ∃ m', m = n + m' ∧ Runs D c m' b o := by
  generalize hy : (Sum.inl b : Cfg M ⊕ Out M) = y at h
  induction h generalizing m with
  | refl => cases hy; exact ⟨m, by omega, h'⟩
  | stop _ => cases hy
  | step hs _ ih =>
    cases h' with
    | stop h' => rw [hs] at h'; cases h'
    | step h' h2 =>
      rw [hs] at h'; cases h'
      obtain ⟨m', rfl, hr⟩ := ih h2 hy
      exact ⟨m', by omega, hr⟩

/-- Run the instructions of a window one after the other. -/
def runW (D : Insn Nat → Bool) : Code → St M → R M
  | [], s => .next s
  | i :: is, s =>
    match exec D i s with
    | .next s' => runW D is s'
    | r => r

theorem runW_leads {c post : Code} :
    ∀ (w : Code) (s : St M), ∃ n, (w ≠ [] → 1 ≤ n) ∧
      Leads D c n (w ++ post, s) (follow c post (runW D w s)) := by
  intro w
  induction w with
  | nil => intro s; exact ⟨0, by simp, .refl⟩
  | cons i is ih =>
    intro s
    rw [runW]
    have hstep : step D c ((i :: is) ++ post, s) = follow c (is ++ post) (exec D i s) := rfl
    generalize exec D i s = r at hstep
    match r with
    | .next s' =>
      obtain ⟨n, _, h⟩ := ih s'
      exact ⟨n + 1, by omega, .step hstep h⟩
    | .goto l s' =>
      refine ⟨1, by omega, ?_⟩
      show Leads D c 1 _ (follow c post (.goto l s'))
      change step D c ((i :: is) ++ post, s) = follow c (is ++ post) (.goto l s') at hstep
      simp only [follow] at hstep ⊢
      cases hf : findL l c with
      | none => rw [hf] at hstep; exact .stop hstep
      | some k => rw [hf] at hstep; exact .step hstep .refl
    | .out o => exact ⟨1, by omega, .stop hstep⟩

/-- Windows `w` and `w'` agree in state `s` (in code `c`, followed by `post`): running `w` is
undefined, or both do the same, or both arrive at label `l` in the same state, or both end
alike. -/
inductive Meet (D : Insn Nat → Bool) (c post w w' : Code) (s : St M) : Prop
  | stuck : Ends D c (w ++ post, s) .stuck → Meet D c post w w' s
  | same : runW D w s = runW D w' s → Meet D c post w w' s
  | goto (l : Nat) (s1 : St M) (k : Code) (x : Cfg M) (n : Nat) :
      findL l c = some k → runW D w' s = .goto l s1 →
      follow c post (runW D w s) = .inl x → Leads D c n x (.inl (k, s1)) → Meet D c post w w' s
  | next (l : Nat) (s1 : St M) (k : Code) (x : Cfg M) (n : Nat) :
      runW D w' s = .next s1 → post = .label l :: k →
      follow c post (runW D w s) = .inl x → Leads D c n x (.inl (k, s1)) → Meet D c post w w' s
  | ends (o : Out M) (x : Cfg M) (n : Nat) :
      runW D w' s = .out o →
      follow c post (runW D w s) = .inl x → Leads D c n x (.inr o) → Meet D c post w w' s

/-- Corresponding places in `pre ++ w ++ post` and `pre ++ w' ++ post`. -/
inductive Pos (pre w w' post : Code) : Code → Code → Prop
  | before (y x : Code) : pre = y ++ x → Pos pre w w' post (x ++ (w ++ post)) (x ++ (w' ++ post))
  | after (y x : Code) : post = y ++ x → Pos pre w w' post x x

/-- No labels. -/
def NoLabels (w : Code) : Prop := ∀ l, .label l ∉ w

theorem findL_append_none (l : Nat) : ∀ (w k : Code), NoLabels w → findL l (w ++ k) = findL l k := by
  intro w
  induction w with
  | nil => intro k _; rfl
  | cons i is ih =>
    intro k h
    have hi : ∀ m, i ≠ .label m := fun m e => h m (by rw [e]; exact List.mem_cons_self)
    have his : NoLabels is := fun m hm => h m (List.mem_cons_of_mem _ hm)
    cases i <;> first
      | exact absurd rfl (hi _)
      | exact ih k his

theorem findL_suffix (l : Nat) : ∀ (c k : Code), findL l c = some k → ∃ y, c = y ++ k := by
  intro c
  induction c with
  | nil => intro k h; simp [findL] at h
  | cons i is ih =>
    intro k h
    cases i with
    | label m =>
      rw [findL] at h
      by_cases hm : m = l
      · rw [if_pos hm] at h; cases h; exact ⟨[.label m], rfl⟩
      · rw [if_neg hm] at h
        obtain ⟨y, rfl⟩ := ih k h
        exact ⟨.label m :: y, rfl⟩
    | _ =>
      obtain ⟨y, rfl⟩ := ih k h
      exact ⟨_ :: y, rfl⟩

/-- Labels are at corresponding places. -/
theorem findL_pos {w w' post : Code} (hw : NoLabels w) (hw' : NoLabels w') (l : Nat)
    (pre : Code) : ∀ (x y : Code), pre = y ++ x →
    (findL l (x ++ (w ++ post)) = none ∧ findL l (x ++ (w' ++ post)) = none) ∨
    ∃ k k', findL l (x ++ (w ++ post)) = some k ∧ findL l (x ++ (w' ++ post)) = some k' ∧
      Pos pre w w' post k k' := by
  intro x
  induction x with
  | nil =>
    intro y _
    simp only [List.nil_append]
    rw [findL_append_none l w post hw, findL_append_none l w' post hw']
    cases h : findL l post with
    | none => exact .inl ⟨rfl, rfl⟩
    | some k =>
      obtain ⟨z, hz⟩ := findL_suffix l post k h
      exact .inr ⟨k, k, rfl, rfl, .after z k hz⟩
  | cons i is ih =>
    intro y hy
    have hy' : pre = (y ++ [i]) ++ is := by rw [hy]; simp
    have := ih (y ++ [i]) hy'
    cases i with
    | label m =>
      simp only [List.cons_append]
      rw [findL, findL]
      by_cases hm : m = l
      · rw [if_pos hm, if_pos hm]
        exact .inr ⟨_, _, rfl, rfl, .before _ _ hy'⟩
      · rw [if_neg hm, if_neg hm]; exact this
    | _ => exact this

section
variable {pre w w' post : Code}

theorem pos_find (hw : NoLabels w) (hw' : NoLabels w') (l : Nat) :
    (findL l (pre ++ (w ++ post)) = none ∧ findL l (pre ++ (w' ++ post)) = none) ∨
    ∃ k k', findL l (pre ++ (w ++ post)) = some k ∧ findL l (pre ++ (w' ++ post)) = some k' ∧
      Pos pre w w' post k k' :=
  findL_pos hw hw' l pre pre [] rfl

/-- Corresponding follow-ups. -/
inductive Corr (pre w w' post : Code) : Cfg M ⊕ Out M → Cfg M ⊕ Out M → Prop
  | cfg {k k' s} : Pos pre w w' post k k' → Corr pre w w' post (.inl (k, s)) (.inl (k', s))
  | out (o) : Corr pre w w' post (.inr o) (.inr o)

theorem follow_corr (hw : NoLabels w) (hw' : NoLabels w') {k k' : Code}
    (hk : Pos pre w w' post k k') (r : R M) :
    Corr pre w w' post (follow (pre ++ (w ++ post)) k r) (follow (pre ++ (w' ++ post)) k' r) := by
  match r with
  | .next s => exact .cfg hk
  | .out o => exact .out o
  | .goto l s =>
    rcases pos_find (pre := pre) (post := post) hw hw' l with ⟨h1, h2⟩ | ⟨k1, k2, h1, h2, h⟩
    · simp only [follow, h1, h2]; exact .out _
    · simp only [follow, h1, h2]; exact .cfg h

/-- A place is in the common part, where both codes do the same next, or at the window. -/
theorem Pos.cases' {k k' : Code} (h : Pos pre w w' post k k') :
    (k = [] ∧ k' = []) ∨
    (∃ i m m', k = i :: m ∧ k' = i :: m' ∧ Pos pre w w' post m m') ∨
    (k = w ++ post ∧ k' = w' ++ post) := by
  cases h with
  | before y x hx =>
    cases x with
    | nil => exact .inr (.inr ⟨rfl, rfl⟩)
    | cons i x =>
      exact .inr (.inl ⟨i, _, _, rfl, rfl, .before (y ++ [i]) x (by rw [hx]; simp)⟩)
  | after y x hx =>
    cases k with
    | nil => exact .inl ⟨rfl, rfl⟩
    | cons i x => exact .inr (.inl ⟨i, x, x, rfl, rfl, .after (y ++ [i]) x (by rw [hx]; simp)⟩)

theorem pos_post : Pos pre w w' post post post := .after [] post rfl

theorem window_forward (hw : NoLabels w) (hw' : NoLabels w') (hne : w ≠ [])
    (H : ∀ s : St M, Meet D (pre ++ (w ++ post)) post w w' s) :
    ∀ (n : Nat) (k k' : Code) (s : St M) (o : Out M), o ≠ .stuck → Pos pre w w' post k k' →
      Runs D (pre ++ (w ++ post)) n (k, s) o → Ends D (pre ++ (w' ++ post)) (k', s) o := by
  intro n
  induction n using Nat.strongRecOn with
  | ind n ih =>
    intro k k' s o ho hp hr
    rcases hp.cases' with ⟨rfl, rfl⟩ | ⟨i, m, m', rfl, rfl, hm⟩ | ⟨rfl, rfl⟩
    · -- end of the code
      cases hr with
      | stop h => cases h; exact absurd rfl ho
      | step h _ => cases h
    · -- the same instruction
      have hc := follow_corr hw hw' hm (exec D i s)
      have e1 : step D (pre ++ (w ++ post)) (i :: m, s) =
          follow (pre ++ (w ++ post)) m (exec D i s) := rfl
      have e2 : step D (pre ++ (w' ++ post)) (i :: m', s) =
          follow (pre ++ (w' ++ post)) m' (exec D i s) := rfl
      rw [← e1, ← e2] at hc
      cases hr with
      | stop h =>
        rw [h] at hc
        generalize hy : step D (pre ++ (w' ++ post)) (i :: m', s) = y at hc
        cases hc
        exact .stop hy
      | @step n cfg cfg' o h h2 =>
        rw [h] at hc
        generalize hy : step D (pre ++ (w' ++ post)) (i :: m', s) = y at hc
        cases hc with
        | cfg hq => exact .step hy (ih _ (by omega) _ _ _ _ ho hq h2)
    · -- at the window
      obtain ⟨n1, hn1, hl1⟩ := runW_leads (D := D) (c := pre ++ (w ++ post)) (post := post) w s
      obtain ⟨n2, hn2, hl2⟩ := runW_leads (D := D) (c := pre ++ (w' ++ post)) (post := post) w' s
      have hn1 := hn1 hne
      -- to go on from corresponding places
      have go : ∀ (cfg cfg' : Cfg M) (a b : Nat), 1 ≤ a →
          Leads D (pre ++ (w ++ post)) a (w ++ post, s) (.inl cfg) →
          Leads D (pre ++ (w' ++ post)) b (w' ++ post, s) (.inl cfg') →
          cfg.2 = cfg'.2 → Pos pre w w' post cfg.1 cfg'.1 →
          Ends D (pre ++ (w' ++ post)) (w' ++ post, s) o := by
        intro cfg cfg' a b ha h1 h2 hs hq
        obtain ⟨m', hm', hr'⟩ := h1.runs hr
        obtain ⟨c1, s1⟩ := cfg
        obtain ⟨c2, s2⟩ := cfg'
        cases hs
        exact h2.ends_of (ih m' (by omega) _ _ _ _ ho hq hr')
      cases H s with
      | stuck h =>
        obtain ⟨m', h⟩ := h
        exact absurd (hr.det h).2 ho
      | same h =>
        rw [h] at hl1
        have hc := follow_corr hw hw' (pos_post (pre := pre) (w := w) (w' := w') (post := post))
          (runW D w' s)
        generalize follow (pre ++ (w ++ post)) post (runW D w' s) = x1 at hl1 hc
        generalize follow (pre ++ (w' ++ post)) post (runW D w' s) = x2 at hl2 hc
        cases hc with
        | out o' =>
          have := (Ends.det ⟨n, hr⟩ hl1.ends)
          subst this
          exact hl2.ends
        | cfg hq => exact go _ _ n1 n2 hn1 hl1 hl2 rfl hq
      | goto l s1 k x a hf hg hx hl =>
        rw [hx] at hl1
        rcases pos_find (pre := pre) (post := post) hw hw' l with ⟨h1, _⟩ | ⟨k1, k2, h1, h2, hq⟩
        · rw [h1] at hf; cases hf
        · rw [h1] at hf; cases hf
          rw [hg] at hl2
          simp only [follow, h2] at hl2
          exact go _ _ (n1 + a) n2 (by omega) (hl1.trans hl) hl2 rfl hq
      | next l s1 k x a hg hpost hx hl =>
        rw [hx] at hl1
        rw [hg] at hl2
        simp only [follow] at hl2
        have h3 : Leads D (pre ++ (w' ++ post)) 1 (post, s1) (.inl (k, s1)) := by
          refine .step ?_ .refl
          rw [hpost]; rfl
        exact go _ _ (n1 + a) (n2 + 1) (by omega) (hl1.trans hl) (hl2.trans h3) rfl
          (.after [.label l] k hpost)
      | ends o' x a hg hx hl =>
        rw [hx] at hl1
        have := Ends.det ⟨n, hr⟩ (hl1.trans hl).ends
        subst this
        rw [hg] at hl2
        exact hl2.ends

theorem window_backward (hw : NoLabels w) (hw' : NoLabels w')
    (H : ∀ s : St M, Meet D (pre ++ (w ++ post)) post w w' s) :
    ∀ (n : Nat) (k k' : Code) (s : St M) (o : Out M), Pos pre w w' post k k' →
      Runs D (pre ++ (w' ++ post)) n (k', s) o →
      Ends D (pre ++ (w ++ post)) (k, s) o ∨ Ends D (pre ++ (w ++ post)) (k, s) .stuck := by
  intro n
  induction n using Nat.strongRecOn with
  | ind n ih =>
    have common : ∀ (i : Insn Nat) (m m' : Code) (s : St M) (o : Out M),
        Pos pre w w' post m m' → Runs D (pre ++ (w' ++ post)) n (i :: m', s) o →
        Ends D (pre ++ (w ++ post)) (i :: m, s) o ∨
          Ends D (pre ++ (w ++ post)) (i :: m, s) .stuck := by
      intro i m m' s o hm hr
      have hc := follow_corr hw hw' hm (exec D i s)
      have e1 : step D (pre ++ (w ++ post)) (i :: m, s) =
          follow (pre ++ (w ++ post)) m (exec D i s) := rfl
      have e2 : step D (pre ++ (w' ++ post)) (i :: m', s) =
          follow (pre ++ (w' ++ post)) m' (exec D i s) := rfl
      rw [← e1, ← e2] at hc
      cases hr with
      | stop h =>
        rw [h] at hc
        generalize hy : step D (pre ++ (w ++ post)) (i :: m, s) = y at hc
        cases hc
        exact .inl (.stop hy)
      | @step n cfg cfg' o h h2 =>
        rw [h] at hc
        generalize hy : step D (pre ++ (w ++ post)) (i :: m, s) = y at hc
        cases hc with
        | cfg hq =>
          rcases ih _ (by omega) _ _ _ _ hq h2 with h3 | h3
          · exact .inl (.step hy h3)
          · exact .inr (.step hy h3)
    have atPost : ∀ (s : St M) (o : Out M), Runs D (pre ++ (w' ++ post)) n (post, s) o →
        Ends D (pre ++ (w ++ post)) (post, s) o ∨
          Ends D (pre ++ (w ++ post)) (post, s) .stuck := by
      intro s o hr
      cases hpost : post with
      | nil => exact .inr (.stop rfl)
      | cons i m =>
        rw [hpost] at hr common
        exact common i m m s o (.after [i] m rfl) hr
    intro k k' s o hp hr
    rcases hp.cases' with ⟨rfl, rfl⟩ | ⟨i, m, m', rfl, rfl, hm⟩ | ⟨rfl, rfl⟩
    · exact .inr (.stop rfl)
    · exact common i m m' s o hm hr
    · obtain ⟨n1, _, hl1⟩ := runW_leads (D := D) (c := pre ++ (w ++ post)) (post := post) w s
      obtain ⟨n2, hn2, hl2⟩ := runW_leads (D := D) (c := pre ++ (w' ++ post)) (post := post) w' s
      have go : ∀ (cfg cfg' : Cfg M) (a b : Nat), 1 ≤ b →
          Leads D (pre ++ (w ++ post)) a (w ++ post, s) (.inl cfg) →
          Leads D (pre ++ (w' ++ post)) b (w' ++ post, s) (.inl cfg') →
          cfg.2 = cfg'.2 → Pos pre w w' post cfg.1 cfg'.1 →
          Ends D (pre ++ (w ++ post)) (w ++ post, s) o ∨
            Ends D (pre ++ (w ++ post)) (w ++ post, s) .stuck := by
        intro cfg cfg' a b hb h1 h2 hs hq
        obtain ⟨m', hm', hr'⟩ := h2.runs hr
        obtain ⟨c1, s1⟩ := cfg
        obtain ⟨c2, s2⟩ := cfg'
        cases hs
        rcases ih m' (by omega) _ _ _ _ hq hr' with h3 | h3
        · exact .inl (h1.ends_of h3)
        · exact .inr (h1.ends_of h3)
      cases H s with
      | stuck h => exact .inr h
      | same h =>
        rw [h] at hl1
        by_cases hwn : w' = []
        · -- nothing is left of the window
          subst hwn
          change Leads D (pre ++ (w ++ post)) n1 (w ++ post, s) (.inl (post, s)) at hl1
          rcases atPost s o hr with h3 | h3
          · exact .inl (hl1.ends_of h3)
          · exact .inr (hl1.ends_of h3)
        · have hn2 := hn2 hwn
          have hc := follow_corr hw hw' (pos_post (pre := pre) (w := w) (w' := w') (post := post))
            (runW D w' s)
          generalize follow (pre ++ (w ++ post)) post (runW D w' s) = x1 at hl1 hc
          generalize follow (pre ++ (w' ++ post)) post (runW D w' s) = x2 at hl2 hc
          cases hc with
          | out o' =>
            have := (Ends.det ⟨n, hr⟩ hl2.ends)
            subst this
            exact .inl hl1.ends
          | cfg hq => exact go _ _ n1 n2 hn2 hl1 hl2 rfl hq
      | goto l s1 k x a hf hg hx hl =>
        rw [hx] at hl1
        have hwn : w' ≠ [] := by
          rintro rfl
          simp [runW] at hg
        have hn2 := hn2 hwn
        rcases pos_find (pre := pre) (post := post) hw hw' l with ⟨h1, _⟩ | ⟨k1, k2, h1, h2, hq⟩
        · rw [h1] at hf; cases hf
        · rw [h1] at hf; cases hf
          rw [hg] at hl2
          simp only [follow, h2] at hl2
          exact go _ _ (n1 + a) n2 hn2 (hl1.trans hl) hl2 rfl hq
      | next l s1 k x a hg hpost hx hl =>
        rw [hx] at hl1
        rw [hg] at hl2
        simp only [follow] at hl2
        have h3 : Leads D (pre ++ (w' ++ post)) 1 (post, s1) (.inl (k, s1)) := by
          refine .step ?_ .refl
          rw [hpost]; rfl
        exact go _ _ (n1 + a) (n2 + 1) (by omega) (hl1.trans hl) (hl2.trans h3) rfl
          (.after [.label l] k hpost)
      | ends o' x a hg hx hl =>
        rw [hx] at hl1
        rw [hg] at hl2
        have := Ends.det ⟨n, hr⟩ hl2.ends
        subst this
        exact .inl (hl1.trans hl).ends

end

/-- States the machine starts code in: no error handlers yet. -/
def NoHandlers (s : St M) : Prop := ∀ l sp, Frame.handler l sp ∉ s.frames

/-- Codes `c` and `c'` behave alike: started in the same state, `c'` ends as `c` does unless
`c` runs into undefined behaviour; so `c'` also runs forever when `c` does. -/
def Alike (M : Machine) (D : Insn Nat → Bool) (c c' : Code) : Prop :=
  ∀ s : St M, NoHandlers s →
    (∀ o, o ≠ .stuck → Ends D c (c, s) o → Ends D c' (c', s) o) ∧
    (∀ o, Ends D c' (c', s) o → Ends D c (c, s) o ∨ Ends D c (c, s) .stuck)

theorem Alike.refl (c : Code) : Alike M D c c := fun _ _ => ⟨fun _ _ h => h, fun _ h => .inl h⟩

theorem Alike.trans {c1 c2 c3 : Code} (h : Alike M D c1 c2) (h' : Alike M D c2 c3) :
    Alike M D c1 c3 := by
  intro s hs
  obtain ⟨f1, b1⟩ := h s hs
  obtain ⟨f2, b2⟩ := h' s hs
  refine ⟨fun o ho he => f2 o ho (f1 o ho he), fun o he => ?_⟩
  rcases b2 o he with h3 | h3
  · exact b1 o h3
  · rcases b1 _ h3 with h4 | h4 <;> exact .inr h4

theorem window_alike {pre w w' post : Code} (hw : NoLabels w) (hw' : NoLabels w') (hne : w ≠ [])
    (H : ∀ s : St M, Meet D (pre ++ (w ++ post)) post w w' s) :
    Alike M D (pre ++ (w ++ post)) (pre ++ (w' ++ post)) := by
  intro s _
  refine ⟨fun o ho => ?_, fun o => ?_⟩
  · rintro ⟨n, hr⟩
    exact window_forward hw hw' hne H n _ _ s o ho (.before [] pre rfl) hr
  · rintro ⟨n, hr⟩
    exact window_backward hw hw' H n _ _ s o (.before [] pre rfl) hr

end Rep.Peep
