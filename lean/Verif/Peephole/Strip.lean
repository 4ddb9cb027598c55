import Verif.Peephole.Window

/-
Deleting a label, after renaming the jumps to it.
-/

namespace Rep.Peep

variable {M : Machine} {D : Insn Nat → Bool}

/-- Change what a jump carries. -/
def Insn.map {α β : Type} (f : α → β) : Insn α → Insn β
  | .label l => .label l
  | .push c => .push c
  | .dup => .dup
  | .pop => .pop
  | .ref k x => .ref k x
  | .set k x => .set k x
  | .bind => .bind
  | .initBind => .initBind
  | .unbind => .unbind
  | .unbindall => .unbindall
  | .ret => .ret
  | .jump j a => .jump j (f a)
  | .handler a => .handler (f a)
  | .un o => .un o
  | .bin o => .bin o
  | .eff n => .eff n

/-- Where an instruction may jump to. -/
def Insn.target {α : Type} : Insn α → Option α
  | .jump _ a => some a
  | .handler a => some a
  | _ => none

def Frame.ren (ρ : Nat → Nat) : Frame → Frame
  | .binds l s => .binds l s
  | .handler l sp => .handler (ρ l) sp

def St.ren (ρ : Nat → Nat) (s : St M) : St M := { s with frames := s.frames.map (Frame.ren ρ) }

def R.ren (ρ : Nat → Nat) : R M → R M
  | .next s => .next (s.ren ρ)
  | .goto l s => .goto (ρ l) (s.ren ρ)
  | .out o => .out o

theorem unwindAll_ren (ρ : Nat → Nat) : ∀ (fs : List Frame) (w : M.W),
    unwindAll w (fs.map (Frame.ren ρ)) = unwindAll w fs := by
  intro fs
  induction fs with
  | nil => intro w; rfl
  | cons f fs ih => intro w; cases f <;> exact ih _

theorem throwTo_ren (ρ : Nat → Nat) (e : M.V) (stack : List M.V) : ∀ (fs : List Frame) (w : M.W),
    throwTo e stack w (fs.map (Frame.ren ρ)) = (throwTo e stack w fs).ren ρ := by
  intro fs
  induction fs with
  | nil => intro w; rfl
  | cons f fs ih =>
    intro w
    cases f with
    | binds l s => exact ih _
    | handler l sp =>
      simp only [List.map_cons, Frame.ren, throwTo]
      by_cases h : sp ≤ stack.length
      · rw [if_pos h, if_pos h]; rfl
      · rw [if_neg h, if_neg h]; rfl

theorem throw_ren (ρ : Nat → Nat) (s : St M) (e : M.V) : (s.ren ρ).throw e = (s.throw e).ren ρ :=
  throwTo_ren ρ e s.stack s.frames s.w

theorem finish_ren (ρ : Nat → Nat) (d : Bool) (s : St M) (rest : List M.V) (r : Except M.V M.V) :
    finish d (s.ren ρ) rest r = (finish d s rest r).ren ρ := by
  cases r with
  | ok v => rfl
  | error e => cases d with
    | true => rfl
    | false => exact throw_ren ρ { s with stack := e :: rest } e

theorem finishRef_ren (ρ : Nat → Nat) (d : Bool) (s : St M) (r : RefRes M.V) :
    finishRef d (s.ren ρ) r = (finishRef d s r).ren ρ := by
  cases r with
  | ok v => rfl
  | ub => rfl
  | raise e => cases d with
    | true => rfl
    | false => exact throw_ren ρ s e

theorem actFrames_ren (ρ : Nat → Nat) (act : FAct) (fs : List Frame) :
    actFrames act (fs.map (Frame.ren ρ)) = (actFrames act fs).map (·.map (Frame.ren ρ)) := by
  cases act with
  | none => rfl
  | lexFrame => rfl
  | spec =>
    cases fs with
    | nil => rfl
    | cons f fs => cases f <;> rfl

theorem finishEff_ren (ρ : Nat → Nat) (s : St M) (r : EffRes M.V M.W) :
    finishEff (s.ren ρ) r = (finishEff s r).ren ρ := by
  cases r with
  | ub => rfl
  | raise e w st => exact throw_ren ρ ⟨st, s.frames, w⟩ e
  | ok w st act =>
    have e : (s.ren ρ).frames = s.frames.map (Frame.ren ρ) := rfl
    simp only [finishEff]
    rw [e, actFrames_ren]
    cases actFrames act s.frames <;> rfl

theorem execJump_ren (ρ : Nat → Nat) (j : JK) (l : Nat) (s : St M) :
    execJump j (ρ l) (s.ren ρ) = (execJump j l s).ren ρ := by
  have es : (s.ren ρ).stack = s.stack := rfl
  cases j <;> simp only [execJump] <;> try rfl
  all_goals
    rw [es]
    cases hst : s.stack with
    | nil => rfl
    | cons v st =>
      simp only []
      by_cases hn : M.isNil v = true
      · simp only [hn, if_true]; first | rfl | (simp [R.ren, St.ren]; done)
      · rw [Bool.not_eq_true] at hn
        simp only [hn]
        first
        | rfl
        | exact throw_ren ρ { s with stack := st } v

theorem exec_ren (ρ : Nat → Nat) (i : Insn Nat) (s : St M) :
    exec D (i.map ρ) (s.ren ρ) = (exec D i s).ren ρ := by
  have es : (s.ren ρ).stack = s.stack := rfl
  have ew : (s.ren ρ).w = s.w := rfl
  have ef : (s.ren ρ).frames = s.frames.map (Frame.ren ρ) := rfl
  cases i with
  | label l => rfl
  | push c => rfl
  | dup => simp only [Insn.map, exec]; rw [es]; cases s.stack <;> rfl
  | pop => simp only [Insn.map, exec]; rw [es]; cases s.stack <;> rfl
  | ref k x => exact finishRef_ren ρ _ s _
  | set k x =>
    simp only [Insn.map, exec]; rw [es, ew]
    cases s.stack with
    | nil => rfl
    | cons v st => simp only []; cases M.set k s.w x v <;> rfl
  | bind =>
    simp only [Insn.map, exec]; rw [es, ew, ef]
    cases s.stack with
    | nil => rfl
    | cons v st =>
      cases hf : s.frames with
      | nil => rfl
      | cons f fs => cases f <;> rfl
  | initBind =>
    simp only [Insn.map, exec]; rw [ef]
    cases hf : s.frames with
    | nil => rfl
    | cons f fs =>
      simp only [List.map_cons, R.ren, St.ren, Frame.ren]
  | unbind =>
    simp only [Insn.map, exec]; rw [ef, ew]
    cases hf : s.frames with
    | nil => rfl
    | cons f fs => cases f <;> rfl
  | unbindall =>
    simp only [Insn.map, exec]; rw [ef, ew, ← List.map_reverse]
    cases hf : s.frames.reverse with
    | nil => rfl
    | cons f fs =>
      simp only [List.map_cons]
      rw [← List.map_reverse, unwindAll_ren]
      rfl
  | ret =>
    simp only [Insn.map, exec]; rw [es, ew, ef, unwindAll_ren]
    cases s.stack <;> rfl
  | jump j l => exact execJump_ren ρ j l s
  | handler l => rfl
  | un o =>
    simp only [Insn.map, exec]; rw [es, ew]
    cases s.stack with
    | nil => rfl
    | cons v st => exact finish_ren ρ _ s st _
  | bin o =>
    simp only [Insn.map, exec]; rw [es, ew]
    cases s.stack with
    | nil => rfl
    | cons v st =>
      cases st with
      | nil => rfl
      | cons u st => exact finish_ren ρ _ s st _
  | eff n => exact finishEff_ren ρ s _

/-- Labels of handlers satisfy `G`. -/
def FramesG (G : Nat → Prop) (fs : List Frame) : Prop := ∀ l sp, Frame.handler l sp ∈ fs → G l

def RG (G : Nat → Prop) : R M → Prop
  | .next s => FramesG G s.frames
  | .goto l s => G l ∧ FramesG G s.frames
  | .out _ => True

theorem FramesG.tail {G : Nat → Prop} {f : Frame} {fs : List Frame} (h : FramesG G (f :: fs)) :
    FramesG G fs := fun l sp hm => h l sp (List.mem_cons_of_mem _ hm)

theorem throwTo_G {G : Nat → Prop} (e : M.V) (stack : List M.V) : ∀ (fs : List Frame) (w : M.W),
    FramesG G fs → RG G (throwTo e stack w fs) := by
  intro fs
  induction fs with
  | nil => intro w _; trivial
  | cons f fs ih =>
    intro w h
    cases f with
    | binds l s => exact ih _ h.tail
    | handler l sp =>
      simp only [throwTo]
      by_cases hc : sp ≤ stack.length
      · rw [if_pos hc]; exact ⟨h l sp List.mem_cons_self, h.tail⟩
      · rw [if_neg hc]; trivial

theorem execJump_G {G : Nat → Prop} (j : JK) (l : Nat) (s : St M) (hl : G l)
    (hs : FramesG G s.frames) : RG G (execJump j l s) := by
  cases j <;> simp only [execJump]
  case jmp => exact ⟨hl, hs⟩
  all_goals
    cases hst : s.stack with
    | nil => trivial
    | cons v st =>
      simp only []
      by_cases hn : M.isNil v = true
      · simp only [hn, if_true]; first | exact ⟨hl, hs⟩ | exact hs
      · rw [Bool.not_eq_true] at hn
        simp only [hn]
        first
        | exact ⟨hl, hs⟩
        | exact hs
        | exact throwTo_G v st s.frames s.w hs

theorem finish_G {G : Nat → Prop} (d : Bool) (s : St M) (rest : List M.V) (r : Except M.V M.V)
    (hs : FramesG G s.frames) : RG G (finish d s rest r) := by
  cases r with
  | ok v => exact hs
  | error e => cases d with
    | true => trivial
    | false => exact throwTo_G e _ _ _ hs

theorem exec_G {G : Nat → Prop} (i : Insn Nat) (s : St M) (hi : ∀ l, i.target = some l → G l)
    (hs : FramesG G s.frames) : RG G (exec D i s) := by
  cases i with
  | label l => exact hs
  | push c => exact hs
  | dup => simp only [exec]; cases s.stack <;> first | trivial | exact hs
  | pop => simp only [exec]; cases s.stack <;> first | trivial | exact hs
  | ref k x =>
    simp only [exec]
    cases M.ref k s.w x with
    | ok v => exact hs
    | ub => trivial
    | raise e => simp only [finishRef]; cases D (.ref k x) with
      | true => trivial
      | false => exact throwTo_G e _ _ _ hs
  | set k x =>
    simp only [exec]
    cases s.stack with
    | nil => trivial
    | cons v st => simp only []; cases M.set k s.w x v <;> first | trivial | exact hs
  | bind =>
    simp only [exec]
    cases s.stack with
    | nil => trivial
    | cons v st =>
      cases hf : s.frames with
      | nil => trivial
      | cons f fs =>
        cases f with
        | handler _ _ => trivial
        | binds a b =>
          rw [hf] at hs
          intro l sp hm
          rcases List.mem_cons.mp hm with h | h
          · cases h
          · exact hs.tail l sp h
  | initBind =>
    simp only [exec]
    cases hf : s.frames with
    | nil => trivial
    | cons f fs =>
    simp only []
    rw [← hf]
    intro l sp hm
    rcases List.mem_cons.mp hm with h | h
    · cases h
    · exact hs l sp h
  | unbind =>
    simp only [exec]
    cases hf : s.frames with
    | nil => trivial
    | cons f fs => rw [hf] at hs; cases f <;> exact hs.tail
  | unbindall =>
    simp only [exec]
    cases hf : s.frames.reverse with
    | nil => trivial
    | cons f fs =>
      intro l sp hm
      have : f ∈ s.frames := by
        rw [← List.mem_reverse, hf]; exact List.mem_cons_self
      simp only [List.mem_singleton] at hm
      exact hs l sp (hm ▸ this)
  | ret => simp only [exec]; cases s.stack <;> trivial
  | jump j l => exact execJump_G j l s (hi l rfl) hs
  | handler l =>
    intro m sp hm
    rcases List.mem_cons.mp hm with h | h
    · cases h; exact hi _ rfl
    · exact hs m sp h
  | un o =>
    simp only [exec]
    cases s.stack with
    | nil => trivial
    | cons v st => exact finish_G _ _ _ _ hs
  | bin o =>
    simp only [exec]
    cases s.stack with
    | nil => trivial
    | cons v st =>
      cases st with
      | nil => trivial
      | cons u st => exact finish_G _ _ _ _ hs
  | eff n =>
    simp only [exec]
    cases M.eff n s.w s.stack with
    | ub => trivial
    | raise e w st => exact throwTo_G e _ _ _ hs
    | ok w st act =>
      simp only [finishEff]
      cases act with
      | none => exact hs
      | lexFrame =>
        intro l sp hm
        rcases List.mem_cons.mp hm with h | h
        · cases h
        · exact hs l sp h
      | spec =>
        cases hf : s.frames with
        | nil => trivial
        | cons f fs =>
          rw [hf] at hs
          cases f with
          | handler _ _ => trivial
          | binds a b =>
            intro l sp hm
            rcases List.mem_cons.mp hm with h | h
            · cases h
            · exact hs.tail l sp h

/-- Rename jumps by `ρ` and delete label `y`. -/
def strip (ρ : Nat → Nat) (y : Nat) : Code → Code
  | [] => []
  | .label m :: k => if m = y then strip ρ y k else .label m :: strip ρ y k
  | i :: k => i.map ρ :: strip ρ y k

/-- One element of the code, deleted or not. -/
theorem strip_cons (ρ : Nat → Nat) (y : Nat) (i : Insn Nat) (k : Code) :
    (i = .label y ∧ strip ρ y (i :: k) = strip ρ y k) ∨
    strip ρ y (i :: k) = i.map ρ :: strip ρ y k := by
  cases i with
  | label m =>
    by_cases h : m = y
    · subst h; left; simp [strip]
    · right; simp [strip, h, Insn.map]
  | _ => right; rfl

section
variable {ρ : Nat → Nat} {y : Nat} {c : Code} {G : Nat → Prop}

theorem strip_follow (hf : ∀ l, G l → findL (ρ l) (strip ρ y c) = (findL l c).map (strip ρ y))
    (k : Code) (r : R M) (hr : RG G r) :
    (∃ o, follow c k r = .inr o ∧ follow (strip ρ y c) (strip ρ y k) (r.ren ρ) = .inr o) ∨
    (∃ k' s, (k' = k ∨ ∃ l, findL l c = some k') ∧ follow c k r = .inl (k', s) ∧
      FramesG G s.frames ∧
      follow (strip ρ y c) (strip ρ y k) (r.ren ρ) = .inl (strip ρ y k', s.ren ρ)) := by
  match r, hr with
  | .next s, hr => exact .inr ⟨k, s, .inl rfl, rfl, hr, rfl⟩
  | .out o, _ => exact .inl ⟨o, rfl, rfl⟩
  | .goto l s, hr =>
    simp only [follow, R.ren]
    rw [hf l hr.1]
    cases h : findL l c with
    | none => exact .inl ⟨_, rfl, rfl⟩
    | some k' => exact .inr ⟨k', s, .inr ⟨l, h⟩, rfl, hr.2, rfl⟩

theorem strip_ends (hc : ∀ i ∈ c, ∀ l, i.target = some l → G l)
    (hf : ∀ l, G l → findL (ρ l) (strip ρ y c) = (findL l c).map (strip ρ y))
    (k : Code) (hk : ∀ i ∈ k, i ∈ c) (s : St M) (hs : FramesG G s.frames) (o : Out M) :
    Ends D c (k, s) o ↔ Ends D (strip ρ y c) (strip ρ y k, s.ren ρ) o := by
  have sub : ∀ k', (k' = k ∨ ∃ l, findL l c = some k') → ∀ i ∈ k', i ∈ c := by
    rintro k' (rfl | ⟨l, h⟩) i hi
    · exact hk i hi
    · obtain ⟨z, rfl⟩ := findL_suffix l c k' h
      exact List.mem_append_right _ hi
  constructor
  · rintro ⟨n, h⟩
    induction n generalizing k s with
    | zero =>
      cases h with
      | stop h =>
        cases k with
        | nil => cases h; exact .stop rfl
        | cons i m =>
          rcases strip_follow hf m (exec D i s)
            (exec_G i s (hc i (hk i List.mem_cons_self)) hs) with
            ⟨o', h1, h2⟩ | ⟨k', s', _, h1, _, _⟩
          · change follow c m (exec D i s) = .inr o at h
            rw [h] at h1; cases h1
            rcases strip_cons ρ y i m with ⟨rfl, _⟩ | e
            · cases h
            · rw [e]
              refine .stop ?_
              change follow _ _ (exec D (i.map ρ) (s.ren ρ)) = _
              rw [exec_ren]; exact h2
          · change follow c m (exec D i s) = .inr o at h
            rw [h] at h1; cases h1
    | succ n ih =>
      cases h with
      | step h h2 =>
        cases k with
        | nil => cases h
        | cons i m =>
          have hm : ∀ j ∈ m, j ∈ c := fun j hj => hk j (List.mem_cons_of_mem _ hj)
          rcases strip_follow hf m (exec D i s)
            (exec_G i s (hc i (hk i List.mem_cons_self)) hs) with
            ⟨o', h1, _⟩ | ⟨k', s', hk', h1, hs', h3⟩
          · change follow c m (exec D i s) = .inl _ at h
            rw [h] at h1; cases h1
          · change follow c m (exec D i s) = .inl _ at h
            rw [h] at h1; cases h1
            have hk'' : ∀ j ∈ k', j ∈ c := by
              rcases hk' with rfl | ⟨l, hl⟩
              · exact hm
              · exact sub k' (.inr ⟨l, hl⟩)
            have := ih k' hk'' s' hs' (by
              rintro k2 (rfl | hl) j hj
              · exact hk'' j hj
              · obtain ⟨l, hl⟩ := hl
                exact sub k2 (.inr ⟨l, hl⟩) j hj) h2
            rcases strip_cons ρ y i m with ⟨rfl, e⟩ | e
            · rw [e]
              cases h
              exact this
            · rw [e]
              refine .step ?_ this
              change follow _ _ (exec D (i.map ρ) (s.ren ρ)) = _
              rw [exec_ren]; exact h3
  · rintro ⟨n, h⟩
    induction n using Nat.strongRecOn generalizing k s with
    | ind n ih =>
      induction k with
      | nil =>
        cases h with
        | stop h => cases h; exact .stop rfl
        | step h _ => cases h
      | cons i m ihk =>
        have hm : ∀ j ∈ m, j ∈ c := fun j hj => hk j (List.mem_cons_of_mem _ hj)
        have subm : ∀ k', (k' = m ∨ ∃ l, findL l c = some k') → ∀ i ∈ k', i ∈ c := by
          rintro k' (rfl | hl) j hj
          · exact hm j hj
          · exact sub k' (.inr hl) j hj
        rcases strip_cons ρ y i m with ⟨rfl, e⟩ | e
        · rw [e] at h
          exact .step (cfg' := (m, s)) rfl (ihk hm subm h)
        · rw [e] at h
          rcases strip_follow hf m (exec D i s)
            (exec_G i s (hc i (hk i List.mem_cons_self)) hs) with
            ⟨o', h1, h2⟩ | ⟨k', s', hk', h1, hs', h3⟩
          · have e2 : step D (strip ρ y c) (i.map ρ :: strip ρ y m, s.ren ρ) = .inr o' := by
              change follow _ _ (exec D (i.map ρ) (s.ren ρ)) = _
              rw [exec_ren]; exact h2
            cases h with
            | stop h => rw [h] at e2; cases e2; exact .stop h1
            | step h _ => rw [h] at e2; cases e2
          · have e2 : step D (strip ρ y c) (i.map ρ :: strip ρ y m, s.ren ρ) =
                .inl (strip ρ y k', s'.ren ρ) := by
              change follow _ _ (exec D (i.map ρ) (s.ren ρ)) = _
              rw [exec_ren]; exact h3
            cases h with
            | stop h => rw [h] at e2; cases e2
            | step h h4 =>
              rw [h] at e2; cases e2
              have hk'' := subm k' hk'
              refine .step (cfg' := (k', s')) h1 (ih _ (by omega) k' hk'' s' hs' (by
                rintro k2 (rfl | hl) j hj
                · exact hk'' j hj
                · exact sub k2 (.inr hl) j hj) h4)

end

theorem ren_noHandlers (ρ : Nat → Nat) (s : St M) (hs : NoHandlers s) : s.ren ρ = s := by
  have : s.frames.map (Frame.ren ρ) = s.frames := by
    conv => rhs; rw [← List.map_id s.frames]
    apply List.map_congr_left
    intro f hf
    cases f with
    | binds _ _ => rfl
    | handler l sp => exact absurd hf (hs l sp)
  unfold St.ren
  rw [this]

theorem strip_alike {ρ : Nat → Nat} {y : Nat} {c : Code} {G : Nat → Prop}
    (hc : ∀ i ∈ c, ∀ l, i.target = some l → G l)
    (hf : ∀ l, G l → findL (ρ l) (strip ρ y c) = (findL l c).map (strip ρ y)) :
    Alike M D c (strip ρ y c) ∧ Alike M D (strip ρ y c) c := by
  have key : ∀ s : St M, NoHandlers s → ∀ o, Ends D c (c, s) o ↔
      Ends D (strip ρ y c) (strip ρ y c, s) o := by
    intro s hs o
    have := strip_ends (D := D) hc hf c (fun _ h => h) s (fun l sp h => absurd h (hs l sp)) o
    rwa [ren_noHandlers ρ s hs] at this
  constructor
  · intro s hs
    exact ⟨fun o _ h => (key s hs o).1 h, fun o h => .inl ((key s hs o).2 h)⟩
  · intro s hs
    exact ⟨fun o _ h => (key s hs o).2 h, fun o h => .inl ((key s hs o).1 h)⟩

/-! ### Labels -/

/-- The labels in the code. -/
def labels {α : Type} : List (Insn α) → List Nat
  | [] => []
  | .label l :: k => l :: labels k
  | _ :: k => labels k

theorem labels_append {α : Type} : ∀ a b : List (Insn α), labels (a ++ b) = labels a ++ labels b := by
  intro a b
  induction a with
  | nil => rfl
  | cons i is ih => cases i <;> simp [labels, ih]

theorem findL_none {l : Nat} : ∀ {c : Code}, l ∉ labels c → findL l c = none := by
  intro c
  induction c with
  | nil => intro _; rfl
  | cons i is ih =>
    intro h
    cases i with
    | label m =>
      simp only [labels, List.mem_cons, not_or] at h
      rw [findL, if_neg (fun e => h.1 e.symm)]
      exact ih h.2
    | _ => exact ih h

theorem findL_append {l : Nat} : ∀ {a b : Code}, l ∉ labels a → findL l (a ++ b) = findL l b := by
  intro a b
  induction a with
  | nil => intro _; rfl
  | cons i is ih =>
    intro h
    cases i with
    | label m =>
      simp only [labels, List.mem_cons, not_or] at h
      rw [List.cons_append, findL, if_neg (fun e => h.1 e.symm)]
      exact ih h.2
    | _ => exact ih h

/-- Deleting an unused label. -/
theorem strip_id_find (y : Nat) : ∀ (c : Code) (l : Nat), l ≠ y →
    findL l (strip id y c) = (findL l c).map (strip id y) := by
  intro c
  induction c with
  | nil => intro l _; rfl
  | cons i k ih =>
    intro l hl
    cases i with
    | label m =>
      simp only [strip]
      by_cases hm : m = y
      · subst hm
        rw [if_pos rfl, findL, if_neg (fun e => hl e.symm)]
        exact ih l hl
      · rw [if_neg hm, findL, findL]
        by_cases h : m = l
        · rw [if_pos h, if_pos h]; rfl
        · rw [if_neg h, if_neg h]; exact ih l hl
    | _ => exact ih l hl

/-- Merging `X: Y:`. -/
def merge (x y : Nat) : Nat → Nat := fun l => if l = y then x else l

theorem strip_merge_find (x y : Nat) (hxy : x ≠ y) : ∀ (pre post : Code),
    x ∉ labels pre → y ∉ labels pre → y ∉ labels post → x ∉ labels post → ∀ l,
    findL (merge x y l) (strip (merge x y) y (pre ++ .label x :: .label y :: post)) =
      (findL l (pre ++ .label x :: .label y :: post)).map (strip (merge x y) y) := by
  intro pre post
  induction pre with
  | nil =>
    intro _ _ hy hx l
    simp only [List.nil_append, strip, if_neg hxy, if_true]
    have clean : ∀ (k : Code), y ∉ labels k → ∀ l, l ≠ y →
        findL l (strip (merge x y) y k) = (findL l k).map (strip (merge x y) y) := by
      intro k
      induction k with
      | nil => intro _ l _; rfl
      | cons i k ih =>
        intro h l hl
        cases i with
        | label m =>
          simp only [labels, List.mem_cons, not_or] at h
          simp only [strip, if_neg (fun e => h.1 (Eq.symm e) : ¬ m = y)]
          rw [findL, findL]
          by_cases hml : m = l
          · rw [if_pos hml, if_pos hml]; rfl
          · rw [if_neg hml, if_neg hml]; exact ih h.2 l hl
        | _ => exact ih h l hl
    by_cases hl : l = y
    · subst hl
      simp only [merge, if_true, findL, if_neg hxy]
      rfl
    · simp only [merge, if_neg hl]
      rw [findL, findL]
      by_cases hlx : x = l
      · subst hlx
        simp [strip]
      · rw [if_neg hlx, if_neg hlx, findL, if_neg (fun e => hl e.symm)]
        exact clean post hy l hl
  | cons i pre ih =>
    intro h1 h2 h3 h4 l
    cases i with
    | label m =>
      simp only [labels, List.mem_cons, not_or] at h1 h2
      have hmy : ¬ m = y := fun e => h2.1 e.symm
      have hmx : ¬ m = x := fun e => h1.1 e.symm
      simp only [List.cons_append, strip, if_neg hmy]
      rw [findL, findL]
      by_cases hml : m = l
      · subst hml
        simp only [merge, if_neg hmy, if_true]
        rfl
      · have : ¬ m = merge x y l := by
          unfold merge
          by_cases hly : l = y
          · rw [if_pos hly]; exact hmx
          · rw [if_neg hly]; exact hml
        rw [if_neg this, if_neg hml]
        exact ih h1.2 h2.2 h3 h4 l
    | _ => exact ih h1 h2 h3 h4 l

end Rep.Peep
