import Verif.Peephole.Rules

/-
More window rules, and the rules that look at labels.
-/

namespace Rep.Peep

variable {M : Machine} {D : Insn Nat → Bool}

/-- `jt X; (push ())` → `jpt X` -/
theorem loc_jt_nil (l : Nat) : Loc M D [.jump .jt l, .push .nil] [.jump .jpt l] := by
  intro s
  cases hs : s.stack with
  | nil => left; simp [runW, exec, execJump, hs]
  | cons v st =>
    right
    simp only [runW, exec, execJump, hs]
    cases hn : M.isNil v with
    | false => rfl
    | true =>
      simp only [if_true]
      rw [← M.nil_unique v hn, ← hs]

/-- What becomes of `(push X); <cond. jump> L`, peephole.jl:289-326: the instructions that
replace the two. -/
def pushJump {α : Type} (c : Const) (j : JK) (a : α) : List (Insn α) :=
  match j, decide (c = .nil) with
  | .jn, true | .jt, false | .jpn, true | .jpt, false => [.jump .jmp a]
  | .jt, true | .jn, false | .jnp, false | .jtp, true => []
  | .jnp, true | .jtp, false => [.push c, .jump .jmp a]
  | _, _ => [.push c]

/-- `byte-conditional-jmp-insns`, bytecodes.jl:78. -/
def JK.cond : JK → Bool
  | .jmp | .ejmp => false
  | _ => true

theorem loc_push_jump (c : Const) {j : JK} (hj : j.cond = true) (l : Nat) :
    Loc M D [.push c, .jump j l] (pushJump c j l) := by
  intro s
  right
  by_cases hc : c = .nil
  · subst hc
    cases j <;> first
      | exact absurd hj (by decide)
      | simp [runW, exec, execJump, pushJump, M.nil_const]
  · have := M.const_nonnil c hc
    cases j <;> first
      | exact absurd hj (by decide)
      | simp [runW, exec, execJump, pushJump, this, hc]

/-- `<varref-and-error-free-op>; unbind` → `unbind; op` -/
theorem loc_push_unbind (c : Const) : Loc M D [.push c, .unbind] [.unbind, .push c] := by
  intro s
  right
  simp only [runW, exec]
  cases hf : s.frames with
  | nil => rfl
  | cons f fs => cases f <;> rfl

theorem loc_dup_unbind : Loc M D [.dup, .unbind] [.unbind, .dup] := by
  intro s
  cases hs : s.stack with
  | nil => left; simp [runW, exec, hs]
  | cons v st =>
    right
    simp only [runW, exec, hs]
    cases hf : s.frames with
    | nil => rfl
    | cons f fs => cases f <;> simp [hs]

theorem loc_un_unbind {o : Un} (ho : o.vf = true) :
    Loc M D [.un o, .unbind] [.unbind, .un o] := by
  intro s
  cases hs : s.stack with
  | nil => left; simp [runW, exec, hs]
  | cons v st =>
    right
    obtain ⟨r, hr, hr'⟩ := M.un_vf o s.w v ho
    simp only [runW, exec, hs, hr, finish]
    cases hf : s.frames with
    | nil => rfl
    | cons f fs => cases f <;> simp [hs, hr, hr', finish]

theorem loc_bin_unbind {o : Bin} (ho : o.vf = true) :
    Loc M D [.bin o, .unbind] [.unbind, .bin o] := by
  intro s
  cases hs : s.stack with
  | nil => left; simp [runW, exec, hs]
  | cons u st =>
    cases st with
    | nil => left; simp [runW, exec, hs]
    | cons v st =>
      right
      obtain ⟨r, hr, hr'⟩ := M.bin_vf o s.w v u ho
      simp only [runW, exec, hs, hr, finish]
      cases hf : s.frames with
      | nil => rfl
      | cons f fs => cases f <;> simp [hs, hr, hr', finish]

/-- `<varbind> X; unbind` → `pop; unbind` -/
theorem loc_bind_unbind : Loc M D [.bind, .unbind] [.pop, .unbind] := by
  intro s
  cases hs : s.stack with
  | nil => left; simp [runW, exec, hs]
  | cons v st =>
    simp only [runW, exec, hs]
    cases hf : s.frames with
    | nil => left; rfl
    | cons f fs =>
      cases f with
      | handler _ _ => left; rfl
      | binds l n => right; simp only [M.unbind_bind]

/-- `init-bind; unbind` → deleted -/
theorem loc_init_unbind : Loc M D [.initBind, .unbind] [] := by
  intro s
  simp only [runW, exec]
  cases hf : s.frames with
  | nil => left; rfl
  | cons f fs => right; simp only [M.unbind_zero]; rw [← hf]

/-- `init-bind; return` → `return` -/
theorem loc_init_ret : Loc M D [.initBind, .ret] [.ret] := by
  intro s
  simp only [runW, exec]
  cases hf : s.frames with
  | nil => left; rfl
  | cons f fs => right; simp only [unwindAll, M.unbind_zero]

theorem unwindAll_append (w : M.W) (a b : List Frame) :
    unwindAll w (a ++ b) = unwindAll (unwindAll w a) b := by
  induction a generalizing w with
  | nil => rfl
  | cons f fs ih => cases f <;> exact ih _

/-- `init-bind; unbindall` → `unbindall` -/
theorem loc_init_unbindall : Loc M D [.initBind, .unbindall] [.unbindall] := by
  intro s
  simp only [runW, exec]
  cases hf : s.frames with
  | nil => left; rfl
  | cons f fs =>
    right
    simp only [List.reverse_cons]
    cases hr : fs.reverse ++ [f] with
    | nil => simp at hr
    | cons g gs =>
      simp only [List.cons_append, List.reverse_append, List.reverse_cons, List.reverse_nil,
        List.nil_append, unwindAll, M.unbind_zero]

/-- `unbind; return` → `return` -/
theorem loc_unbind_ret : Loc M D [.unbind, .ret] [.ret] := by
  intro s
  simp only [runW, exec]
  cases hf : s.frames with
  | nil => left; rfl
  | cons f fs => right; cases f <;> (simp only []; cases s.stack <;> rfl)

/-- `push X; {<varset>,<varbind>} Y; push X` → `push X; dup; {<varset>,<varbind>} Y` -/
theorem loc_push_set_push (c : Const) (k : RK) (x : Nat) :
    Loc M D [.push c, .set k x, .push c] [.push c, .dup, .set k x] := by
  intro s
  right
  simp only [runW, exec]
  cases M.set k s.w x (M.const c) <;> rfl

theorem loc_push_bind_push (c : Const) :
    Loc M D [.push c, .bind, .push c] [.push c, .dup, .bind] := by
  intro s
  right
  simp only [runW, exec]
  cases s.frames with
  | nil => rfl
  | cons f fs => cases f <;> rfl

/-- `push X; dup…; push X` → `push X; dup…; dup` -/
theorem runW_dup_run (m : Nat) : ∀ (t : St M) (k : Code) (u : M.V) (ust : List M.V),
    t.stack = u :: ust →
    runW D (List.replicate m .dup ++ k) t =
      runW D k { t with stack := List.replicate m u ++ t.stack } := by
  induction m with
  | zero => intro t k u ust _; rfl
  | succ m ih =>
    intro t k u ust ht
    rw [List.replicate_succ, List.cons_append, runW]
    simp only [exec, ht]
    rw [ih { t with stack := u :: u :: ust } k u (u :: ust) rfl]
    congr 2
    show List.replicate m u ++ u :: u :: ust = List.replicate (m + 1) u ++ u :: ust
    rw [List.replicate_succ', List.append_assoc]; rfl

theorem replicate_top (m : Nat) (u : M.V) (st : List M.V) :
    ∃ r, List.replicate m u ++ u :: st = u :: r := by
  cases m with
  | zero => exact ⟨st, rfl⟩
  | succ m => exact ⟨_, rfl⟩

theorem loc_push_dups_push (c : Const) (n : Nat) :
    Loc M D (.push c :: (List.replicate n .dup ++ [.push c]))
      (.push c :: (List.replicate n .dup ++ [.dup])) := by
  intro s
  right
  rw [runW, runW]
  simp only [exec]
  rw [runW_dup_run n _ _ (M.const c) s.stack rfl, runW_dup_run n _ _ (M.const c) s.stack rfl]
  obtain ⟨r, hr⟩ := replicate_top n (M.const c) s.stack
  simp only [runW, exec, hr]

/-! ### From windows to codes -/

theorem Loc.meet {w w' : Code} (h : Loc M D w w') (c post : Code) (s : St M) :
    Meet D c post w w' s := by
  rcases h s with h | h
  · obtain ⟨n, _, hl⟩ := runW_leads (D := D) (c := c) (post := post) w s
    rw [h] at hl
    exact .stuck hl.ends
  · exact .same h

theorem Loc.alike {w w' : Code} (h : Loc M D w w') (pre post : Code) (hw : NoLabels w)
    (hw' : NoLabels w') (hne : w ≠ []) :
    Alike M D (pre ++ (w ++ post)) (pre ++ (w' ++ post)) :=
  window_alike hw hw' hne fun s => h.meet _ post s

/-- Control does not get past `jmp`, `ejmp` and `return`: what follows up to the next label is
dead. -/
theorem loc_dead {i : Insn Nat} (hi : ∀ s s' : St M, exec D i s ≠ .next s') (dead : Code) :
    Loc M D (i :: dead) [i] := by
  intro s
  right
  rw [runW, runW]
  cases h : exec D i s with
  | next s' => exact absurd h (hi s s')
  | goto l s' => rfl
  | out o => rfl

theorem throwTo_ne_next (e : M.V) (stack : List M.V) : ∀ (fs : List Frame) (w : M.W) (s' : St M),
    throwTo e stack w fs ≠ .next s' := by
  intro fs
  induction fs with
  | nil => intro w s' h; cases h
  | cons f fs ih =>
    intro w s' h
    cases f with
    | binds l n => exact ih _ _ h
    | handler l sp =>
      simp only [throwTo] at h
      by_cases hc : sp ≤ stack.length
      · rw [if_pos hc] at h; cases h
      · rw [if_neg hc] at h; cases h

theorem dead_jmp (l : Nat) (s s' : St M) : exec D (.jump .jmp l) s ≠ .next s' := fun h => by
  simp [exec, execJump] at h

theorem dead_ret (s s' : St M) : exec D .ret s ≠ .next s' := fun h => by
  simp only [exec] at h
  cases hs : s.stack <;> rw [hs] at h <;> cases h

theorem dead_ejmp (l : Nat) (s s' : St M) : exec D (.jump .ejmp l) s ≠ .next s' := fun h => by
  simp only [exec, execJump] at h
  cases hs : s.stack with
  | nil => rw [hs] at h; cases h
  | cons v st =>
    rw [hs] at h
    simp only [] at h
    cases hn : M.isNil v with
    | true => simp only [hn, if_true] at h; cases h
    | false =>
      simp only [hn, Bool.false_eq_true, if_false] at h
      exact throwTo_ne_next _ _ _ _ _ h

/-! ### Rules that look at a label that follows -/

section
variable {pre post k : Code}

theorem leads_label (c : Code) (l : Nat) (k : Code) (s : St M) :
    Leads D c 1 (.label l :: k, s) (.inl (k, s)) := .step rfl .refl

/-- The label `l` that follows a window is the one jumps to `l` go to. -/
theorem find_here {w : Code} {l : Nat} (hw : NoLabels w) (hl : l ∉ labels pre) :
    findL l (pre ++ (w ++ .label l :: k)) = some k := by
  rw [findL_append hl, findL_append_none l w _ hw, findL, if_pos rfl]

/-- The window jumps to the label behind it or falls through to it, and so does its
replacement. -/
theorem meet_label {w w' : Code} {l : Nat} (hw : NoLabels w) (hl : l ∉ labels pre) (s : St M)
    (h : runW D w s = .out .stuck ∨ runW D w s = runW D w' s ∨
      ∃ s1, (runW D w s = .next s1 ∨ runW D w s = .goto l s1) ∧ runW D w' s = .next s1) :
    Meet D (pre ++ (w ++ .label l :: k)) (.label l :: k) w w' s := by
  rcases h with h | h | ⟨s1, h, h'⟩
  · obtain ⟨n, _, hl⟩ := runW_leads (D := D) (c := pre ++ (w ++ .label l :: k))
      (post := .label l :: k) w s
    rw [h] at hl
    exact .stuck hl.ends
  · exact .same h
  · rcases h with h | h
    · exact .same (h.trans h'.symm)
    · refine .next l s1 k (k, s1) 0 h' rfl ?_ .refl
      rw [h]
      simp only [follow, find_here hw hl]

/-- `jmp X; X:` → `X:` -/
theorem alike_jmp_label {l : Nat} (hl : l ∉ labels pre) :
    Alike M D (pre ++ ([.jump .jmp l] ++ .label l :: k)) (pre ++ ([] ++ .label l :: k)) := by
  refine window_alike ?_ ?_ (by simp) fun s => meet_label ?_ hl s (.inr (.inr ⟨s, .inr rfl, rfl⟩))
    <;> intro m hm <;> simp at hm

/-- `{jn,jt} X; X:` → `pop; X:` -/
theorem alike_jn_label {j : JK} (hj : j = .jn ∨ j = .jt) {l : Nat} (hl : l ∉ labels pre) :
    Alike M D (pre ++ ([.jump j l] ++ .label l :: k)) (pre ++ ([.pop] ++ .label l :: k)) := by
  refine window_alike ?_ ?_ (by simp) fun s => meet_label ?_ hl s ?_
  iterate 3 (intro m hm; simp at hm)
  cases hs : s.stack with
  | nil =>
    left
    rcases hj with rfl | rfl <;> simp [runW, exec, execJump, hs]
  | cons v st =>
    right; right
    refine ⟨{ s with stack := st }, ?_, by simp [runW, exec, hs]⟩
    rcases hj with rfl | rfl <;> (simp only [runW, exec, execJump, hs]; cases M.isNil v <;> simp)

/-- What `{jn,jt,jpt,jpn,jtp,jnp} X; jmp Y; X:` becomes, peephole.jl:280-287, 497-507. -/
def JK.flip : JK → JK
  | .jn => .jt
  | .jt => .jn
  | .jpt => .jnp
  | .jpn => .jtp
  | .jtp => .jpn
  | .jnp => .jpt
  | j => j

/-- `{jn,jt,jpt,jpn,jtp,jnp} X; jmp Y; X:` → `{jt,jn,jnp,jtp,jpn,jpt} Y; X:` -/
theorem alike_flip {j : JK} (hj : j.cond = true) {l m : Nat} (hl : l ∉ labels pre) :
    Alike M D (pre ++ ([.jump j l, .jump .jmp m] ++ .label l :: k))
      (pre ++ ([.jump j.flip m] ++ .label l :: k)) := by
  refine window_alike ?_ ?_ (by simp) fun s => meet_label ?_ hl s ?_
  iterate 3 (intro m hm; simp at hm)
  cases hs : s.stack with
  | nil =>
    left
    cases j <;> first | exact absurd hj (by decide) | simp [runW, exec, execJump, hs]
  | cons v st =>
    right
    cases j <;> first
      | exact absurd hj (by decide)
      | (simp only [runW, exec, execJump, hs, JK.flip]; cases M.isNil v <;> simp)

end

/-! ### Rules that look at the destination of a jump -/

section
variable {pre post : Code}

/-- `j* X; ... X: jmp Y` → `j* Y; ... X: jmp Y` -/
theorem alike_thread {j : JK} {l m : Nat} {r : Code}
    (hf : findL l (pre ++ ([.jump j l] ++ post)) = some (.jump .jmp m :: r)) :
    Alike M D (pre ++ ([.jump j l] ++ post)) (pre ++ ([.jump j m] ++ post)) := by
  refine window_alike ?_ ?_ (by simp) fun s => ?_
  iterate 2 (intro m hm; simp at hm)
  have hj : ∀ s1 : St M, runW D [.jump j l] s = .goto l s1 →
      runW D [.jump j m] s = .goto m s1 → Meet D (pre ++ ([.jump j l] ++ post)) post
        [.jump j l] [.jump j m] s := by
    intro s1 h1 h2
    obtain ⟨n, _, hl⟩ := runW_leads (D := D) (c := pre ++ ([.jump j l] ++ post))
      (post := post) [.jump j l] s
    have e1 : follow (pre ++ ([.jump j l] ++ post)) post (runW D [.jump j l] s) =
        .inl (.jump .jmp m :: r, s1) := by
      rw [h1]; simp only [follow, hf]
    have e2 : step D (pre ++ ([.jump j l] ++ post)) (.jump .jmp m :: r, s1) =
        follow (pre ++ ([.jump j l] ++ post)) r (.goto m s1) := rfl
    cases hm : findL m (pre ++ ([.jump j l] ++ post)) with
    | none =>
      simp only [follow, hm] at e2
      rw [e1] at hl
      exact .stuck (hl.ends_of (.stop e2))
    | some km =>
      simp only [follow, hm] at e2
      exact .goto m s1 km _ 1 hm h2 e1 (.step e2 .refl)
  cases hs : s.stack with
  | nil =>
    cases j with
    | jmp => exact hj s rfl rfl
    | _ => refine .same ?_; simp [runW, exec, execJump, hs]
  | cons v st =>
    cases hn : M.isNil v with
    | true =>
      cases j <;> first
        | exact hj s rfl rfl
        | exact hj _ (by simp only [runW, exec, execJump, hs, hn]; rfl)
            (by simp only [runW, exec, execJump, hs, hn]; rfl)
        | (refine .same ?_; simp [runW, exec, execJump, hs, hn])
    | false =>
      cases j <;> first
        | exact hj s rfl rfl
        | exact hj _ (by simp only [runW, exec, execJump, hs, hn]; rfl)
            (by simp only [runW, exec, execJump, hs, hn]; rfl)
        | (refine .same ?_; simp [runW, exec, execJump, hs, hn])

/-- `jmp X; ... X: return` → `return; ... X: return` -/
theorem alike_jmp_ret {l : Nat} {r : Code}
    (hf : findL l (pre ++ ([.jump .jmp l] ++ post)) = some (.ret :: r)) :
    Alike M D (pre ++ ([.jump .jmp l] ++ post)) (pre ++ ([.ret] ++ post)) := by
  refine window_alike ?_ ?_ (by simp) fun s => ?_
  iterate 2 (intro m hm; simp at hm)
  have e1 : follow (pre ++ ([.jump .jmp l] ++ post)) post (runW D [.jump .jmp l] s) =
      .inl (.ret :: r, s) := by
    show follow _ post (.goto l s) = _
    simp only [follow, hf]
  have e2 : step D (pre ++ ([.jump .jmp l] ++ post)) (.ret :: r, s) =
      follow (pre ++ ([.jump .jmp l] ++ post)) r (exec D .ret s) := rfl
  cases hs : s.stack with
  | nil =>
    simp only [exec, hs, follow] at e2
    exact .ends .stuck _ 1 (by simp [runW, exec, hs]) e1 (.stop e2)
  | cons v st =>
    simp only [exec, hs, follow] at e2
    exact .ends _ _ 1 (by simp only [runW, exec, hs]) e1 (.stop e2)

/-- What `{jnp,jtp} X; ... X: <cond. jmp> Y` becomes, peephole.jl:446-494: the new first jump,
and whether it goes to a new label behind the second jump (otherwise it goes to `Y`). -/
def retarget (j j' : JK) : JK × Bool :=
  match decide (j = .jtp), j' with
  | true, .jpt => (.jt, false)
  | true, .jt => (.jt, false)
  | true, .jpn => (.jpt, true)
  | true, .jn => (.jt, true)
  | true, .jnp => (.jt, true)
  | true, .jtp => (.jtp, false)
  | false, .jpt => (.jnp, true)
  | false, .jpn => (.jn, false)
  | false, .jn => (.jn, false)
  | false, .jt => (.jn, true)
  | false, .jtp => (.jn, true)
  | false, .jnp => (.jnp, false)
  | _, _ => (j, false)

/-- The sound cases that go to `Y`. -/
theorem alike_retarget {j j' : JK} (hj : j = .jnp ∨ j = .jtp) (hj' : j'.cond = true)
    (hnew : (retarget j j').2 = false) {l m : Nat} {r : Code}
    (hf : findL l (pre ++ ([.jump j l] ++ post)) = some (.jump j' m :: r)) :
    Alike M D (pre ++ ([.jump j l] ++ post))
      (pre ++ ([.jump (retarget j j').1 m] ++ post)) := by
  refine window_alike ?_ ?_ (by simp) fun s => ?_
  iterate 2 (intro m hm; simp at hm)
  have go : ∀ s1 s2 : St M, runW D [.jump j l] s = .goto l s1 → exec D (.jump j' m) s1 = .goto m s2 →
      runW D [.jump (retarget j j').1 m] s = .goto m s2 →
      Meet D (pre ++ ([.jump j l] ++ post)) post
        [.jump j l] [.jump (retarget j j').1 m] s := by
    intro s1 s2 h1 h2 h3
    obtain ⟨n, _, hl⟩ := runW_leads (D := D) (c := pre ++ ([.jump j l] ++ post))
      (post := post) [.jump j l] s
    have e1 : follow (pre ++ ([.jump j l] ++ post)) post (runW D [.jump j l] s) =
        .inl (.jump j' m :: r, s1) := by
      rw [h1]; simp only [follow, hf]
    have e2 : step D (pre ++ ([.jump j l] ++ post)) (.jump j' m :: r, s1) =
        follow (pre ++ ([.jump j l] ++ post)) r (.goto m s2) := by
      rw [← h2]; rfl
    cases hm : findL m (pre ++ ([.jump j l] ++ post)) with
    | none =>
      simp only [follow, hm] at e2
      rw [e1] at hl
      exact .stuck (hl.ends_of (.stop e2))
    | some km =>
      simp only [follow, hm] at e2
      exact .goto m s2 km _ 1 hm h3 e1 (.step e2 .refl)
  cases hs : s.stack with
  | nil =>
    refine .same ?_
    rcases hj with rfl | rfl <;> cases j' <;> first
      | exact absurd hj' (by decide)
      | simp [runW, exec, execJump, hs, retarget]
  | cons v st =>
    cases hn : M.isNil v <;> rcases hj with rfl | rfl <;> cases j' <;> first
      | exact absurd hj' (by decide)
      | exact absurd hnew (by decide)
      | exact go _ _ (by simp only [runW, exec, execJump, hs, hn]; rfl)
          (by simp only [exec, execJump, hs, hn]; rfl)
          (by simp only [runW, exec, execJump, hs, hn, retarget]; rfl)
      | (refine .same ?_; simp [runW, exec, execJump, hs, hn, retarget])

/-- The sound cases that go to a new label `z` behind the second jump. -/
theorem alike_retarget_new {j j' : JK} (hj : j = .jnp ∨ j = .jtp) (hj' : j'.cond = true)
    (hnew : (retarget j j').2 = true) (hbad : ¬ (j = .jtp ∧ j' = .jpn)) {l m z : Nat} {r : Code}
    (hf : findL l (pre ++ ([.jump j l] ++ post)) = some (.jump j' m :: .label z :: r))
    (hz : findL z (pre ++ ([.jump j l] ++ post)) = some r) :
    Alike M D (pre ++ ([.jump j l] ++ post))
      (pre ++ ([.jump (retarget j j').1 z] ++ post)) := by
  refine window_alike ?_ ?_ (by simp) fun s => ?_
  iterate 2 (intro m hm; simp at hm)
  have go : ∀ s1 s2 : St M, runW D [.jump j l] s = .goto l s1 → exec D (.jump j' m) s1 = .next s2 →
      runW D [.jump (retarget j j').1 z] s = .goto z s2 →
      Meet D (pre ++ ([.jump j l] ++ post)) post
        [.jump j l] [.jump (retarget j j').1 z] s := by
    intro s1 s2 h1 h2 h3
    have e1 : follow (pre ++ ([.jump j l] ++ post)) post (runW D [.jump j l] s) =
        .inl (.jump j' m :: .label z :: r, s1) := by
      rw [h1]; simp only [follow, hf]
    have e2 : step D (pre ++ ([.jump j l] ++ post)) (.jump j' m :: .label z :: r, s1) =
        .inl (.label z :: r, s2) := by
      show follow _ _ (exec D (.jump j' m) s1) = _
      rw [h2]; rfl
    exact .goto z s2 r _ 2 hz h3 e1 (.step e2 (leads_label _ z r s2))
  cases hs : s.stack with
  | nil =>
    refine .same ?_
    rcases hj with rfl | rfl <;> cases j' <;> first
      | exact absurd hj' (by decide)
      | simp [runW, exec, execJump, hs, retarget]
  | cons v st =>
    cases hn : M.isNil v <;> rcases hj with rfl | rfl <;> cases j' <;> first
      | exact absurd hj' (by decide)
      | exact absurd hnew (by decide)
      | exact absurd ⟨rfl, rfl⟩ hbad
      | exact go _ _ (by simp only [runW, exec, execJump, hs, hn]; rfl)
          (by simp only [exec, execJump, hs, hn]; rfl)
          (by simp only [runW, exec, execJump, hs, hn, retarget]; rfl)
      | (refine .same ?_; simp [runW, exec, execJump, hs, hn, retarget])

end

end Rep.Peep
