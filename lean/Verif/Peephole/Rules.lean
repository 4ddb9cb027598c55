import Verif.Peephole.Strip

/-
The window rules of the peephole optimiser, on code whose jumps carry labels: each replaces
some instructions by others that do the same from every state.
-/

namespace Rep.Peep

variable {M : Machine} {D : Insn Nat → Bool}

/-- `w'` does what `w` does, from every state where `w` is defined. -/
def Loc (M : Machine) (D : Insn Nat → Bool) (w w' : Code) : Prop :=
  ∀ s : St M, runW D w s = .out .stuck ∨ runW D w s = runW D w' s

/-- Instructions that never raise an error. -/
def safe : Insn Nat → Bool
  | .push _ => true
  | .dup => true
  | .ref .g _ => false
  | .ref _ _ => true
  | .un o => o.vf || o == .not || o == .cddr
  | .bin o => o.vf || o == .numEq
  | _ => false

theorem un_safe {o : Un} (h : safe (.un o) = true) (w : M.W) (v : M.V) : ∃ r, M.un o w v = .ok r := by
  simp only [safe, Bool.or_eq_true, beq_iff_eq] at h
  rcases h with (h | rfl) | rfl
  · obtain ⟨r, hr, _⟩ := M.un_vf o w v h; exact ⟨r, hr⟩
  · obtain ⟨r, hr, _⟩ := M.not_eq w v; exact ⟨r, hr⟩
  · exact M.cddr_safe w v

theorem bin_safe {o : Bin} (h : safe (.bin o) = true) (w : M.W) (v u : M.V) :
    ∃ r, M.bin o w v u = .ok r := by
  simp only [safe, Bool.or_eq_true, beq_iff_eq] at h
  rcases h with h | rfl
  · obtain ⟨r, hr, _⟩ := M.bin_vf o w v u h; exact ⟨r, hr⟩
  · exact M.numEq_safe w v u

/-- Errors of `i` are outside the claim, or it has none. -/
def quiet (D : Insn Nat → Bool) (i : Insn Nat) : Bool := D i || safe i

theorem finish_quiet {i : Insn Nat} (hq : quiet D i = true) (s : St M) (rest : List M.V)
    (r : Except M.V M.V) (hr : safe i = true → ∃ v, r = .ok v) :
    finish (D i) s rest r = .out .stuck ∨
      ∃ v, r = .ok v ∧ finish (D i) s rest r = .next { s with stack := v :: rest } := by
  cases r with
  | ok v => exact .inr ⟨v, rfl, rfl⟩
  | error e =>
    simp only [quiet, Bool.or_eq_true] at hq
    rcases hq with hd | hs
    · left; simp [finish, hd]
    · obtain ⟨v, hv⟩ := hr hs; cases hv

/-- `push X; pop` → deleted, `dup; pop` → deleted -/
theorem loc_push_pop (c : Const) : Loc M D [.push c, .pop] [] := fun s => .inr rfl

theorem loc_dup_pop : Loc M D [.dup, .pop] [] := by
  intro s
  cases h : s.stack with
  | nil => left; simp [runW, exec, h]
  | cons v st =>
    right
    simp only [runW, exec, h]
    rw [← h]

theorem loc_ref_pop {k : RK} {x : Nat} (hq : quiet D (.ref k x) = true) :
    Loc M D [.ref k x, .pop] [] := by
  intro s
  simp only [runW, exec]
  cases h : M.ref k s.w x with
  | ok v => right; rfl
  | ub => left; rfl
  | raise e =>
    left
    simp only [quiet, Bool.or_eq_true] at hq
    rcases hq with hd | hs
    · simp [finishRef, hd]
    · cases k with
      | g => cases hs
      | n => exact absurd h (M.ref_safe _ _ _ _ (by decide))
      | slot => exact absurd h (M.ref_safe _ _ _ _ (by decide))

theorem loc_un_pop {o : Un} (hq : quiet D (.un o) = true) : Loc M D [.un o, .pop] [.pop] := by
  intro s
  cases h : s.stack with
  | nil => left; simp [runW, exec, h]
  | cons v st =>
    simp only [runW, exec, h]
    rcases finish_quiet hq s st (M.un o s.w v) (fun hs => un_safe hs s.w v) with e | ⟨r, _, e⟩
    · left; rw [e]
    · right; rw [e]

theorem loc_bin_pop {o : Bin} (hq : quiet D (.bin o) = true) :
    Loc M D [.bin o, .pop] [.pop, .pop] := by
  intro s
  cases h : s.stack with
  | nil => left; simp [runW, exec, h]
  | cons u st =>
    cases st with
    | nil => left; simp [runW, exec, h]
    | cons v st =>
      simp only [runW, exec, h]
      rcases finish_quiet hq s st (M.bin o s.w v u) (fun hs => bin_safe hs s.w v u) with
        e | ⟨r, _, e⟩
      · left; rw [e]
      · right; rw [e]

/-- `{push,dup}; setn X; refn X` → `{push,dup}; setn X; {push,dup}` -/
theorem loc_push_set_ref {k : RK} (hk : k ≠ .g) (c : Const) (x : Nat) :
    Loc M D [.push c, .set k x, .ref k x] [.push c, .set k x, .push c] := by
  intro s
  simp only [runW, exec]
  cases h : M.set k s.w x (M.const c) with
  | none => left; rfl
  | some w' =>
    right
    simp only [M.set_ref k s.w x _ w' hk h, finishRef]

theorem loc_dup_set_ref {k : RK} (hk : k ≠ .g) (x : Nat) :
    Loc M D [.dup, .set k x, .ref k x] [.dup, .set k x, .dup] := by
  intro s
  cases hs : s.stack with
  | nil => left; simp [runW, exec, hs]
  | cons v st =>
    simp only [runW, exec, hs]
    cases h : M.set k s.w x v with
    | none => left; rfl
    | some w' =>
      right
      simp only [M.set_ref k s.w x _ w' hk h, finishRef]

theorem loc_push_bind_ref (c : Const) :
    Loc M D [.push c, .bind, .ref .n 0] [.push c, .bind, .push c] := by
  intro s
  simp only [runW, exec]
  cases h : s.frames with
  | nil => left; rfl
  | cons f fs =>
    cases f with
    | handler _ _ => left; rfl
    | binds l n => right; simp only [M.bind_ref, finishRef]

theorem loc_dup_bind_ref : Loc M D [.dup, .bind, .ref .n 0] [.dup, .bind, .dup] := by
  intro s
  cases hs : s.stack with
  | nil => left; simp [runW, exec, hs]
  | cons v st =>
    simp only [runW, exec, hs]
    cases h : s.frames with
    | nil => left; rfl
    | cons f fs =>
      cases f with
      | handler _ _ => left; rfl
      | binds l n => right; simp only [M.bind_ref, finishRef]

/-- `setn X; refn X` → `dup; setn X` -/
theorem loc_set_ref {k : RK} (hk : k ≠ .g) (x : Nat) :
    Loc M D [.set k x, .ref k x] [.dup, .set k x] := by
  intro s
  cases hs : s.stack with
  | nil => left; simp [runW, exec, hs]
  | cons v st =>
    simp only [runW, exec, hs]
    cases h : M.set k s.w x v with
    | none => left; rfl
    | some w' =>
      right
      simp only [M.set_ref k s.w x _ w' hk h, finishRef]

theorem loc_bind_ref : Loc M D [.bind, .ref .n 0] [.dup, .bind] := by
  intro s
  cases hs : s.stack with
  | nil => left; simp [runW, exec, hs]
  | cons v st =>
    simp only [runW, exec, hs]
    cases h : s.frames with
    | nil => left; rfl
    | cons f fs =>
      cases f with
      | handler _ _ => left; rfl
      | binds l n => right; simp only [M.bind_ref, finishRef]

/-- `dup; {<varset>,<varbind>} X; pop` → `{<varset>,<varbind>} X` -/
theorem loc_dup_set_pop (k : RK) (x : Nat) : Loc M D [.dup, .set k x, .pop] [.set k x] := by
  intro s
  cases hs : s.stack with
  | nil => left; simp [runW, exec, hs]
  | cons v st =>
    right
    simp only [runW, exec, hs]
    cases h : M.set k s.w x v <;> rfl

theorem loc_dup_bind_pop : Loc M D [.dup, .bind, .pop] [.bind] := by
  intro s
  cases hs : s.stack with
  | nil => left; simp [runW, exec, hs]
  | cons v st =>
    right
    simp only [runW, exec, hs]
    cases h : s.frames with
    | nil => rfl
    | cons f fs => cases f <;> rfl

/-- `<varref> X; <varref> X` → `<varref> X; dup`, with any number of `dup`s in between -/
theorem runW_dups (n : Nat) : ∀ (s : St M) (v : M.V) (st : List M.V) (k : Code), s.stack = v :: st →
    ∃ st', runW D (List.replicate n .dup ++ k) s = runW D k { s with stack := v :: st' } := by
  induction n with
  | zero =>
    intro s v st k hs
    refine ⟨st, ?_⟩
    rw [← hs]; rfl
  | succ n ih =>
    intro s v st k hs
    obtain ⟨st', h⟩ := ih { s with stack := v :: v :: st } v (v :: st) k rfl
    refine ⟨st', ?_⟩
    rw [List.replicate_succ, List.cons_append, runW]
    simp only [exec, hs]
    exact h

theorem loc_ref_dups_ref (k : RK) (x : Nat) (n : Nat) :
    Loc M D (.ref k x :: (List.replicate n .dup ++ [.ref k x]))
      (.ref k x :: (List.replicate n .dup ++ [.dup])) := by
  intro s
  right
  rw [runW, runW]
  simp only [exec]
  cases h : M.ref k s.w x with
  | ub => rfl
  | raise e =>
    simp only [finishRef]
    cases D (.ref k x) with
    | true => rfl
    | false =>
      simp only [Bool.false_eq_true, if_false]
      have : ∀ fs (w : M.W) (stk : List M.V) s', throwTo e stk w fs ≠ .next s' := by
        intro fs
        induction fs with
        | nil => intro w stk s' h; cases h
        | cons f fs ih =>
          intro w stk s' h
          cases f with
          | binds a b => exact ih _ _ _ h
          | handler a b =>
            simp only [throwTo] at h
            by_cases hc : b ≤ stk.length
            · rw [if_pos hc] at h; cases h
            · rw [if_neg hc] at h; cases h
      cases ht : s.throw e with
      | next s' => exact absurd ht (this _ _ _ s')
      | goto l s' => rfl
      | out o => rfl
  | ok v =>
    simp only [finishRef]
    obtain ⟨st', h1⟩ := runW_dups (D := D) n { s with stack := v :: s.stack } v s.stack
      [.ref k x] rfl
    obtain ⟨st2, h2⟩ := runW_dups (D := D) n { s with stack := v :: s.stack } v s.stack
      [.dup] rfl
    obtain ⟨st3, h3⟩ := runW_dups (D := D) n { s with stack := v :: s.stack } v s.stack
      [] rfl
    rw [h1, h2]
    have e : st' = st2 := by
      obtain ⟨st4, h4⟩ := runW_dups (D := D) n { s with stack := v :: s.stack } v s.stack
        [.pop] rfl
      -- all of them are the stack after the `dup`s
      have key : ∀ (m : Nat) (t : St M) (k : Code) (u : M.V) (ust : List M.V), t.stack = u :: ust →
          runW D (List.replicate m .dup ++ k) t =
            runW D k { t with stack := List.replicate m u ++ t.stack } := by
        intro m
        induction m with
        | zero => intro t k u ust _; rfl
        | succ m ih =>
          intro t k u ust ht
          rw [List.replicate_succ, List.cons_append, runW]
          simp only [exec, ht]
          rw [ih { t with stack := u :: u :: ust } k u (u :: ust) rfl]
          congr 2
          show List.replicate m u ++ u :: u :: ust = List.replicate (m + 1) u ++ u :: ust
          rw [List.replicate_succ', List.append_assoc]; rfl
      have k1 := key n { s with stack := v :: s.stack } [.ref k x] v s.stack rfl
      have k2 := key n { s with stack := v :: s.stack } [.dup] v s.stack rfl
      rw [h1] at k1
      rw [h2] at k2
      simp only [runW, exec, finishRef, h] at k1
      simp only [runW, exec] at k2
      have e1 : v :: st' = List.replicate n v ++ v :: s.stack := by
        have := k1
        simp only [R.next.injEq, St.mk.injEq, and_true, List.cons.injEq, true_and] at this
        exact this
      cases n with
      | zero =>
        simp at e1 k2
        rw [e1, k2]
      | succ n =>
        rw [List.replicate_succ, List.cons_append] at e1 k2
        simp at e1 k2
        rw [e1, k2]
    subst e
    simp only [runW, exec, finishRef, h]

/-- `<varref> X; <varset> X` → deleted -/
theorem loc_ref_set {k : RK} {x : Nat} (hq : quiet D (.ref k x) = true) :
    Loc M D [.ref k x, .set k x] [] := by
  intro s
  simp only [runW, exec]
  cases h : M.ref k s.w x with
  | ok v =>
    right
    simp only [finishRef]
    rw [M.ref_set k s.w x v h]
  | ub => left; rfl
  | raise e =>
    left
    simp only [quiet, Bool.or_eq_true] at hq
    rcases hq with hd | hs
    · simp [finishRef, hd]
    · cases k with
      | g => cases hs
      | n => exact absurd h (M.ref_safe _ _ _ _ (by decide))
      | slot => exact absurd h (M.ref_safe _ _ _ _ (by decide))

/-- `c?r; c?r` → `c??r` -/
def cxr (o p : Un) : Un :=
  if o = .car then (if p = .car then .caar else .cdar) else (if p = .car then .cadr else .cddr)

theorem loc_un_un {o p q : Un} (hp : ∀ w v, M.un q w v = (M.un o w v).bind (M.un p w))
    (ho : ∀ w v, ∃ r, M.un o w v = .ok r) (hpo : ∀ w v, ∃ r, M.un p w v = .ok r) :
    Loc M D [.un o, .un p] [.un q] := by
  intro s
  cases hs : s.stack with
  | nil => left; simp [runW, exec, hs]
  | cons v st =>
    right
    simp only [runW, exec, hs]
    obtain ⟨r, hr⟩ := ho s.w v
    obtain ⟨r2, hr2⟩ := hpo s.w r
    rw [hp, hr]
    simp only [finish, Except.bind, hr2]

theorem loc_cxr {o p : Un} (ho : o = .car ∨ o = .cdr) (hp : p = .car ∨ p = .cdr) :
    Loc M D [.un o, .un p] [.un (cxr o p)] := by
  have s1 : ∀ w v, ∃ r, M.un .car w v = .ok r := fun w v => un_safe (by decide) w v
  have s2 : ∀ w v, ∃ r, M.un .cdr w v = .ok r := fun w v => un_safe (by decide) w v
  rcases ho with rfl | rfl <;> rcases hp with rfl | rfl
  · exact loc_un_un M.caar_eq s1 s1
  · exact loc_un_un M.cdar_eq s1 s2
  · exact loc_un_un M.cadr_eq s2 s1
  · exact loc_un_un M.cddr_eq s2 s2

/-- `zerop; not` → `not-zero-p` -/
theorem loc_notZeroP : Loc M D [.un .zerop, .un .not] [.un .notZeroP] :=
  loc_un_un M.notZeroP_eq (fun w v => un_safe (by decide) w v) (fun w v => un_safe (by decide) w v)

/-- `test-scm; scm-test` → deleted, when the next instruction only tests the value -/
theorem loc_scm {j : JK} (hj : j = .jn ∨ j = .jt) (l : Nat) :
    Loc M D [.un .testScm, .un .scmTest, .jump j l] [.jump j l] := by
  intro s
  cases hs : s.stack with
  | nil => left; simp [runW, exec, hs]
  | cons v st =>
    right
    obtain ⟨r, hr⟩ := un_safe (M := M) (o := .testScm) (by decide) s.w v
    obtain ⟨r2, hr2⟩ := un_safe (M := M) (o := .scmTest) (by decide) s.w r
    have e := M.scm_eq s.w v r r2 hr hr2
    simp only [runW, exec, hs, hr, finish, hr2]
    rcases hj with rfl | rfl
    · simp only [execJump, hs, e]
    · simp only [execJump, hs, e]

/-- What `push 1; sub` … become. -/
def incDec (i : Int) (o : Bin) : Un :=
  if i = 1 then (if o = .sub then .dec else .inc) else (if o = .sub then .inc else .dec)

/-- Errors are excluded coherently: if those of `inc` are, then so are those of `add` … -/
def Coherent (D : Insn Nat → Bool) : Prop :=
  (D (.un .inc) = true → D (.bin .add) = true ∧ D (.bin .sub) = true) ∧
  (D (.un .dec) = true → D (.bin .add) = true ∧ D (.bin .sub) = true)

/-- A binary instruction on a constant is a unary one. -/
theorem loc_const_bin {c : Const} {o : Bin} {q : Un}
    (hq : ∀ w v, M.un q w v = M.bin o w v (M.const c))
    (hd : D (.un q) = true → D (.bin o) = true ∨ ∀ w v, ∃ r, M.un q w v = .ok r) :
    Loc M D [.push c, .bin o] [.un q] := by
  intro s
  cases hs : s.stack with
  | nil => left; simp [runW, exec, hs]
  | cons v st =>
    simp only [runW, exec, hs]
    rw [hq]
    cases h : M.bin o s.w v (M.const c) with
    | ok r => right; rfl
    | error e =>
      cases hb : D (.bin o) with
      | true => left; simp [finish]
      | false =>
        right
        cases hu : D (.un q) with
        | false => rfl
        | true =>
          rcases hd hu with hd | hd
          · rw [hb] at hd; cases hd
          · obtain ⟨r, hr⟩ := hd s.w v
            rw [hq, h] at hr; cases hr

theorem loc_incDec (hD : Coherent D) {i : Int} {o : Bin} (hi : i = 1 ∨ i = -1)
    (ho : o = .add ∨ o = .sub) : Loc M D [.push (.int i), .bin o] [.un (incDec i o)] := by
  rcases hi with rfl | rfl <;> rcases ho with rfl | rfl
  · exact loc_const_bin M.inc_add fun h => .inl (hD.1 h).1
  · exact loc_const_bin M.dec_sub fun h => .inl (hD.2 h).2
  · exact loc_const_bin M.dec_add fun h => .inl (hD.2 h).1
  · exact loc_const_bin M.inc_sub fun h => .inl (hD.1 h).2

/-- `push 0; {add,sub}` → deleted -/
theorem loc_zero {o : Bin} (ho : o = .add ∨ o = .sub) (hd : D (.bin o) = true) :
    Loc M D [.push (.int 0), .bin o] [] := by
  intro s
  cases hs : s.stack with
  | nil => left; simp [runW, exec, hs]
  | cons v st =>
    simp only [runW, exec, hs]
    cases h : M.bin o s.w v (M.const (.int 0)) with
    | error e => left; simp [finish, hd]
    | ok r =>
      right
      have : r = v := by
        rcases ho with rfl | rfl
        · exact M.add_zero _ _ _ h
        · exact M.sub_zero _ _ _ h
      subst this
      simp only [finish]
      rw [← hs]

/-- `push 0; num-eq` → `zerop` -/
theorem loc_zerop : Loc M D [.push (.int 0), .bin .numEq] [.un .zerop] :=
  loc_const_bin M.zerop_eq fun _ => .inr fun w v => un_safe (by decide) w v

/-! ### Jumps -/

/-- `{jpt,jpn} X; pop` → `{jt,jn} X` -/
theorem loc_jpt_pop (l : Nat) : Loc M D [.jump .jpt l, .pop] [.jump .jt l] := by
  intro s
  cases hs : s.stack with
  | nil => left; simp [runW, exec, execJump, hs]
  | cons v st =>
    right
    simp only [runW, exec, execJump, hs]
    cases M.isNil v <;> simp [hs]

theorem loc_jpn_pop (l : Nat) : Loc M D [.jump .jpn l, .pop] [.jump .jn l] := by
  intro s
  cases hs : s.stack with
  | nil => left; simp [runW, exec, execJump, hs]
  | cons v st =>
    right
    simp only [runW, exec, execJump, hs]
    cases M.isNil v <;> simp [hs]

/-- `not; {jn,jt} X` → `{jt,jn} X` -/
theorem loc_not_jn (l : Nat) : Loc M D [.un .not, .jump .jn l] [.jump .jt l] := by
  intro s
  cases hs : s.stack with
  | nil => left; simp [runW, exec, hs]
  | cons v st =>
    right
    obtain ⟨r, hr, hn⟩ := M.not_eq s.w v
    simp only [runW, exec, execJump, hs, hr, finish, hn]
    cases M.isNil v <;> rfl

theorem loc_not_jt (l : Nat) : Loc M D [.un .not, .jump .jt l] [.jump .jn l] := by
  intro s
  cases hs : s.stack with
  | nil => left; simp [runW, exec, hs]
  | cons v st =>
    right
    obtain ⟨r, hr, hn⟩ := M.not_eq s.w v
    simp only [runW, exec, execJump, hs, hr, finish, hn]
    cases M.isNil v <;> rfl

end Rep.Peep
