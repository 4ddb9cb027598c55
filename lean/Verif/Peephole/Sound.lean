import Verif.Peephole.Opt

/-
Every rule of the optimiser keeps the meaning of the code, if what it needs holds.
-/

namespace Rep.Peep

variable {M : Machine} {D : Insn Nat → Bool}

/-! ### Maps over instructions -/

theorem labels_map (f : Nat → Nat) : ∀ c : Raw, labels (c.map (Insn.map f)) = labels c := by
  intro c
  induction c with
  | nil => rfl
  | cons i k ih => cases i <;> simp [labels, Insn.map, ih]

theorem findL_map (f : Nat → Nat) (l : Nat) : ∀ c : Raw,
    findL l (c.map (Insn.map f)) = (findL l c).map (List.map (Insn.map f)) := by
  intro c
  induction c with
  | nil => rfl
  | cons i k ih =>
    cases i with
    | label m =>
      simp only [List.map_cons, Insn.map]
      rw [findL, findL]
      by_cases h : m = l
      · rw [if_pos h, if_pos h]; rfl
      · rw [if_neg h, if_neg h]; exact ih
    | _ => exact ih

theorem mem_labels {α : Type} {l : Nat} : ∀ {c : List (Insn α)}, l ∈ labels c ↔ .label l ∈ c := by
  intro c
  induction c with
  | nil => simp [labels]
  | cons i k ih => cases i <;> simp [labels, ih]

theorem noLabels_of {w : Code} (h : labels w = []) : NoLabels w := fun l hl => by
  have := mem_labels.2 hl
  rw [h] at this
  cases this

theorem noLabels_map {w : Raw} (h : labels w = []) (f : Nat → Nat) :
    NoLabels (w.map (Insn.map f)) := noLabels_of (by rw [labels_map]; exact h)

theorem target_map (f : Nat → Nat) (i : Insn Nat) : (i.map f).target = i.target.map f := by
  cases i <;> rfl

/-! ### What is kept -/

/-- Labels are defined once; no label or target is beyond what `gensym` made. -/
structure Inv (s : Asm) : Prop where
  nodup : (labels (s.pre ++ s.rest)).Nodup
  lab : ∀ l ∈ labels (s.pre ++ s.rest), l < s.gs
  tgt : ∀ i ∈ s.pre ++ s.rest, ∀ a, i.target = some a → s.tgt a < s.gs

/-- All needs hold. -/
def AllHold (D : Insn Nat → Bool) (ns : List Need) : Prop := ∀ n ∈ ns, n.holds D = true

theorem AllHold.append {a b : List Need} (h : AllHold D (a ++ b)) : AllHold D a ∧ AllHold D b :=
  ⟨fun n hn => h n (List.mem_append_left _ hn), fun n hn => h n (List.mem_append_right _ hn)⟩

/-- From `s` the optimiser may go to `s'`. -/
structure Good (M : Machine) (D : Insn Nat → Bool) (s s' : Asm) : Prop where
  inv : Inv s'
  needs : AllHold D s'.needs → AllHold D s.needs
  alike : AllHold D s'.needs → Alike M D s.code s'.code

theorem Good.refl {s : Asm} (h : Inv s) : Good M D s s := ⟨h, id, fun _ => .refl _⟩

theorem Good.trans {a b c : Asm} (h : Good M D a b) (h' : Good M D b c) : Good M D a c :=
  ⟨h'.inv, fun n => h.needs (h'.needs n), fun n => (h.alike (h'.needs n)).trans (h'.alike n)⟩

/-- A rule is sound. -/
def RuleOk (M : Machine) (D : Insn Nat → Bool) (r : Asm → Option Asm) : Prop :=
  ∀ s s', Inv s → r s = some s' → Good M D s s'

/-! ### Rules on consecutive instructions -/

/-- The cells of the jumps of a window. -/
def tgts (w : Raw) : List Nat := w.filterMap Insn.target

/-- What such a rule does: it replaces a window without labels. -/
structure LocStep (M : Machine) (D : Insn Nat → Bool) (rest : Raw) (r : Local) (w w' post : Raw) :
    Prop where
  before : rest = w ++ post
  after : r.rest = w' ++ post
  lab : labels w = []
  lab' : labels w' = []
  ne : w ≠ []
  tgt : ∀ a ∈ tgts w', a ∈ tgts w
  loc : AllHold D r.needs → ∀ f : Nat → Nat, Loc M D (w.map (Insn.map f)) (w'.map (Insn.map f))

def LocOk (M : Machine) (D : Insn Nat → Bool) (f : Raw → Option Local) : Prop :=
  ∀ rest r, f rest = some r → ∃ w w' post, LocStep M D rest r w w' post

theorem mem_tgts {a : Nat} {w : Raw} : a ∈ tgts w ↔ ∃ i ∈ w, i.target = some a := by
  simp [tgts, List.mem_filterMap]

theorem lift_ok {f : Raw → Option Local} (h : LocOk M D f) : RuleOk M D (lift f) := by
  intro s s' hi hr
  unfold lift at hr
  cases hf : f s.rest with
  | none => rw [hf] at hr; cases hr
  | some r =>
    rw [hf] at hr
    cases hr
    obtain ⟨w, w', post, st⟩ := h _ _ hf
    have hl : labels (s.pre ++ r.rest) = labels (s.pre ++ s.rest) := by
      rw [st.before, st.after]
      simp [labels_append, st.lab, st.lab']
    refine ⟨⟨?_, ?_, ?_⟩, fun n => (AllHold.append n).2, fun n => ?_⟩
    · show (labels (s.pre ++ r.rest)).Nodup
      rw [hl]; exact hi.nodup
    · show ∀ l ∈ labels (s.pre ++ r.rest), l < s.gs
      rw [hl]; exact hi.lab
    · intro i hm a ha
      change i ∈ s.pre ++ r.rest at hm
      rw [st.after] at hm
      simp only [List.mem_append] at hm
      rcases hm with hm | hm | hm
      · exact hi.tgt i (List.mem_append_left _ hm) a ha
      · obtain ⟨j, hj, hja⟩ := mem_tgts.1 (st.tgt a (mem_tgts.2 ⟨i, hm, ha⟩))
        exact hi.tgt j (by rw [st.before]; simp [hj]) a hja
      · exact hi.tgt i (by rw [st.before]; simp [hm]) a ha
    · have := (st.loc (AllHold.append n).1 s.tgt).alike (s.pre.map (Insn.map s.tgt))
        (post.map (Insn.map s.tgt)) (noLabels_map st.lab _) (noLabels_map st.lab' _)
        (by simpa using st.ne)
      simp only [Asm.code, Local.app]
      rw [st.before, st.after]
      simpa using this

theorem ok_sefPop : LocOk M D rSefPop := by
  intro rest r h
  unfold rSefPop at h
  split at h
  · next c k => cases h; exact ⟨[.push c, .pop], [], k, rfl, rfl, rfl, rfl, by simp, by simp [tgts],
      fun _ _ => loc_push_pop c⟩
  · next k => cases h; exact ⟨[.dup, .pop], [], k, rfl, rfl, rfl, rfl, by simp, by simp [tgts],
      fun _ _ => loc_dup_pop⟩
  · next v x k =>
    cases h
    exact ⟨[.ref v x, .pop], [], k, rfl, rfl, rfl, rfl, by simp, by simp [tgts],
      fun n _ => loc_ref_pop (n _ (List.mem_singleton.2 rfl))⟩
  · next o k =>
    split at h <;> cases h
    exact ⟨[.un o, .pop], [.pop], k, rfl, rfl, rfl, rfl, by simp, by simp [tgts, Insn.target],
      fun n _ => loc_un_pop (n _ (List.mem_singleton.2 rfl))⟩
  · next o k =>
    split at h <;> cases h
    exact ⟨[.bin o, .pop], [.pop, .pop], k, rfl, rfl, rfl, rfl, by simp,
      by simp [tgts, Insn.target], fun n _ => loc_bin_pop (n _ (List.mem_singleton.2 rfl))⟩
  · cases h

theorem ok_valSetRef : LocOk M D rValSetRef := by
  intro rest r h
  unfold rValSetRef at h
  split at h
  · next i j v x k =>
    split at h
    · next hc =>
      cases h
      simp only [Bool.and_eq_true, Bool.or_eq_true, bne_iff_ne, beq_iff_eq] at hc
      obtain ⟨hv, ⟨hg, rfl⟩ | ⟨⟨rfl, rfl⟩, rfl⟩⟩ := hc
      · cases i <;> first
          | (simp [Insn.isVal] at hv; done)
          | exact ⟨[.push _, .set v x, .ref v x], [.push _, .set v x, .push _], k, rfl, rfl, rfl,
              rfl, by simp, by simp [tgts, Insn.target], fun _ _ => loc_push_set_ref hg _ x⟩
          | exact ⟨[.dup, .set v x, .ref v x], [.dup, .set v x, .dup], k, rfl, rfl, rfl, rfl,
              by simp, by simp [tgts, Insn.target], fun _ _ => loc_dup_set_ref hg x⟩
      · cases i <;> first
          | (simp [Insn.isVal] at hv; done)
          | exact ⟨[.push _, .bind, .ref .n 0], [.push _, .bind, .push _], k, rfl, rfl, rfl,
              rfl, by simp, by simp [tgts, Insn.target], fun _ _ => loc_push_bind_ref _⟩
          | exact ⟨[.dup, .bind, .ref .n 0], [.dup, .bind, .dup], k, rfl, rfl, rfl, rfl,
              by simp, by simp [tgts, Insn.target], fun _ _ => loc_dup_bind_ref⟩
    · cases h
  · cases h

theorem ok_setRef : LocOk M D rSetRef := by
  intro rest r h
  unfold rSetRef at h
  split at h
  · next j v x k =>
    split at h
    · next hc =>
      cases h
      simp only [Bool.and_eq_true, Bool.or_eq_true, bne_iff_ne, beq_iff_eq] at hc
      obtain ⟨hg, rfl⟩ | ⟨⟨rfl, rfl⟩, rfl⟩ := hc
      · exact ⟨[.set v x, .ref v x], [.dup, .set v x], k, rfl, rfl, rfl, rfl, by simp,
          by simp [tgts, Insn.target], fun _ _ => loc_set_ref hg x⟩
      · exact ⟨[.bind, .ref .n 0], [.dup, .bind], k, rfl, rfl, rfl, rfl, by simp,
          by simp [tgts, Insn.target], fun _ _ => loc_bind_ref⟩
    · cases h
  · cases h

theorem ok_dupSetPop : LocOk M D rDupSetPop := by
  intro rest r h
  unfold rDupSetPop at h
  split at h
  · next v x k => cases h; exact ⟨[.dup, .set v x, .pop], [.set v x], k, rfl, rfl, rfl, rfl,
      by simp, by simp [tgts, Insn.target], fun _ _ => loc_dup_set_pop v x⟩
  · next k => cases h; exact ⟨[.dup, .bind, .pop], [.bind], k, rfl, rfl, rfl, rfl,
      by simp, by simp [tgts, Insn.target], fun _ _ => loc_dup_bind_pop⟩
  · cases h

theorem ok_refRef : LocOk M D rRefRef := by
  intro rest r h
  unfold rRefRef at h
  split at h
  · next v x v' x' k =>
    split at h
    · next hc =>
      cases h
      obtain ⟨rfl, rfl⟩ := hc
      exact ⟨[.ref v x, .ref v x], [.ref v x, .dup], k, rfl, rfl, rfl, rfl, by simp,
        by simp [tgts, Insn.target], fun _ _ => loc_ref_dups_ref v x 0⟩
    · cases h
  · cases h

theorem ok_refSet : LocOk M D rRefSet := by
  intro rest r h
  unfold rRefSet at h
  split at h
  · next v x v' x' k =>
    split at h
    · next hc =>
      cases h
      obtain ⟨rfl, rfl⟩ := hc
      exact ⟨[.ref v x, .set v x], [], k, rfl, rfl, rfl, rfl, by simp,
        by simp [tgts], fun n _ => loc_ref_set (n _ (List.mem_singleton.2 rfl))⟩
    · cases h
  · cases h

theorem ok_cxr : LocOk M D rCxr := by
  intro rest r h
  unfold rCxr at h
  split at h
  · next o p k =>
    split at h
    · next hc =>
      cases h
      exact ⟨[.un o, .un p], [.un (cxr o p)], k, rfl, rfl, rfl, rfl, by simp,
        by simp [tgts, Insn.target], fun _ _ => loc_cxr hc.1 hc.2⟩
    · cases h
  · cases h

theorem never_elim {P : Prop} (h : AllHold D [.never]) : P :=
  absurd (h .never (List.mem_singleton.2 rfl)) (by simp [Need.holds])

theorem ok_scm : LocOk M D rScm := by
  intro rest r h
  unfold rScm at h
  split at h
  · next o k =>
    split at h
    · cases h
      by_cases hc : o = .testScm ∧ onlyTested k = true
      · obtain ⟨rfl, hk⟩ := hc
        unfold onlyTested at hk
        split at hk
        · next a k =>
          exact ⟨[.un .testScm, .un .scmTest, .jump .jn a], [.jump .jn a], k, rfl, rfl, rfl, rfl,
            by simp, by simp [tgts, Insn.target], fun _ f => loc_scm (.inl rfl) (f a)⟩
        · next a k =>
          exact ⟨[.un .testScm, .un .scmTest, .jump .jt a], [.jump .jt a], k, rfl, rfl, rfl, rfl,
            by simp, by simp [tgts, Insn.target], fun _ f => loc_scm (.inr rfl) (f a)⟩
        · cases hk
      · refine ⟨[.un o, .un .scmTest], [], k, rfl, rfl, rfl, rfl, by simp, by simp [tgts],
          fun n => ?_⟩
        simp only [if_neg hc] at n
        exact never_elim n
    · cases h
  · cases h

theorem ok_incDec (hD : Coherent D) : LocOk M D rIncDec := by
  intro rest r h
  unfold rIncDec at h
  split at h
  · next i o k =>
    split at h
    · next hc =>
      cases h
      exact ⟨[.push (.int i), .bin o], [.un (incDec i o)], k, rfl, rfl, rfl, rfl, by simp,
        by simp [tgts, Insn.target], fun _ _ => loc_incDec hD hc.1 hc.2⟩
    · cases h
  · cases h

theorem ok_addZero : LocOk M D rAddZero := by
  intro rest r h
  unfold rAddZero at h
  split at h
  · next i o k =>
    split at h
    · next hc =>
      cases h
      obtain ⟨rfl, ho⟩ := hc
      exact ⟨[.push (.int 0), .bin o], [], k, rfl, rfl, rfl, rfl, by simp,
        by simp [tgts], fun n _ => loc_zero ho (n _ (List.mem_singleton.2 rfl))⟩
    · cases h
  · cases h

theorem ok_zerop : LocOk M D rZerop := by
  intro rest r h
  unfold rZerop at h
  split at h
  · next i k =>
    split at h
    · next hc =>
      cases h; subst hc
      exact ⟨[.push (.int 0), .bin .numEq], [.un .zerop], k, rfl, rfl, rfl, rfl, by simp,
        by simp [tgts, Insn.target], fun _ _ => loc_zerop⟩
    · cases h
  · cases h

theorem ok_notZerop : LocOk M D rNotZerop := by
  intro rest r h
  unfold rNotZerop at h
  split at h
  · next k => cases h; exact ⟨[.un .zerop, .un .not], [.un .notZeroP], k, rfl, rfl, rfl, rfl,
      by simp, by simp [tgts, Insn.target], fun _ _ => loc_notZeroP⟩
  · cases h

theorem ok_jpPop : LocOk M D rJpPop := by
  intro rest r h
  unfold rJpPop at h
  split at h
  · next a k => cases h; exact ⟨[.jump .jpt a, .pop], [.jump .jt a], k, rfl, rfl, rfl, rfl,
      by simp, by simp [tgts, Insn.target], fun _ f => loc_jpt_pop (f a)⟩
  · next a k => cases h; exact ⟨[.jump .jpn a, .pop], [.jump .jn a], k, rfl, rfl, rfl, rfl,
      by simp, by simp [tgts, Insn.target], fun _ f => loc_jpn_pop (f a)⟩
  · cases h

theorem ok_notJump : LocOk M D rNotJump := by
  intro rest r h
  unfold rNotJump at h
  split at h
  · next a k => cases h; exact ⟨[.un .not, .jump .jn a], [.jump .jt a], k, rfl, rfl, rfl, rfl,
      by simp, by simp [tgts, Insn.target], fun _ f => loc_not_jn (f a)⟩
  · next a k => cases h; exact ⟨[.un .not, .jump .jt a], [.jump .jn a], k, rfl, rfl, rfl, rfl,
      by simp, by simp [tgts, Insn.target], fun _ f => loc_not_jt (f a)⟩
  · cases h

theorem ok_jtNil : LocOk M D rJtNil := by
  intro rest r h
  unfold rJtNil at h
  split at h
  · next a k => cases h; exact ⟨[.jump .jt a, .push .nil], [.jump .jpt a], k, rfl, rfl, rfl, rfl,
      by simp, by simp [tgts, Insn.target], fun _ f => loc_jt_nil (f a)⟩
  · cases h

theorem pushJump_map (f : Nat → Nat) (c : Const) (j : JK) (a : Nat) :
    (pushJump c j a).map (Insn.map f) = pushJump c j (f a) := by
  unfold pushJump
  cases j <;> cases decide (c = .nil) <;> rfl

theorem pushJump_labels (c : Const) (j : JK) (a : Nat) : labels (pushJump c j a) = [] := by
  unfold pushJump
  cases j <;> cases decide (c = .nil) <;> rfl

theorem pushJump_tgts (c : Const) (j : JK) (a b : Nat) (h : b ∈ tgts (pushJump c j a)) : b = a := by
  unfold pushJump at h
  cases j <;> cases hc : decide (c = .nil) <;> rw [hc] at h <;>
    first | (simp [tgts, Insn.target] at h; done) | (simp [tgts, Insn.target] at h; exact h.symm) |
      (simp [tgts, Insn.target] at h; exact h)

theorem ok_pushJump : LocOk M D rPushJump := by
  intro rest r h
  unfold rPushJump at h
  split at h
  · next c j a k =>
    split at h
    · next hc =>
      cases h
      refine ⟨[.push c, .jump j a], pushJump c j a, k, rfl, rfl, rfl, pushJump_labels c j a, by simp,
        fun b hb => ?_, fun _ f => ?_⟩
      · rw [pushJump_tgts c j a b hb]; simp [tgts, Insn.target]
      · rw [pushJump_map]; exact loc_push_jump c hc (f a)
    · cases h
  · cases h

theorem ok_opUnbind : LocOk M D rOpUnbind := by
  intro rest r h
  unfold rOpUnbind at h
  split at h
  · next c k => cases h; exact ⟨[.push c, .unbind], [.unbind, .push c], k, rfl, rfl, rfl, rfl,
      by simp, by simp [tgts, Insn.target], fun _ _ => loc_push_unbind c⟩
  · next k => cases h; exact ⟨[.dup, .unbind], [.unbind, .dup], k, rfl, rfl, rfl, rfl,
      by simp, by simp [tgts, Insn.target], fun _ _ => loc_dup_unbind⟩
  · next o k =>
    split at h
    · next ho => cases h; exact ⟨[.un o, .unbind], [.unbind, .un o], k, rfl, rfl, rfl, rfl,
        by simp, by simp [tgts, Insn.target], fun _ _ => loc_un_unbind ho⟩
    · cases h
  · next o k =>
    split at h
    · next ho => cases h; exact ⟨[.bin o, .unbind], [.unbind, .bin o], k, rfl, rfl, rfl, rfl,
        by simp, by simp [tgts, Insn.target], fun _ _ => loc_bin_unbind ho⟩
    · cases h
  · cases h

theorem ok_bindUnbind : LocOk M D rBindUnbind := by
  intro rest r h
  unfold rBindUnbind at h
  split at h
  · next k => cases h; exact ⟨[.bind, .unbind], [.pop, .unbind], k, rfl, rfl, rfl, rfl,
      by simp, by simp [tgts, Insn.target], fun _ _ => loc_bind_unbind⟩
  · cases h

theorem ok_initUnbind : LocOk M D rInitUnbind := by
  intro rest r h
  unfold rInitUnbind at h
  split at h
  · next k => cases h; exact ⟨[.initBind, .unbind], [], k, rfl, rfl, rfl, rfl,
      by simp, by simp [tgts], fun _ _ => loc_init_unbind⟩
  · cases h

theorem ok_initRet : LocOk M D rInitRet := by
  intro rest r h
  unfold rInitRet at h
  split at h
  · next k => cases h; exact ⟨[.initBind, .ret], [.ret], k, rfl, rfl, rfl, rfl,
      by simp, by simp [tgts, Insn.target], fun _ _ => loc_init_ret⟩
  · next k => cases h; exact ⟨[.initBind, .unbindall], [.unbindall], k, rfl, rfl, rfl, rfl,
      by simp, by simp [tgts, Insn.target], fun _ _ => loc_init_unbindall⟩
  · cases h

theorem ok_unbindRet : LocOk M D rUnbindRet := by
  intro rest r h
  unfold rUnbindRet at h
  split at h
  · next k => cases h; exact ⟨[.unbind, .ret], [.ret], k, rfl, rfl, rfl, rfl,
      by simp, by simp [tgts, Insn.target], fun _ _ => loc_unbind_ret⟩
  · cases h

theorem dups_eq : ∀ c : Raw, c = List.replicate (dups c).1 .dup ++ (dups c).2 := by
  intro c
  induction c with
  | nil => rfl
  | cons i k ih =>
    cases i with
    | dup =>
      simp only [dups, List.replicate_succ, List.cons_append]
      rw [← ih]
    | _ => rfl

theorem map_replicate_dup (f : Nat → Nat) (n : Nat) :
    (List.replicate n (Insn.dup : Insn Nat)).map (Insn.map f) = List.replicate n .dup := by
  simp [Insn.map]

theorem labels_replicate_dup (n : Nat) : labels (List.replicate n (Insn.dup : Insn Nat)) = [] := by
  induction n with
  | zero => rfl
  | succ n ih => simpa [List.replicate_succ, labels] using ih

theorem tgts_replicate_dup (n : Nat) : tgts (List.replicate n (Insn.dup : Insn Nat)) = [] := by
  induction n with
  | zero => rfl
  | succ n ih => simpa [List.replicate_succ, tgts, Insn.target] using ih

theorem tgts_append (a b : Raw) : tgts (a ++ b) = tgts a ++ tgts b := by simp [tgts]

theorem ok_refDups : LocOk M D rRefDups := by
  intro rest r h
  unfold rRefDups at h
  split at h
  · next v x k =>
    have he := dups_eq (.dup :: k)
    generalize hn : (dups (.dup :: k)).1 = n at h he
    generalize ht : (dups (.dup :: k)).2 = t at h he
    split at h
    · next r' hr =>
      cases h
      unfold dupsRef at hr
      split at hr
      · next v' x' t' =>
        split at hr
        · next hc =>
          cases hr
          obtain ⟨rfl, rfl⟩ := hc
          refine ⟨.ref v x :: (List.replicate n .dup ++ [.ref v x]),
            .ref v x :: (List.replicate n .dup ++ [.dup]), t', by rw [he]; simp, by simp, ?_, ?_, by simp,
            ?_, fun _ f => ?_⟩
          · simp [labels, labels_append, labels_replicate_dup]
          · simp [labels, labels_append, labels_replicate_dup]
          · intro a ha
            exfalso
            rw [show (Insn.ref v x :: (List.replicate n Insn.dup ++ [Insn.dup]) : Raw) =
              [Insn.ref v x] ++ (List.replicate n Insn.dup ++ [Insn.dup]) from rfl,
              tgts_append, tgts_append, tgts_replicate_dup] at ha
            simp [tgts, Insn.target] at ha
          · have := loc_ref_dups_ref (M := M) (D := D) v x n
            simpa [Insn.map] using this
        · cases hr
      · cases hr
    · cases h
      exact ⟨[.ref v x], [.ref v x], .dup :: k, rfl, rfl, rfl, rfl, by simp, by simp,
        fun _ _ _ => .inr rfl⟩
  · cases h

theorem toLabel_split : ∀ c : Raw, ∃ d, c = d ++ toLabel c ∧ labels d = [] := by
  intro c
  induction c with
  | nil => exact ⟨[], rfl, rfl⟩
  | cons i k ih =>
    obtain ⟨d, hd, hl⟩ := ih
    cases i with
    | label l => exact ⟨[], rfl, rfl⟩
    | _ => exact ⟨_ :: d, congrArg (List.cons _) hd, hl⟩

theorem ends_dead {i : Insn Nat} (h : i.ends = true) (f : Nat → Nat) (s s' : St M) :
    exec D (i.map f) s ≠ .next s' := by
  cases i with
  | ret => exact dead_ret s s'
  | jump j a =>
    cases j <;> first
      | (simp [Insn.ends] at h; done)
      | exact dead_jmp _ s s'
      | exact dead_ejmp _ s s'
  | _ => exact absurd h (by simp [Insn.ends])

theorem ok_dead : LocOk M D rDead := by
  intro rest r h
  unfold rDead at h
  split at h
  · next i j k =>
    split at h
    · next hc =>
      cases h
      simp only [Bool.and_eq_true] at hc
      obtain ⟨d, hd, hl⟩ := toLabel_split (j :: k)
      have hi : labels [i] = [] := by
        have := hc.1
        cases i <;> first | rfl | exact absurd this (by simp [Insn.ends])
      refine ⟨i :: d, [i], toLabel (j :: k), ?_, rfl, ?_, hi, by simp, ?_, fun _ f => ?_⟩
      · rw [List.cons_append, ← hd]
      · have : labels ([i] ++ d) = labels [i] ++ labels d := labels_append _ _
        rw [hi, hl] at this
        exact this
      · intro a ha
        rw [mem_tgts] at ha ⊢
        obtain ⟨i', hi', h'⟩ := ha
        exact ⟨i', by rw [List.mem_singleton.1 hi']; exact List.mem_cons_self, h'⟩
      · exact loc_dead (ends_dead hc.1 f) _
    · cases h
  · cases h

/-! ### The last pass -/

theorem Loc.trans {a b c : Code} (h : Loc M D a b) (h' : Loc M D b c) : Loc M D a c := by
  intro s
  rcases h s with h | h
  · exact .inl h
  · rcases h' s with h' | h'
    · exact .inl (h.trans h')
    · exact .inr (h.trans h')

theorem runW_append : ∀ (a b : Code) (s : St M), runW D (a ++ b) s =
    match runW D a s with
    | .next s' => runW D b s'
    | r => r := by
  intro a
  induction a with
  | nil => intro b s; rfl
  | cons i a ih =>
    intro b s
    simp only [List.cons_append, runW]
    cases exec D i s with
    | next s' => exact ih b s'
    | goto l s' => rfl
    | out o => rfl

theorem Loc.append {a b : Code} (h : Loc M D a b) (t : Code) : Loc M D (a ++ t) (b ++ t) := by
  intro s
  rw [runW_append, runW_append]
  rcases h s with h | h
  · rw [h]; exact .inl rfl
  · rw [h]; exact .inr rfl

/-- `i` and then a mix of `dup` and `i`. -/
theorem loc_run {i : Insn Nat}
    (h : ∀ n, Loc M D (i :: (List.replicate n .dup ++ [i])) (i :: (List.replicate n .dup ++ [.dup]))) :
    ∀ (run : Code), (∀ j ∈ run, j = .dup ∨ j = i) → ∀ n,
    Loc M D (i :: (List.replicate n .dup ++ run))
      (i :: (List.replicate n .dup ++ List.replicate run.length .dup)) := by
  intro run
  induction run with
  | nil => intro _ n s; exact .inr rfl
  | cons j run ih =>
    intro hr n
    have ih' := ih (fun j hj => hr j (List.mem_cons_of_mem _ hj)) (n + 1)
    have e : ∀ t : Code, (List.replicate n Insn.dup ++ Insn.dup :: t : Code) =
        List.replicate (n + 1) .dup ++ t := by
      intro t
      rw [List.replicate_succ']
      simp
    have e2 : (List.replicate n Insn.dup ++ List.replicate (j :: run).length Insn.dup : Code) =
        List.replicate (n + 1) .dup ++ List.replicate run.length .dup := by
      rw [List.length_cons, List.replicate_succ, e]
    rw [e2]
    rcases hr j List.mem_cons_self with rfl | rfl
    · rw [e]; exact ih'
    · have := (h n).append run
      simp only [List.cons_append, List.append_assoc, List.singleton_append] at this
      rw [e] at this
      exact this.trans ih'

theorem dupRun_split (i : Insn Nat) : ∀ c : Raw, ∃ run t, c = run ++ t ∧
    (∀ j ∈ run, j = .dup ∨ j = i) ∧ dupRun i c = List.replicate run.length .dup ++ t := by
  intro c
  induction c with
  | nil => exact ⟨[], [], rfl, by simp, rfl⟩
  | cons j k ih =>
    obtain ⟨run, t, hk, hr, hd⟩ := ih
    by_cases hc : j = .dup ∨ j = i
    · refine ⟨j :: run, t, by rw [hk]; rfl, ?_, ?_⟩
      · intro j' hj'
        rcases List.mem_cons.1 hj' with rfl | hj'
        · exact hc
        · exact hr j' hj'
      · rw [dupRun, if_pos hc, hd]; rfl
    · exact ⟨[], j :: k, rfl, by simp, by rw [dupRun, if_neg hc]; rfl⟩

theorem ok_pushSetPush : LocOk M D fPushSetPush := by
  intro rest r h
  unfold fPushSetPush at h
  split at h
  · next c j c' k =>
    split at h
    · next v x =>
      split at h
      · next hc =>
        cases h; subst hc
        exact ⟨[.push c, .set v x, .push c], [.push c, .dup, .set v x], k, rfl, rfl, rfl, rfl,
          by simp, by simp [tgts, Insn.target], fun _ _ => loc_push_set_push c v x⟩
      · cases h
    · split at h
      · next hc =>
        cases h; subst hc
        exact ⟨[.push c, .bind, .push c], [.push c, .dup, .bind], k, rfl, rfl, rfl, rfl,
          by simp, by simp [tgts, Insn.target], fun _ _ => loc_push_bind_push c⟩
      · cases h
    · cases h
  · cases h

theorem ok_run_of {i : Insn Nat} (hi : labels [i] = []) (ht : i.target = none)
    (hm : ∀ f : Nat → Nat, i.map f = i)
    (h : ∀ n, Loc M D (i :: (List.replicate n .dup ++ [i])) (i :: (List.replicate n .dup ++ [.dup])))
    (k : Raw) : ∃ w w' post, LocStep M D (i :: k) ⟨i :: dupRun i k, false, false, []⟩ w w' post := by
  obtain ⟨run, t, hk, hr, hd⟩ := dupRun_split i k
  have hl : labels run = [] := by
    cases hn : labels run with
    | nil => rfl
    | cons l ls =>
      have : Insn.label l ∈ run := mem_labels.1 (by rw [hn]; exact List.mem_cons_self)
      rcases hr _ this with e | e
      · cases e
      · rw [← e] at hi; simp [labels] at hi
  have hmap : ∀ f : Nat → Nat, run.map (Insn.map f) = run := by
    intro f
    conv => rhs; rw [← List.map_id run]
    apply List.map_congr_left
    intro j hj
    rcases hr j hj with rfl | rfl
    · rfl
    · exact hm f
  have lc : ∀ t : Raw, labels t = [] → labels (i :: t) = [] := by
    intro t htl
    have : labels ([i] ++ t) = labels [i] ++ labels t := labels_append _ _
    rw [hi, htl] at this
    exact this
  refine ⟨i :: run, i :: List.replicate run.length .dup, t, by rw [hk]; rfl, by rw [hd]; rfl,
    lc _ hl, lc _ (labels_replicate_dup _), by simp, ?_, fun _ f => ?_⟩
  · intro a ha
    obtain ⟨j, hj, hja⟩ := mem_tgts.1 ha
    rcases List.mem_cons.1 hj with rfl | hj
    · rw [ht] at hja; cases hja
    · rw [(List.mem_replicate.1 hj).2] at hja; cases hja
  · simp only [List.map_cons, hm f, hmap f, map_replicate_dup]
    have := loc_run h run hr 0
    simpa using this

theorem ok_run : LocOk M D fRun := by
  intro rest r h
  unfold fRun at h
  split at h
  · next c k =>
    cases h
    exact ok_run_of rfl rfl (fun _ => rfl) (loc_push_dups_push c) k
  · next v x k =>
    cases h
    exact ok_run_of rfl rfl (fun _ => rfl) (loc_ref_dups_ref v x) k
  · cases h

end Rep.Peep
