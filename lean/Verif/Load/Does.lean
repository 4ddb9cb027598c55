/-
Loading libraries of modules: every job keeps the invariant.
-/
import Verif.Load.Make

namespace Rep.Load

variable {lib : String → Option File} {thunk : Nat → List Cmd} {N : List String}

theorem leave_snd (r : Val × St) : (leave r).2 = r.2 := by
  unfold leave; split <;> rfl

theorem forms_one {n : Nat} {v : Val} {c : Cmd} {cur : Nat} {st : St} {r : Val × St}
    (h : run lib thunk n (.forms v [c] cur) st = some r) :
    ∃ m, m < n ∧ run lib thunk m (.form c cur) st = some r := by
  cases n with
  | zero => cases h
  | succ n =>
    obtain ⟨r1, h1, h2⟩ := Option.bind_eq_some_iff.1 (show (run lib thunk n (.form c cur) st).bind _ = _ from h)
    refine ⟨n, Nat.lt_succ_self _, ?_⟩
    split at h2
    · rw [h1]; exact h2
    · cases n with
      | zero => cases h2
      | succ n =>
        have : some r1 = some r := h2
        rw [h1, this]

theorem form_define {n : Nat} {name : Option String} {opens : List String} {body : List Cmd}
    {cur : Nat} {st : St} {r : Val × St} (ht : st.throw = false)
    (h : run lib thunk n (.form (.define name opens body) cur) st = some r) :
    ∃ m r', m < n ∧ doDefine (run lib thunk m) name opens body st = some r' ∧ r = leave r' := by
  cases n with
  | zero => cases h
  | succ n =>
    simp only [run, step, ht, Bool.false_eq_true, if_false] at h
    obtain ⟨r', h1, h2⟩ := Option.map_eq_some_iff.1 h
    exact ⟨n, r', Nat.lt_succ_self _, h1, h2.symm⟩

theorem tidyL_mem {cs : List Cmd} {c : Cmd} (h : tidyL N (c :: cs) = true) :
    c.tidy N = true ∧ tidyL N cs = true := by
  simpa [tidyL] using h

theorem contains_iff {x : String} : N.contains x = true ↔ x ∈ N := by simp

theorem all_contains {ms : List String} (h : ms.all N.contains = true) : ∀ m ∈ ms, m ∈ N := by
  intro m hm
  exact contains_iff.1 (List.all_eq_true.1 h m hm)

theorem load_does (hL : ModuleLib N lib) {n : Nat} (ih : ∀ m, m ≤ n → Does lib thunk N m)
    {file : String} {ne : Bool} {cur : Nat} {st : St} {r : Val × St}
    (h : doLoad lib (run lib thunk n) file ne cur st = some r) (hi : Inv lib N st)
    (ha : st.afters = []) {x : String} (hx : x ∈ N) (hfile : file = structureFile x)
    (hn : st.get x = none) :
    Inv lib N r.2 ∧ Ext N cur st r.2 ∧ ∀ i, r.1 = .struct i → r.2.get x ≠ none := by
  subst hfile
  unfold doLoad at h
  cases ht : st.throw with
  | true =>
    simp only [ht, if_true] at h
    cases h
    exact ⟨hi, .refl _ _, fun i h => nomatch h⟩
  | false =>
    simp only [ht, Bool.false_eq_true, if_false] at h
    cases hf : lib (structureFile x) with
    | none =>
      simp only [hf] at h
      cases h
      cases ne
      · exact ⟨hi.quiet rfl (fun _ _ => rfl) (Nat.le_refl _),
          .quiet rfl (fun _ _ => rfl) rfl (Nat.le_refl _) fun _ _ _ _ => rfl, fun i h => nomatch h⟩
      · exact ⟨hi, .refl _ _, fun i h => nomatch h⟩
    | some f =>
      simp only [hf] at h
      obtain ⟨opens, hm⟩ := hL x hx f hf
      obtain ⟨body, hforms, hb⟩ := hm.forms
      obtain ⟨r1, h1, h2⟩ := Option.bind_eq_some_iff.1 h
      unfold loadFile at h1
      obtain ⟨r0, h0, h4⟩ := Option.map_eq_some_iff.1 h1
      rw [hforms] at h0
      obtain ⟨m, hmn, h00⟩ := forms_one h0
      obtain ⟨k, r', hkm, h01, rfl⟩ := form_define (by exact ht) h00
      obtain ⟨p0, q0, t0⟩ := module_does (cur := cur) hL (ih k (by omega)) hx hf hm hb h01 hi ha hn
      -- the end of the file
      have hr1 : Inv lib N r1.2 ∧ Ext N cur st r1.2 ∧ ∀ i, r1.1 = .struct i → r1.2.get x ≠ none := by
        have base : Inv lib N (leave r').2 ∧ Ext N cur st (leave r').2 ∧
            ∀ i, (leave r').1 = .struct i → (leave r').2.get x ≠ none := by
          rw [leave_snd]
          refine ⟨p0, q0, fun i h => t0 i ?_⟩
          unfold leave at h
          split at h
          · cases h
          · exact h
        split at h4
        · subst h4
          refine ⟨(base.1.note .bad (by simp [About]) (by simp)).quiet rfl (fun _ _ => rfl)
            (Nat.le_refl _), base.2.1.trans ((Ext.note (cur := cur) .bad (by simp [About])).trans
              (.quiet (st' := ((leave r').2.note .bad).signal) rfl (fun _ _ => rfl) rfl
                (Nat.le_refl _) fun _ _ _ _ => rfl) (.inl rfl)) (.inl rfl), base.2.2⟩
        · subst h4
          exact base
      obtain ⟨p1, q1, t1⟩ := hr1
      split at h2
      · cases h2
        exact ⟨p1, q1, t1⟩
      · obtain ⟨r2, h3, rfl⟩ := Option.map_eq_some_iff.1 h2
        -- nothing is called
        have ha1 := q1.afters ha
        have hr2 : r2.2 = r1.2.noteRead (r1.2.libName (structureFile x) r1.1) := by
          cases n with
          | zero => cases h3
          | succ n =>
            simp only [run, step, St.noteRead, ha1, takeAfter] at h3
            cases h3
            simp [St.noteRead, ha1]
        rw [hr2]
        generalize r1.2.libName (structureFile x) r1.1 = l
        have p2 := p1.note (.read r1.2.loads l) (by simp [About]) (by simp)
        have p3 : Inv lib N (r1.2.noteRead l) := p2.quiet rfl (fun _ _ => rfl) (Nat.le_refl _)
        have q2 : Ext N cur st (r1.2.note (.read r1.2.loads l)) :=
          q1.trans (Ext.note (cur := cur) _ (by simp [About])) (.inl rfl)
        have q3 : Ext N cur st (r1.2.noteRead l) :=
          q2.trans (.quiet (cur := cur) rfl (fun _ _ => rfl) rfl (Nat.le_refl _)
            fun _ _ _ _ => rfl) (.inl rfl)
        exact ⟨p3.note _ (by simp [About]) (by simp),
          q3.trans (Ext.note (cur := cur) _ (by simp [About])) (.inl rfl), t1⟩

/-- Every job keeps the invariant. -/
theorem does (hL : ModuleLib N lib) : ∀ n, Does lib thunk N n := by
  intro n
  induction n using Nat.strongRecOn with
  | ind n IH =>
  intro j st r h hi ha hj
  cases n with
  | zero => cases h
  | succ n =>
  have ih : Does lib thunk N n := IH n (Nat.lt_succ_self _)
  have quiet : ∀ {s : St} {cur : Nat}, s.log = st.log → (∀ x, s.get x = st.get x) →
      s.afters = st.afters → s.structs.length = st.structs.length →
      (∀ i, s.imports i = st.imports i) → Inv lib N s ∧ Ext N cur st s := by
    intro s cur h1 h2 h3 h4 h5
    exact ⟨hi.quiet h1 (fun x _ => h2 x) (by omega),
      .quiet h1 (fun x _ => h2 x) h3 (by omega) fun i _ _ _ => h5 i⟩
  cases j with
  | forms v cs cur =>
    cases cs with
    | nil =>
      cases h
      exact ⟨hi, .refl _ _, trivial⟩
    | cons c cs =>
      obtain ⟨h1, h2⟩ := tidyL_mem hj
      obtain ⟨r1, hr, h⟩ := Option.bind_eq_some_iff.1
        (show (run lib thunk n (.form c cur) st).bind _ = _ from h)
      obtain ⟨a1, b1, -⟩ := ih _ _ _ hr hi ha h1
      split at h
      · cases h
        exact ⟨a1, b1, trivial⟩
      · obtain ⟨a2, b2, -⟩ := ih _ _ _ h a1 (b1.afters ha) h2
        exact ⟨a2, b1.trans b2 (.inl rfl), trivial⟩
  | form c cur =>
    have key : Inv lib N r.2 ∧ Ext N cur st r.2 := by
        simp only [run, step] at h
        split at h
        · cases h
          exact ⟨hi, .refl _ _⟩
        · cases c with
          | emit k =>
            cases h
            exact ⟨hi.note _ (by simp [About]) (by simp), .note _ (by simp [About])⟩
          | fail =>
            cases h
            exact quiet rfl (fun _ => rfl) rfl rfl fun _ => rfl
          | provide f =>
            cases h
            refine quiet rfl (fun _ => rfl) rfl (updateStruct_length _ _ _) fun i => ?_
            exact update_imports _ _ _ _ (.inr fun _ => rfl)
          | require f =>
            have hf : f ∈ N := contains_iff.1 hj
            obtain ⟨r', hr', rfl⟩ := Option.map_eq_some_iff.1 h
            clear h
            rw [leave_snd]
            unfold doRequire at hr'
            split at hr'
            · cases hr'; exact ⟨hi, .refl _ _⟩
            · split at hr'
              · cases hr'; exact ⟨hi, .refl _ _⟩
              · split at hr'
                · cases hr'
                  exact requireEnd_does hi
                · rename_i hg
                  obtain ⟨r1, h1, h2⟩ := Option.map_eq_some_iff.1 hr'
                  obtain ⟨a1, b1, c1⟩ := ih _ _ _ h1 hi ha ⟨f, hf, rfl, hg⟩
                  split at h2
                  · subst h2; exact ⟨a1, b1⟩
                  · subst h2; exact ⟨a1, b1⟩
                  · rename_i i hv
                    subst h2
                    obtain ⟨a2, b2⟩ := nameStruct_does (cur := cur) (i := i) (f := f) a1
                      fun _ => c1 f hf rfl i hv
                    obtain ⟨a3, b3⟩ := requireEnd_does (f := f) (cur := cur) a2
                    exact ⟨a3, (b1.trans b2 (.inl rfl)).trans b3 (.inl rfl)⟩
          | load file ne => simp [JobOk, Cmd.tidy] at hj
          | after file k => simp [JobOk, Cmd.tidy] at hj
          | «open» ms =>
            obtain ⟨r', hr', rfl⟩ := Option.map_eq_some_iff.1 h
            clear h
            rw [leave_snd]
            obtain ⟨a1, b1, -⟩ := ih _ _ _ hr' hi ha (all_contains hj)
            exact ⟨a1, b1⟩
          | define name opens body =>
            obtain ⟨r', hr', rfl⟩ := Option.map_eq_some_iff.1 h
            clear h
            rw [leave_snd]
            simp only [JobOk, Cmd.tidy, Bool.and_eq_true] at hj
            refine define_does ih hr' hi ha ?_ (all_contains hj.1.2) hj.2
            intro y hy
            have := hj.1.1
            rw [hy] at this
            simpa using this
          | «try» body =>
            obtain ⟨r', hr', h2⟩ := Option.map_eq_some_iff.1 h
            obtain ⟨a1, b1, -⟩ := ih _ _ _ hr' hi ha (show tidyL N body = true by simpa [JobOk, Cmd.tidy] using hj)
            split at h2
            · subst h2
              exact ⟨a1.quiet rfl (fun _ _ => rfl) (Nat.le_refl _),
                b1.trans (.quiet (cur := cur) rfl (fun _ _ => rfl) rfl (Nat.le_refl _)
                  fun _ _ _ _ => rfl) (.inl rfl)⟩
            · subst h2
              exact ⟨a1, b1⟩
    exact ⟨key.1, key.2, trivial⟩
  | load file ne cur =>
    obtain ⟨x, hx, hfile, hn⟩ := hj
    obtain ⟨a, b, c⟩ := load_does hL (fun m hm => IH m (by omega)) h hi ha hx hfile hn
    refine ⟨a, b, fun y hy hfy i hv => ?_⟩
    -- the names agree, since there is a file
    by_cases hyx : y = x
    · rw [hyx]; exact c i hv
    · exfalso
      cases hf : lib (structureFile x) with
      | some f => exact file_ne hL hx hy hf hyx (by rw [← hfile, hfy])
      | none =>
        rw [hfile] at h
        simp only [run, step, doLoad, hf] at h
        split at h
        · cases h; cases hv
        · cases h
          cases ne <;> simp at hv
  | again k l =>
    simp only [run, step, ha, takeAfter] at h
    cases h
    exact ⟨hi, .refl _ _, trivial⟩
  | thunks k ts =>
    have : ts = [] := hj
    subst this
    cases h
    exact ⟨hi, .refl _ _, trivial⟩
  | opens ms cur =>
    cases ms with
    | nil =>
      cases h
      exact ⟨hi, .refl _ _, fun _ _ him _ => ⟨him, by simp⟩⟩
    | cons m ms =>
      have hm : m ∈ N := hj m (by simp)
      have hms : ∀ m ∈ ms, m ∈ N := fun y hy => hj y (by simp [hy])
      simp only [run, step] at h
      split at h
      · rename_i himp
        obtain ⟨a, b, c⟩ := ih _ _ _ h hi ha hms
        refine ⟨a, b, fun h0 hl him hv => ?_⟩
        obtain ⟨c1, c2⟩ := c h0 hl him hv
        refine ⟨c1, fun y hy => ?_⟩
        rcases List.mem_cons.1 hy with rfl | hy
        · exact b.keep _ hm (him _ hm ((importp_iff _ _ _).1 himp))
        · exact c2 y hy
      · obtain ⟨r1, h1, h⟩ := Option.bind_eq_some_iff.1 h
        obtain ⟨a1, b1, c1⟩ := ih _ _ _ h1 hi ha hm
        have b1' : Ext N cur st r1.2 := (Ext.refl cur st).trans b1 (.inr (.inl rfl))
        obtain ⟨v1, s1⟩ := r1
        cases v1 with
        | struct i =>
          have hb := c1 i rfl
          have a2 : Inv lib N (s1.importName cur m) := a1.quiet rfl (fun _ _ => rfl)
            (by rw [St.importName, updateStruct_length]; exact Nat.le_refl _)
          have b2 : Ext N cur s1 (s1.importName cur m) := .quiet rfl (fun _ _ => rfl) rfl
            (by rw [St.importName, updateStruct_length]; exact Nat.le_refl _)
            fun i _ hc _ => importName_imports _ _ _ _ hc
          have b2 := b1'.trans b2 (.inl rfl)
          obtain ⟨a3, b3, c3⟩ := ih _ _ _ h a2 (b2.afters ha) hms
          refine ⟨a3, b2.trans b3 (.inl rfl), fun h0 hl him hv => ?_⟩
          obtain ⟨d1, d2⟩ := c3 h0 (by
            rw [St.importName, updateStruct_length]
            exact Nat.lt_of_lt_of_le hl b1.length) (fun x hx hmem => by
              show s1.get x ≠ none
              rcases importName_mem _ _ _ _ hmem with rfl | hmem
              · exact hb
              · rw [b1.frame cur h0 h0 hl] at hmem
                exact b1.keep x hx (him x hx hmem)) hv
          refine ⟨d1, fun y hy => ?_⟩
          rcases List.mem_cons.1 hy with rfl | hy
          · exact b3.keep _ hm hb
          · exact d2 y hy
        | _ =>
          cases h
          exact ⟨a1.quiet rfl (fun _ _ => rfl) (Nat.le_refl _),
            b1'.trans (.quiet (cur := cur) rfl (fun _ _ => rfl) rfl (Nat.le_refl _)
              fun _ _ _ _ => rfl) (.inl rfl), fun _ _ _ hv => absurd rfl hv⟩
  | intern x =>
    simp only [run, step] at h
    split at h
    · rename_i i hg
      cases h
      exact ⟨hi, .refl _ _, fun _ _ => by simp [hg]⟩
    · rename_i hg
      obtain ⟨a, b, c⟩ := ih _ _ _ h hi ha ⟨x, hj, rfl, hg⟩
      exact ⟨a, b, fun i hv => c x hj rfl i hv⟩

end Rep.Load
