/-
Loading libraries of modules: it ends.
-/
import Verif.Load.Does

namespace Rep.Load

variable {lib : String → Option File} {thunk : Nat → List Cmd} {N : List String}

/-! ### More steps -/

/-- The second is defined whenever the first is, and equal. -/
def Le {α : Type} (o o' : Option α) : Prop := ∀ r, o = some r → o' = some r

theorem Le.refl {α : Type} (o : Option α) : Le o o := fun _ h => h

theorem Le.bind {α β : Type} {o o' : Option α} {f f' : α → Option β} (h : Le o o')
    (hf : ∀ a, Le (f a) (f' a)) : Le (o.bind f) (o'.bind f') := by
  intro r hr
  obtain ⟨a, h1, h2⟩ := Option.bind_eq_some_iff.1 hr
  rw [h a h1]
  exact hf a r h2

theorem Le.map {α β : Type} {o o' : Option α} {f : α → β} (h : Le o o') :
    Le (o.map f) (o'.map f) := by
  intro r hr
  obtain ⟨a, h1, h2⟩ := Option.map_eq_some_iff.1 hr
  rw [h a h1, ← h2]
  rfl

theorem step_le {self self' : Job → St → Out} (h : ∀ j st, Le (self j st) (self' j st))
    (j : Job) (st : St) : Le (step lib thunk self j st) (step lib thunk self' j st) := by
  have hdef : ∀ name opens body st, Le (doDefine self name opens body st)
      (doDefine self' name opens body st) := by
    intro name opens body st
    refine Le.bind (h _ _) fun r => ?_
    cases r.1
    · exact .refl _
    · exact Le.map (h _ _)
    · exact Le.map (h _ _)
  have hreq : ∀ f cur st, Le (doRequire self f cur st) (doRequire self' f cur st) := by
    intro f cur st
    unfold doRequire
    split
    · exact .refl _
    · split
      · exact .refl _
      · split
        · exact .refl _
        · exact Le.map (h _ _)
  have hload : ∀ file ne cur st, Le (doLoad lib self file ne cur st)
      (doLoad lib self' file ne cur st) := by
    intro file ne cur st
    unfold doLoad
    split
    · exact .refl _
    · split
      · exact .refl _
      · refine Le.bind (Le.map (h _ _)) fun r => ?_
        split
        · exact .refl _
        · exact Le.map (h _ _)
  cases j with
  | forms v cs cur =>
    cases cs with
    | nil => exact .refl _
    | cons c cs =>
      refine Le.bind (h _ _) fun r => ?_
      split
      · exact .refl _
      · exact h _ _
  | form c cur =>
    simp only [step]
    split
    · exact .refl _
    · cases c with
      | emit k => exact .refl _
      | fail => exact .refl _
      | provide f => exact .refl _
      | require f => exact Le.map (hreq _ _ _)
      | load file ne => exact Le.map (h _ _)
      | after file k => exact .refl _
      | «open» ms => exact Le.map (h _ _)
      | define name opens body => exact Le.map (hdef _ _ _ _)
      | «try» body => exact Le.map (h _ _)
  | load file ne cur => exact hload _ _ _ _
  | again k l =>
    simp only [step]
    split
    · exact .refl _
    · exact Le.bind (h _ _) fun r => h _ _
  | thunks k ts =>
    cases ts with
    | nil => exact .refl _
    | cons t ts =>
      simp only [step]
      split
      · exact .refl _
      · exact Le.bind (h _ _) fun r => h _ _
  | opens ms cur =>
    cases ms with
    | nil => exact .refl _
    | cons m ms =>
      simp only [step]
      split
      · exact h _ _
      · refine Le.bind (h _ _) fun r => ?_
        cases r.1
        · exact .refl _
        · exact .refl _
        · exact h _ _
  | intern x =>
    simp only [step]
    split
    · exact .refl _
    · exact h _ _

theorem run_le : ∀ (n m : Nat), n ≤ m → ∀ j st, Le (run lib thunk n j st) (run lib thunk m j st)
  | 0, _, _, _, _ => fun _ h => nomatch h
  | n + 1, m + 1, h, j, st => step_le (run_le n m (by omega)) j st

/-- The job ends. -/
def Ends (lib : String → Option File) (thunk : Nat → List Cmd) (j : Job) (st : St) : Prop :=
  ∃ n r, run lib thunk n j st = some r

theorem run_eq {n m : Nat} {j : Job} {st : St} {r r' : Val × St}
    (h : run lib thunk n j st = some r) (h' : run lib thunk m j st = some r') : r = r' := by
  have h1 := run_le n (max n m) (by omega) j st r h
  have h2 := run_le m (max n m) (by omega) j st r' h'
  rw [h1] at h2
  exact Option.some.inj h2

/-- One more step. -/
theorem Ends.step {j : Job} {st : St}
    (h : ∃ n r, Rep.Load.step lib thunk (run lib thunk n) j st = some r) : Ends lib thunk j st := by
  obtain ⟨n, r, h⟩ := h
  exact ⟨n + 1, r, h⟩

/-- A job in two parts. -/
theorem ends_bind {j : Job} {st : St} {f : Nat → Val × St → Out}
    (hf : ∀ n m r, n ≤ m → Le (f n r) (f m r)) (h1 : Ends lib thunk j st)
    (h2 : ∀ n r, run lib thunk n j st = some r → ∃ m r', f m r = some r') :
    ∃ n r, (run lib thunk n j st).bind (f n) = some r := by
  obtain ⟨n, r, h⟩ := h1
  obtain ⟨m, r', h'⟩ := h2 n r h
  refine ⟨max n m, r', ?_⟩
  rw [run_le n (max n m) (by omega) j st r h]
  exact hf m _ r (by omega) r' h'

/-! ### Modules still to be made -/

/-- How many of the modules are not there. -/
def absent (N : List String) (st : St) : Nat := (N.filter fun x => (st.get x).isNone).length

theorem filter_le {p q : String → Bool} {l : List String} (h : ∀ x ∈ l, p x = true → q x = true) :
    (l.filter p).length ≤ (l.filter q).length := by
  induction l with
  | nil => simp
  | cons a l ih =>
    have ih := ih fun x hx => h x (by simp [hx])
    have ha := h a (by simp)
    simp only [List.filter_cons]
    cases hp : p a <;> cases hq : q a <;> simp_all <;> omega

theorem filter_lt {p q : String → Bool} {l : List String} (h : ∀ x ∈ l, p x = true → q x = true)
    {a : String} (ha : a ∈ l) (hp : p a = false) (hq : q a = true) :
    (l.filter p).length < (l.filter q).length := by
  induction l with
  | nil => cases ha
  | cons b l ih =>
    have hl : ∀ x ∈ l, p x = true → q x = true := fun x hx => h x (by simp [hx])
    have hb := h b (by simp)
    simp only [List.filter_cons]
    rcases List.mem_cons.1 ha with rfl | ha
    · have := filter_le hl
      simp [hp, hq]
      omega
    · have ih := ih hl ha
      cases hp' : p b <;> cases hq' : q b <;> simp_all <;> omega

theorem absent_le {cur : Nat} {st st' : St} (h : Ext N cur st st') : absent N st' ≤ absent N st := by
  refine filter_le fun x hx h1 => ?_
  rw [Option.isNone_iff_eq_none] at h1 ⊢
  by_contra hn
  exact h.keep x hx hn h1

theorem absent_started {st : St} {x : String} (hx : x ∈ N) (hn : st.get x = none) :
    absent N (started st x) < absent N st := by
  refine filter_lt (a := x) (fun y hy h1 => ?_) hx ?_ ?_
  · rw [Option.isNone_iff_eq_none] at h1 ⊢
    rw [started_get] at h1
    split at h1
    · cases h1
    · exact h1
  · rw [started_get]; simp
  · rw [hn]; rfl

/-- The states in which programs are run. -/
structure Ready (lib : String → Option File) (N : List String) (st : St) : Prop where
  inv : Inv lib N st
  afters : st.afters = []

/-- What is to be shown for states with at most `k` modules absent. -/
structure AllEnd (lib : String → Option File) (thunk : Nat → List Cmd) (N : List String)
    (k : Nat) : Prop where
  opens : ∀ st ms cur, Ready lib N st → absent N st ≤ k → (∀ m ∈ ms, m ∈ N) →
    Ends lib thunk (.opens ms cur) st
  forms : ∀ st v cs cur, Ready lib N st → absent N st ≤ k → tidyL N cs = true →
    Ends lib thunk (.forms v cs cur) st

theorem Ready.next (hL : ModuleLib N lib) {st : St} (h : Ready lib N st) {n : Nat} {j : Job}
    {r : Val × St} (hr : run lib thunk n j st = some r) (hj : JobOk N st j) :
    Ready lib N r.2 ∧ absent N r.2 ≤ absent N st := by
  obtain ⟨a, b, -⟩ := does hL n j st r hr h.inv h.afters hj
  exact ⟨⟨a, b.afters h.afters⟩, absent_le b⟩

theorem define_le (name : Option String) (opens : List String) (body : List Cmd) (st : St)
    (n m : Nat) (h : n ≤ m) : Le (doDefine (run lib thunk n) name opens body st)
      (doDefine (run lib thunk m) name opens body st) := by
  refine Le.bind (run_le n m h _ _) fun r => ?_
  cases r.1
  · exact .refl _
  · exact Le.map (run_le n m h _ _)
  · exact Le.map (run_le n m h _ _)

/-- Making a structure ends if its parts do. -/
theorem define_ends {name : Option String} {opens : List String} {body : List Cmd} {st : St}
    (h1 : Ends lib thunk (.opens opens st.structs.length)
      ((st.newStruct name).noteName .start name))
    (h2 : ∀ n r, run lib thunk n (.opens opens st.structs.length)
      ((st.newStruct name).noteName .start name) = some r →
      r.1 ≠ .null → Ends lib thunk (.forms .obj body st.structs.length) (r.2.noteName .body name)) :
    ∃ n r, doDefine (run lib thunk n) name opens body st = some r := by
  unfold doDefine
  refine ends_bind (f := fun n r => match r.1 with
      | .null => some (.null, (r.2.unname name).noteName .failed name)
      | _ =>
        (run lib thunk n (.forms .obj body st.structs.length) (r.2.noteName .body name)).map
          fun r2 => match r2.1 with
          | .null => (.null, (r2.2.unname name).noteName .failed name)
          | _ => (.struct st.structs.length, r2.2.noteName .done name)) ?_ h1 ?_
  · intro n m r hnm
    cases r.1
    · exact .refl _
    · exact Le.map (run_le n m hnm _ _)
    · exact Le.map (run_le n m hnm _ _)
  · intro n r hr
    have h2 := h2 n r hr
    cases hv : r.1 with
    | null => exact ⟨0, _, by simp only; rfl⟩
    | obj =>
      obtain ⟨m, r', h⟩ := h2 (by simp [hv])
      exact ⟨m, _, by simp only [h, Option.map_some]; rfl⟩
    | struct i =>
      obtain ⟨m, r', h⟩ := h2 (by simp [hv])
      exact ⟨m, _, by simp only [h, Option.map_some]; rfl⟩

/-- Loading a module ends if the rest does with one module less. -/
theorem load_ends (hL : ModuleLib N lib) {k : Nat} (ih : ∀ i, i < k → AllEnd lib thunk N i)
    {x : String} (hx : x ∈ N) {st : St} (hr : Ready lib N st) (hk : absent N st ≤ k)
    (hn : st.get x = none) (ne : Bool) (cur : Nat) :
    Ends lib thunk (.load (structureFile x) ne cur) st := by
  refine Ends.step ?_
  show ∃ n r, doLoad lib (run lib thunk n) (structureFile x) ne cur st = some r
  unfold doLoad
  cases ht : st.throw with
  | true => exact ⟨0, _, rfl⟩
  | false =>
    cases hf : lib (structureFile x) with
    | none => exact ⟨0, _, rfl⟩
    | some f =>
      obtain ⟨opens, hm⟩ := hL x hx f hf
      obtain ⟨body, hforms, hb⟩ := hm.forms
      have hs : Ready lib N (started st x) :=
        ⟨started_inv hL hx hf hr.inv hn, hr.afters⟩
      have hlt := absent_started hx hn
      have all := ih (absent N (started st x)) (by omega)
      -- the definition
      obtain ⟨n, r, hd⟩ : ∃ n r, doDefine (run lib thunk n) (some x) opens body
          (st.note (.begin (structureFile x))) = some r := by
        refine define_ends (all.opens _ _ _ hs (Nat.le_refl _) hm.opens) fun n r hn' hv => ?_
        change run lib thunk n (.opens opens st.structs.length) (started st x) = some r at hn'
        obtain ⟨a1, b1, c1⟩ := does hL n _ _ _ hn' hs.inv hs.afters hm.opens
        have hlen : (started st x).structs.length = st.structs.length + 1 := by
          simp [started, noteName_structs]
        have hnew : (started st x).imports st.structs.length = [] := by
          rw [started, noteName_imports]; exact newStruct_imports_new (st.note _) _
        have c1 := (c1 (by have := hr.inv.some; omega) (by omega)
          (fun y _ hy => by rw [hnew] at hy; cases hy) hv).2
        have a2 := body_inv hf hm hL hx hr.inv a1 b1 c1
        exact all.forms _ _ _ _ ⟨a2, b1.afters hs.afters⟩ (by show absent N r.2 ≤ _; exact absent_le b1) hb
      have h1 : run lib thunk (n + 1) (.form (.define (some x) opens body) cur)
          (st.note (.begin (structureFile x))) = some (leave r) := by
        simp only [run, step, note_throw, ht, Bool.false_eq_true, if_false, hd, Option.map_some]
      have h2 : run lib thunk (n + 2) (.forms .obj f.forms cur)
          (st.note (.begin (structureFile x))) = some (leave r) := by
        rw [hforms]
        show (run lib thunk (n + 1) _ _).bind _ = _
        rw [h1]
        simp only [Option.bind_some]
        split
        · rfl
        · rfl
      have hafter : r.2.afters = [] :=
        (module_does (cur := cur) hL (does hL n) hx hf hm hb hd hr.inv hr.afters hn).2.1.afters hr.afters
      refine ⟨n + 2, ?_⟩
      simp only [Bool.false_eq_true, if_false, loadFile, h2, Option.map_some, Option.bind_some]
      have haft : ∀ (r1 : Val × St), r1.2.afters = [] → ∃ r2, (if r1.1 = .null then some r1 else
          (run lib thunk (n + 2) (.again r1.2.loads (r1.2.libName (structureFile x) r1.1))
            (r1.2.noteRead (r1.2.libName (structureFile x) r1.1))).map fun r2 =>
              (r1.1, r2.2.note (.ret r1.2.loads (r1.2.libName (structureFile x) r1.1)))) = some r2 := by
        intro r1 ha
        split
        · exact ⟨_, rfl⟩
        · simp only [run, step, St.noteRead, ha, takeAfter, Option.map_some]
          exact ⟨_, rfl⟩
      refine haft _ ?_
      split
      · rw [signal_afters, note_afters, leave_snd]; exact hafter
      · rw [leave_snd]; exact hafter

theorem intern_ends (hL : ModuleLib N lib) {k : Nat} (ih : ∀ i, i < k → AllEnd lib thunk N i)
    {x : String} (hx : x ∈ N) {st : St} (hr : Ready lib N st) (hk : absent N st ≤ k) :
    Ends lib thunk (.intern x) st := by
  refine Ends.step ?_
  simp only [step]
  cases hg : st.get x with
  | some i => exact ⟨0, _, rfl⟩
  | none => exact load_ends hL ih hx hr hk hg _ _

theorem opens_ends (hL : ModuleLib N lib) {k : Nat} (ih : ∀ i, i < k → AllEnd lib thunk N i) :
    ∀ (ms : List String) (st : St) (cur : Nat), Ready lib N st → absent N st ≤ k →
      (∀ m ∈ ms, m ∈ N) → Ends lib thunk (.opens ms cur) st
  | [], _, _, _, _, _ => ⟨1, _, rfl⟩
  | m :: ms, st, cur, hr, hk, hm => by
    have hms : ∀ m ∈ ms, m ∈ N := fun y hy => hm y (by simp [hy])
    refine Ends.step ?_
    simp only [step]
    split
    · exact opens_ends hL ih ms st cur hr hk hms
    · refine ends_bind (f := fun n r => match r.1 with
          | .struct _ => run lib thunk n (.opens ms cur) (r.2.importName cur m)
          | _ => some (.null, r.2.signal)) ?_ (intern_ends hL ih (hm m (by simp)) hr hk) ?_
      · intro n p r hnp
        cases r.1
        · exact .refl _
        · exact .refl _
        · exact run_le n p hnp _ _
      · intro n r hn
        obtain ⟨hr1, hk1⟩ := hr.next hL hn (hm m (by simp))
        cases hv : r.1 with
        | null => exact ⟨0, _, by simp only; rfl⟩
        | obj => exact ⟨0, _, by simp only; rfl⟩
        | struct i =>
          simp only
          refine opens_ends hL ih ms (r.2.importName cur m) cur ⟨?_, hr1.afters⟩ ?_ hms
          · exact hr1.inv.quiet rfl (fun _ _ => rfl)
              (by rw [St.importName, updateStruct_length]; exact Nat.le_refl _)
          · exact Nat.le_trans hk1 hk

mutual
theorem form_ends (hL : ModuleLib N lib) {k : Nat} (ih : ∀ i, i < k → AllEnd lib thunk N i) :
    ∀ (c : Cmd) (st : St) (cur : Nat), Ready lib N st → absent N st ≤ k →
      c.tidy N = true → Ends lib thunk (.form c cur) st := by
  intro c st cur hr hk hc
  refine Ends.step ?_
  simp only [step]
  split
  · exact ⟨0, _, rfl⟩
  · match c with
    | .emit _ => exact ⟨0, _, rfl⟩
    | .fail => exact ⟨0, _, rfl⟩
    | .provide _ => exact ⟨0, _, rfl⟩
    | .require f =>
      have hf : f ∈ N := contains_iff.1 hc
      have : ∃ n r, doRequire (run lib thunk n) f cur st = some r := by
        unfold doRequire
        split
        · exact ⟨0, _, rfl⟩
        · split
          · exact ⟨0, _, rfl⟩
          · cases hg : st.get f with
            | some i => exact ⟨0, _, rfl⟩
            | none =>
              obtain ⟨n, r, h⟩ := load_ends hL ih hf hr hk hg false cur
              exact ⟨n, _, by simp only [h, Option.map_some]; rfl⟩
      obtain ⟨n, r, h⟩ := this
      exact ⟨n, _, by simp only [h, Option.map_some]; rfl⟩
    | .load _ _ => simp [Cmd.tidy] at hc
    | .after _ _ => simp [Cmd.tidy] at hc
    | .open ms =>
      obtain ⟨n, r, h⟩ := opens_ends hL ih ms st cur hr hk (all_contains hc)
      exact ⟨n, _, by simp only [h, Option.map_some]; rfl⟩
    | .define name opens body =>
      simp only [Cmd.tidy, Bool.and_eq_true] at hc
      have hnx : ∀ x ∈ N, name ≠ some x := by
        rintro x hx rfl
        have := hc.1.1
        simp [hx] at this
      have hne : ∀ y, name = some y → ∀ x ∈ N, y ≠ x := fun y hy x hx h => hnx x hx (h ▸ hy)
      have a0 : Inv lib N (st.newStruct name) := hr.inv.quiet rfl
        (fun x hx => by rw [get_newStruct, if_neg (hnx x hx)]) (by simp)
      have b0 : Ext N cur st (st.newStruct name) := .quiet rfl
        (fun x hx => by rw [get_newStruct, if_neg (hnx x hx)]) rfl (by simp)
        fun i _ _ hl => newStruct_imports _ _ hl
      obtain ⟨a1, b1⟩ := noteName_does (cur := cur) (e := .start) (name := name) a0 fun y hy =>
        ⟨fun x hx => by simp [About, hne y hy x hx], fun m _ => by simp⟩
      have b1 := b0.trans b1 (.inl rfl)
      have hr1 : Ready lib N ((st.newStruct name).noteName .start name) := ⟨a1, b1.afters hr.afters⟩
      have hk1 := absent_le b1
      have : ∃ n r, doDefine (run lib thunk n) name opens body st = some r := by
        refine define_ends (opens_ends hL ih opens _ _ hr1 (by omega) (all_contains hc.1.2)) ?_
        intro n r hn _
        obtain ⟨hr2, hk2⟩ := hr1.next hL hn (all_contains hc.1.2)
        obtain ⟨a3, b3⟩ := noteName_does (cur := cur) (e := .body) (name := name) hr2.inv fun y hy =>
          ⟨fun x hx => by simp [About], fun m hm => by simpa using hne y hy m hm⟩
        have := absent_le b3
        exact forms_ends hL ih body _ _ _ ⟨a3, b3.afters hr2.afters⟩ (by omega) hc.2
      obtain ⟨n, r, h⟩ := this
      exact ⟨n, _, by simp only [h, Option.map_some]; rfl⟩
    | .try body =>
      obtain ⟨n, r, h⟩ := forms_ends hL ih body .obj st cur hr hk (by simpa [Cmd.tidy] using hc)
      exact ⟨n, _, by simp only [h, Option.map_some]; rfl⟩
theorem forms_ends (hL : ModuleLib N lib) {k : Nat} (ih : ∀ i, i < k → AllEnd lib thunk N i) :
    ∀ (cs : List Cmd) (v : Val) (st : St) (cur : Nat), Ready lib N st → absent N st ≤ k →
      tidyL N cs = true → Ends lib thunk (.forms v cs cur) st := by
  intro cs v st cur hr hk hc
  match cs with
  | [] => exact ⟨1, _, rfl⟩
  | c :: cs =>
    obtain ⟨h1, h2⟩ := tidyL_mem hc
    refine Ends.step ?_
    simp only [step]
    refine ends_bind (f := fun n r => if r.1 = .null then some r
        else run lib thunk n (.forms r.1 cs cur) r.2) ?_ (form_ends hL ih c st cur hr hk h1) ?_
    · intro n p r hnp
      split
      · exact .refl _
      · exact run_le n p hnp _ _
    · intro n r hn
      obtain ⟨hr1, hk1⟩ := hr.next hL hn h1
      by_cases hv : r.1 = .null
      · exact ⟨0, r, by simp only [hv, if_true]⟩
      · simp only [hv, if_false]
        exact forms_ends hL ih cs r.1 r.2 cur hr1 (by omega) h2
end

theorem all_end (hL : ModuleLib N lib) (k : Nat) : AllEnd lib thunk N k := by
  induction k using Nat.strongRecOn with
  | ind k ih =>
    exact ⟨fun st ms cur hr hk hm => opens_ends hL ih ms st cur hr hk hm,
      fun st v cs cur hr hk hc => forms_ends hL ih cs v st cur hr hk hc⟩

end Rep.Load
