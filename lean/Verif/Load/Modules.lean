/-
Loading libraries of modules: the invariant.
-/
import Verif.Load.Spec
import Mathlib.Tactic.ByContra

namespace Rep.Load

variable {lib : String → Option File} {thunk : Nat → List Cmd} {N : List String}

/-! ### Small facts -/

@[simp] theorem note_log (st : St) (e : Event) : (st.note e).log = st.log ++ [e] := rfl
@[simp] theorem note_get (st : St) (e : Event) (x : String) : (st.note e).get x = st.get x := rfl
@[simp] theorem note_afters (st : St) (e : Event) : (st.note e).afters = st.afters := rfl
@[simp] theorem note_structs (st : St) (e : Event) : (st.note e).structs = st.structs := rfl
@[simp] theorem note_throw (st : St) (e : Event) : (st.note e).throw = st.throw := rfl
@[simp] theorem signal_log (st : St) : st.signal.log = st.log := rfl
@[simp] theorem signal_get (st : St) (x : String) : st.signal.get x = st.get x := rfl
@[simp] theorem signal_afters (st : St) : st.signal.afters = st.afters := rfl
@[simp] theorem signal_structs (st : St) : st.signal.structs = st.structs := rfl

/-- The names imported by a structure. -/
def St.imports (st : St) (i : Nat) : List String := ((st.structs[i]?).map Struct.imports).getD []

theorem importp_iff (st : St) (cur : Nat) (f : String) :
    st.importp cur f = true ↔ f ∈ st.imports cur := by
  unfold St.importp St.imports
  cases st.structs[cur]? <;> simp

/-- What a change of a structure that is not one of its imports keeps. -/
theorem update_imports (st : St) (i j : Nat) (f : Struct → Struct)
    (h : i ≠ j ∨ ∀ s, (f s).imports = s.imports) :
    (st.updateStruct i f).imports j = st.imports j := by
  unfold St.updateStruct St.imports
  simp only [List.getElem?_modify]
  cases st.structs[j]? with
  | none => simp
  | some s =>
    by_cases hij : i = j
    · rcases h with h | h
      · exact absurd hij h
      · simp [hij, h s]
    · simp [hij]

/-! ### The effect of a job -/

/-- An event about the module `x`. -/
def About (x : String) (e : Event) : Prop :=
  e = .start x ∨ e = .done x ∨ e = .failed x ∨ e = .begin (structureFile x)

/-- The structure a job runs in. -/
def Job.cur : Job → Nat
  | .forms _ _ cur | .form _ cur | .load _ _ cur | .opens _ cur => cur
  | .again _ _ | .thunks _ _ | .intern _ => 0

/-- What happened between two states. -/
structure Ext (N : List String) (cur : Nat) (st st' : St) : Prop where
  log : ∃ ext, st'.log = st.log ++ ext ∧
    (∀ x ∈ N, ∀ e ∈ ext, About x e → st.get x = none) ∧
    (∀ x ∈ N, st.get x = none → st'.get x ≠ none → .done x ∈ ext)
  keep : ∀ x ∈ N, st.get x ≠ none → st'.get x ≠ none
  afters : st.afters = [] → st'.afters = []
  length : st.structs.length ≤ st'.structs.length
  frame : ∀ i, i ≠ 0 → i ≠ cur → i < st.structs.length → st'.imports i = st.imports i

theorem Ext.refl (cur : Nat) (st : St) : Ext N cur st st :=
  ⟨⟨[], by simp, by simp, fun x _ h h' => absurd h h'⟩, fun _ _ h => h, fun h => h, Nat.le_refl _,
    fun _ _ _ _ => rfl⟩

theorem Ext.trans {cur cur' : Nat} {a b c : St} (h1 : Ext N cur a b) (h2 : Ext N cur' b c)
    (hc : cur' = cur ∨ cur' = 0 ∨ a.structs.length ≤ cur') : Ext N cur a c := by
  obtain ⟨e1, l1, n1, d1⟩ := h1.log
  obtain ⟨e2, l2, n2, d2⟩ := h2.log
  refine ⟨⟨e1 ++ e2, by rw [l2, l1, List.append_assoc], ?_, ?_⟩, ?_, ?_,
    Nat.le_trans h1.length h2.length, ?_⟩
  · intro x hx e he ha
    rcases List.mem_append.1 he with he | he
    · exact n1 x hx e he ha
    · have := n2 x hx e he ha
      by_contra hn
      exact h1.keep x hx hn this
  · intro x hx hn hb
    by_cases hm : b.get x = none
    · exact List.mem_append_right _ (d2 x hx hm hb)
    · exact List.mem_append_left _ (d1 x hx hn hm)
  · exact fun x hx h => h2.keep x hx (h1.keep x hx h)
  · exact fun h => h2.afters (h1.afters h)
  · intro i h0 hi hl
    rw [h2.frame i h0 (by omega) (Nat.lt_of_lt_of_le hl h1.length), h1.frame i h0 hi hl]

/-- A change of what the invariant does not speak of. -/
theorem Ext.quiet {cur : Nat} {st st' : St} (hl : st'.log = st.log)
    (hg : ∀ x ∈ N, st'.get x = st.get x) (ha : st'.afters = st.afters)
    (hn : st.structs.length ≤ st'.structs.length)
    (hf : ∀ i, i ≠ 0 → i ≠ cur → i < st.structs.length → st'.imports i = st.imports i) :
    Ext N cur st st' :=
  ⟨⟨[], by simp [hl], by simp, fun x hx h h' => absurd h (by rwa [hg x hx] at h')⟩,
    fun x hx h => by rwa [hg x hx], fun h => by rwa [ha], hn, hf⟩

theorem Ext.note {cur : Nat} {st : St} (e : Event) (he : ∀ x ∈ N, ¬ About x e) :
    Ext N cur st (st.note e) :=
  ⟨⟨[e], by simp, fun x hx e' h ha => by
      rw [List.mem_singleton.1 h] at ha; exact absurd ha (he x hx),
    fun x _ h h' => absurd h h'⟩, fun _ _ h => h, fun h => h, Nat.le_refl _, fun _ _ _ _ => rfl⟩

/-! ### The invariant -/

/-- The module is complete, or is being made. -/
def Made (log : List Event) (x : String) : Prop := .done x ∈ log ∨ InProgress log x

/-- When the body of `m` begins, after `q`: since `m` was started, what it opens has
been completed, or it was completed or in progress before. -/
def OrderAt (lib : String → Option File) (N : List String) (q : List Event) (m : String) : Prop :=
  ∀ f opens, lib (structureFile m) = some f → ModuleFile N m opens f →
    ∃ pre mid, q = pre ++ .start m :: mid ∧ .start m ∉ mid ∧
      ∀ x ∈ opens, x ≠ m → .done x ∈ q ∨ InProgress pre x

def Order (lib : String → Option File) (N : List String) (log : List Event) : Prop :=
  ∀ q m post, m ∈ N → log = q ++ .body m :: post → OrderAt lib N q m

def begins (log : List Event) (x : String) : Nat := log.count (.begin (structureFile x))
def fails (log : List Event) (x : String) : Nat := log.count (.failed x)

structure Inv (lib : String → Option File) (N : List String) (st : St) : Prop where
  some : 0 < st.structs.length
  counts : ∀ x ∈ N, begins st.log x = fails st.log x + if (st.get x).isSome then 1 else 0
  made : ∀ x ∈ N, st.get x ≠ none → Made st.log x
  order : Order lib N st.log

theorem Order.snoc {log : List Event} {e : Event} (h : Order lib N log)
    (he : ∀ m ∈ N, e = .body m → OrderAt lib N log m) : Order lib N (log ++ [e]) := by
  intro q m post hm hl
  rcases List.eq_nil_or_concat post with rfl | ⟨post', e', rfl⟩
  · have := List.append_inj' hl rfl
    have h2 : e = .body m := by simpa using this.2
    rw [← this.1]
    exact he m hm h2
  · have : log ++ [e] = (q ++ .body m :: post') ++ [e'] := by rw [hl]; simp
    exact h q m post' hm (List.append_inj' this rfl).1

theorem InProgress.snoc {log : List Event} {x : String} {e : Event} (h : InProgress log x)
    (he : ¬ About x e) : InProgress (log ++ [e]) x := by
  obtain ⟨a, b, h, hs, hd, hf⟩ := h
  refine ⟨a, b ++ [e], by simp [h], ?_, ?_, ?_⟩ <;>
  · simp only [List.mem_append, List.mem_singleton, not_or]
    exact ⟨by assumption, fun h => he (by simp [About, ← h])⟩

theorem Made.snoc {log : List Event} {x : String} {e : Event} (h : Made log x)
    (he : ¬ About x e) : Made (log ++ [e]) x := by
  rcases h with h | h
  · exact Or.inl (List.mem_append_left _ h)
  · exact Or.inr (h.snoc he)

/-- An event about no module. -/
theorem Inv.note {st : St} (h : Inv lib N st) (e : Event) (he : ∀ x ∈ N, ¬ About x e)
    (hb : ∀ m ∈ N, e ≠ .body m) : Inv lib N (st.note e) := by
  refine ⟨h.some, fun x hx => ?_, fun x hx hn => (h.made x hx hn).snoc (he x hx),
    h.order.snoc fun m hm0 hm => absurd hm (hb m hm0)⟩
  have h1 : e ≠ .begin (structureFile x) := fun h => he x hx (by simp [About, h])
  have h2 : e ≠ .failed x := fun h => he x hx (by simp [About, h])
  have := h.counts x hx
  show begins (st.log ++ [e]) x = fails (st.log ++ [e]) x + if (st.get x).isSome then 1 else 0
  simp only [begins, fails, List.count_append, List.count_singleton] at this ⊢
  rw [if_neg (by simpa using h1), if_neg (by simpa using h2)]
  omega

theorem Inv.quiet {st st' : St} (h : Inv lib N st) (hl : st'.log = st.log)
    (hg : ∀ x ∈ N, st'.get x = st.get x) (hn : st.structs.length ≤ st'.structs.length) :
    Inv lib N st' :=
  ⟨Nat.lt_of_lt_of_le h.some hn, fun x hx => by rw [hl, hg x hx]; exact h.counts x hx,
    fun x hx => by rw [hl, hg x hx]; exact h.made x hx, by rw [hl]; exact h.order⟩

/-! ### Jobs -/

/-- Jobs of programs that are tidy. -/
def JobOk (N : List String) (st : St) : Job → Prop
  | .forms _ cs _ => tidyL N cs = true
  | .form c _ => c.tidy N = true
  | .load file _ _ => ∃ x ∈ N, file = structureFile x ∧ st.get x = none
  | .again _ _ => True
  | .thunks _ ts => ts = []
  | .opens ms _ => ∀ m ∈ ms, m ∈ N
  | .intern x => x ∈ N

/-- All imports of the structure are there. -/
def Imported (N : List String) (st : St) (cur : Nat) : Prop :=
  ∀ x ∈ N, x ∈ st.imports cur → st.get x ≠ none

/-- What holds of a finished job, in addition. -/
def Result (N : List String) (st : St) (r : Val × St) : Job → Prop
  | .load file _ _ => ∀ x ∈ N, file = structureFile x → ∀ i, r.1 = .struct i → r.2.get x ≠ none
  | .opens ms cur => cur ≠ 0 → cur < st.structs.length → Imported N st cur → r.1 ≠ .null →
      Imported N r.2 cur ∧ ∀ m ∈ ms, r.2.get m ≠ none
  | .intern x => ∀ i, r.1 = .struct i → r.2.get x ≠ none
  | _ => True

/-- What a job does. -/
def Does (lib : String → Option File) (thunk : Nat → List Cmd) (N : List String) (n : Nat) : Prop :=
  ∀ j st r, run lib thunk n j st = some r → Inv lib N st → st.afters = [] → JobOk N st j →
    Inv lib N r.2 ∧ Ext N j.cur st r.2 ∧ Result N st r j

/-! ### Changes of the state -/

theorem get_newStruct (st : St) (name : Option String) (x : String) :
    (st.newStruct name).get x = if name = some x then some st.structs.length else st.get x := by
  unfold St.newStruct St.get
  cases name with
  | none => simp
  | some y =>
    by_cases h : y = x
    · simp [h]
    · have : (x == y) = false := by simpa using fun h' => h h'.symm
      simp [List.lookup, this, h]

theorem get_unname (st : St) (name : Option String) (x : String) :
    (st.unname name).get x = if name = some x then none else st.get x := by
  unfold St.unname St.get
  cases name with
  | none => simp
  | some y =>
    by_cases h : y = x
    · simp [h]
    · have : (x == y) = false := by simpa using fun h' => h h'.symm
      simp [List.lookup, this, h]

theorem get_nameStruct (st : St) (i : Nat) (y x : String) :
    (st.nameStruct i y).get x = if y = x then some i else st.get x := by
  unfold St.nameStruct St.get
  by_cases h : y = x
  · simp [h]
  · have : (x == y) = false := by simpa using fun h' => h h'.symm
    simp [List.lookup, this, h]

theorem newStruct_imports (st : St) (name : Option String) {i : Nat} (hi : i < st.structs.length) :
    (st.newStruct name).imports i = st.imports i := by
  unfold St.newStruct St.imports
  simp [List.getElem?_append, hi]

theorem newStruct_imports_new (st : St) (name : Option String) :
    (st.newStruct name).imports st.structs.length = [] := by
  unfold St.newStruct St.imports
  simp

@[simp] theorem newStruct_length (st : St) (name : Option String) :
    (st.newStruct name).structs.length = st.structs.length + 1 := by
  simp [St.newStruct]

@[simp] theorem unname_structs (st : St) (name : Option String) :
    (st.unname name).structs = st.structs := by cases name <;> rfl
@[simp] theorem unname_log (st : St) (name : Option String) :
    (st.unname name).log = st.log := by cases name <;> rfl
@[simp] theorem unname_afters (st : St) (name : Option String) :
    (st.unname name).afters = st.afters := by cases name <;> rfl
theorem unname_imports (st : St) (name : Option String) (i : Nat) :
    (st.unname name).imports i = st.imports i := by cases name <;> rfl

theorem importName_imports (st : St) (cur i : Nat) (f : String) (h : i ≠ cur) :
    (st.importName cur f).imports i = st.imports i :=
  update_imports _ _ _ _ (.inl fun h' => h h'.symm)

theorem importName_mem (st : St) (cur : Nat) (f x : String)
    (h : x ∈ (st.importName cur f).imports cur) : x = f ∨ x ∈ st.imports cur := by
  unfold St.importName St.updateStruct St.imports at *
  simp only [List.getElem?_modify] at h
  cases hs : st.structs[cur]? with
  | none => simp [hs] at h
  | some s => simpa [hs] using h

theorem updateStruct_length (st : St) (i : Nat) (f : Struct → Struct) :
    (st.updateStruct i f).structs.length = st.structs.length := by
  simp [St.updateStruct]

/-- The end of `require`. -/
theorem requireEnd_does {st : St} {f : String} {cur : Nat} (hi : Inv lib N st) :
    Inv lib N (requireEnd f cur st).2 ∧ Ext N cur st (requireEnd f cur st).2 := by
  have hl : st.structs.length ≤ ((st.importName cur f).provide cur f).structs.length := by
    rw [St.provide, updateStruct_length, St.importName, updateStruct_length]
    exact Nat.le_refl _
  refine ⟨hi.quiet rfl (fun _ _ => rfl) hl, .quiet rfl (fun _ _ => rfl) rfl hl fun i _ hc _ => ?_⟩
  show ((st.importName cur f).provide cur f).imports i = _
  rw [St.provide, update_imports _ _ _ _ (.inl fun h => hc h.symm), importName_imports _ _ _ _ hc]

/-- Naming a structure by a name that is there. -/
theorem nameStruct_does {st : St} {f : String} {cur i : Nat} (hi : Inv lib N st)
    (hf : f ∈ N → st.get f ≠ none) :
    Inv lib N (st.nameStruct i f) ∧ Ext N cur st (st.nameStruct i f) := by
  have hg : ∀ x ∈ N, ((st.nameStruct i f).get x = none ↔ st.get x = none) := by
    intro x hx
    rw [get_nameStruct]
    by_cases h : f = x
    · subst h; simp [hf hx]
    · simp [h]
  have hl : (st.nameStruct i f).structs.length = st.structs.length := by
    simp only [St.nameStruct]
    exact updateStruct_length _ _ _
  refine ⟨⟨by rw [hl]; exact hi.some, fun x hx => ?_, fun x hx h => ?_, hi.order⟩,
    ⟨[], by simp [St.nameStruct, St.updateStruct], by simp, fun x hx h h' => absurd ((hg x hx).2 h) h'⟩,
    fun x hx h h' => h ((hg x hx).1 h'), fun h => h, by omega, fun j _ _ _ => ?_⟩
  · have := hi.counts x hx
    have h2 : ((st.nameStruct i f).get x).isSome = (st.get x).isSome := by
      rw [Bool.eq_iff_iff, Option.isSome_iff_ne_none, Option.isSome_iff_ne_none, ne_eq, ne_eq, hg x hx]
    rw [h2]; exact this
  · exact hi.made x hx fun h' => h ((hg x hx).2 h')
  · exact update_imports st _ _ _ (.inr fun _ => rfl)

/-! ### Structures being made -/

theorem noteName_get (st : St) (e : String → Event) (name : Option String) (x : String) :
    (st.noteName e name).get x = st.get x := by cases name <;> rfl
theorem noteName_structs (st : St) (e : String → Event) (name : Option String) :
    (st.noteName e name).structs = st.structs := by cases name <;> rfl
theorem noteName_afters (st : St) (e : String → Event) (name : Option String) :
    (st.noteName e name).afters = st.afters := by cases name <;> rfl
theorem noteName_imports (st : St) (e : String → Event) (name : Option String) (i : Nat) :
    (st.noteName e name).imports i = st.imports i := by cases name <;> rfl

/-- A note about a structure that is not a module. -/
theorem noteName_does {st : St} {e : String → Event} {name : Option String} {cur : Nat}
    (hi : Inv lib N st) (he : ∀ y, name = some y → (∀ x ∈ N, ¬ About x (e y)) ∧
      ∀ m ∈ N, e y ≠ .body m) :
    Inv lib N (st.noteName e name) ∧ Ext N cur st (st.noteName e name) := by
  cases name with
  | none => exact ⟨hi, .refl _ _⟩
  | some y => exact ⟨hi.note _ (he y rfl).1 (he y rfl).2, .note _ (he y rfl).1⟩

/-- A structure that is not a module. -/
theorem define_does {n : Nat} (ih : Does lib thunk N n) {name : Option String}
    {opens : List String} {body : List Cmd} {st : St} {r : Val × St} {cur : Nat}
    (h : doDefine (run lib thunk n) name opens body st = some r) (hi : Inv lib N st)
    (ha : st.afters = []) (hn : ∀ y, name = some y → y ∉ N) (ho : ∀ m ∈ opens, m ∈ N)
    (hb : tidyL N body = true) : Inv lib N r.2 ∧ Ext N cur st r.2 := by
  have hne : ∀ y, name = some y → ∀ x ∈ N, y ≠ x := fun y hy x hx h => hn y hy (h ▸ hx)
  have hnx : ∀ x ∈ N, name ≠ some x := fun x hx h => hn x h hx
  -- the new structure
  have a0 : Inv lib N (st.newStruct name) := hi.quiet rfl
    (fun x hx => by rw [get_newStruct, if_neg (hnx x hx)]) (by simp)
  have b0 : Ext N cur st (st.newStruct name) := .quiet rfl
    (fun x hx => by rw [get_newStruct, if_neg (hnx x hx)]) rfl (by simp)
    fun i _ _ hl => newStruct_imports _ _ hl
  obtain ⟨a1, b1⟩ := noteName_does (cur := cur) (e := .start) (name := name) a0 fun y hy =>
    ⟨fun x hx => by simp [About, hne y hy x hx], fun m _ => by simp⟩
  have b1 := b0.trans b1 (.inl rfl)
  -- what fails
  have fails : ∀ {s : St}, Inv lib N s → Ext N cur st s →
      Inv lib N ((s.unname name).noteName .failed name) ∧
      Ext N cur st ((s.unname name).noteName .failed name) := by
    intro s hs hx
    have c0 : Inv lib N (s.unname name) := hs.quiet (by simp)
      (fun x hx => by rw [get_unname, if_neg (hnx x hx)]) (by simp)
    have c1 : Ext N cur s (s.unname name) := .quiet (by simp)
      (fun x hx => by rw [get_unname, if_neg (hnx x hx)]) (by simp) (by simp)
      fun i _ _ _ => unname_imports _ _ _
    obtain ⟨c2, c3⟩ := noteName_does (cur := cur) (e := .failed) (name := name) c0 fun y hy =>
      ⟨fun x hx => by simp [About, hne y hy x hx], fun m _ => by simp⟩
    exact ⟨c2, (hx.trans c1 (.inl rfl)).trans c3 (.inl rfl)⟩
  obtain ⟨r1, h1, h⟩ := Option.bind_eq_some_iff.1 h
  obtain ⟨a2, b2, -⟩ := ih _ _ _ h1 a1 (b1.afters ha) ho
  have b2 := b1.trans b2 (.inr (.inr (by simp [Job.cur])))
  obtain ⟨v1, s1⟩ := r1
  cases hv : v1 with
  | null =>
    simp only [hv] at h
    cases h
    exact fails a2 b2
  | _ =>
    simp only [hv] at h
    obtain ⟨a3, b3⟩ := noteName_does (cur := cur) (e := .body) (name := name) a2 fun y hy =>
      ⟨fun x hx => by simp [About], fun m hm => by simpa using hne y hy m hm⟩
    have b3 := b2.trans b3 (.inl rfl)
    obtain ⟨r2, h2, rfl⟩ := Option.map_eq_some_iff.1 h
    obtain ⟨a4, b4, -⟩ := ih _ _ _ h2 a3 (b3.afters ha) hb
    have b4 := b3.trans b4 (.inr (.inr (by simp [Job.cur])))
    obtain ⟨v2, s2⟩ := r2
    cases v2 with
    | null => exact fails a4 b4
    | _ =>
      obtain ⟨a5, b5⟩ := noteName_does (cur := cur) (e := .done) (name := name) a4 fun y hy =>
        ⟨fun x hx => by simp [About, hne y hy x hx], fun m _ => by simp⟩
      exact ⟨a5, b4.trans b5 (.inl rfl)⟩

end Rep.Load
