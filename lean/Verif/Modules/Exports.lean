import Verif.Modules.Props

/-
C50: what a structure exports.  C51: immutable bindings.  Both hold whatever is in the cache.
-/

namespace Rep.Mods

namespace Spec

/-! ### The declared interface -/

/-- How a call changes the declared interface of structure `s`. -/
def iface (s : Sid) (cur : List Nat) : Op → List Nat
  | .mk sig _ _ a _ => if a = s then sig else cur
  | .setInterface t sig => if t = s then sig else cur
  | .exportB t v => if t = s then v :: cur else cur
  | _ => cur

/-- The interface of `s` after a list of calls: the last one given as a whole, and the symbols
exported one by one since then. -/
def declared (ops : List Op) (s : Sid) : List Nat := ops.foldl (iface s) []

/-- The call does not unbind a variable of `s`, does not replace a primitive of `s` and does not
switch `s` to exporting everything. -/
def Plain (s : Sid) : Op → Prop
  | .define t _ x _ => t = s → x ≠ .void
  | .set t _ x _ => t = s → x ≠ .void
  | .addSubr t _ _ _ _ => t ≠ s
  | .exportsAll t _ => t ≠ s
  | _ => True

/-- The structure exports exactly the symbols of the list. -/
def Exports (m : SMod) (d : List Nat) : Prop :=
  m.exportAll = false ∧ ∀ v,
    (match m.binds v with
      | some b => b.exported
      | none => m.inherited.contains v) = d.contains v

theorem Exports.put {m : SMod} {d : List Nat} (h : Exports m d) {v : Nat} {b b' : Bind}
    (hb : m.binds v = some b) (he : b'.exported = b.exported) : Exports (m.put v (some b')) d := by
  refine ⟨h.1, fun w => ?_⟩
  simp only [SMod.put]
  by_cases e : w = v
  · subst e
    have := h.2 w
    rw [hb] at this
    simpa [he] using this
  · simpa [e] using h.2 w

theorem Exports.add {m : SMod} {d : List Nat} (h : Exports m d) {v : Nat} (x : Val)
    (hb : m.binds v = none) : Exports (m.add v x) d := by
  refine ⟨h.1, fun w => ?_⟩
  have hv := h.2 v
  rw [hb] at hv
  have hinh : m.exportsInherited v = d.contains v := by
    simp only [SMod.exportsInherited, h.1, Bool.false_or]
    exact hv
  simp only [SMod.add, SMod.put]
  by_cases e : w = v
  · subst e
    simp [hinh]
  · simp only [e, if_false]
    have := h.2 w
    cases hw : m.binds w with
    | some b => rw [hw] at this; exact this
    | none =>
      rw [hw] at this
      dsimp only at this ⊢
      rw [← this]
      split
      · rw [Bool.eq_iff_iff]
        simp [delq, e]
      · rfl

/-- The claim about the structure `s` of a state. -/
def Good (s : Sid) (g : SSt) (d : List Nat) : Prop := ∀ m, g.mods s = some m → Exports m d

theorem Good.setMod {s t : Sid} {g : SSt} {d : List Nat} (h : Good s g d) {m : SMod}
    (hm : t = s → Exports m d) : Good s (g.setMod t m) d := by
  intro m' hm'
  simp only [SSt.setMod] at hm'
  split at hm'
  · rename_i e
    cases hm'
    exact hm e.symm
  · exact h m' hm'

theorem Good.storePut {s t : Sid} {g : SSt} {d : List Nat} (h : Good s g d) {m : SMod} {v : Nat} {x : Val}
    (hm : g.mods t = some m) : Good s (Spec.put g t m v x).1 d := by
  unfold Spec.put
  cases hb : m.binds v with
  | some b =>
    dsimp only
    split
    · exact h
    · refine h.setMod ?_
      rintro rfl
      exact (h m hm).put hb rfl
  | none =>
    dsimp only
    refine h.setMod ?_
    rintro rfl
    exact (h m hm).add x hb

theorem Good.define {s t : Sid} {g : SSt} {d : List Nat} (h : Good s g d) {v : Nat} {x : Val}
    (hx : t = s → x ≠ .void) : Good s (Spec.define g t v x).1 d := by
  unfold Spec.define
  cases hm : g.mods t with
  | none => exact h
  | some m =>
    dsimp only
    split
    · rename_i e
      refine h.setMod ?_
      intro e'
      exact absurd e (hx e')
    · exact h.storePut hm

theorem Good.setVar {s t : Sid} {g : SSt} {d : List Nat} (h : Good s g d) {v : Nat} {x : Val}
    (hx : t = s → x ≠ .void) : Good s (Spec.setVar g t v x).1 d := by
  unfold Spec.setVar
  cases hm : g.mods t with
  | none => exact h
  | some m =>
    dsimp only
    split
    · rename_i e
      refine h.setMod ?_
      intro e'
      exact absurd e (hx e')
    · split
      · exact h.storePut hm
      · exact h

theorem Good.update {s t : Sid} {g : SSt} {d : List Nat} (h : Good s g d) {f : SMod → SMod} {o : Out}
    (hf : ∀ m, g.mods t = some m → t = s → Exports (f m) d) : Good s (Spec.update g t f o).1 d := by
  unfold Spec.update
  cases hm : g.mods t with
  | none => exact h
  | some m =>
    exact h.setMod (hf m hm)

/-- The update may also change what is declared. -/
theorem Good.update' {s t : Sid} {g : SSt} {d d' : List Nat} (h : Good s g d) {f : SMod → SMod} {o : Out}
    (hd : t ≠ s → d' = d) (hf : ∀ m, g.mods t = some m → t = s → Exports (f m) d') :
    Good s (Spec.update g t f o).1 d' := by
  by_cases e : t = s
  · subst e
    unfold Spec.update
    cases hm : g.mods t with
    | none =>
      intro m' hm'
      rw [hm] at hm'
      cases hm'
    | some m =>
      intro m' hm'
      simp only [SSt.setMod, if_true] at hm'
      cases hm'
      exact hf m hm rfl
  · rw [hd e]
    exact h.update fun m hm e' => absurd e' e

theorem Good.setName {s t : Sid} {g : SSt} {d : List Nat} (h : Good s g d) (x : Nat) :
    Good s (Spec.setName g t x) d := by
  unfold Spec.setName
  cases hm : g.mods t with
  | none => exact h
  | some m =>
    dsimp only
    split
    · refine h.setMod ?_
      rintro rfl
      exact h m hm
    · exact h

theorem Good.name {s t : Sid} {g : SSt} {d : List Nat} (h : Good s g d) (nm : Option Nat) :
    Good s (Spec.nameStructure g t nm).1 d := by
  unfold Spec.nameStructure
  cases hm : g.mods t with
  | none => exact h
  | some m =>
    cases nm with
    | some x => exact (h.define (fun _ => by simp)).setName x
    | none =>
      dsimp only
      split
      · exact h
      · exact h.define (fun _ => by simp)

theorem Good.addMeta {s t : Sid} {g : SSt} {d : List Nat} (h : Good s g d) : Good s (Spec.addMeta g t) d := by
  unfold Spec.addMeta
  cases hm : g.mods t with
  | none => exact h
  | some m =>
    refine h.setMod ?_
    rintro rfl
    exact h m hm

theorem good_step {s : Sid} {g : SSt} {d : List Nat} (op : Op) (hp : Plain s op) (h : Good s g d) :
    Good s (step g op).1 (iface s d op) := by
  have ask : ∀ (t : Sid) (f : SMod → Out), (ask g t f).1 = g := by
    intro t f
    unfold Spec.ask
    split <;> rfl
  cases op with
  | mk sig nm hdr a n =>
    simp only [step, mk, iface]
    have h1 : Good s (newMod g sig nm a) (if a = s then sig else d) := by
      intro m hm
      simp only [newMod, SSt.setMod] at hm
      split at hm
      · rename_i e
        cases hm
        rw [if_pos e.symm]
        exact ⟨rfl, fun v => rfl⟩
      · rename_i e
        rw [if_neg (fun e' => e e'.symm)]
        exact h m hm
    have h2 : Good s (if nm = none then newMod g sig nm a else (nameStructure (newMod g sig nm a) a nm).1)
        (if a = s then sig else d) := by
      split
      · exact h1
      · exact h1.name nm
    split
    · exact h2.addMeta
    · exact h2
  | endHeader t => exact h.update fun m hm e => by subst e; exact h m hm
  | nameIt t nm n => exact h.name nm
  | ref t v => simp only [step, ask]; exact h
  | boundP t v => simp only [step, ask]; exact h
  | immutableP t v => simp only [step, ask]; exact h
  | external c x v => exact h
  | exportsP t v => simp only [step, ask]; exact h
  | define t v x n => exact h.define hp
  | set t v x n => exact h.setVar hp
  | setInterface t sig =>
    refine h.update' (fun e => by simp [iface, e]) ?_
    rintro m hm rfl
    simp only [iface, if_true]
    refine ⟨rfl, fun v => ?_⟩
    simp only [SMod.withInterface]
    cases hb : m.binds v with
    | some b => rfl
    | none =>
      simp only [Option.map_none]
      rw [Bool.eq_iff_iff]
      simp [hb]
  | openS t l =>
    simp only [step]
    cases hm : g.mods t with
    | none => exact h
    | some m => exact h.setMod (by rintro rfl; exact h m hm)
  | access t l =>
    simp only [step]
    cases hm : g.mods t with
    | none => exact h
    | some m => exact h.setMod (by rintro rfl; exact h m hm)
  | exportB t v =>
    refine h.update' (fun e => by simp [iface, e]) ?_
    rintro m hm rfl
    simp only [iface, if_true]
    have hx := h m hm
    unfold exportOne
    cases hb : m.binds v with
    | some b =>
      refine ⟨hx.1, fun w => ?_⟩
      simp only [SMod.put, List.contains_cons]
      by_cases e : w = v
      · subst e; simp
      · have := hx.2 w
        simp only [e, if_false]
        rw [show (w == v) = false by simpa using e, Bool.false_or]
        exact this
    | none =>
      have hv := hx.2 v
      rw [hb] at hv
      dsimp only at hv ⊢
      have hinh : m.exportsInherited v = d.contains v := by
        simp only [SMod.exportsInherited, hx.1, Bool.false_or]
        exact hv
      rw [hinh]
      cases hd : d.contains v with
      | true =>
        refine ⟨hx.1, fun w => ?_⟩
        simp only [if_true, List.contains_cons]
        rw [hx.2 w]
        by_cases e : w = v
        · subst e; simpa using hd
        · rw [show (w == v) = false by simpa using e, Bool.false_or]
      | false =>
        refine ⟨hx.1, fun w => ?_⟩
        simp only [Bool.false_eq_true, if_false, List.contains_cons]
        by_cases e : w = v
        · subst e; rw [hb]; simp
        · rw [show (w == v) = false by simpa using e, Bool.false_or, Bool.false_or]
          exact hx.2 w
  | exportsAll t x => exact h.update fun m _ e => absurd e hp
  | setBinds t x => exact h.update fun m hm e => by subst e; exact h m hm
  | makeImmutable t v =>
    simp only [step]
    cases ho : own g t v with
    | none => exact h
    | some b =>
      refine h.update ?_
      rintro m hm rfl
      have hb : m.binds v = some b := by simpa [own, hm] using ho
      exact (h m hm).put hb rfl
  | addSubr t v x e n => exact h.update fun m _ e => absurd e hp
  | sweep X =>
    intro m hm
    simp only [step] at hm
    split at hm
    · cases hm
    · exact h m hm

end Spec

/-- **C50** (partial).  At any point of any history, `structure-exports-p` says yes for exactly
the symbols of the declared interface, if no variable of the structure was unbound, no primitive
was added to it and it was not made to export everything. -/
theorem C50_interface_partial {mn : Nat} {ops : List Op} {g : St} {os : List Out} {s : Sid}
    (hs : Along Safe (init mn) ops) (hp : ∀ op ∈ ops, Spec.Plain s op)
    (h : run (init mn) ops = some (g, os)) (hl : (g.mods s).isSome) (v : Nat) :
    ∃ o, step g (.exportsP s v) = some (g, o) ∧ (o = .no ↔ v ∉ Spec.declared ops s) ∧
      (o = .loc ∨ o = .ext ∨ o = .no) := by
  have hr := run_core (P := fun G done => (∀ op ∈ done, Spec.Plain s op) → Spec.Good s G (Spec.declared done s))
    (by
      intro G done op _ hG hpl
      have h1 := Spec.good_step op (hpl op (by simp)) (hG fun o ho => hpl o (by simp [ho]))
      simpa [Spec.declared] using h1) [] (init_base mn) hs
    (by
      intro _
      rw [init_abs]
      intro m hm
      simp only [Spec.init] at hm
      split at hm
      · cases hm; exact ⟨rfl, fun _ => rfl⟩
      · cases hm) h
  obtain ⟨hb, hG⟩ := hr
  rw [List.nil_append] at hG
  obtain ⟨m, hm⟩ := Option.isSome_iff_exists.1 hl
  have hE := hG hp _ (abs_mods hm)
  have hstep := exportsP_ok (s := s) (v := v) hb
  refine ⟨exportsP g s v, rfl, ?_⟩
  simp only [Spec.step, Spec.ask, abs_mods hm] at hstep
  rw [← (Prod.mk.inj hstep).2]
  unfold Spec.exportsP
  have hv := hE.2 v
  cases hbv : (absMod g m).binds v with
  | some b =>
    rw [hbv] at hv
    dsimp only at hv ⊢
    rw [hv]
    cases hc : (Spec.declared ops s).contains v <;> simp at hc <;> simp [hc]
  | none =>
    rw [hbv] at hv
    dsimp only at hv ⊢
    have : (absMod g m).exportsInherited v = (Spec.declared ops s).contains v := by
      simp only [Spec.SMod.exportsInherited, hE.1, Bool.false_or]
      exact hv
    rw [this]
    cases hc : (Spec.declared ops s).contains v <;> simp at hc <;> simp [hc]

/-- A search that finds something in an opened structure found it through its interface. -/
theorem lookupRec_exports {g : St} {v f : Nat} {ex : List Sid} {i : Imp} {c : Cache} {n : Nid}
    (h : (lookupRec g v f ex i c).1 = some n) :
    ∃ a m, resolve g i = some a ∧ g.mods a = some m ∧ exportsP g a v ≠ .no := by
  cases f with
  | zero => cases h
  | succ f =>
    simp only [lookupRec] at h
    cases hr : resolve g i with
    | none => rw [hr] at h; cases h
    | some a =>
      rw [hr] at h
      have hlive := resolve_live hr
      obtain ⟨m, hm⟩ := Option.isSome_iff_exists.1 hlive
      refine ⟨a, m, rfl, hm, ?_⟩
      dsimp only at h
      split at h
      · cases h
      · unfold lookupIn at h
        unfold exportsP
        rw [hm]
        rw [lookup_eq hm] at h
        dsimp only
        cases hl : lookupM g m v with
        | some x =>
          rw [hl] at h
          dsimp only at h ⊢
          split at h
          · rename_i e; simp [e]
          · cases h
        | none =>
          rw [hl] at h
          dsimp only at h ⊢
          split at h
          · rename_i e
            have : m.exportsInherited v = true := by simpa [inhOf, hm] using e
            simp [this]
          · cases h

/-- **C50** (partial).  Nothing else can be seen from outside: when `external-structure-ref` gives
a value, the symbol is in the interface that was declared for the structure of that name. -/
theorem C50_encapsulated_partial {mn : Nat} {ops : List Op} {g g' : St} {os : List Out} {c : Sid} {x v : Nat}
    {y : Val} (hs : Along Safe (init mn) ops) (h : run (init mn) ops = some (g, os))
    (hx : step g (.external c x v) = some (g', .val y)) :
    ∃ s, resolve g (.name x) = some s ∧
      ((∀ op ∈ ops, Spec.Plain s op) → v ∈ Spec.declared ops s) := by
  have hx' : (externalRef g c x v).2 = .val y := by
    have := congrArg (Option.map Prod.snd) hx
    simpa [step] using this
  unfold externalRef at hx'
  split at hx'
  · cases hx'
  · split at hx'
    · dsimp only at hx'
      cases hr : (lookupRec g v (g.top + 1) [] (.name x) g.cache).1 with
      | none =>
        rw [hr] at hx'
        simp [nodeVal] at hx'
      | some n =>
        obtain ⟨a, m, h1, h2, h3⟩ := lookupRec_exports hr
        refine ⟨a, h1, fun hp => ?_⟩
        obtain ⟨o, ho, hno, _⟩ := C50_interface_partial hs hp h (by simp [h2]) v
        have : o = exportsP g a v := by
          simp only [step, Option.some.injEq, Prod.mk.injEq] at ho
          exact ho.2.symm
        apply Classical.byContradiction
        intro hv
        exact h3 (this ▸ hno.2 hv)
    · cases hx'

example : ∀ op ∈ sampleRun, Spec.Plain 2 op := by
  intro op h
  simp only [sampleRun, List.mem_cons, List.not_mem_nil, or_false] at h
  rcases h with h | h | h | h | h | h | h | h | h | h | h | h | h | h | h | h | h | h | h | h | h | h | h | h | h | h | h <;>
    subst h <;> simp [Spec.Plain]

example : Spec.declared sampleRun 2 = [40, 8, 24] := by decide

/-- **C50 is violated**: a variable that is unbound and defined again is no longer exported. -/
theorem C50_unbind_violated :
    let ops : List Op := [.mk [8] none false 1 0, .define 1 8 (.obj 1) 10, .define 1 8 .void 11,
      .define 1 8 (.obj 2) 12]
    Along Safe (init 0) ops ∧ Spec.declared ops 1 = [8] ∧
      (run (init 0) (ops ++ [.exportsP 1 8])).map (·.2.getLast?) = some (some .no) :=
  ⟨safe_run (init_base 0) (by decide +kernel), by decide, by decide +kernel⟩

/-- **C50 is violated**: `(structure-exports-all s nil)` makes the structure export everything. -/
theorem C50_exports_all_nil_violated :
    let ops : List Op := [.mk [] none false 1 0, .exportsAll 1 .nil, .define 1 8 (.obj 1) 10]
    Along Safe (init 0) ops ∧
      (run (init 0) (ops ++ [.exportsP 1 8])).map (·.2.getLast?) = some (some .loc) :=
  ⟨safe_run (init_base 0) (by decide +kernel), by decide +kernel⟩

/-! ### C51 -/

namespace Spec

/-- The call does not unbind the variable `v` of `s`, does not replace it by a primitive and does
not free `s`. -/
def Keeps (s : Sid) (v : Nat) : Op → Prop
  | .define t w x _ => t = s → w = v → x ≠ .void
  | .set t w x _ => t = s → w = v → x ≠ .void
  | .addSubr t w _ _ _ => t = s → w ≠ v
  | .sweep X => s ∉ X
  | _ => True

/-- The variable `v` of `s` is immutable and has the value `x`. -/
def Fixed (s : Sid) (v : Nat) (x : Val) (g : SSt) : Prop :=
  ∃ m b, g.mods s = some m ∧ m.binds v = some b ∧ b.const = true ∧ b.val = x

theorem Fixed.setMod {s t : Sid} {v : Nat} {x : Val} {g : SSt} (h : Fixed s v x g) {m : SMod}
    (hm : t = s → ∃ b, m.binds v = some b ∧ b.const = true ∧ b.val = x) :
    Fixed s v x (g.setMod t m) := by
  by_cases e : t = s
  · obtain ⟨b, h1, h2, h3⟩ := hm e
    exact ⟨m, b, by simp [SSt.setMod, e], h1, h2, h3⟩
  · obtain ⟨m', b, h0, h1⟩ := h
    exact ⟨m', b, by simp [SSt.setMod, Ne.symm e, h0], h1⟩

theorem Fixed.same {s : Sid} {v : Nat} {x : Val} {g : SSt} (h : Fixed s v x g) {m : SMod}
    (hm : g.mods s = some m) : ∃ b, m.binds v = some b ∧ b.const = true ∧ b.val = x := by
  obtain ⟨m', b, h0, h1⟩ := h
  rw [hm] at h0
  cases h0
  exact ⟨b, h1⟩

theorem Fixed.put_ne {s : Sid} {v w : Nat} {x : Val} {g : SSt} (h : Fixed s v x g) {m : SMod}
    (hm : g.mods s = some m) (hw : w ≠ v) (b' : Option Bind) :
    ∃ b, (m.put w b').binds v = some b ∧ b.const = true ∧ b.val = x := by
  obtain ⟨b, h1⟩ := h.same hm
  refine ⟨b, ?_, h1.2⟩
  simp only [SMod.put, Ne.symm hw, if_false]
  exact h1.1

theorem Fixed.storePut {s t : Sid} {v w : Nat} {x y : Val} {g : SSt} (h : Fixed s v x g) {m : SMod}
    (hm : g.mods t = some m) : Fixed s v x (Spec.put g t m w y).1 := by
  unfold Spec.put
  by_cases e : t = s
  · subst e
    obtain ⟨b, h1, h2, h3⟩ := h.same hm
    by_cases ew : w = v
    · subst ew
      rw [h1]
      simp only [h2, if_true]
      exact h
    · cases hb : m.binds w with
      | some b' =>
        dsimp only
        split
        · exact h
        · exact h.setMod fun _ => h.put_ne hm ew _
      | none => exact h.setMod fun _ => h.put_ne hm ew _
  · cases hb : m.binds w with
    | some b' =>
      dsimp only
      split
      · exact h
      · exact h.setMod fun e' => absurd e' e
    | none => exact h.setMod fun e' => absurd e' e

theorem Fixed.define {s t : Sid} {v w : Nat} {x y : Val} {g : SSt} (h : Fixed s v x g)
    (hy : t = s → w = v → y ≠ .void) : Fixed s v x (Spec.define g t w y).1 := by
  unfold Spec.define
  cases hm : g.mods t with
  | none => exact h
  | some m =>
    dsimp only
    split
    · rename_i e
      refine h.setMod ?_
      rintro rfl
      exact h.put_ne hm (fun e' => hy rfl e' e) _
    · exact h.storePut hm

theorem Fixed.setVar {s t : Sid} {v w : Nat} {x y : Val} {g : SSt} (h : Fixed s v x g)
    (hy : t = s → w = v → y ≠ .void) : Fixed s v x (Spec.setVar g t w y).1 := by
  unfold Spec.setVar
  cases hm : g.mods t with
  | none => exact h
  | some m =>
    dsimp only
    split
    · rename_i e
      refine h.setMod ?_
      rintro rfl
      exact h.put_ne hm (fun e' => hy rfl e' e) _
    · split
      · exact h.storePut hm
      · exact h

theorem Fixed.update {s t : Sid} {v : Nat} {x : Val} {g : SSt} (h : Fixed s v x g) {f : SMod → SMod} {o : Out}
    (hf : ∀ m, g.mods t = some m → t = s → ∃ b, (f m).binds v = some b ∧ b.const = true ∧ b.val = x) :
    Fixed s v x (Spec.update g t f o).1 := by
  unfold Spec.update
  cases hm : g.mods t with
  | none => exact h
  | some m => exact h.setMod (hf m hm)

theorem Fixed.name {s t : Sid} {v : Nat} {x : Val} {g : SSt} (h : Fixed s v x g) (nm : Option Nat) :
    Fixed s v x (Spec.nameStructure g t nm).1 := by
  unfold Spec.nameStructure
  cases hm : g.mods t with
  | none => exact h
  | some m =>
    cases nm with
    | some z =>
      have h1 : Fixed s v x (Spec.define g g.names z (.struct t)).1 := h.define (fun _ _ => by simp)
      dsimp only
      unfold Spec.setName
      cases hm1 : (Spec.define g g.names z (.struct t)).1.mods t with
      | none => exact h1
      | some m1 =>
        dsimp only
        split
        · refine h1.setMod ?_
          rintro rfl
          exact (h1.same hm1 :)
        · exact h1
    | none =>
      dsimp only
      split
      · exact h
      · exact h.define (fun _ _ => by simp)

theorem fixed_step {s : Sid} {v : Nat} {x : Val} {g : SSt} (op : Op) (hk : Keeps s v op)
    (hmk : ∀ sig nm hdr a n, op = .mk sig nm hdr a n → g.mods a = none) (h : Fixed s v x g) :
    Fixed s v x (step g op).1 := by
  have ask : ∀ (t : Sid) (f : SMod → Out), (ask g t f).1 = g := by
    intro t f
    unfold Spec.ask
    split <;> rfl
  cases op with
  | mk sig nm hdr a n =>
    simp only [step, mk]
    have hsa : a ≠ s := by
      rintro rfl
      obtain ⟨m, b, h0, _⟩ := h
      rw [hmk sig nm hdr a n rfl] at h0
      cases h0
    have h1 : Fixed s v x (newMod g sig nm a) := by
      obtain ⟨m, b, h0, h1⟩ := h
      exact ⟨m, b, by simp [newMod, SSt.setMod, Ne.symm hsa, h0], h1⟩
    have h2 : Fixed s v x
        (if nm = none then newMod g sig nm a else (nameStructure (newMod g sig nm a) a nm).1) := by
      split
      · exact h1
      · exact h1.name nm
    split
    · unfold addMeta
      split
      · exact h2
      · exact h2.setMod fun e => absurd e hsa
    · exact h2
  | endHeader t => exact h.update fun m hm e => by subst e; exact (h.same hm :)
  | nameIt t nm n => exact h.name nm
  | ref t w => simp only [step, ask]; exact h
  | boundP t w => simp only [step, ask]; exact h
  | immutableP t w => simp only [step, ask]; exact h
  | external c y w => exact h
  | exportsP t w => simp only [step, ask]; exact h
  | define t w y n => exact h.define hk
  | set t w y n => exact h.setVar hk
  | setInterface t sig =>
    refine h.update ?_
    rintro m hm rfl
    obtain ⟨b, h1, h2⟩ := h.same hm
    exact ⟨{ b with exported := sig.contains v }, by simp [SMod.withInterface, h1], h2⟩
  | openS t l =>
    simp only [step]
    cases hm : g.mods t with
    | none => exact h
    | some m => exact h.setMod (by rintro rfl; exact (h.same hm :))
  | access t l =>
    simp only [step]
    cases hm : g.mods t with
    | none => exact h
    | some m => exact h.setMod (by rintro rfl; exact (h.same hm :))
  | exportB t w =>
    refine h.update ?_
    rintro m hm rfl
    obtain ⟨b, h1, h2⟩ := h.same hm
    unfold exportOne
    by_cases e : w = v
    · subst e
      rw [h1]
      exact ⟨{ b with exported := true }, by simp [SMod.put], h2⟩
    · cases hb : m.binds w with
      | some b' => exact h.put_ne hm e _
      | none =>
        dsimp only
        split <;> exact (h.same hm :)
  | exportsAll t y => exact h.update fun m hm e => by subst e; exact (h.same hm :)
  | setBinds t y => exact h.update fun m hm e => by subst e; exact (h.same hm :)
  | makeImmutable t w =>
    simp only [step]
    cases ho : own g t w with
    | none => exact h
    | some b' =>
      refine h.update ?_
      rintro m hm rfl
      by_cases e : w = v
      · subst e
        obtain ⟨b, h1, h2, h3⟩ := h.same hm
        have : b' = b := by
          have : m.binds w = some b' := by simpa [own, hm] using ho
          rw [h1] at this
          exact (Option.some.inj this).symm
        subst this
        exact ⟨{ b' with const := true }, by simp [SMod.put], rfl, h3⟩
      · exact h.put_ne hm e _
  | addSubr t w y e n =>
    refine h.update ?_
    rintro m hm rfl
    have hw : w ≠ v := hk rfl
    unfold addSubr
    cases hb : m.binds w with
    | some b' => exact h.put_ne hm hw _
    | none =>
      obtain ⟨b, h1, h2⟩ := h.same hm
      refine ⟨b, ?_, h2⟩
      simp only [SMod.put, SMod.add, Ne.symm hw, if_false]
      exact h1
  | sweep X =>
    obtain ⟨m, b, h0, h1⟩ := h
    refine ⟨m, b, ?_, h1⟩
    simp only [step]
    rw [if_neg hk]
    exact h0

end Spec

/-- What a fixed variable looks like to the caller. -/
theorem fixed_ref {g : St} {s : Sid} {v : Nat} {x : Val} (hb : Base g) (h : Spec.Fixed s v x (abs g)) :
    step g (.ref s v) = some (g, .val x) ∧
      ∀ y new, y ≠ .void → step g (.define s v y new) = some (g, .constError) ∧
        step g (.set s v y new) = some (g, .constError) := by
  obtain ⟨m', b, h0, h1, h2, h3⟩ := h
  simp only [abs] at h0
  obtain ⟨m, hm, rfl⟩ := Option.map_eq_some_iff.1 h0
  cases hl : lookupM g m v with
  | none => rw [binds_of_none hl] at h1; cases h1
  | some n =>
    obtain ⟨r, hr⟩ := hb.live hm (lookupM_mem hl)
    rw [binds_of_lookup hl hr] at h1
    cases h1
    have hlk : lookup g s v = some n := by rw [lookup_eq hm]; exact hl
    have hval : r.val = x := h3
    have hcon : r.const = true := h2
    constructor
    · simp only [step, ref, hm, find, hlk, nodeVal, hr]
      simp [hval]
    · intro y new hy
      have hst : storeVal g n y = (g, .constError) := by simp [storeVal, hr, hcon]
      constructor
      · simp only [step, define, hm, if_neg hy, lookupOrAdd, hl, hst]
      · simp only [step, setVar, hm, if_neg hy, lookupOrAdd, hl, hst]
        split <;> rfl

/-- **C51** (partial).  After `make-binding-immutable` the variable keeps its value, and all
attempts to set or define it fail, in every history in which it is not unbound or replaced by a
primitive and its structure lives. -/
theorem C51_immutable_partial {mn : Nat} {pre ops : List Op} {g g1 g2 q : St} {os os' : List Out} {s : Sid}
    {v : Nat} {x : Val} (hs : Along Safe (init mn) pre) (h : run (init mn) pre = some (g, os))
    (hx : step g (.ref s v) = some (q, .val x)) (hi : step g (.makeImmutable s v) = some (g1, .done))
    (hs' : Along Safe g1 ops) (hk : ∀ op ∈ ops, Spec.Keeps s v op)
    (h' : run g1 ops = some (g2, os')) :
    step g2 (.ref s v) = some (g2, .val x) ∧
      ∀ y new, y ≠ .void → step g2 (.define s v y new) = some (g2, .constError) ∧
        step g2 (.set s v y new) = some (g2, .constError) := by
  have hb : Base g := (run_core (P := fun _ _ => True) (fun _ _ _ _ _ => trivial) [] (init_base mn) hs
    trivial h).1
  have hb1 := step_core (op := .makeImmutable s v) hb trivial hi
  have hF : Spec.Fixed s v x (abs g1) := by
    rw [hb1.2]
    simp only [step] at hi
    have hi' : makeImmutable g s v = (g1, .done) := Option.some.inj hi
    unfold makeImmutable at hi'
    simp only [Spec.step, own_abs]
    cases hl : lookup g s v with
    | none => rw [hl] at hi'; cases hi'
    | some n =>
      rw [hl] at hi'
      cases hm : g.mods s with
      | none => simp [lookup, hm] at hl
      | some m =>
        have hl' := hl
        rw [lookup_eq hm] at hl'
        obtain ⟨r, hr⟩ := hb.live hm (lookupM_mem hl')
        simp only [Option.bind_some, hr, Option.map_some, Spec.update, abs_mods hm]
        have hval : r.val = x := by
          simp only [step, ref, hm, find, hl, nodeVal, hr] at hx
          simpa using (Prod.mk.inj (Option.some.inj hx)).2
        exact ⟨(absMod g m).put v (some { absNode r with const := true }), { absNode r with const := true },
          by simp [Spec.SSt.setMod], by simp [Spec.SMod.put], rfl, hval⟩
  have hr := run_core (P := fun G done => (∀ op ∈ done, Spec.Keeps s v op) → Spec.Fixed s v x G)
    (by
      intro G done op hmk hG hpl
      exact Spec.fixed_step op (hpl op (by simp)) hmk (hG fun o ho => hpl o (by simp [ho]))) [] hb1.1 hs'
    (fun _ => hF) h'
  rw [List.nil_append] at hr
  exact fixed_ref hr.1 (hr.2 hk)

/-- A history for C51: the value stays although it is set, defined, exported and searched for. -/
def fixedPre : List Op := [.mk [] none false 1 0, .define 1 8 (.obj 1) 10]
def fixedOps : List Op :=
  [.define 1 8 (.obj 2) 11, .set 1 8 (.obj 3) 12, .exportB 1 8, .setInterface 1 [], .define 1 16 (.obj 4) 13]

example : Along Safe (init 0) (fixedPre ++ [.makeImmutable 1 8] ++ fixedOps) :=
  safe_run (init_base 0) (by decide +kernel)

example : ∀ op ∈ fixedOps, Spec.Keeps 1 8 op := by
  intro op h
  simp only [fixedOps, List.mem_cons, List.not_mem_nil, or_false] at h
  rcases h with h | h | h | h | h <;> subst h <;> simp [Spec.Keeps]

example : (run (init 0) (fixedPre ++ [.ref 1 8, .makeImmutable 1 8] ++ fixedOps ++ [.ref 1 8])).map (·.2) =
    some [.sid 1, .val (.obj 1), .val (.obj 1), .done, .constError, .constError, .done, .done,
      .val (.obj 4), .val (.obj 1)] := by
  decide +kernel

/-- **C51 is violated**: `makunbound` removes an immutable binding, and then it can be defined
again. -/
theorem C51_unbind_violated :
    let ops : List Op := [.mk [] none false 1 0, .define 1 8 (.obj 1) 10, .makeImmutable 1 8,
      .define 1 8 .void 11, .define 1 8 (.obj 2) 12, .ref 1 8]
    Along Safe (init 0) ops ∧
      (run (init 0) ops).map (·.2.getLast?) = some (some (.val (.obj 2))) :=
  ⟨safe_run (init_base 0) (by decide +kernel), by decide +kernel⟩

end Rep.Mods
