/-
The invariant holds in every state of every program.
-/
import Verif.Gc.Collect

namespace Rep.Gc

variable {h h' : Heap} {roots : List Val} {free : List Nat}

theorem InUse.of_mem {free : List Nat} {a : Nat} (hu : InUse h free a) (e : h'.mem[a]? = h.mem[a]?) : InUse h' free a := by
  obtain ⟨c, h1, h2, h3⟩ := hu
  exact ⟨c, by rw [e]; exact h1, h2, h3⟩

theorem inUse_nil (inv : Inv h roots free) : InUse h free nil := by
  refine ⟨_, inv.nilCell, trivial, fun hn => ?_⟩
  obtain ⟨x, y, e⟩ := (inv.slots nil).mp (inv.freeSlots nil hn)
  rw [inv.nilCell] at e; cases e

theorem Inv.reach (inv : Inv h roots free) {a : Nat} (ha : Reach h.mem roots a) : InUse h free a :=
  inv.live a (ha.mono fun v hv => List.mem_append_left _ hv)

theorem Inv.has (inv : Inv h roots free) {a : Nat} (ha : Has h roots (.ref a)) : InUse h free a := by
  rcases ha with ⟨n, e⟩ | ⟨b, e, rfl | hb⟩
  · cases e
  · cases e; exact inUse_nil inv
  · cases e; exact inv.reach hb

/-! ### Collection -/

theorem live_of_m2 {m1 m2 : Nat → Bool} (inv : Inv h roots free) (c : Collected h roots m1 m2 h') {a : Nat}
    (ha : m2 a = true) : InUse h free a := by
  rcases (c.liveMarks a).mp ha with rfl | ⟨h1, _⟩
  · exact inUse_nil inv
  · exact inv.live a h1

/-- The cell after the collection of a cell that is kept. -/
theorem kept_cell {m1 m2 : Nat → Bool} (col : Collected h roots m1 m2 h') {a : Nat} {c : Cell}
    (hc : h.mem[a]? = some c) (hk : m2 a = true ∨ Permanent c) :
    ∃ c', h'.mem[a]? = some c' ∧ (Sound c → Sound c') ∧
      (c' = c ∨ (∃ acc inacc acc', c = .guardian acc inacc ∧
          c' = .guardian acc' ((acc.filter fun v => !markedV m1 v).reverse ++ inacc)) ∨
        (∃ v, c = .weakRef v ∧ c' = .weakRef (clear m2 v))) := by
  by_cases hp : Permanent c
  · exact ⟨c, col.mem_perm a c hc hp, id, Or.inl rfl⟩
  have hm : m2 a = true := hk.resolve_right hp
  by_cases hs : Special c
  · cases c with
    | cons x y => exact ⟨_, col.mem_cons a x y hc hm, id, Or.inl rfl⟩
    | guardian acc inacc =>
      refine ⟨_, col.mem_guardian a acc inacc hc, fun _ => ?_, Or.inr (Or.inl ⟨acc, inacc, acc.filter (markedV m1), rfl, ?_⟩)⟩
      · simp [hm, Sound]
      · simp [hm]
    | weakRef v =>
      refine ⟨_, col.mem_weak a v hc, fun _ => ?_, Or.inr (Or.inr ⟨v, rfl, ?_⟩)⟩
      · simp [hm, Sound]
      · simp [hm]
    | _ => simp [Special] at hs
  · exact ⟨c, by rw [col.mem_other a c hc hs hp]; simp [hm], id, Or.inl rfl⟩

theorem inUse_after {m1 m2 : Nat → Bool} (inv : Inv h roots free) (col : Collected h roots m1 m2 h') {a : Nat}
    (hu : InUse h free a) (hk : m2 a = true ∨ Live h roots a ∨ ∀ c, h.mem[a]? = some c → Permanent c) :
    InUse h' (h.slots.filter fun a => !m2 a).reverse a := by
  obtain ⟨c, hc, hs, _⟩ := hu
  have hk' : m2 a = true ∨ Permanent c := by
    rcases hk with hk | hk | hk
    · exact Or.inl hk
    · by_cases hp : Permanent c
      · exact Or.inr hp
      · exact Or.inl ((col.liveMarks a).mpr (Or.inr ⟨hk, c, hc, hp⟩))
    · exact Or.inr (hk c hc)
  obtain ⟨c', e, hs', _⟩ := kept_cell col hc hk'
  refine ⟨c', e, hs' hs, fun hf => ?_⟩
  simp only [List.mem_reverse, List.mem_filter] at hf
  rcases hk' with hk' | hk'
  · simp [hk'] at hf
  · obtain ⟨x, y, e'⟩ := (inv.slots a).mp hf.1
    rw [hc] at e'; cases e'; exact hk'

/-- A cell in use after the collection was kept. -/
theorem kept_of_inUse {m1 m2 : Nat → Bool} (inv : Inv h roots free) (col : Collected h roots m1 m2 h') {a : Nat}
    (hu : InUse h' (h.slots.filter fun a => !m2 a).reverse a) :
    ∃ c, h.mem[a]? = some c ∧ (m2 a = true ∨ Permanent c) := by
  obtain ⟨c', hc', hs, hf⟩ := hu
  cases hc : h.mem[a]? with
  | none => rw [col.mem_none a hc] at hc'; cases hc'
  | some c =>
    refine ⟨c, rfl, ?_⟩
    by_cases hp : Permanent c
    · exact Or.inr hp
    left
    cases hm : m2 a with
    | true => rfl
    | false =>
      exfalso
      by_cases hsp : Special c
      · cases c with
        | cons x y =>
          apply hf
          simp only [List.mem_reverse, List.mem_filter]
          exact ⟨(inv.slots a).mpr ⟨x, y, hc⟩, by simp [hm]⟩
        | guardian acc inacc =>
          have := col.mem_guardian a acc inacc hc
          rw [hc', hm] at this
          simp only [Option.some.injEq] at this
          rw [this] at hs; simp [Sound] at hs
        | weakRef v =>
          have := col.mem_weak a v hc
          rw [hc', hm] at this
          simp only [Option.some.injEq] at this
          rw [this] at hs; simp [Sound] at hs
        | _ => simp [Special] at hsp
      · have := col.mem_other a c hc hsp hp
        rw [hc', hm] at this
        simp only [Option.some.injEq] at this
        rw [this] at hs; simp [Sound] at hs

/-- A guardian after the collection. -/
theorem guardian_before {m1 m2 : Nat → Bool} (inv : Inv h roots free) (col : Collected h roots m1 m2 h') {g : Nat}
    {acc' inacc' : List Val} (hg : h'.mem[g]? = some (.guardian acc' inacc')) :
    ∃ acc inacc, h.mem[g]? = some (.guardian acc inacc) ∧ m2 g = true ∧ acc' = acc.filter (markedV m1) ∧
      inacc' = (acc.filter fun v => !markedV m1 v).reverse ++ inacc := by
  cases hc : h.mem[g]? with
  | none => rw [col.mem_none g hc] at hg; cases hg
  | some c =>
    by_cases hp : Permanent c
    · rw [col.mem_perm g c hc hp] at hg; cases hg; simp [Permanent] at hp
    by_cases hsp : Special c
    · cases c with
      | cons x y =>
        obtain ⟨_, _, e⟩ := col.mem_free g x y hc
        rw [hg] at e; cases e
      | guardian acc inacc =>
        rw [col.mem_guardian g acc inacc hc] at hg
        cases hm : m2 g with
        | false => simp [hm] at hg
        | true => simp [hm] at hg; exact ⟨acc, inacc, rfl, rfl, hg.1.symm, hg.2.symm⟩
      | weakRef v =>
        rw [col.mem_weak g v hc] at hg
        cases hm : m2 g <;> simp [hm] at hg
      | _ => simp [Special] at hsp
    · rw [col.mem_other g c hc hsp hp] at hg
      cases hm : m2 g with
      | false => simp [hm] at hg
      | true => simp [hm] at hg; subst hg; simp [Special] at hsp

/-- A weak reference after the collection. -/
theorem weak_before {m1 m2 : Nat → Bool} (inv : Inv h roots free) (col : Collected h roots m1 m2 h') {r : Nat} {v' : Val}
    (hr : h'.mem[r]? = some (.weakRef v')) : ∃ v, h.mem[r]? = some (.weakRef v) ∧ m2 r = true ∧ v' = clear m2 v := by
  cases hc : h.mem[r]? with
  | none => rw [col.mem_none r hc] at hr; cases hr
  | some c =>
    by_cases hp : Permanent c
    · rw [col.mem_perm r c hc hp] at hr; cases hr; simp [Permanent] at hp
    by_cases hsp : Special c
    · cases c with
      | cons x y =>
        obtain ⟨_, _, e⟩ := col.mem_free r x y hc
        rw [hr] at e; cases e
      | guardian acc inacc =>
        rw [col.mem_guardian r acc inacc hc] at hr
        cases hm : m2 r <;> simp [hm] at hr
      | weakRef v =>
        rw [col.mem_weak r v hc] at hr
        cases hm : m2 r with
        | false => simp [hm] at hr
        | true => simp [hm] at hr; exact ⟨v, rfl, rfl, hr.symm⟩
      | _ => simp [Special] at hsp
    · rw [col.mem_other r c hc hsp hp] at hr
      cases hm : m2 r with
      | false => simp [hm] at hr
      | true => simp [hm] at hr; subst hr; simp [Special] at hsp

theorem guarded_after {m1 m2 : Nat → Bool} (inv : Inv h roots free) (col : Collected h roots m1 m2 h') {v : Val}
    (hv : v ∈ guarded h') : v ∈ guarded h := by
  obtain ⟨g, hg, hv⟩ := List.mem_flatMap.mp hv
  rw [col.guardians] at hg
  simp only [List.mem_reverse, List.mem_filter] at hg
  unfold accessibleOf at hv
  split at hv
  · rename_i acc' inacc' he
    obtain ⟨acc, inacc, e1, _, e3, _⟩ := guardian_before inv col he
    subst e3
    refine accessibleOf_mem hg.1 ?_
    unfold accessibleOf; rw [e1]
    exact (List.mem_filter.mp hv).1
  · simp at hv

theorem inv_collected {m1 m2 : Nat → Bool} (inv : Inv h roots free) (col : Collected h roots m1 m2 h') :
    Inv h' roots (h.slots.filter fun a => !m2 a).reverse where
  marks := col.marked
  nilCell := by
    have := col.mem_other nil _ inv.nilCell (by simp [Special]) (by simp [Permanent])
    rw [this, (col.liveMarks nil).mpr (Or.inl rfl)]; rfl
  slotsNodup := by rw [col.slots]; exact inv.slotsNodup
  slots := by
    intro a
    rw [col.slots, inv.slots a]
    constructor
    · rintro ⟨x, y, e⟩; exact col.mem_free a x y e
    · rintro ⟨x, y, e⟩
      cases hc : h.mem[a]? with
      | none => rw [col.mem_none a hc] at e; cases e
      | some c =>
        by_cases hp : Permanent c
        · rw [col.mem_perm a c hc hp] at e; cases e; simp [Permanent] at hp
        by_cases hsp : Special c
        · cases c with
          | cons x y => exact ⟨x, y, rfl⟩
          | guardian acc inacc =>
            rw [col.mem_guardian a acc inacc hc] at e
            cases hm : m2 a <;> simp [hm] at e
          | weakRef v =>
            rw [col.mem_weak a v hc] at e
            cases hm : m2 a <;> simp [hm] at e
          | _ => simp [Special] at hsp
        · rw [col.mem_other a c hc hsp hp] at e
          cases hm : m2 a with
          | false => simp [hm] at e
          | true => simp [hm] at e; subst e; simp [Special] at hsp
  guardiansNodup := by rw [col.guardians]; exact (List.nodup_reverse.mpr (inv.guardiansNodup.filter _))
  guardians := by
    intro a
    rw [col.guardians]
    simp only [List.mem_reverse, List.mem_filter]
    constructor
    · rintro ⟨ha, hm⟩
      obtain ⟨acc, inacc, e⟩ := (inv.guardians a).mp ha
      rw [col.mem_guardian a acc inacc e]
      exact ⟨_, _, by rw [if_pos hm]⟩
    · rintro ⟨acc', inacc', e⟩
      obtain ⟨acc, inacc, e1, hm, _⟩ := guardian_before inv col e
      exact ⟨(inv.guardians a).mpr ⟨acc, inacc, e1⟩, hm⟩
  weakNodup := by rw [col.weakRefs]; exact (List.nodup_reverse.mpr (inv.weakNodup.filter _))
  weakRefs := by
    intro a
    rw [col.weakRefs]
    simp only [List.mem_reverse, List.mem_filter]
    constructor
    · rintro ⟨ha, hm⟩
      obtain ⟨v, e⟩ := (inv.weakRefs a).mp ha
      rw [col.mem_weak a v e]
      exact ⟨_, by rw [if_pos hm]⟩
    · rintro ⟨v', e⟩
      obtain ⟨v, e1, hm, _⟩ := weak_before inv col e
      exact ⟨(inv.weakRefs a).mpr ⟨v, e1⟩, hm⟩
  weakTargets := by
    intro r v' hr
    obtain ⟨v, e1, hm, rfl⟩ := weak_before inv col hr
    rcases inv.weakTargets r v e1 with ⟨n, rfl⟩ | ⟨a, rfl, hu⟩
    · exact Or.inl ⟨n, rfl⟩
    · right
      cases hma : m2 a with
      | true => exact ⟨a, by simp [clear, hma], inUse_after inv col hu (Or.inl hma)⟩
      | false =>
        exact ⟨nil, by simp [clear, hma], inUse_after inv col (inUse_nil inv)
          (Or.inl ((col.liveMarks nil).mpr (Or.inl rfl)))⟩
  registered := by
    intro v hv
    have hv' := guarded_after inv col hv
    obtain ⟨a, rfl, hu⟩ := inv.registered v hv'
    exact ⟨a, rfl, inUse_after inv col hu (Or.inr (Or.inl (.root (List.mem_append_right _ hv'))))⟩
  roots := by
    intro a ha
    exact inUse_after inv col (inv.roots a ha) (Or.inr (Or.inl (.root (List.mem_append_left _ ha))))
  kids := by
    intro a b c' hu hc' hk
    obtain ⟨c, hc, hkept⟩ := kept_of_inUse inv col hu
    obtain ⟨c'', e, _, hrel⟩ := kept_cell col hc hkept
    rw [hc'] at e; cases e
    -- a kept cell with children is live
    have hlive : ∀ x, Val.ref x ∈ kids c → Live h roots x ∨ x = nil := by
      intro x hx
      by_cases hn : a = nil
      · subst hn; exact Or.inr (nil_kids inv hc hx)
      · left
        have hm : m2 a = true := by
          rcases hkept with h | h
          · exact h
          · obtain ⟨c0, e0, hp⟩ := markable_of_kid hc hx
            rw [hc] at e0; cases e0; exact absurd h hp
        rcases (col.liveMarks a).mp hm with h | ⟨h, _⟩
        · exact absurd h hn
        · exact .step h hc hx
    have hb : Live h roots b ∨ b = nil := by
      rcases hrel with rfl | ⟨acc, inacc, acc', rfl, rfl⟩ | ⟨v, rfl, rfl⟩
      · exact hlive b hk
      · simp only [kids, List.mem_append, List.mem_reverse, List.mem_filter] at hk
        rcases hk with hk | hk
        · left
          refine .root (List.mem_append_right _ (accessibleOf_mem ((inv.guardians a).mpr ⟨acc, inacc, hc⟩) ?_))
          unfold accessibleOf; rw [hc]; exact hk.1
        · exact hlive b hk
      · simp [kids] at hk
    rcases hb with hb | rfl
    · exact inUse_after inv col (inv.live b hb) (Or.inr (Or.inl hb))
    · exact inUse_after inv col (inUse_nil inv) (Or.inl ((col.liveMarks nil).mpr (Or.inl rfl)))
  chain := col.chain
  freeNodup := List.nodup_reverse.mpr (inv.slotsNodup.filter _)
  freeSlots := by
    intro a ha
    rw [col.slots]
    simp only [List.mem_reverse, List.mem_filter] at ha
    exact ha.1
  used := by
    rw [col.used, col.slots, List.length_reverse]
    have := List.length_eq_length_filter_add (l := h.slots) m2
    omega

/-! ### The program's steps -/

/-- The kind of a cell as far as the collector's lists are concerned. -/
def kind : Cell → Nat
  | .cons _ _ => 0
  | .guardian _ _ => 1
  | .weakRef _ => 2
  | _ => 3

theorem kind_cons {c : Cell} : kind c = 0 ↔ ∃ x y, c = .cons x y := by cases c <;> simp [kind]
theorem kind_guardian {c : Cell} : kind c = 1 ↔ ∃ x y, c = .guardian x y := by cases c <;> simp [kind]
theorem kind_weak {c : Cell} : kind c = 2 ↔ ∃ v, c = .weakRef v := by cases c <;> simp [kind]

/-- The objects a cell holds without keeping them alive are in use. -/
def HeldOk (P : Nat → Prop) : Cell → Prop
  | .guardian acc _ => ∀ v ∈ acc, ∃ a, v = .ref a ∧ P a
  | .weakRef v => (∃ n, v = .int n) ∨ ∃ a, v = .ref a ∧ P a
  | _ => True

theorem Inv.held (inv : Inv h roots free) {a : Nat} {c : Cell} (hc : h.mem[a]? = some c) : HeldOk (InUse h free) c := by
  cases c with
  | guardian acc inacc =>
    intro v hv
    refine inv.registered v (accessibleOf_mem ((inv.guardians a).mpr ⟨acc, inacc, hc⟩) ?_)
    unfold accessibleOf; rw [hc]; exact hv
  | weakRef v => exact inv.weakTargets a v hc
  | _ => trivial

/-- Replacing the contents of a cell that is in use. -/
theorem inv_write (inv : Inv h roots free) {a : Nat} {c0 c : Cell} {roots' : List Val} (hu : InUse h free a)
    (hn : a ≠ nil) (hc0 : h.mem[a]? = some c0) (hk : kind c = kind c0) (hs : Sound c)
    (hkids : ∀ b, Val.ref b ∈ kids c → InUse h free b) (hheld : HeldOk (InUse h free) c)
    (hroots : ∀ b, Val.ref b ∈ roots' → InUse h free b) : Inv (write h a c) roots' free := by
  have hlt := (List.getElem?_eq_some_iff.mp hc0).1
  have hself : (write h a c).mem[a]? = some c := List.getElem?_set_self hlt
  have hother : ∀ b, b ≠ a → (write h a c).mem[b]? = h.mem[b]? := fun b hb => List.getElem?_set_ne (Ne.symm hb)
  have hkind : ∀ (n : Nat) (b : Nat), (∃ d, (write h a c).mem[b]? = some d ∧ kind d = n) ↔ ∃ d, h.mem[b]? = some d ∧ kind d = n := by
    intro n b
    by_cases hb : b = a
    · subst hb; rw [hself, hc0]; simp [hk]
    · rw [hother b hb]
  have huse : ∀ b, InUse h free b → InUse (write h a c) free b := by
    rintro b ⟨d, e1, e2, e3⟩
    by_cases hb : b = a
    · subst hb; exact ⟨c, hself, hs, e3⟩
    · exact ⟨d, by rw [hother b hb]; exact e1, e2, e3⟩
  have huse' : ∀ b, InUse (write h a c) free b → InUse h free b := by
    rintro b ⟨d, e1, e2, e3⟩
    by_cases hb : b = a
    · subst hb; exact hu
    · exact ⟨d, by rw [← hother b hb]; exact e1, e2, e3⟩
  have hheld' : ∀ (b : Nat) d, (write h a c).mem[b]? = some d → HeldOk (InUse (write h a c) free) d := by
    intro b d hd
    have : HeldOk (InUse h free) d := by
      by_cases hb : b = a
      · subst hb; rw [hself] at hd; cases hd; exact hheld
      · rw [hother b hb] at hd; exact inv.held hd
    cases d with
    | guardian acc inacc =>
      intro v hv; obtain ⟨x, e, hx⟩ := this v hv; exact ⟨x, e, huse x hx⟩
    | weakRef v => exact this.imp id fun ⟨x, e, hx⟩ => ⟨x, e, huse x hx⟩
    | _ => trivial
  have hfree : ∀ x ∈ free, x ≠ a := by
    rintro x hx rfl; obtain ⟨_, _, _, h3⟩ := hu; exact h3 hx
  exact
    { marks := inv.marks
      nilCell := by rw [hother nil (Ne.symm hn)]; exact inv.nilCell
      slotsNodup := inv.slotsNodup
      slots := by
        intro b
        refine (inv.slots b).trans ?_
        have := hkind 0 b
        simp only [kind_cons] at this
        constructor
        · rintro ⟨x, y, e⟩; obtain ⟨d, e1, x', y', rfl⟩ := this.mpr ⟨_, e, x, y, rfl⟩; exact ⟨x', y', e1⟩
        · rintro ⟨x, y, e⟩; obtain ⟨d, e1, x', y', rfl⟩ := this.mp ⟨_, e, x, y, rfl⟩; exact ⟨x', y', e1⟩
      guardiansNodup := inv.guardiansNodup
      guardians := by
        intro b
        refine (inv.guardians b).trans ?_
        have := hkind 1 b
        simp only [kind_guardian] at this
        constructor
        · rintro ⟨x, y, e⟩; obtain ⟨d, e1, x', y', rfl⟩ := this.mpr ⟨_, e, x, y, rfl⟩; exact ⟨x', y', e1⟩
        · rintro ⟨x, y, e⟩; obtain ⟨d, e1, x', y', rfl⟩ := this.mp ⟨_, e, x, y, rfl⟩; exact ⟨x', y', e1⟩
      weakNodup := inv.weakNodup
      weakRefs := by
        intro b
        refine (inv.weakRefs b).trans ?_
        have := hkind 2 b
        simp only [kind_weak] at this
        constructor
        · rintro ⟨x, e⟩; obtain ⟨d, e1, x', rfl⟩ := this.mpr ⟨_, e, x, rfl⟩; exact ⟨x', e1⟩
        · rintro ⟨x, e⟩; obtain ⟨d, e1, x', rfl⟩ := this.mp ⟨_, e, x, rfl⟩; exact ⟨x', e1⟩
      weakTargets := fun r v e => hheld' r _ e
      registered := by
        intro v hv
        obtain ⟨g, hg, hv⟩ := List.mem_flatMap.mp hv
        unfold accessibleOf at hv
        split at hv
        · rename_i acc inacc e
          exact hheld' g _ e v hv
        · simp at hv
      roots := fun b hb => huse b (hroots b hb)
      kids := by
        intro x b d hx hd hb
        by_cases hxa : x = a
        · subst hxa; rw [hself] at hd; cases hd; exact huse b (hkids b hb)
        · rw [hother x hxa] at hd; exact huse b (inv.kids x b d (huse' x hx) hd hb)
      chain := inv.chain.congr fun x hx => hother x (hfree x hx)
      freeNodup := inv.freeNodup
      freeSlots := inv.freeSlots
      used := inv.used }

/-- A new cell that is not a cons. -/
theorem inv_new (inv : Inv h roots free) {c : Cell} (hk : kind c ≠ 0) (hs : Sound c)
    (hkids : ∀ b, Val.ref b ∈ kids c → InUse h free b) (hheld : HeldOk (InUse h free) c) :
    Inv { h with
      mem := h.mem ++ [c]
      guardians := if kind c = 1 then h.mem.length :: h.guardians else h.guardians
      weakRefs := if kind c = 2 then h.mem.length :: h.weakRefs else h.weakRefs } (.ref h.mem.length :: roots) free := by
  have hold : ∀ (b : Nat) d, h.mem[b]? = some d → (h.mem ++ [c])[b]? = some d := by
    intro b d hd
    rw [List.getElem?_append_left (List.getElem?_eq_some_iff.mp hd).1]; exact hd
  have hself : (h.mem ++ [c])[h.mem.length]? = some c := by simp
  have hcase : ∀ (b : Nat) d, (h.mem ++ [c])[b]? = some d ↔ h.mem[b]? = some d ∨ (b = h.mem.length ∧ d = c) := by
    intro b d
    constructor
    · intro hd
      have hlt := (List.getElem?_eq_some_iff.mp hd).1
      simp only [List.length_append, List.length_singleton] at hlt
      by_cases hb : b < h.mem.length
      · left; rwa [List.getElem?_append_left hb] at hd
      · right
        have : b = h.mem.length := by omega
        subst this; rw [hself] at hd; cases hd; exact ⟨rfl, rfl⟩
    · rintro (hd | ⟨rfl, rfl⟩)
      · exact hold b d hd
      · exact hself
  have hnone : ∀ d, h.mem[h.mem.length]? ≠ some d := by intro d; simp
  have hfresh : h.mem.length ∉ free := by
    intro hf
    obtain ⟨x, y, e⟩ := (inv.slots _).mp (inv.freeSlots _ hf)
    exact hnone _ e
  have h' := h
  have huse : ∀ (h1 : Heap), h1.mem = h.mem ++ [c] → ∀ b, InUse h free b → InUse h1 free b := by
    rintro h1 e b ⟨d, e1, e2, e3⟩
    exact ⟨d, by rw [e]; exact hold b d e1, e2, e3⟩
  have hheld' : ∀ (h1 : Heap), h1.mem = h.mem ++ [c] → ∀ (b : Nat) d, h1.mem[b]? = some d → HeldOk (InUse h1 free) d := by
    intro h1 e b d hd
    have : HeldOk (InUse h free) d := by
      rw [e] at hd
      rcases (hcase b d).mp hd with hd | ⟨rfl, rfl⟩
      · exact inv.held hd
      · exact hheld
    cases d with
    | guardian acc inacc =>
      intro v hv; obtain ⟨x, ex, hx⟩ := this v hv; exact ⟨x, ex, huse h1 e x hx⟩
    | weakRef v => exact this.imp id fun ⟨x, ex, hx⟩ => ⟨x, ex, huse h1 e x hx⟩
    | _ => trivial
  exact
    { marks := inv.marks
      nilCell := hold _ _ inv.nilCell
      slotsNodup := inv.slotsNodup
      slots := by
        intro b
        refine (inv.slots b).trans ?_
        constructor
        · rintro ⟨x, y, e⟩; exact ⟨x, y, hold _ _ e⟩
        · rintro ⟨x, y, e⟩
          rcases (hcase b _).mp e with e | ⟨_, e⟩
          · exact ⟨x, y, e⟩
          · exact absurd (kind_cons.mpr ⟨x, y, e.symm⟩) hk
      guardiansNodup := by
        show List.Nodup (if kind c = 1 then _ else _)
        split
        · refine List.nodup_cons.mpr ⟨fun hm => ?_, inv.guardiansNodup⟩
          obtain ⟨x, y, e⟩ := (inv.guardians _).mp hm
          exact hnone _ e
        · exact inv.guardiansNodup
      guardians := by
        intro b
        show b ∈ (if kind c = 1 then _ else _) ↔ ∃ x y, (h.mem ++ [c])[b]? = _
        split
        · rename_i hk1
          obtain ⟨x0, y0, rfl⟩ := kind_guardian.mp hk1
          rw [List.mem_cons, inv.guardians b]
          constructor
          · rintro (rfl | ⟨x, y, e⟩)
            · exact ⟨x0, y0, hself⟩
            · exact ⟨x, y, hold _ _ e⟩
          · rintro ⟨x, y, e⟩
            rcases (hcase b _).mp e with e | ⟨e, _⟩
            · exact Or.inr ⟨x, y, e⟩
            · exact Or.inl e
        · rename_i hk1
          rw [inv.guardians b]
          constructor
          · rintro ⟨x, y, e⟩; exact ⟨x, y, hold _ _ e⟩
          · rintro ⟨x, y, e⟩
            rcases (hcase b _).mp e with e | ⟨_, e⟩
            · exact ⟨x, y, e⟩
            · exact absurd (kind_guardian.mpr ⟨x, y, e.symm⟩) hk1
      weakNodup := by
        show List.Nodup (if kind c = 2 then _ else _)
        split
        · refine List.nodup_cons.mpr ⟨fun hm => ?_, inv.weakNodup⟩
          obtain ⟨x, e⟩ := (inv.weakRefs _).mp hm
          exact hnone _ e
        · exact inv.weakNodup
      weakRefs := by
        intro b
        show b ∈ (if kind c = 2 then _ else _) ↔ ∃ x, (h.mem ++ [c])[b]? = _
        split
        · rename_i hk1
          obtain ⟨x0, rfl⟩ := kind_weak.mp hk1
          rw [List.mem_cons, inv.weakRefs b]
          constructor
          · rintro (rfl | ⟨x, e⟩)
            · exact ⟨x0, hself⟩
            · exact ⟨x, hold _ _ e⟩
          · rintro ⟨x, e⟩
            rcases (hcase b _).mp e with e | ⟨e, _⟩
            · exact Or.inr ⟨x, e⟩
            · exact Or.inl e
        · rename_i hk1
          rw [inv.weakRefs b]
          constructor
          · rintro ⟨x, e⟩; exact ⟨x, hold _ _ e⟩
          · rintro ⟨x, e⟩
            rcases (hcase b _).mp e with e | ⟨_, e⟩
            · exact ⟨x, e⟩
            · exact absurd (kind_weak.mpr ⟨x, e.symm⟩) hk1
      weakTargets := fun r v e => hheld' _ rfl r _ e
      registered := by
        intro v hv
        obtain ⟨g, hg, hv⟩ := List.mem_flatMap.mp hv
        unfold accessibleOf at hv
        split at hv
        · rename_i acc inacc e
          exact hheld' _ rfl g _ e v hv
        · simp at hv
      roots := by
        intro b hb
        rcases List.mem_cons.mp hb with hb | hb
        · cases hb; exact ⟨c, hself, hs, hfresh⟩
        · exact huse _ rfl b (inv.roots b hb)
      kids := by
        rintro x b d ⟨d', e1, e2, e3⟩ hd hb
        rcases (hcase x d).mp hd with hd' | ⟨rfl, rfl⟩
        · refine huse _ rfl b (inv.kids x b d ⟨d, hd', ?_, e3⟩ hd' hb)
          rw [hd] at e1; cases e1; exact e2
        · exact huse _ rfl b (hkids b hb)
      chain := inv.chain.congr fun x hx => by
        obtain ⟨p, q, e⟩ := (inv.slots x).mp (inv.freeSlots x hx)
        rw [e]; exact hold _ _ e
      freeNodup := inv.freeNodup
      freeSlots := inv.freeSlots
      used := inv.used }

/-- The cells of a new block form a chain. -/
theorem block_chain (mem : List Cell) (base n : Nat)
    (hm : ∀ i, i ≤ n → mem[base + i]? = some (.cons .null (if i = n then .null else .ref (base + i + 1)))) :
    ∀ k i, i + k = n → Chain mem (.ref (base + i)) ((List.range (k + 1)).map (base + i + ·)) := by
  intro k
  induction k with
  | zero =>
    intro i hi
    have := hm i (by omega)
    rw [if_pos (by omega)] at this
    simpa using Chain.cons this .nil
  | succ k ih =>
    intro i hi
    have := hm i (by omega)
    rw [if_neg (by omega)] at this
    have hc := Chain.cons this (ih (i + 1) (by omega))
    rw [List.range_succ_eq_map, List.map_cons, List.map_map]
    have e : (List.range (k + 1)).map ((base + i + ·) ∘ Nat.succ) = (List.range (k + 1)).map (base + (i + 1) + ·) := by
      refine List.map_congr_left fun j _ => ?_
      simp only [Function.comp]
      omega
    rw [e]
    exact hc

theorem chain_null {mem : List Cell} {l : List Nat} (hch : Chain mem .null l) : l = [] := by
  cases hch; rfl

theorem inv_newBlock (n : Nat) (inv : Inv h roots free) (hnull : h.consFree = .null) :
    Inv (newBlock n h) roots ((List.range (n + 1)).map (h.mem.length + ·)) := by
  have hfree : free = [] := by have := inv.chain; rw [hnull] at this; exact chain_null this
  subst hfree
  have hmem : (newBlock n h).mem = h.mem ++ (List.range (n + 1)).map fun i =>
      Cell.cons .null (if i = n then .null else .ref (h.mem.length + i + 1)) := rfl
  have hold : ∀ (b : Nat) d, h.mem[b]? = some d → (newBlock n h).mem[b]? = some d := by
    intro b d hd
    rw [hmem, List.getElem?_append_left (List.getElem?_eq_some_iff.mp hd).1]; exact hd
  have hnew : ∀ i, i ≤ n → (newBlock n h).mem[h.mem.length + i]? =
      some (.cons .null (if i = n then .null else .ref (h.mem.length + i + 1))) := by
    intro i hi
    rw [hmem, List.getElem?_append_right (by omega)]
    simp [List.getElem?_range, Nat.lt_succ_of_le hi]
  have hcase : ∀ (b : Nat) d, (newBlock n h).mem[b]? = some d →
      h.mem[b]? = some d ∨ (kind d = 0 ∧ ∃ i, i ≤ n ∧ b = h.mem.length + i) := by
    intro b d hd
    have hlt := (List.getElem?_eq_some_iff.mp hd).1
    rw [hmem] at hlt
    simp only [List.length_append, List.length_map, List.length_range] at hlt
    by_cases hb : b < h.mem.length
    · left; rwa [hmem, List.getElem?_append_left hb] at hd
    · right
      obtain ⟨i, rfl⟩ : ∃ i, b = h.mem.length + i := ⟨b - h.mem.length, by omega⟩
      rw [hnew i (by omega)] at hd; cases hd
      exact ⟨rfl, i, by omega, rfl⟩
  have hin : ∀ b, b ∈ (List.range (n + 1)).map (h.mem.length + ·) ↔ ∃ i, i ≤ n ∧ b = h.mem.length + i := by
    intro b
    simp only [List.mem_map, List.mem_range]
    constructor
    · rintro ⟨i, h1, h2⟩; exact ⟨i, by omega, h2.symm⟩
    · rintro ⟨i, h1, h2⟩; exact ⟨i, by omega, h2.symm⟩
  have hnotin : ∀ (b : Nat) d, h.mem[b]? = some d → b ∉ (List.range (n + 1)).map (h.mem.length + ·) := by
    intro b d hd hb
    obtain ⟨i, _, rfl⟩ := (hin b).mp hb
    have := (List.getElem?_eq_some_iff.mp hd).1
    omega
  have huse : ∀ b, InUse h [] b → InUse (newBlock n h) ((List.range (n + 1)).map (h.mem.length + ·)) b := by
    rintro b ⟨d, e1, e2, _⟩
    exact ⟨d, hold b d e1, e2, hnotin b d e1⟩
  have hheld' : ∀ (b : Nat) d, (newBlock n h).mem[b]? = some d →
      HeldOk (InUse (newBlock n h) ((List.range (n + 1)).map (h.mem.length + ·))) d := by
    intro b d hd
    rcases hcase b d hd with hd | ⟨hk, _⟩
    · have := inv.held hd
      cases d with
      | guardian acc inacc => intro v hv; obtain ⟨x, ex, hx⟩ := this v hv; exact ⟨x, ex, huse x hx⟩
      | weakRef v => exact this.imp id fun ⟨x, ex, hx⟩ => ⟨x, ex, huse x hx⟩
      | _ => trivial
    · obtain ⟨x, y, rfl⟩ := kind_cons.mp hk; trivial
  have hnd : ((List.range (n + 1)).map (h.mem.length + ·)).Nodup :=
    List.Nodup.map (fun a b hab => by simpa using hab) List.nodup_range
  exact
    { marks := inv.marks
      nilCell := hold _ _ inv.nilCell
      slotsNodup := by
        refine List.nodup_append.mpr ⟨hnd, inv.slotsNodup, ?_⟩
        rintro a ha b hb rfl
        obtain ⟨x, y, e⟩ := (inv.slots a).mp hb
        exact hnotin a _ e ha
      slots := by
        intro b
        show b ∈ _ ++ h.slots ↔ _
        rw [List.mem_append, hin, inv.slots]
        constructor
        · rintro (⟨i, hi, rfl⟩ | ⟨x, y, e⟩)
          · exact ⟨_, _, hnew i hi⟩
          · exact ⟨x, y, hold _ _ e⟩
        · rintro ⟨x, y, e⟩
          rcases hcase b _ e with e | ⟨_, i, hi, rfl⟩
          · exact Or.inr ⟨x, y, e⟩
          · exact Or.inl ⟨i, hi, rfl⟩
      guardiansNodup := inv.guardiansNodup
      guardians := by
        intro b
        refine (inv.guardians b).trans ?_
        constructor
        · rintro ⟨x, y, e⟩; exact ⟨x, y, hold _ _ e⟩
        · rintro ⟨x, y, e⟩
          rcases hcase b _ e with e | ⟨hk, _⟩
          · exact ⟨x, y, e⟩
          · simp [kind] at hk
      weakNodup := inv.weakNodup
      weakRefs := by
        intro b
        refine (inv.weakRefs b).trans ?_
        constructor
        · rintro ⟨x, e⟩; exact ⟨x, hold _ _ e⟩
        · rintro ⟨x, e⟩
          rcases hcase b _ e with e | ⟨hk, _⟩
          · exact ⟨x, e⟩
          · simp [kind] at hk
      weakTargets := fun r v e => hheld' r _ e
      registered := by
        intro v hv
        obtain ⟨g, hg, hv⟩ := List.mem_flatMap.mp hv
        unfold accessibleOf at hv
        split at hv
        · rename_i acc inacc e
          exact hheld' g _ e v hv
        · simp at hv
      roots := fun b hb => huse b (inv.roots b hb)
      kids := by
        rintro x b d ⟨d', e1, e2, e3⟩ hd hb
        rcases hcase x d hd with hd' | ⟨_, i, hi, rfl⟩
        · rw [hd] at e1; cases e1
          exact huse b (inv.kids x b d ⟨d, hd', e2, by simp⟩ hd' hb)
        · exact absurd ((hin _).mpr ⟨i, hi, rfl⟩) e3
      chain := by
        have := block_chain (newBlock n h).mem h.mem.length n hnew n 0 (by omega)
        simp only [Nat.add_zero] at this
        exact this
      freeNodup := hnd
      freeSlots := fun a ha => List.mem_append_left _ ha
      used := by
        have := inv.used
        show h.usedCons + _ = (_ ++ h.slots).length
        simp only [List.length_append, List.length_map, List.length_range, List.length_nil] at this ⊢
        omega }

/-- Taking a cell from the free list. -/
theorem inv_take (inv : Inv h roots free) {a : Nat} {car cdr x y : Val} (ha : h.consFree = .ref a)
    (hc : h.mem[a]? = some (.cons car cdr)) (hx : ∀ b, x = .ref b → InUse h free b) (hy : ∀ b, y = .ref b → InUse h free b) :
    ∃ rest, free = a :: rest ∧
      Inv { h with mem := h.mem.set a (.cons x y), consFree := cdr, usedCons := h.usedCons + 1 } (.ref a :: roots) rest := by
  have hch := inv.chain
  rw [ha] at hch
  cases hch with
  | @cons _ car' cdr' rest e hrest =>
    rw [hc] at e; cases e
    refine ⟨rest, rfl, ?_⟩
    have hlt := (List.getElem?_eq_some_iff.mp hc).1
    have hself : (h.mem.set a (.cons x y))[a]? = some (.cons x y) := List.getElem?_set_self hlt
    have hother : ∀ b, b ≠ a → (h.mem.set a (.cons x y))[b]? = h.mem[b]? := fun b hb => List.getElem?_set_ne (Ne.symm hb)
    have hnd := List.nodup_cons.mp inv.freeNodup
    have hne : ∀ b, InUse h (a :: rest) b → b ≠ a := by
      rintro b ⟨_, _, _, h3⟩ rfl; exact h3 (by simp)
    have huse : ∀ (h1 : Heap), h1.mem = h.mem.set a (.cons x y) → ∀ b, InUse h (a :: rest) b → InUse h1 rest b := by
      intro h1 e b hb
      have hba := hne b hb
      obtain ⟨d, e1, e2, e3⟩ := hb
      exact ⟨d, by rw [e, hother b hba]; exact e1, e2, fun hm => e3 (by simp [hm])⟩
    have hheld' : ∀ (h1 : Heap), h1.mem = h.mem.set a (.cons x y) → ∀ (b : Nat) d, h1.mem[b]? = some d → HeldOk (InUse h1 rest) d := by
      intro h1 e b d hd
      rw [e] at hd
      by_cases hb : b = a
      · subst hb; rw [hself] at hd; cases hd; trivial
      · rw [hother b hb] at hd
        have := inv.held hd
        cases d with
        | guardian acc inacc =>
          intro v hv; obtain ⟨x, ex, hx⟩ := this v hv; exact ⟨x, ex, huse h1 e x hx⟩
        | weakRef v => exact this.imp id fun ⟨x, ex, hx⟩ => ⟨x, ex, huse h1 e x hx⟩
        | _ => trivial
    have hnn : nil ≠ a := by
      rintro rfl; rw [inv.nilCell] at hc; cases hc
    exact
      { marks := inv.marks
        nilCell := by show (h.mem.set a _)[nil]? = _; rw [hother nil hnn]; exact inv.nilCell
        slotsNodup := inv.slotsNodup
        slots := by
          intro b
          refine (inv.slots b).trans ?_
          show _ ↔ ∃ p q, (h.mem.set a _)[b]? = _
          by_cases hb : b = a
          · subst hb; rw [hself, hc]; simp
          · rw [hother b hb]
        guardiansNodup := inv.guardiansNodup
        guardians := by
          intro b
          refine (inv.guardians b).trans ?_
          show _ ↔ ∃ p q, (h.mem.set a _)[b]? = _
          by_cases hb : b = a
          · subst hb; rw [hself, hc]; simp
          · rw [hother b hb]
        weakNodup := inv.weakNodup
        weakRefs := by
          intro b
          refine (inv.weakRefs b).trans ?_
          show _ ↔ ∃ p, (h.mem.set a _)[b]? = _
          by_cases hb : b = a
          · subst hb; rw [hself, hc]; simp
          · rw [hother b hb]
        weakTargets := fun r v e => hheld' _ rfl r _ e
        registered := by
          intro v hv
          obtain ⟨g, hg, hv⟩ := List.mem_flatMap.mp hv
          unfold accessibleOf at hv
          split at hv
          · rename_i acc inacc e
            exact hheld' _ rfl g _ e v hv
          · simp at hv
        roots := by
          intro b hb
          rcases List.mem_cons.mp hb with hb | hb
          · cases hb; exact ⟨_, hself, trivial, hnd.1⟩
          · exact huse _ rfl b (inv.roots b hb)
        kids := by
          rintro p b d ⟨d', e1, e2, e3⟩ hd hb
          by_cases hpa : p = a
          · subst hpa
            change (h.mem.set p _)[p]? = _ at hd
            rw [hself] at hd; cases hd
            simp only [Gc.kids, List.mem_cons, List.not_mem_nil, or_false] at hb
            rcases hb with hb | hb
            · exact huse _ rfl b (hx b hb.symm)
            · exact huse _ rfl b (hy b hb.symm)
          · have hd' : h.mem[p]? = some d := by rw [← hother p hpa]; exact hd
            have : d' = d := by
              have e1' : (h.mem.set a (.cons x y))[p]? = some d' := e1
              rw [hother p hpa, hd'] at e1'; cases e1'; rfl
            subst this
            exact huse _ rfl b (inv.kids p b d' ⟨d', hd', e2, by simp [hpa, e3]⟩ hd' hb)
        chain := hrest.congr fun p hp => hother p (by rintro rfl; exact hnd.1 hp)
        freeNodup := hnd.2
        freeSlots := fun p hp => inv.freeSlots p (by simp [hp])
        used := by
          have := inv.used
          simp only [List.length_cons] at this
          show h.usedCons + 1 + rest.length = h.slots.length
          omega }

theorem inv_roots (inv : Inv h roots free) {roots' : List Val} (hr : ∀ b, Val.ref b ∈ roots' → InUse h free b) :
    Inv h roots' free :=
  { inv with roots := hr }

theorem has_ref {v : Val} {b : Nat} (inv : Inv h roots free) (hv : Has h roots v) (e : v = .ref b) : InUse h free b := by
  subst e; exact inv.has hv

/-- Every step keeps the invariant. -/
theorem inv_step {s t : Heap × List Val} {ev : Event} (hst : Step s ev t) (hinv : ∃ free, Inv s.1 s.2 free) : ∃ free, Inv t.1 t.2 free := by
  obtain ⟨free, inv⟩ := hinv
  cases hst with
  | collect e =>
    obtain ⟨h', m1, m2, e', col⟩ := collect_spec inv
    rw [e] at e'; cases e'
    exact ⟨_, inv_collected inv col⟩
  | roots hr => exact ⟨free, inv_roots inv fun b hb => inv.has (hr _ hb (by simp))⟩
  | @cons h h' roots n a x y hx hy e =>
    have key : ∀ (h0 : Heap) (free0 : List Nat), Inv h0 roots free0 → (∀ b, x = .ref b → InUse h0 free0 b) →
        (∀ b, y = .ref b → InUse h0 free0 b) →
        (match h0.consFree with
          | .ref a => match h0.mem[a]? with
            | some (.cons _ next) =>
              some ({ h0 with mem := h0.mem.set a (.cons x y), consFree := next, usedCons := h0.usedCons + 1 }, a)
            | _ => none
          | _ => none) = some (h', a) → ∃ free, Inv h' (.ref a :: roots) free := by
      intro h0 free0 inv0 hx0 hy0 e0
      split at e0
      · rename_i b hb
        split at e0
        · rename_i car next hc
          cases e0
          obtain ⟨rest, _, hi⟩ := inv_take inv0 hb hc hx0 hy0
          exact ⟨rest, hi⟩
        · cases e0
      · cases e0
    unfold cons at e
    by_cases hnull : h.consFree = .null
    · simp only [hnull, if_true] at e
      refine key _ _ (inv_newBlock n inv hnull) ?_ ?_ e
      all_goals
        intro b hb
        have hfree : free = [] := by have := inv.chain; rw [hnull] at this; exact chain_null this
        obtain ⟨d, e1, e2, e3⟩ : InUse h free b := by first | exact has_ref inv hx hb | exact has_ref inv hy hb
        have hlt := (List.getElem?_eq_some_iff.mp e1).1
        refine ⟨d, ?_, e2, ?_⟩
        · show (h.mem ++ _)[b]? = _
          rw [List.getElem?_append_left hlt]; exact e1
        · intro hm
          simp only [List.mem_map, List.mem_range] at hm
          obtain ⟨i, _, rfl⟩ := hm
          omega
    · simp only [hnull, if_false] at e
      exact key _ _ inv (fun b => has_ref inv hx) (fun b => has_ref inv hy) e
  | guardian => exact ⟨free, inv_new (c := .guardian [] []) inv (by simp [kind]) trivial (by simp [kids]) (by simp [HeldOk])⟩
  | @push h h' roots g b hg hb e =>
    unfold guardianPush at e
    split at e
    · rename_i acc inacc hc
      cases e
      refine ⟨free, inv_write inv (inv.reach hg) (by rintro rfl; rw [inv.nilCell] at hc; cases hc) hc rfl trivial ?_ ?_ inv.roots⟩
      · intro x hx; exact inv.kids g x _ (inv.reach hg) hc hx
      · intro v hv
        rcases List.mem_cons.mp hv with rfl | hv
        · exact ⟨b, rfl, inv.has hb⟩
        · exact inv.held hc v hv
    · cases e
  | @pop h h' roots g v hg e =>
    unfold guardianPop at e
    split at e
    · rename_i acc v' inacc hc
      cases e
      refine ⟨free, inv_write inv (inv.reach hg) (by rintro rfl; rw [inv.nilCell] at hc; cases hc) hc rfl trivial ?_ ?_ ?_⟩
      · intro x hx; exact inv.kids g x _ (inv.reach hg) hc (by simp only [kids] at hx ⊢; simp [hx])
      · intro w hw; exact inv.held hc w hw
      · intro x hx
        rcases List.mem_cons.mp hx with hx | hx
        · exact inv.kids g x _ (inv.reach hg) hc (by simp [kids, hx])
        · exact inv.roots x hx
    · rename_i acc hc
      cases e
      refine ⟨free, inv_roots inv ?_⟩
      intro x hx
      rcases List.mem_cons.mp hx with hx | hx
      · cases hx; exact inUse_nil inv
      · exact inv.roots x hx
    · cases e
  | @weak h roots v hv =>
    refine ⟨free, inv_new (c := .weakRef v) inv (by simp [kind]) trivial (by simp [kids]) ?_⟩
    rcases hv with ⟨n, rfl⟩ | ⟨a, rfl, ha⟩
    · exact Or.inl ⟨n, rfl⟩
    · exact Or.inr ⟨a, rfl, inv.has (Or.inr ⟨a, rfl, ha⟩)⟩
  | @learn h roots v hv =>
    refine ⟨free, inv_roots inv ?_⟩
    intro x hx
    rcases List.mem_cons.mp hx with hx | hx
    · obtain ⟨a, e, ha⟩ := inv.registered v hv
      rw [← hx] at e; cases e; exact ha
    · exact inv.roots x hx
  | @readWeak h roots r v hr e =>
    refine ⟨free, inv_roots inv ?_⟩
    intro x hx
    rcases List.mem_cons.mp hx with hx | hx
    · subst hx
      unfold weakRefValue at e
      split at e
      · rename_i v' hc
        cases e
        rcases inv.weakTargets r _ hc with ⟨n, e⟩ | ⟨a, e, ha⟩
        · cases e
        · cases e; exact ha
      · cases e
    · exact inv.roots x hx
  | @object h roots c hp hk =>
    have hkd : kind c = 3 := by
      obtain ⟨_, hp⟩ := hp
      cases c <;> simp_all [kind]
    have := inv_new inv (c := c) (by omega) hp.1 (fun b hb => inv.has (hk _ hb (by simp))) (by
      obtain ⟨_, hp⟩ := hp
      cases c <;> simp_all [HeldOk])
    simp only [hkd] at this
    exact ⟨free, this⟩
  | @write h roots a c ha hn hc0 hp hk =>
    obtain ⟨c0, hc0, hp0, _⟩ := hc0
    refine ⟨free, inv_write inv (inv.reach ha) hn hc0 ?_ hp.1 (fun b hb => inv.has (hk _ hb (by simp))) ?_ inv.roots⟩
    · obtain ⟨_, hp⟩ := hp
      obtain ⟨_, hp0⟩ := hp0
      cases c <;> cases c0 <;> simp_all [kind]
    · obtain ⟨_, hp⟩ := hp
      cases c <;> simp_all [HeldOk]
  | @rplac h roots a x y x' y' ha hc hx hy =>
    refine ⟨free, inv_write inv (inv.reach ha) (by rintro rfl; rw [inv.nilCell] at hc; cases hc) hc rfl trivial ?_ trivial inv.roots⟩
    intro b hb
    simp only [kids, List.mem_cons, List.not_mem_nil, or_false] at hb
    rcases hb with hb | hb
    · exact has_ref inv hx hb.symm
    · exact has_ref inv hy hb.symm
  | @setWeak h roots a v v' ha hc hv =>
    refine ⟨free, inv_write inv (inv.reach ha) (by rintro rfl; rw [inv.nilCell] at hc; cases hc) hc rfl trivial (by simp [kids]) ?_ inv.roots⟩
    rcases hv with ⟨n, rfl⟩ | ⟨b, rfl, hb⟩
    · exact Or.inl ⟨n, rfl⟩
    · exact Or.inr ⟨b, rfl, inv.has (Or.inr ⟨b, rfl, hb⟩)⟩

theorem inv_start : Inv start [] [] where
  marks := rfl
  nilCell := rfl
  slotsNodup := List.nodup_nil
  slots := by
    intro a
    constructor
    · intro ha; simp [start] at ha
    · rintro ⟨x, y, e⟩
      rcases a with _ | a <;> simp [start] at e
  guardiansNodup := List.nodup_nil
  guardians := by
    intro a
    constructor
    · intro ha; simp [start] at ha
    · rintro ⟨x, y, e⟩
      rcases a with _ | a <;> simp [start] at e
  weakNodup := List.nodup_nil
  weakRefs := by
    intro a
    constructor
    · intro ha; simp [start] at ha
    · rintro ⟨x, e⟩
      rcases a with _ | a <;> simp [start] at e
  weakTargets := by
    intro r v e
    rcases r with _ | r <;> simp [start] at e
  registered := by intro v hv; simp [guarded, start] at hv
  roots := by simp
  kids := by
    intro a b c _ hc hb
    rcases a with _ | a
    · have : c = .fields [.ref nil, .ref nil] := by simpa [start] using hc.symm
      subst this
      have : b = nil := by simpa [kids] using hb
      subst this
      exact ⟨_, rfl, trivial, by simp⟩
    · simp [start] at hc
  chain := .nil
  freeNodup := List.nodup_nil
  freeSlots := by simp
  used := rfl

/-- The invariant holds in every reachable state. -/
theorem inv_reachable {s : Heap × List Val} (hr : Reachable s) : ∃ free, Inv s.1 s.2 free := by
  induction hr with
  | start => exact ⟨[], inv_start⟩
  | step _ hst ih => exact inv_step hst ih

end Rep.Gc
