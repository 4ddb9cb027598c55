/-
Properties C30 (collector), C31 (guardians) and C32 (weak references).
-/
import Verif.Gc.History
import Mathlib.Data.List.Perm.Basic

namespace Rep.Gc

variable {h h' : Heap} {roots : List Val} {free : List Nat}

theorem chain_unique {mem : List Cell} {v : Val} {l l' : List Nat} (h1 : Chain mem v l) (h2 : Chain mem v l') : l = l' := by
  induction h1 generalizing l' with
  | nil => cases h2; rfl
  | cons hc _ ih =>
    cases h2 with
    | cons hc' h2 => rw [hc] at hc'; cases hc'; rw [ih h2]

/-- The cell is allocated: it exists, is not freed, and is not on the free list of conses. -/
def Allocated (h : Heap) (a : Nat) : Prop :=
  (∃ c, h.mem[a]? = some c ∧ c ≠ .free) ∧ ∀ l, Chain h.mem h.consFree l → a ∉ l

theorem allocated_of_inUse (inv : Inv h roots free) {a : Nat} (ha : InUse h free a) : Allocated h a := by
  obtain ⟨c, e, hs, hf⟩ := ha
  refine ⟨⟨c, e, by rintro rfl; simp [Sound] at hs⟩, fun l hl => ?_⟩
  rw [chain_unique hl inv.chain]; exact hf

/-- A step other than a collection leaves every cell in use as it is, unless it is
about that cell. -/
theorem step_keeps {s t : Heap × List Val} {e : Event} (hst : Step s e t) (inv : Inv s.1 s.2 free) {a : Nat}
    (ha : InUse s.1 free a) (h1 : e ≠ .collect) (h2 : ∀ v, e ≠ .push a v) (h3 : ∀ v, e ≠ .pop a v) (h4 : e ≠ .write a) :
    t.1.mem[a]? = s.1.mem[a]? := by
  have hlt : a < s.1.mem.length := by obtain ⟨c, hc, _⟩ := ha; exact (List.getElem?_eq_some_iff.mp hc).1
  cases hst with
  | collect _ => exact absurd rfl h1
  | roots _ => rfl
  | @cons h h' roots n b x y hx hy e =>
    obtain ⟨h0, hm, hne, e0⟩ : ∃ h0 : Heap, h0.mem[a]? = h.mem[a]? ∧ (h0.consFree = .ref b → b ≠ a) ∧
        ∃ x0 next, h0.consFree = .ref b ∧ h0.mem[b]? = some (.cons x0 next) ∧ h'.mem = h0.mem.set b (.cons x y) := by
      unfold cons at e
      by_cases hnull : h.consFree = .null
      · simp only [hnull, if_true] at e
        refine ⟨newBlock n h, List.getElem?_append_left hlt, ?_, ?_⟩
        · intro hb
          have hb' : Val.ref h.mem.length = .ref b := hb
          cases hb'
          exact Ne.symm (Nat.ne_of_lt hlt)
        · split at e
          · rename_i b' hb
            split at e
            · rename_i hc; cases e; exact ⟨_, _, hb, hc, rfl⟩
            · cases e
          · cases e
      · simp only [hnull, if_false] at e
        refine ⟨h, rfl, ?_, ?_⟩
        · rintro hb rfl
          have hch := inv.chain
          change Chain h.mem h.consFree free at hch
          rw [hb] at hch
          obtain ⟨_, _, _, hf⟩ := ha
          cases hch; exact hf (by simp)
        · split at e
          · rename_i b' hb
            split at e
            · rename_i hc; cases e; exact ⟨_, _, hb, hc, rfl⟩
            · cases e
          · cases e
    obtain ⟨_, _, hb, _, hm'⟩ := e0
    show h'.mem[a]? = _
    rw [hm', List.getElem?_set_ne (hne hb), hm]
  | guardian => exact List.getElem?_append_left hlt
  | @push h h' roots g b hg hb e =>
    unfold guardianPush at e
    split at e
    · cases e
      exact List.getElem?_set_ne (by rintro rfl; exact h2 _ rfl)
    · cases e
  | @pop h h' roots g v hg e =>
    unfold guardianPop at e
    split at e
    · cases e
      exact List.getElem?_set_ne (by rintro rfl; exact h3 _ rfl)
    · cases e; rfl
    · cases e
  | weak _ => exact List.getElem?_append_left hlt
  | readWeak _ _ => rfl
  | learn _ => rfl
  | object _ _ => exact List.getElem?_append_left hlt
  | write _ _ _ _ _ => exact List.getElem?_set_ne (by rintro rfl; exact h4 rfl)
  | rplac _ _ _ _ => exact List.getElem?_set_ne (by rintro rfl; exact h4 rfl)
  | setWeak _ _ _ => exact List.getElem?_set_ne (by rintro rfl; exact h4 rfl)

/-! ### C30 -/

/-- **C30**: in every state a program can bring about, a collection succeeds.  Every
reachable cell is allocated afterwards, with its contents unchanged (guardians and weak
references: see C31, C32).  The free list of conses then consists of exactly the conses
that are neither reachable nor guarded, each once, and all other such cells are freed. -/
theorem C30_collect (hr : Reachable (h, roots)) :
    ∃ h' free', collect h roots = some h' ∧
      (∀ a, Reach h.mem roots a → ∃ c, h.mem[a]? = some c ∧ Allocated h' a ∧
        ((∀ x y, c ≠ .guardian x y) → (∀ v, c ≠ .weakRef v) → h'.mem[a]? = some c)) ∧
      Chain h'.mem h'.consFree free' ∧ free'.Nodup ∧
      (∀ a, a ∈ free' ↔ (∃ x y, h.mem[a]? = some (.cons x y)) ∧ ¬ Live h roots a) ∧
      (∀ (a : Nat) c, h.mem[a]? = some c → (∀ x y, c ≠ .cons x y) → ¬ Permanent c → a ≠ nil → ¬ Live h roots a →
        h'.mem[a]? = some .free) := by
  obtain ⟨free, inv⟩ := inv_reachable hr
  obtain ⟨h', m1, m2, e, col⟩ := collect_spec inv
  have inv' := inv_collected inv col
  refine ⟨h', _, e, ?_, inv'.chain, inv'.freeNodup, ?_, ?_⟩
  · intro a ha
    have hlive : Live h roots a := ha.mono fun v hv => List.mem_append_left _ hv
    have hu := inv.live a hlive
    have hu' := inUse_after inv col hu (Or.inr (Or.inl hlive))
    obtain ⟨c, hc, _⟩ := hu
    refine ⟨c, hc, allocated_of_inUse inv' hu', fun n1 n2 => ?_⟩
    have hk : m2 a = true ∨ Permanent c := by
      by_cases hp : Permanent c
      · exact Or.inr hp
      · exact Or.inl ((col.liveMarks a).mpr (Or.inr ⟨hlive, c, hc, hp⟩))
    obtain ⟨c', e1, _, hrel⟩ := kept_cell col hc hk
    rcases hrel with rfl | ⟨x, y, _, rfl, _⟩ | ⟨v, rfl, _⟩
    · exact e1
    · exact absurd rfl (n1 x y)
    · exact absurd rfl (n2 v)
  · intro a
    simp only [List.mem_reverse, List.mem_filter, inv.slots a]
    constructor
    · rintro ⟨⟨x, y, hc⟩, hm⟩
      refine ⟨⟨x, y, hc⟩, fun hl => ?_⟩
      have := (col.liveMarks a).mpr (Or.inr ⟨hl, _, hc, by simp [Permanent]⟩)
      simp [this] at hm
    · rintro ⟨⟨x, y, hc⟩, hl⟩
      refine ⟨⟨x, y, hc⟩, ?_⟩
      cases hm : m2 a with
      | false => rfl
      | true =>
        rcases (col.liveMarks a).mp hm with rfl | ⟨h1, _⟩
        · change h.mem[nil]? = _ at hc
          have := inv.nilCell
          change h.mem[nil]? = _ at this
          rw [this] at hc; cases hc
        · exact absurd h1 hl
  · intro a c hc n1 hp hn hl
    have hm : m2 a = false := by
      cases hm : m2 a with
      | false => rfl
      | true =>
        rcases (col.liveMarks a).mp hm with h1 | ⟨h1, _⟩
        · exact absurd h1 hn
        · exact absurd h1 hl
    by_cases hsp : Special c
    · cases c with
      | cons x y => exact absurd rfl (n1 x y)
      | guardian x y => rw [col.mem_guardian a x y hc]; simp [hm]
      | weakRef v => rw [col.mem_weak a v hc]; simp [hm]
      | _ => simp [Special] at hsp
    · rw [col.mem_other a c hc hsp hp]; simp [hm]

/-- **C30**: in every state, every reachable cell is allocated. -/
theorem C30_reachable_allocated (hr : Reachable (h, roots)) (a : Nat) (ha : Reach h.mem roots a) : Allocated h a := by
  obtain ⟨free, inv⟩ := inv_reachable hr
  exact allocated_of_inUse inv (inv.reach ha)

/-- **C30**: `cons` succeeds, uses a cell that is neither reachable nor guarded, and
leaves every reachable cell as it is. -/
theorem C30_cons (hr : Reachable (h, roots)) (n : Nat) (x y : Val) (hx : Has h roots x) (hy : Has h roots y) :
    ∃ h' a, cons n h x y = some (h', a) ∧ ¬ Live h roots a ∧ h'.mem[a]? = some (.cons x y) ∧
      ∀ b, Live h roots b → h'.mem[b]? = h.mem[b]? := by
  obtain ⟨free, inv⟩ := inv_reachable hr
  have hex : ∃ h' a, cons n h x y = some (h', a) ∧ ¬ InUse h free a ∧ h'.mem[a]? = some (.cons x y) := by
    unfold cons
    by_cases hnull : h.consFree = .null
    · simp only [hnull, if_true]
      have h1 : (newBlock n h).consFree = .ref h.mem.length := rfl
      have h2 : (newBlock n h).mem[h.mem.length]? =
          some (.cons .null (if 0 = n then .null else .ref (h.mem.length + 0 + 1))) := by
        show (h.mem ++ _)[h.mem.length]? = _
        rw [List.getElem?_append_right (Nat.le_refl _)]
        simp
      rw [h1]; simp only [h2]
      refine ⟨_, _, rfl, ?_, ?_⟩
      · rintro ⟨c, hc, _⟩; simp at hc
      · exact List.getElem?_set_self (List.getElem?_eq_some_iff.mp h2).1
    · simp only [hnull, if_false]
      have hch := inv.chain
      change Chain h.mem h.consFree free at hch
      generalize h.consFree = cf at hch hnull
      cases hch with
      | nil => exact absurd rfl hnull
      | @cons a car cdr rest hc hrest =>
        simp only [hc]
        refine ⟨_, _, rfl, ?_, ?_⟩
        · rintro ⟨_, _, _, h3⟩; exact h3 (by simp)
        · exact List.getElem?_set_self (List.getElem?_eq_some_iff.mp hc).1
  obtain ⟨h', a, e, h1, h2⟩ := hex
  refine ⟨h', a, e, fun hl => h1 (inv.live a hl), h2, fun b hb => ?_⟩
  exact step_keeps (.cons hx hy e) inv (inv.live b hb) (by simp) (by simp) (by simp) (by simp)

/-- A program that makes the list `(())`, drops it and collects: non-trivial states are
reachable. -/
example : ∃ h roots, Reachable (h, roots) ∧ ∃ a, Reach h.mem roots a ∧ h.mem[a]? = some (.cons (.ref nil) (.ref nil)) := by
  have hs : Has start [] (.ref nil) := Or.inr ⟨nil, rfl, Or.inl rfl⟩
  obtain ⟨h', a, e, _, h2, _⟩ := C30_cons .start 3 _ _ hs hs
  exact ⟨h', [.ref a], .step .start (.cons hs hs e), a, .root (by simp), h2⟩

/-- **C30 is false of the code for a closure of a fixnum**, `(make-closure 1)`: the
collector then reads a mark bit at the fixnum's value as an address. -/
theorem C30_closure_violated :
    collect { start with mem := [.fields [.ref nil, .ref nil], .funarg (.ref nil) (.ref nil) (.ref nil) (.int 1)] }
      [.ref 1] = none := by
  have : mark [.fields [.ref nil, .ref nil], .funarg (.ref nil) (.ref nil) (.ref nil) (.int 1)] (fun a => a == nil)
      [.ref 1] = none := by
    rw [mark.eq_def]
    rfl
  unfold collect
  simp only [start, this]

/-! ### C31 -/

/-- The two lists of a guardian: objects registered, and objects ready to be handed out. -/
def guardianLists (h : Heap) (g : Nat) : List Val × List Val :=
  match h.mem[g]? with
  | some (.guardian acc inacc) => (acc, inacc)
  | _ => ([], [])

theorem guardianLists_eq {g : Nat} {acc inacc : List Val} (hg : h.mem[g]? = some (.guardian acc inacc)) :
    guardianLists h g = (acc, inacc) := by unfold guardianLists; rw [hg]

/-- **C31** (partial: for objects other than subrs and constant strings): a collection
moves exactly the registered objects that are not reachable from the roots to the
objects that a guardian will hand out, each as many times as it is registered. -/
theorem C31_collect_partial (hr : Reachable (h, roots)) (g : Nat) (hg : Reach h.mem roots g) (acc inacc : List Val)
    (hgc : h.mem[g]? = some (.guardian acc inacc)) (h' : Heap) (hc : collect h roots = some h')
    (hperm : ∀ (a : Nat) c, .ref a ∈ acc → h.mem[a]? = some c → ¬ Permanent c) :
    ∃ acc' new, h'.mem[g]? = some (.guardian acc' (new ++ inacc)) ∧ (acc' ++ new).Perm acc ∧
      (∀ v ∈ acc', ∃ a, v = .ref a ∧ (a = nil ∨ Reach h.mem roots a)) ∧
      (∀ v ∈ new, ∃ a, v = .ref a ∧ a ≠ nil ∧ ¬ Reach h.mem roots a) := by
  obtain ⟨free, inv⟩ := inv_reachable hr
  obtain ⟨h'', m1, m2, e, col⟩ := collect_spec inv
  rw [hc] at e; cases e
  have hlive : Live h roots g := hg.mono fun v hv => List.mem_append_left _ hv
  have hm : m2 g = true := (col.liveMarks g).mpr (Or.inr ⟨hlive, _, hgc, by simp [Permanent]⟩)
  have := col.mem_guardian g acc inacc hgc
  simp only [hm, if_true] at this
  refine ⟨_, _, this, ?_, ?_, ?_⟩
  · exact (List.Perm.append_left _ (List.reverse_perm _)).trans (List.filter_append_perm (markedV m1) acc)
  · intro v hv
    obtain ⟨h1, h2⟩ := List.mem_filter.mp hv
    obtain ⟨a, rfl, _⟩ := inv.held hgc v h1
    exact ⟨a, rfl, ((col.reachMarks a).mp h2).imp id And.left⟩
  · intro v hv
    simp only [List.mem_reverse, List.mem_filter] at hv
    obtain ⟨a, rfl, c, hca, _⟩ := inv.held hgc v hv.1
    have hn : ¬ m1 a = true := by simpa [markedV] using hv.2
    refine ⟨a, rfl, ?_, ?_⟩
    · rintro rfl; exact hn ((col.reachMarks nil).mpr (Or.inl rfl))
    · exact fun hra => hn ((col.reachMarks a).mpr (Or.inr ⟨hra, c, hca, hperm a c hv.1 hca⟩))

/-- **C31**: registered objects, and those ready to be handed out, are allocated, in
every state. -/
theorem C31_allocated (hr : Reachable (h, roots)) (g : Nat) (hg : Reach h.mem roots g) (a : Nat)
    (ha : .ref a ∈ (guardianLists h g).1 ∨ .ref a ∈ (guardianLists h g).2) : Allocated h a := by
  obtain ⟨free, inv⟩ := inv_reachable hr
  refine allocated_of_inUse inv ?_
  unfold guardianLists at ha
  split at ha
  · rename_i acc inacc hgc
    rcases ha with ha | ha
    · obtain ⟨b, e, hb⟩ := inv.held hgc _ ha
      cases e; exact hb
    · exact inv.kids g a _ (inv.reach hg) hgc ha
  · simp at ha

/-- A history of the guardian `g`, which stays reachable: from its creation to the
state, with the registrations and the objects it has handed out (a call that returns
`()` has handed out nothing). -/
inductive History (g : Nat) : Heap × List Val → List Val → List Val → Prop
  | made {h : Heap} {roots : List Val} : Reachable (h, roots) → (makeGuardian h).2 = g →
      History g ((makeGuardian h).1, .ref g :: roots) [] []
  | push {s t : Heap × List Val} {v : Val} {reg out : List Val} : History g s reg out → Reach s.1.mem s.2 g →
      Step s (.push g v) t → History g t (v :: reg) out
  | pop {s t : Heap × List Val} {v : Val} {reg out : List Val} : History g s reg out → Reach s.1.mem s.2 g →
      Step s (.pop g v) t → History g t reg (if v = .ref nil then out else v :: out)
  | other {s t : Heap × List Val} {e : Event} {reg out : List Val} : History g s reg out → Reach s.1.mem s.2 g →
      Step s e t → (∀ v, e ≠ .push g v) → (∀ v, e ≠ .pop g v) → History g t reg out

theorem history_inv {g : Nat} {s : Heap × List Val} {reg out : List Val} (hh : History g s reg out) :
    Reachable s ∧ ∃ acc inacc, s.1.mem[g]? = some (.guardian acc inacc) ∧ (acc ++ inacc ++ out).Perm reg ∧
      Val.ref nil ∉ inacc := by
  induction hh with
  | @made h roots hr e =>
    refine ⟨.step hr (e ▸ Step.guardian), [], [], ?_, .refl _, by simp⟩
    subst e
    show (h.mem ++ _)[h.mem.length]? = _
    simp
  | @push s t v reg out _ hg hst ih =>
    obtain ⟨hr, acc, inacc, hgc, hp, hn⟩ := ih
    refine ⟨.step hr hst, v :: acc, inacc, ?_, ?_, hn⟩
    · cases hst with
      | push _ _ e =>
        unfold guardianPush at e
        simp only [hgc] at e
        cases e
        exact List.getElem?_set_self (List.getElem?_eq_some_iff.mp hgc).1
    · exact hp.cons v
  | @pop s t v reg out _ hg hst ih =>
    obtain ⟨hr, acc, inacc, hgc, hp, hn⟩ := ih
    refine ⟨.step hr hst, ?_⟩
    cases hst with
    | @pop h h' roots _ _ _ e =>
      unfold guardianPop at e
      simp only [hgc] at e
      cases inacc with
      | nil =>
        cases e
        simp only [if_true]
        exact ⟨acc, [], hgc, hp, by simp⟩
      | cons w rest =>
        cases e
        have hne : v ≠ .ref nil := by rintro rfl; exact hn (by simp)
        rw [if_neg hne]
        refine ⟨acc, rest, List.getElem?_set_self (List.getElem?_eq_some_iff.mp hgc).1, ?_, fun h => hn (by simp [h])⟩
        refine List.Perm.trans ?_ hp
        simp only [List.append_assoc]
        refine List.Perm.append_left acc ?_
        exact List.perm_middle
  | @other s t e reg out _ hg hst hne1 hne2 ih =>
    obtain ⟨hr, acc, inacc, hgc, hp, hn⟩ := ih
    refine ⟨.step hr hst, ?_⟩
    obtain ⟨free, inv⟩ := inv_reachable hr
    by_cases hc : e = .collect
    · subst hc
      cases hst with
      | @collect h h' roots e =>
        obtain ⟨h'', m1, m2, e', col⟩ := collect_spec inv
        rw [e] at e'; cases e'
        have hlive : Live h roots g := hg.mono fun v hv => List.mem_append_left _ hv
        have hm : m2 g = true := (col.liveMarks g).mpr (Or.inr ⟨hlive, _, hgc, by simp [Permanent]⟩)
        have := col.mem_guardian g acc inacc hgc
        simp only [hm, if_true] at this
        refine ⟨_, _, this, ?_, ?_⟩
        · refine List.Perm.trans ?_ hp
          refine List.Perm.append_right out ?_
          rw [← List.append_assoc]
          refine List.Perm.append_right inacc ?_
          exact (List.Perm.append_left _ (List.reverse_perm _)).trans (List.filter_append_perm (markedV m1) acc)
        · intro hm
          rcases List.mem_append.mp hm with hm | hm
          · simp only [List.mem_reverse, List.mem_filter] at hm
            have := (col.reachMarks nil).mpr (Or.inl rfl)
            simp [markedV, this] at hm
          · exact hn hm
    · by_cases hw : e = .write g
      · subst hw
        exfalso
        cases hst with
        | write _ _ hc0 _ _ =>
          obtain ⟨c0, hc0, hp0, _⟩ := hc0
          rw [hgc] at hc0; cases hc0; exact hp0.2
        | rplac _ hc0 _ _ => rw [hgc] at hc0; cases hc0
        | setWeak _ hc0 _ => rw [hgc] at hc0; cases hc0
      · refine ⟨acc, inacc, ?_, hp, hn⟩
        rw [step_keeps hst inv (inv.reach hg) hc hne1 hne2 hw]
        exact hgc

/-- **C31**: in every history, an object is handed out, ready to be handed out, or still
registered, in total as many times as it has been registered. -/
theorem C31_history {g : Nat} {s : Heap × List Val} {reg out : List Val} (hh : History g s reg out) (v : Val) :
    (guardianLists s.1 g).1.count v + (guardianLists s.1 g).2.count v + out.count v = reg.count v := by
  obtain ⟨_, acc, inacc, hgc, hp, _⟩ := history_inv hh
  rw [guardianLists_eq hgc, ← hp.count_eq v]
  simp only [List.count_append]

/-- **C31**: a call of the guardian hands out the first of the objects found
unreachable, or `()` if there is none. -/
theorem C31_pop {g : Nat} {s : Heap × List Val} {reg out : List Val} (hh : History g s reg out) :
    ∃ h' v, guardianPop s.1 g = some (h', v) ∧ v = ((guardianLists s.1 g).2.head?).getD (.ref nil) := by
  obtain ⟨_, acc, inacc, hgc, _, _⟩ := history_inv hh
  rw [guardianLists_eq hgc]
  unfold guardianPop
  rw [hgc]
  cases inacc with
  | nil => exact ⟨_, _, rfl, rfl⟩
  | cons w rest => exact ⟨_, _, rfl, rfl⟩

/-- A program registers a subr, which stays reachable, with a guardian. -/
theorem C31_subr_reachable : Reachable
    ({ start with
        mem := [.fields [.ref nil, .ref nil], .subr, .guardian [.ref 1] []]
        guardians := [2] }, [.ref 1, .ref 2]) := by
  have s1 : Reachable ((makeObject start .subr).1, [.ref 1]) := .step .start (.object ⟨trivial, trivial⟩ (by simp [kids]))
  have s2 := Reachable.step s1 .guardian
  have hr : ∀ (mem : List Cell) (r : List Val) a, Val.ref a ∈ r → Reach mem r a := fun _ _ _ h => .root h
  have s3 := Reachable.step s2 (.push (g := 2) (b := 1) (hr _ _ _ (by simp [makeGuardian, makeObject, start]))
    (Or.inr ⟨1, rfl, Or.inr (hr _ _ _ (by simp))⟩) rfl)
  have s4 := Reachable.step s3 (.roots (roots' := [.ref 1, .ref 2]) (by
    intro v hv _
    simp only [List.mem_cons, List.not_mem_nil, or_false] at hv
    rcases hv with rfl | rfl
    · exact Or.inr ⟨1, rfl, Or.inr (hr _ _ _ (by simp))⟩
    · exact Or.inr ⟨2, rfl, Or.inr (hr _ _ _ (by simp [makeGuardian, makeObject, start]))⟩))
  exact s4

/-- **C31 is false of the code for subrs**: a subr that is a root, registered with a
guardian, is found unreachable by a collection. -/
theorem C31_subr_violated : ∃ h', collect
      { start with
        mem := [.fields [.ref nil, .ref nil], .subr, .guardian [.ref 1] []]
        guardians := [2] } [.ref 1, .ref 2] = some h' ∧ h'.mem[2]? = some (.guardian [] [.ref 1]) := by
  obtain ⟨free, inv⟩ := inv_reachable C31_subr_reachable
  obtain ⟨h', m1, m2, e, col⟩ := collect_spec inv
  refine ⟨h', e, ?_⟩
  have h1 : m1 1 = false := by
    cases hm : m1 1 with
    | false => rfl
    | true =>
      rcases (col.reachMarks 1).mp hm with h0 | ⟨_, c, hc, hp⟩
      · simp [nil] at h0
      · simp at hc; subst hc; simp [Permanent] at hp
  have h2 : m2 2 = true := (col.liveMarks 2).mpr (Or.inr ⟨.root (by simp), _, rfl, by simp [Permanent]⟩)
  rw [col.mem_guardian 2 _ _ rfl]
  simp [h1, h2, markedV]

/-- **C31 is false of the code for fixnums**: after `(guardian 1)` the next collection
is undefined (it reads a mark bit at the fixnum's value as an address). -/
theorem C31_fixnum_violated (h : Heap) (g : Nat) (rest : List Val) (inacc : List Val) (roots : List Val)
    (hm : ∃ m, mark h.mem h.marked roots = some m) (hg : h.guardians = [g])
    (hgc : h.mem[g]? = some (.guardian (.int 1 :: rest) inacc)) : collect h roots = none := by
  obtain ⟨m, hm⟩ := hm
  unfold collect
  rw [hm, hg]
  simp [scanGuardians, hgc, scanGuardian]

example : collect { start with mem := [.fields [.ref nil, .ref nil], .guardian [.int 1] []], guardians := [1] } [] = none :=
  C31_fixnum_violated _ 1 [] [] [] ⟨_, by rw [mark.eq_def]⟩ rfl rfl

example : ∃ h g reg out, History g h reg out ∧ reg ≠ [] := by
  have s1 : History 1 ((makeGuardian start).1, [.ref 1]) [] [] := .made .start rfl
  have hg : ∀ mem : List Cell, Reach mem [.ref 1] 1 := fun _ => .root (by simp)
  exact ⟨_, _, _, _, .push s1 (hg _) (.push (g := 1) (b := 1) (hg _) (Or.inr ⟨1, rfl, Or.inr (hg _)⟩) rfl), by simp⟩

/-! ### C32 -/

/-- **C32** (partial: for objects other than subrs and constant strings): a collection
leaves a weak reference to a reachable or guarded object, or to a fixnum, as it is, and
makes it refer to `()` otherwise. -/
theorem C32_collect_partial (hr : Reachable (h, roots)) (r : Nat) (hreach : Reach h.mem roots r) (v : Val)
    (hv : weakRefValue h r = some v) (h' : Heap) (hc : collect h roots = some h') :
    (∀ n, v = .int n → weakRefValue h' r = some v) ∧
    (∀ (a : Nat) c, v = .ref a → h.mem[a]? = some c → ¬ Permanent c →
      (Live h roots a → weakRefValue h' r = some v) ∧ (¬ Live h roots a → weakRefValue h' r = some (.ref nil))) := by
  obtain ⟨free, inv⟩ := inv_reachable hr
  obtain ⟨h'', m1, m2, e, col⟩ := collect_spec inv
  rw [hc] at e; cases e
  unfold weakRefValue at hv
  split at hv
  · rename_i v' hrc
    cases hv
    have hlive : Live h roots r := hreach.mono fun v hv => List.mem_append_left _ hv
    have hm : m2 r = true := (col.liveMarks r).mpr (Or.inr ⟨hlive, _, hrc, by simp [Permanent]⟩)
    have := col.mem_weak r v hrc
    simp only [hm, if_true] at this
    have hval : weakRefValue h' r = some (clear m2 v) := by unfold weakRefValue; rw [this]
    rw [hval]
    refine ⟨by rintro n rfl; rfl, ?_⟩
    rintro a c rfl hac hp
    constructor
    · intro hl
      have := (col.liveMarks a).mpr (Or.inr ⟨hl, c, hac, hp⟩)
      simp [clear, this]
    · intro hl
      cases hma : m2 a with
      | false => simp [clear, hma]
      | true =>
        rcases (col.liveMarks a).mp hma with rfl | ⟨h1, _⟩
        · simp [clear, hma]
        · exact absurd h1 hl
  · cases hv

/-- **C32**: other steps leave a weak reference as it is, unless they set it. -/
theorem C32_step (hr : Reachable (h, roots)) (r : Nat) (hreach : Reach h.mem roots r) (v : Val)
    (hv : weakRefValue h r = some v) (e : Event) (t : Heap × List Val) (hst : Step (h, roots) e t)
    (hc : e ≠ .collect) (hw : e ≠ .write r) : weakRefValue t.1 r = some v := by
  obtain ⟨free, inv⟩ := inv_reachable hr
  unfold weakRefValue at hv
  split at hv
  · rename_i v' hrc
    cases hv
    have : t.1.mem[r]? = h.mem[r]? := by
      refine step_keeps hst inv (inv.reach hreach) hc ?_ ?_ hw
      · rintro v rfl
        cases hst with
        | push _ _ e => simp [guardianPush, hrc] at e
      · rintro v rfl
        cases hst with
        | pop _ e => simp [guardianPop, hrc] at e
    unfold weakRefValue; rw [this, hrc]
  · cases hv

/-- **C32**: in every state, a weak reference yields an allocated object. -/
theorem C32_never_freed (hr : Reachable (h, roots)) (r : Nat) (a : Nat) (hv : weakRefValue h r = some (.ref a)) :
    Allocated h a := by
  obtain ⟨free, inv⟩ := inv_reachable hr
  unfold weakRefValue at hv
  split at hv
  · rename_i v' hrc
    cases hv
    rcases inv.weakTargets r _ hrc with ⟨n, e⟩ | ⟨b, e, hb⟩
    · cases e
    · cases e; exact allocated_of_inUse inv hb
  · cases hv

/-- A program makes a weak reference to a subr, which stays reachable. -/
theorem C32_subr_reachable : Reachable
    ({ start with
        mem := [.fields [.ref nil, .ref nil], .subr, .weakRef (.ref 1)]
        weakRefs := [2] }, [.ref 2, .ref 1]) :=
  .step (.step .start (.object (c := .subr) ⟨trivial, trivial⟩ (by simp [kids])))
    (.weak (v := .ref 1) (Or.inr ⟨1, rfl, Or.inr (.root (by simp [makeObject, start]))⟩))

/-- **C32 is false of the code for subrs**: a weak reference to a subr that is a root
becomes `()` by a collection. -/
theorem C32_subr_violated : ∃ h', collect
      { start with
        mem := [.fields [.ref nil, .ref nil], .subr, .weakRef (.ref 1)]
        weakRefs := [2] } [.ref 2, .ref 1] = some h' ∧ weakRefValue h' 2 = some (.ref nil) := by
  obtain ⟨free, inv⟩ := inv_reachable C32_subr_reachable
  obtain ⟨h', m1, m2, e, col⟩ := collect_spec inv
  refine ⟨h', e, ?_⟩
  have h1 : m2 1 = false := by
    cases hm : m2 1 with
    | false => rfl
    | true =>
      rcases (col.liveMarks 1).mp hm with h0 | ⟨_, c, hc, hp⟩
      · simp [nil] at h0
      · simp at hc; subst hc; simp [Permanent] at hp
  have h2 : m2 2 = true := (col.liveMarks 2).mpr (Or.inr ⟨.root (by simp), _, rfl, by simp [Permanent]⟩)
  unfold weakRefValue
  rw [col.mem_weak 2 _ rfl]
  simp [h1, h2, clear]

/-- A weak reference to a number that is then dropped. -/
example : ∃ h roots r a, Reachable (h, roots) ∧ Reach h.mem roots r ∧ weakRefValue h r = some (.ref a) ∧ ¬ Live h roots a := by
  have hs : Has start [] (.ref nil) := Or.inr ⟨nil, rfl, Or.inl rfl⟩
  have s1 : Reachable ((makeObject start .number).1, [.ref 1]) := .step .start (.object ⟨trivial, trivial⟩ (by simp [kids]))
  have s2 := Reachable.step s1 (.weak (v := .ref 1) (Or.inr ⟨1, rfl, Or.inr (.root (by simp))⟩))
  have s3 := Reachable.step s2 (.roots (roots' := [.ref 2]) (by
    intro v hv _
    simp only [List.mem_cons, List.not_mem_nil, or_false] at hv
    subst hv
    exact Or.inr ⟨2, rfl, Or.inr (.root (by simp [makeWeakRef, makeObject, start]))⟩))
  refine ⟨_, _, 2, 1, s3, .root (by simp), rfl, ?_⟩
  intro hl
  unfold Live at hl
  have : ∀ x, Reach (makeWeakRef (makeObject start .number).1 (.ref 1)).1.mem
      ([.ref 2] ++ guarded (makeWeakRef (makeObject start .number).1 (.ref 1)).1) x → x = 2 := by
    intro x hx
    induction hx with
    | root hm => simpa [guarded, makeWeakRef, makeObject, start] using hm
    | step _ hc hk ih =>
      subst ih
      simp [makeWeakRef, makeObject, start] at hc
      subst hc
      simp [kids] at hk
  exact absurd (this 1 hl) (by decide)

end Rep.Gc
