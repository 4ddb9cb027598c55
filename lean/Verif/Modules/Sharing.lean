import Verif.Heap.Props

/-
Interface lists as cons cells.  Model.lean treats the list of exported names a structure does not
define as a Lean list of its own.  In the code it is the very list that `make-structure` was given,
and defining a variable removes its name with the destructive `delq`.  Here the lists are the
pointer lists of Verif/Heap.
-/

namespace Rep.Mods.Sharing

open Rep.Lists

/-- The structures of the program and the named interfaces, as far as interface lists go: a heap,
the field `inherited` of each structure, and what `make-interface` stored under each name
(lisp/rep/structures.jl:30-34). -/
structure St where
  heap : Heap
  inherited : Nat → V
  stored : Nat → V

/-- lisp/rep/structures.jl:46-49 `parse-interface` of a name and src/structures.c:727
`Fmake_structure`: the stored list itself becomes the field, without a copy. -/
def mk (g : St) (s x : Nat) : St :=
  { g with inherited := Function.update g.inherited s (g.stored x) }

/-- src/structures.c:559-563, the end of `lookup_or_add` for a name that has no binding yet:
`if (structure_exports_inherited_p (s, var)) s->inherited = Fdelq (var, s->inherited)` in a
structure that does not export everything (line 171, `rep_MEMQ`).  The Boolean is `is_exported` of
the new binding.  `none`: does not return, or `delq` signals an error. -/
def define (g : St) (s : Nat) (v : V) : Option (St × Bool) :=
  match memq g.heap v (g.inherited s) with
  | none => none
  | some .nil => some (g, false)
  | some _ =>
    match delq g.heap v (g.inherited s) with
    | some (h, .ok r) => some ({ g with heap := h, inherited := Function.update g.inherited s r }, true)
    | _ => none

/-- The names on the interface list of `s` that are not yet defined. -/
def Holds (g : St) (s : Nat) (xs : List V) : Prop :=
  ∃ as, Spine g.heap (g.inherited s) as .nil ∧ as.map g.heap.car = xs

theorem spine_frame {h h' : Heap} {bs : List Nat} (hf : OnlyCdrsOf bs h h') :
    ∀ {v : V} {as : List Nat} {t : V}, (∀ a ∈ as, a ∉ bs) → Spine h v as t → Spine h' v as t
  | _, [], _, _, hs => hs
  | _, a :: as, _, hd, ⟨h1, h2, h3⟩ => by
    refine ⟨h1, hf.1 ▸ h2, ?_⟩
    rw [hf.2.2 a (hd a (by simp))]
    exact spine_frame hf (fun b hb => hd b (by simp [hb])) h3

theorem drop_nil {p : Nat → Bool} : ∀ {as : List Nat}, as.dropWhile p = [] → ∀ a ∈ as, p a = true
  | [], _, _, h => by cases h
  | b :: as, h, a, ha => by
    rw [List.dropWhile_cons] at h
    split at h
    · rename_i hb
      rcases List.mem_cons.1 ha with rfl | ha
      · exact hb
      · exact drop_nil h a ha
    · cases h

theorem drop_cons {p : Nat → Bool} {c : Nat} {cs : List Nat} :
    ∀ {as : List Nat}, as.dropWhile p = c :: cs → p c = false ∧ c ∈ as
  | [], h => by cases h
  | b :: as, h => by
    rw [List.dropWhile_cons] at h
    split at h
    · exact ⟨(drop_cons h).1, List.mem_cons_of_mem _ (drop_cons h).2⟩
    · rename_i hb
      cases h
      exact ⟨by simpa using hb, by simp⟩

/-- **C50** (partial).  With lists that share no cell, defining a variable takes its name off the
list of that structure, says whether it was there, and leaves the list of any other structure as
it was. -/
theorem C50_unshared_partial {g : St} {s t : Nat} {v : V} {as bs : List Nat} (hst : t ≠ s)
    (ha : Spine g.heap (g.inherited s) as .nil) (hb : Spine g.heap (g.inherited t) bs .nil)
    (hd : ∀ b ∈ bs, b ∉ as) :
    ∃ g' e, define g s v = some (g', e) ∧ (e = true ↔ v ∈ as.map g.heap.car) ∧
      Holds g' s ((as.map g.heap.car).filter (· ≠ v)) ∧ Holds g' t (bs.map g.heap.car) := by
  have hat : IsAtom V.nil := fun a h => by cases h
  have hm := C42_member (fun x => v == x) g.heap (g.inherited s) .nil as ha hat
  have hmem : memq g.heap v (g.inherited s) = some (startOf .nil (as.dropWhile fun a => !(v == g.heap.car a))) := hm
  unfold define
  rw [hmem]
  cases hdw : as.dropWhile fun a => !(v == g.heap.car a) with
  | nil =>
    have hno : ∀ a ∈ as, g.heap.car a ≠ v := by
      intro a haa e
      have := drop_nil hdw a haa
      simp [e] at this
    refine ⟨g, false, rfl, ?_, ⟨as, ha, ?_⟩, ⟨bs, hb, rfl⟩⟩
    · simp only [Bool.false_eq_true, List.mem_map, false_iff, not_exists, not_and]
      exact fun a haa => hno a haa
    · symm
      apply List.filter_eq_self.2
      intro x hx
      obtain ⟨a, haa, rfl⟩ := List.mem_map.1 hx
      simpa using hno a haa
  | cons c cs =>
    have hin : v ∈ as.map g.heap.car := by
      have h2 := drop_cons hdw
      refine List.mem_map.2 ⟨c, h2.2, ?_⟩
      have := h2.1
      simp only [Bool.not_eq_false', beq_iff_eq] at this
      exact this.symm
    have hlist : listp (g.inherited s) = true := by
      cases as with
      | nil => cases hin
      | cons a as => rw [ha.1]; rfl
    obtain ⟨h', r, cs', e, h1, h2, h3, h4⟩ := C14_delq v g.heap (g.inherited s) .nil as ha hat hlist
    simp only [startOf, e]
    refine ⟨_, true, rfl, by simp [hin], ⟨cs', ?_, h2⟩, ⟨bs, ?_, ?_⟩⟩
    · simpa using h1
    · simp only [Function.update_of_ne hst]
      exact spine_frame h4 hd hb
    · simp only [h4.2.1]

/-- Two cells that hold the list `(1 2)`. -/
def twoCells : Heap :=
  { car := fun a => if a = 0 then .atom 1 else .atom 2
    cdr := fun a => if a = 0 then .cell 1 else .nil
    next := 2 }

/-- `(define-interface 7 (export 1 2))`. -/
def named : St := { heap := twoCells, inherited := fun _ => .nil, stored := fun _ => .cell 0 }

example : Spine twoCells (.cell 0) [0, 1] .nil := ⟨rfl, by decide, rfl, by decide, rfl⟩

/-- Structures with lists of their own: (1 2) and (2). -/
example : let g : St := { heap := { car := fun a => if a = 0 then .atom 1 else .atom 2
                                    cdr := fun a => if a = 0 then .cell 1 else .nil
                                    next := 3 }
                          inherited := fun s => if s = 1 then .cell 0 else .cell 2
                          stored := fun _ => .nil }
    Spine g.heap (g.inherited 1) [0, 1] .nil ∧ Spine g.heap (g.inherited 2) [2] .nil ∧
      ∀ b ∈ [2], b ∉ [0, 1] :=
  ⟨⟨rfl, by decide, rfl, by decide, rfl⟩, ⟨rfl, by decide, rfl⟩, by decide⟩

/-- **C50 is violated**: of two structures made with the same named interface, defining the
variable in the first one takes it out of the interface of the second one and of the named
interface. -/
theorem C50_shared_violated :
    Holds (mk (mk named 1 7) 2 7) 2 [.atom 1, .atom 2] ∧
      ∃ g, define (mk (mk named 1 7) 2 7) 1 (.atom 2) = some (g, true) ∧ Holds g 2 [.atom 1] ∧
        ∃ g', define g 2 (.atom 2) = some (g', false) := by
  have hn : ∀ a, V.nil ≠ .cell a := fun a h => by cases h
  refine ⟨⟨[0, 1], ⟨rfl, by decide, rfl, by decide, rfl⟩, rfl⟩, ?_⟩
  have e1 : (mk (mk named 1 7) 2 7).inherited 1 = .cell 0 := by simp [mk, named, Function.update]
  have e2 : (mk (mk named 1 7) 2 7).heap = twoCells := rfl
  let h' : Heap := setCdr twoCells 0 .nil
  have hd : delq twoCells (.atom 2) (.cell 0) = some (h', .ok (.cell 0)) := by
    simp only [delq, deleteIf, listp, if_true]
    rw [deleteLoop]
    simp only [Loc.read, twoCells, if_true]
    rw [if_neg (by decide)]
    rw [deleteLoop]
    simp only [Loc.read, if_true, Nat.one_ne_zero, if_false, BEq.rfl, Loc.write]
    rw [deleteLoop]
    simp only [Loc.read, setCdr, Function.update_self]
    rfl
  have hm : memq twoCells (.atom 2) (.cell 0) = some (.cell 1) :=
    C42_member (fun x => V.atom 2 == x) twoCells (.cell 0) .nil [0, 1]
      ⟨rfl, by decide, rfl, by decide, rfl⟩ hn
  let g' : St := { heap := h'
                   inherited := Function.update (mk (mk named 1 7) 2 7).inherited 1 (.cell 0)
                   stored := named.stored }
  have hsp : Spine h' (.cell 0) [0] .nil := ⟨rfl, by decide, by simp [h', setCdr, Spine]⟩
  refine ⟨g', ?_, ⟨[0], ?_, rfl⟩, g', ?_⟩
  · unfold define
    rw [e1, e2, hm]
    dsimp only
    rw [hd]
    rfl
  · exact hsp
  · unfold define
    have : memq g'.heap (.atom 2) (g'.inherited 2) = some .nil :=
      C42_member (fun x => V.atom 2 == x) h' (.cell 0) .nil [0] hsp hn
    rw [this]

end Rep.Mods.Sharing
