/-
Properties C13 (non-destructive list functions), C14 (destructive list functions),
C15 (sort), C16 (queues) and C42 (list access).

`Spine h v as w`: starting at `v`, the cdrs go through exactly the cells `as` and
end at `w`.  A finite list is a value with a spine whose end is not a cons.
`Extends h h'`: every cell of `h` is unchanged in `h'`.  `OnlyCdrsOf as h h'`:
only cdrs of the cells `as` differ.
-/
import Verif.Heap.QueueLemmas

namespace Rep.Lists

theorem isAtom_nil : IsAtom .nil := fun a => by simp

/-! A small heap for the examples: the lists (10 20 30) in cells 0 1 2 and (40 . 5)
in cell 3. -/

def demo : Heap :=
  { car := fun a => if a = 0 then .atom 10 else if a = 1 then .atom 20 else if a = 2 then .atom 30 else .atom 40
    cdr := fun a => if a = 0 then .cell 1 else if a = 1 then .cell 2 else if a = 2 then .nil else .atom 5
    next := 4 }

example : Spine demo (.cell 0) [0, 1, 2] .nil := by simp [Spine, demo]
example : Spine demo (.cell 3) [3] (.atom 5) := by simp [Spine, demo]

/-- A list determines its spine. -/
theorem spine_unique {h : Heap} : ∀ {as bs : List Nat} {v t u : V}, IsAtom t → IsAtom u →
    Spine h v as t → Spine h v bs u → as = bs ∧ t = u
  | [], [], v, t, u, _, _, h1, h2 => ⟨rfl, (show v = t from h1).symm.trans h2⟩
  | [], b :: bs, v, t, u, ht, _, h1, h2 => absurd ((show v = t from h1).symm.trans h2.1) (ht b)
  | a :: as, [], v, t, u, _, hu, h1, h2 => absurd ((show v = u from h2).symm.trans h1.1) (hu a)
  | a :: as, b :: bs, v, t, u, ht, hu, h1, h2 => by
    obtain ⟨rfl, _, h1⟩ := h1
    obtain ⟨e, _, h2⟩ := h2
    cases e
    obtain ⟨rfl, rfl⟩ := spine_unique ht hu h1 h2
    exact ⟨rfl, rfl⟩

/-- A finite list does not visit a cell twice. -/
theorem spine_nodup {h : Heap} : ∀ {as : List Nat} {v t : V}, IsAtom t → Spine h v as t → as.Nodup
  | [], _, _, _, _ => List.nodup_nil
  | a :: as, v, t, ht, hs => by
    obtain ⟨rfl, hlt, hs⟩ := hs
    refine List.nodup_cons.2 ⟨fun hm => ?_, spine_nodup ht hs⟩
    obtain ⟨xs, ys, rfl⟩ := List.append_of_mem hm
    obtain ⟨u, _, h2⟩ := Spine.append_iff.1 hs
    have h1 : Spine h (.cell a) (a :: (xs ++ a :: ys)) t := ⟨rfl, hlt, hs⟩
    have h3 : Spine h (.cell a) (a :: ys) t := ⟨rfl, hlt, h2.2.2⟩
    have := congrArg List.length (spine_unique ht ht h1 h3).1
    simp at this
    omega

/-! ## C13  non-destructive list functions -/

/-- `(append l1 ... ln z)`, for finite lists `l1 ... ln` (the final cdr of each is
dropped) and a finite list or atom `z`: no existing cell changes, and the value is
a list of fresh cells holding the elements of `l1 ... ln` in order, whose tail is
`z` itself. -/
theorem C13_append (h : Heap) (args : List Arg) (hargs : ∀ a ∈ args, a.Ok h)
    (z tz : V) (zs : List Nat) (hz : Spine h z zs tz) (htz : IsAtom tz) :
    ∃ h' r cs, append h (args.map Arg.val ++ [z]) = some (h', .ok r) ∧ Extends h h' ∧
      Spine h' r cs z ∧ cs.map h'.car = args.flatMap (fun a => a.cells.map h.car) ∧
      (∀ c ∈ cs, h.next ≤ c) ∧ cs.Nodup := by
  obtain ⟨h', r, ds, e, b, m⟩ := append_loop_spec hz htz args h .nil [] .var .nil 0 (Build.init h) hargs
  exact ⟨h', r, ds, e, ⟨b.le, b.frame⟩, b.spine, by simpa using m, b.fresh, b.nodup⟩

example : ∀ a ∈ [Arg.mk (.cell 0) [0, 1, 2] .nil, Arg.mk (.cell 3) [3] (.atom 5)], a.Ok demo := by
  simp [Arg.Ok, Spine, demo, IsAtom, listp]

/-- `append` without arguments is nil. -/
theorem C13_append_none (h : Heap) : append h [] = some (h, .ok .nil) := rfl

/-- `append` rejects an argument, other than the last, that is not a list. -/
theorem C13_append_error (h : Heap) (n : Int) (v : V) (vs : List V) :
    append h (.atom n :: v :: vs) = some (h, .error (.badArg (.atom n) 1)) := rfl

/-- If the last argument is circular, `append` does not return, although its value
does not depend on the end of that list. -/
theorem C13_append_circular_last :
    ∃ (h : Heap) (l z : V), Spine h l [0] .nil ∧ append h [l, z] = none := by
  let h : Heap := { car := fun _ => .atom 1, cdr := fun a => if a = 0 then .nil else .cell 1, next := 2 }
  have loop : ∀ (h : Heap) (x : V) (p : Loc) (r : Loc), seekEnd h x p = some r →
      (p.read h x = .cell 1 ∧ h.cdr 1 = .cell 1) → False := by
    intro h x p r
    refine seekEnd.partial_correctness h x (fun p r => (p.read h x = .cell 1 ∧ h.cdr 1 = .cell 1) → False) ?_ p r
    intro f ih p r e hc
    rw [hc.1] at e
    exact ih _ _ e ⟨hc.2, hc.2⟩
  refine ⟨h, .cell 0, .cell 1, by simp [Spine, h], ?_⟩
  obtain ⟨h1, c, ds, e1, he, hd, hn, hf, hm⟩ := copyList_spec (h := h) (l := .cell 0) (as := [0]) isAtom_nil
    (by simp [Spine, h])
  have hb := (Build.init h).link he hd hn hf
  have hlen : ds.length = 1 := by simpa using congrArg List.length hm
  obtain ⟨d, rfl⟩ := List.length_eq_one_iff.1 hlen
  simp only [append, append.loop, listp, if_true, e1, Option.bind_some, Loc.write]
  rw [seekEnd_spec isAtom_nil [d] .var (by exact hd)]
  simp only [Option.bind_some]
  have hd1 : d ≠ 1 := by
    have := hf d (by simp)
    simp only [h] at this; omega
  cases hs : seekEnd (setCdr h1 d (.cell 1)) c (.cdrOf d) with
  | none =>
    simp only [List.getLast?_singleton, Loc.write, hs]
    rfl
  | some r =>
    exfalso
    refine loop _ _ _ _ hs ⟨setCdr_self, ?_⟩
    rw [setCdr_ne hd1.symm, (he.2 1 (by simp [h])).2]
    simp [h]

/-- `(reverse l)`: fresh cells with the elements in reverse order. -/
theorem C13_reverse (h : Heap) (l t : V) (as : List Nat) (hl : Spine h l as t) (ht : IsAtom t)
    (hlist : listp l = true) :
    ∃ h' r cs, reverse h l = some (h', .ok r) ∧ Extends h h' ∧ Spine h' r cs .nil ∧
      cs.map h'.car = (as.map h.car).reverse ∧ (∀ c ∈ cs, h.next ≤ c) ∧ cs.Nodup := by
  obtain ⟨h', r, ds, e, h1, h2, h3, h4, h5⟩ := reverse_loop_spec ht as h .nil l [] (Extends.refl h) hl rfl
    List.nodup_nil (by simp)
  refine ⟨h', r, ds, ?_, h1, h2, by simpa using h5, h4, h3⟩
  simp [reverse, hlist, e]

/-- `(copy-sequence l)`: fresh cells with the same elements. -/
theorem C13_copy_sequence (h : Heap) (l t : V) (as : List Nat) (hl : Spine h l as t) (ht : IsAtom t)
    (hlist : listp l = true) :
    ∃ h' r cs, copySeq h l = some (h', .ok r) ∧ Extends h h' ∧ Spine h' r cs .nil ∧
      cs.map h'.car = as.map h.car ∧ (∀ c ∈ cs, h.next ≤ c) ∧ cs.Nodup := by
  cases l with
  | atom n => simp [listp] at hlist
  | nil =>
    cases as with
    | nil => exact ⟨h, .nil, [], rfl, Extends.refl h, rfl, rfl, by simp, by simp⟩
    | cons a as => simp [Spine] at hl
  | cell a =>
    obtain ⟨h', r, ds, e, b, m⟩ := copySeq_loop_spec ht as h .nil [] .var (.cell a) (Build.init h) hl
    exact ⟨h', r, ds, e, ⟨b.le, b.frame⟩, b.spine, by simpa using m, b.fresh, b.nodup⟩

/-- `(mapcar f l)` for a function that returns `g v` and modifies no existing cell. -/
theorem C13_mapcar (f : Fn) (g : V → V) (hf : Quiet f g) (h : Heap) (l t : V) (as : List Nat)
    (hl : Spine h l as t) (ht : IsAtom t) (hlist : listp l = true) :
    ∃ h' r cs, mapcar f h l = some (h', .ok r) ∧ Extends h h' ∧ Spine h' r cs .nil ∧
      cs.map h'.car = (as.map h.car).map g ∧ (∀ c ∈ cs, h.next ≤ c) ∧ cs.Nodup := by
  obtain ⟨h', r, ds, e, b, m⟩ := mapcar_loop_spec ht hf as h .nil [] .var l (Build.init h) hl
  refine ⟨h', r, ds, ?_, ⟨b.le, b.frame⟩, b.spine, ?_, b.fresh, b.nodup⟩
  · simp [mapcar, hlist, e]
  · rw [List.map_map]
    have m' : ds.map h'.car = as.map (fun a => g (h.car a)) := by simpa using m
    exact m'

/-- `(filter p l)`: fresh cells holding the accepted elements in order. -/
theorem C13_filter (f : Fn) (g : V → V) (hf : Quiet f g) (h : Heap) (l t : V) (as : List Nat)
    (hl : Spine h l as t) (ht : IsAtom t) (hlist : listp l = true) :
    ∃ h' r cs, filter f h l = some (h', .ok r) ∧ Extends h h' ∧ Spine h' r cs .nil ∧
      cs.map h'.car = (as.map h.car).filter (fun v => g v ≠ .nil) ∧ (∀ c ∈ cs, h.next ≤ c) ∧ cs.Nodup := by
  obtain ⟨h', r, ds, e, b, m⟩ := filter_loop_spec ht hf as h .nil [] .var l (Build.init h) hl
  refine ⟨h', r, ds, ?_, ⟨b.le, b.frame⟩, b.spine, ?_, b.fresh, b.nodup⟩
  · simp [filter, hlist, e]
  · simpa using m

/-- A function that allocates (it conses its argument to nil and returns the argument). -/
example : Quiet (fun h v => ((cons h v .nil).1, v)) id := fun h v => ⟨cons_extends h v .nil, rfl⟩

/-! ## C14  destructive list functions -/

/-- `(nreverse l)`: the same cells in reverse order; nothing but their cdrs changes. -/
theorem C14_nreverse (h : Heap) (l t : V) (as : List Nat) (hl : Spine h l as t) (ht : IsAtom t)
    (hlist : listp l = true) :
    ∃ h' r, nreverse h l = some (h', .ok r) ∧ Spine h' r as.reverse .nil ∧ OnlyCdrsOf as h h' := by
  cases l with
  | atom n => simp [listp] at hlist
  | nil =>
    cases as with
    | nil => exact ⟨h, .nil, rfl, rfl, rfl, rfl, fun _ _ => rfl⟩
    | cons a as => simp [Spine] at hl
  | cell a =>
    cases as with
    | nil => exact absurd (show V.cell a = t from hl).symm (ht a)
    | cons b as =>
      obtain rfl : a = b := by simpa using hl.1
      obtain ⟨h', r, e, h1, h2⟩ := nreverse_loop_spec ht as h a .nil [] hl rfl
        (by rw [List.append_nil]; exact spine_nodup ht hl)
      exact ⟨h', r, e, by simpa using h1, h2⟩

/-- `(nconc l1 ... ln z)` for finite lists without common cells: the concatenation
of the same cells; nothing but the cdrs of `l1 ... ln` changes. -/
theorem C14_nconc (h : Heap) (args : List Arg) (hargs : ∀ a ∈ args, a.Ok h)
    (z tz : V) (zs : List Nat) (hz : Spine h z zs tz) (htz : IsAtom tz)
    (hd : (args.flatMap Arg.cells ++ zs).Nodup) :
    ∃ h' r, nconc h (args.map Arg.val ++ [z]) = some (h', .ok r) ∧
      Spine h' r (args.flatMap Arg.cells ++ zs) tz ∧ OnlyCdrsOf (args.flatMap Arg.cells) h h' := by
  obtain ⟨h', r, e, h1, h2⟩ := nconc_loop_spec htz args h .nil .nil [] 0 rfl hz hargs hd
  exact ⟨h', r, e, h1, h2⟩

example : ([Arg.mk (.cell 0) [0, 1, 2] .nil].flatMap Arg.cells ++ [3]).Nodup := by decide

/-- `(delete-if p l)`, and `delete`/`delq`: the list of the cells whose element is
not to go, in the original order; nothing but cdrs of the list changes.  The test
must not depend on the cdrs that are being changed. -/
theorem C14_delete (p : Heap → V → Bool) (h : Heap) (l t : V) (as : List Nat) (hl : Spine h l as t)
    (ht : IsAtom t) (hlist : listp l = true)
    (hp : ∀ h', OnlyCdrsOf as h h' → ∀ a ∈ as, p h' (h.car a) = p h (h.car a)) :
    ∃ h' r, deleteIf p h l = some (h', .ok r) ∧
      Spine h' r (as.filter (fun a => !p h (h.car a))) t ∧ OnlyCdrsOf as h h' := by
  obtain ⟨h', r, e, h1, h2⟩ := deleteLoop_spec ht p as hp as h l [] hl (spine_nodup ht hl)
    (fun a ha => ha) ⟨rfl, rfl, fun _ _ => rfl⟩
  refine ⟨h', r, ?_, h1, h2⟩
  simp only [deleteIf, hlist, if_true]
  exact e

/-- `(delq x l)`. -/
theorem C14_delq (x : V) (h : Heap) (l t : V) (as : List Nat) (hl : Spine h l as t)
    (ht : IsAtom t) (hlist : listp l = true) :
    ∃ h' r bs, delq h x l = some (h', .ok r) ∧ Spine h' r bs t ∧
      bs.map h'.car = (as.map h.car).filter (fun v => v ≠ x) ∧ bs.Sublist as ∧ OnlyCdrsOf as h h' := by
  obtain ⟨h', r, e, h1, h2⟩ := C14_delete (fun _ v => x == v) h l t as hl ht hlist (fun _ _ _ _ => rfl)
  refine ⟨h', r, _, e, h1, ?_, List.filter_sublist, h2⟩
  rw [h2.2.1, List.filter_map]
  congr 1
  apply List.filter_congr
  intro a _
  simp only [Function.comp, ne_eq, decide_not]
  by_cases hx : h.car a = x
  · simp [hx]
  · simp [hx, Ne.symm hx]

/-! ## C15  sort -/

/-- `(sort l pred)` for a strict weak order `pred`: it terminates, the result is a
permutation of the cells of `l`, sorted, and two cells that are in the original
order and not out of order by `pred` stay in that order (stability).  Only cdrs of
the list change. -/
theorem C15_sort (pred : V → V → Bool)
    (asymm : ∀ a b, pred a b = true → pred b a = false)
    (negtrans : ∀ a b c, pred b a = false → pred c b = false → pred c a = false)
    (h : Heap) (l : V) (as : List Nat) (hl : Spine h l as .nil) :
    ∃ h' r bs, sort pred h l = some (h', r) ∧ Spine h' r bs .nil ∧ OnlyCdrsOf as h h' ∧ bs.Perm as ∧
      bs.Pairwise (fun a b => pred (h'.car b) (h'.car a) = false) ∧
      (∀ a b, [a, b].Sublist as → pred (h.car b) (h.car a) = false → [a, b].Sublist bs) := by
  obtain ⟨h', r, bs, e, s, k, p, q, t⟩ := sort_spec pred negtrans asymm _ h as l rfl hl (spine_nodup isAtom_nil hl)
  exact ⟨h', r, bs, e, s, k, p, by rw [k.2.1]; exact q, t⟩

/-- A strict weak order that is not total: compare the tens of two integers. -/
def lessTens : V → V → Bool
  | .atom a, .atom b => decide (a / 10 < b / 10)
  | .nil, .atom _ => true
  | .nil, .cell _ => true
  | .atom _, .cell _ => true
  | _, _ => false

example : (∀ a b, lessTens a b = true → lessTens b a = false) ∧
    (∀ a b c, lessTens b a = false → lessTens c b = false → lessTens c a = false) := by
  constructor
  · intro a b; cases a <;> cases b <;> simp [lessTens]; omega
  · intro a b c; cases a <;> cases b <;> cases c <;> simp [lessTens]; omega

/-! ## C16  queues -/

/-- A new queue is empty. -/
theorem C16_make_queue (h : Heap) :
    (makeQueue h).2 = .cell h.next ∧ IsQueue (makeQueue h).1 h.next [] ∧ Extends h (makeQueue h).1 := by
  refine ⟨rfl, ⟨[], ?_, rfl, by simp, by simp [makeQueue, cons], ?_⟩, cons_extends _ _ _⟩
  · simp [Spine, makeQueue, cons]
  · simp [makeQueue, cons]

/-- An operation on a queue. -/
inductive QOp where
  | enqueue (x : V)
  | dequeue
  | delete (x : V)

/-- What the operation does to the sequence of items, and what it returns
(`dequeue` on an empty queue signals an error and changes nothing). -/
def QOp.spec : QOp → List V → List V × Option V
  | .enqueue x, xs => (xs ++ [x], none)
  | .dequeue, [] => ([], none)
  | .dequeue, x :: xs => (xs, some x)
  | .delete x, xs => (xs.filter (fun v => v ≠ x), none)

/-- What the code does. -/
def QOp.run (h : Heap) (q : Nat) : QOp → Option (Heap × Option V)
  | .enqueue x => some (Lists.enqueue h q x, none)
  | .dequeue => match Lists.dequeue h q with | none => some (h, none) | some (h', x) => some (h', some x)
  | .delete x => (deleteFromQueue h q x).map fun h' => (h', none)

def QOp.runAll (h : Heap) (q : Nat) : List QOp → Option (Heap × List (Option V))
  | [] => some (h, [])
  | op :: ops => do
      let (h, r) ← op.run h q
      let (h, rs) ← QOp.runAll h q ops
      pure (h, r :: rs)

def QOp.specAll (xs : List V) : List QOp → List V × List (Option V)
  | [] => (xs, [])
  | op :: ops =>
      let r := op.spec xs
      let s := QOp.specAll r.1 ops
      (s.1, r.2 :: s.2)

/-- One operation. -/
theorem C16_step (h : Heap) (q : Nat) (xs : List V) (hq : IsQueue h q xs) (op : QOp) :
    ∃ h', op.run h q = some (h', (op.spec xs).2) ∧ IsQueue h' q (op.spec xs).1 := by
  cases op with
  | enqueue x => exact ⟨_, rfl, enqueue_spec x hq⟩
  | dequeue =>
    cases xs with
    | nil => exact ⟨h, by simp [QOp.run, dequeue_empty hq, QOp.spec], hq⟩
    | cons x xs =>
      obtain ⟨h', e, r⟩ := dequeue_spec hq
      exact ⟨h', by simp [QOp.run, e, QOp.spec], r⟩
  | delete x =>
    obtain ⟨h', e, r⟩ := deleteFromQueue_spec x hq
    exact ⟨h', by simp [QOp.run, e, QOp.spec], r⟩

/-- Every history of operations on a new queue returns what a FIFO sequence returns,
and leaves the queue holding that sequence. -/
theorem C16_history (h : Heap) (ops : List QOp) :
    ∃ h', QOp.runAll (makeQueue h).1 h.next ops = some (h', (QOp.specAll [] ops).2) ∧
      IsQueue h' h.next (QOp.specAll [] ops).1 := by
  have gen : ∀ (ops : List QOp) (h : Heap) (q : Nat) (xs : List V), IsQueue h q xs →
      ∃ h', QOp.runAll h q ops = some (h', (QOp.specAll xs ops).2) ∧ IsQueue h' q (QOp.specAll xs ops).1 := by
    intro ops
    induction ops with
    | nil => intro h q xs hq; exact ⟨h, rfl, hq⟩
    | cons op ops ih =>
      intro h q xs hq
      obtain ⟨h1, e1, r1⟩ := C16_step h q xs hq op
      obtain ⟨h2, e2, r2⟩ := ih h1 q _ r1
      exact ⟨h2, by simp [QOp.runAll, e1, e2, QOp.specAll], r2⟩
  exact gen ops _ _ _ (C16_make_queue h).2.1

example : QOp.specAll [] [.enqueue (.atom 1), .enqueue (.atom 2), .enqueue (.atom 1), .delete (.atom 1),
    .enqueue (.atom 3), .dequeue, .dequeue, .dequeue] =
    ([], [none, none, none, none, none, some (.atom 2), some (.atom 3), none]) := by decide

/-- The observers. -/
theorem C16_observers (h : Heap) (q : Nat) (xs : List V) (hq : IsQueue h q xs) :
    (queueEmptyP h q = true ↔ xs = []) ∧ length h (queueToList h q) = some xs.length ∧
      ∃ as, Spine h (queueToList h q) as .nil ∧ as.map h.car = xs := by
  obtain ⟨as, hs, hm, -⟩ := hq
  refine ⟨?_, ?_, as, hs, hm⟩
  · rw [queueEmptyP, beq_iff_eq, hs.eq_nil, ← hm]; simp
  · rw [← hm, List.length_map]
    have := length_loop_spec isAtom_nil as 0 _ hs
    rw [Nat.zero_add] at this
    exact this

/-! ## C42  list access -/

/-- `(length l)`, `(last l)`, `(nth i l)`, `(nthcdr i l)` of a finite list, for
indices below 2^31. -/
theorem C42_access_partial (h : Heap) (l t : V) (as : List Nat) (hl : Spine h l as t) (ht : IsAtom t)
    (hlist : listp l = true) (i : Nat) (hi : i < 2 ^ 31) :
    length h l = some as.length ∧
    last h l = some ((as.map h.car).getLast?.getD .nil) ∧
    nth h i l = .ok ((as.map h.car)[i]?.getD .nil) ∧
    nthcdr h i l = .ok (startOf t (as.drop i)) := by
  have htr : toInt32 i = i := by
    unfold toInt32
    apply Int.bmod_eq_of_le <;> omega
  have hnc := nthcdr_loop_spec ht as i l hl
  refine ⟨?_, ?_, ?_, ?_⟩
  · have := length_loop_spec ht as 0 l hl
    rw [Nat.zero_add] at this
    exact this
  · cases as with
    | nil =>
      have hlt : l = t := hl
      subst hlt
      cases l with
      | cell a => exact absurd rfl (ht a)
      | nil => rfl
      | atom n => rfl
    | cons a as =>
      obtain ⟨rfl, _, hs⟩ := hl
      simp only [last]
      rw [last_loop_spec ht as a hs, List.getLast?_eq_getLast_of_ne_nil (by simp), Option.getD_some,
        List.getLast_map]
  · simp only [nth, hlist, htr]
    rw [Bool.not_true, if_neg (by simp), if_neg (by omega)]
    rw [Int.toNat_natCast, hnc]
    refine congrArg Except.ok ?_
    rcases Nat.lt_or_ge i as.length with hlt | hge
    · rw [List.drop_eq_getElem_cons hlt]
      simp [hlt, car, startOf]
    · rw [List.drop_of_length_le hge]
      simp only [List.getElem?_map, List.getElem?_eq_none hge, Option.map_none, Option.getD_none]
      cases t with
      | cell a => exact absurd rfl (ht a)
      | nil => rfl
      | atom n => rfl
  · simp only [nthcdr, hlist, htr]
    rw [Bool.not_true, if_neg (by simp), if_neg (by omega)]
    simp only [Int.toNat_natCast, hnc]

/-- The index is truncated to a C `int`: `(nth 4294967296 l)` is the first element,
and `(nthcdr 2147483648 l)` is an argument error. -/
theorem C42_access_violated :
    nth demo 4294967296 (.cell 0) = .ok (.atom 10) ∧
    nthcdr demo 2147483648 (.cell 0) = .error (.badArg (.atom 2147483648) 1) ∧
    Spine demo (.cell 0) [0, 1, 2] .nil := by
  refine ⟨?_, ?_, by simp [Spine, demo]⟩
  · have : toInt32 4294967296 = 0 := by decide
    simp [nth, listp, this, nthcdr.loop, car, demo]
  · have : toInt32 2147483648 = -2147483648 := by decide
    simp [nthcdr, listp, this]

/-- `memq`/`member`: the first tail whose element passes the test, or nil. -/
theorem C42_member (p : V → Bool) (h : Heap) (l t : V) (as : List Nat) (hl : Spine h l as t) (ht : IsAtom t) :
    memLoop h p l = some (startOf .nil (as.dropWhile fun a => !p (h.car a))) :=
  memLoop_spec ht p as l hl

/-- `assq`/`assoc`/`rassq`/`rassoc`: the first element that is a pair passing the
test (elements that are not pairs are skipped), or nil. -/
theorem C42_assoc (p : Nat → Bool) (h : Heap) (l t : V) (as : List Nat) (hl : Spine h l as t) (ht : IsAtom t) :
    assLoop h p l =
      some (((as.map h.car).find? (fun v => match v with | .cell c => p c | _ => false)).getD .nil) :=
  assLoop_spec ht p as l hl

end Rep.Lists
