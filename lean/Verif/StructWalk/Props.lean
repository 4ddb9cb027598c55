import Verif.StructWalk.Model
import Mathlib.Data.List.Nodup
import Mathlib.Tactic.Common
/-!
# C119: walking over the bindings of a structure
-/
namespace Rep.StructWalk

/-! ### Specification -/
namespace Spec
variable {V σ : Type}

/-- The bindings as a finite map. -/
abbrev Map (V : Type) := Sym → Option V

def act (m : Map V) : Op V → Map V
  | .define v x => fun w => if w = v then some x else m w
  | .remove v => fun w => if w = v then none else m w

def acts (m : Map V) (ops : List (Op V)) : Map V := ops.foldl act m

/-- How the calls end. -/
inductive Fin (σ V : Type)
  | done (st : σ) (m : Map V)
  | exit (m : Map V)

/-- The function called for these symbols in turn, each with the value it has then; an exit ends it. -/
def calls (f : Fun σ V) : List Sym → Map V → σ → List (Sym × V) × Fin σ V
  | [], m, st => ([], .done st m)
  | x :: xs, m, st =>
    match m x with
    | none => calls f xs m st
    | some v =>
      match f st m x v with
      | none => ([(x, v)], .exit m)
      | some (st', ops) => let r := calls f xs (acts m ops) st'; ((x, v) :: r.1, r.2)

/-- Operations that add no binding, and leave that of `x`. -/
def Mild (x : Sym) : Map V → List (Op V) → Prop
  | _, [] => True
  | m, .define y z :: ops => (m y).isSome ∧ Mild x (act m (.define y z)) ops
  | m, .remove y :: ops => y ≠ x ∧ Mild x (act m (.remove y)) ops

/-- The function adds no bindings, and doesn't remove the one it is called for. It may change values, and remove others. -/
def Keeps (f : Fun σ V) : Prop := ∀ st m x v st' ops, f st m x v = some (st', ops) → Mild x m ops

end Spec

open Spec

variable {V σ : Type}

/-- What the observer sees at the end. -/
def Agree : End σ V → Fin σ V → Prop
  | .done st t, .done st' m => st = st' ∧ lookup t = m
  | .exit t, .exit m => lookup t = m
  | _, _ => False

/-! ### The table -/

structure Inv (t : Table V) : Prop where
  place : ∀ i nd, nd ∈ t.bk i → i < t.size ∧ nd.1 % t.size = i
  once : ∀ i, ((t.bk i).map Prod.fst).Nodup

theorem get_mem {c : Chain V} (h : (c.map Prod.fst).Nodup) (v : Sym) (x : V) : get c v = some x ↔ (v, x) ∈ c := by
  induction c with
  | nil => simp [get]
  | cons nd c ih =>
    obtain ⟨w, y⟩ := nd
    rw [List.map_cons, List.nodup_cons] at h
    have ih := ih h.2
    by_cases e : w = v
    · subst e
      have hn : ∀ z, (w, z) ∉ c := fun z hz => h.1 (List.mem_map.mpr ⟨_, hz, rfl⟩)
      simp only [get, List.find?, beq_self_eq_true, Option.map_some, List.mem_cons, Option.some.injEq]
      constructor
      · rintro rfl; exact Or.inl rfl
      · rintro (e | e)
        · injection e with _ e; exact e.symm
        · exact absurd e (hn _)
    · have : (w == v) = false := by simpa using e
      simp only [get, List.find?, this, List.mem_cons] at ih ⊢
      rw [ih]
      constructor
      · exact Or.inr
      · rintro (e' | e')
        · injection e' with e' _; exact absurd e'.symm e
        · exact e'

theorem lookup_mem {t : Table V} (h : Inv t) (v : Sym) (x : V) : lookup t v = some x ↔ ∃ i, (v, x) ∈ t.bk i := by
  unfold lookup
  by_cases e : t.size = 0
  · rw [if_pos e]
    constructor
    · intro h; cases h
    · rintro ⟨i, hi⟩
      have := (h.place i _ hi).1
      omega
  · rw [if_neg e, get_mem (h.once _)]
    constructor
    · exact fun h => ⟨_, h⟩
    · rintro ⟨i, hi⟩
      have := (h.place i _ hi).2
      simp only at this
      rw [this]
      exact hi

theorem keys_set (v : Sym) (x : V) (c : Chain V) : (setFirst v x c).map Prod.fst = c.map Prod.fst := by
  induction c with
  | nil => rfl
  | cons nd c ih =>
    rw [setFirst]
    split
    · rename_i e; simp [e]
    · simp [ih]

theorem get_set (v w : Sym) (x : V) (c : Chain V) : get (setFirst v x c) w = if w = v then (get c v).map (fun _ => x) else get c w := by
  induction c with
  | nil => simp [get, setFirst]
  | cons nd c ih =>
    obtain ⟨a, b⟩ := nd
    rw [setFirst]
    by_cases e : a = v
    · subst e
      rw [if_pos rfl]
      by_cases e2 : w = a
      · subst e2; simp [get]
      · simp [get, List.find?, beq_false_of_ne (Ne.symm e2), e2]
    · rw [if_neg e]
      simp only [get, List.find?] at ih ⊢
      by_cases e2 : a = w
      · subst e2; simp [e]
      · rw [beq_false_of_ne e2, beq_false_of_ne e]
        exact ih

theorem remove_sub (v : Sym) (c : Chain V) : (removeFirst v c).Sublist c := by
  induction c with
  | nil => exact List.Sublist.refl _
  | cons nd c ih =>
    rw [removeFirst]
    split
    · exact List.sublist_cons_self _ _
    · exact ih.cons₂ _

theorem get_remove (v w : Sym) (c : Chain V) (h : (c.map Prod.fst).Nodup) : get (removeFirst v c) w = if w = v then none else get c w := by
  induction c with
  | nil => simp [get, removeFirst]
  | cons nd c ih =>
    obtain ⟨a, b⟩ := nd
    rw [List.map_cons, List.nodup_cons] at h
    have ih := ih h.2
    rw [removeFirst]
    by_cases e : a = v
    · subst e
      rw [if_pos rfl]
      by_cases e2 : w = a
      · subst e2
        rw [if_pos rfl]
        cases hg : get c w with
        | none => rfl
        | some z => exact absurd (List.mem_map.mpr ⟨_, (get_mem h.2 w z).mp hg, rfl⟩) h.1
      · simp [get, List.find?, beq_false_of_ne (Ne.symm e2), e2]
    · rw [if_neg e]
      simp only [get, List.find?] at ih ⊢
      by_cases e2 : a = w
      · subst e2; simp [e]
      · rw [beq_false_of_ne e2]
        exact ih

theorem insertAll_at (m : Nat) (l : List (Sym × V)) (b : Nat → Chain V) (j : Nat) :
    insertAll m l b j = (l.filter (fun nd => nd.1 % m == j)).reverse ++ b j := by
  induction l generalizing b with
  | nil => simp [insertAll]
  | cons nd r ih =>
    rw [insertAll, ih]
    by_cases e : nd.1 % m = j
    · subst e; simp
    · rw [List.filter_cons, if_neg (by simpa using e), Function.update_of_ne (Ne.symm e)]

theorem all_once {t : Table V} (h : Inv t) : (((List.range t.size).flatMap t.bk).map Prod.fst).Nodup := by
  rw [List.map_flatMap, List.nodup_flatMap]
  refine ⟨fun i _ => h.once i, ?_⟩
  refine List.Nodup.pairwise_of_forall_ne List.nodup_range ?_
  intro a _ b _ hab
  simp only [Function.onFun, List.Disjoint, List.mem_map]
  rintro v ⟨n1, h1, e1⟩ ⟨n2, h2, e2⟩
  have p1 := (h.place a n1 h1).2
  have p2 := (h.place b n2 h2).2
  rw [e1] at p1
  rw [e2] at p2
  exact hab (p1.symm.trans p2)

theorem grow_inv {t : Table V} (h : Inv t) (h0 : t.size ≠ 0) : Inv (grow t) ∧ lookup (grow t) = lookup t := by
  have bk : ∀ j, (grow t).bk j = (((List.range t.size).flatMap t.bk).filter (fun nd => nd.1 % (t.size * 2) == j)).reverse := by
    intro j
    simp only [grow, insertAll_at, List.append_nil]
  have sz : (grow t).size = t.size * 2 := rfl
  have inv : Inv (grow t) := by
    constructor
    · intro i nd hnd
      rw [bk, List.mem_reverse, List.mem_filter] at hnd
      have : nd.1 % (t.size * 2) = i := by simpa using hnd.2
      rw [sz]
      exact ⟨this ▸ Nat.mod_lt _ (by omega), this⟩
    · intro i
      rw [bk, List.map_reverse, List.nodup_reverse]
      exact List.Nodup.sublist (List.Sublist.map _ List.filter_sublist) (all_once h)
  refine ⟨inv, funext fun v => Option.ext fun x => ?_⟩
  rw [lookup_mem inv, lookup_mem h]
  constructor
  · rintro ⟨j, hj⟩
    rw [bk, List.mem_reverse, List.mem_filter, List.mem_flatMap] at hj
    obtain ⟨⟨i, _, hi⟩, _⟩ := hj
    exact ⟨i, hi⟩
  · rintro ⟨i, hi⟩
    refine ⟨v % (t.size * 2), ?_⟩
    rw [bk, List.mem_reverse, List.mem_filter, List.mem_flatMap]
    exact ⟨⟨i, List.mem_range.mpr (h.place i _ hi).1, hi⟩, by simp⟩

theorem room_inv {t : Table V} (h : Inv t) : Inv (room t) ∧ lookup (room t) = lookup t ∧ (room t).size ≠ 0 := by
  unfold room
  by_cases h0 : t.size = 0
  · have i0 : Inv ({ t with size := 8, bk := fun _ => [] } : Table V) := ⟨fun i nd hnd => (by cases hnd), fun i => List.nodup_nil⟩
    have l0 : lookup ({ t with size := 8, bk := fun _ => [] } : Table V) = lookup t := by
      funext v
      simp [lookup, h0, get]
    simp only [if_pos h0]
    split
    · obtain ⟨a, b⟩ := grow_inv i0 (by simp)
      exact ⟨a, b.trans l0, by simp [grow]⟩
    · exact ⟨i0, l0, by simp⟩
  · simp only [if_neg h0]
    split
    · obtain ⟨a, b⟩ := grow_inv h h0
      exact ⟨a, b, by simp only [grow]; omega⟩
    · exact ⟨h, rfl, h0⟩

theorem upd_inv {t : Table V} (h : Inv t) (k : Nat) (hk : k < t.size) (c : Chain V) (hp : ∀ nd ∈ c, nd.1 % t.size = k) (hn : (c.map Prod.fst).Nodup) (n : Nat) :
    Inv ({ t with bk := Function.update t.bk k c, total := n } : Table V) := by
  constructor
  · intro i nd hnd
    by_cases e : i = k
    · subst e
      simp only [Function.update_self] at hnd
      exact ⟨hk, hp _ hnd⟩
    · simp only [Function.update_of_ne e] at hnd
      exact h.place i nd hnd
  · intro i
    by_cases e : i = k
    · subst e
      simpa using hn
    · simp only [Function.update_of_ne e]
      exact h.once i

theorem lookup_upd {t : Table V} (h0 : t.size ≠ 0) (v w : Sym) (c : Chain V) (n : Nat) (y : Option V)
    (hc : ∀ w, get c w = if w = v then y else get (t.bk (v % t.size)) w) :
    lookup ({ t with bk := Function.update t.bk (v % t.size) c, total := n } : Table V) w = if w = v then y else lookup t w := by
  simp only [lookup, if_neg h0]
  by_cases e : w = v
  · subst e
    rw [Function.update_self, hc]
  · rw [if_neg e]
    by_cases e2 : w % t.size = v % t.size
    · rw [e2, Function.update_self, hc, if_neg e]
    · rw [Function.update_of_ne e2]

theorem size_of_some {t : Table V} {v : Sym} (h : (lookup t v).isSome) : t.size ≠ 0 := by
  intro e
  simp [lookup, e] at h

theorem op_inv {t : Table V} (h : Inv t) (o : Op V) : Inv (o.run t) ∧ lookup (o.run t) = act (lookup t) o := by
  cases o with
  | define v x =>
    simp only [Op.run, define, act]
    split
    · rename_i hs
      have h0 := size_of_some hs
      have hlt := Nat.mod_lt v (Nat.pos_of_ne_zero h0)
      refine ⟨upd_inv h _ hlt _ ?_ (by rw [keys_set]; exact h.once _) _, ?_⟩
      · intro nd hnd
        have : nd.1 ∈ (setFirst v x (t.bk (v % t.size))).map Prod.fst := List.mem_map.mpr ⟨_, hnd, rfl⟩
        rw [keys_set, List.mem_map] at this
        obtain ⟨nd', h', e⟩ := this
        rw [← e]
        exact (h.place _ _ h').2
      · funext w
        refine lookup_upd h0 v w _ _ (some x) fun w => ?_
        rw [get_set]
        split
        · have : (get (t.bk (v % t.size)) v).isSome := by simpa [lookup, h0] using hs
          cases hg : get (t.bk (v % t.size)) v with
          | none => rw [hg] at this; cases this
          | some _ => rfl
        · rfl
    · rename_i hs
      obtain ⟨hi, hl, h0⟩ := room_inv h
      have hlt := Nat.mod_lt v (Nat.pos_of_ne_zero h0)
      have hno : get ((room t).bk (v % (room t).size)) v = none := by
        have : lookup (room t) v = none := by
          rw [hl]
          cases e : lookup t v with
          | none => rfl
          | some y => rw [e] at hs; exact absurd rfl hs
        simpa [lookup, h0] using this
      refine ⟨upd_inv hi _ hlt _ ?_ ?_ _, ?_⟩
      · intro nd hnd
        rcases List.mem_cons.mp hnd with e | e
        · rw [e]
        · exact (hi.place _ _ e).2
      · rw [List.map_cons, List.nodup_cons]
        refine ⟨?_, hi.once _⟩
        intro hm
        obtain ⟨⟨a, b⟩, hab, e⟩ := List.mem_map.mp hm
        simp only at e
        subst e
        rw [(get_mem (hi.once _) a b).mpr hab] at hno
        cases hno
      · funext w
        rw [← hl]
        refine lookup_upd h0 v w _ _ (some x) fun w => ?_
        by_cases e : w = v
        · subst e; simp [get]
        · simp [get, List.find?, beq_false_of_ne (Ne.symm e), e]
  | remove v =>
    simp only [Op.run, remove, act]
    split
    · rename_i h0
      refine ⟨h, ?_⟩
      funext w
      simp [lookup, h0]
    · rename_i h0
      have hlt := Nat.mod_lt v (Nat.pos_of_ne_zero h0)
      refine ⟨upd_inv h _ hlt _ (fun nd hnd => (h.place _ _ ((remove_sub _ _).subset hnd)).2) (List.Nodup.sublist ((remove_sub _ _).map _) (h.once _)) _, ?_⟩
      funext w
      exact lookup_upd h0 v w _ _ none fun w => get_remove v w _ (h.once _)

theorem run_inv {t : Table V} (h : Inv t) (ops : List (Op V)) : Inv (run t ops) ∧ lookup (run t ops) = acts (lookup t) ops := by
  induction ops generalizing t with
  | nil => exact ⟨h, rfl⟩
  | cons o ops ih =>
    obtain ⟨a, b⟩ := op_inv h o
    obtain ⟨c, d⟩ := ih a
    refine ⟨c, ?_⟩
    show lookup (run (o.run t) ops) = acts (act (lookup t) o) ops
    rw [d, b]

theorem inv_empty : Inv ({} : Table V) := ⟨fun i nd hnd => (by cases hnd), fun i => List.nodup_nil⟩

/-- C119, the bindings: after any history of definitions and removals, however often the table grew, each symbol has the value it was last given. -/
theorem C119_bindings (ops : List (Op V)) (v : Sym) : lookup (run {} ops) v = acts (fun _ => none) ops v := by
  rw [(run_inv inv_empty ops).2]
  congr 1

/-! ### Walking -/

/-- The symbols of the buckets. -/
def shape (t : Table V) (i : Nat) : List Sym := (t.bk i).map Prod.fst

/-- The buckets contain those of the symbols `sh` which are bound. -/
def Kept (sh : Nat → List Sym) (t : Table V) : Prop := ∀ i, shape t i = (sh i).filter (fun y => (lookup t y).isSome)

theorem remove_filter (v : Sym) (c : Chain V) (h : (c.map Prod.fst).Nodup) : (removeFirst v c).map Prod.fst = (c.map Prod.fst).filter (fun y => y != v) := by
  induction c with
  | nil => rfl
  | cons nd c ih =>
    rw [List.map_cons, List.nodup_cons] at h
    rw [removeFirst]
    by_cases e : nd.1 = v
    · rw [if_pos e, List.map_cons, List.filter_cons_of_neg (by simp [e])]
      symm
      rw [List.filter_eq_self]
      intro a ha
      have : a ≠ v := by
        rintro rfl
        exact h.1 (e ▸ ha)
      simpa using this
    · rw [if_neg e, List.map_cons, List.map_cons, List.filter_cons_of_pos (by simpa using e), ih h.2]

theorem define_kept {sh : Nat → List Sym} {t : Table V} {y : Sym} (z : V) (hi : Inv t) (hk : Kept sh t) (h : (lookup t y).isSome) :
    (define t y z).size = t.size ∧ Kept sh (define t y z) := by
  have hl := (op_inv hi (Op.define y z)).2
  have hl' : lookup (define t y z) = act (lookup t) (Op.define y z) := hl
  have hsame : ∀ w, (lookup (define t y z) w).isSome = (lookup t w).isSome := by
    intro w
    rw [hl']
    simp only [act]
    split
    · rename_i e; rw [e, h]; rfl
    · rfl
  have hsh : ∀ i, shape (define t y z) i = shape t i := by
    intro i
    rw [define, if_pos h]
    simp only [shape]
    by_cases e : i = y % t.size
    · subst e
      rw [Function.update_self, keys_set]
    · rw [Function.update_of_ne e]
  refine ⟨by rw [define, if_pos h], fun i => ?_⟩
  rw [hsh, hk i]
  simp only [hsame]

theorem remove_kept {sh : Nat → List Sym} {t : Table V} {y : Sym} (hi : Inv t) (hk : Kept sh t) :
    (remove t y).size = t.size ∧ Kept sh (remove t y) := by
  have hl : lookup (remove t y) = act (lookup t) (Op.remove y) := (op_inv hi (Op.remove y)).2
  refine ⟨by unfold remove; split <;> rfl, fun i => ?_⟩
  have hsh : shape (remove t y) i = (shape t i).filter (fun w => w != y) := by
    have other : ∀ i, (∀ nd ∈ t.bk i, nd.1 ≠ y) → shape t i = (shape t i).filter (fun w => w != y) := by
      intro i h
      symm
      rw [List.filter_eq_self]
      intro a ha
      obtain ⟨nd, hnd, rfl⟩ := List.mem_map.mp ha
      simpa using h nd hnd
    unfold remove
    split
    · rename_i h0
      refine other i fun nd hnd => ?_
      have := (hi.place i nd hnd).1
      omega
    · simp only [shape]
      by_cases e : i = y % t.size
      · subst e
        rw [Function.update_self, remove_filter _ _ (hi.once _)]
      · rw [Function.update_of_ne e]
        refine other i fun nd hnd e2 => e ?_
        rw [← (hi.place i nd hnd).2, e2]
  rw [hsh, hk i, List.filter_filter, hl]
  apply List.filter_congr
  intro w _
  simp only [act]
  by_cases e : w = y
  · simp [e]
  · simp [e]

theorem run_kept {sh : Nat → List Sym} {t : Table V} (hi : Inv t) (hk : Kept sh t) {x : Sym} (ops : List (Op V)) (hx : (lookup t x).isSome)
    (h : Mild x (lookup t) ops) :
    (run t ops).size = t.size ∧ Kept sh (run t ops) ∧ (lookup (run t ops) x).isSome ∧ ops.any (Op.removes x) = false := by
  induction ops generalizing t with
  | nil => exact ⟨rfl, hk, hx, rfl⟩
  | cons o ops ih =>
    have ho := op_inv hi o
    cases o with
    | define y z =>
      obtain ⟨a, b⟩ := define_kept z hi hk h.1
      have hx' : (lookup ((Op.define y z).run t) x).isSome := by
        rw [ho.2]
        simp only [act]
        split
        · rfl
        · exact hx
      obtain ⟨c, d, e, g⟩ := ih (t := (Op.define y z).run t) ho.1 b hx' (by rw [ho.2]; exact h.2)
      exact ⟨c.trans a, d, e, by simpa [Op.removes] using g⟩
    | remove y =>
      obtain ⟨a, b⟩ := remove_kept (y := y) hi hk
      have hx' : (lookup ((Op.remove y).run t) x).isSome := by
        rw [ho.2]
        simp only [act]
        rw [if_neg (Ne.symm h.1)]
        exact hx
      obtain ⟨c, d, e, g⟩ := ih (t := (Op.remove y).run t) ho.1 b hx' (by rw [ho.2]; exact h.2)
      refine ⟨c.trans a, d, e, ?_⟩
      rw [List.any_cons, g, Op.removes, Bool.or_false]
      simpa using h.1

theorem next_shape {c : Chain V} {p r : List Sym} {x : Sym} (h : c.map Prod.fst = p ++ x :: r) (hn : (c.map Prod.fst).Nodup) : next c x = r.head? := by
  induction c generalizing p with
  | nil => simp at h
  | cons nd c ih =>
    cases p with
    | nil =>
      rw [List.map_cons, List.nil_append] at h
      injection h with e1 e2
      rw [next, List.dropWhile_cons_of_neg (by simp [e1]), List.tail_cons, ← e2, List.head?_map]
    | cons a p =>
      rw [List.map_cons, List.cons_append] at h
      injection h with e1 e2
      rw [List.map_cons, List.nodup_cons] at hn
      have hx : nd.1 ≠ x := by
        rintro rfl
        exact hn.1 (e2 ▸ by simp)
      have := ih e2 hn.2
      rw [next, List.dropWhile_cons_of_pos (by simpa using hx)]
      exact this

theorem lookup_shape {t : Table V} (h : Inv t) (x : Sym) : (lookup t x).isSome ↔ ∃ i, i < t.size ∧ x ∈ shape t i := by
  rw [Option.isSome_iff_exists]
  constructor
  · rintro ⟨v, hv⟩
    obtain ⟨i, hi⟩ := (lookup_mem h x v).mp hv
    exact ⟨i, (h.place i _ hi).1, List.mem_map.mpr ⟨_, hi, rfl⟩⟩
  · rintro ⟨i, _, hx⟩
    obtain ⟨⟨a, b⟩, hab, e⟩ := List.mem_map.mp hx
    simp only at e
    subst e
    exact ⟨b, (lookup_mem h a b).mpr ⟨i, hab⟩⟩

/-- One bucket, if those behind it are as they should be. -/
theorem loop_chain {f : Fun σ V} (hf : Keeps f) (N : Nat) (sh : Nat → List Sym) (i : Nat) (hN : i < N) (later : List Sym)
    (hlater : ∀ (t : Table V) (st : σ), Inv t → t.size = N → Kept sh t →
      ∃ n, (loop f n t st i none).1 = (calls f later (lookup t) st).1 ∧ Agree (loop f n t st i none).2 (calls f later (lookup t) st).2) :
    ∀ (rest p : List Sym) (t : Table V) (st : σ), Inv t → t.size = N → Kept sh t → sh i = p ++ rest →
      ∃ n, (loop f n t st i (rest.filter (fun y => (lookup t y).isSome)).head?).1 = (calls f (rest ++ later) (lookup t) st).1 ∧
        Agree (loop f n t st i (rest.filter (fun y => (lookup t y).isSome)).head?).2 (calls f (rest ++ later) (lookup t) st).2 := by
  intro rest
  induction rest with
  | nil =>
    intro p t st hi hs hk _
    exact hlater t st hi hs hk
  | cons x rest ih =>
    intro p t st hi hs hk hp
    cases hv : lookup t x with
    | none =>
      obtain ⟨n, g⟩ := ih (p ++ [x]) t st hi hs hk (by rw [hp]; simp)
      refine ⟨n, ?_⟩
      rw [List.filter_cons_of_neg (by simp [hv]), List.cons_append, calls, hv]
      exact g
    | some v =>
      have hx : (lookup t x).isSome := by rw [hv]; rfl
      rw [List.filter_cons_of_pos (p := fun y => (lookup t y).isSome) hx, List.head?_cons, List.cons_append]
      cases hc : f st (lookup t) x v with
      | none =>
        refine ⟨1, ?_⟩
        simp [loop, hv, hc, calls, Agree]
      | some r =>
        obtain ⟨st', ops⟩ := r
        obtain ⟨s1, s2, s3, hno⟩ := run_kept hi hk ops hx (hf _ _ _ _ _ _ hc)
        obtain ⟨r1, r2⟩ := run_inv hi ops
        have hsh : shape (run t ops) i = (p.filter (fun y => (lookup (run t ops) y).isSome)) ++ x :: rest.filter (fun y => (lookup (run t ops) y).isSome) := by
          rw [s2 i, hp, List.filter_append, List.filter_cons_of_pos (p := fun y => (lookup (run t ops) y).isSome) s3]
        have hxm : x % (run t ops).size = i := by
          have : x ∈ shape (run t ops) i := by rw [hsh]; simp
          obtain ⟨⟨a, b⟩, hab, e⟩ := List.mem_map.mp this
          simp only at e
          subst e
          exact (r1.place i _ hab).2
        have hnext : next ((run t ops).bk (x % (run t ops).size)) x = (rest.filter (fun y => (lookup (run t ops) y).isSome)).head? := by
          rw [hxm]
          exact next_shape hsh (r1.once i)
        obtain ⟨n, g1, g2⟩ := ih (p ++ [x]) (run t ops) st' r1 (s1.trans hs) s2 (by rw [hp]; simp)
        refine ⟨n + 1, ?_⟩
        simp only [loop, hv, hc, hno, Bool.false_eq_true, if_false, hnext, calls, ← r2]
        exact ⟨by rw [g1], g2⟩

/-- One bucket and those behind it. -/
theorem loop_ok {f : Fun σ V} (hf : Keeps f) (N : Nat) (sh : Nat → List Sym) :
    ∀ (k i : Nat), i + k + 1 = N → ∀ (t : Table V) (st : σ), Inv t → t.size = N → Kept sh t →
      ∃ n, (loop f n t st i (first (t.bk i))).1 = (calls f (sh i ++ (List.range' (i + 1) k).flatMap sh) (lookup t) st).1 ∧
        Agree (loop f n t st i (first (t.bk i))).2 (calls f (sh i ++ (List.range' (i + 1) k).flatMap sh) (lookup t) st).2 := by
  have hfirst : ∀ (t : Table V), Kept sh t → ∀ i, first (t.bk i) = ((sh i).filter (fun y => (lookup t y).isSome)).head? := by
    intro t hk i
    rw [← hk i, shape, List.head?_map]
    rfl
  intro k
  induction k with
  | zero =>
    intro i hN t st hi hs hk
    rw [hfirst t hk]
    refine loop_chain hf N sh i (by omega) _ ?_ (sh i) [] t st hi hs hk rfl
    intro t st _ hs _
    refine ⟨1, ?_⟩
    have : ¬ i + 1 < t.size := by omega
    simp [loop, this, calls, Agree]
  | succ k ihk =>
    intro i hN t st hi hs hk
    rw [hfirst t hk]
    refine loop_chain hf N sh i (by omega) _ ?_ (sh i) [] t st hi hs hk rfl
    intro t st hi hs hk
    obtain ⟨n, g⟩ := ihk (i + 1) (by omega) t st hi hs hk
    refine ⟨n + 1, ?_⟩
    have : i + 1 < t.size := by omega
    simp only [loop, if_pos this, List.range'_succ, List.flatMap_cons]
    exact g

/-- C119, the walk: if the function adds no bindings and doesn't remove the one it is called for, it is called for each symbol that is bound, once, with
the value this has then, unless the binding has been removed before its turn; what the function does to the bindings takes effect; an exit ends the walk.
Missing are functions that add bindings, or remove the one they are called for. -/
theorem C119_walk_partial (ops : List (Op V)) (f : Fun σ V) (hf : Keeps f) (st : σ) :
    ∃ order : List Sym, order.Nodup ∧ (∀ x, x ∈ order ↔ (acts (fun _ => none) ops x).isSome) ∧
      ∃ n, (walk f n (run {} ops) st).1 = (calls f order (acts (fun _ => none) ops) st).1 ∧
        Agree (walk f n (run {} ops) st).2 (calls f order (acts (fun _ => none) ops) st).2 := by
  have hi : Inv (run ({} : Table V) ops) := (run_inv inv_empty ops).1
  have hl : lookup (run {} ops) = acts (fun _ => none) ops := funext fun v => C119_bindings ops v
  generalize run {} ops = t at hi hl
  rw [← hl]
  refine ⟨(List.range t.size).flatMap (shape t), ?_, ?_, ?_⟩
  · have := all_once hi
    rw [List.map_flatMap] at this
    exact this
  · intro x
    rw [lookup_shape hi, List.mem_flatMap]
    simp only [List.mem_range]
  · by_cases h0 : t.size = 0
    · refine ⟨0, ?_⟩
      simp [walk, h0, calls, Agree]
    · obtain ⟨k, hk⟩ := Nat.exists_eq_succ_of_ne_zero h0
      have kept : Kept (shape t) t := by
        intro i
        symm
        rw [List.filter_eq_self]
        intro a ha
        refine (lookup_shape hi a).mpr ⟨i, ?_, ha⟩
        obtain ⟨nd, hnd, _⟩ := List.mem_map.mp ha
        exact (hi.place i nd hnd).1
      obtain ⟨n, g1, g2⟩ := loop_ok hf t.size (shape t) k 0 (by omega) t st hi rfl kept
      refine ⟨n, ?_⟩
      have hr : List.range t.size = 0 :: List.range' 1 k := by
        rw [hk, List.range_eq_range', List.range'_succ]
      rw [walk, if_neg h0, hr, List.flatMap_cons]
      exact ⟨g1, g2⟩

/-- Seventeen symbols. -/
def seventeen : List (Op Nat) := (List.range 17).map (fun i => Op.define i (100 + i))

/-- A function that defines one more symbol each time it is called for symbol 8. -/
def adds : Fun Unit Nat := fun _ _ x _ => some ((), if x = 8 then [Op.define 1000 0] else [])

/-- C119 is wrong of functions that add bindings: if the table grows meanwhile, some bindings are not visited, and some twice. -/
theorem C119_adding_violated :
    (acts (fun _ => none) seventeen 0).isSome ∧ ∃ n st t, (walk adds n (run {} seventeen) ()).2 = .done st t ∧
      0 ∉ ((walk adds n (run {} seventeen) ()).1).map Prod.fst ∧ (((walk adds n (run {} seventeen) ()).1).map Prod.fst).count 8 = 2 := by
  have h : (match (walk adds 60 (run {} seventeen) ()).2 with | .done _ _ => true | _ => false) = true := by decide +kernel
  have h' : ∃ st t, (walk adds 60 (run {} seventeen) ()).2 = .done st t := by
    cases e : (walk adds 60 (run {} seventeen) ()).2 with
    | done st t => exact ⟨st, t, rfl⟩
    | exit t => rw [e] at h; cases h
    | freed => rw [e] at h; cases h
    | steps => rw [e] at h; cases h
  obtain ⟨st, t, e⟩ := h'
  exact ⟨by decide +kernel, 60, st, t, e, by decide +kernel, by decide +kernel⟩

/-- A function that removes the binding it is called for. -/
def removes : Fun Unit Nat := fun _ _ x _ => some ((), [Op.remove x])

/-- C119 is wrong of functions that remove the binding they are called for: freed memory is used. -/
theorem C119_removing_violated (n : Nat) : (walk removes (n + 1) (run {} [Op.define 0 5]) ()).2 = .freed := by
  rfl

/-! ### Examples -/

/-- A function that adds up the values, sets them to 0, and removes the symbol 3. -/
def sums : Fun Nat Nat := fun st m x v => some (st + v, (if (m x).isSome then [Op.define x 0] else []) ++ if x = 3 then [] else [Op.remove 3])

example : Keeps sums := by
  intro st m x v st' ops h
  simp only [sums, Option.some.injEq, Prod.mk.injEq] at h
  rw [← h.2]
  by_cases hx : (m x).isSome <;> by_cases h3 : x = 3
  · subst h3; simp [hx, Mild]
  · simp [hx, h3, Mild, Ne.symm h3]
  · subst h3; simp [hx, Mild]
  · simp [hx, h3, Mild, Ne.symm h3]

example : ((walk sums 60 (run {} seventeen) 0).1).length = 16 := by decide +kernel

end Rep.StructWalk
