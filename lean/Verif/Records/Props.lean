/-
C89: records.
-/
import Verif.Records.Model
import Verif.Lambda.Props

namespace Rep.Records

/-! ### Specification -/

/-- A record: its type and the values of its fields. -/
structure Rec where
  type : Nat
  val : V → V

def Rec.set (r : Rec) (f x : V) : Rec := ⟨r.type, fun g => if g = f then x else r.val g⟩

/-- Programs on records, with record types by their numbers. -/
inductive Op
  /-- a constructor for some of the fields -/
  | make (rt : Nat) (fs args : List V)
  | ref (rt : Nat) (f v : V)
  | set (rt : Nat) (f v x : V)
  | isA (rt : Nat) (v : V)

/-- The record that a value is. -/
def recOf (recs : List Rec) (v : V) : Option Rec :=
  match v with
  | .record i => recs[i]?
  | _ => none

/-- What they mean.  `none` is an error. -/
def meaning (types : List (List V)) (recs : List Rec) : Op → Option V × List Rec
  | .make rt fs args => match types[rt]? with
    | none => (none, recs)
    | some fields =>
      if ∀ f ∈ fs, f ∈ fields then
        (some (.record recs.length),
          recs ++ [(fs.zip args).foldl (fun r fa => r.set fa.1 fa.2) ⟨rt, fun _ => .nil⟩])
      else (none, recs)
  | .ref rt f v => match types[rt]?, recOf recs v with
    | some fields, some r => if f ∈ fields ∧ r.type = rt then (some (r.val f), recs) else (none, recs)
    | _, _ => (none, recs)
  | .set rt f v x => match types[rt]?, v with
    | some fields, .record i => match recs[i]? with
      | some r =>
        if f ∈ fields ∧ r.type = rt then (some x, recs.set i (r.set f x)) else (none, recs)
      | none => (none, recs)
    | _, _ => (none, recs)
  | .isA rt v => match recOf recs v with
    | some r => (some (if r.type = rt then .sym 1 else .nil), recs)
    | none => (some .nil, recs)

/-- What the code does: accessors are made and called. -/
def step (st : St) : Op → Option V × St
  | .make rt fs args => match construct st rt fs args with
    | (.val v, st) => (some v, st)
    | (.error, st) => (none, st)
  | .ref rt f v => match (st.types[rt]?).bind fun fields => fieldIndex f fields 0 with
    | none => (none, st)
    | some k => match fieldRef st rt k v with
      | .val x => (some x, st)
      | .error => (none, st)
  | .set rt f v x => match (st.types[rt]?).bind fun fields => fieldIndex f fields 0 with
    | none => (none, st)
    | some k => match fieldSet st rt k v x with
      | (.val x, st) => (some x, st)
      | (.error, st) => (none, st)
  | .isA rt v => (some (if isRecord st rt v then .sym 1 else .nil), st)

/-- The names of fields are symbols other than nil. -/
def Op.Ok : Op → Prop
  | .make _ fs _ => .nil ∉ fs
  | .ref _ f _ => f ≠ .nil
  | .set _ f _ _ => f ≠ .nil
  | .isA _ _ => True

/-- A datum is a record. -/
def Repr (types : List (List V)) (d : Datum) (r : Rec) : Prop :=
  d.type = r.type ∧ ∃ fields, types[d.type]? = some fields ∧ d.items.length = fields.length ∧
    ∀ f ∈ fields, ∃ k, fieldIndex f fields 0 = some k ∧ d.items[k]? = some (r.val f)

/-- The datums are the records. -/
def Abs (st : St) (recs : List Rec) : Prop := List.Forall₂ (Repr st.types) st.heap recs

/-! ### Lemmas -/

theorem fieldIndex_mem {f : V} : ∀ {fs : List V} {i : Nat}, f ∈ fs →
    ∃ k, fieldIndex f fs i = some (i + k) ∧ fs[k]? = some f
  | [], _, h => by cases h
  | g :: fs, i, h => by
    by_cases e : g = f
    · exact ⟨0, by simp [fieldIndex, e], by simp [e]⟩
    · have : f ∈ fs := by
        rcases List.mem_cons.1 h with rfl | h
        · exact absurd rfl e
        · exact h
      obtain ⟨k, h1, h2⟩ := fieldIndex_mem (i := i + 1) this
      refine ⟨k + 1, ?_, by simpa using h2⟩
      simp only [fieldIndex, e, if_false, h1]
      congr 1; omega

theorem fieldIndex_not_mem {f : V} (hf : f ≠ .nil) : ∀ {fs : List V} {i : Nat}, f ∉ fs →
    fieldIndex f fs i = none
  | [], _, _ => by simp [fieldIndex, Ne.symm hf]
  | g :: fs, i, h => by
    have e : g ≠ f := fun e => h (by simp [e])
    have : f ∉ fs := fun m => h (by simp [m])
    simp only [fieldIndex, e, if_false]
    exact fieldIndex_not_mem hf this

theorem index_lt {f : V} {fs : List V} (h : f ∈ fs) :
    ∃ k, fieldIndex f fs 0 = some k ∧ fs[k]? = some f ∧ k < fs.length := by
  obtain ⟨k, h1, h2⟩ := fieldIndex_mem (i := 0) h
  refine ⟨k, by rw [h1, Nat.zero_add], h2, ?_⟩
  by_contra hk
  rw [List.getElem?_eq_none (by omega)] at h2
  cases h2

theorem Abs.get {st : St} {recs : List Rec} (a : Abs st recs) (i : Nat) :
    (∃ d r, st.heap[i]? = some d ∧ recs[i]? = some r ∧ Repr st.types d r) ∨
    (st.heap[i]? = none ∧ recs[i]? = none) := by
  unfold Abs at a
  generalize st.heap = h at a
  induction a generalizing i with
  | nil => right; simp
  | cons hr _ ih =>
    cases i with
    | zero => exact .inl ⟨_, _, rfl, rfl, hr⟩
    | succ i => simpa using ih i

theorem Abs.length {st : St} {recs : List Rec} (a : Abs st recs) : st.heap.length = recs.length :=
  by
  unfold Abs at a
  generalize st.heap = h at a
  induction a with
  | nil => rfl
  | cons _ _ ih => simp [ih]

theorem forall₂_set {α β} {R : α → β → Prop} {l : List α} {m : List β} (h : List.Forall₂ R l m)
    {a : α} {b : β} (hr : R a b) (i : Nat) : List.Forall₂ R (l.set i a) (m.set i b) := by
  induction h generalizing i with
  | nil => exact .nil
  | cons h1 h2 ih =>
    cases i with
    | zero => exact .cons hr h2
    | succ i => exact .cons h1 (ih i)

theorem forall₂_snoc {α β} {R : α → β → Prop} {l : List α} {m : List β} (h : List.Forall₂ R l m)
    {a : α} {b : β} (hr : R a b) : List.Forall₂ R (l ++ [a]) (m ++ [b]) := by
  induction h with
  | nil => exact .cons hr .nil
  | cons h1 _ ih => exact .cons h1 ih

theorem repr_set {types : List (List V)} {d : Datum} {r : Rec} (h : Repr types d r)
    {fields : List V} (ht : types[d.type]? = some fields) {f x : V} (hf : f ∈ fields) {k : Nat}
    (hk : fieldIndex f fields 0 = some k) : Repr types ⟨d.type, d.items.set k x⟩ (r.set f x) := by
  obtain ⟨h1, fields', ht', hl, hv⟩ := h
  rw [ht] at ht'
  cases ht'
  refine ⟨h1, fields, ht, by simpa using hl, fun g hg => ?_⟩
  obtain ⟨j, hj, hj'⟩ := hv g hg
  refine ⟨j, hj, ?_⟩
  by_cases e : g = f
  · subst e
    rw [hk] at hj
    cases hj
    obtain ⟨k', e1, _, e2⟩ := index_lt hf
    rw [hk] at e1
    cases e1
    simp [Rec.set, hl, e2]
  · have : k ≠ j := by
      rintro rfl
      obtain ⟨k1, a1, a2, _⟩ := index_lt hf
      obtain ⟨k2, b1, b2, _⟩ := index_lt hg
      rw [hk] at a1; rw [hj] at b1
      cases a1; cases b1
      rw [a2] at b2
      exact e (Option.some.inj b2).symm
    simp only [Rec.set, e, if_false]
    rw [List.getElem?_set_ne this]
    exact hj'

theorem datumRef_eq {st : St} {recs : List Rec} (a : Abs st recs) (v : V) (rt : Nat) :
    (∃ i d r, v = .record i ∧ st.heap[i]? = some d ∧ recs[i]? = some r ∧ Repr st.types d r ∧
      r.type = rt ∧ datumRef st v rt = some (i, d.items)) ∨
    (datumRef st v rt = none ∧ ∀ r, recOf recs v = some r → r.type ≠ rt) := by
  cases v with
  | record i =>
    rcases a.get i with ⟨d, r, hd, hr, h⟩ | ⟨hd, hr⟩
    · by_cases e : r.type = rt
      · exact .inl ⟨i, d, r, rfl, hd, hr, h, e, by simp [datumRef, hd, h.1, e]⟩
      · refine .inr ⟨by simp [datumRef, hd, h.1, e], fun r' h' => ?_⟩
        simp only [recOf] at h'
        rw [hr] at h'; cases h'; exact e
    · refine .inr ⟨by simp [datumRef, hd], fun r' h' => ?_⟩
      simp only [recOf] at h'
      rw [hr] at h'; cases h'
  | _ => exact .inr ⟨rfl, (fun r h => by cases h)⟩

theorem indices_eq {fields : List V} : ∀ {fs : List V}, .nil ∉ fs →
    (if ∀ f ∈ fs, f ∈ fields then ∃ is, indices fields fs = some is ∧
      List.Forall₂ (fun f i => fieldIndex f fields 0 = some i) fs is
    else indices fields fs = none)
  | [], _ => by simp [indices]
  | f :: fs, hn => by
    have ih := indices_eq (fields := fields) (fs := fs) (fun m => hn (by simp [m]))
    have hf : f ≠ .nil := fun e => hn (by simp [e])
    by_cases m : f ∈ fields
    · obtain ⟨k, e, _⟩ := index_lt m
      by_cases ms : ∀ g ∈ fs, g ∈ fields
      · rw [if_pos ms] at ih
        obtain ⟨is, e1, e2⟩ := ih
        rw [if_pos (by simpa [m] using ms)]
        exact ⟨k :: is, by simp [indices, e, e1], .cons e e2⟩
      · rw [if_neg ms] at ih
        rw [if_neg (by simpa [m] using ms)]
        simp [indices, e, ih]
    · rw [if_neg (by simp [m])]
      simp [indices, fieldIndex_not_mem hf m]

theorem initLoop_eq {rt : Nat} {fields : List V} : ∀ (fs args : List V) (is : List Nat) (st : St)
    (recs : List Rec) (r : Rec), st.types[rt]? = some fields → Abs st (recs ++ [r]) → r.type = rt →
    List.Forall₂ (fun f i => fieldIndex f fields 0 = some i) fs is → (∀ f ∈ fs, f ∈ fields) →
    ∃ st', initLoop rt (.record recs.length) is args st = (.val (.record recs.length), st') ∧
      st'.types = st.types ∧
      Abs st' (recs ++ [(fs.zip args).foldl (fun r fa => r.set fa.1 fa.2) r])
  | [], args, is, st, recs, r, _, a, _, h, _ => by
    cases h
    exact ⟨st, rfl, rfl, by simpa using a⟩
  | f :: fs, [], is, st, recs, r, _, a, _, h, _ => by
    cases h
    exact ⟨st, rfl, rfl, by simpa using a⟩
  | f :: fs, x :: args, is, st, recs, r, ht, a, hr, h, hm => by
    cases h with
    | @cons _ k _ is hk h =>
    have hf := hm f (by simp)
    have hd : ∃ d, st.heap[recs.length]? = some d ∧ Repr st.types d r := by
      rcases a.get recs.length with ⟨d, r', h1, h2, h3⟩ | ⟨_, h2⟩
      · simp at h2
        subst h2
        exact ⟨d, h1, h3⟩
      · simp at h2
    obtain ⟨d, hd, hrep⟩ := hd
    have htd : d.type = rt := hrep.1.trans hr
    have hlt : k < d.items.length := by
      obtain ⟨_, fields', ht', hl, _⟩ := hrep
      rw [htd, ht] at ht'
      cases ht'
      obtain ⟨k', e1, _, e2⟩ := index_lt hf
      rw [hk] at e1; cases e1
      omega
    have e1 : fieldSet st rt k (.record recs.length) x =
        (.val x, { st with heap := st.heap.set recs.length ⟨rt, d.items.set k x⟩ }) := by
      simp [fieldSet, datumRef, hd, htd, hlt]
    have hrep' := repr_set hrep (x := x) (by rw [htd]; exact ht) hf hk
    rw [htd] at hrep'
    obtain ⟨st', q1, q2, q3⟩ := initLoop_eq fs args is
      { st with heap := st.heap.set recs.length ⟨rt, d.items.set k x⟩ } recs (r.set f x) ht
      (by
        have := forall₂_set a hrep' recs.length
        simpa [Abs] using this) hr h (fun g hg => hm g (by simp [hg]))
    refine ⟨st', ?_, q2, by simpa using q3⟩
    simp only [initLoop, e1]
    exact q1

/-! ### Theorems -/

/-- C89, one operation. -/
theorem step_spec {st : St} {recs : List Rec} (a : Abs st recs) (op : Op) (ok : op.Ok) :
    (step st op).1 = (meaning st.types recs op).1 ∧
    Abs (step st op).2 (meaning st.types recs op).2 ∧ (step st op).2.types = st.types := by
  cases op with
  | make rt fs args =>
    simp only [step, construct, meaning]
    cases ht : st.types[rt]? with
    | none => exact ⟨rfl, a, rfl⟩
    | some fields =>
      simp only
      have hi := indices_eq (fields := fields) (fs := fs) ok
      by_cases m : ∀ f ∈ fs, f ∈ fields
      · rw [if_pos m] at hi
        obtain ⟨is, e1, e2⟩ := hi
        rw [if_pos m]
        simp only [e1]
        obtain ⟨st', q1, q2, q3⟩ := initLoop_eq fs args is
          { st with heap := st.heap ++ [⟨rt, List.replicate fields.length .nil⟩] } recs
          ⟨rt, fun _ => .nil⟩ ht
          (forall₂_snoc a ⟨rfl, fields, ht, by simp, fun f hf => by
            obtain ⟨k, e, _, hk⟩ := index_lt hf
            exact ⟨k, e, by simp [hk]⟩⟩) rfl e2 m
        rw [a.length, q1]
        exact ⟨rfl, q3, q2⟩
      · rw [if_neg m] at hi
        simp only [hi, m, if_false]
        exact ⟨trivial, a, trivial⟩
  | ref rt f v =>
    simp only [step, meaning]
    cases ht : st.types[rt]? with
    | none => exact ⟨rfl, a, rfl⟩
    | some fields =>
      simp only [Option.bind_some]
      by_cases m : f ∈ fields
      · obtain ⟨k, hk, _, _⟩ := index_lt m
        simp only [hk]
        rcases datumRef_eq a v rt with ⟨i, d, r, rfl, hd, hr, hrep, e, hdr⟩ | ⟨hdr, hno⟩
        · obtain ⟨h1, fields', ht', hl, hv⟩ := hrep
          rw [h1, e, ht] at ht'
          cases ht'
          obtain ⟨k', hk', hv'⟩ := hv f m
          rw [hk] at hk'
          cases hk'
          simp only [fieldRef, hdr, hv', recOf, hr, m, e, and_self, if_true]
          exact ⟨trivial, a, trivial⟩
        · simp only [fieldRef, hdr]
          cases hr : recOf recs v with
          | none => simp [a]
          | some r => simp [hno r hr, a]
      · have : fieldIndex f fields 0 = none := fieldIndex_not_mem ok m
        rw [this]
        cases recOf recs v <;> simp [m, a]
  | set rt f v x =>
    simp only [step, meaning]
    cases ht : st.types[rt]? with
    | none => exact ⟨rfl, a, rfl⟩
    | some fields =>
      simp only [Option.bind_some]
      by_cases m : f ∈ fields
      · obtain ⟨k, hk, _, hlt⟩ := index_lt m
        simp only [hk]
        rcases datumRef_eq a v rt with ⟨i, d, r, rfl, hd, hr, hrep, e, hdr⟩ | ⟨hdr, hno⟩
        · have htd : d.type = rt := hrep.1.trans e
          have hlt' : k < d.items.length := by
            obtain ⟨_, fields', ht', hl, _⟩ := hrep
            rw [htd, ht] at ht'
            cases ht'
            omega
          have hrep' := repr_set hrep (x := x) (by rw [htd]; exact ht) m hk
          rw [htd] at hrep'
          simp only [fieldSet, hdr, hlt', if_true, hr, m, e, and_self]
          exact ⟨trivial, forall₂_set a hrep' i, trivial⟩
        · simp only [fieldSet, hdr]
          cases v with
          | record i =>
            simp only [recOf] at hno
            cases hr : recs[i]? with
            | none => simp [hr, a]
            | some r => simp [hr, hno r hr, a]
          | _ => simp [a]
      · have : fieldIndex f fields 0 = none := fieldIndex_not_mem ok m
        rw [this]
        cases v with
        | record i => cases hr : recs[i]? <;> simp [hr, m, a]
        | _ => simp [a]
  | isA rt v =>
    have hb : isRecord st rt v = (datumRef st v rt).isSome := rfl
    simp only [step, meaning]
    rcases datumRef_eq a v rt with ⟨i, d, r, rfl, hd, hr, hrep, e, hdr⟩ | ⟨hdr, hno⟩
    · rw [hdr] at hb
      simp [hb, recOf, hr, e, a]
    · rw [hdr] at hb
      cases hr : recOf recs v with
      | none => simp [hb, a]
      | some r => simp [hb, hno r hr, a]

/-- The results of a program. -/
def results {S : Type} (f : S → Op → Option V × S) : S → List Op → List (Option V)
  | _, [] => []
  | s, op :: ops => (f s op).1 :: results f (f s op).2 ops

/-- C89: constructors, accessors, modifiers and predicates behave as if each record had
its own value for each of its fields: accessors return the value last stored, in the
record and field alone; with a value of another type, or a field the type does not have,
they signal an error and change nothing; predicates tell which type made a record. -/
theorem C89_records_partial {st : St} {recs : List Rec} (a : Abs st recs) (ops : List Op)
    (ok : ∀ op ∈ ops, op.Ok) :
    results step st ops = results (meaning st.types) recs ops := by
  induction ops generalizing st recs with
  | nil => rfl
  | cons op ops ih =>
    obtain ⟨h1, h2, h3⟩ := step_spec a op (ok op (by simp))
    simp only [results]
    rw [h1, ih h2 (fun o m => ok o (by simp [m])), h3]

/-- C89, from the beginning. -/
theorem C89_start_partial (types : List (List V)) (ops : List Op) (ok : ∀ op ∈ ops, op.Ok) :
    results step ⟨types, []⟩ ops = results (meaning types) [] ops :=
  C89_records_partial (st := ⟨types, []⟩) .nil ops ok

/-! ### define-record-type -/

theorem items_eq {Form : Type} (l : List (Lambda.Item Form)) (tail : Option Nat)
    (e : Lambda.Env V) : ∀ (fields : List Nat),
    (∀ f ∈ fields, hasField l tail f = true → e.lookup f ≠ none) →
    items l tail e fields = some (fields.map fun f =>
      if hasField l tail f then ((e.lookup f).map boundV).getD .nil else .nil)
  | [], _ => rfl
  | f :: fs, h => by
    have ih := items_eq l tail e fs fun g m => h g (by simp [m])
    simp only [items, ih, List.map_cons]
    by_cases p : hasField l tail f = true
    · simp only [p, if_true]
      cases q : e.lookup f with
      | none => exact absurd q (h f (by simp) p)
      | some b => simp
    · simp [p]

theorem fieldIndex_map (g : V → V) (f : V) (fs : List V) (hf : f ∈ fs) :
    ∃ k, fieldIndex f fs 0 = some k ∧ (fs.map g)[k]? = some (g f) := by
  obtain ⟨k, h1, h2, _⟩ := index_lt hf
  exact ⟨k, h1, by simp [h2]⟩

open Lambda Lambda.Spec in
/-- The parameters that occur in a lambda list are those of the function. -/
theorem hasField_iff {Form : Type} {g : Sig Form} {l : List (Item Form)} {tail : Option Nat}
    (hl : Lists g l tail) (f : Nat) : hasField l tail f = true ↔ f ∈ g.names := by
  cases hl with
  | intro ho hk hr =>
    have hreq : ∀ (req : List Nat),
        (req.map fun s => (Item.par s none : Item Form)).any (isPar f) = true ↔ f ∈ req := by
      intro req
      induction req with
      | nil => simp
      | cons s req ih => rw [List.map_cons, List.any_cons, Bool.or_eq_true, ih]; simp [isPar, @eq_comm _ f]
    have hopt : ∀ (o : List (Nat × Option Form)),
        (o.map fun p => (Item.par p.1 p.2 : Item Form)).any (isPar f) = true ↔ f ∈ o.map (·.1) := by
      intro o
      induction o with
      | nil => simp
      | cons s o ih =>
        rw [List.map_cons, List.any_cons, Bool.or_eq_true, ih]; simp [isPar, @eq_comm _ f]
    rename_i o k r
    have h1 : o.any (isPar f) = true ↔ f ∈ g.opt.map (·.1) := by
      rcases ho with rfl | ⟨rfl, ho⟩
      · rw [List.any_cons, Bool.or_eq_true, hopt]; simp [isPar]
      · simp [ho]
    have h2 : k.any (isPar f) = true ↔ f ∈ g.key.map (·.1) := by
      rcases hk with rfl | ⟨rfl, hk⟩
      · rw [List.any_cons, Bool.or_eq_true, hopt]; simp [isPar]
      · simp [hk]
    have h3 : (r.any (isPar f) = true ∨ (tail == some f) = true) ↔ f ∈ g.rest.toList := by
      rcases hr with ⟨s, hs, rfl, rfl⟩ | ⟨rfl, rfl⟩
      · simp [hs, isPar, @eq_comm _ f]
      · cases g.rest <;> simp [@eq_comm _ f]
    rw [hasField, Bool.or_eq_true, List.any_append, Bool.or_eq_true, List.any_append,
      Bool.or_eq_true, List.any_append, Bool.or_eq_true, or_assoc, h3, hreq, h1, h2]
    simp only [Sig.names, List.mem_append]

open Lambda Lambda.Spec in
/-- C89 (`define-record-type`): the constructor, called with arguments that are bound to
its parameters (as the manual says, C56), makes a record in which the fields that are
parameters have the values of these, and the others are nil. -/
theorem C89_define_partial {Form S : Type} (w : World V Form S) (s : S) (n : Names)
    {g : Sig Form} {l : List (Item Form)} {tail : Option Nat} (hl : Lists g l tail)
    (hn : g.names.Nodup) (args : List V) (ha : Aligned w g args)
    (cap : n.makeDatum ∉ g.names ∧ n.vector ∉ g.names ∧ n.type ∉ g.names)
    {st : St} {recs : List Rec} (a : Abs st recs) {rt : Nat} {fields : List Nat}
    (ht : st.types[rt]? = some (fields.map .sym)) {e' : Env V}
    (hc : (call w g args s).1 = .bound e') :
    ∃ e, (interpret w l tail args s).1 = .bound e ∧
      ∃ st', body n l tail fields rt e st = (.made (.record recs.length), st') ∧
        ∀ val : V → V, (∀ f, val (.sym f) = match e'.lookup f with
          | some b => boundV b
          | none => .nil) → Abs st' (recs ++ [⟨rt, val⟩]) := by
  have hI := (C56_interpreted_partial w hl hn args ha s).1
  rw [hc] at hI
  -- the names that are bound
  have hnames : ∀ x, e'.lookup x ≠ none ↔ x ∈ g.names := by
    intro x
    unfold call at hc
    by_cases hlen : args.length < g.req.length
    · rw [if_pos hlen] at hc; cases hc
    · rw [if_neg hlen] at hc
      cases he : evaluate w.eval (assign w.kw g args) s with
      | mk r s' =>
        rw [he] at hc
        cases r with
        | none => cases hc
        | some e1 =>
          simp only [Lambda.Res.bound.injEq] at hc
          subst hc
          have : e1.map Prod.fst = g.names := by
            have h1 : (evaluate w.eval (assign w.kw g args) s).1 = some e1 := by rw [he]
            rw [← assign_names w.kw hlen]
            generalize assign w.kw g args = as at h1
            clear he hI
            induction as generalizing s e1 with
            | nil => simp [evaluate] at h1; subst h1; rfl
            | cons p as ih =>
              obtain ⟨y, gv⟩ := p
              simp only [evaluate] at h1
              cases hv : value w.eval s gv with
              | mk b s1 =>
                rw [hv] at h1
                cases b with
                | none => cases h1
                | some b =>
                  simp only [Option.map_eq_some_iff] at h1
                  obtain ⟨e2, h2, rfl⟩ := h1
                  simp [ih _ _ h2]
          rw [← this]
          generalize e1 = e1
          induction e1 with
          | nil => simp
          | cons p e1 ih =>
            obtain ⟨y, b⟩ := p
            simp only [List.lookup_cons, List.map_cons, List.mem_cons]
            by_cases hy : x = y
            · subst hy; simp
            · have : (x == y) = false := by simpa using hy
              simp only [this, hy, false_or]
              exact ih
  cases hi : (interpret w l tail args s).1 with
  | bound e =>
    rw [hi] at hI
    have hI : ∀ x, e.lookup x = e'.lookup x := hI
    refine ⟨e, rfl, ?_⟩
    have c : ∀ x, x ∉ g.names → (e.lookup x).isSome = false := by
      intro x hx
      rw [hI]
      cases q : e'.lookup x with
      | none => rfl
      | some b => exact absurd ((hnames x).1 (by simp [q])) hx
    have hit := items_eq l tail e fields fun f _ hf => by
      rw [hI]; exact (hnames f).2 ((hasField_iff hl f).1 hf)
    refine ⟨_, by
      simp only [body, c _ cap.1, c _ cap.2.1, c _ cap.2.2, Bool.or_self, Bool.false_eq_true,
        if_false, hit, a.length]; rfl, ?_⟩
    intro val hval
    refine forall₂_snoc a ⟨rfl, fields.map .sym, ht, by simp, fun f hf => ?_⟩
    obtain ⟨f, hf', rfl⟩ := List.mem_map.1 hf
    obtain ⟨k, k1, k2⟩ := fieldIndex_map val (.sym f) _ hf
    refine ⟨k, k1, ?_⟩
    rw [List.map_map] at k2
    simp only
    rw [← k2]
    congr 1
    refine List.map_congr_left fun x _ => ?_
    simp only [Function.comp, hval, hI]
    by_cases hx : hasField l tail x = true
    · simp only [hx, if_true]
      cases e'.lookup x <;> rfl
    · have : e'.lookup x = none := by
        by_contra q
        exact hx ((hasField_iff hl x).2 ((hnames x).1 q))
      simp [hx, this]
  | _ => rw [hi] at hI; exact hI.elim

/-! ### Violations and examples -/

/-- C89 is violated: a parameter with the name of the type (or `vector`, or
`make-record-datum`) captures it: `(define-record-type point (make-point x point) ...)`. -/
theorem C89_captured_violated :
    (Lambda.interpret (Form := Unit) (St := Unit) ⟨V.sym, fun _ s => (none, s)⟩
      [.par 0 none, .par 9 none] none [.other 5, .other 6] ()).1 =
      .bound [(9, .val (.other 6)), (0, .val (.other 5))] ∧
    (body (Form := Unit) ⟨7, 8, 9⟩ [.par 0 none, .par 9 none] none [0, 9] 0
      [(9, .val (.other 6)), (0, .val (.other 5))] ⟨[[.sym 0, .sym 9]], []⟩).1 = .captured := by
  exact ⟨rfl, rfl⟩

/-- C89 is violated: an accessor for the field nil is made although there is no such
field (it does not work). -/
theorem C89_nil_violated (fields : List V) (h : .nil ∉ fields) :
    fieldIndex .nil fields 0 = some fields.length := by
  have : ∀ (fs : List V) (i : Nat), .nil ∉ fs → fieldIndex .nil fs i = some (i + fs.length) := by
    intro fs
    induction fs with
    | nil => intro i _; simp [fieldIndex]
    | cons g fs ih =>
      intro i h
      have e : g ≠ .nil := fun e => h (by simp [e])
      simp only [fieldIndex, e, if_false]
      rw [ih _ (fun m => h (by simp [m]))]
      simp; omega
  simpa using this fields 0 h

/-- `(define-record-type :pare (kons x) pare? (x kar) (y kdr))`: its lambda list, and a
record made by it. -/
example : Lambda.Spec.Lists (Form := Unit) ⟨[0], [], [], none⟩ [.par 0 none] none :=
  .intro (g := ⟨[0], [], [], none⟩) (o := []) (k := []) (r := []) (.inr ⟨rfl, rfl⟩)
    (.inr ⟨rfl, rfl⟩) (.inr ⟨rfl, rfl⟩)
example : ((body (Form := Unit) ⟨7, 8, 9⟩ [.par 0 none] none [0, 1] 0
    [(0, .val (.other 5))] ⟨[[.sym 0, .sym 1]], []⟩).2.heap.map Datum.items) =
    [[.other 5, .nil]] := rfl

/-- Two types, records of both. -/
example : results step ⟨[[.sym 1, .sym 2], [.sym 1]], []⟩
    [.make 0 [.sym 2, .sym 1] [.other 5, .other 6], .make 1 [.sym 1] [], .ref 0 (.sym 1) (.record 0),
     .set 0 (.sym 1) (.record 0) (.record 1), .ref 0 (.sym 1) (.record 0), .ref 1 (.sym 1) (.record 0),
     .ref 1 (.sym 1) (.record 1), .isA 0 (.record 0), .isA 1 (.record 0), .ref 0 (.sym 3) (.record 0)] =
    [some (.record 0), some (.record 1), some (.other 6), some (.record 1), some (.record 1), none,
     some .nil, some (.sym 1), some .nil, none] := by
  rfl

end Rep.Records
