import Verif.DocFile.Model
import Mathlib.Data.List.Induction
/-!
# C127: documentation strings
-/
namespace Rep.DocFile

/-! ### Specification -/
namespace Spec

/-- The last string recorded in the history in this way for this symbol and structure. -/
def lastVariable (sym : Name) (st : Option Name) : List Op → Option Name
  | [] => none
  | .var a b d :: ops => (lastVariable sym st ops).or (if a = sym ∧ b = st then some d else none)
  | _ :: ops => lastVariable sym st ops

def lastAdd (sym : Name) (st : Option Name) : List Op → Option Name
  | [] => none
  | .add a b d :: ops => (lastAdd sym st ops).or (if a = sym ∧ b = st then some d else none)
  | _ :: ops => lastAdd sym st ops

def lastParams (sym : Name) (st : Option Name) : List Op → Option Name
  | [] => none
  | .params a b d :: ops => (lastParams sym st ops).or (if a = sym ∧ b = st then some d else none)
  | _ :: ops => lastParams sym st ops

/-- What is recorded for the structure, or else for none. -/
def best (st : Option Name) (x : Option Name → Option Name) : Option Name :=
  match st with
  | some s => (x (some s)).or (x none)
  | none => x none

/-- A name that doesn't contain the character `#`, and doesn't begin with the character 0. -/
def Plain (n : Name) : Prop := '#' ∉ n ∧ n.head? ≠ some (Char.ofNat 0)

def PlainSt (st : Option Name) : Prop := ∀ s, st = some s → Plain s

def PlainOp : Op → Prop
  | .var _ _ _ => True
  | .add a b _ => Plain a ∧ PlainSt b
  | .params a b _ => Plain a ∧ PlainSt b

end Spec

open Spec

def body (name : Name) (st : Option Name) : Name := match st with | some s => s ++ '#' :: name | none => name

theorem split_inj {a b r s : Name} (ha : '#' ∉ a) (hb : '#' ∉ b) (h : a ++ '#' :: r = b ++ '#' :: s) : a = b ∧ r = s := by
  induction a generalizing b with
  | nil =>
    cases b with
    | nil => exact ⟨rfl, by simpa using h⟩
    | cons c b => injection h with h _; exact absurd (by rw [h]; exact List.mem_cons_self ..) hb
  | cons c a ih =>
    cases b with
    | nil => injection h with h _; exact absurd (by rw [h]; exact List.mem_cons_self ..) ha
    | cons d b =>
      injection h with h1 h2
      obtain ⟨e, e'⟩ := ih (fun h => ha (List.mem_cons_of_mem _ h)) (fun h => hb (List.mem_cons_of_mem _ h)) h2
      exact ⟨by rw [h1, e], e'⟩

theorem body_inj {a b : Name} {s t : Option Name} (ha : Plain a) (hb : Plain b) (hs : PlainSt s) (ht : PlainSt t) (h : body a s = body b t) : a = b ∧ s = t := by
  cases s with
  | none =>
    cases t with
    | none => exact ⟨h, rfl⟩
    | some t => exact absurd (by rw [show a = t ++ '#' :: b from h]; simp) ha.1
  | some s =>
    cases t with
    | none => exact absurd (by rw [← show s ++ '#' :: a = b from h]; simp) hb.1
    | some t =>
      obtain ⟨e, e'⟩ := split_inj (hs s rfl).1 (ht t rfl).1 h
      exact ⟨e', by rw [e]⟩

theorem body_head {a : Name} {s : Option Name} (ha : Plain a) (hs : PlainSt s) : (body a s).head? ≠ some (Char.ofNat 0) := by
  cases s with
  | none => exact ha.2
  | some s =>
    have := (hs s rfl).2
    cases s with
    | nil => simp only [body, List.nil_append, List.head?_cons]; decide
    | cons c s => simpa [body] using this

/-- Keys are different. -/
theorem key_inj {k k' : Kind} {a b : Name} {s t : Option Name} (ha : Plain a) (hb : Plain b) (hs : PlainSt s) (ht : PlainSt t) :
    key k a s = key k' b t ↔ k = k' ∧ a = b ∧ s = t := by
  constructor
  · intro h
    cases k <;> cases k'
    · exact ⟨rfl, body_inj ha hb hs ht h⟩
    · have h' : body a s = Char.ofNat 0 :: body b t := h
      exact absurd (by rw [h']; rfl) (body_head ha hs)
    · have h' : Char.ofNat 0 :: body a s = body b t := h
      exact absurd (by rw [← h']; rfl) (body_head hb ht)
    · have h' : Char.ofNat 0 :: body a s = Char.ofNat 0 :: body b t := h
      injection h' with _ h'
      exact ⟨rfl, body_inj ha hb hs ht h'⟩
  · rintro ⟨rfl, rfl, rfl⟩; rfl

theorem property_inj (s t : Option Name) : property s = property t ↔ s = t := by
  unfold property
  generalize "documentation".toList = d
  constructor
  · intro h
    cases s with
    | none =>
      cases t with
      | none => rfl
      | some t => exact absurd (congrArg List.length h) (by simp)
    | some s =>
      cases t with
      | none => exact absurd (congrArg List.length h) (by simp)
      | some t => simpa using h
  · rintro rfl; rfl

theorem run_snoc (s : St) (ops : List Op) (o : Op) : run s (ops ++ [o]) = step (run s ops) o := by simp [run]

theorem last_snoc (sym : Name) (st : Option Name) (ops : List Op) (o : Op) :
    lastVariable sym st (ops ++ [o]) = (lastVariable sym st [o]).or (lastVariable sym st ops) ∧
      lastAdd sym st (ops ++ [o]) = (lastAdd sym st [o]).or (lastAdd sym st ops) ∧
      lastParams sym st (ops ++ [o]) = (lastParams sym st [o]).or (lastParams sym st ops) := by
  induction ops with
  | nil => simp [lastVariable, lastAdd, lastParams]
  | cons p ops ih =>
    obtain ⟨h1, h2, h3⟩ := ih
    cases p <;> simp only [List.cons_append, lastVariable, lastAdd, lastParams, h1, h2, h3, Option.or_assoc, and_self]

/-- One database, empty at first. -/
def empty : St := { files := [fun _ => none] }

theorem state (ops : List Op) (hp : ∀ o ∈ ops, PlainOp o) :
    (run empty ops).own = 0 ∧ (∃ db, (run empty ops).files = [db] ∧ ∀ a s, Plain a → PlainSt s → db (key .value a s) = lastAdd a s ops ∧ db (key .param a s) = lastParams a s ops) ∧
      ∀ a s, (run empty ops).props a (property s) = lastVariable a s ops := by
  induction ops using List.reverseRecOn with
  | nil => exact ⟨rfl, ⟨_, rfl, fun _ _ _ _ => ⟨rfl, rfl⟩⟩, fun _ _ => rfl⟩
  | append_singleton ops o ih =>
    obtain ⟨i0, ⟨db, i1, i2⟩, i3⟩ := ih fun o ho => hp o (List.mem_append_left _ ho)
    have ho := hp o (List.mem_append_right _ (List.mem_singleton.mpr rfl))
    rw [run_snoc]
    cases o with
    | var sym st doc =>
      refine ⟨i0, ⟨db, i1, fun a s ha hs => ?_⟩, fun a s => ?_⟩
      · obtain ⟨-, l2, l3⟩ := last_snoc a s ops (.var sym st doc)
        rw [l2, l3]
        simpa [lastAdd, lastParams] using i2 a s ha hs
      · rw [(last_snoc a s ops _).1]
        simp only [step, lastVariable, property_inj, Option.none_or, i3]
        by_cases h : a = sym ∧ s = st
        · obtain ⟨rfl, rfl⟩ := h; simp
        · rw [if_neg h, if_neg (fun h' => h ⟨h'.1.symm, h'.2.symm⟩)]; rfl
    | add sym st doc =>
      refine ⟨i0, ⟨fun j => if j = key .value sym st then some doc else db j, by simp [step, fileSet, i0, i1], fun a s ha hs => ?_⟩, fun a s => ?_⟩
      · obtain ⟨-, l2, l3⟩ := last_snoc a s ops (.add sym st doc)
        obtain ⟨d1, d2⟩ := i2 a s ha hs
        rw [l2, l3]
        simp only [key_inj ha ho.1 hs ho.2, lastAdd, lastParams, Option.none_or, d1, d2, true_and, reduceCtorEq, false_and, if_false, and_true]
        by_cases h : a = sym ∧ s = st
        · obtain ⟨rfl, rfl⟩ := h; simp
        · rw [if_neg h, if_neg (fun h' => h ⟨h'.1.symm, h'.2.symm⟩)]; rfl
      · rw [(last_snoc a s ops _).1]
        simpa [step, fileSet, lastVariable] using i3 a s
    | params sym st doc =>
      refine ⟨i0, ⟨fun j => if j = key .param sym st then some doc else db j, by simp [step, fileSet, i0, i1], fun a s ha hs => ?_⟩, fun a s => ?_⟩
      · obtain ⟨-, l2, l3⟩ := last_snoc a s ops (.params sym st doc)
        obtain ⟨d1, d2⟩ := i2 a s ha hs
        rw [l2, l3]
        simp only [key_inj ha ho.1 hs ho.2, lastAdd, lastParams, Option.none_or, d1, d2, true_and, reduceCtorEq, false_and, if_false]
        by_cases h : a = sym ∧ s = st
        · obtain ⟨rfl, rfl⟩ := h; simp
        · rw [if_neg h, if_neg (fun h' => h ⟨h'.1.symm, h'.2.symm⟩)]; rfl
      · rw [(last_snoc a s ops _).1]
        simpa [step, fileSet, lastVariable] using i3 a s

/-- **C127**, partial: `documentation` gives the last string recorded for the symbol and structure, first as a variable, then in the database; and what is recorded for
the parameters is found. Names are plain, and there is one database. -/
theorem C127_documentation_partial (ops : List Op) (hp : ∀ o ∈ ops, PlainOp o) (sym : Name) (st : Option Name) (h1 : Plain sym) (h2 : PlainSt st) :
    documentation (run empty ops) sym st none = (best st fun s => lastVariable sym s ops).or (best st fun s => lastAdd sym s ops) ∧
      paramsOf (run empty ops) sym st = best st (fun s => lastParams sym s ops) := by
  obtain ⟨-, ⟨db, i1, i2⟩, i3⟩ := state ops hp
  have hn : PlainSt none := fun s h => by cases h
  have fr : ∀ k, fileRef [db] k = db k := fun k => by
    simp only [fileRef, List.findSome?_cons, List.findSome?_nil]
    cases db k <;> rfl
  cases st with
  | none => simp [documentation, paramsOf, ifStruct, best, i1, i3, fr, (i2 sym none h1 hn).1, (i2 sym none h1 hn).2]
  | some s =>
    simp [documentation, paramsOf, ifStruct, best, i1, i3, fr, (i2 sym none h1 hn).1, (i2 sym none h1 hn).2, (i2 sym (some s) h1 h2).1, (i2 sym (some s) h1 h2).2]

/-- **C127**: a string in the function itself goes before all others. -/
theorem C127_incore (s : St) (sym : Name) (st : Option Name) (d : Name) : documentation s sym st (some d) = some d := rfl

def nA : Name := "a".toList
def nBC : Name := "b#c".toList
def nAB : Name := "a#b".toList
def nC : Name := "c".toList
def doc1 : Name := "first".toList
def doc2 : Name := "second".toList

/-- **C127**, violated: symbols whose names contain `#` get the documentation of others: `b#c` in `a` that of `c` in `a#b`. -/
theorem C127_names_violated :
    documentation (run empty [.add nBC (some nA) doc1, .add nC (some nAB) doc2]) nBC (some nA) none = some doc2 ∧
      lastAdd nBC (some nA) [.add nBC (some nA) doc1, .add nC (some nAB) doc2] = some doc1 := by decide +kernel

/-! ### The hypotheses are met -/

example : Plain nA ∧ Plain nC := ⟨⟨by decide, by decide⟩, ⟨by decide, by decide⟩⟩

example : documentation (run empty [.add nC none doc1, .params nC (some nA) doc1, .add nC (some nA) doc2]) nC (some nA) none = some doc2 ∧
    documentation (run empty [.add nC none doc1, .params nC (some nA) doc1]) nC (some nA) none = some doc1 := by decide +kernel

end Rep.DocFile
