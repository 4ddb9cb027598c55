/-
Vocabulary for C30, C31 and C32: reachability and the states a program can bring about.
-/
import Verif.Gc.Model

namespace Rep.Gc

/-- The objects a cell refers to strongly.  A weak table does not refer to its keys, a
guardian refers to the objects it is ready to hand out, a weak reference to nothing. -/
def kids : Cell → List Val
  | .cons car cdr => [car, cdr]
  | .funarg name env struct fn => [name, env, struct, fn]
  | .fields vs => vs
  | .table weak nodes h c g =>
      nodes.flatMap (fun n => if weak then [n.2] else [n.1, n.2]) ++ [h, c, g]
  | .guardian _ inaccessible => inaccessible
  | _ => []

/-- Reachability. -/
inductive Reach (mem : List Cell) (roots : List Val) : Nat → Prop
  | root {a : Nat} : Val.ref a ∈ roots → Reach mem roots a
  | step {a b : Nat} {c : Cell} : Reach mem roots a → mem[a]? = some c → Val.ref b ∈ kids c → Reach mem roots b

/-- The objects registered with the guardian at an address and not yet found
unreachable. -/
def accessibleOf (mem : List Cell) (g : Nat) : List Val :=
  match mem[g]? with
  | some (.guardian acc _) => acc
  | _ => []

/-- The objects registered with any guardian. -/
def guarded (h : Heap) : List Val := h.guardians.flatMap (accessibleOf h.mem)

/-- A cell that must be kept: reachable from the roots or from a guarded object. -/
def Live (h : Heap) (roots : List Val) (a : Nat) : Prop := Reach h.mem (roots ++ guarded h) a

/-- A cell that is not freed, and not a closure of a fixnum. -/
def Sound : Cell → Prop
  | .free => False
  | .funarg _ _ _ (.int _) => False
  | _ => True

/-- Objects that the collector never marks: subrs and the strings of the C program. -/
def Permanent : Cell → Prop
  | .subr => True
  | .string true => True
  | _ => False

/-- A list of cells linked through their cdrs. -/
inductive Chain (mem : List Cell) : Val → List Nat → Prop
  | nil : Chain mem .null []
  | cons {a : Nat} {car cdr : Val} {rest : List Nat} :
      mem[a]? = some (.cons car cdr) → Chain mem cdr rest → Chain mem (.ref a) (a :: rest)

/-- A cell that is allocated and sound; `free` is the free list of conses. -/
def InUse (h : Heap) (free : List Nat) (a : Nat) : Prop := ∃ c, h.mem[a]? = some c ∧ Sound c ∧ a ∉ free

/-- The states between operations; `free` are the cells on the free list. -/
structure Inv (h : Heap) (roots : List Val) (free : List Nat) : Prop where
  marks : h.marked = fun a => a == nil
  nilCell : h.mem[nil]? = some (.fields [.ref nil, .ref nil])
  slotsNodup : h.slots.Nodup
  slots : ∀ a, a ∈ h.slots ↔ ∃ car cdr, h.mem[a]? = some (.cons car cdr)
  guardiansNodup : h.guardians.Nodup
  guardians : ∀ a, a ∈ h.guardians ↔ ∃ acc inacc, h.mem[a]? = some (.guardian acc inacc)
  weakNodup : h.weakRefs.Nodup
  weakRefs : ∀ a, a ∈ h.weakRefs ↔ ∃ v, h.mem[a]? = some (.weakRef v)
  weakTargets : ∀ (r : Nat) (v : Val), h.mem[r]? = some (.weakRef v) →
    (∃ n, v = .int n) ∨ ∃ a, v = .ref a ∧ InUse h free a
  registered : ∀ v ∈ guarded h, ∃ a, v = .ref a ∧ InUse h free a
  roots : ∀ a, Val.ref a ∈ roots → InUse h free a
  kids : ∀ (a b : Nat) (c : Cell), InUse h free a → h.mem[a]? = some c → Val.ref b ∈ kids c → InUse h free b
  chain : Chain h.mem h.consFree free
  freeNodup : free.Nodup
  freeSlots : ∀ a ∈ free, a ∈ h.slots
  used : h.usedCons + free.length = h.slots.length

/-! ### Histories -/

/-- A value the program can lay its hands on. -/
def Has (h : Heap) (roots : List Val) (v : Val) : Prop :=
  (∃ n, v = .int n) ∨ ∃ a, v = .ref a ∧ (a = nil ∨ Reach h.mem roots a)

/-- Objects of types other than cons, guardian and weak reference. -/
def Plain (c : Cell) : Prop := Sound c ∧ match c with
  | .cons _ _ => False
  | .guardian _ _ => False
  | .weakRef _ => False
  | _ => True

/-- What a step is, for the theorems about histories. -/
inductive Event where
  | collect
  /-- registration of an object with the guardian `g` -/
  | push (g : Nat) (v : Val)
  /-- a call of the guardian `g`, returning `v` -/
  | pop (g : Nat) (v : Val)
  /-- a change of the fields of `a` -/
  | write (a : Nat)
  | other

/-- The steps of a program, on the heap and its roots.  A new object is at first only
reachable from the roots.  `write` is any change of an object's fields. -/
inductive Step : Heap × List Val → Event → Heap × List Val → Prop
  | collect {h h' : Heap} {roots : List Val} : collect h roots = some h' → Step (h, roots) .collect (h', roots)
  | roots {h : Heap} {roots roots' : List Val} : (∀ v ∈ roots', v ≠ .null → Has h roots v) → Step (h, roots) .other (h, roots')
  | cons {h h' : Heap} {roots : List Val} {n a : Nat} {x y : Val} : Has h roots x → Has h roots y →
      cons n h x y = some (h', a) → Step (h, roots) .other (h', .ref a :: roots)
  | guardian {h : Heap} {roots : List Val} : Step (h, roots) .other ((makeGuardian h).1, .ref (makeGuardian h).2 :: roots)
  | push {h h' : Heap} {roots : List Val} {g b : Nat} : Reach h.mem roots g → Has h roots (.ref b) →
      guardianPush h g (.ref b) = some h' → Step (h, roots) (.push g (.ref b)) (h', roots)
  | pop {h h' : Heap} {roots : List Val} {g : Nat} {v : Val} : Reach h.mem roots g →
      guardianPop h g = some (h', v) → Step (h, roots) (.pop g v) (h', v :: roots)
  | weak {h : Heap} {roots : List Val} {v : Val} : Has h roots v →
      Step (h, roots) .other ((makeWeakRef h v).1, .ref (makeWeakRef h v).2 :: roots)
  | readWeak {h : Heap} {roots : List Val} {r : Nat} {v : Val} : Reach h.mem roots r →
      weakRefValue h r = some v → Step (h, roots) .other (h, v :: roots)
  /-- The program sees a key of a weak table, for example by `table-walk` (the keys of a
  weak table are registered with its guardian, C12). -/
  | learn {h : Heap} {roots : List Val} {v : Val} : v ∈ guarded h → Step (h, roots) .other (h, v :: roots)
  | object {h : Heap} {roots : List Val} {c : Cell} : Plain c → (∀ v ∈ kids c, v ≠ .null → Has h roots v) →
      Step (h, roots) .other ((makeObject h c).1, .ref (makeObject h c).2 :: roots)
  | write {h : Heap} {roots : List Val} {a : Nat} {c : Cell} : Reach h.mem roots a → a ≠ nil →
      (∃ c0, h.mem[a]? = some c0 ∧ Plain c0 ∧ (Permanent c ↔ Permanent c0)) → Plain c → (∀ v ∈ kids c, v ≠ .null → Has h roots v) →
      Step (h, roots) (.write a) (write h a c, roots)
  | rplac {h : Heap} {roots : List Val} {a : Nat} {x y x' y' : Val} : Reach h.mem roots a →
      h.mem[a]? = some (.cons x y) → Has h roots x' → Has h roots y' →
      Step (h, roots) (.write a) (write h a (.cons x' y'), roots)
  | setWeak {h : Heap} {roots : List Val} {a : Nat} {v v' : Val} : Reach h.mem roots a →
      h.mem[a]? = some (.weakRef v) → Has h roots v' →
      Step (h, roots) (.write a) (write h a (.weakRef v'), roots)

/-- The initial state: only `()`. -/
def start : Heap where
  mem := [.fields [.ref nil, .ref nil]]
  marked := fun a => a == nil
  slots := []
  consFree := .null
  usedCons := 0
  guardians := []
  weakRefs := []

/-- The states a program can bring about. -/
inductive Reachable : Heap × List Val → Prop
  | start : Reachable (start, [])
  | step {s t : Heap × List Val} {e : Event} : Reachable s → Step s e t → Reachable t

end Rep.Gc
