import Verif.Modules.Model

/-
What the module system is meant to do: no hash tables, no nodes, no cache.  A structure is a map
from symbols to bindings; a variable is looked up in the structure itself and then, in order, in
the structures it has opened.
-/

namespace Rep.Mods.Spec

/-- A binding. -/
structure Bind where
  val : Val
  const : Bool
  exported : Bool
  deriving DecidableEq, Repr

/-- A structure. -/
structure SMod where
  name : Option Nat
  binds : Nat → Option Bind
  /-- exported, but not bound here -/
  inherited : List Nat
  imports : List Imp
  accessible : List Nat
  exportAll : Bool
  setBinds : Bool

/-- All structures; `names` is the one that maps names to structures. -/
structure SSt where
  mods : Nat → Option SMod
  top : Nat
  names : Nat
  metaName : Nat

def SMod.exportsInherited (m : SMod) (v : Nat) : Bool := m.exportAll || m.inherited.contains v

def SSt.setMod (g : SSt) (s : Sid) (m : SMod) : SSt :=
  { g with mods := fun x => if x = s then some m else g.mods x }

/-- The binding of `v` in structure `s` itself. -/
def own (g : SSt) (s : Sid) (v : Nat) : Option Bind := (g.mods s).bind fun m => m.binds v

/-- The structure an element of a list of imports stands for. -/
def resolve (g : SSt) : Imp → Option Sid
  | .obj s => if (g.mods s).isSome then some s else none
  | .name x =>
    ((own g g.names x).bind fun b => b.val.sid).bind fun s =>
      if (g.mods s).isSome then some s else none

/-- What structure `a` offers to others under the name `v`; `rest` is the search in what `a` has
opened. -/
def offered (m : SMod) (v : Nat) (rest : Option Bind) : Option Bind :=
  match m.binds v with
  | some b => if b.exported then some b else none
  | none => if m.exportsInherited v then rest else none

/-- What an opened structure offers under the name `v`; chains of at most `k` structures. -/
def provider (g : SSt) (v : Nat) : Nat → Imp → Option Bind
  | 0, _ => none
  | k + 1, i =>
    match (resolve g i).bind g.mods with
    | none => none
    | some m => offered m v (m.imports.findSome? (provider g v k))

/-- The binding a reference to `v` from inside `s` means. -/
def visible (g : SSt) (s : Sid) (v : Nat) : Option Bind :=
  match g.mods s with
  | none => none
  | some m =>
    match m.binds v with
    | some b => some b
    | none => m.imports.findSome? (provider g v (g.top + 1))

/-- The structures that pass the symbol `v` on without binding it do not open each other in a
circle. -/
def Layered (g : SSt) (v : Nat) : Prop :=
  ∃ rank : Sid → Nat, ∀ s m i b mb, g.mods s = some m → i ∈ m.imports → resolve g i = some b →
    g.mods b = some mb → mb.binds v = none → mb.exportsInherited v = true → rank b < rank s

def valOf : Option Bind → Val
  | none => .void
  | some b => b.val

/-! ### Operations -/

def SMod.put (m : SMod) (v : Nat) (b : Option Bind) : SMod :=
  { m with binds := fun x => if x = v then b else m.binds x }

/-- A new binding: exported if the interface says so. -/
def SMod.add (m : SMod) (v : Nat) (x : Val) : SMod :=
  { m.put v (some ⟨x, false, m.exportsInherited v⟩) with
    inherited := if m.exportsInherited v then delq v m.inherited else m.inherited }

/-- Store a value in a binding, making one if there is none. -/
def put (g : SSt) (s : Sid) (m : SMod) (v : Nat) (x : Val) : SSt × Out :=
  match m.binds v with
  | some b =>
    if b.const then (g, .constError) else (g.setMod s (m.put v (some { b with val := x })), .val x)
  | none => (g.setMod s (m.add v x), .val x)

def define (g : SSt) (s : Sid) (v : Nat) (x : Val) : SSt × Out :=
  match g.mods s with
  | none => (g, .bad)
  | some m =>
    if x = .void then (g.setMod s (m.put v none), .val .nil) else put g s m v x

def setVar (g : SSt) (s : Sid) (v : Nat) (x : Val) : SSt × Out :=
  match g.mods s with
  | none => (g, .bad)
  | some m =>
    if x = .void then (g.setMod s (m.put v none), .val .nil)
    else if m.setBinds || (m.binds v).isSome then put g s m v x
    else (g, .voidError)

def setName (g : SSt) (s : Sid) (x : Nat) : SSt :=
  match g.mods s with
  | none => g
  | some m => if m.name = none then g.setMod s { m with name := some x } else g

def nameStructure (g : SSt) (s : Sid) (nm : Option Nat) : SSt × Out :=
  match g.mods s with
  | none => (g, .bad)
  | some m =>
    match nm with
    | some x => (setName (define g g.names x (.struct s)).1 s x, .done)
    | none =>
      match m.name with
      | none => (g, .done)
      | some x => ((define g g.names x .nil).1, .done)

def newMod (g : SSt) (sig : List Nat) (nm : Option Nat) (a : Sid) : SSt :=
  { g.setMod a ⟨nm, fun _ => none, sig, [], [], false, false⟩ with top := max g.top (a + 1) }

def addMeta (g : SSt) (a : Sid) : SSt :=
  match g.mods a with
  | none => g
  | some m => g.setMod a { m with imports := .name g.metaName :: m.imports }

def mk (g : SSt) (sig : List Nat) (nm : Option Nat) (hdr : Bool) (a : Sid) : SSt × Out :=
  let g1 := newMod g sig nm a
  let g2 := if nm = none then g1 else (nameStructure g1 a nm).1
  (if hdr then addMeta g2 a else g2, .sid a)

def openAll (g : SSt) : List Imp → List Imp → List Imp × Bool
  | [], acc => (acc, true)
  | i :: l, acc =>
    if acc.contains i then openAll g l acc
    else if (resolve g i).isSome then openAll g l (i :: acc)
    else (acc, false)

def accessAll (g : SSt) : List Nat → List Nat → List Nat × Bool
  | [], acc => (acc, true)
  | x :: l, acc =>
    if acc.contains x then accessAll g l acc
    else if (resolve g (.name x)).isSome then accessAll g l (x :: acc)
    else (acc, false)

/-- The interface `sig`: bindings get their flags, the other symbols are inherited. -/
def SMod.withInterface (m : SMod) (sig : List Nat) : SMod :=
  { m with
    exportAll := false
    binds := fun v => (m.binds v).map fun b => { b with exported := sig.contains v }
    inherited := sig.filter fun v => (m.binds v).isNone }

def exportOne (m : SMod) (v : Nat) : SMod :=
  match m.binds v with
  | some b => m.put v (some { b with exported := true })
  | none => if m.exportsInherited v then m else { m with inherited := v :: m.inherited }

def externalRef (g : SSt) (cur : Sid) (x v : Nat) : Out :=
  match g.mods cur with
  | none => .bad
  | some m =>
    if m.accessible.contains x || m.imports.contains (.name x) then
      (if valOf (provider g v (g.top + 1) (.name x)) = .void then .voidError
       else .val (valOf (provider g v (g.top + 1) (.name x))))
    else .voidError

def exportsP (m : SMod) (v : Nat) : Out :=
  match m.binds v with
  | some b => if b.exported then .loc else .no
  | none => if m.exportsInherited v then .ext else .no

/-- The new subroutine replaces any old binding. -/
def addSubr (m : SMod) (v : Nat) (x : Val) (e : Bool) : SMod :=
  match m.binds v with
  | some b => m.put v (some { b with val := x, exported := e })
  | none => (m.add v x).put v (some ⟨x, false, e⟩)

/-- Change structure `s`, if there is one. -/
def update (g : SSt) (s : Sid) (f : SMod → SMod) (o : Out) : SSt × Out :=
  match g.mods s with
  | none => (g, .bad)
  | some m => (g.setMod s (f m), o)

/-- Ask structure `s`, if there is one. -/
def ask (g : SSt) (s : Sid) (o : SMod → Out) : SSt × Out :=
  match g.mods s with
  | none => (g, .bad)
  | some m => (g, o m)

def step (g : SSt) : Op → SSt × Out
  | .mk sig nm hdr a _ => mk g sig nm hdr a
  | .endHeader s => update g s (fun m => { m with imports := delq (.name g.metaName) m.imports }) .done
  | .nameIt s nm _ => nameStructure g s nm
  | .ref s v => ask g s fun _ => .val (valOf (visible g s v))
  | .boundP s v => ask g s fun _ => if valOf (visible g s v) = .void then .no else .yes
  | .define s v x _ => define g s v x
  | .set s v x _ => setVar g s v x
  | .setInterface s sig => update g s (·.withInterface sig) .done
  | .openS s l =>
    match g.mods s with
    | none => (g, .bad)
    | some m =>
      (g.setMod s { m with imports := (openAll g l m.imports).1 },
        if (openAll g l m.imports).2 then .done else .bad)
  | .access s l =>
    match g.mods s with
    | none => (g, .bad)
    | some m =>
      (g.setMod s { m with accessible := (accessAll g l m.accessible).1 },
        if (accessAll g l m.accessible).2 then .done else .bad)
  | .exportB s v => update g s (exportOne · v) .done
  | .exportsAll s _ => update g s (fun m => { m with exportAll := true }) (.sid s)
  | .setBinds s _ => update g s (fun m => { m with setBinds := true }) (.sid s)
  | .makeImmutable s v =>
    match own g s v with
    | none => (g, .voidError)
    | some b => update g s (fun m => m.put v (some { b with const := true })) .done
  | .immutableP s v =>
    ask g s fun _ =>
      match visible g s v with
      | none => .no
      | some b => if b.const then .yes else .no
  | .external c x v => (g, externalRef g c x v)
  | .exportsP s v => ask g s (exportsP · v)
  | .addSubr s v x e _ => update g s (addSubr · v x e) .done
  | .sweep l => ({ g with mods := fun s => if s ∈ l then none else g.mods s }, .done)

/-- The answers to a list of calls. -/
def outs (g : SSt) : List Op → List Out
  | [] => []
  | op :: l => (step g op).2 :: outs (step g op).1 l

def init (mn : Nat) : SSt :=
  { mods := fun x => if x = 0 then some ⟨none, fun _ => none, [], [], [], false, false⟩ else none
    top := 1
    names := 0
    metaName := mn }

end Rep.Mods.Spec
