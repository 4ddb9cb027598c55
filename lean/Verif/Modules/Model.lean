/-
The module system: structures with their hash tables of bindings, the search through opened
structures, and the 4-way cache in front of that search (src/structures.c).

Simplifications:
* a structure, a node and a symbol are numbers (their addresses).  Addresses of freed objects
  may be used again: operations that allocate say which free address they get.
* the flag `rep_STF_EXCLUSION`, set on the way down and cleared on the way up, is the argument
  `ex` of `lookupRec`.
* the lists `inherited` are values: every structure has its own copy.  In the code
  `make-structure` does not copy its argument; see Sharing.lean.
* the counter `ref_age` does not overflow, and ages stay below `INT_MAX`.
* the thunks of `make-structure` are operations of the history between `mk` and `endHeader`.
  Loading a structure from a file is not modelled: `open-structures` of an unknown name fails.
-/

namespace Rep.Mods

abbrev Sid := Nat
abbrev Nid := Nat

/-- Lisp values, as far as this file looks at them. -/
inductive Val
  | nil
  | void
  | struct (s : Nat)
  | obj (k : Nat)
  deriving DecidableEq, Repr

/-- An element of the list of opened structures: a name or a structure object
(lookup_recursively, structures.c:597-598). -/
inductive Imp
  | name (x : Nat)
  | obj (s : Nat)
  deriving DecidableEq, Repr

/-- `rep_struct_node`, repint.h:114-121. The links are in `Mod.buckets`. -/
structure Node where
  sym : Nat
  val : Val
  const : Bool
  exported : Bool
  deriving DecidableEq, Repr

/-- `rep_struct`, repint.h:123-142.  `total_buckets` is `buckets.length`. -/
structure Mod where
  name : Option Nat
  inherited : List Nat
  imports : List Imp
  accessible : List Nat
  buckets : List (List Nat)
  /-- `total_bindings` -/
  count : Nat
  exportAll : Bool
  setBinds : Bool
  deriving DecidableEq, Repr

/-- `struct cache_line`, structures.c:256-260 -/
structure Line where
  s : Nat
  n : Nat
  age : Nat
  deriving DecidableEq, Repr

/-- `ref_cache` and `ref_age`, structures.c:262-263; an empty line is `none`. -/
structure Cache where
  sets : Nat → List (Option Line)
  age : Nat

structure St where
  mods : Nat → Option Mod
  nodes : Nat → Option Node
  cache : Cache
  /-- larger than the address of every structure -/
  top : Nat
  /-- `rep_structures_structure` -/
  names : Nat
  /-- the symbol `%meta` -/
  metaName : Nat

/-! ### Hash tables -/

/-- `rep_STRUCT_HASH`, repint.h:160 -/
def structHash (x n : Nat) : Nat := (x / 8) % n

/-- The symbol of a node; `none` if the node has been freed. -/
def symOf (g : St) (n : Nid) : Option Nat := (g.nodes n).map (·.sym)

/-- The node of symbol `v` in a chain, structures.c:502-507. -/
def chainFind (g : St) (v : Nat) : List Nid → Option Nid
  | [] => none
  | n :: l => if symOf g n = some v then some n else chainFind g v l

/-- `lookup` in a given structure, structures.c:494-510 -/
def lookupM (g : St) (m : Mod) (v : Nat) : Option Nid :=
  if m.buckets.length = 0 then none
  else chainFind g v (m.buckets.getD (structHash v m.buckets.length) [])

/-- `lookup`, structures.c:494-510 -/
def lookup (g : St) (s : Sid) (v : Nat) : Option Nid :=
  match g.mods s with
  | none => none
  | some m => lookupM g m v

/-- Put a node in front of chain `k`. -/
def push (b : List (List Nid)) (k : Nat) (n : Nid) : List (List Nid) :=
  b.set k (n :: b.getD k [])

/-- The loop that moves all nodes to the new buckets, structures.c:536-546; the argument lists
the nodes in the order in which the loop meets them. -/
def moveAll (g : St) (total : Nat) : List Nid → List (List Nid) → List (List Nid)
  | [], b => b
  | n :: l, b => moveAll g total l (push b (structHash ((symOf g n).getD 0) total) n)

/-- The buckets after the two size adjustments of `lookup_or_add`, structures.c:518-550. -/
def grow (g : St) (m : Mod) : List (List Nid) :=
  let b := if m.buckets.length = 0 then List.replicate 8 [] else m.buckets
  if m.count > b.length * 2 then
    moveAll g (b.length * 2) b.flatten (List.replicate (b.length * 2) [])
  else b

/-- `structure_exports_inherited_p`, structures.c:474-489 -/
def Mod.exportsInherited (m : Mod) (v : Nat) : Bool := m.exportAll || m.inherited.contains v

/-- `Fdelq`, lispcmds.c:716-736, on a list nobody else refers to. -/
def delq {α : Type} [DecidableEq α] (x : α) (l : List α) : List α := l.filter (fun y => decide (y ≠ x))

/-- Store a structure. -/
def St.setMod (g : St) (s : Sid) (m : Mod) : St :=
  { g with mods := fun x => if x = s then some m else g.mods x }

/-- Store (or, with `none`, free) a node. -/
def St.setNode (g : St) (n : Nid) (r : Option Node) : St :=
  { g with nodes := fun x => if x = n then r else g.nodes x }

/-! ### The cache -/

/-- `CACHE_HASH`, structures.c:253 -/
def cacheHash (x : Nat) : Nat := (x / 8) % 128

/-- An empty cache; `cache_flush`, structures.c:347-352 (which does not touch `ref_age`). -/
def emptySets : Nat → List (Option Line) := fun _ => [none, none, none, none]

def flush (g : St) : St := { g with cache := { g.cache with sets := emptySets } }

/-- The choice of a line in `enter_cache`, structures.c:270-282: `i` is the current line, `best`
and `bestAge` are `oldest_i` and `oldest_age` (`none` is `INT_MAX`). -/
def victim (i best : Nat) (bestAge : Option Nat) : List (Option Line) → Nat
  | [] => best
  | none :: _ => i
  | some l :: r =>
    if bestAge.all (fun a => decide (l.age < a)) then victim (i + 1) i (some l.age) r
    else victim (i + 1) best bestAge r

/-- `enter_cache`, structures.c:265-294 -/
def enterCache (v : Nat) (s : Sid) (n : Nid) (c : Cache) : Cache :=
  let k := cacheHash v
  { sets := fun x =>
      if x = k then (c.sets k).set (victim 0 0 none (c.sets k)) (some ⟨s, n, c.age + 1⟩) else c.sets x
    age := c.age + 1 }

/-- Does the line hold the binding of `v` for `s`?  A freed node does not match; that such a
node is never read is `C49_live_partial`. -/
def hits (g : St) (s : Sid) (v : Nat) (l : Line) : Bool :=
  decide (l.s = s) && decide (symOf g l.n = some v)

/-- The loop of `lookup_cache` over the lines of a set, structures.c:301-311 -/
def scanSet (g : St) (s : Sid) (v : Nat) : List (Option Line) → Option Nid × List (Option Line)
  | [] => (none, [])
  | none :: r => ((scanSet g s v r).1, none :: (scanSet g s v r).2)
  | some l :: r =>
    if hits g s v l then (some l.n, some { l with age := l.age + 1 } :: r)
    else ((scanSet g s v r).1, some l :: (scanSet g s v r).2)

/-- `lookup_cache`, structures.c:296-316 -/
def lookupCache (g : St) (s : Sid) (v : Nat) (c : Cache) : Option Nid × Cache :=
  let k := cacheHash v
  let r := scanSet g s v (c.sets k)
  (r.1, { c with sets := fun x => if x = k then r.2 else c.sets x })

/-- `cache_invalidate_symbol`, structures.c:318-331 -/
def invalSym (v : Nat) (g : St) : St :=
  { g with cache := { g.cache with
      sets := fun x =>
        if x = cacheHash v then
          (g.cache.sets x).map fun l => l.bind fun l => if symOf g l.n = some v then none else some l
        else g.cache.sets x } }

/-- `cache_invalidate_struct`, structures.c:333-345 -/
def invalStruct (s : Sid) (g : St) : St :=
  { g with cache := { g.cache with
      sets := fun x =>
        (g.cache.sets x).map fun l => l.bind fun l => if l.s = s then none else some l } }

/-! ### The search -/

/-- `Fget_structure`, structures.c:641-654 -/
def getStructure (g : St) (x : Nat) : Val :=
  match lookup g g.names x with
  | none => .nil
  | some n => ((g.nodes n).map (·.val)).getD .nil

def Val.sid : Val → Option Sid
  | .struct s => some s
  | _ => none

/-- The structure an element of the list of imports stands for, structures.c:597-599. -/
def resolve (g : St) : Imp → Option Sid
  | .obj s => if (g.mods s).isSome then some s else none
  | .name x => (getStructure g x).sid.bind fun s => if (g.mods s).isSome then some s else none

/-- Try the elements of a list until one gives a node, structures.c:628-639. -/
def firstOf (f : Imp → Cache → Option Nid × Cache) : List Imp → Cache → Option Nid × Cache
  | [], c => (none, c)
  | i :: l, c =>
    match f i c with
    | (some n, c') => (some n, c')
    | (none, c') => firstOf f l c'

def importsOf (g : St) (s : Sid) : List Imp :=
  match g.mods s with
  | none => []
  | some m => m.imports

def inhOf (g : St) (v : Nat) (s : Sid) : Bool :=
  match g.mods s with
  | none => false
  | some m => m.exportsInherited v

def exportedN (g : St) (n : Nid) : Bool := ((g.nodes n).map (·.exported)).getD false

/-- `rep_search_imports`, structures.c:618-639; `f` is the call of `lookup_recursively`. -/
def searchImports (g : St) (v : Nat) (f : Imp → Cache → Option Nid × Cache) (s : Sid) (c : Cache) :
    Option Nid × Cache :=
  match lookupCache g s v c with
  | (some n, c') => (some n, c')
  | (none, c') =>
    match firstOf f (importsOf g s) c' with
    | (some n, c'') => (some n, enterCache v s n c'')
    | (none, c'') => (none, c'')

/-- What `lookup_recursively` does when it has found structure `a`. -/
def lookupIn (g : St) (v : Nat) (f : Imp → Cache → Option Nid × Cache) (a : Sid) (c : Cache) :
    Option Nid × Cache :=
  match lookup g a v with
  | some n => if exportedN g n then (some n, c) else (none, c)
  | none => if inhOf g v a then searchImports g v f a c else (none, c)

/-- `lookup_recursively`, structures.c:592-616.  The number bounds the depth: since a structure
is not entered twice, `top + 1` is enough (`Way.fuel_pos` in Search.lean). -/
def lookupRec (g : St) (v : Nat) : Nat → List Sid → Imp → Cache → Option Nid × Cache
  | 0, _, _, c => (none, c)
  | f + 1, ex, i, c =>
    match resolve g i with
    | none => (none, c)
    | some a => if a ∈ ex then (none, c) else lookupIn g v (lookupRec g v f (a :: ex)) a c

/-- `rep_search_imports` from outside. -/
def search (g : St) (s : Sid) (v : Nat) : Option Nid × St :=
  let r := searchImports g v (lookupRec g v (g.top + 1) []) s g.cache
  (r.1, { g with cache := r.2 })

/-! ### Operations -/

/-- What an operation returns. -/
inductive Out
  | val (v : Val)
  | sid (s : Nat)
  | done
  | yes
  | no
  | loc
  | ext
  /-- `Qvoid_value` -/
  | voidError
  /-- `Qsetting_constant` -/
  | constError
  /-- "No such structure", or an argument that is not a structure -/
  | bad
  deriving DecidableEq, Repr

/-- `lookup` and then `rep_search_imports`, structures.c:783-786 -/
def find (g : St) (s : Sid) (v : Nat) : Option Nid × St :=
  match lookup g s v with
  | some n => (some n, g)
  | none => search g s v

def nodeVal (g : St) : Option Nid → Val
  | none => .void
  | some n => ((g.nodes n).map (·.val)).getD .void

/-- `lookup_or_add`, structures.c:512-570, for structure `s` with contents `m`.  `new` is the
address a new node gets. -/
def lookupOrAdd (g : St) (s : Sid) (m : Mod) (v : Nat) (new : Nid) : Nid × St :=
  match lookupM g m v with
  | some n => (n, g)
  | none =>
    let b := grow g m
    let m' : Mod :=
      { m with
        buckets := push b (structHash v b.length) new
        count := m.count + 1
        inherited := if m.exportsInherited v then delq v m.inherited else m.inherited }
    (new, invalSym v ((g.setNode new (some ⟨v, .void, false, m.exportsInherited v⟩)).setMod s m'))

/-- Does some line of the cache hold node `n`? -/
def cached (g : St) (n : Nid) (v : Nat) : Bool :=
  (g.cache.sets (cacheHash v)).any fun l => l.any fun l => decide (l.n = n)

/-- `remove_binding`, structures.c:572-590.  The node is freed before
`cache_invalidate_symbol` looks at the symbols of all cached nodes; `none` means that it reads
the freed node. -/
def removeBinding (g : St) (s : Sid) (m : Mod) (v : Nat) : Option St :=
  match lookupM g m v with
  | none => some g
  | some n =>
    if cached g n v then none
    else
      let k := structHash v m.buckets.length
      let m' : Mod := { m with buckets := m.buckets.set k ((m.buckets.getD k []).erase n) }
      some (invalSym v ((g.setNode n none).setMod s m'))

/-- The store at the end of `structure-set` and `structure-define`, structures.c:844-853. -/
def storeVal (g : St) (n : Nid) (x : Val) : St × Out :=
  match g.nodes n with
  | none => (g, .bad)
  | some r => if r.const then (g, .constError) else (g.setNode n (some { r with val := x }), .val x)

/-- `structure-define`, structures.c:865-897 -/
def define (g : St) (s : Sid) (v : Nat) (x : Val) (new : Nid) : Option (St × Out) :=
  match g.mods s with
  | none => some (g, .bad)
  | some m =>
    if x = .void then (removeBinding g s m v).map fun g' => (g', .val .nil)
    else
      let r := lookupOrAdd g s m v new
      some (storeVal r.2 r.1 x)

/-- `structure-set`, structures.c:819-863 -/
def setVar (g : St) (s : Sid) (v : Nat) (x : Val) (new : Nid) : Option (St × Out) :=
  match g.mods s with
  | none => some (g, .bad)
  | some m =>
    if x = .void then (removeBinding g s m v).map fun g' => (g', .val .nil)
    else if m.setBinds then
      let r := lookupOrAdd g s m v new
      some (storeVal r.2 r.1 x)
    else
      match lookupM g m v with
      | none => some (g, .voidError)
      | some n => some (storeVal g n x)

/-- `name-structure`, structures.c:656-684; `nm` is `none` for nil. -/
def nameStructure (g : St) (s : Sid) (nm : Option Nat) (new : Nid) : Option (St × Out) :=
  match g.mods s with
  | none => some (g, .bad)
  | some m =>
    match nm with
    | some x =>
      (define g g.names x (.struct s) new).map fun r =>
        match r.1.mods s with
        | none => (flush r.1, .done)
        | some m' =>
          (flush (if m'.name = none then r.1.setMod s { m' with name := some x } else r.1), .done)
    | none =>
      match m.name with
      | none => some (flush g, .done)
      | some x => (define g g.names x .nil new).map fun r => (flush r.1, .done)

/-- The allocation in `make-structure`, structures.c:729-745 -/
def newMod (g : St) (sig : List Nat) (nm : Option Nat) (at' : Sid) : St :=
  { g.setMod at' ⟨nm, sig, [], [], [], 0, false, false⟩ with top := max g.top (at' + 1) }

/-- `make-structure` up to the call of the first thunk, structures.c:729-760.  `hdr` says whether
there is one. -/
def mk (g : St) (sig : List Nat) (nm : Option Nat) (hdr : Bool) (at' : Sid) (new : Nid) :
    Option (St × Out) :=
  let g1 := newMod g sig nm at'
  let g2 : Option St :=
    match nm with
    | none => some g1
    | some _ => (nameStructure g1 at' nm new).map (·.1)
  g2.map fun g2 =>
    match hdr, g2.mods at' with
    | true, some m => (g2.setMod at' { m with imports := .name g.metaName :: m.imports }, .sid at')
    | _, _ => (g2, .sid at')

/-- `make-structure` behind the call of the first thunk, structures.c:762: there is no
`cache_flush`. -/
def endHeader (g : St) (s : Sid) : St × Out :=
  match g.mods s with
  | none => (g, .bad)
  | some m => (g.setMod s { m with imports := delq (.name g.metaName) m.imports }, .done)

/-- `set-interface`, structures.c:1033-1045: the loop over the nodes. -/
def setFlags (sig : List Nat) : List Nid → (Nid → Option Node) → Nid → Option Node
  | [], nodes => nodes
  | n :: l, nodes =>
    setFlags sig l fun x =>
      if x = n then (nodes n).map fun r => { r with exported := sig.contains r.sym } else nodes x

/-- What is left of the interface. The code tests membership in the list from which earlier
symbols have been deleted; since a structure has one node for each symbol, that is the same as
membership in `sig`. -/
def restSig (g : St) (sig : List Nat) : List Nid → List Nat
  | [] => sig
  | n :: l => delq ((symOf g n).getD 0) (restSig g sig l)

/-- `set-interface`, structures.c:1016-1048 -/
def setInterface (g : St) (s : Sid) (sig : List Nat) : St × Out :=
  match g.mods s with
  | none => (g, .bad)
  | some m =>
    let m' : Mod := { m with
      exportAll := false
      inherited := restSig g sig m.buckets.flatten }
    (flush { g.setMod s m' with nodes := setFlags sig m.buckets.flatten g.nodes }, .done)

/-- The loop of `open-structures`, structures.c:1126-1146: the new list of imports, and whether
all structures were found. -/
def openAll (g : St) : List Imp → List Imp → List Imp × Bool
  | [], acc => (acc, true)
  | i :: l, acc =>
    if acc.contains i then openAll g l acc
    else
      match resolve g i with
      | none => (acc, false)
      | some _ => openAll g l (i :: acc)

/-- `open-structures`, structures.c:1115-1153, with the current structure as an argument. -/
def openStructures (g : St) (s : Sid) (l : List Imp) : St × Out :=
  match g.mods s with
  | none => (g, .bad)
  | some m =>
    let r := openAll g l m.imports
    (flush (g.setMod s { m with imports := r.1 }), if r.2 then .done else .bad)

/-- The loop of `access-structures`, structures.c:1166-1182 -/
def accessAll (g : St) : List Nat → List Nat → List Nat × Bool
  | [], acc => (acc, true)
  | x :: l, acc =>
    if acc.contains x then accessAll g l acc
    else
      match resolve g (.name x) with
      | none => (acc, false)
      | some _ => accessAll g l (x :: acc)

/-- `access-structures`, structures.c:1155-1189 -/
def accessStructures (g : St) (s : Sid) (l : List Nat) : St × Out :=
  match g.mods s with
  | none => (g, .bad)
  | some m =>
    let r := accessAll g l m.accessible
    (flush (g.setMod s { m with accessible := r.1 }), if r.2 then .done else .bad)

/-- `Fexport_binding`, structures.c:1354-1381 -/
def exportBinding (g : St) (s : Sid) (v : Nat) : St × Out :=
  match g.mods s with
  | none => (g, .bad)
  | some m =>
    match lookupM g m v with
    | some n =>
      match g.nodes n with
      | none => (g, .done)
      | some r =>
        if r.exported then (g, .done)
        else (invalSym v (g.setNode n (some { r with exported := true })), .done)
    | none =>
      if m.exportsInherited v then (g, .done)
      else (invalSym v (g.setMod s { m with inherited := v :: m.inherited }), .done)

/-- `structure-exports-all`, structures.c:1547-1558.  The test `if (status)` is true for every
Lisp value, also for nil. -/
def exportsAll (g : St) (s : Sid) (_status : Val) : St × Out :=
  match g.mods s with
  | none => (g, .bad)
  | some m => (g.setMod s { m with exportAll := true }, .sid s)

/-- `structure-set-binds`, structures.c:1561-1571; the same. -/
def setBindsOp (g : St) (s : Sid) (_status : Val) : St × Out :=
  match g.mods s with
  | none => (g, .bad)
  | some m => (g.setMod s { m with setBinds := true }, .sid s)

/-- `make-binding-immutable`, structures.c:1306-1325 -/
def makeImmutable (g : St) (s : Sid) (v : Nat) : St × Out :=
  match lookup g s v with
  | none => (g, .voidError)
  | some n =>
    match g.nodes n with
    | none => (g, .bad)
    | some r => (g.setNode n (some { r with const := true }), .done)

/-- `binding-immutable-p`, structures.c:1327-1348 -/
def immutableP (g : St) (s : Sid) (v : Nat) : St × Out :=
  match g.mods s with
  | none => (g, .bad)
  | some _ =>
    ((find g s v).2,
      match (find g s v).1.bind g.nodes with
      | none => .no
      | some x => if x.const then .yes else .no)

/-- `%structure-ref`, structures.c:763-789 -/
def ref (g : St) (s : Sid) (v : Nat) : St × Out :=
  match g.mods s with
  | none => (g, .bad)
  | some _ => ((find g s v).2, .val (nodeVal g (find g s v).1))

/-- `structure-bound-p`, structures.c:791-804 -/
def boundP (g : St) (s : Sid) (v : Nat) : St × Out :=
  match g.mods s with
  | none => (g, .bad)
  | some _ => ((find g s v).2, if nodeVal g (find g s v).1 = .void then .no else .yes)

/-- `external-structure-ref`, structures.c:899-933 -/
def externalRef (g : St) (cur : Sid) (x v : Nat) : St × Out :=
  match g.mods cur with
  | none => (g, .bad)
  | some m =>
    if m.accessible.contains x || m.imports.contains (.name x) then
      let r := lookupRec g v (g.top + 1) [] (.name x) g.cache
      ({ g with cache := r.2 },
        if nodeVal g r.1 = .void then .voidError else .val (nodeVal g r.1))
    else (g, .voidError)

/-- `structure-exports-p`, structures.c:969-987 -/
def exportsP (g : St) (s : Sid) (v : Nat) : Out :=
  match g.mods s with
  | none => .bad
  | some m =>
    match lookupM g m v with
    | some n => if exportedN g n then .loc else .no
    | none => if m.exportsInherited v then .ext else .no

/-- `rep_add_subr`, structures.c:1533-1545 -/
def addSubr (g : St) (s : Sid) (v : Nat) (x : Val) (export' : Bool) (new : Nid) : St × Out :=
  match g.mods s with
  | none => (g, .bad)
  | some m =>
    let r := lookupOrAdd g s m v new
    match r.2.nodes r.1 with
    | none => (r.2, .bad)
    | some y => (r.2.setNode r.1 (some { y with val := x, exported := export' }), .done)

/-- Free the nodes of a structure, structures.c:421-430 -/
def freeNodes (l : List Nid) (g : St) : St :=
  { g with nodes := fun x => if x ∈ l then none else g.nodes x }

/-- `free_structure`, structures.c:417-434 -/
def freeMod (g : St) (s : Sid) : St :=
  match g.mods s with
  | none => g
  | some m =>
    { freeNodes m.buckets.flatten (invalStruct s g) with
      mods := fun x => if x = s then none else g.mods x }

/-- `structure_sweep`, structures.c:436-453: free the structures in the list (the ones that are
not marked). -/
def sweep (g : St) : List Sid → St
  | [] => g
  | s :: l => sweep (freeMod g s) l

inductive Op
  | mk (sig : List Nat) (nm : Option Nat) (hdr : Bool) (at' : Sid) (new : Nid)
  | endHeader (s : Sid)
  | nameIt (s : Sid) (nm : Option Nat) (new : Nid)
  | ref (s : Sid) (v : Nat)
  | boundP (s : Sid) (v : Nat)
  | define (s : Sid) (v : Nat) (x : Val) (new : Nid)
  | set (s : Sid) (v : Nat) (x : Val) (new : Nid)
  | setInterface (s : Sid) (sig : List Nat)
  | openS (s : Sid) (l : List Imp)
  | access (s : Sid) (l : List Nat)
  | exportB (s : Sid) (v : Nat)
  | exportsAll (s : Sid) (status : Val)
  | setBinds (s : Sid) (status : Val)
  | makeImmutable (s : Sid) (v : Nat)
  | immutableP (s : Sid) (v : Nat)
  | external (cur : Sid) (x v : Nat)
  | exportsP (s : Sid) (v : Nat)
  | addSubr (s : Sid) (v : Nat) (x : Val) (export' : Bool) (new : Nid)
  | sweep (l : List Sid)

/-- One call; `none` means that the code reads freed memory. -/
def step (g : St) : Op → Option (St × Out)
  | .mk sig nm hdr a n => mk g sig nm hdr a n
  | .endHeader s => some (endHeader g s)
  | .nameIt s nm n => nameStructure g s nm n
  | .ref s v => some (ref g s v)
  | .boundP s v => some (boundP g s v)
  | .define s v x n => define g s v x n
  | .set s v x n => setVar g s v x n
  | .setInterface s sig => some (setInterface g s sig)
  | .openS s l => some (openStructures g s l)
  | .access s l => some (accessStructures g s l)
  | .exportB s v => some (exportBinding g s v)
  | .exportsAll s x => some (exportsAll g s x)
  | .setBinds s x => some (setBindsOp g s x)
  | .makeImmutable s v => some (makeImmutable g s v)
  | .immutableP s v => some (immutableP g s v)
  | .external c x v => some (externalRef g c x v)
  | .exportsP s v => some (g, exportsP g s v)
  | .addSubr s v x e n => some (addSubr g s v x e n)
  | .sweep l => some (sweep g l, .done)

/-- The state with only the structure of names (address 0), `rep_pre_structures_init`,
structures.c:1654-1664.  `%meta` is the symbol `mn`. -/
def init (mn : Nat) : St :=
  { mods := fun x => if x = 0 then some ⟨none, [], [], [], [], 0, false, false⟩ else none
    nodes := fun _ => none
    cache := ⟨emptySets, 0⟩
    top := 1
    names := 0
    metaName := mn }

end Rep.Mods
