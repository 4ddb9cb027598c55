/-
Property lists of symbols: `get`, `put`, `symbol-plist` and `setplist`
(src/symbols.c:1018-1265), over a heap of cons cells.
-/

namespace Rep.Plist

/-- Lisp values.  `nil` is a symbol; `other` stands for everything that is no symbol and
no cons cell. -/
inductive Val
  | sym (n : Nat)
  | cell (a : Nat)
  | other (n : Nat)
  deriving DecidableEq

def Val.nil : Val := .sym 0

def Val.isSym : Val → Bool
  | .sym _ => true
  | _ => false

/-- Cons cells; `writable`: `rep_CONS_WRITABLE_P`. -/
structure Heap where
  car : Nat → Val
  cdr : Nat → Val
  writable : Nat → Bool
  next : Nat

/-- The heap and the bindings in `plist_structure` (`none`: void). -/
structure St where
  heap : Heap
  plist : Nat → Option Val

/-- The parameters: `equal` is `rep_value_cmp (a, b) == 0` (simplification: it does not
depend on the heap, so that properties are not lists that are changed meanwhile);
`visible s`: `search_special_environment (s) != 0`. -/
structure Env where
  equal : Val → Val → Bool
  visible : Nat → Bool

/-- The test of a property (symbols.c:1209-1211 and 1241-1243). -/
def hit (e : Env) (key prop : Val) : Bool :=
  key == prop || (!prop.isSym && e.equal key prop)

/-- The loop of `Fget` (symbols.c:1207-1216); `none`: it has not ended yet. -/
def getLoop (e : Env) (h : Heap) (prop : Val) : Nat → Val → Option Val
  | 0, _ => none
  | n + 1, .cell a => match h.cdr a with
    | .cell b => if hit e (h.car a) prop then some (h.car b) else getLoop e h prop n (h.cdr b)
    | _ => some .nil
  | _ + 1, _ => some .nil

/-- `Fget` (symbols.c:1194-1218). -/
def get (e : Env) (n : Nat) (st : St) (s : Nat) (prop : Val) : Option Val :=
  match st.plist s with
  | none => some .nil
  | some p => getLoop e st.heap prop n p

/-- The loop of `Fput` (symbols.c:1239-1256): the cell of the value. -/
def findLoop (e : Env) (h : Heap) (prop : Val) : Nat → Val → Option (Option Nat)
  | 0, _ => none
  | n + 1, .cell a => match h.cdr a with
    | .cell b => if hit e (h.car a) prop then some (some b) else findLoop e h prop n (h.cdr b)
    | _ => some none
  | _ + 1, _ => some none

/-- `Fcons`. -/
def cons (h : Heap) (a b : Val) : Val × Heap :=
  (.cell h.next,
    { car := fun c => if c = h.next then a else h.car c,
      cdr := fun c => if c = h.next then b else h.cdr c,
      writable := fun c => if c = h.next then true else h.writable c,
      next := h.next + 1 })

/-- `Fstructure_define (plist_structure, sym, ...)`. -/
def define (st : St) (s : Nat) (v : Val) : St :=
  { st with plist := fun t => if t = s then some v else st.plist t }

def setCar (h : Heap) (c : Nat) (v : Val) : Heap :=
  { h with car := fun d => if d = c then v else h.car d }

/-- `Fput` (symbols.c:1220-1259).  The inner `none` is an error. -/
def put (e : Env) (n : Nat) (st : St) (s : Nat) (prop val : Val) : Option (Option St) :=
  if !e.visible s then some none
  else
    let old := (st.plist s).getD .nil
    let push :=
      let (x, h) := cons st.heap val old
      let (y, h) := cons h prop x
      define { st with heap := h } s y
    match findLoop e st.heap prop n old with
    | none => none
    | some none => some (some push)
    | some (some b) =>
      if st.heap.writable b then some (some { st with heap := setCar st.heap b val })
      else some (some push)

/-- `Fsetplist` (symbols.c:1018-1034). -/
def setplist (e : Env) (st : St) (s : Nat) (v : Val) : Option St :=
  if !e.visible s then none else some (define st s v)

/-- `Fsymbol_plist` (symbols.c:1079-1097). -/
def symbolPlist (e : Env) (st : St) (s : Nat) : Option Val :=
  if !e.visible s then none else some ((st.plist s).getD .nil)

end Rep.Plist
