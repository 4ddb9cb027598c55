/-
The expansion of backquote: lisp/rep/lang/backquote.jl.
-/

namespace Rep.Backquote

/-- Symbols.  `unquote` and `splice` are `backquote-unquote` and `backquote-splice`, which the reader
makes of `,x` and `,@x` (lisp.c:877-889). -/
inductive Sym
  | quote
  | list
  | listStar
  | cons
  | append
  | backquote
  | unquote
  | splice
  | user (n : Nat)
  deriving DecidableEq

/-- Objects.  What is in a vector does not matter; `atom` stands for everything else that evaluates to
itself.  The empty list is not a symbol (datums.c:167). -/
inductive Sx
  | nil
  | sym (s : Sym)
  | atom (n : Nat)
  | vec (n : Nat)
  | cons (a d : Sx)
  deriving DecidableEq

/-- `car`, lispcmds.c:121-132 -/
def Sx.car : Sx → Sx
  | .cons a _ => a
  | _ => .nil

/-- `cdr`, lispcmds.c:133-145 -/
def Sx.cdr : Sx → Sx
  | .cons _ d => d
  | _ => .nil

/-- A list of objects. -/
def Sx.ofList : List Sx → Sx
  | [] => .nil
  | x :: l => .cons x (ofList l)

/-- `(list 'quote x)` -/
def quoted (x : Sx) : Sx := .cons (.sym .quote) (.cons x .nil)

/-- `(cons f args)` -/
def callTo (f : Sym) (args : List Sx) : Sx := .cons (.sym f) (.ofList args)

/-- The tags 0, 1 and 2, backquote.jl:65-68. -/
inductive Tag
  | const
  | one
  | splice
  deriving DecidableEq

abbrev Item := Tag × Sx

/-- `backquote-eval`, backquote.jl:154-158 -/
def unwrap (f : Sx) : Sx := if f.car = .sym .quote then f.cdr.car else f

/-- The loop of `backquote-listify`, backquote.jl:163-169; `old` is true while `old-tail` is not nil. -/
def listifyLoop (old : Bool) : List Item → List Sx → Sx → List Sx × Sx
  | [], heads, tail => (heads, tail)
  | i :: l, heads, tail =>
    if heads ≠ [] ∨ old ∨ i.1 ≠ .const then listifyLoop old l (i.2 :: heads) tail
    else listifyLoop old l heads (.cons (unwrap i.2) tail)

/-- The end of `backquote-listify`, backquote.jl:170-184 -/
def listifyEnd (old : Bool) (heads : List Sx) (tail : Sx) : Sx :=
  if tail = .nil then callTo .list heads
  else
    let tail' := if old then tail else quoted tail
    match heads with
    | [] => tail'
    | h :: hs => callTo (if hs ≠ [] ∨ h.car = .sym .splice then .listStar else .cons) ((h :: hs) ++ [tail'])

/-- `backquote-listify`, backquote.jl:160-184 -/
def listify (lst : List Item) (oldTail : Item) : Sx :=
  let old : Bool := decide (oldTail.1 ≠ .const)
  let tail := if old then oldTail.2 else unwrap oldTail.2
  let r := listifyLoop old lst [] tail
  listifyEnd old r.1 r.2

/-- The variables `firstlist`, `lst` and `lists`. -/
structure Scan where
  first : List Item := []
  lst : List Item := []
  lists : List Sx := []

/-- The body of the loop, backquote.jl:113-125 -/
def push (st : Scan) (i : Item) : Scan :=
  if i.1 = .splice then
    let st := if st.lists = [] then { st with first := st.lst, lst := [] } else st
    let lists := if st.lst ≠ [] then listify st.lst (.const, .nil) :: st.lists else st.lists
    { st with lists := i.2 :: lists, lst := [] }
  else { st with lst := i :: st.lst }

/-- backquote.jl:129-131 -/
def close (st : Scan) (rest : Sx) (r : Item) : Scan :=
  if rest ≠ .nil ∨ st.lst ≠ [] then { st with lists := listify st.lst r :: st.lists } else st

/-- backquote.jl:133-143 -/
def finish (s : Sx) (st : Scan) : Item :=
  let e :=
    match st.lists with
    | [] => .nil
    | [x] => if x.car = .sym .splice then callTo .append [x] else x
    | x :: y :: l => callTo .append (x :: y :: l).reverse
  let e := if st.first ≠ [] then listify st.first (.one, e) else e
  if e.car = .sym .quote then (.const, quoted s) else (.one, e)

/-- How the expansion can fail: `append` signals a bad argument (a vector), or the bound on nested
backquotes is exceeded (which never happens: `process_fuel`). -/
inductive Err
  | arg
  | fuel
  deriving DecidableEq

mutual

/-- `backquote-process`, backquote.jl:70-143.  `again` is the second of the two calls for a nested
backquote.  A vector is given to `append`, which accepts only lists (lispcmds.c:216-221). -/
def process (again : Sx → Except Err Item) : Sx → Except Err Item
  | .nil => .ok (.const, .nil)
  | .atom n => .ok (.const, .atom n)
  | .sym s => .ok (.const, quoted (.sym s))
  | .vec _ => .error .arg
  | .cons a d =>
    if a = .sym .unquote then .ok (.one, d.car)
    else if a = .sym .splice then .ok (.splice, d.car)
    else if a = .sym .backquote then
      match d with
      | .cons b _ =>
        match process again b with
        | .ok r => again r.2
        | .error e => .error e
      | _ => again .nil
    else
      match process again a with
      | .error e => .error e
      | .ok i =>
        match scan again d (push {} i) with
        | .error e => .error e
        | .ok st => .ok (finish (.cons a d) st)

/-- The loop of `backquote-process` from the second element on, backquote.jl:107-131: a dotted
unquote counts as a splice at the end. -/
def scan (again : Sx → Except Err Item) : Sx → Scan → Except Err Scan
  | .cons a d, st =>
    if a = .sym .unquote then .ok (close (push st (.splice, d.car)) .nil (.const, .nil))
    else
      match process again a with
      | .error e => .error e
      | .ok i => scan again d (push st i)
  | .vec _, _ => .error .arg
  | .nil, st => .ok (close st .nil (.const, .nil))
  | .atom n, st => .ok (close st (.atom n) (.const, .atom n))
  | .sym s, st => .ok (close st (.sym s) (.const, quoted (.sym s)))

end

/-- `backquote-process` with at most `n` nested backquotes. -/
def processN : Nat → Sx → Except Err Item
  | 0 => process fun _ => .error .fuel
  | n + 1 => process (processN n)

/-- How often the symbol `backquote` occurs. -/
def nesting : Sx → Nat
  | .cons a d => nesting a + nesting d
  | .sym .backquote => 1
  | _ => 0

/-- The macro `backquote`, backquote.jl:48-63: the form a template expands to. -/
def expand (t : Sx) : Except Err Sx :=
  match processN (nesting t) t with
  | .ok i => .ok i.2
  | .error e => .error e

end Rep.Backquote
