import Mathlib.Data.List.Basic
/-!
# Checking words with ispell

Models lisp/rep/util/ispell.jl: `output-filter`, `ispell-read-line`, `mutex`, `ispell-word`, `ispell-test-word`.

Simplifications: the process has been started and stays alive. What arrives from it is a list of pieces of text, in which a timeout of the wait may occur.
Pieces that arrive while nobody reads are appended to the pending text, as are those that arrive later; so they are not distinguished.
-/
namespace Rep.Ispell

/-- What `accept-process-output-1` sees: a piece of output, or none for `*ispell-timeout*` seconds. -/
inductive Ev
  | piece (s : List Char)
  | timeout

/-- `pending-output`, what is to arrive, and `process-busy` (ispell.jl:59-67). -/
structure St where
  pending : List Char
  evs : List Ev
  busy : Bool := false

/-- ispell.jl:83-88: the first line with its newline, and the rest. The callback removes itself (:132), so that only one line is taken. -/
def firstLine : List Char → Option (List Char × List Char)
  | [] => none
  | c :: s => if c = '\n' then some ([c], s) else (firstLine s).map fun r => (c :: r.1, r.2)

/-- ispell.jl:127-137 `ispell-read-line`, with `output-filter` (:75-88). Nothing is the error after a timeout. -/
def readLine (p : List Char) : List Ev → Option (List Char) × List Char × List Ev
  | [] =>
    match firstLine p with
    | some (l, r) => (some l, r, [])
    | none => (none, p, [])
  | .timeout :: e =>
    match firstLine p with
    | some (l, r) => (some l, r, .timeout :: e)
    | none => (none, p, e)
  | .piece s :: e =>
    match firstLine p with
    | some (l, r) => (some l, r, .piece s :: e)
    | none => readLine (p ++ s) e

/-- The results of `ispell-word`. -/
inductive Res
  | line (s : List Char)
  | busy | timedOut | null | trailing
  deriving DecidableEq

/-- ispell.jl:164-172: the body, after the word was sent. -/
def answer (st : St) : Res × St :=
  match readLine st.pending st.evs with
  | (none, p, e) => (.timedOut, { st with pending := p, evs := e })
  | (some l, p, e) =>
    if l.head? = some '\n' then (.null, { st with pending := p, evs := e })
    else
      match readLine p e with
      | (none, p, e) => (.timedOut, { st with pending := p, evs := e })
      | (some t, p, e) => (if t.head? = some '\n' then .line l else .trailing, { st with pending := p, evs := e })

/-- ispell.jl:149-155, 159-174 `ispell-word`; the word itself matters only for what the process writes. -/
def word (st : St) : Res × St :=
  if st.busy then (.busy, st)
  else
    let r := answer { st with busy := true }
    (r.1, { r.2 with busy := false })

/-- Several words in turn. -/
def words : Nat → St → List Res × St
  | 0, st => ([], st)
  | n + 1, st =>
    let r := word st
    let q := words n r.2
    (r.1 :: q.1, q.2)

/-- ispell.jl:177-179 `ispell-test-word`; errors give nothing. -/
def testWord : Res → Option Bool
  | .line s => some (s.head?.any fun c => c = '*' || c = '+' || c = '-')
  | _ => none

end Rep.Ispell
