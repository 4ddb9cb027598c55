/-
Regular expressions: the compiler and the matcher of src/regexp.c, and the functions of src/find.c
that use them.

Bytes are numbers; patterns and texts end where the C string ends (at the first NUL).

Simplifications:
* `regcomp` parses and emits code at the same time.  Here `parse` gives a tree and `emit` makes the
  code from it: what is parsed does not depend on the code, and code emitted before an error is
  not used.  `emit` does the same emissions, insertions and link updates in the same order.  The
  first pass, which only adds up sizes, is `size`.
* a node (opcode, two bytes of offset, operand string) is one cell of the memory, stored at the
  address of its opcode.  Offsets are kept as the 16 bit numbers they are.
* `rep_regerror` signals a Lisp error and the C code goes on with the value 0; here the error is
  the result at once.
* character classes are those of the C locale.  rep.c:27 takes the locale from the environment; in
  UTF-8 locales too, bytes from 128 up are neither letters nor spaces.
* allocation succeeds.
-/

namespace Rep.Regex

/-! ### Characters -/

/-- `toupper` in the C locale. -/
def up (c : Nat) : Nat := if 97 ≤ c ∧ c ≤ 122 then c - 32 else c

/-- `*p == '_' || isalnum (UCHARAT (p))` -/
def isWord (c : Nat) : Bool :=
  (48 ≤ c && c ≤ 57) || (65 ≤ c && c ≤ 90) || (97 ≤ c && c ≤ 122) || c == 95

/-- `isspace` -/
def isSpace (c : Nat) : Bool := c == 32 || (9 ≤ c && c ≤ 13)

/-- `isdigit` -/
def isDigit (c : Nat) : Bool := 48 ≤ c && c ≤ 57

/-! ### Trees -/

/-- The atoms that become one node. -/
inductive One
  | bol
  | eol
  | wedge
  | nwedge
  | any
  | set (neg : Bool) (s : List Nat)
  | lit (s : List Nat)
  | word
  | nword
  | wspc
  | nwspc
  | digi
  | ndigi
  deriving DecidableEq, Repr

/-- `*`, `+`, `?` -/
inductive Mult
  | star
  | plus
  | opt
  deriving DecidableEq, Repr

/-- A pattern.  A branch is `seq p₁ (seq p₂ (… eps))`, alternatives are `alt b₁ (alt b₂ (… last b))`. -/
inductive Re
  | eps
  | one (o : One)
  | grp (n : Nat) (r : Re)
  | rep (m : Mult) (greedy : Bool) (r : Re)
  | seq (a b : Re)
  | alt (a b : Re)
  | last (a : Re)
  deriving DecidableEq, Repr

/-- The flag `HASWIDTH` of `regatom`. -/
def One.hasWidth : One → Bool
  | .bol | .eol | .wedge | .nwedge => false
  | _ => true

/-- The flag `SIMPLE` of `regatom`. -/
def One.simple : One → Bool
  | .bol | .eol | .wedge | .nwedge => false
  | .lit s => s.length == 1
  | _ => true

/-- The flag `HASWIDTH`, regexp.c:197-224, 259-275, 312-316, 388 -/
def Re.hasWidth : Re → Bool
  | .eps => false
  | .one o => o.hasWidth
  | .grp _ r => r.hasWidth
  | .rep m _ _ => m == .plus
  | .seq a b => a.hasWidth || b.hasWidth
  | .alt a b => a.hasWidth && b.hasWidth
  | .last a => a.hasWidth

def Re.simple : Re → Bool
  | .one o => o.simple
  | _ => false

/-- The flag `SPSTART`. -/
def Re.spstart : Re → Bool
  | .eps => false
  | .one _ => false
  | .grp _ r => r.spstart
  | .rep m _ _ => m != .plus
  | .seq a _ => a.spstart
  | .alt a b => a.spstart || b.spstart
  | .last a => a.spstart

/-! ### Parsing -/

inductive Err
  | tooMany
  | unmatchedParen
  | junk
  | emptyOperand
  | nested
  | follows
  | trailing
  | range
  | unmatchedSet
  | tooBig
  /-- "internal urp", "internal disaster" -/
  | internal
  /-- the recursion of this model went too deep; `parse_fuel` -/
  | fuel
  deriving DecidableEq, Repr

/-- `ISMULT`, regexp.c:50 -/
def mult? (c : Nat) : Option Mult :=
  if c = 42 then some .star else if c = 43 then some .plus else if c = 63 then some .opt else none

/-- A character of `META`, regexp.c:51: `^$.[()|?+*\` -/
def isMeta (c : Nat) : Bool :=
  c == 94 || c == 36 || c == 46 || c == 91 || c == 40 || c == 41 || c == 124 || c == 63 || c == 43 ||
    c == 42 || c == 92

/-- The loop over the characters of a set, regexp.c:423-440.  `prev` is the byte before the current
one, `acc` the operand so far in reverse. -/
def parseSet (prev : Nat) (acc : List Nat) : List Nat → Except Err (List Nat × List Nat)
  | [] => .error .unmatchedSet
  | c :: t =>
    if c = 93 then .ok (acc.reverse, t)
    else if c = 45 then
      match t with
      | [] => .error .unmatchedSet
      | d :: t' =>
        if d = 93 then .ok ((45 :: acc).reverse, t')
        else if prev + 1 > d + 1 then .error .range
        else parseSet d ((List.range' (prev + 1) (d - prev)).reverse ++ acc) t'
    else parseSet c (c :: acc) t

/-- The beginning of a set, regexp.c:414-422 -/
def parseSet0 (s : List Nat) : Except Err (One × List Nat) :=
  let neg := s.head? == some 94
  let s1 := if neg then s.tail else s
  let p0 := if neg then 94 else 91
  match s1 with
  | [] => .error .unmatchedSet
  | c :: t =>
    (if c = 93 ∨ c = 45 then parseSet c [c] t else parseSet p0 [] s1).map fun r => (.set neg r.1, r.2)

/-- `\` and a character, regexp.c:460-500 -/
def escape (c : Nat) : One :=
  if c = 119 then .word
  else if c = 87 then .nword
  else if c = 115 then .wspc
  else if c = 83 then .nwspc
  else if c = 100 then .digi
  else if c = 68 then .ndigi
  else if c = 98 then .wedge
  else if c = 66 then .nwedge
  else .lit [c]

/-- How many ordinary characters go into one node, regexp.c:505-511 -/
def litLen (s : List Nat) : Nat :=
  let len := (s.takeWhile fun c => !isMeta c).length
  if len > 1 ∧ ((s.drop len).head?.bind mult?).isSome then len - 1 else len

/-- An end of a branch, regexp.c:263 -/
def atEnd : List Nat → Bool
  | [] => true
  | c :: _ => c == 124 || c == 41

mutual
/-- The loop of `reg` over the branches, regexp.c:204-224.  `n` is `regnpar`. -/
def parseAlts : Nat → List Nat → Nat → Except Err (Re × List Nat × Nat)
  | 0, _, _ => .error .fuel
  | f + 1, s, n =>
    match parseBranch f s n with
    | .error e => .error e
    | .ok (b, s1, n1) =>
      match s1 with
      | [] => .ok (.last b, s1, n1)
      | c :: t =>
        if c = 124 then
          match parseAlts f t n1 with
          | .error e => .error e
          | .ok (r, s2, n2) => .ok (.alt b r, s2, n2)
        else .ok (.last b, s1, n1)

/-- `regbranch`, regexp.c:251-282 -/
def parseBranch : Nat → List Nat → Nat → Except Err (Re × List Nat × Nat)
  | 0, _, _ => .error .fuel
  | f + 1, s, n =>
    if atEnd s then .ok (.eps, s, n)
    else
      match parsePiece f s n with
      | .error e => .error e
      | .ok (p, s1, n1) =>
        match parseBranch f s1 n1 with
        | .error e => .error e
        | .ok (b, s2, n2) => .ok (.seq p b, s2, n2)

/-- `regpiece`, regexp.c:293-394 -/
def parsePiece : Nat → List Nat → Nat → Except Err (Re × List Nat × Nat)
  | 0, _, _ => .error .fuel
  | f + 1, s, n =>
    match parseAtom f s n with
    | .error e => .error e
    | .ok (a, s1, n1) =>
      match s1 with
      | [] => .ok (a, s1, n1)
      | c :: t =>
        match mult? c with
        | none => .ok (a, s1, n1)
        | some m =>
          if a.hasWidth = false ∧ m ≠ .opt then .error .emptyOperand
          else
            let greedy := t.head? != some 63
            let s2 := if greedy then t else t.tail
            if (s2.head?.bind mult?).isSome then .error .nested
            else .ok (.rep m greedy a, s2, n1)

/-- `regatom`, regexp.c:404-530 -/
def parseAtom : Nat → List Nat → Nat → Except Err (Re × List Nat × Nat)
  | 0, _, _ => .error .fuel
  | f + 1, s, n =>
    match s with
    | [] => .error .internal
    | c :: t =>
      if c = 94 then .ok (.one .bol, t, n)
      else if c = 36 then .ok (.one .eol, t, n)
      else if c = 46 then .ok (.one .any, t, n)
      else if c = 91 then
        match parseSet0 t with
        | .error e => .error e
        | .ok (o, t') => .ok (.one o, t', n)
      else if c = 40 then
        if n ≥ 10 then .error .tooMany
        else
          match parseAlts f t (n + 1) with
          | .error e => .error e
          | .ok (r, s1, n1) =>
            match s1 with
            | [] => .error .unmatchedParen
            | d :: t' => if d = 41 then .ok (.grp n r, t', n1) else .error .unmatchedParen
      else if c = 124 ∨ c = 41 then .error .internal
      else if c = 63 ∨ c = 43 ∨ c = 42 then .error .follows
      else if c = 92 then
        match t with
        | [] => .error .trailing
        | d :: t' => .ok (.one (escape d), t', n)
      else
        .ok (.one (.lit (s.take (litLen s))), s.drop (litLen s), n)
end

/-- `reg (0, …)`, regexp.c:186-243 -/
def parse (s : List Nat) : Except Err Re :=
  match parseAlts (4 * s.length + 4) s 1 with
  | .error e => .error e
  | .ok (r, s1, _) =>
    match s1 with
    | [] => .ok r
    | c :: _ => if c = 41 then .error .unmatchedParen else .error .junk

/-! ### Code -/

/-- The opcodes, rep_regexp.h:90-120.  `BRANCH`, `BACK`, … -/
inductive Opc
  | fin
  | one (o : One)
  | branch
  | back
  | nothing
  | star
  | plus
  | opn (n : Nat)
  | close (n : Nat)
  | ngstar
  | ngplus
  deriving DecidableEq, Repr

/-- The operand is part of the opcode of `ANYOF`, `ANYBUT` and `EXACTLY` here. -/
structure Node where
  op : Opc
  /-- the two bytes of the offset -/
  off : Nat
  deriving DecidableEq, Repr

/-- The program under construction: the nodes and `regcode`. -/
structure Em where
  mem : Nat → Option Node
  code : Nat

/-- The bytes of an operand: the string and its NUL. -/
def Opc.operand : Opc → Nat
  | .one (.set _ s) => s.length + 1
  | .one (.lit s) => s.length + 1
  | _ => 0

/-- `regnode`, regexp.c:535-553, with the `regc` calls for an operand, 555-565 -/
def regnode (op : Opc) (e : Em) : Em :=
  { mem := fun a => if a = e.code then some ⟨op, 0⟩ else e.mem a
    code := e.code + 3 + op.operand }

/-- `reginsert`, regexp.c:572-596 -/
def reginsert (op : Opc) (p : Nat) (e : Em) : Em :=
  { mem := fun a => if a < p then e.mem a else if a = p then some ⟨op, 0⟩ else if a < p + 3 then none else e.mem (a - 3)
    code := e.code + 3 }

/-- `regnext`, regexp.c:1165-1182, of a node -/
def Node.next (p : Nat) (nd : Node) : Option Nat :=
  if nd.off = 0 then none else if nd.op = .back then some (p - nd.off) else some (p + nd.off)

/-- The loop of `regtail` that looks for the last node, regexp.c:611-617.  `none`: it reads memory
that is not a node. -/
def lastOf (mem : Nat → Option Node) : Nat → Nat → Option Nat
  | 0, _ => none
  | f + 1, p =>
    match mem p with
    | none => none
    | some nd =>
      match nd.next p with
      | none => some p
      | some q => lastOf mem f q

/-- The offset from node `p` to `v`, regexp.c:619-624: for `BACK` the other way round; 16 bits. -/
def offset (op : Opc) (p v : Nat) : Nat :=
  if op = .back then (p + 65536 - v) % 65536 else (v + 65536 - p) % 65536

/-- `regtail`, regexp.c:598-625.  The number of steps is bounded by the size of the program. -/
def regtail (p v : Nat) (e : Em) : Option Em :=
  match lastOf e.mem (e.code + 1) p with
  | none => none
  | some l =>
    match e.mem l with
    | none => none
    | some nd =>
      some { e with mem := fun a => if a = l then some { nd with off := offset nd.op l v } else e.mem a }

/-- `regoptail`, regexp.c:627-637 -/
def regoptail (p v : Nat) (e : Em) : Option Em :=
  match e.mem p with
  | none => none
  | some nd => if nd.op = .branch then regtail (p + 3) v e else some e

/-- The loop `for (br = ret; br != NULL; br = regnext(br)) regoptail(br, ender)`, regexp.c:231-232 -/
def optails (v : Nat) : Nat → Nat → Em → Option Em
  | 0, _, _ => none
  | f + 1, p, e =>
    match regoptail p v e with
    | none => none
    | some e1 =>
      match e1.mem p with
      | none => none
      | some nd =>
        match nd.next p with
        | none => some e1
        | some q => optails v f q e1

/-- The end of `reg`, regexp.c:226-232 -/
def close (op : Opc) (ret : Nat) (e : Em) : Option Em :=
  (regtail ret e.code (regnode op e)).bind fun e1 => optails e.code (e1.code + 1) ret e1

/-- The code for `*`, `+` and `?`, regexp.c:320-383, behind the operand at `ret`. -/
def emitRep (m : Mult) (greedy simple : Bool) (ret : Nat) (e : Em) : Option Em :=
  match m, greedy, simple with
  | .star, true, true => some (reginsert .star ret e)
  | .star, false, true => some (reginsert .ngstar ret e)
  | .plus, true, true => some (reginsert .plus ret e)
  | .plus, false, true => some (reginsert .ngplus ret e)
  | .star, true, false =>
    let e1 := reginsert .branch ret e
    let back := e1.code
    (regoptail ret back (regnode .back e1)).bind fun e2 =>
    (regoptail ret ret e2).bind fun e3 =>
    let br := e3.code
    (regtail ret br (regnode .branch e3)).bind fun e4 =>
    let no := e4.code
    regtail ret no (regnode .nothing e4)
  | .star, false, false =>
    let e1 := reginsert .branch ret (reginsert .nothing ret (reginsert .branch ret e))
    let back := e1.code
    (regtail (ret + 9) back (regnode .back e1)).bind fun e2 =>
    (regtail (ret + 9) ret e2).bind fun e3 =>
    (regtail ret (ret + 6) e3).bind fun e4 =>
    regtail (ret + 3) e4.code e4
  | .plus, true, false =>
    let next := e.code
    (regtail ret next (regnode .branch e)).bind fun e1 =>
    let back := e1.code
    (regtail back ret (regnode .back e1)).bind fun e2 =>
    let br := e2.code
    (regtail next br (regnode .branch e2)).bind fun e3 =>
    let no := e3.code
    regtail ret no (regnode .nothing e3)
  | .plus, false, false =>
    let next := e.code
    (regtail ret next (regnode .branch e)).bind fun e1 =>
    let null := e1.code
    let e2 := regnode .nothing e1
    let b2 := e2.code
    let e3 := regnode .branch e2
    let back := e3.code
    (regtail back ret (regnode .back e3)).bind fun e4 =>
    (regtail next b2 e4).bind fun e5 =>
    regtail null e5.code e5
  | .opt, true, _ =>
    let e1 := reginsert .branch ret e
    let br := e1.code
    (regtail ret br (regnode .branch e1)).bind fun e2 =>
    let next := e2.code
    (regtail ret next (regnode .nothing e2)).bind fun e3 =>
    regoptail ret next e3
  | .opt, false, _ =>
    let e1 := reginsert .branch ret (reginsert .nothing ret (reginsert .branch ret e))
    (regoptail ret e1.code e1).bind fun e2 =>
    (regtail ret (ret + 6) e2).bind fun e3 =>
    regtail ret e3.code e3

mutual
/-- The emissions of `regpiece` and `regatom`: the address of the piece and the program. -/
def emitPiece : Re → Em → Option (Nat × Em)
  | .one o, e => some (e.code, regnode (.one o) e)
  | .grp n r, e =>
    (emitAlts (some e.code) r (regnode (.opn n) e)).bind fun x => (close (.close n) e.code x.2).map fun e2 => (e.code, e2)
  | .rep m g r, e =>
    (emitPiece r e).bind fun x => (emitRep m g r.simple x.1 x.2).map fun e2 => (x.1, e2)
  | _, _ => none

/-- The emissions of `regbranch` behind the `BRANCH` node, regexp.c:262-279; `chain` is the
address of the previous piece. -/
def emitSeq : Option Nat → Re → Em → Option Em
  | none, .eps, e => some (regnode .nothing e)
  | some _, .eps, e => some e
  | chain, .seq a b, e =>
    (emitPiece a e).bind fun x =>
    (match chain with
      | none => some x.2
      | some c => regtail c x.1 x.2).bind fun e2 => emitSeq (some x.1) b e2
  | _, _, _ => none

/-- The loop of `reg`, regexp.c:204-224; `ret` is `none` until the first branch of the whole
pattern. -/
def emitAlts : Option Nat → Re → Em → Option (Nat × Em)
  | ret, .last b, e =>
    (emitSeq none b (regnode .branch e)).bind fun e1 =>
    match ret with
    | none => some (e.code, e1)
    | some r => (regtail r e.code e1).map fun e2 => (r, e2)
  | ret, .alt b rest, e =>
    (emitSeq none b (regnode .branch e)).bind fun e1 =>
    match ret with
    | none => emitAlts (some e.code) rest e1
    | some r => (regtail r e.code e1).bind fun e2 => emitAlts (some r) rest e2
  | _, _, _ => none
end

/-- What the first pass adds to `regsize`. -/
def sizeRep (m : Mult) (greedy simple : Bool) : Nat :=
  match m, greedy, simple with
  | .star, _, true => 3
  | .plus, _, true => 3
  | .star, _, false => 12
  | .plus, _, false => 12
  | .opt, _, _ => 9

/-- What the first pass adds to `regsize`; `first` says that no piece of the branch was met. -/
def size : Bool → Re → Nat
  | first, .eps => if first then 3 else 0
  | _, .one o => 3 + (Opc.one o).operand
  | _, .grp _ r => 6 + size false r
  | _, .rep m g r => size false r + sizeRep m g r.simple
  | _, .seq a b => size false a + size false b
  | _, .alt a b => 3 + size true a + size false b
  | _, .last a => 3 + size true a

/-- A compiled pattern, rep_regexp.h:41-52. -/
structure Prog where
  mem : Nat → Option Node
  /-- `regstart`, 0 for none -/
  start : Nat
  anch : Bool
  must : Option (List Nat)

/-- The longest literal string of a chain of nodes, regexp.c:165-171 -/
def longest (mem : Nat → Option Node) : Nat → Nat → Option (List Nat) → Option (Option (List Nat))
  | 0, _, _ => none
  | f + 1, p, best =>
    match mem p with
    | none => none
    | some nd =>
      let best' :=
        match nd.op with
        | .one (.lit s) => if (best.map List.length).getD 0 ≤ s.length then some s else best
        | _ => best
      match nd.next p with
      | none => some best'
      | some q => longest mem f q best'

/-- What is recorded for the search, regexp.c:140-176 -/
def analyse (r : Re) (e : Em) : Option Prog :=
  match e.mem 1 with
  | none => none
  | some nd =>
    match nd.next 1 with
    | none => none
    | some q =>
      match e.mem q with
      | none => none
      | some nq =>
        if nq.op = .fin then
          match e.mem 4 with
          | none => none
          | some n4 =>
            let start := match n4.op with
              | .one (.lit s) => s.headD 0
              | _ => 0
            let anch := n4.op == .one .bol
            if r.spstart then
              (longest e.mem (e.code + 1) 4 none).map fun must => ⟨e.mem, start, anch, must⟩
            else some ⟨e.mem, start, anch, none⟩
        else some ⟨e.mem, 0, false, none⟩

/-- The second pass: the node `END` closes the alternatives. -/
def emit (r : Re) : Option Em :=
  (emitAlts none r ⟨fun _ => none, 1⟩).bind fun x => close .fin x.1 x.2

/-- `rep_regcomp`, regexp.c:104-183.  `none`: memory that is not the program's is read or
written. -/
def compile (s : List Nat) : Option (Except Err Prog) :=
  match parse s with
  | .error e => some (.error e)
  | .ok r =>
    if 1 + size false r + 3 ≥ 32767 then some (.error .tooBig)
    else ((emit r).bind (analyse r)).map .ok

/-! ### Matching -/

/-- The text from the start of the search to its NUL, the byte before it, the flags. -/
structure Ctx where
  text : List Nat
  prev : Nat
  /-- not `rep_REG_NOTBOL` -/
  bol : Bool
  nocase : Bool
  /-- `rep_regexp_max_depth` -/
  depth : Nat

/-- Positions of the subexpressions, `regstartp` and `regendp`. -/
structure Caps where
  st : Nat → Option Nat
  en : Nat → Option Nat

def Caps.empty : Caps := ⟨fun _ => none, fun _ => none⟩

def Caps.open (n pos : Nat) (c : Caps) : Caps :=
  if c.st n = none then { c with st := fun k => if k = n then some pos else c.st k } else c

def Caps.close (n pos : Nat) (c : Caps) : Caps :=
  if c.en n = none then { c with en := fun k => if k = n then some pos else c.en k } else c

inductive Res
  | fail
  | ok (pos : Nat) (c : Caps)
  /-- "stack overflow" -/
  | overflow
  /-- "corrupted pointers", "memory corruption", "internal foulup" -/
  | corrupt
  /-- reads outside the program or the text -/
  | wild
  /-- the step bound of this model -/
  | fuel

/-- `*reginput`: NUL at the end; beyond it is outside. -/
def Ctx.rd (x : Ctx) (pos : Nat) : Option Nat :=
  if pos < x.text.length then some (x.text.getD pos 0) else if pos = x.text.length then some 0 else none

/-- `reginput[-1]` -/
def Ctx.before (x : Ctx) (pos : Nat) : Nat := if pos = 0 then x.prev else x.text.getD (pos - 1) 0

/-- Comparison of characters in `EXACTLY`. -/
def Ctx.same (x : Ctx) (a b : Nat) : Bool := if x.nocase then up a == up b else a == b

/-- `strncmp` or `strncasecmp`, regexp.c:922-945: where the string ends in the text. -/
def Ctx.litAt (x : Ctx) : List Nat → Nat → Option (Option Nat)
  | [], pos => some (some pos)
  | c :: cs, pos =>
    match x.rd pos with
    | none => none
    | some b => if x.same c b then x.litAt cs (pos + 1) else some none

/-- The condition of `WEDGE`, regexp.c:1127-1132 -/
def Ctx.edge (x : Ctx) (pos b : Nat) : Bool :=
  (x.bol && pos == 0) || b == 0 || (isWord (x.before pos) && !isWord b) || (!isWord (x.before pos) && isWord b)

/-- The nodes that look at one place, regexp.c:904-1140: `none` reads outside, `some none` fails,
otherwise the new `reginput`.  `b` is `*reginput`. -/
def Ctx.stepAt (x : Ctx) (o : One) (pos b : Nat) : Option (Option Nat) :=
  let adv (ok : Bool) : Option (Option Nat) := some (if ok then some (pos + 1) else none)
  let stay (ok : Bool) : Option (Option Nat) := some (if ok then some pos else none)
  match o with
  | .bol => stay (x.bol && pos == 0)
  | .eol => stay (b == 0)
  | .any => adv (b != 0)
  | .lit s => x.litAt s pos
  | .set neg s => adv (b != 0 && (s.contains b != neg))
  | .word => adv (isWord b)
  | .nword => adv (!isWord b)
  | .wspc => adv (isSpace b)
  | .nwspc => adv (!isSpace b)
  | .digi => adv (isDigit b)
  | .ndigi => adv (!isDigit b)
  | .wedge => stay (x.edge pos b)
  | .nwedge => stay (!x.edge pos b)

/-- The same with the read; `BOL` reads nothing. -/
def Ctx.step (x : Ctx) (o : One) (pos : Nat) : Option (Option Nat) :=
  if o = .bol then x.stepAt o pos 0
  else
    match x.rd pos with
    | none => none
    | some b => x.stepAt o pos b

/-- The characters `regrepeat` counts, regexp.c:1078-1155; `none`: "internal foulup". -/
def Ctx.repeats (x : Ctx) (o : One) : Option (Nat → Bool) :=
  match o with
  | .any => some fun _ => true
  | .lit s => some fun b => x.same (s.headD 0) b
  | .set neg s => some fun b => s.contains b != neg
  | .word => some fun b => isWord b
  | .nword => some fun b => !isWord b
  | .wspc => some fun b => isSpace b
  | .nwspc => some fun b => !isSpace b
  | .digi => some fun b => isDigit b
  | .ndigi => some fun b => !isDigit b
  | _ => none

/-- `regrepeat`: how many characters from `pos` on; `none` reads outside. -/
def Ctx.count (x : Ctx) (f : Nat → Bool) (pos : Nat) : Option Nat :=
  if pos ≤ x.text.length then some ((x.text.drop pos).takeWhile f).length else none

/-- The look-ahead character, regexp.c:1022-1026; 0 is none.  (`nextch` is a `char`.) -/
def lookahead (op : Opc) : Nat :=
  match op with
  | .one (.lit s) => s.headD 0
  | _ => 0

/-- `nextch == '\0' || … == nextch`, regexp.c:1033-1035.  With `regnocase` a `toupper` of an
unsigned character is compared with the `char` `nextch`: they differ if it is 128 or more. -/
def Ctx.could (x : Ctx) (ch b : Nat) : Bool :=
  ch == 0 || (if x.nocase then up b == up ch && decide (up ch < 128) else b == ch)

/-- Try positions in turn. -/
def firstTry (g : Nat → Res) : List Nat → Res
  | [] => .fail
  | p :: l =>
    match g p with
    | .fail => firstTry g l
    | r => r

/-- The places the loops of `STAR`/`PLUS` (regexp.c:1030-1041) and `NGSTAR`/`NGPLUS` (1063-1073)
try the rest of the pattern at. -/
def places (greedy : Bool) (min pos n : Nat) : List Nat :=
  let l := (List.range' min (n + 1 - min)).map (pos + ·)
  if greedy then l.reverse else l

mutual
/-- `regmatch`, regexp.c:861-1153.  The first number bounds the steps, `d` is `regnest`. -/
def run (x : Ctx) (mem : Nat → Option Node) : Nat → Nat → Nat → Nat → Res
  | 0, _, _, _ => .fuel
  | f + 1, d, p, pos =>
    match mem p with
    | none => .wild
    | some nd =>
      match nd.op with
      | .fin => .ok pos .empty
      | .one o =>
        match x.step o pos with
        | none => .wild
        | some none => .fail
        | some (some pos') =>
          match nd.next p with
          | none => .corrupt
          | some q => run x mem f d q pos'
      | .nothing =>
        match nd.next p with
        | none => .corrupt
        | some q => run x mem f d q pos
      | .back =>
        match nd.next p with
        | none => .corrupt
        | some q => run x mem f d q pos
      | .opn n =>
        match nd.next p with
        | none => .corrupt
        | some q =>
          match (if d + 1 ≥ x.depth then Res.overflow else run x mem f (d + 1) q pos) with
          | .ok e c => .ok e (c.open n pos)
          | r => r
      | .close n =>
        match nd.next p with
        | none => .corrupt
        | some q =>
          match (if d + 1 ≥ x.depth then Res.overflow else run x mem f (d + 1) q pos) with
          | .ok e c => .ok e (c.close n pos)
          | r => r
      | .branch =>
        match nd.next p with
        | none => .wild
        | some q =>
          match mem q with
          | none => .wild
          | some nq => if nq.op = .branch then alts x mem f d p pos else run x mem f d (p + 3) pos
      | .star => reps x mem f d p nd true 0 pos
      | .plus => reps x mem f d p nd true 1 pos
      | .ngstar => reps x mem f d p nd false 0 pos
      | .ngplus => reps x mem f d p nd false 1 pos

/-- The loop of `BRANCH`, regexp.c:1000-1008 -/
def alts (x : Ctx) (mem : Nat → Option Node) : Nat → Nat → Nat → Nat → Res
  | 0, _, _, _ => .fuel
  | f + 1, d, p, pos =>
    match (if d + 1 ≥ x.depth then Res.overflow else run x mem f (d + 1) (p + 3) pos) with
    | .fail =>
      match mem p with
      | none => .wild
      | some nd =>
        match nd.next p with
        | none => .fail
        | some q =>
          match mem q with
          | none => .wild
          | some nq => if nq.op = .branch then alts x mem f d q pos else .fail
    | r => r

/-- `STAR`, `PLUS`, `NGSTAR`, `NGPLUS`, regexp.c:1013-1075; `nd` is the node at `p`. -/
def reps (x : Ctx) (mem : Nat → Option Node) : Nat → Nat → Nat → Node → Bool → Nat → Nat → Res
  | 0, _, _, _, _, _, _ => .fuel
  | f + 1, d, p, nd, greedy, min, pos =>
    match nd.next p with
    | none => .wild
    | some q =>
      match mem q, mem (p + 3) with
      | some nq, some no =>
        match no.op with
        | .one o =>
          match x.repeats o with
          | none => .corrupt
          | some g =>
            match x.count g pos with
            | none => .wild
            | some n =>
              firstTry (fun pos' =>
                if x.could (lookahead nq.op) ((x.rd pos').getD 0) then
                  (if d + 1 ≥ x.depth then Res.overflow else run x mem f (d + 1) q pos')
                else .fail) (places greedy min pos n)
        | _ => .corrupt
      | _, _ => .wild
end

/-- `regtry`, regexp.c:815-843; entry 0 is set at the end. -/
def regtry (x : Ctx) (mem : Nat → Option Node) (fuel pos : Nat) : Res :=
  match (if 0 ≥ x.depth then Res.overflow else run x mem fuel 0 1 pos) with
  | .ok e c => .ok e ⟨fun k => if k = 0 then some pos else c.st k, fun k => if k = 0 then some e else c.en k⟩
  | r => r

/-- Does the required string occur?  regexp.c:700-728: every place where its first character is
found is compared. -/
def occurs (x : Ctx) (m : List Nat) : Nat → Nat → Bool
  | 0, _ => false
  | f + 1, pos =>
    if pos < x.text.length && x.same (m.headD 0) (x.text.getD pos 0) && (x.litAt m pos == some (some (pos + m.length))) then
      true
    else if pos < x.text.length then occurs x m f (pos + 1)
    else false

/-- The places of a search: all (the `do` loop, regexp.c:773-777), or those where the first
character is right (745-770). -/
def starts (x : Ctx) (start : Nat) : List Nat :=
  if start = 0 then List.range (x.text.length + 1)
  else (List.range x.text.length).filter fun i => x.same start (x.text.getD i 0)

/-- The test of the required string, if there is one. -/
def mayMatch (x : Ctx) : Option (List Nat) → Bool
  | none => true
  | some m => occurs x m (x.text.length + 1) 0

/-- `rep_regexec2`, regexp.c:674-781 -/
def regexec (x : Ctx) (g : Prog) (fuel : Nat) : Res :=
  if mayMatch x g.must then
    if g.anch then regtry x g.mem fuel 0
    else firstTry (regtry x g.mem fuel) (starts x g.start)
  else .fail

/-- What a call of `string-match` or `string-looking-at` does. -/
inductive Outcome
  | noMatch
  /-- `match-start` and `match-end` of each subexpression, in the whole string -/
  | found (st en : Nat → Option Nat)
  | error (e : Err)
  | overflow
  | corrupt
  | wild
  | fuel

def Res.outcome (start : Nat) : Res → Outcome
  | .fail => .noMatch
  | .ok _ c => .found (fun k => (c.st k).map (start + ·)) (fun k => (c.en k).map (start + ·))
  | .overflow => .overflow
  | .corrupt => .corrupt
  | .wild => .wild
  | .fuel => .fuel

/-- The C string at a pointer. -/
def cstr (s : List Nat) : List Nat := s.takeWhile (· != 0)

/-- The text a match works on: `rep_STR(str) + xstart`.  `start` is not checked. -/
def ctxOf (str : List Nat) (start : Nat) (nocase : Bool) (depth : Nat) : Ctx :=
  { text := cstr (str.drop start)
    prev := str.getD (start - 1) 0
    bol := start == 0
    nocase := nocase
    depth := depth }

/-- `Fstring_match`, find.c:282-318 (`looking = false`), and `Fstring_looking_at`, find.c:320-354
with `rep_regmatch_string`, regexp.c:787-800. -/
def stringMatch (looking : Bool) (re str : List Nat) (start : Int) (nocase : Bool) (depth fuel : Nat) : Outcome :=
  match compile (cstr re) with
  | none => .wild
  | some (.error e) => .error e
  | some (.ok g) =>
    if start < 0 ∨ start > str.length then .wild
    else
      let x := ctxOf str start.toNat nocase depth
      (if looking then regtry x g.mem fuel 0 else regexec x g fuel).outcome start.toNat

end Rep.Regex
