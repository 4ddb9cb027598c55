/-
The Lisp reader (src/lisp.c:213-1129, src/streams.c:458-525) and the printer
(src/lisp.c:2143-2360, src/symbols.c:143-210, src/numbers.c:1195).

A text is a list of characters, each of which stands for one byte.  The look-ahead character
`*c_p` and the rest of the input stream are one list: its head is `*c_p`, the empty list is
EOF.  (`rep_stream_ungetc` puts a character back at the head, src/streams.c:151.)
-/
import Verif.NumText.Model

namespace Rep.Reader

open Rep.Number Rep.NumText

/-- The literal symbols: src/symbols.c:1473-1478, src/lisp.c:2817-2822 -/
inductive Lit where
  | t | f | undefined | optional | rest | key
  deriving DecidableEq, Repr

/-- The objects that can be read.  A symbol that is interned is known by its name up to the
first NUL, because `find-symbol` compares C strings (src/symbols.c:250-271). -/
inductive Obj where
  | num (n : Num)
  /-- the floating point number that `strtod` makes of the text -/
  | float (neg : Bool) (text : List Char)
  | str (s : List Char)
  /-- a symbol in the default obarray -/
  | sym (name : List Char)
  /-- a keyword: a symbol in the keyword obarray -/
  | kw (name : List Char)
  | lit (l : Lit)
  /-- the empty list -/
  | nil
  | cons (car cdr : Obj)
  | vec (elems : List Obj)
  /-- a byte code object -/
  | code (elems : List Obj)

/-! ### Characters -/

/-- white space, as in src/lisp.c:315-319 -/
def isWhite (c : Char) : Bool := c = ' ' || c = '\t' || c = '\n' || c = '\x0c' || c = '\r'

/-- the characters that end a token, src/lisp.c:449-453 -/
def isTerm (c : Char) : Bool :=
  isWhite c || c = '(' || c = ')' || c = '[' || c = ']' || c = '\'' || c = '"' || c = ';' || c = ',' || c = '`'

/-- `iscntrl` in the C locale -/
def iscntrl (c : Char) : Bool := c.toNat < 32 || c.toNat = 127

/-- `isxdigit` in the C locale -/
def isxdigit (c : Char) : Bool :=
  (48 ≤ c.toNat && c.toNat ≤ 57) || (65 ≤ c.toNat && c.toNat ≤ 70) || (97 ≤ c.toNat && c.toNat ≤ 102)

/-- `isalpha` in the C locale -/
def isalpha (c : Char) : Bool := (65 ≤ c.toNat && c.toNat ≤ 90) || (97 ≤ c.toNat && c.toNat ≤ 122)

/-- `tolower` in the C locale -/
def tolower (c : Char) : Char := if 65 ≤ c.toNat ∧ c.toNat ≤ 90 then Char.ofNat (c.toNat + 32) else c

/-- decimal digit -/
def isdigit (c : Char) : Bool := 48 ≤ c.toNat && c.toNat ≤ 57

/-! ### Printing -/

/-- The setting of `print-escape`: src/lisp.c:2312-2318 -/
inductive Escape where
  | none | newlines | all
  deriving DecidableEq, Repr

/-- src/lisp.c:2321-2356: what is written for one character of a string -/
def stringChar (e : Escape) (c : Char) : List Char :=
  if e = .all ∧ (c.toNat < 32 ∨ c.toNat > 126) then
    ['\\', Char.ofNat (48 + c.toNat / 64), Char.ofNat (48 + c.toNat % 64 / 8), Char.ofNat (48 + c.toNat % 8)]
  else if c = '\t' ∨ c = '\n' ∨ c = '\r' ∨ c = '\x0c' then
    if e = .none then [c]
    else ['\\', if c = '\t' then 't' else if c = '\n' then 'n' else if c = '\r' then 'r' else 'f']
  else if c = '\\' then ['\\', '\\']
  else if c = '"' then ['\\', '"']
  else [c]

/-- src/lisp.c:2293 `rep_string_print` -/
def prinStr (e : Escape) (s : List Char) : List Char := '"' :: s.flatMap (stringChar e) ++ ['"']

/-- src/symbols.c:172-184 `pass1`: whether all the characters are digits, `/` or `.`, and
a digit has been seen -/
def pass1 : List Char → Bool → Bool
  | [], seen => seen
  | c :: s, seen =>
      if isdigit c then pass1 s true
      else if c = '/' ∨ c = '.' then pass1 s seen
      else false

/-- src/symbols.c:163-185: whether a backslash is written first -/
def numberLike : List Char → Bool
  | [] => false
  | c :: s =>
      if isdigit c then pass1 s true
      else if c = '-' ∨ c = '+' ∨ c = '.' then pass1 s false
      else false

/-- src/symbols.c:190-208: whether a backslash is written before this character; `first` is
for the first character of a keyword -/
def symEsc (first : Bool) (c : Char) : Bool :=
  if c = ' ' ∨ c = '\t' ∨ c = '\n' ∨ c = '\x0c' ∨ c = '(' ∨ c = ')' ∨ c = '[' ∨ c = ']'
    ∨ c = '\'' ∨ c = '"' ∨ c = ';' ∨ c = '\\' ∨ c = '|' ∨ c = ',' ∨ c = '`' then true
  else if c = '#' then !first
  else iscntrl c

/-- src/symbols.c:186-208 -/
def symChar (first : Bool) (c : Char) : List Char := if symEsc first c then ['\\', c] else [c]

/-- src/symbols.c:149 `symbol_print`, for a symbol that is not a literal -/
def prinSym (keyword : Bool) (name : List Char) : List Char :=
  (if numberLike name then ['\\'] else []) ++
  (match name with
   | [] => []
   | c :: s => symChar keyword c ++ s.flatMap (symChar false))

/-- src/symbols.c:143 `symbol_princ` for the literals -/
def prinLit : Lit → List Char
  | .t => "#t".toList
  | .f => "#f".toList
  | .undefined => "#undefined".toList
  | .optional => "#!optional".toList
  | .rest => "#!rest".toList
  | .key => "#!key".toList

mutual
/-- src/values.c:190 `rep_print_val` and src/lisp.c:2144 `rep_lisp_prin`, with `print-level`
and `print-length` not set.  (Floats are not modelled.  `()` is printed by
src/datums.c:63.) -/
def prin (e : Escape) : Obj → List Char
  | .num n => numberToString n 10
  | .float _ text => text
  | .str s => prinStr e s
  | .sym name => prinSym false name
  | .kw name => prinSym true name
  | .lit l => prinLit l
  | .nil => ['(', ')']
  | .cons a d => '(' :: prin e a ++ prinCdr e d
  | .vec l => '[' :: prinElems e l
  | .code l => '#' :: '[' :: prinElems e l
/-- src/lisp.c:2166-2193: the rest of a list -/
def prinCdr (e : Escape) : Obj → List Char
  | .nil => [')']
  | .cons a d => ' ' :: prin e a ++ prinCdr e d
  | .num n => " . ".toList ++ numberToString n 10 ++ [')']
  | .float _ text => " . ".toList ++ text ++ [')']
  | .str s => " . ".toList ++ prinStr e s ++ [')']
  | .sym name => " . ".toList ++ prinSym false name ++ [')']
  | .kw name => " . ".toList ++ prinSym true name ++ [')']
  | .lit l => " . ".toList ++ prinLit l ++ [')']
  | .vec l => " . ".toList ++ '[' :: prinElems e l ++ [')']
  | .code l => " . ".toList ++ '#' :: '[' :: prinElems e l ++ [')']
/-- src/lisp.c:2200-2212: the elements of a vector -/
def prinElems (e : Escape) : List Obj → List Char
  | [] => [']']
  | [x] => prin e x ++ [']']
  | x :: y :: l => prin e x ++ ' ' :: prinElems e (y :: l)
end

/-! ### Reading -/

/-- The errors that the reader signals. -/
inductive Err where
  | endOfStream | premature | invalid
  deriving DecidableEq, Repr

/-- What a function of the reader does: it returns a value, leaving the rest of the input and
the static variable `buflen` of `read_symbol`; or it signals an error; or it has undefined
behaviour; or it converts between exact and inexact numbers, which is not modelled.
`fuel` is no outcome of the program: see `C45_total`. -/
inductive Res (α : Type) where
  | ok (v : α) (rest : List Char) (buflen : Nat)
  | err (e : Err)
  | ub
  | unmodelled
  | fuel

/-- Go on after success. -/
def Res.bind {α β : Type} (r : Res α) (k : α → List Char → Nat → Res β) : Res β :=
  match r with
  | .ok v rest bl => k v rest bl
  | .err e => .err e
  | .ub => .ub
  | .unmodelled => .unmodelled
  | .fuel => .fuel

/-- Change the value. -/
def Res.map {α β : Type} (r : Res α) (k : α → β) : Res β := r.bind fun v rest bl => .ok (k v) rest bl

/-- src/lisp.c:259 `read_comment`, from the character after the opening; `none` is EOF. -/
def readComment (term : Char) : List Char → Nat → Option (List Char)
  | [], _ => none
  | c :: s, depth =>
      if c = term then
        match s with
        | [] => none
        | c' :: s' => if c' = '#' ∧ depth - 1 = 0 then some s' else readComment term (c' :: s') (if c' = '#' then depth - 1 else depth)
      else if c = '#' then
        match s with
        | [] => none
        | c' :: s' => if c' = term then readComment term s' (depth + 1) else readComment term (c' :: s') depth
      else readComment term s depth

/-- src/lisp.c:325-332: a comment up to the end of the line -/
def skipLine : List Char → List Char
  | [] => []
  | c :: s => if c = '\n' ∨ c = '\x0c' ∨ c = '\r' then s else skipLine s

/-- The variables of `read_symbol` that decide whether it is a number: src/lisp.c:420-427 -/
structure Auto where
  radix : Int := -1
  neg : Bool := false
  nfirst : Nat := 0
  exact : Bool := true
  rational : Bool := false
  exponent : Bool := false
  hadSign : Bool := false
  prefixed : Bool := false
  force : Int := 0

/-- src/lisp.c:632-638 `do_default` -/
def Auto.digit (a : Auto) (c : Char) : Auto :=
  if a.radix ≤ 10 ∧ ¬ (48 ≤ c.toNat ∧ (c.toNat : Int) ≤ 48 + a.radix - 1) then { a with radix := 0 }
  else if a.radix = 16 ∧ ¬ isxdigit c then { a with radix := 0 }
  else a

/-- src/lisp.c:597-640 -/
def Auto.speculate (a : Auto) (c : Char) : Auto :=
  if c = '.' then if a.exact ∧ a.radix = 10 ∧ ¬ a.rational then { a with exact := false } else { a with radix := 0 }
  else if c = '/' then if a.exact ∧ ¬ a.rational then { a with rational := true } else { a with radix := 0 }
  else if c = '-' ∨ c = '+' then if ¬ a.exponent then a.digit c else a
  else if (c = 'e' ∨ c = 'E') ∧ a.radix = 10 then
    if ¬ a.rational ∧ ¬ a.exponent then { a with exponent := true, exact := false } else { a with radix := 0 }
  else a.digit c

/-- src/lisp.c:483-640: a character that may be part of a number; `i` is the number of
characters before it -/
def Auto.step (a : Auto) (i : Nat) (c : Char) : Auto :=
  if a.prefixed then
    let a := { a with prefixed := false, nfirst := i + 1 }
    if c = 'b' ∨ c = 'B' then { a with radix := 2 }
    else if c = 'o' ∨ c = 'O' then { a with radix := 8 }
    else if c = 'd' ∨ c = 'D' then { a with radix := 10 }
    else if c = 'x' ∨ c = 'X' then { a with radix := 16 }
    else if c = 'e' ∨ c = 'E' then { a with force := 1 }
    else if c = 'i' ∨ c = 'I' then { a with force := -1 }
    else { a with radix := 0 }
  else if i = a.nfirst ∧ (c = '-' ∨ c = '+' ∨ c = '#') then
    if c = '#' then
      if a.hadSign then { a with radix := 0, nfirst := i + 1 } else { a with prefixed := true, nfirst := i + 1 }
    else { a with neg := decide (c = '-'), hadSign := true, nfirst := i + 1 }
  else if a.radix = -1 then
    if c = '.' then { a with radix := 10, exact := false }
    else if ¬ isdigit c then { a with radix := 0 }
    else if c = '0' then { a with radix := 1 }
    else { a with radix := 10 }
  else if a.radix = 1 then
    if c = 'x' ∨ c = 'X' then { a with radix := 16, nfirst := i + 1 }
    else if 48 ≤ c.toNat ∧ c.toNat ≤ 55 then { a with radix := 8, nfirst := i }
    else if c = '.' ∨ c = 'e' ∨ c = 'E' then { a with radix := 10, exact := false }
    else if c = '/' then { a with radix := 10, rational := true }
    else { a with radix := 0 }
  else a.speculate c

/-- Where the loop of `read_symbol` is: in the main loop, after a backslash, or between bars. -/
inductive Mode where
  | plain | escaped | bars
  deriving DecidableEq

/-- The variables of `read_symbol`.  `moved` says that `buf` is no longer the static buffer,
which has room for 242 characters. -/
structure Tok where
  buf : List Char := []
  buflen : Nat
  moved : Bool := false
  auto : Auto := {}
  mode : Mode := .plain

/-- `buf[i++] = c`; `none` if that is outside the static buffer -/
def Tok.push (t : Tok) (c : Char) : Option Tok :=
  if ¬ t.moved ∧ 242 ≤ t.buf.length then none else some { t with buf := t.buf ++ [c] }

/-- src/lisp.c:438-445: the buffer is doubled, but only the local pointer to it is changed. -/
def Tok.grow (t : Tok) : Tok := if t.buf.length = t.buflen then { t with buflen := t.buflen * 2, moved := true } else t

/-- How the loop of `read_symbol` ends. -/
inductive End where
  | done (t : Tok) (rest : List Char)
  | eof
  | ub

/-- src/lisp.c:436-645 the loop of `read_symbol` -/
def symLoop : List Char → Tok → End
  | [], t => if t.mode = .plain then .done t [] else .eof
  | c :: s, t =>
      if t.mode = .escaped then (t.push c).elim .ub fun t => symLoop s { t with mode := .plain }
      else if t.mode = .bars then
        if c ≠ '|' ∧ t.buf.length < t.buflen then (t.push c).elim .ub fun t => symLoop s t
        else symLoop s { t with mode := .plain }
      else
        let t := t.grow
        if isTerm c ∨ (c = '#' ∧ t.auto.radix = 0) then .done t (c :: s)
        else if c = '\\' then symLoop s { t with mode := .escaped, auto := { t.auto with radix := 0 } }
        else if c = '|' then symLoop s { t with mode := .bars, auto := { t.auto with radix := 0 } }
        else (t.push c).elim .ub fun t' =>
          symLoop s (if t.auto.radix = 0 then t' else { t' with auto := t.auto.step t.buf.length c })

/-- The digits at the front. -/
def digits (s : List Char) : List Char := s.takeWhile isdigit

/-- What is left after the digits. -/
def afterDigits (s : List Char) : List Char := s.dropWhile isdigit

/-- src/numbers.c:1078: whether `strtod` uses up the text, which is made of digits, `.`, `e`,
`E`, `+` and `-` and does not begin with a sign: digits with at most one point, at least one
digit, and perhaps an exponent. -/
def strtodAll (s : List Char) : Bool :=
  let r := afterDigits s
  let frac : List Char := if r.head? = some '.' then digits r.tail else []
  let r := if r.head? = some '.' then afterDigits r.tail else r
  (!(digits s).isEmpty || !frac.isEmpty) &&
  (match r with
   | [] => true
   | c :: r =>
       (c == 'e' || c == 'E') &&
       (match r with
        | [] => false
        | d :: r' => (if d == '+' || d == '-' then !r'.isEmpty && r'.all isdigit else (d :: r').all isdigit)))

/-- src/lisp.c:677-686: the symbol is found by the contents of the static buffer, or made.
If `buf` has moved, what lies after the first 240 characters of the static buffer is looked
at. -/
def Tok.intern (t : Tok) (keyword : Bool) (rest : List Char) : Res Obj :=
  if t.moved then .ub
  else .ok (if keyword then .kw (cString t.buf) else .sym (cString t.buf)) rest t.buflen

/-- src/lisp.c:646-689: the end of `read_symbol` -/
def Tok.finish (t : Tok) (keyword : Bool) (rest : List Char) : Res Obj :=
  if t.buf.length = 0 then .err .invalid
  else if 0 < t.auto.radix ∧ t.auto.nfirst < t.buf.length then
    let text := t.buf.drop t.auto.nfirst
    let r := t.auto.radix.toNat
    if t.auto.radix = 1 then (if t.auto.force < 0 then .unmodelled else .ok (.num (.fix 0)) rest t.buflen)
    else if ¬ t.auto.exact then
      if strtodAll text then (if t.auto.force > 0 then .unmodelled else .ok (.float t.auto.neg text) rest t.buflen)
      else t.intern keyword rest
    else
      match (if t.auto.rational then parseRat text r t.auto.neg else parseInt text r t.auto.neg) with
      | .num n => if t.auto.force < 0 then .unmodelled else .ok (.num n) rest t.buflen
      | .nil => t.intern keyword rest
      | .float => .unmodelled
      | .abort => .ub
      | .ub => .ub
  else t.intern keyword rest

/-- src/lisp.c:409 `read_symbol` -/
def readSymbol (keyword : Bool) (s : List Char) (buflen : Nat) : Res Obj :=
  match symLoop s { buflen := buflen } with
  | .done t rest => t.finish keyword rest
  | .eof => .err .premature
  | .ub => .ub

/-- octal digit -/
def isOctal (c : Char) : Bool := 48 ≤ c.toNat && c.toNat ≤ 55

/-- value of an octal or decimal digit -/
def digit (c : Char) : Nat := c.toNat - 48

/-- value of a hexadecimal digit: src/streams.c:515-518 -/
def hexDigit (c : Char) : Nat := if isdigit c then c.toNat - 48 else toupper c.toNat - 65 + 10

/-- src/streams.c:508-519; `c` is a `char`, here without its sign -/
def readHex : List Char → Nat → Nat × List Char
  | [], v => (v, [])
  | c :: s, v => if isxdigit c then readHex s ((v * 16 + hexDigit c) % 256) else (v, c :: s)

/-- src/streams.c:458 `rep_stream_read_esc`: the character, as a byte, and what is left.
(`toupper (EOF) ^ 0x40` is -65.) -/
def readEsc : List Char → Nat × List Char
  | [] => (255, [])
  | c :: s =>
      if c = 'n' then (10, s)
      else if c = 'r' then (13, s)
      else if c = 'f' then (12, s)
      else if c = 't' then (9, s)
      else if c = 'v' then (11, s)
      else if c = 'a' then (7, s)
      else if c = '^' then
        match s with
        | [] => (191, [])
        | d :: s => ((toupper d.toNat).xor 0x40 % 256, s)
      else if isOctal c then
        match s with
        | [] => (digit c, [])
        | d :: s' =>
            if isOctal d then
              match s' with
              | [] => (digit c * 8 + digit d, [])
              | e :: s'' => if isOctal e then ((digit c * 64 + digit d * 8 + digit e) % 256, s'') else (digit c * 8 + digit d, e :: s'')
            else (digit c, d :: s')
      else if c = 'x' then readHex s 0
      else (c.toNat % 256, s)

/-- src/lisp.c:729 `read_str`, from the character after the quote.  The number is a bound for
the number of turns of the loop. -/
def readStr : Nat → List Char → List Char → Nat → Res Obj
  | 0, _, _, _ => .fuel
  | _ + 1, [], _, _ => .err .premature
  | n + 1, c :: s, buf, bl =>
      if c = '"' then .ok (.str buf) s bl
      else if c = '\\' then
        if s.head? = some '\n' then readStr n s.tail buf bl
        else readStr n (readEsc s).2 (buf ++ [Char.ofNat (readEsc s).1]) bl
      else readStr n s (buf ++ [c]) bl

/-- src/lisp.c:789 `skip_chars` -/
def skipChars (ret : Obj) (bl : Nat) : List Char → List Char → Res Obj
  | [], [] => .ok ret [] bl
  | [], c :: s => if isTerm c then .ok ret (c :: s) bl else .err .invalid
  | _ :: _, [] => .err .invalid
  | p :: ps, c :: s => if c = p then skipChars ret bl ps s else .err .invalid

/-- src/lisp.c:962-975 `char_names` -/
def charNames : List (List Char × Nat) :=
  [("space".toList, 32), ("newline".toList, 10), ("backspace".toList, 8), ("tab".toList, 9),
   ("linefeed".toList, 10), ("return".toList, 13), ("page".toList, 12), ("rubout".toList, 127)]

/-- src/lisp.c:1001-1012: the rest of a character name -/
def readName (v : Nat) (bl : Nat) : List Char → List Char → Res Obj
  | [], s => .ok (.num (.fix v)) s bl
  | _ :: _, [] => .err .invalid
  | p :: ps, c :: s => if tolower c = p then readName v bl ps s else .err .invalid

/-- src/lisp.c:976-1016: `#\` -/
def readChar (bl : Nat) : List Char → Res Obj
  | [] => .err .premature
  | c :: s =>
      if ¬ isalpha c then .ok (.num (.fix c.toNat)) s bl
      else
        match s with
        | [] => .ok (.num (.fix c.toNat)) [] bl
        | c2 :: s2 =>
            if ¬ isalpha c2 then .ok (.num (.fix c.toNat)) (c2 :: s2) bl
            else
              match charNames.find? fun p => p.1.take 2 = [tolower c, tolower c2] with
              | none => .err .invalid
              | some p => readName p.2 bl (p.1.drop 2) s2

/-- the value of a `char` as an `int` -/
def signedChar (b : Nat) : Int := if b < 128 then b else (b : Int) - 256

/-- src/lisp.c:912-927: `?` -/
def readQuestion (bl : Nat) : List Char → Res Obj
  | [] => .err .premature
  | c :: s =>
      if c = '\\' then
        if s = [] then .err .premature else .ok (.num (.fix (signedChar (readEsc s).1))) (readEsc s).2 bl
      else .ok (.num (.fix c.toNat)) s bl

/-- The elements of a list, up to what is not a cons: src/lisp.c:699-700 -/
def toElems : Obj → List Obj
  | .cons a d => a :: toElems d
  | _ => []

/-- The list with these elements (the last first) and this tail. -/
def build (acc : List Obj) (tail : Obj) : Obj := acc.foldl (fun d a => .cons a d) tail

/-- src/lisp.c:953-963: whether a vector can be a byte code object -/
def isCode : List Obj → Bool
  | .str _ :: .vec _ :: .num (.fix _) :: _ => true
  | _ => false

/-- src/lisp.c:1067-1084 `identifier` -/
def readIdent (s : List Char) (bl : Nat) : Res Obj :=
  (readSymbol false s bl).bind fun form rest bl =>
    match form, rest with
    | .sym n, '#' :: rest => (readSymbol false rest bl).map fun v => .cons (.sym "structure-ref".toList) (.cons (.sym n) (.cons v .nil))
    | _, _ => .ok form rest bl

mutual
/-- src/lisp.c:825 `readl`.  The first argument bounds the depth of calls. -/
def readl : Nat → Err → List Char → Nat → Res Obj
  | 0, _, _, _ => .fuel
  | _ + 1, eof, [], _ => .err eof
  | n + 1, eof, c :: s, bl =>
      if isWhite c then readl n eof s bl
      else if c = ';' then readl n eof (skipLine s) bl
      else if c = '(' then readList n s bl [] .nil
      else if c = '\'' then readQuoted n "quote".toList s bl
      else if c = '`' then readQuoted n "backquote".toList s bl
      else if c = ',' then
        if s.head? = some '@' then readQuoted n "backquote-splice".toList s.tail bl
        else readQuoted n "backquote-unquote".toList s bl
      else if c = '[' then (readList n s bl [] .nil).map fun l => .vec (toElems l)
      else if c = '"' then readStr (s.length + 1) s [] bl
      else if c = '?' then readQuestion bl s
      else if c = '#' then readHash n eof s bl
      else readIdent (c :: s) bl
termination_by structural n => n
/-- src/lisp.c:856-872, 883-893: an expression that stands for (NAME X) -/
def readQuoted : Nat → List Char → List Char → Nat → Res Obj
  | 0, _, _, _ => .fuel
  | n + 1, name, s, bl =>
      if s = [] then .err .premature
      else (readl n .premature s bl).map fun x => .cons (.sym name) (.cons x .nil)
termination_by structural n => n
/-- src/lisp.c:929-1064: after `#` (not at the start of a file).  The `break` after a vector
that cannot be read falls into `identifier`, with the error still signalled. -/
def readHash : Nat → Err → List Char → Nat → Res Obj
  | 0, _, _, _ => .fuel
  | _ + 1, _, [], _ => .err .premature
  | n + 1, eof, c :: s, bl =>
      if c = '\'' then readQuoted n "function".toList s bl
      else if c = '[' then (readList n s bl [] .nil).bind fun l rest bl =>
        if isCode (toElems l) then .ok (.code (toElems l)) rest bl else .err .invalid
      else if c = '(' then (readList n s bl [] .nil).map fun l => .vec (toElems l)
      else if c = '|' then (readComment '|' s 1).elim (.err .premature) fun s => readl n eof s bl
      else if c = '\\' then readChar bl s
      else if c = '!' then
        if s.head? = some 'o' then skipChars (.lit .optional) bl "ptional".toList s.tail
        else if s.head? = some 'r' then skipChars (.lit .rest) bl "est".toList s.tail
        else if s.head? = some 'k' then skipChars (.lit .key) bl "ey".toList s.tail
        else .err .invalid
      else if c = ':' then readSymbol true ('#' :: c :: s) bl
      else if c = 't' ∨ c = 'T' then .ok (.lit .t) s bl
      else if c = 'f' ∨ c = 'F' then .ok (.lit .f) s bl
      else if c ∈ "bBoOdDxXeEiI".toList then readIdent ('#' :: c :: s) bl
      else if c = 'u' then skipChars (.lit .undefined) bl "ndefined".toList s
      else .err .invalid
termination_by structural n => n
/-- src/lisp.c:296 `read_list`, after the opening parenthesis.  The elements so far are kept
last first, with what the `cdr` of the last one is. -/
def readList : Nat → List Char → Nat → List Obj → Obj → Res Obj
  | 0, _, _, _, _ => .fuel
  | _ + 1, [], _, _, _ => .err .premature
  | n + 1, c :: s, bl, acc, tail =>
      if isWhite c then readList n s bl acc tail
      else if c = ';' then readList n (skipLine s) bl acc tail
      else if c = ')' ∨ c = ']' then .ok (build acc tail) s bl
      else if c = '.' ∧ s = [] then .err .premature
      else if c = '.' ∧ (s.head?.map isWhite) = some true then
        if acc = [] then .err .invalid
        else (readl n .premature s bl).bind fun v s bl => readList n s bl acc v
      else if c = '#' ∧ s = [] then .ok (build acc tail) ['#'] bl
      else if c = '#' ∧ s.head? = some '|' then
        (readComment '|' s.tail 1).elim (.err .premature) fun s => readList n s bl acc tail
      else (readl n .premature (c :: s) bl).bind fun v s bl => readList n s bl (v :: acc) .nil
termination_by structural n => n
end

/-- src/streams.c:743 `read`, from a string stream (src/streams.c:90); the rest is what the
next call finds. -/
def read (s : List Char) (buflen : Nat) : Res Obj := readl (2 * s.length + 1) .endOfStream s buflen

end Rep.Reader
