import Verif.Stream.Model

/-
`format` (src/streams.c:825-1138).

The format string is in memory as its bytes and a zero; reading past that zero is undefined, as is an `int` which
overflows (`none`).  What is written is the list of calls of `rep_stream_putc` and `rep_stream_puts`.

Simplified: printing values and calling hooks has no effect but its result; writing to the stream raises no error.
-/

namespace Rep.Stream

/-- A call of `rep_stream_putc`, or of `rep_stream_puts` with bytes (followed by a zero) and a length. -/
inductive Put
  | c (c : Int)
  | s (src : List Byte) (n : Int)
  deriving DecidableEq, Repr

/-- What `format` may ask about a value. -/
structure Env (V : Type) where
  /-- the bytes, of a string -/
  str : V → Option (List Byte)
  /-- what `princ` and `prin1` print -/
  princ : V → List Byte
  prin1 : V → List Byte
  /-- `rep_print_number_to_string` (numbers.c:1097), with the radix and the precision -/
  number : V → Nat → Int → List Byte
  /-- `rep_INT` -/
  code : V → Int
  /-- `format-hooks-alist`; the function may fail, or return nil (`some none`) -/
  hook : Byte → Option (V → Option (Option V))
  /-- nil, for missing arguments -/
  nil : V

/-- How a call ends: normally or with an error raised; the writes done. -/
inductive Exit
  | done
  | error
  deriving DecidableEq, Repr

abbrev isDigit (b : Byte) : Bool := decide (48 ≤ b.toNat ∧ b.toNat ≤ 57)

/-- The scan for `n$` (streams.c:915-940): what follows the `$` if there are only digits before it. -/
def scanDollar : List Byte → Option (Option (List Byte))
  | [] => none
  | b :: m => if isDigit b then scanDollar m else if b = 36 then some (some m) else some none

/-- A number in decimal: its value, and the format from the first character after it on (streams.c:968-982; the
first character of the format is in `c`). -/
def scanNumber (v : Int) : List Byte → Option (Int × List Byte)
  | [] => none
  | c :: m =>
    if isDigit c then
      match int (v * 10) with
      | none => none
      | some v10 =>
        match int (v10 + (c.toNat - 48)) with
        | none => none
        | some w => scanNumber w m
    else some (v, c :: m)

/-- `atoi` -/
def atoi (v : Int) : List Byte → Option Int
  | [] => some v
  | b :: m =>
    if isDigit b then
      match int (v * 10 + (b.toNat - 48)) with
      | none => none
      | some w => atoi w m
    else some v

/-- The argument selected by `n$`, or the next one, and the rest of the format (streams.c:915-940). -/
def parsePos (arg : Int) (m : List Byte) : Option (Int × List Byte) :=
  match scanDollar m with
  | none => none
  | some none => some (arg, m)
  | some (some m') =>
    match atoi 0 m with
    | none => none
    | some a => if a > 0 then some (a - 1, m') else some (arg, m)

structure Flags where
  left : Bool := false
  truncate : Bool := false
  zeros : Bool := false
  leading : Byte := 0
  deriving DecidableEq, Repr

/-- The flags (streams.c:942-966). -/
def parseFlags (f : Flags) : List Byte → Option (Flags × List Byte)
  | [] => none
  | c :: m =>
    if c = 45 then parseFlags { f with left := true } m
    else if c = 94 then parseFlags { f with truncate := true } m
    else if c = 48 then parseFlags { f with zeros := true } m
    else if c = 43 ∨ c = 32 then parseFlags { f with leading := c } m
    else some (f, c :: m)

/-- The precision (streams.c:975-985). -/
def parsePrec : List Byte → Option (Int × List Byte)
  | [] => none
  | c :: m => if c = 46 then scanNumber 0 m else some (-1, c :: m)

/-- The text of a number or string in its field (streams.c:1042-1083). -/
def stringOut (f : Flags) (width : Int) (t : List Byte) : List Put :=
  let minus := t.head? = some 45
  let leading : Byte := if f.leading ≠ 0 ∧ minus then 0 else f.leading
  let actual : Int := if leading ≠ 0 then t.length + 1 else t.length
  if width = 0 ∨ actual ≥ width then
    (if leading ≠ 0 then [.c leading.toNat] else []) ++
      [.s t (if f.truncate then width - (if leading ≠ 0 then 1 else 0) else t.length)]
  else
    let slen := min (width - actual) 256
    let text := (if leading ≠ 0 then [Put.c leading.toNat] else []) ++ [.s t t.length]
    let pad := [Put.s (List.replicate slen.toNat (if f.zeros then 48 else 32)) slen]
    if f.left then text ++ pad else pad ++ text

/-- The conversion `s` (streams.c:1030-1041). -/
def unquoted {V : Type} (e : Env V) (f : Flags) (width : Int) (v : V) : List Put :=
  match e.str v with
  | none => [.s (e.princ v) (e.princ v).length]
  | some t => if f.left ∧ width = 0 then [.s (e.princ v) (e.princ v).length] else stringOut f width t

/-- The conversions (streams.c:1003-1130); `none` inside for an error raised. -/
def convert {V : Type} (e : Env V) (f : Flags) (width prec : Int) (c : Byte) (v : V) : Option (List Put) :=
  if c = 99 then some [.c (e.code v)]
  else if c = 120 ∨ c = 88 then some (stringOut f width (e.number v 16 prec))
  else if c = 111 then some (stringOut f width (e.number v 8 prec))
  else if c = 100 then some (stringOut f width (e.number v 10 prec))
  else if c = 115 then some (unquoted e f width v)
  else if c = 83 then some [.s (e.prin1 v) (e.prin1 v).length]
  else
    match e.hook c with
    | none => none
    | some g =>
      match g v with
      | none => none
      | some none => some (if f.left ∧ width = 0 then [.s [] 0] else stringOut f width [])
      | some (some v) => some (unquoted e f width v)

/-- What a directive is parsed into: the argument, the flags, the width, the precision, the conversion and the rest. -/
def parseDir (arg : Int) (m : List Byte) : Option (Int × Flags × Int × Int × Byte × List Byte) :=
  match parsePos arg m with
  | none => none
  | some (arg, m) =>
    match parseFlags {} m with
    | none => none
    | some (f, m) =>
      match scanNumber 0 m with
      | none => none
      | some (width, m) =>
        match parsePrec m with
        | none => none
        | some (_, []) => none
        | some (prec, c :: m) => some (arg, f, width, prec, c, m)

/-- The text between directives, if any (streams.c:906-912 and 1127). -/
def flush (lit : List Byte) : List Put := if lit = [] then [] else [.s lit lit.length]

/-- The loop (streams.c:895-1125): `lit` is the text since `last_fmt`. -/
def formatLoop {V : Type} (e : Env V) (args : List V) : Nat → Int → List Byte → List Byte → List Put →
    Option (List Put × Exit)
  | 0, _, _, _, _ => none
  | _ + 1, _, _, [], _ => none
  | fuel + 1, arg, lit, c :: m, out =>
    if c = 0 then some (out ++ flush lit, .done)
    else if c = 37 then
      match parseDir arg m with
      | none => none
      | some (arg, f, width, prec, c, m) =>
        if c = 37 then formatLoop e args fuel arg [] m (out ++ flush lit ++ [.c 37])
        else
          match convert e f width prec c ((args[arg.toNat]?).getD e.nil) with
          | none => some (out ++ flush lit, .error)
          | some ps =>
            match int (arg + 1) with
            | none => none
            | some arg => formatLoop e args fuel arg [] m (out ++ flush lit ++ ps)
    else formatLoop e args fuel arg (lit ++ [c]) m out

/-- `format` up to its effect on the stream. -/
def format {V : Type} (e : Env V) (fmt : List Byte) (args : List V) : Option (List Put × Exit) :=
  formatLoop e args (fmt.length + 2) 0 [] (fmt ++ [0]) []

/-- The calls done on a string. -/
def play (h : Heap) (s : OStream) : List Put → Option (Heap × OStream)
  | [] => some (h, s)
  | .c c :: ps =>
    match putc h s c with
    | none => none
    | some (h, s) => play h s ps
  | .s src n :: ps =>
    match puts h s src n false with
    | none => none
    | some (h, s) => play h s ps

/-- `(format nil FORMAT ARGS...)`: the string returned, or an error (streams.c:871-876 and 1126-1137). -/
def formatNil {V : Type} (h : Heap) (e : Env V) (fmt : List Byte) (args : List V) : Option (Heap × Option Nat) :=
  match makeOutput h with
  | none => none
  | some (h, s) =>
    match format e fmt args with
    | none => none
    | some (ps, x) =>
      match play h s ps with
      | none => none
      | some (h, s) =>
        match x with
        | .error => some (h, none)
        | .done =>
          match h[s.str]? with
          | none => none
          | some st =>
            if st.len ≠ toUnsigned s.cap then (dupn h st.mem st.len).map fun p => (p.1, some p.2)
            else some (h, some s.str)

end Rep.Stream
