import Mathlib.Data.List.Basic
/-!
# The command line

Models `rep_get_option` and `get_main_options` (src/main.c:76-153), `get-command-line-option` (src/misc.c:542-560) and the options of the stand-alone
interpreter (lisp/rep/user.jl:34-140).

Simplifications: what is called or loaded neither exits nor looks at the command line; interrupts don't occur. That the error for a missing argument
is noticed only after `get-command-line-option` has returned nil isn't modelled.
-/
namespace Rep.CmdLine

abbrev Str := List Char

/-- A string with its identity; `delq` compares the latter. The strings are made one by one (main.c:129), so they differ. -/
abbrev Arg := Nat × Str

/-- lispcmds.c:716-736 `delq` -/
def delq (i : Nat) (l : List Arg) : List Arg := l.filter (fun a => a.1 != i)

/-- What `rep_get_option` finds: nothing; the option, with its parameter if one was asked for; the option without the parameter, which is an error. -/
inductive Res
  | absent
  | found (p : Option Str)
  | missing
  deriving DecidableEq

/-- main.c:84-87: the option, followed by the end or `=`. -/
def isOpt (o s : Str) : Bool :=
  o.isPrefixOf s && (match s.drop o.length with
    | [] => true
    | c :: _ => c == '=')

/-- main.c:82-119; the second list is the value of `command-line-args`. -/
def scan (o : Str) (needs : Bool) : List Arg → List Arg → Res × List Arg
  | [], all => (.absent, all)
  | a :: r, all =>
    if isOpt o a.2 then
      let all' := delq a.1 all
      if needs then
        match a.2.drop o.length with
        | _ :: p => (.found (some p), all')
        | [] =>
          match r with
          | b :: _ => (.found (some b.2), delq b.1 all')
          | [] => (.missing, all')
      else (.found none, all')
    else scan o needs r all

/-- `rep_get_option`, `get-command-line-option` -/
def getOption (o : Str) (needs : Bool) (args : List Arg) : Res × List Arg := scan o needs args args

/-- `(while (setq tem (get-command-line-option o t)) ...)`, as in src/rep-xgettext.jl:47: the parameters, whether one was missing, and what is left. -/
def collect (o : Str) : Nat → List Arg → List Str × Bool × List Arg
  | 0, args => ([], false, args)
  | k + 1, args =>
    match getOption o true args with
    | (.found (some p), args') => let r := collect o k args'; (p :: r.1, r.2)
    | (.missing, args') => ([], true, args')
    | (_, args') => ([], false, args')

/-- What the interpreter is told to do. -/
inductive Act
  | call (f : Str)
  | load (f : Str)
  | check
  | help
  | version
  | quit
  | file (f : Str)
  deriving DecidableEq

def sCall : Str := "--call".toList
def sF : Str := "-f".toList
def sLoad : Str := "--load".toList
def sL : Str := "-l".toList
def sCheck : Str := "--check".toList
def sHelp : Str := "--help".toList
def sVersion : Str := "--version".toList
def sQuit : Str := "--quit".toList
def sQ : Str := "-q".toList
def sBatch : Str := "--batch".toList
def sInterp : Str := "--interp".toList
def sNoRc : Str := "--no-rc".toList
def sDebug : Str := "--debug".toList

/-- user.jl:41-97 `parse-options`: what is done, whether `batch-mode` is set, and whether there was an error (then the program ends with status 1).
Checking, help, version and quitting end it. -/
def parseOptions : List Str → List Act × Bool × Bool
  | [] => ([], false, false)
  | a :: r =>
    if a = sCall ∨ a = sF then
      match r with
      | [] => ([], false, true)
      | x :: r => let t := parseOptions r; (.call x :: t.1, t.2)
    else if a = sLoad ∨ a = sL then
      match r with
      | [] => ([], false, true)
      | x :: r => let t := parseOptions r; (.load x :: t.1, t.2)
    else if a = sCheck then ([.check], false, false)
    else if a = sHelp then ([.help], false, false)
    else if a = sVersion then ([.version], false, false)
    else if a = sQuit ∨ a = sQ then ([.quit], false, false)
    else let t := parseOptions r; (.file a :: t.1, true, t.2.2)

/-- What the start of the interpreter comes to. -/
structure Start where
  batch : Bool
  interp : Bool
  noRc : Bool
  debug : Bool
  acts : List Act
  error : Bool
  deriving DecidableEq

/-- main.c:140-149 and user.jl:104-133: four options are looked for, then the rest is taken in order. -/
def start (args : List Arg) : Start :=
  let b := getOption sBatch false args
  let i := getOption sInterp false b.2
  let n := getOption sNoRc false i.2
  let d := getOption sDebug false n.2
  let t := parseOptions (d.2.map Prod.snd)
  ⟨b.1 != .absent || t.2.1, i.1 != .absent, n.1 != .absent, d.1 != .absent, t.1, t.2.2⟩

/-- main.c:125-134: each argument becomes a string. -/
def number (l : List Str) : List Arg := (List.range l.length).zip l

end Rep.CmdLine
