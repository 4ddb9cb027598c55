import Mathlib.Data.List.Basic
/-!
# compile-file

Models `compile-file` (lisp/rep/vm/compiler.jl:221-293) with `copy-file` (src/unix_files.c:327-367) as a sequence of changes of files, after each of which the system
may stop; and its treatment of a text between `#!` and `!#` at the start of the file.

Simplifications: what is compiled, and the text of the result, is an input. Contents are lists of units that are written one by one. The name of the temporary file
is not used by others.
-/
namespace Rep.CompFile

abbrev Content := List Nat

/-- The compiled file, its mode, and the temporary file. -/
structure Fs where
  dst : Option Content
  mode : Nat := 0
  temp : Option Content := none
  deriving DecidableEq

/-- What may happen: the source can't be read or compiled (`compiled` is nothing); the temporary file can't be opened; writing it, or copying it, fails after so many
units; what is still in its buffer can't be written when it is closed, after so many units. The modes of the source and of the temporary file. -/
structure Input where
  compiled : Option Content
  tempOpens : Bool := true
  writeFails : Option Nat := none
  closeFails : Option Nat := none
  copyFails : Option Nat := none
  srcMode : Nat := 0
  tempMode : Nat := 0

/-- `compile-file` returns, or throws an error. -/
inductive Out
  | ok | error
  deriving DecidableEq

/-- The beginnings of a content, up to a failure. -/
def grow (c : Content) (fails : Option Nat) : List Content := (List.range ((match fails with | some k => min k c.length | none => c.length) + 1)).map c.take

/-- What is in the temporary file after it is closed: `close-file` ignores errors of `fclose` (src/files.c:904-905). -/
def kept (i : Input) (c : Content) : Content := match i.closeFails with | some k => c.take k | none => c

/-- compiler.jl:263-283: the temporary file is written (src/streams.c:290-291, 415, 430-438: an error is thrown if not all is); it is removed after an error. -/
def writing (fs : Fs) (i : Input) (c : Content) : List Fs := (grow c i.writeFails).map fun t => { fs with temp := some t }

/-- compiler.jl:289, unix_files.c:335-357: the compiled file is truncated and written; it gets the mode of the temporary file first. -/
def copying (fs : Fs) (i : Input) (c : Content) : List Fs := (grow c i.copyFails).map fun d => { dst := some d, mode := i.tempMode, temp := fs.temp }

/-- compiler.jl:221-293 `compile-file`: the states of the files, and the value. -/
def compileFile (fs : Fs) (i : Input) : List Fs × Out :=
  match i.compiled with
  | none => ([fs], .error)
  | some c =>
    if !i.tempOpens then ([fs], .error)
    else
      let w := fs :: writing fs i c
      if i.writeFails.isSome then (w ++ [{ fs with temp := none }], .error)
      else
        let t := kept i c
        let d := w ++ { fs with temp := some t } :: copying { fs with temp := some t } i t
        match i.copyFails with
        | some k => (d ++ [{ dst := some (t.take k), mode := i.tempMode, temp := none }], .error)
        | none => (d ++ [{ dst := some t, mode := i.srcMode, temp := some t }, { dst := some t, mode := i.srcMode, temp := none }], .ok)

/-- The state at the end. -/
def final (fs : Fs) (i : Input) : Option Fs := (compileFile fs i).1.getLast?

/-- compiler.jl:244-251: the rest of the header, after `#!`, and the text after it. -/
def header : List Char → List Char × List Char
  | [] => ([], [])
  | [c] => ([c], [])
  | c :: d :: s =>
    if c = '!' then
      if d = '#' then ([c, d], s)
      else ((c :: d :: (header s).1), (header s).2)
    else (c :: (header (d :: s)).1, (header (d :: s)).2)

/-- compiler.jl:238-253: the header, if there is one, and the text that is read. -/
def split : List Char → Option (List Char) × List Char
  | '#' :: '!' :: s => (some ('#' :: '!' :: (header s).1), (header s).2)
  | s => (none, s)

end Rep.CompFile
