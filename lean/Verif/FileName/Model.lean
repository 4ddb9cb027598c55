/-
File names: the built-in operations on the text of a file name (src/unix_files.c:66-275), the
functions of src/files.c that call them, and the file handler for `~` (lisp/rep/io/file-handlers/
tilde.jl).

A file name is the list of its characters.  Simplified: names hold no NUL byte (the C code would
stop there), and of `file-handler-alist` only the entry of the `~` handler is modelled, that is, a
name is not one of the form "/HOST:..." and has no "#tar" in it.
-/

namespace Rep.FileName

abbrev Str := List Char

/-! ### src/unix_files.c -/

/-- `file_part` (unix_files.c:70-75): what follows the last `/`. -/
def filePart (s : Str) : Str := (s.reverse.takeWhile (· ≠ '/')).reverse

/-- `rep_file_name_absolute_p` (unix_files.c:99-104). -/
def absoluteP (s : Str) : Bool :=
  match s with
  | [] => false
  | c :: _ => c == '/' || c == '~'

/-- The result of writing to `char buf[PATH_MAX]`: a write beyond its end is undefined. -/
inductive Res (α : Type)
  | ok (a : α)
  | overflow
  deriving DecidableEq, Repr

/-- `PATH_MAX` of Linux. -/
def pathMax : Nat := 4096

/-- `memcpy (optr, iptr, n); optr += n` or some `*optr++ = c`.  The written part of `buf` is kept in
reverse order, so that its head is `optr[-1]`. -/
def put (w : Str) (out : Str) : Res Str :=
  if out.length + w.length ≤ pathMax then .ok (w.reverse ++ out) else .overflow

/-- The part `strip:` (unix_files.c:186-188). -/
def strip (s : Str) : Str := s.dropWhile (· = '/')

/-- `XXX/..[/]` (unix_files.c:132-174): what is in `buf` after this; `slash` tells whether a `/`
follows.  `out.dropWhile (= '/')` is `buf` up to `end`, the characters that the second loop steps
over are `comp`.  `back < optr && *back != '/'` says that `comp` is not empty. -/
def dotdot (out : Str) (slash : Bool) : Res Str :=
  let upto := out.dropWhile (· = '/')
  let comp := upto.takeWhile (· ≠ '/')
  let allDots := comp.all (· = '.')
  if comp ≠ [] ∧ (!allDots || comp.length ≠ 2) then .ok (upto.dropWhile (· ≠ '/'))
  else if allDots ∧ comp = [] ∧ out = ['/'] then .ok out
  else put (if slash then ['.', '.', '/'] else ['.', '.']) out

theorem strip_length (s : Str) : (strip s).length ≤ s.length := by
  unfold strip
  exact (List.dropWhile_sublist _).length_le

/-- The loop of `rep_expand_file_name` (unix_files.c:113-189), started with `iptr` and `buf`. -/
def expandLoop (iptr out : Str) : Res Str :=
  match iptr with
  | [] => .ok out
  | '.' :: '/' :: r => expandLoop (strip ('/' :: r)) out
  | ['.'] => if out = [] then put ['.'] out else .ok out
  | ['.', '.'] => dotdot out false
  | '.' :: '.' :: '/' :: r => match dotdot out true with
    | .ok out => expandLoop (strip r) out
    | .overflow => .overflow
  | c :: r =>
    let comp := (c :: r).takeWhile (· ≠ '/')
    match h : (c :: r).dropWhile (· ≠ '/') with
    | [] => put comp out
    | _ :: r' => match put (comp ++ ['/']) out with
      | .ok out => expandLoop (strip r') out
      | .overflow => .overflow
termination_by iptr.length
decreasing_by
  · have := strip_length r
    simp only [strip, List.dropWhile_cons, decide_true, if_true, List.length_cons] at *
    omega
  · have := strip_length r
    simp only [List.length_cons] at *
    omega
  · have h1 := strip_length r'
    have h2 := (List.dropWhile_sublist (l := c :: r) (· ≠ '/')).length_le
    rw [h] at h2
    simp only [List.length_cons] at *
    omega

/-- `rep_expand_file_name` (unix_files.c:106-199). -/
def expandRaw (s : Str) : Res Str :=
  match expandLoop s [] with
  | .ok [] => put ['.'] [] |> fun
    | .ok o => .ok o.reverse
    | .overflow => .overflow
  | .ok o => .ok o.reverse
  | .overflow => .overflow

/-- `rep_file_name_nondirectory` (unix_files.c:224-229). -/
def nondirectory (s : Str) : Str := filePart s

/-- `rep_file_name_directory` (unix_files.c:231-236). -/
def directory (s : Str) : Str := s.take (s.length - (filePart s).length)

/-- `rep_file_name_as_directory` (unix_files.c:238-257). -/
def asDirectory (s : Str) : Str := if filePart s = [] then s else s ++ ['/']

/-- `rep_directory_file_name` (unix_files.c:259-277). -/
def directoryFileName (s : Str) : Str :=
  if filePart s ≠ [] then s
  else if s.length = 0 then ['.']
  else if s.length = 1 then s
  else s.take (s.length - 1)

/-! ### src/files.c and the handler of `~` -/

/-- What `expand-file-name` (files.c:374-418) does before it simplifies the name. -/
def atDir (s dir : Str) : Str :=
  if absoluteP s then s
  else if (asDirectory dir).length > 0 then asDirectory dir ++ s else s

/-- `tilde-file-handler` for `expand-file-name` (tilde.jl:53-63), called with a name that begins with
`~`.  The regular expression is "(~[^/]*/)."; the inner call of `expand-file-name` finds the handler
blocked. -/
def tildeExpand (s : Str) : Res Str :=
  match s.dropWhile (· ≠ '/') with
  | '/' :: c :: r => match expandRaw (atDir (c :: r) ['.']) with
    | .ok e => .ok (s.takeWhile (· ≠ '/') ++ '/' :: e)
    | .overflow => .overflow
  | _ => .ok s

/-- `expand-file-name` (files.c:359-427) with the handler of `~` installed. -/
def expandFileName (s dir : Str) : Res Str :=
  let s := atDir s dir
  match s with
  | '~' :: _ => tildeExpand s
  | _ => expandRaw s

end Rep.FileName
