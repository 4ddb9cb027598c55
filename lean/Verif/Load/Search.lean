/-
C82: the search for the file that `load` loads.
-/
import Mathlib.Tactic.ByContra

namespace Rep.Search

/-- What the search asks of the file system.  `none`: an error, which is then
pending. -/
structure Files where
  /-- `expand-file-name` -/
  expand : String → String → Option String
  /-- `file-readable-p` and not `file-directory-p` (src/lispcmds.c:1216-1229,
  `load_file_exists_p`) -/
  exists_ : String → Option Bool
  /-- `rep_file_newer_than` (src/unix_files.c) -/
  newer : String → String → Bool

/-- The arguments of `load` and the variables it uses.  Elements of paths that are not
strings are `none`. -/
structure Args where
  file : String
  noPath : Bool
  noSuffix : Bool
  /-- `interpreted-mode` -/
  interp : Bool
  /-- `%load-suffixes`: for sources and for compiled files -/
  source : Option String
  compiled : Option String
  loadPath : List (Option String)
  dlLoadPath : List (Option String)

/-- The variables of the loop: `name`, `try` and whether an error is pending. -/
structure Vars where
  name : Option String
  try_ : Option String
  err : Bool

/-- The end of the loop over suffixes, for one value of `try` (lispcmds.c:1429-1451).
Result: whether to go to `path_error`. -/
def test (fs : Files) (v : Vars) : Vars × Bool :=
  match v.try_ with
  | none => (v, false)
  | some t =>
    match fs.exists_ t with
    | none => ({ v with err := true }, true)
    | some false => (v, false)
    | some true =>
      match v.name with
      | some n => (if fs.newer t n then { v with name := some t } else v, false)
      | none => ({ v with name := some t }, false)

/-- Setting `try` for the suffix number `i` (1: compiled, 0: source; lispcmds.c:1406-1427).
It keeps its value if the suffix is not a string. -/
def setTry (fs : Files) (a : Args) (dl : Bool) (dir base : String) (i : Nat) (v : Vars) : Vars :=
  if dl then
    if i = 1 then { v with try_ := some (dir ++ ".so") }
    else
      match fs.expand ("lib" ++ a.file ++ ".so") base with
      | none => { v with try_ := none, err := true }
      | some t => { v with try_ := some t }
  else
    match (if i = 0 then a.source else a.compiled) with
    | some s => { v with try_ := some (dir ++ s) }
    | none => v

/-- One suffix. -/
def suffix (fs : Files) (a : Args) (dl : Bool) (dir base : String) (i : Nat) (v : Vars) :
    Vars × Bool :=
  test fs (setTry fs a dl dir base i v)

/-- One directory (lispcmds.c:1389-1467). -/
def directory (fs : Files) (a : Args) (dl : Bool) (base : String) (v : Vars) : Vars × Bool :=
  match fs.expand a.file base with
  | none => ({ v with err := true }, true)
  | some dir =>
    let r :=
      if dl || !a.noSuffix then
        if !dl && a.interp then suffix fs a dl dir base 0 v
        else
          let r := suffix fs a dl dir base 1 v
          if r.2 then r else suffix fs a dl dir base 0 r.1
      else (v, false)
    if r.2 then r
    else if !dl && r.1.name.isNone && a.noSuffix then
      match fs.exists_ dir with
      | none => ({ r.1 with err := true }, true)
      | some true => ({ r.1 with name := some dir }, false)
      | some false => r
    else r

/-- The loop over a path (lispcmds.c:1387-1472).  `rep_INTERRUPTP` is the pending
error; simplification: there are no interrupts by the user. -/
def scan (fs : Files) (a : Args) (dl : Bool) : List (Option String) → Vars → Vars × Bool
  | [], v => (v, false)
  | d :: path, v =>
    if v.name.isSome then (v, false)
    else
      let r := match d with
        | some base => directory fs a dl base v
        | none => (v, false)
      if r.2 then r
      else if r.1.err then (r.1, true)
      else scan fs a dl path r.1

inductive Found
  /-- the file to be loaded, and whether as a shared library -/
  | file (name : String) (dl : Bool)
  | nothing
  deriving DecidableEq

/-- The search of `Fload` (lispcmds.c:1363-1497), with dynamic loading.  Result: the
file and whether an error is pending, before one for not finding it is signalled. -/
def search (fs : Files) (a : Args) : Found × Bool :=
  let r := scan fs a false (if a.noPath then [some ""] else a.loadPath) ⟨none, none, false⟩
  if r.2 then
    (match r.1.name with | some n => .file n false | none => .nothing, r.1.err)
  else
    match r.1.name with
    | some n => (.file n false, r.1.err)
    | none =>
      let r2 := scan fs a true (if a.noPath then [some ""] else a.dlLoadPath) r.1
      (match r2.1.name with | some n => .file n true | none => .nothing, r2.1.err)

/-! ### What is expected -/

/-- Among two names, the first unless only the second is there, or it is newer. -/
def prefer (there : String → Bool) (newer : String → String → Bool) (first second : Option String) :
    Option String :=
  match first.filter there, second.filter there with
  | some x, some y => if newer y x then some y else some x
  | some x, none => some x
  | none, y => y

/-- A file system without errors. -/
structure World where
  expand : String → String → String
  there : String → Bool
  newer : String → String → Bool
  irrefl : ∀ x, newer x x = false

def World.files (w : World) : Files :=
  ⟨fun f d => some (w.expand f d), fun x => some (w.there x), w.newer⟩

/-- What a directory of `load-path` has to offer. -/
def inDirectory (w : World) (a : Args) (base : String) : Option String :=
  let name := w.expand a.file base
  if a.noSuffix then if w.there name then some name else none
  else if a.interp then (a.source.map (name ++ ·)).filter w.there
  else prefer w.there w.newer (a.compiled.map (name ++ ·)) (a.source.map (name ++ ·))

/-- What a directory of `dl-load-path` has to offer. -/
def inDlDirectory (w : World) (a : Args) (base : String) : Option String :=
  prefer w.there w.newer (some (w.expand a.file base ++ ".so"))
    (some (w.expand ("lib" ++ a.file ++ ".so") base))

/-- The first directory that has something to offer, and then the first for shared
libraries. -/
def expected (w : World) (a : Args) : Found :=
  let path := if a.noPath then [""] else a.loadPath.filterMap id
  let dlPath := if a.noPath then [""] else a.dlLoadPath.filterMap id
  match path.findSome? (inDirectory w a) with
  | some f => .file f false
  | none =>
    match dlPath.findSome? (inDlDirectory w a) with
    | some f => .file f true
    | none => .nothing

/-! ### Proof -/

/-- A value of `try` left from before does no harm. -/
def Stale (w : World) (t : Option String) : Prop := ∀ x, t = some x → w.there x = false

/-- The name chosen after one more candidate. -/
def bump (w : World) (name t : Option String) : Option String :=
  match t with
  | none => name
  | some t => if w.there t then
      match name with
      | some n => if w.newer t n then some t else some n
      | none => some t
    else name

theorem test_files (w : World) (name t : Option String) (e : Bool) :
    test w.files ⟨name, t, e⟩ = (⟨bump w name t, t, e⟩, false) := by
  unfold test World.files bump
  cases t with
  | none => rfl
  | some t =>
    simp only
    cases w.there t with
    | false => rfl
    | true =>
      cases name with
      | none => rfl
      | some n =>
        simp only [if_true]
        split <;> rfl

theorem suffix_lisp (w : World) (a : Args) (dir base : String) (i : Nat) (name t : Option String) :
    suffix w.files a false dir base i ⟨name, t, false⟩ =
      (⟨bump w name (((if i = 0 then a.source else a.compiled).map (dir ++ ·)).or t),
        ((if i = 0 then a.source else a.compiled).map (dir ++ ·)).or t, false⟩, false) := by
  unfold suffix setTry
  simp only [Bool.false_eq_true, if_false]
  cases (if i = 0 then a.source else a.compiled) with
  | none => exact test_files w _ _ _
  | some s => exact test_files w _ _ _

theorem directory_lisp (w : World) (a : Args) (base : String) (v : Vars) (hn : v.name = none)
    (he : v.err = false) (hs : Stale w v.try_) :
    ∃ v', directory w.files a false base v = (v', false) ∧ v'.err = false ∧
      v'.name = inDirectory w a base ∧ (v'.name = none → Stale w v'.try_) := by
  obtain ⟨name, t, err⟩ := v
  simp only at hn he hs
  subst hn he
  unfold directory inDirectory
  have hx : w.files.expand a.file base = some (w.expand a.file base) := rfl
  have hy : ∀ x, w.files.exists_ x = some (w.there x) := fun _ => rfl
  simp only [hx, hy, Bool.false_or, Bool.not_false, Bool.true_and]
  generalize w.expand a.file base = dir
  cases hns : a.noSuffix with
  | true =>
    simp only [Bool.not_true, Bool.false_eq_true, if_false, Option.isNone_none, Bool.and_self, if_true]
    cases hth : w.there dir with
    | true => exact ⟨_, rfl, rfl, rfl, by simp⟩
    | false => exact ⟨_, rfl, rfl, rfl, fun _ => hs⟩
  | false =>
    simp only [Bool.not_false, if_true, Bool.and_false, Bool.false_eq_true, if_false, suffix_lisp]
    have hst : ∀ {x}, w.there x = false → Stale w (some x) := by
      intro x h y hy
      cases hy
      exact h
    cases hin : a.interp with
    | true =>
      simp only [if_true, Bool.false_eq_true, if_false]
      refine ⟨_, rfl, rfl, ?_⟩
      cases a.source with
      | none =>
        cases t with
        | none => exact ⟨rfl, fun _ => hs⟩
        | some t => simp [bump, hs t rfl, hs]
      | some s =>
        cases hth : w.there (dir ++ s) with
        | true => simp [Option.filter, hth, bump]
        | false => simp [Option.filter, hth, bump, hst hth]
    | false =>
      simp only [if_true, Bool.false_eq_true, if_false, Nat.one_ne_zero]
      refine ⟨_, rfl, rfl, ?_⟩
      cases a.compiled with
      | none =>
        cases a.source with
        | none =>
          cases t with
          | none => exact ⟨rfl, fun _ => hs⟩
          | some t => simp [bump, hs t rfl, hs, prefer]
        | some s =>
          have h1 : bump w none t = none := by
            cases t with
            | none => rfl
            | some t => simp [bump, hs t rfl]
          simp only [Option.map_none, Option.none_or, Option.map_some, Option.some_or, h1]
          cases hth : w.there (dir ++ s) with
          | true => simp [Option.filter, hth, bump, prefer]
          | false => simp [Option.filter, hth, bump, prefer, hst hth]
      | some c =>
        cases hc : w.there (dir ++ c) with
        | true =>
          cases a.source with
          | none => simp [Option.filter, hc, bump, prefer, w.irrefl]
          | some s =>
            cases hth : w.there (dir ++ s) with
            | true =>
              cases hnw : w.newer (dir ++ s) (dir ++ c) <;>
                simp [Option.filter, hth, hc, bump, prefer, hnw]
            | false => simp [Option.filter, hth, hc, bump, prefer]
        | false =>
          cases a.source with
          | none => simp [Option.filter, hc, bump, prefer, hst hc]
          | some s =>
            cases hth : w.there (dir ++ s) with
            | true => simp [Option.filter, hth, hc, bump, prefer]
            | false => simp [Option.filter, hth, hc, bump, prefer, hst hth]

theorem directory_dl (w : World) (a : Args) (base : String) (v : Vars) (hn : v.name = none)
    (he : v.err = false) :
    ∃ v', directory w.files a true base v = (v', false) ∧ v'.err = false ∧
      v'.name = inDlDirectory w a base := by
  obtain ⟨name, t, err⟩ := v
  simp only at hn he
  subst hn he
  unfold directory inDlDirectory
  have hx : ∀ f, w.files.expand f base = some (w.expand f base) := fun _ => rfl
  simp only [hx, Bool.true_or, Bool.not_true, Bool.false_and, Bool.false_eq_true, if_false, if_true,
    suffix, setTry, Nat.zero_ne_one, test_files]
  refine ⟨_, rfl, rfl, ?_⟩
  generalize w.expand a.file base ++ ".so" = c
  generalize w.expand ("lib" ++ a.file ++ ".so") base = s
  simp only
  cases hc : w.there c <;> cases hth : w.there s <;> cases hnw : w.newer s c <;>
    simp [Option.filter, hth, hc, bump, prefer, hnw]

theorem scan_lisp (w : World) (a : Args) : ∀ (path : List (Option String)) (v : Vars),
    v.name = none → v.err = false → Stale w v.try_ →
    ∃ v', scan w.files a false path v = (v', false) ∧ v'.err = false ∧
      v'.name = (path.filterMap id).findSome? (inDirectory w a)
  | [], v, hn, he, _ => ⟨v, rfl, he, hn⟩
  | none :: path, v, hn, he, hs => by
    obtain ⟨v', h1, h2, h3⟩ := scan_lisp w a path v hn he hs
    exact ⟨v', by simp [scan, hn, he, h1], h2, by simpa using h3⟩
  | some d :: path, v, hn, he, hs => by
    obtain ⟨v1, h1, h2, h3, h4⟩ := directory_lisp w a d v hn he hs
    cases hv : v1.name with
    | none =>
      obtain ⟨v', h5, h6, h7⟩ := scan_lisp w a path v1 hv h2 (h4 hv)
      rw [hv] at h3
      exact ⟨v', by simp [scan, hn, h1, h2, h5], h6, by
        simpa [List.findSome?_cons, ← h3] using h7⟩
    | some x =>
      refine ⟨v1, ?_, h2, ?_⟩
      · have : scan w.files a false path v1 = (v1, false) := by
          cases path <;> simp [scan, hv]
        simp [scan, hn, h1, h2, this]
      · rw [hv] at h3 ⊢
        simp [List.findSome?_cons, ← h3]

theorem scan_dl (w : World) (a : Args) : ∀ (path : List (Option String)) (v : Vars),
    v.name = none → v.err = false →
    ∃ v', scan w.files a true path v = (v', false) ∧ v'.err = false ∧
      v'.name = (path.filterMap id).findSome? (inDlDirectory w a)
  | [], v, hn, he => ⟨v, rfl, he, hn⟩
  | none :: path, v, hn, he => by
    obtain ⟨v', h1, h2, h3⟩ := scan_dl w a path v hn he
    exact ⟨v', by simp [scan, hn, he, h1], h2, by simpa using h3⟩
  | some d :: path, v, hn, he => by
    obtain ⟨v1, h1, h2, h3⟩ := directory_dl w a d v hn he
    cases hv : v1.name with
    | none =>
      obtain ⟨v', h5, h6, h7⟩ := scan_dl w a path v1 hv h2
      rw [hv] at h3
      exact ⟨v', by simp [scan, hn, h1, h2, h5], h6, by
        simpa [List.findSome?_cons, ← h3] using h7⟩
    | some x =>
      refine ⟨v1, ?_, h2, ?_⟩
      · have : scan w.files a true path v1 = (v1, false) := by
          cases path <;> simp [scan, hv]
        simp [scan, hn, h1, h2, this]
      · rw [hv] at h3 ⊢
        simp [List.findSome?_cons, ← h3]

/-- C82: with every file system, every path and all arguments, `load` loads the file
of the first directory of `load-path` that has one; the compiled file, unless its
source is newer; and a shared library only if there is none. -/
theorem C82_search_partial (w : World) (a : Args) : search w.files a = (expected w a, false) := by
  unfold search expected
  have hp : (if a.noPath then [""] else a.loadPath.filterMap id) =
      (if a.noPath then [some ""] else a.loadPath).filterMap id := by split <;> rfl
  have hd : (if a.noPath then [""] else a.dlLoadPath.filterMap id) =
      (if a.noPath then [some ""] else a.dlLoadPath).filterMap id := by split <;> rfl
  rw [hp, hd]
  obtain ⟨v1, h1, h2, h3⟩ := scan_lisp w a (if a.noPath then [some ""] else a.loadPath)
    ⟨none, none, false⟩ rfl rfl (fun x h => nomatch h)
  simp only [h1, Bool.false_eq_true, if_false, ← h3]
  cases hv : v1.name with
  | some n => simp [h2]
  | none =>
    obtain ⟨v2, h4, h5, h6⟩ := scan_dl w a (if a.noPath then [some ""] else a.dlLoadPath) v1 hv h2
    simp only [h4, h5, ← h6]

/-- Two directories: the second has a newer compiled file, the first an outdated one. -/
def twoDirs : World where
  expand := fun f d => d ++ f
  there := fun x => x ∈ ["/a/x.jlc", "/a/x.jl", "/b/x.jlc", "/b/x", "/c/liby.so"]
  newer := fun x y => (x, y) == ("/a/x.jl", "/a/x.jlc")
  irrefl := by
    intro x
    by_contra h
    have h : x = "/a/x.jl" ∧ x = "/a/x.jlc" := by simpa using h
    exact absurd (h.1.symm.trans h.2) (by decide)

def twoArgs : Args := ⟨"x", false, false, false, some ".jl", some ".jlc",
  [some "/c/", none, some "/a/", some "/b/"], [some "/c/"]⟩

example : search twoDirs.files twoArgs = (.file "/a/x.jl" false, false) := by decide +kernel
example : search twoDirs.files { twoArgs with noSuffix := true } = (.file "/b/x" false, false) := by
  decide +kernel
example : search twoDirs.files { twoArgs with file := "y" } = (.file "/c/liby.so" true, false) := by
  decide +kernel
example : search twoDirs.files { twoArgs with file := "z" } = (.nothing, false) := by decide +kernel

/-- `If NO-SUFFIX is non-nil no suffixes are appended to FILE`: but those of shared
libraries are. -/
theorem C82_no_suffix_violated : ∃ (w : World) (a : Args), a.noSuffix = true ∧
    search w.files a = (.file "x.so" true, false) := by
  refine ⟨⟨fun f _ => f, fun x => x = "x.so", fun _ _ => false, fun _ => rfl⟩,
    ⟨"x", true, true, false, some ".jl", some ".jlc", [], []⟩, rfl, ?_⟩
  decide +kernel

/-- `finally tries FILE without modification`: a file without a suffix is not found. -/
theorem C82_unmodified_violated : ∃ (w : World) (a : Args), a.noSuffix = false ∧
    w.there (w.expand a.file "") = true ∧ search w.files a = (.nothing, false) := by
  refine ⟨⟨fun f _ => f, fun x => x = "x", fun _ _ => false, fun _ => rfl⟩,
    ⟨"x", true, false, false, some ".jl", some ".jlc", [], []⟩, rfl, ?_, ?_⟩ <;> decide +kernel

/-- An error while the source is looked for, after the compiled file was found: the
compiled file is loaded, with the error pending. -/
theorem C82_error_pending_violated : ∃ (fs : Files) (a : Args),
    search fs a = (.file "x.jlc" false, true) := by
  refine ⟨⟨fun f _ => some f, fun x => if x = "x.jl" then none else some (x = "x.jlc"),
      fun _ _ => false⟩,
    ⟨"x", true, false, false, some ".jl", some ".jlc", [], []⟩, ?_⟩
  decide +kernel

end Rep.Search
