/-
C85, continued: which functions are called, with which arguments, for handlers whose
functions on names do the obvious.
-/
import Verif.Handler.Props

namespace Rep.Handler

variable {W : Type}

/-! ### Specification -/

/-- Every name is absolute, `xp` is its expansion; a file with a handler is not a local
one. -/
structure Names (sys : Sys W) (xp : String → String) : Prop where
  absB : ∀ f w, sys.builtin .absoluteP [.str f] w = (some (.other 1), w)
  abs : ∀ h f, sys.handler h .absoluteP [.str f] = .ret (some (.other 1))
  expB : ∀ f w, sys.builtin .expand [.str f] w = (some (.str (xp f)), w)
  exp : ∀ h f, sys.handler h .expand [.str f] = .ret (some (.str (xp f)))
  loc : ∀ h f, sys.handler h .localName [.str f] = .ret (some .nil)

/-- The handler of a name: the first whose pattern matches. -/
def handlerOf (sys : Sys W) (name : String) : Option Nat :=
  (sys.alist.find? fun e => e.1 name).map Prod.snd

/-- From one point of a run to another. -/
def Leads (sys : Sys W) (p : Prog W) (st : St W) (p' : Prog W) (st' : St W) : Prop :=
  ∃ c, ∀ n, run sys (n + 1 + c) p st = run sys (n + 1) p' st'

/-- The same, nothing but the log having changed. -/
def Goes (sys : Sys W) (p p' : Prog W) : Prop :=
  ∀ w log, ∃ log', Leads sys p ⟨w, fun _ => [], log⟩ p' ⟨w, fun _ => [], log'⟩

/-! ### Lemmas -/

theorem Leads.trans {sys : Sys W} {p p' p'' : Prog W} {st st' st'' : St W}
    (h : Leads sys p st p' st') (g : Leads sys p' st' p'' st'') : Leads sys p st p'' st'' := by
  obtain ⟨c, hc⟩ := h
  obtain ⟨d, hd⟩ := g
  refine ⟨d + c, fun n => ?_⟩
  rw [← hd n, ← show n + d + 1 = n + 1 + d by omega, ← hc (n + d)]
  congr 1; omega

theorem Goes.trans {sys : Sys W} {p p' p'' : Prog W} (h : Goes sys p p') (g : Goes sys p' p'') :
    Goes sys p p'' := by
  intro w log
  obtain ⟨l1, h1⟩ := h w log
  obtain ⟨l2, h2⟩ := g w l1
  exact ⟨l2, h1.trans h2⟩

theorem handlerOf_eq (sys : Sys W) (name : String) : lookup sys.alist [] name = handlerOf sys name := by
  unfold handlerOf
  induction sys.alist with
  | nil => rfl
  | cons e l ih =>
    obtain ⟨p, h⟩ := e
    simp only [lookup, List.find?]
    by_cases hp : p name = true
    · simp [hp]
    · simp [hp, ih]

theorem goes_find (sys : Sys W) (op : Op) (name : String) (k : Option Nat → Prog W) :
    Goes sys (.find op name k) (k (handlerOf sys name)) := by
  intro w log
  refine ⟨log ++ [.found op name (lookup sys.alist [] name)], 1, fun n => ?_⟩
  rw [← handlerOf_eq]
  rfl

theorem goes_builtin {sys : Sys W} {op : Op} {args : List Val} {v : Option Val}
    (h : ∀ w, sys.builtin op args w = (v, w)) (k : Option Val → Prog W) :
    Goes sys (.builtin op args k) (k v) := by
  intro w log
  refine ⟨log, 1, fun n => ?_⟩
  show run sys (n + 1) (k (sys.builtin op args w).1) _ = _
  simp only [h]

theorem goes_enter {sys : Sys W} {x : Nat} {op : Op} {args : List Val} {v : Option Val}
    (h : sys.handler x op args = .ret v) (k : Option Val → Prog W) :
    Goes sys (.enter x op args k) (k v) := by
  intro w log
  refine ⟨log ++ [.enter x op] ++ [.leave x op], 1, fun n => ?_⟩
  have e : setBlocked (setBlocked (fun _ => []) op [x]) op [] = fun _ => ([] : List Nat) := by
    funext o
    simp [setBlocked]
  rw [run]
  simp only [h, compile, run, e]

theorem goes_dispatch {sys : Sys W} {op : Op} {args : List Val} {v : Option Val}
    (hb : ∀ w, sys.builtin op args w = (v, w)) (hh : ∀ x, sys.handler x op args = .ret v)
    (name : String) (k : Option Val → Prog W) : Goes sys (dispatch op name args k) (k v) := by
  refine (goes_find sys op name _).trans ?_
  cases handlerOf sys name with
  | none => exact goes_builtin hb k
  | some x => exact goes_enter (hh x) k

theorem goes_expand {sys : Sys W} {xp : String → String} (ok : Names sys xp) (file dir : String) (k : Option Val → Prog W) :
    Goes sys (expandFileName file dir k) (k (some (.str (xp file)))) := by
  refine (goes_dispatch (ok.absB file) (fun x => ok.abs x file) file _).trans ?_
  exact goes_dispatch (ok.expB file) (fun x => ok.exp x file) file k

theorem goes_localise {sys : Sys W} {xp : String → String} (ok : Names sys xp) (op : Op) (file dir : String) (err : Prog W)
    (k : String → Option Nat → Prog W) :
    Goes sys (localiseAndFind op file dir err k) (k (xp file) (handlerOf sys (xp file))) := by
  unfold localiseAndFind localFileName expandAndFind
  refine (goes_expand ok file dir _).trans ?_
  refine (goes_find sys .localName (xp file) _).trans ?_
  cases hf : handlerOf sys (xp file) with
  | none =>
    simp only
    have := goes_find sys op (xp file) (k (xp file))
    rwa [hf] at this
  | some x =>
    refine (goes_enter (ok.loc x (xp file)) _).trans ?_
    refine (goes_expand ok file dir _).trans ?_
    have := goes_find sys op (xp file) (k (xp file))
    rwa [hf] at this

/-! ### Theorems -/

/-- C85 (`copy-file`): a copy between local files is made by the local function, one
within a handler by its `copy-file`; from a local file by `copy-file-from-local-fs` of
the handler of the destination, to a local file by `copy-file-to-local-fs` of the
handler of the source; and from one handler to another by both, through a temporary
file, the second only if the first was no error.  The names are the expanded ones. -/
theorem C85_copy (sys : Sys W) (xp : String → String) (ok : Names sys xp) (src dst dir : String)
    (k : Option Val → Prog W) :
    (handlerOf sys (xp src) = none → handlerOf sys (xp dst) = none →
      Goes sys (perform sys.tmp (.copy src dst dir) k) (.builtin .copy [.str (xp src), .str (xp dst)] k)) ∧
    (∀ h, handlerOf sys (xp src) = none → handlerOf sys (xp dst) = some h →
      Goes sys (perform sys.tmp (.copy src dst dir) k) (.enter h .copyFrom [.str (xp src), .str (xp dst)] k)) ∧
    (∀ h, handlerOf sys (xp src) = some h → handlerOf sys (xp dst) = none →
      Goes sys (perform sys.tmp (.copy src dst dir) k) (.enter h .copyTo [.str (xp src), .str (xp dst)] k)) ∧
    (∀ h, handlerOf sys (xp src) = some h → handlerOf sys (xp dst) = some h →
      Goes sys (perform sys.tmp (.copy src dst dir) k) (.enter h .copy [.str (xp src), .str (xp dst)] k)) ∧
    (∀ h h', handlerOf sys (xp src) = some h → handlerOf sys (xp dst) = some h' → h ≠ h' →
      ∃ k', Goes sys (perform sys.tmp (.copy src dst dir) k)
          (.enter h .copyTo [.str (xp src), .str sys.tmp] k') ∧
        k' none = k none ∧ ∀ v, k' (some v) = .enter h' .copyFrom [.str sys.tmp, .str (xp dst)] k) := by
  have key : ∀ p : Prog W, (match handlerOf sys (xp src), handlerOf sys (xp dst) with
      | none, none => Prog.builtin .copy [.str (xp src), .str (xp dst)] k
      | none, some h => .enter h .copyFrom [.str (xp src), .str (xp dst)] k
      | some h, none => .enter h .copyTo [.str (xp src), .str (xp dst)] k
      | some h, some h' =>
        if h = h' then .enter h .copy [.str (xp src), .str (xp dst)] k
        else .enter h .copyTo [.str (xp src), .str sys.tmp] fun
          | none => k none
          | some _ => .enter h' .copyFrom [.str sys.tmp, .str (xp dst)] k) = p →
      Goes sys (perform sys.tmp (.copy src dst dir) k) p := by
    intro p hp
    subst hp
    refine (goes_localise ok .copy src dir _ _).trans ?_
    exact goes_localise ok .copy dst dir _ _
  refine ⟨fun a b => key _ (by rw [a, b]), fun h a b => key _ (by rw [a, b]),
    fun h a b => key _ (by rw [a, b]), fun h a b => key _ (by rw [a, b]; simp),
    fun h h' a b ne => ⟨fun
          | none => k none
          | some _ => .enter h' .copyFrom [.str sys.tmp, .str (xp dst)] k, key _ (by rw [a, b]; simp only [ne, if_false]), rfl, fun _ => rfl⟩⟩

/-- C85 (`rename-file`): a local operation, or one of the handler of both files; an error
when the files have different handlers. -/
theorem C85_rename (sys : Sys W) (xp : String → String) (ok : Names sys xp) (old new dir : String)
    (k : Option Val → Prog W) :
    (handlerOf sys (xp old) = none → handlerOf sys (xp new) = none →
      Goes sys (perform sys.tmp (.rename old new dir) k) (.builtin .rename [.str (xp old), .str (xp new)] k)) ∧
    (∀ h, handlerOf sys (xp old) = some h → handlerOf sys (xp new) = some h →
      Goes sys (perform sys.tmp (.rename old new dir) k) (.enter h .rename [.str (xp old), .str (xp new)] k)) ∧
    (handlerOf sys (xp old) ≠ handlerOf sys (xp new) →
      Goes sys (perform sys.tmp (.rename old new dir) k) (k none)) := by
  have key : ∀ p : Prog W, (if handlerOf sys (xp old) = handlerOf sys (xp new) then
      match handlerOf sys (xp old) with
        | none => Prog.builtin .rename [.str (xp old), .str (xp new)] k
        | some h => .enter h .rename [.str (xp old), .str (xp new)] k
      else k none) = p →
      Goes sys (perform sys.tmp (.rename old new dir) k) p := by
    intro p hp
    subst hp
    refine (goes_localise ok .rename old dir _ _).trans ?_
    exact goes_localise ok .rename new dir _ _
  exact ⟨fun a b => key _ (by rw [a, b]; simp), fun h a b => key _ (by rw [a, b]; simp),
    fun ne => key _ (by simp [ne])⟩

/-- C85 (other operations on a file): the handler gets the operation, with the expanded
name and the other arguments. -/
theorem C85_file (sys : Sys W) (xp : String → String) (ok : Names sys xp) (i : Fin 30) (file dir : String)
    (args : List Val) (k : Option Val → Prog W) :
    (handlerOf sys (xp file) = none → Goes sys (perform sys.tmp (.file i file dir args) k)
      (.builtin (.file i) (.str (xp file) :: args) k)) ∧
    (∀ h, handlerOf sys (xp file) = some h → Goes sys (perform sys.tmp (.file i file dir args) k)
      (.enter h (.file i) (.str (xp file) :: args) k)) := by
  have key : Goes sys (perform sys.tmp (.file i file dir args) k)
      (match handlerOf sys (xp file) with
        | none => .builtin (.file i) (.str (xp file) :: args) k
        | some h => .enter h (.file i) (.str (xp file) :: args) k) := by
    unfold perform expandAndFind
    refine (goes_expand ok file dir _).trans ?_
    refine (goes_find sys (.file i) (xp file) _).trans ?_
    exact fun w log => ⟨log, 0, fun n => rfl⟩
  exact ⟨fun a => by rwa [a] at key, fun h a => by rwa [a] at key⟩

/-- C85 (`expand-file-name`, local names): a name that is not absolute is taken relative
to the directory: the expansion of the two together. -/
theorem C85_expand (sys : Sys W) (file dir dirname : String) (v : Option Val)
    (h1 : handlerOf sys file = none) (h2 : handlerOf sys dir = none)
    (h3 : handlerOf sys (dirname ++ file) = none)
    (a1 : ∀ w, sys.builtin .absoluteP [.str file] w = (some .nil, w))
    (a2 : ∀ w, sys.builtin .asDirectory [.str dir] w = (some (.str dirname), w))
    (a3 : ∀ w, sys.builtin .expand [.str (dirname ++ file)] w = (v, w))
    (k : Option Val → Prog W) : Goes sys (perform sys.tmp (.expand file dir) k) (k v) := by
  have loc : ∀ {op name args r} (k : Option Val → Prog W), handlerOf sys name = none →
      (∀ w, sys.builtin op args w = (r, w)) → Goes sys (dispatch op name args k) (k r) := by
    intro op name args r k hn hb
    have := goes_find sys op name (fun
      | none => Prog.builtin op args k
      | some h => .enter h op args k)
    rw [hn] at this
    exact this.trans (goes_builtin hb k)
  refine (loc _ h1 a1).trans ?_
  refine (loc _ h2 a2).trans ?_
  have e : (if dirname.length > 0 then dirname ++ file else file) = dirname ++ file := by
    by_cases z : dirname.length > 0
    · simp [z]
    · have : dirname = "" := by
        have : dirname.length = 0 := by omega
        exact String.length_eq_zero_iff.1 this
      subst this
      simp
  simp only [e]
  exact loc k h3 a3

/-- Two remote file systems. -/
def remote : Sys Unit :=
  { alist := [(fun s => s == "r1/", 0), (fun s => s == "r2/", 1)]
    handler := fun _ op args => match op, args with
      | .absoluteP, _ => .ret (some (.other 1))
      | .expand, [.str a] => .ret (some (.str (a ++ "/")))
      | .localName, _ => .ret (some .nil)
      | _, _ => .ret (some (.other 1))
    builtin := fun op args w => match op, args with
      | .expand, [.str a] => (some (.str (a ++ "/")), w)
      | _, _ => (some (.other 1), w)
    tmp := "tmp" }

example : Names remote (· ++ "/") := ⟨fun _ _ => rfl, fun _ _ => rfl, fun _ _ => rfl, fun _ _ => rfl, fun _ _ => rfl⟩
example : handlerOf remote "r1/" = some 0 ∧ handlerOf remote "r2/" = some 1 ∧
    handlerOf remote "/tmp" = none := by decide

end Rep.Handler
