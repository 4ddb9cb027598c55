import Verif.Remote.Model

/-
Specification vocabulary for the protocol of remote files: what a command does when it is applied
to the files directly, and the ways in which bytes may travel.
-/

namespace Rep.Remote

/-- The command applied to the files of the other machine: the new state and the result.  Records
of a directory come last first. -/
def direct {σ : Type} (F : Files σ) (s : σ) : Cmd → σ × Result
  | .simple t args => match F.simple t args s with
    | (s', none) => (s', .done)
    | (s', some e) => (s', .error e)
  | .get name => match F.get s name with
    | .ok d => (s, .contents d)
    | .error e => (s, .error e)
  | .put name data => match F.put s name with
    | .ok write => (write data, .done)
    | .error e => (s, .error e)
  | .link name => match F.readlink s name with
    | .ok l => (s, .link l)
    | .error e => (s, .error e)
  | .dir name => match F.readdir s name with
    | .ok l => (s, .entries l.reverse)
    | .error e => (s, .error e)

/-- The pieces in which the reply reaches the client: any division of it. -/
def Chopped (reply : Bytes) (pieces : List Bytes) : Prop :=
  pieces.flatten = reply ∧ ∀ p ∈ pieces, p ≠ []

/-- The pieces in which the writes of the client reach the server: each write whole, alone or
together with the ones after it. -/
inductive Arrives : List Bytes → List Bytes → Prop where
  | nil : Arrives [] []
  | empty {cs ws} : Arrives cs ws → Arrives cs ([] :: ws)
  | alone {w cs ws} : w ≠ [] → Arrives cs ws → Arrives (w :: cs) (w :: ws)
  | together {w c cs ws} : w ≠ [] → Arrives (c :: cs) ws → Arrives ((w ++ c) :: cs) (w :: ws)

/-- A string whose length can be sent. -/
def Short (b : Bytes) : Prop := b.length < 2 ^ 32

instance (b : Bytes) : Decidable (Short b) := inferInstanceAs (Decidable (_ < _))

/-- A name that arrives: no null character, a length that can be sent. -/
def Name (b : Bytes) : Prop := 0 ∉ b ∧ Short b

instance (b : Bytes) : Decidable (Name b) := inferInstanceAs (Decidable (_ ∧ _))

/-- What the files hold can be sent; messages do not contain the character 2. -/
structure FilesOk {σ : Type} (F : Files σ) : Prop where
  simple : ∀ t args s s' e, F.simple t args s = (s', some e) → Short e ∧ 2 ∉ e
  get : ∀ s n, (∀ d, F.get s n = .ok d → Short d) ∧ ∀ e, F.get s n = .error e → Short e ∧ 2 ∉ e
  link : ∀ s n, (∀ d, F.readlink s n = .ok d → Short d) ∧ ∀ e, F.readlink s n = .error e → Short e ∧ 2 ∉ e
  dir : ∀ s n, (∀ l, F.readdir s n = .ok l → ∀ d ∈ l, Short d) ∧ ∀ e, F.readdir s n = .error e → Short e ∧ 2 ∉ e

/-- The commands without data that the client sends, with the number of names that it sends with
each: delete file, rename, delete directory, make directory, set modes, make link. -/
def operations : List (Nat × Nat) :=
  [('R'.toNat, 1), ('M'.toNat, 2), ('r'.toNat, 1), ('m'.toNat, 1), ('c'.toNat, 2), ('L'.toNat, 2)]

/-- A command that the client can send in state `s`: names that arrive, the right number of them,
and a file that can be written if it is to be. -/
def Legal {σ : Type} (F : Files σ) (s : σ) : Cmd → Prop
  | .simple t args => (t, args.length) ∈ operations ∧ ∀ a ∈ args, Name a
  | .get name => Name name
  | .put name data => Name name ∧ Short data ∧ ∃ w, F.put s name = .ok w
  | .link name => Name name
  | .dir name => Name name

/-- An error reply to `get`. -/
def GetFails {σ : Type} (F : Files σ) (s : σ) : Cmd → Prop
  | .get name => ∃ e, F.get s name = .error e
  | _ => False

end Rep.Remote
