import Verif.Stream.Format
import Mathlib.Data.Nat.Digits.Defs

/-
What C67 says: a format is a sequence of pieces of text and directives.
-/

namespace Rep.Stream.Spec

inductive Flag
  | minus | caret | zero | plus | space
  deriving DecidableEq, Repr

def Flag.byte : Flag → Byte
  | .minus => 45
  | .caret => 94
  | .zero => 48
  | .plus => 43
  | .space => 32

/-- `%[POSITION$][FLAGS][FIELD-WIDTH][.PRECISION]CONVERSION`; a width of zero is none. -/
structure Dir where
  pos : Option Nat := none
  flags : List Flag := []
  width : Nat := 0
  prec : Option Nat := none
  conv : Byte

inductive Piece
  | text (bs : List Byte)
  | dir (d : Dir)

/-- A number in decimal (nothing for zero). -/
def decimal (n : Nat) : List Byte := (Nat.digits 10 n).reverse.map fun d => BitVec.ofNat 8 (48 + d)

def Dir.posText (d : Dir) : List Byte :=
  match d.pos with
  | none => []
  | some n => decimal n ++ [36]

def Dir.precText (d : Dir) : List Byte :=
  match d.prec with
  | none => []
  | some n => 46 :: decimal n

/-- A directive, as written after the `%`. -/
def Dir.render (d : Dir) : List Byte :=
  d.posText ++ d.flags.map Flag.byte ++ decimal d.width ++ d.precText ++ [d.conv]

/-- The number of its argument, if `k` is the next one. -/
def Dir.arg (d : Dir) (k : Nat) : Nat :=
  match d.pos with
  | none => k
  | some n => n - 1

/-- The format string. -/
def render : List Piece → List Byte
  | [] => []
  | .text bs :: ps => bs ++ render ps
  | .dir d :: ps => 37 :: d.render ++ render ps

/-- The sign asked for: the last one given. -/
def sign (fs : List Flag) : List Byte :=
  match (fs.filter fun f => f == .plus || f == .space).getLast? with
  | none => []
  | some f => [f.byte]

/-- A text in its field: cut to the width if `^` is given, padded to the width with spaces, or with zeros if `0` is
given, on the left, or on the right if `-` is given. -/
def field (d : Dir) (t : List Byte) : List Byte :=
  if d.width ≤ t.length then if Flag.caret ∈ d.flags then t.take d.width else t
  else
    let pad := List.replicate (d.width - t.length) (if Flag.zero ∈ d.flags then 48 else 32)
    if Flag.minus ∈ d.flags then t ++ pad else pad ++ t

/-- A number: with the sign asked for, unless it is negative. -/
def number (d : Dir) (t : List Byte) : List Byte :=
  field d (if t.head? = some 45 then t else sign d.flags ++ t)

def string {V : Type} (e : Env V) (d : Dir) (v : V) : List Byte :=
  match e.str v with
  | none => e.princ v
  | some t => field d t

def Dir.precision (d : Dir) : Int :=
  match d.prec with
  | none => -1
  | some n => n

/-- What a directive stands for, if it and the hook it calls are right. -/
def value {V : Type} (e : Env V) (d : Dir) (v : V) : Option (List Byte) :=
  if d.conv = 99 then some [BitVec.ofInt 8 (e.code v)]
  else if d.conv = 100 then some (number d (e.number v 10 d.precision))
  else if d.conv = 120 ∨ d.conv = 88 then some (number d (e.number v 16 d.precision))
  else if d.conv = 111 then some (number d (e.number v 8 d.precision))
  else if d.conv = 115 then some (string e d v)
  else if d.conv = 83 then some (e.prin1 v)
  else
    match e.hook d.conv with
    | none => none
    | some g =>
      match g v with
      | none => none
      | some none => some (field d [])
      | some (some v) => some (string e d v)

/-- What is written, and whether the end of the format is reached.  `k` is the number of the next argument. -/
def output {V : Type} (e : Env V) (args : List V) : Nat → List Piece → List Byte × Exit
  | _, [] => ([], .done)
  | k, .text bs :: ps => (bs ++ (output e args k ps).1, (output e args k ps).2)
  | k, .dir d :: ps =>
    if d.conv = 37 then (37 :: (output e args (d.arg k) ps).1, (output e args (d.arg k) ps).2)
    else
      match value e d ((args[d.arg k]?).getD e.nil) with
      | none => ([], .error)
      | some t => (t ++ (output e args (d.arg k + 1) ps).1, (output e args (d.arg k + 1) ps).2)

/-- A directive which the theorem is about. -/
structure Dir.Ok (d : Dir) : Prop where
  /-- the conversion is no digit, point, dollar, flag or zero -/
  conv : isDigit d.conv = false ∧ d.conv ≠ 46 ∧ d.conv ≠ 36 ∧ d.conv ≠ 0 ∧ ∀ f : Flag, d.conv ≠ f.byte
  pos : ∀ n, d.pos = some n → 1 ≤ n ∧ n < 1000000000
  width : d.width ≤ 256
  prec : ∀ n, d.prec = some n → n < 1000000000
  /-- a text is cut to a width only if there is one -/
  caret : Flag.caret ∈ d.flags → 1 ≤ d.width
  /-- signs are asked for numbers only -/
  signs : (Flag.plus ∈ d.flags ∨ Flag.space ∈ d.flags) → d.conv ∈ ([99, 100, 120, 88, 111, 83, 37] : List Byte)

def Piece.Ok : Piece → Prop
  | .text bs => ∀ b ∈ bs, b ≠ 37 ∧ b ≠ 0
  | .dir d => d.Ok

end Rep.Stream.Spec
