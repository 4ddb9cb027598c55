import Verif.Stream.Model

/-
What C65 and C66 say, in terms of bytes only.
-/

namespace Rep.Stream.Spec

/-- What an output stream answers. -/
inductive Reply
  | wrote (n : Int)
  | refused
  | text (bs : List Byte)
  deriving DecidableEq, Repr

/-- An output stream is the bytes written since it was last emptied. -/
def step (p : List Byte) : Op → List Byte × Reply
  | .char c => (p ++ [BitVec.ofInt 8 c], .wrote 1)
  | .string bs none => (p ++ bs, .wrote bs.length)
  | .string bs (some n) => if 0 ≤ n ∧ n ≤ bs.length then (p ++ bs.take n.toNat, .wrote n) else (p, .refused)
  | .take => ([], .text p)

def run (p : List Byte) : List Op → List Byte × List Reply
  | [] => (p, [])
  | o :: os => ((run (step p o).1 os).1, (step p o).2 :: (run (step p o).1 os).2)

/-- The length given to `write` is an `int`, and the string is one which can exist (`rep_MAX_STRING`,
rep_lisp.h:378). -/
def Op.sane : Op → Prop
  | .string bs (some n) => -2147483648 ≤ n ∧ n < 2147483648 ∧ bs.length < 72057594037927936
  | _ => True

/-- The stream never holds more than a gigabyte. -/
def Small (p : List Byte) : List Op → Prop
  | [] => True
  | o :: os => Op.sane o ∧ (step p o).1.length ≤ 1073741822 ∧ Small (step p o).1 os

/-- An input stream is the bytes still to be read. -/
def rest : Src → List Byte
  | .str pos bs => if 0 ≤ pos then bs.drop pos.toNat else []
  | .file bs => bs

/-- The first line: up to and with the newline, or up to the end. -/
def line (bs : List Byte) : List Byte := bs.takeWhile (· ≠ 10) ++ (bs.dropWhile (· ≠ 10)).take 1

def orNil (t : List Byte) : Option (List Byte) := if t = [] then none else some t

def istep (bs : List Byte) : IOp → IRes × List Byte
  | .char => (.char bs.head?, bs.tail)
  | .peek => (.char bs.head?, bs)
  | .chars n => (.text (orNil (bs.take n.toNat)), bs.drop n.toNat)
  | .line => (.text (orNil (line bs)), bs.drop (line bs).length)

def irun (bs : List Byte) : List IOp → List IRes × List Byte
  | [] => ([], bs)
  | o :: os => ((istep bs o).1 :: (irun (istep bs o).2 os).1, (irun (istep bs o).2 os).2)

end Rep.Stream.Spec
