import Verif.Asm.Spec
import Verif.Disasm.Model
/-!
# What a listing should say

The instructions are those the virtual machine fetches (`Rep.Asm.Spec.fetch`), with the names of src/bytecodes.h.
-/
namespace Rep.Disasm.Spec

open Rep.Asm.Spec (Raw fetch)

/-- src/bytecodes.h: the instructions, without `OP_`. -/
def header : List (Nat × String) :=
  [(0x00, "SLOT_REF"), (0x08, "CALL"), (0x10, "PUSH"), (0x18, "REFG"), (0x20, "SETG"), (0x28, "SETN"),
   (0x30, "SLOT_SET"), (0x38, "REFN"), (0x40, "REF"), (0x41, "_SET"), (0x42, "FLUID_REF"), (0x43, "ENCLOSE"),
   (0x44, "INIT_BIND"), (0x45, "UNBIND"), (0x46, "DUP"), (0x47, "SWAP"), (0x48, "POP"), (0x49, "NIL"),
   (0x4a, "T"), (0x4b, "CONS"), (0x4c, "CAR"), (0x4d, "CDR"), (0x4e, "RPLACA"), (0x4f, "RPLACD"),
   (0x50, "NTH"), (0x51, "NTHCDR"), (0x52, "ASET"), (0x53, "AREF"), (0x54, "LENGTH"), (0x55, "BIND"),
   (0x56, "ADD"), (0x57, "NEG"), (0x58, "SUB"), (0x59, "MUL"), (0x5a, "DIV"), (0x5b, "REM"),
   (0x5c, "LNOT"), (0x5d, "NOT"), (0x5e, "LOR"), (0x5f, "LAND"), (0x60, "EQUAL"), (0x61, "EQ"),
   (0x62, "STRUCT_REF"), (0x63, "SCM_TEST"), (0x64, "GT"), (0x65, "GE"), (0x66, "LT"), (0x67, "LE"),
   (0x68, "INC"), (0x69, "DEC"), (0x6a, "ASH"), (0x6b, "ZEROP"), (0x6c, "NULL"), (0x6d, "ATOM"),
   (0x6e, "CONSP"), (0x6f, "LISTP"), (0x70, "NUMBERP"), (0x71, "STRINGP"), (0x72, "VECTORP"), (0x73, "CATCH"),
   (0x74, "THROW"), (0x75, "BINDERR"), (0x76, "RETURN"), (0x77, "UNBINDALL"), (0x78, "BOUNDP"), (0x79, "SYMBOLP"),
   (0x7a, "GET"), (0x7b, "PUT"), (0x7c, "ERRORPRO"), (0x7d, "SIGNAL"), (0x7e, "QUOTIENT"), (0x7f, "REVERSE"),
   (0x80, "NREVERSE"), (0x81, "ASSOC"), (0x82, "ASSQ"), (0x83, "RASSOC"), (0x84, "RASSQ"), (0x85, "LAST"),
   (0x86, "MAPCAR"), (0x87, "MAPC"), (0x88, "MEMBER"), (0x89, "MEMQ"), (0x8a, "DELETE"), (0x8b, "DELQ"),
   (0x8c, "DELETE_IF"), (0x8d, "DELETE_IF_NOT"), (0x8e, "COPY_SEQUENCE"), (0x8f, "SEQUENCEP"), (0x90, "FUNCTIONP"), (0x91, "SPECIAL_FORM_P"),
   (0x92, "SUBRP"), (0x93, "EQL"), (0x94, "LXOR"), (0x95, "MAX"), (0x96, "MIN"), (0x97, "FILTER"),
   (0x98, "MACROP"), (0x99, "BYTECODEP"), (0x9a, "PUSHI0"), (0x9b, "PUSHI1"), (0x9c, "PUSHI2"), (0x9d, "PUSHIM1"),
   (0x9e, "PUSHIM2"), (0x9f, "PUSHI"), (0xa0, "PUSHIWN"), (0xa1, "PUSHIWP"), (0xa2, "CAAR"), (0xa3, "CADR"),
   (0xa4, "CDAR"), (0xa5, "CDDR"), (0xa6, "CADDR"), (0xa7, "CADDDR"), (0xa8, "CADDDDR"), (0xa9, "CADDDDDR"),
   (0xaa, "CADDDDDDR"), (0xab, "CADDDDDDDR"), (0xac, "FLOOR"), (0xad, "CEILING"), (0xae, "TRUNCATE"), (0xaf, "ROUND"),
   (0xb0, "APPLY"), (0xb1, "FORBID"), (0xb2, "PERMIT"), (0xb3, "EXP"), (0xb4, "LOG"), (0xb5, "SIN"),
   (0xb6, "COS"), (0xb7, "TAN"), (0xb8, "SQRT"), (0xb9, "EXPT"), (0xba, "SWAP2"), (0xbb, "MOD"),
   (0xbc, "MAKE_CLOSURE"), (0xbd, "UNBINDALL_0"), (0xbe, "CLOSUREP"), (0xbf, "POP_ALL"), (0xc0, "FLUID_SET"), (0xc1, "FLUID_BIND"),
   (0xc2, "MEMQL"), (0xc3, "NUM_EQ"), (0xc4, "TEST_SCM"), (0xc5, "TEST_SCM_F"), (0xc6, "_DEFINE"), (0xc7, "SPEC_BIND"),
   (0xc8, "SET"), (0xc9, "REQUIRED_ARG"), (0xca, "OPTIONAL_ARG"), (0xcb, "REST_ARG"), (0xcc, "NOT_ZERO_P"), (0xcd, "KEYWORD_ARG"),
   (0xce, "OPTIONAL_ARG_"), (0xcf, "KEYWORD_ARG_"), (0xf8, "EJMP"), (0xf9, "JPN"), (0xfa, "JPT"), (0xfb, "JMP"),
   (0xfc, "JN"), (0xfd, "JT"), (0xfe, "JNP"), (0xff, "JTP")]

/-- Names which the listing has in another form. -/
def special : List (String × String) :=
  [("NIL", "push\t()"), ("T", "push\tt"), ("STRUCT_REF", "structure-ref"), ("PUSHI0", "pushi\t0"),
   ("PUSHI1", "pushi\t1"), ("PUSHI2", "pushi\t2"), ("PUSHIM1", "pushi\t-1"), ("PUSHIM2", "pushi\t-2"),
   ("PUSHI", "pushi\t%d"), ("PUSHIWN", "pushi\t%d"), ("PUSHIWP", "pushi\t%d"), ("OPTIONAL_ARG_", "optional-arg*"),
   ("KEYWORD_ARG_", "keyword-arg*"), ("_SET", "%set"), ("_DEFINE", "%define")]

def upper : List Char := "ABCDEFGHIJKLMNOPQRSTUVWXYZ_".toList
def lower : List Char := "abcdefghijklmnopqrstuvwxyz-".toList

def letter (c : Char) : Char := ((upper.zip lower).lookup c).getD c

/-- The name of an instruction in a listing, jumps have their address after it. -/
def mnemonic (op : Nat) : Option (List Char) :=
  (header.lookup op).map fun n =>
    match special.lookup n with
    | some s => s.toList
    | none => n.toList.map letter ++ (if 0xf8 ≤ op then "\t%d".toList else [])

/-- The operand of an instruction: constants for `push`, `refg` and `setg`, signed numbers for `pushi`. -/
def operand (consts : List Const) (r : Raw) : Operand :=
  match r.arg with
  | none => .none
  | some n =>
    if r.op = 0x10 then (if consts[n]? = some .code then .listing n else .const n)
    else if r.op = 0x18 ∨ r.op = 0x20 then .const n
    else if r.op < 0x40 then .slot n
    else if r.op = 0x9f then .num (if n < 128 then (n : Int) else n - 256)
    else if r.op = 0xa0 then .num (-(n : Int))
    else .num n

/-- The line shows the instruction at the address. -/
def Shows (consts : List Const) (pc : Nat) (r : Raw) (l : Line) : Prop :=
  l.pc = pc ∧ some l.name.toList = mnemonic r.op ∧ l.operand = operand consts r

/-- The instructions which the machine fetches one after the other, from the address to the end. -/
inductive Insns (byte : Nat → Nat) (n : Nat) : Nat → List (Nat × Raw) → Prop
  | done : Insns byte n n []
  | step {pc : Nat} {l : List (Nat × Raw)} : (fetch byte pc).2 ≤ n → Insns byte n (fetch byte pc).2 l →
      Insns byte n pc ((pc, (fetch byte pc).1) :: l)

/-- Instructions which exist and whose constants do. -/
def Good (consts : List Const) (r : Raw) : Prop :=
  (mnemonic r.op).isSome ∧ ∀ n, r.arg = some n → r.op = 0x10 ∨ r.op = 0x18 ∨ r.op = 0x20 → n < consts.length

/-- The byte at an address of the code. -/
def byteOf (code : List Nat) (i : Nat) : Nat := (code[i]?).getD 0

end Rep.Disasm.Spec
