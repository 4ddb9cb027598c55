import Verif.Peephole.Rules2

/-
The peephole optimiser, lisp/rep/vm/peephole.jl:106-548, rule by rule.

The optimiser works on a list of instructions by destructive update.  An instruction `(jmp X)`
is a cons whose cdr is the cell `(X)`; one of the rules makes two jumps share that cell and
another one stores into it.  So jumps carry the *number of their cell* here, and `Asm.tgt` says
which label each cell holds.

Simplifications:
* the registers `insn0`, `insn1`, `insn2` always are the three elements behind `point`.  In the
  code this fails in one case: when the last rule but one inserts a label directly before
  `insn0` (line 488).  The model records `Need.never` for it.
* `(error "Can't find jump destination")` sets `err`, and the model carries on.
* `(gensym)` is the first number not yet used as a label.
* other instructions do not share their argument lists in a way that matters: argument cells
  are only ever stored into for jumps.
-/

namespace Rep.Peep

/-- Instructions whose jumps carry cells. -/
abbrev Raw := List (Insn Nat)

/-- What a rule relies on to be correct.  This is a record for the theorems; the optimiser
does not look at it. -/
inductive Need
  /-- this instruction raises no errors (or its errors do not count) -/
  | quiet (i : Insn Nat)
  /-- errors of this instruction do not count -/
  | errs (o : Bin)
  /-- the rewrite is wrong -/
  | never

/-- Does the need hold, if errors of the instructions in `D` do not count? -/
def Need.holds (D : Insn Nat → Bool) : Need → Bool
  | .quiet i => Peep.quiet D i
  | .errs o => D (.bin o)
  | .never => false

/-- The state of the optimiser: the code is `pre ++ rest`, `rest` starts with `insn0`. -/
structure Asm where
  tgt : Nat → Nat
  pre : Raw
  rest : Raw
  /-- the next label `gensym` makes -/
  gs : Nat
  /-- `keep-going` -/
  keep : Bool
  /-- `extra-stack` is 1 -/
  extra : Bool
  /-- "Can't find jump destination" -/
  err : Bool
  needs : List Need

/-- The code the assembler reads off. -/
def Asm.code (s : Asm) : Code := (s.pre ++ s.rest).map (Insn.map s.tgt)

/-! ### The rules that only look at consecutive instructions -/

/-- The result of such a rule: what replaces `rest`, `keep-going`, `extra-stack`. -/
structure Local where
  rest : Raw
  hit : Bool
  extra : Bool
  needs : List Need

def Local.app (r : Local) (s : Asm) : Asm :=
  { s with
    rest := r.rest
    keep := s.keep || r.hit
    extra := s.extra || r.extra
    needs := r.needs ++ s.needs }

/-- A rule on consecutive instructions as a rule on the whole state. -/
def lift (f : Raw → Option Local) (s : Asm) : Option Asm :=
  (f s.rest).map (·.app s)

/-- lines 124-139 -/
def rSefPop : Raw → Option Local
  | .push _ :: .pop :: k => some ⟨k, true, false, []⟩
  | .dup :: .pop :: k => some ⟨k, true, false, []⟩
  | .ref v x :: .pop :: k => some ⟨k, true, false, [.quiet (.ref v x)]⟩
  | .un o :: .pop :: k => if o.sef then some ⟨.pop :: k, true, false, [.quiet (.un o)]⟩ else none
  | .bin o :: .pop :: k =>
    if o.sef then some ⟨.pop :: .pop :: k, true, false, [.quiet (.bin o)]⟩ else none
  | _ => none

/-- `push` or `dup` -/
def Insn.isVal : Insn Nat → Bool
  | .push _ => true
  | .dup => true
  | _ => false

/-- lines 141-156 -/
def rValSetRef : Raw → Option Local
  | i :: j :: .ref v x :: k =>
    if i.isVal && ((v != .g && j == .set v x) || (v == .n && x == 0 && j == .bind)) then
      some ⟨i :: j :: i :: k, true, false, []⟩
    else none
  | _ => none

/-- lines 158-176 -/
def rSetRef : Raw → Option Local
  | j :: .ref v x :: k =>
    if (v != .g && j == .set v x) || (v == .n && x == 0 && j == .bind) then
      some ⟨.dup :: j :: k, true, true, []⟩
    else none
  | _ => none

/-- lines 178-186 -/
def rDupSetPop : Raw → Option Local
  | .dup :: .set v x :: .pop :: k => some ⟨.set v x :: k, true, false, []⟩
  | .dup :: .bind :: .pop :: k => some ⟨.bind :: k, true, false, []⟩
  | _ => none

/-- lines 188-194 -/
def rRefRef : Raw → Option Local
  | .ref v x :: .ref v' x' :: k =>
    if v = v' ∧ x = x' then some ⟨.ref v x :: .dup :: k, true, false, []⟩ else none
  | _ => none

/-- lines 196-207 -/
def rRefSet : Raw → Option Local
  | .ref v x :: .set v' x' :: k =>
    if v = v' ∧ x = x' then some ⟨k, true, false, [.quiet (.ref v x)]⟩ else none
  | _ => none

/-- lines 209-216 -/
def rCxr : Raw → Option Local
  | .un o :: .un p :: k =>
    if (o = .car ∨ o = .cdr) ∧ (p = .car ∨ p = .cdr) then
      some ⟨.un (cxr o p) :: k, true, false, []⟩
    else none
  | _ => none

/-- Is the value on top of the stack only tested by what follows? -/
def onlyTested : Raw → Bool
  | .jump .jn _ :: _ => true
  | .jump .jt _ :: _ => true
  | _ => false

/-- lines 218-225 -/
def rScm : Raw → Option Local
  | .un o :: .un .scmTest :: k =>
    if o = .testScm ∨ o = .testScmF then
      some ⟨k, true, false, if o = .testScm ∧ onlyTested k = true then [] else [.never]⟩
    else none
  | _ => none

/-- lines 227-240 -/
def rIncDec : Raw → Option Local
  | .push (.int i) :: .bin o :: k =>
    if (i = 1 ∨ i = -1) ∧ (o = .add ∨ o = .sub) then
      some ⟨.un (incDec i o) :: k, true, false, []⟩
    else none
  | _ => none

/-- lines 242-245 -/
def rAddZero : Raw → Option Local
  | .push (.int i) :: .bin o :: k =>
    if i = 0 ∧ (o = .add ∨ o = .sub) then some ⟨k, true, false, [.errs o]⟩ else none
  | _ => none

/-- lines 247-251 -/
def rZerop : Raw → Option Local
  | .push (.int i) :: .bin .numEq :: k =>
    if i = 0 then some ⟨.un .zerop :: k, true, false, []⟩ else none
  | _ => none

/-- lines 253-257 -/
def rNotZerop : Raw → Option Local
  | .un .zerop :: .un .not :: k => some ⟨.un .notZeroP :: k, true, false, []⟩
  | _ => none

/-- lines 270-274 -/
def rJpPop : Raw → Option Local
  | .jump .jpt a :: .pop :: k => some ⟨.jump .jt a :: k, true, false, []⟩
  | .jump .jpn a :: .pop :: k => some ⟨.jump .jn a :: k, true, false, []⟩
  | _ => none

/-- lines 276-281 -/
def rNotJump : Raw → Option Local
  | .un .not :: .jump .jn a :: k => some ⟨.jump .jt a :: k, true, false, []⟩
  | .un .not :: .jump .jt a :: k => some ⟨.jump .jn a :: k, true, false, []⟩
  | _ => none

/-- lines 283-287 -/
def rJtNil : Raw → Option Local
  | .jump .jt a :: .push .nil :: k => some ⟨.jump .jpt a :: k, true, false, []⟩
  | _ => none

/-- lines 297-334 -/
def rPushJump : Raw → Option Local
  | .push c :: .jump j a :: k =>
    if j.cond then some ⟨pushJump c j a ++ k, true, false, []⟩ else none
  | _ => none

/-- lines 336-346 -/
def rOpUnbind : Raw → Option Local
  | .push c :: .unbind :: k => some ⟨.unbind :: .push c :: k, true, false, []⟩
  | .dup :: .unbind :: k => some ⟨.unbind :: .dup :: k, true, false, []⟩
  | .un o :: .unbind :: k => if o.vf then some ⟨.unbind :: .un o :: k, true, false, []⟩ else none
  | .bin o :: .unbind :: k => if o.vf then some ⟨.unbind :: .bin o :: k, true, false, []⟩ else none
  | _ => none

/-- lines 348-353 -/
def rBindUnbind : Raw → Option Local
  | .bind :: .unbind :: k => some ⟨.pop :: .unbind :: k, true, false, []⟩
  | _ => none

/-- lines 355-358 -/
def rInitUnbind : Raw → Option Local
  | .initBind :: .unbind :: k => some ⟨k, true, false, []⟩
  | _ => none

/-- lines 360-364 -/
def rInitRet : Raw → Option Local
  | .initBind :: .ret :: k => some ⟨.ret :: k, true, false, []⟩
  | .initBind :: .unbindall :: k => some ⟨.unbindall :: k, true, false, []⟩
  | _ => none

/-- lines 366-369 -/
def rUnbindRet : Raw → Option Local
  | .unbind :: .ret :: k => some ⟨.ret :: k, true, false, []⟩
  | _ => none

/-- `dup`s at the start of the code: how many, and what follows (lines 376-377). -/
def dups : Raw → Nat × Raw
  | .dup :: k => ((dups k).1 + 1, (dups k).2)
  | k => (0, k)

/-- What replaces the instructions behind `<varref>; dup` (lines 375-381), if anything. -/
def dupsRef (v : RK) (x : Nat) (n : Nat) : Raw → Option Raw
  | .ref v' x' :: t =>
    if v = v' ∧ x = x' then some (.ref v x :: (List.replicate n .dup ++ .dup :: t)) else none
  | _ => none

/-- lines 371-381 -/
def rRefDups : Raw → Option Local
  | .ref v x :: .dup :: k =>
    match dupsRef v x (dups (.dup :: k)).1 (dups (.dup :: k)).2 with
    | some r => some ⟨r, true, false, []⟩
    | none => some ⟨.ref v x :: .dup :: k, false, false, []⟩
  | _ => none

/-- Drop everything up to the next label (lines 410-412). -/
def toLabel : Raw → Raw
  | [] => []
  | .label l :: k => .label l :: k
  | _ :: k => toLabel k

/-- `jmp`, `ejmp`, `return` -/
def Insn.ends : Insn Nat → Bool
  | .jump .jmp _ => true
  | .jump .ejmp _ => true
  | .ret => true
  | _ => false

def Insn.isLabel : Insn Nat → Bool
  | .label _ => true
  | _ => false

/-- lines 406-416 -/
def rDead : Raw → Option Local
  | i :: j :: k =>
    if i.ends && !j.isLabel then some ⟨i :: toLabel (j :: k), true, false, []⟩ else none
  | _ => none

/-! ### The rules that look at labels -/

/-- Store into a cell. -/
def upd (f : Nat → Nat) (a v : Nat) : Nat → Nat := fun x => if x = a then v else f x

/-- lines 259-262 -/
def rJmpLabel (s : Asm) : Option Asm :=
  match s.rest with
  | .jump .jmp a :: .label l :: k =>
    if s.tgt a = l then some { s with rest := .label l :: k, keep := true } else none
  | _ => none

/-- lines 264-268 -/
def rJnLabel (s : Asm) : Option Asm :=
  match s.rest with
  | .jump j a :: .label l :: k =>
    if (j = .jn ∨ j = .jt) ∧ s.tgt a = l then
      some { s with rest := .pop :: .label l :: k, keep := true }
    else none
  | _ => none

/-- lines 289-295 (for `jn` and `jt`) and 493-504 (for the other four): the jump over a jump. -/
def rFlip (js : List JK) (s : Asm) : Option Asm :=
  match s.rest with
  | .jump j a :: .jump .jmp b :: .label l :: k =>
    if j ∈ js ∧ s.tgt a = l then
      some { s with rest := .jump j.flip b :: .label l :: k, keep := true }
    else none
  | _ => none

/-- lines 383-393 -/
def rMerge (s : Asm) : Option Asm :=
  match s.rest with
  | .label x :: .label y :: k =>
    some { s with tgt := fun a => merge x y (s.tgt a), rest := .label x :: k, keep := true }
  | _ => none

/-- Does some jump or handler go to `x`? -/
def used (f : Nat → Nat) (x : Nat) (c : Raw) : Bool :=
  c.any fun i => i.target.map f == some x

/-- lines 395-404 -/
def rUnused (s : Asm) : Option Asm :=
  match s.rest with
  | .label x :: k =>
    if used s.tgt x (s.pre ++ s.rest) then none else some { s with rest := k, keep := true }
  | _ => none

/-- lines 418-427 -/
def rThread (s : Asm) : Option Asm :=
  match s.rest with
  | .jump j a :: k =>
    match findL (s.tgt a) (s.pre ++ s.rest) with
    | none => some { s with err := true }
    | some (.jump .jmp b :: _) =>
      if s.tgt a = s.tgt b then none else some { s with rest := .jump j b :: k, keep := true }
    | some _ => none
  | _ => none

/-- lines 429-438 -/
def rJmpRet (s : Asm) : Option Asm :=
  match s.rest with
  | .jump .jmp a :: k =>
    match findL (s.tgt a) (s.pre ++ s.rest) with
    | some (.ret :: _) => some { s with rest := .ret :: k, keep := true }
    | _ => none
  | _ => none

/-- Insert label `z` behind the first instruction. -/
def insOne (z : Nat) : Raw → Raw
  | [] => []
  | i :: k => i :: .label z :: k

/-- Insert label `z` behind the instruction that follows label `l` (lines 486-489). -/
def insAfter (l z : Nat) : Raw → Raw
  | [] => []
  | .label m :: k => if m = l then .label m :: insOne z k else .label m :: insAfter l z k
  | i :: k => i :: insAfter l z k

/-- How many jumps share cell `a`. -/
def sharing (a : Nat) (c : Raw) : Nat := c.countP fun i => i.target == some a

/-- Does the code end with label `l` and one more instruction? -/
def endsAt (l : Nat) (c : Raw) : Bool :=
  match findL l c with
  | some [_] => true
  | _ => false

/-- The rewrite of `{jnp,jtp} X` (cell `a`) whose destination is a conditional jump `j'`
(cell `b`); lines 449-490. -/
def retargeted (s : Asm) (j : JK) (a : Nat) (k : Raw) (j' : JK) (b : Nat) : Asm :=
  if (retarget j j').2 then
    { s with
      tgt := upd s.tgt a s.gs
      gs := s.gs + 1
      pre := insAfter (s.tgt a) s.gs s.pre
      rest := .jump (retarget j j').1 a :: (if s.tgt a ∈ labels s.pre then k else insAfter (s.tgt a) s.gs k)
      keep := true
      needs :=
        (if sharing a (s.pre ++ s.rest) = 1 ∧ ¬ (j = .jtp ∧ j' = .jpn) ∧
            endsAt (s.tgt a) s.pre = false then [] else [.never]) ++ s.needs }
  else
    { s with
      tgt := upd s.tgt a (s.tgt b)
      rest := .jump (retarget j j').1 a :: k
      keep := true
      needs := (if sharing a (s.pre ++ s.rest) = 1 then [] else [.never]) ++ s.needs }

/-- lines 440-491 -/
def rRetarget (s : Asm) : Option Asm :=
  match s.rest with
  | .jump j a :: k =>
    if j = .jnp ∨ j = .jtp then
      match findL (s.tgt a) (s.pre ++ s.rest) with
      | some (.jump j' b :: _) => if j'.cond then some (retargeted s j a k j' b) else none
      | _ => none
    else none
  | _ => none

/-! ### The loops -/

/-- The clauses of the big `cond` in order (lines 123-513). -/
def rules : List (Asm → Option Asm) :=
  [lift rSefPop, lift rValSetRef, lift rSetRef, lift rDupSetPop, lift rRefRef, lift rRefSet,
   lift rCxr, lift rScm, lift rIncDec, lift rAddZero, lift rZerop, lift rNotZerop,
   rJmpLabel, rJnLabel, lift rJpPop, lift rNotJump, lift rJtNil, rFlip [.jn, .jt],
   lift rPushJump, lift rOpUnbind, lift rBindUnbind, lift rInitUnbind, lift rInitRet,
   lift rUnbindRet, lift rRefDups, rMerge, rUnused, lift rDead, rThread, rJmpRet, rRetarget,
   rFlip [.jpt, .jpn, .jtp, .jnp]]

/-- The first clause that applies. -/
def firstRule (s : Asm) : List (Asm → Option Asm) → Asm
  | [] => s
  | r :: rs =>
    match r s with
    | some s' => s'
    | none => firstRule s rs

/-- Move on by one instruction, lines 43-48. -/
def shift (s : Asm) : Asm :=
  match s.rest with
  | [] => s
  | i :: k => { s with pre := s.pre ++ [i], rest := k }

/-- One pass over the code with the given clauses, lines 119-515 and 518-545; `none` if `n`
instructions are not enough. -/
def pass (rs : List (Asm → Option Asm)) : Nat → Asm → Option Asm
  | 0, _ => none
  | n + 1, s =>
    match s.rest with
    | [] => some s
    | _ :: _ => pass rs n (shift (firstRule s rs))

/-- Back to the start of the code. -/
def rewind (s : Asm) : Asm := { s with pre := [], rest := s.pre ++ s.rest, keep := false }

/-- Passes until nothing changes, lines 117-515. -/
def passes : Nat → Asm → Option Asm
  | 0, _ => none
  | n + 1, s =>
    match pass rules (n + 1) (rewind s) with
    | none => none
    | some s' => if s'.keep then passes n s' else some s'

/-- lines 522-533 -/
def fPushSetPush : Raw → Option Local
  | .push c :: j :: .push c' :: k =>
    match j with
    | .set _ _ | .bind =>
      if c = c' then some ⟨.push c :: .dup :: j :: k, true, true, []⟩ else none
    | _ => none
  | _ => none

/-- The instructions `dup` and `i` at the start of the code, each replaced by `dup`
(lines 539-544). -/
def dupRun (i : Insn Nat) : Raw → Raw
  | [] => []
  | j :: k => if j = .dup ∨ j = i then .dup :: dupRun i k else j :: k

/-- lines 535-544 -/
def fRun : Raw → Option Local
  | .push c :: k => some ⟨.push c :: dupRun (.push c) k, false, false, []⟩
  | .ref v x :: k => some ⟨.ref v x :: dupRun (.ref v x) k, false, false, []⟩
  | _ => none

/-- The clauses of the last pass. -/
def finalRules : List (Asm → Option Asm) := [lift fPushSetPush, lift fRun]

/-- Give every jump a cell of its own: its position. -/
def cells (n : Nat) : Code → Raw
  | [] => []
  | i :: k => i.map (fun _ => n) :: cells (n + 1) k

/-- The contents of those cells. -/
def contents (n : Nat) : Code → Nat → Nat
  | [], _ => 0
  | i :: k, a => if a = n then i.target.getD 0 else contents (n + 1) k a

/-- A number larger than every label and every target. -/
def bound : Code → Nat
  | [] => 0
  | .label l :: k => max (l + 1) (bound k)
  | i :: k => max (i.target.getD 0 + 1) (bound k)

/-- The state at the start. -/
def load (c : Code) : Asm :=
  ⟨contents 0 c, [], cells 0 c, bound c, false, false, false, []⟩

/-- `peephole-optimizer`, lines 106-548, with `n` as a limit for the number of passes and the
number of instructions. -/
def peephole (n : Nat) (c : Code) : Option Asm :=
  match passes n (load c) with
  | none => none
  | some s => pass finalRules n (rewind s)

end Rep.Peep
