import Verif.Disasm.Spec
import Mathlib.Tactic.Common
import Mathlib.Tactic.IntervalCases
/-!
# Listings of byte code (C115)

The listing of a function's code has one line for each instruction that the machine fetches, at its address, with its name and operand, as
long as no instruction is `refn` with an argument of two bytes, and no constant which is pushed is a list that starts with `byte-code`.
-/
namespace Rep.Disasm

open Rep.Asm.Spec (Raw fetch)
open Spec

/-- The table has the names of the machine's instructions. -/
theorem table : ∀ c : Fin 256, 0x40 ≤ c.1 → (opcodes[c.1]?).map (fun s => s.map String.toList) = some (mnemonic c.1) := by
  decide +kernel

theorem opcodes_name {c : Nat} (h : c < 256) (h1 : 0x40 ≤ c) (hg : (mnemonic c).isSome) :
    ∃ s, opcodes[c]? = some (some s) ∧ some s.toList = mnemonic c := by
  have ht := table ⟨c, h⟩ h1
  simp only at ht
  cases ho : opcodes[c]? with
  | none => rw [ho] at ht; cases ht
  | some o =>
    rw [ho] at ht
    simp only [Option.map_some, Option.some.injEq] at ht
    cases o with
    | none => rw [← ht] at hg; cases hg
    | some s => exact ⟨s, rfl, ht⟩

theorem nameOf_ok {c : Nat} (h : c < 256) (h1 : 0x40 ≤ c) (hg : (mnemonic c).isSome) :
    ∃ s, nameOf c = .ok s ∧ some s.toList = mnemonic c := by
  obtain ⟨s, hs, hm⟩ := opcodes_name h h1 hg
  exact ⟨s, by simp [nameOf, aref, hs, Out.bind], hm⟩

theorem aref_ok {code : List Nat} {i : Nat} (h : i < code.length) : aref code i = .ok (byteOf code i) := by
  simp [aref, byteOf, List.getElem?_eq_getElem h]

/-- The operands of the instructions below 0x40. -/
theorem argLine_ok {consts : List Const} {op arg : Nat} (h8 : op % 8 = 0) (h : op < 0x40) (hg : Good consts ⟨op, some arg⟩)
    (hf : op = 0x10 → consts[arg]? ≠ some .form) :
    ∃ s o, argLine consts op arg = .ok (s, o) ∧ some s.toList = mnemonic op ∧ o = operand consts ⟨op, some arg⟩ := by
  have hc := hg.2 arg rfl
  have : op = 0 ∨ op = 8 ∨ op = 0x10 ∨ op = 0x18 ∨ op = 0x20 ∨ op = 0x28 ∨ op = 0x30 ∨ op = 0x38 := by omega
  rcases this with h | h | h | h | h | h | h | h <;> subst h
  · exact ⟨"slot-ref", .slot arg, by simp [argLine], by decide +kernel, by simp [operand]⟩
  · exact ⟨"call", .slot arg, by simp [argLine], by decide +kernel, by simp [operand]⟩
  · have hl := hc (Or.inl rfl)
    have hf := hf rfl
    cases hx : consts[arg]? with
    | none => rw [List.getElem?_eq_none_iff] at hx; omega
    | some x =>
      cases x with
      | code => exact ⟨"push", .listing arg, by simp [argLine, aref, hx, Out.bind], by decide +kernel, by simp [operand, hx]⟩
      | form => exact absurd hx hf
      | other => exact ⟨"push", .const arg, by simp [argLine, aref, hx, Out.bind], by decide +kernel, by simp [operand, hx]⟩
  · have hl := hc (Or.inr (Or.inl rfl))
    exact ⟨"refg", .const arg, by simp [argLine, aref, List.getElem?_eq_getElem hl, Out.bind], by decide +kernel, by simp [operand]⟩
  · have hl := hc (Or.inr (Or.inr rfl))
    exact ⟨"setg", .const arg, by simp [argLine, aref, List.getElem?_eq_getElem hl, Out.bind], by decide +kernel, by simp [operand]⟩
  · exact ⟨"setn", .slot arg, by simp [argLine], by decide +kernel, by simp [operand]⟩
  · exact ⟨"slot-set", .slot arg, by simp [argLine], by decide +kernel, by simp [operand]⟩
  · exact ⟨"refn", .slot arg, by simp [argLine], by decide +kernel, by simp [operand]⟩

/-- One instruction. -/
theorem one_ok {code : List Nat} {consts : List Const} {i : Nat} (hb : ∀ c ∈ code, c < 256)
    (hi : (fetch (byteOf code) i).2 ≤ code.length) (hg : Good consts (fetch (byteOf code) i).1) (h3f : byteOf code i ≠ 0x3f)
    (hf : ∀ n, (fetch (byteOf code) i).1 = ⟨0x10, some n⟩ → consts[n]? ≠ some .form) :
    i < code.length ∧ i < (fetch (byteOf code) i).2 ∧ ∃ l, one code consts i (byteOf code i) = .ok (l, (fetch (byteOf code) i).2 - 1) ∧
      Shows consts i (fetch (byteOf code) i).1 l := by
  have hlt : i < (fetch (byteOf code) i).2 := by
    unfold fetch
    dsimp only
    split
    · split
      · dsimp only; omega
      · split <;> (dsimp only; omega)
    · split
      · dsimp only; omega
      · split <;> (dsimp only; omega)
  have hil : i < code.length := by omega
  refine ⟨hil, hlt, ?_⟩
  have hc : byteOf code i < 256 := by
    have : byteOf code i = code[i] := by simp [byteOf, List.getElem?_eq_getElem hil]
    rw [this]; exact hb _ (List.getElem_mem hil)
  unfold fetch at hi hg hf ⊢
  dsimp only at hi hg hf ⊢
  generalize hbc : byteOf code i = c at *
  by_cases h40 : c < 0x40
  · simp only [h40, if_true] at hi hg hf ⊢
    have hlast : c < lastWithArgs := by unfold lastWithArgs; omega
    by_cases h7 : c % 8 = 7
    · simp only [h7, if_true] at hi hg hf ⊢
      obtain ⟨s, o, ha, hm, ho⟩ := argLine_ok (by omega) (by omega) hg (fun e => hf _ (by rw [e]))
      refine ⟨⟨i, s, o⟩, ?_, rfl, hm, ho⟩
      have e : c - c % 8 = c - 7 := by omega
      simp only [one, hlast, if_true, argument, h7, aref_ok (show i + 1 < code.length by omega), aref_ok (show i + 2 < code.length by omega),
        Out.bind]
      simp [ha]
    · by_cases h6 : c % 8 = 6
      · simp only [h6, if_true] at hi hg hf ⊢
        simp only [show (6:Nat) ≠ 7 by decide, if_false] at hi hg hf ⊢
        obtain ⟨s, o, ha, hm, ho⟩ := argLine_ok (by omega) (by omega) hg (fun e => hf _ (by rw [e]))
        refine ⟨⟨i, s, o⟩, ?_, rfl, hm, ho⟩
        simp only [one, hlast, if_true, argument, h6, aref_ok (show i + 1 < code.length by omega), Out.bind]
        simp [ha]
      · simp only [h7, h6, if_false] at hi hg hf ⊢
        obtain ⟨s, o, ha, hm, ho⟩ := argLine_ok (by omega) (by omega) hg (fun e => hf _ (by rw [e]))
        refine ⟨⟨i, s, o⟩, ?_, rfl, hm, ho⟩
        have h5 : c % 8 < 6 := by omega
        simp only [one, hlast, if_true, argument, h5, Out.bind, ha]
        simp
  · simp only [h40, if_false] at hi hg hf ⊢
    have hlast : ¬ c < lastWithArgs := by unfold lastWithArgs; omega
    by_cases h9f : c = 0x9f
    · simp only [h9f, if_true] at hi hg hf ⊢
      obtain ⟨s, hs, hm⟩ := nameOf_ok (c := 0x9f) (by omega) (by omega) hg.1
      refine ⟨⟨i, s, .num (if 128 ≤ byteOf code (i + 1) then -(256 - (byteOf code (i + 1) : Int)) else byteOf code (i + 1))⟩, ?_, rfl, hm, ?_⟩
      · simp [one, lastWithArgs, lastBeforeJmps, aref_ok (show i + 1 < code.length by omega), Out.bind, hs]
      · simp only [operand]
        simp only [show (0x9f:Nat) ≠ 0x10 by decide, show (0x9f:Nat) ≠ 0x18 by decide, show (0x9f:Nat) ≠ 0x20 by decide,
          show ¬ (0x9f:Nat) < 0x40 by decide, if_false, or_self, if_true]
        by_cases h : 128 ≤ byteOf code (i + 1)
        · rw [if_pos h, if_neg (by omega)]; congr 1; omega
        · rw [if_neg h, if_pos (by omega)]
    · by_cases hj : c = 0xa0 ∨ c = 0xa1 ∨ 0xf8 ≤ c
      · simp only [h9f, hj, if_true, if_false] at hi hg hf ⊢
        obtain ⟨s, hs, hm⟩ := nameOf_ok (c := c) (by omega) (by omega) hg.1
        refine ⟨⟨i, s, .num (if c = 0xa0 then -((byteOf code (i + 1) * 256 + byteOf code (i + 2) : Nat) : Int)
          else ((byteOf code (i + 1) * 256 + byteOf code (i + 2) : Nat) : Int))⟩, ?_, rfl, hm, ?_⟩
        · by_cases hf8 : 0xf8 ≤ c
          · have h1 : lastBeforeJmps < c := by unfold lastBeforeJmps; omega
            have h2 : c ≠ 0xa0 := by omega
            simp [one, hlast, h1, h2, aref_ok (show i + 1 < code.length by omega), aref_ok (show i + 2 < code.length by omega), Out.bind, hs]
          · have h1 : ¬ lastBeforeJmps < c := by unfold lastBeforeJmps; omega
            have h2 : c = 0xa0 ∨ c = 0xa1 := by omega
            simp [one, hlast, h1, h2, h9f, aref_ok (show i + 1 < code.length by omega), aref_ok (show i + 2 < code.length by omega), Out.bind, hs]
        · simp only [operand]
          have h1 : c ≠ 0x10 := by omega
          have h2 : ¬ (c = 0x18 ∨ c = 0x20) := by omega
          simp only [h1, h2, h40, h9f, if_false]
          split <;> rfl
      · simp only [h9f, hj, if_false] at hi hg hf ⊢
        obtain ⟨s, hs, hm⟩ := opcodes_name (c := c) (by omega) (by omega) hg.1
        refine ⟨⟨i, s, .none⟩, ?_, rfl, hm, rfl⟩
        have h1 : ¬ lastBeforeJmps < c := by unfold lastBeforeJmps; omega
        have h2 : ¬ (c = 0xa0 ∨ c = 0xa1) := by omega
        simp [one, hlast, h1, h2, h9f, aref, hs, Out.bind]

theorem loop_ok {code : List Nat} {consts : List Const} (hb : ∀ c ∈ code, c < 256) {pc : Nat} {l : List (Nat × Raw)}
    (h : Insns (byteOf code) code.length pc l) : ∀ f, code.length ≤ f + pc → (∀ x ∈ l, Good consts x.2) → (∀ x ∈ l, byteOf code x.1 ≠ 0x3f) →
      (∀ x ∈ l, ∀ n, x.2 = ⟨0x10, some n⟩ → consts[n]? ≠ some .form) →
      ∃ ls, loop code consts f pc = .ok ls ∧ List.Forall₂ (fun x y => Shows consts x.1 x.2 y) l ls := by
  induction h with
  | done =>
    intro f _ _ _ _
    refine ⟨[], ?_, .nil⟩
    cases f <;> simp [loop]
  | @step pc l hle _ ih =>
    intro f hf hg h3 hk
    obtain ⟨hil, hlt, ln, h1, hs⟩ := one_ok hb hle (hg _ (List.mem_cons_self ..)) (h3 _ (List.mem_cons_self ..)) (hk _ (List.mem_cons_self ..))
    cases f with
    | zero => omega
    | succ f =>
      obtain ⟨ls, hl, hF⟩ := ih f (by omega) (fun x hx => hg x (List.mem_cons_of_mem _ hx)) (fun x hx => h3 x (List.mem_cons_of_mem _ hx))
        (fun x hx => hk x (List.mem_cons_of_mem _ hx))
      refine ⟨ln :: ls, ?_, .cons hs hF⟩
      have e : (fetch (byteOf code) pc).2 - 1 + 1 = (fetch (byteOf code) pc).2 := by omega
      simp only [loop, hil, if_true, aref_ok hil, Out.bind, h1, e, hl]

/-- C115: the listing of code has exactly one line for each instruction which the machine fetches, in order, with the address, the name and the
operand; missing are `refn` with an argument of two bytes (0x3f) and a pushed list that starts with `byte-code`. -/
theorem C115_listing_partial {code : List Nat} {consts : List Const} {l : List (Nat × Raw)} (hb : ∀ c ∈ code, c < 256)
    (h : Insns (byteOf code) code.length 0 l) (hg : ∀ x ∈ l, Good consts x.2) (h3 : ∀ x ∈ l, byteOf code x.1 ≠ 0x3f)
    (hk : ∀ x ∈ l, ∀ n, x.2 = ⟨0x10, some n⟩ → consts[n]? ≠ some .form) :
    ∃ ls, disassemble code consts = .ok ls ∧ List.Forall₂ (fun x y => Shows consts x.1 x.2 y) l ls :=
  loop_ok hb h _ (by omega) hg h3 hk

/-- C115: a number which an instruction pushes is the number in the listing: after `pushi`, or as a part of the name. -/
theorem C115_pushed {consts : List Const} {r : Raw} {l : Line} {pc : Nat} {n : Int} (hs : Shows consts pc r l)
    (h : Rep.Asm.Spec.pushed (C := Const) (fun i => consts[i]?) r = some (.int n)) :
    (l.name.toList = "pushi\t%d".toList ∧ l.operand = .num n) ∨
      (l.operand = .none ∧ (n, l.name.toList) ∈
        [(0, "pushi\t0".toList), (1, "pushi\t1".toList), (2, "pushi\t2".toList), (-1, "pushi\t-1".toList), (-2, "pushi\t-2".toList)]) := by
  obtain ⟨_, hn, ho⟩ := hs
  unfold Rep.Asm.Spec.pushed at h
  split at h <;> simp only [Option.some.injEq, Rep.Asm.Spec.Pushed.int.injEq, reduceCtorEq, Option.map_eq_some_iff, and_false, exists_false] at h <;>
    subst h
  · right
    refine ⟨ho, ?_⟩
    rw [show mnemonic 0x9a = some "pushi\t0".toList by decide +kernel] at hn
    rw [Option.some.inj hn]; decide +kernel
  · right
    refine ⟨ho, ?_⟩
    rw [show mnemonic 0x9b = some "pushi\t1".toList by decide +kernel] at hn
    rw [Option.some.inj hn]; decide +kernel
  · right
    refine ⟨ho, ?_⟩
    rw [show mnemonic 0x9c = some "pushi\t2".toList by decide +kernel] at hn
    rw [Option.some.inj hn]; decide +kernel
  · right
    refine ⟨ho, ?_⟩
    rw [show mnemonic 0x9d = some "pushi\t-1".toList by decide +kernel] at hn
    rw [Option.some.inj hn]; decide +kernel
  · right
    refine ⟨ho, ?_⟩
    rw [show mnemonic 0x9e = some "pushi\t-2".toList by decide +kernel] at hn
    rw [Option.some.inj hn]; decide +kernel
  · left
    rw [show mnemonic 0x9f = some "pushi\t%d".toList by decide +kernel] at hn
    exact ⟨Option.some.inj hn, ho⟩
  · left
    rw [show mnemonic 0xa0 = some "pushi\t%d".toList by decide +kernel] at hn
    exact ⟨Option.some.inj hn, ho⟩
  · left
    rw [show mnemonic 0xa1 = some "pushi\t%d".toList by decide +kernel] at hn
    exact ⟨Option.some.inj hn, ho⟩

/-- C115 is wrong of `refn` with an argument of two bytes: a function which needs the variable 256 frames out has another listing, in which the
argument is two more instructions. -/
def far : List Nat := [0x3f, 0x01, 0x00, 0x76]

theorem C115_refn_violated :
    Insns (byteOf far) far.length 0 [(0, ⟨0x38, some 256⟩), (3, ⟨0x76, none⟩)] ∧
    disassemble far [] =
      .ok [⟨0, "<unknown opcode %d>", .num 63⟩, ⟨1, "slot-ref", .slot 1⟩, ⟨2, "slot-ref", .slot 0⟩, ⟨3, "return", .none⟩] := by
  refine ⟨?_, by decide +kernel⟩
  have h1 : fetch (byteOf far) 0 = (⟨0x38, some 256⟩, 3) := by decide
  have h2 : fetch (byteOf far) 3 = (⟨0x76, none⟩, 4) := by decide
  have s2 : Insns (byteOf far) far.length 3 [(3, ⟨0x76, none⟩)] := by
    have := Insns.step (byte := byteOf far) (n := far.length) (pc := 3) (l := []) (by rw [h2]; decide) (by rw [h2]; exact .done)
    rwa [h2] at this
  have := Insns.step (byte := byteOf far) (n := far.length) (pc := 0) (l := [(3, ⟨0x76, none⟩)]) (by rw [h1]; decide) (by rw [h1]; exact s2)
  rwa [h1] at this

/-- C115 is wrong of code which pushes a list that starts with the symbol `byte-code`: there is no listing but an error. -/
theorem C115_form_violated : disassemble [0x10, 0x76] [.form] = .err ∧ disassemble [0x10, 0x76] [.other] ≠ .err := by
  decide +kernel

/-- Code that ends within an instruction has no listing. -/
example : disassemble [0x48, 0xfb, 0x00] [] = .err := by decide +kernel

/-- A function: pushes a constant, calls with 10 arguments, pushes -3, jumps. -/
def sample : List Nat := [0x11, 0x0e, 0x0a, 0x9f, 0xfd, 0xfb, 0x00, 0x00]

example : disassemble sample [.other, .code] =
    .ok [⟨0, "push", .listing 1⟩, ⟨1, "call", .slot 10⟩, ⟨3, "pushi\t%d", .num (-3)⟩, ⟨5, "jmp\t%d", .num 0⟩] := by decide +kernel

def sampleInsns : List (Nat × Raw) := [(0, ⟨0x10, some 1⟩), (1, ⟨0x08, some 10⟩), (3, ⟨0x9f, some 0xfd⟩), (5, ⟨0xfb, some 0⟩)]

/-- The hypotheses of `C115_listing_partial` are met. -/
example : (∀ c ∈ sample, c < 256) ∧ Insns (byteOf sample) sample.length 0 sampleInsns ∧ (∀ x ∈ sampleInsns, (mnemonic x.2.op).isSome) ∧
    (∀ x ∈ sampleInsns, byteOf sample x.1 ≠ 0x3f) := by
  refine ⟨by decide, ?_, by decide +kernel, by decide⟩
  have h1 : fetch (byteOf sample) 0 = (⟨0x10, some 1⟩, 1) := by decide
  have h2 : fetch (byteOf sample) 1 = (⟨0x08, some 10⟩, 3) := by decide
  have h3 : fetch (byteOf sample) 3 = (⟨0x9f, some 0xfd⟩, 5) := by decide
  have h4 : fetch (byteOf sample) 5 = (⟨0xfb, some 0⟩, 8) := by decide
  have s4 := Insns.step (byte := byteOf sample) (n := 8) (pc := 5) (l := []) (by rw [h4]) (by rw [h4]; exact .done)
  rw [h4] at s4
  have s3 := Insns.step (byte := byteOf sample) (n := 8) (pc := 3) (by rw [h3]; decide) (by rw [h3]; exact s4)
  rw [h3] at s3
  have s2 := Insns.step (byte := byteOf sample) (n := 8) (pc := 1) (by rw [h2]; decide) (by rw [h2]; exact s3)
  rw [h2] at s2
  have s1 := Insns.step (byte := byteOf sample) (n := 8) (pc := 0) (by rw [h1]; decide) (by rw [h1]; exact s2)
  rw [h1] at s1
  exact s1

end Rep.Disasm
