import Verif.Asm.Steps
import Verif.Equal.Model

namespace Rep.Asm

open Spec

variable {C : Type}

theorem run_good (w : Consts C) {start : Nat} : ∀ (insns : List (Insn C)) (S : List SB) (s s' : Asm C),
    Inv start S s → CInv s → (∀ i ∈ insns, Valid i) → run w insns s = .ok s' →
    ∃ (T : List SB) (addr : Nat → Nat), Inv start (S ++ T) s' ∧ CInv s' ∧ Ext s s' ∧ addr 0 = s.pc ∧ addr insns.length = s'.pc ∧
      (∀ k, addr k ≤ s'.pc) ∧
      (∀ l, SB.hi l ∈ T → ∃ i ∈ insns, refers i = some l) ∧
      (∀ l, Insn.label l ∈ insns → (s.labels l).address = none) ∧
      (∀ k k' l : Nat, insns[k]? = some (.label l) → insns[k']? = some (.label l) → k = k') ∧
      (∀ k l : Nat, insns[k]? = some (.label l) → (s'.labels l).address = some (addr k) ∧ addr (k + 1) = addr k) ∧
      (∀ (k : Nat) i, insns[k]? = some i → (∀ l, i ≠ .label l) → ∃ bs, Codes w s'.constants i bs ∧ addr (k + 1) = addr k + bs.length ∧
        start ≤ addr k ∧ ∀ j x, bs[j]? = some x → (S ++ T)[addr k - start + j]? = some x) := by
  intro insns
  induction insns with
  | nil =>
    intro S s s' hi hc hv hr
    cases hr
    exact ⟨[], fun _ => s.pc, by simpa using hi, hc, Ext.refl s, rfl, rfl, fun _ => Nat.le_refl _, by simp, by simp, by simp, by simp, by simp⟩
  | cons i insns ih =>
    intro S s s' hi hc hv hr
    simp only [run] at hr
    cases hstep : step w s i with
    | error e => rw [hstep] at hr; cases hr
    | ok s1 =>
      rw [hstep] at hr
      simp only at hr
      obtain ⟨bs, g⟩ := step_good hi hc (hv i List.mem_cons_self) hstep
      obtain ⟨T, addr, a1, a2, a3, a4, a5, a6, a7, a8, a9, a10, a11⟩ := ih (S ++ bs) s1 s' g.inv g.cinv (fun i h => hv i (List.mem_cons_of_mem _ h)) hr
      have hlen1 : s1.pc = s.pc + bs.length := by
        have e1 := g.inv.len
        have e2 := hi.len
        simp at e1
        omega
      refine ⟨bs ++ T, fun k => match k with | 0 => s.pc | k + 1 => addr k, by rw [← List.append_assoc]; exact a1, a2, g.ext.trans a3, rfl, a5, ?_, ?_, ?_, ?_, ?_, ?_⟩
      · intro k
        cases k with
        | zero => have := a6 0; simp only; omega
        | succ k => exact a6 k
      · intro l hl
        rcases List.mem_append.mp hl with hl | hl
        · exact ⟨i, List.mem_cons_self, g.refs l hl⟩
        · obtain ⟨j, h1, h2⟩ := a7 l hl
          exact ⟨j, List.mem_cons_of_mem _ h1, h2⟩
      · intro l hl
        rcases List.mem_cons.mp hl with rfl | hl
        · exact (g.label l rfl).1
        · have := a8 l hl
          cases h0 : (s.labels l).address with
          | none => rfl
          | some A => rw [g.ext.addr l A h0] at this; cases this
      · intro k k' l hk hk'
        cases k with
        | zero =>
          cases k' with
          | zero => rfl
          | succ k' =>
            simp only [List.getElem?_cons_zero, Option.some.injEq, List.getElem?_cons_succ] at hk hk'
            have h1 := a8 l (List.mem_of_getElem? hk')
            rw [(g.label l hk).2.1] at h1
            cases h1
        | succ k =>
          cases k' with
          | zero =>
            simp only [List.getElem?_cons_zero, Option.some.injEq, List.getElem?_cons_succ] at hk hk'
            have h1 := a8 l (List.mem_of_getElem? hk)
            rw [(g.label l hk').2.1] at h1
            cases h1
          | succ k' =>
            simp only [List.getElem?_cons_succ] at hk hk'
            rw [a9 k k' l hk hk']
      · intro k l hk
        cases k with
        | zero =>
          simp only [List.getElem?_cons_zero, Option.some.injEq] at hk
          obtain ⟨_, h2, h3⟩ := g.label l hk
          refine ⟨a3.addr l _ h2, ?_⟩
          subst h3
          simp only [a4, hlen1]
          simp
        | succ k => exact a10 k l hk
      · intro k j hk hj
        cases k with
        | zero =>
          simp only [List.getElem?_cons_zero, Option.some.injEq] at hk
          subst hk
          refine ⟨bs, ?_, by simp only [a4, hlen1], by simp only [hi.len]; omega, ?_⟩
          · intro consts byte at' a hcon
            exact g.codes hj consts byte at' a (fun k c h => hcon k c (a3.const k c h))
          · intro q x hq
            have e : s.pc - start + q = S.length + q := by have := hi.len; omega
            simp only [e]
            rw [List.getElem?_append_right (by omega), Nat.add_sub_cancel_left]
            exact get_app hq
        | succ k =>
          obtain ⟨cs, h1, h2, h3, h4⟩ := a11 k j hk hj
          refine ⟨cs, h1, h2, h3, ?_⟩
          rw [← List.append_assoc]
          exact h4

/-- The common part of the theorems: the machine reads back the instructions, where a label stands
for its address modulo 2^16. -/
theorem assemble_reads (w : Consts C) (insns : List (Insn C)) (start : Nat) (code : Code C)
    (hv : ∀ i ∈ insns, Valid i) (hd : ∀ i ∈ insns, ∀ l, refers i = some l → Insn.label l ∈ insns)
    (ha : assemble w insns start = .ok code) :
    ∃ addr at' : Nat → Nat, addr 0 = start ∧ addr insns.length = code.length ∧ (∀ k, addr k ≤ code.length) ∧
      (∀ k l : Nat, insns[k]? = some (.label l) → at' l = addr k ∧ addr (k + 1) = addr k) ∧
      ∀ (k : Nat) i, insns[k]? = some i → (∀ l, i ≠ .label l) →
        ∃ r, fetch code.byte (addr k) = (r, addr (k + 1)) ∧ Does w code.consts (fun l => at' l % 65536) i r := by
  unfold assemble at ha
  cases hr : run w insns { pc := start } with
  | error e => rw [hr] at ha; cases ha
  | ok s =>
    rw [hr] at ha
    simp only [Except.ok.injEq] at ha
    subst ha
    obtain ⟨T, addr, a1, a2, a3, a4, a5, a6, a7, a8, a9, a10, a11⟩ :=
      run_good w insns [] _ s (Inv.empty start) ⟨by simp, by simp⟩ hv hr
    rw [List.nil_append] at a1
    refine ⟨addr, fun l => ((s.labels l).address).getD 0, a4, a5, a6, ?_, ?_⟩
    · intro k l hk
      obtain ⟨h1, h2⟩ := a10 k l hk
      exact ⟨by simp [h1], h2⟩
    · intro k i hk hi
      obtain ⟨bs, h1, h2, h3, h4⟩ := a11 k i hk hi
      have := h1 (constAt s.constants) (stored s.code) (fun l => ((s.labels l).address).getD 0) (addr k) (fun _ _ h => h) ?_
      · rw [h2]; exact this
      · intro j x hj
        have h5 := h4 j x hj
        rw [List.nil_append] at h5
        have h6 := a1.stored (fun l => ((s.labels l).address).getD 0) ?_ h5
        · rw [← h6]
          congr 1
          omega
        · intro q l hq
          obtain ⟨i', hi', hr'⟩ := a7 l (List.mem_of_getElem? hq)
          have hl := hd i' hi' l hr'
          obtain ⟨q', hq'⟩ := List.getElem?_of_mem hl
          rw [(a10 q' l hq').1]
          rfl

/-- C58: if the labels that are used are defined and the code is shorter than 2^16 bytes, the machine
reads the instructions back in order, starting at `start` and ending at the end of the string: each
with its argument, with constants that are (or are `equal` to) those in the input, and with jumps to
the place of the label. -/
theorem C58_assemble_partial (w : Consts C) (insns : List (Insn C)) (start : Nat) (code : Code C)
    (hv : ∀ i ∈ insns, Valid i) (hd : ∀ i ∈ insns, ∀ l, refers i = some l → Insn.label l ∈ insns)
    (ha : assemble w insns start = .ok code) (hshort : code.length < 65536) :
    ∃ addr at' : Nat → Nat, addr 0 = start ∧ addr insns.length = code.length ∧
      (∀ k l : Nat, insns[k]? = some (.label l) → at' l = addr k ∧ addr (k + 1) = addr k) ∧
      ∀ (k : Nat) i, insns[k]? = some i → (∀ l, i ≠ .label l) →
        ∃ r, fetch code.byte (addr k) = (r, addr (k + 1)) ∧ Does w code.consts at' i r := by
  obtain ⟨addr, at', h1, h2, h3, h4, h5⟩ := assemble_reads w insns start code hv hd ha
  refine ⟨addr, at', h1, h2, h4, ?_⟩
  intro k i hk hi
  obtain ⟨r, e1, e2⟩ := h5 k i hk hi
  refine ⟨r, e1, ?_⟩
  have hlt : ∀ l, refers i = some l → at' l % 65536 = at' l := by
    intro l hl
    obtain ⟨q, hq⟩ := List.getElem?_of_mem (hd i (List.mem_of_getElem? hk) l hl)
    have := h3 q
    rw [(h4 q l hq).1]
    omega
  cases i with
  | label l => exact e2
  | push c => exact e2
  | global op c => exact e2
  | op op arg => exact e2
  | pushLabel l => simp only [Does, hlt l rfl] at e2 ⊢; exact e2
  | jump op l => simp only [Does, hlt l rfl] at e2 ⊢; exact e2

/-- C58: a label is defined once. -/
theorem C58_once (w : Consts C) (insns : List (Insn C)) (start : Nat) (code : Code C) (hv : ∀ i ∈ insns, Valid i)
    (ha : assemble w insns start = .ok code) (k k' l : Nat) (hk : insns[k]? = some (.label l))
    (hk' : insns[k']? = some (.label l)) : k = k' := by
  unfold assemble at ha
  cases hr : run w insns { pc := start } with
  | error e => rw [hr] at ha; cases ha
  | ok s =>
    obtain ⟨T, addr, _, _, _, _, _, _, _, _, h, _⟩ := run_good w insns [] _ s (Inv.empty start) ⟨by simp, by simp⟩ hv hr
    exact h k k' l hk hk'

theorem enc_fits {op : Nat} {arg : Option Nat} (hv : ValidOp op arg) (hf : ∀ n, arg = some n → if op = 0x9f then n < 256 else n < 65536) :
    ∃ bs, enc op (arg.map Int.ofNat) = .ok bs := by
  unfold ValidOp at hv
  unfold enc
  by_cases h40 : op < 0x40
  · rw [if_pos h40] at hv
    rw [if_neg (by omega)]
    cases arg with
    | none => exact absurd rfl hv.2
    | some n =>
      have := hf n rfl
      rw [if_neg (by omega)] at this
      simp only [Option.map_some, Int.ofNat_eq_natCast]
      split
      · exact ⟨_, rfl⟩
      · split
        · exact ⟨_, rfl⟩
        · rw [if_pos (by omega)]
          exact ⟨_, rfl⟩
  · rw [if_neg h40] at hv
    rw [if_pos (by omega)]
    split at hv
    · rename_i hop
      cases arg with
      | none => exact absurd rfl hv
      | some n =>
        have := hf n rfl
        simp only [Option.map_some, Int.ofNat_eq_natCast]
        split
        · rename_i hpi
          unfold pushi at hpi
          rw [if_pos hpi] at this
          rw [if_pos (by omega)]
          exact ⟨_, rfl⟩
        · rename_i hpi
          unfold pushi at hpi
          rw [if_neg hpi] at this
          rw [if_pos (by unfold threeByte; simp; omega), if_pos (by omega)]
          exact ⟨_, rfl⟩
    · obtain ⟨_, rfl⟩ := hv
      exact ⟨_, rfl⟩

theorem emitInsn_fits {op : Nat} {arg : Option Nat} (hv : ValidOp op arg)
    (hf : ∀ n, arg = some n → if op = 0x9f then n < 256 else n < 65536) (s : Asm C) :
    ∃ s', emitInsn op (arg.map Int.ofNat) s = .ok s' ∧ s'.labels = s.labels ∧ s'.next = s.next := by
  obtain ⟨bs, hb⟩ := enc_fits hv hf
  obtain ⟨r1, _, r3⟩ := puts_rest bs s
  exact ⟨puts bs s, by rw [emitInsn_enc, hb]; rfl, r1, r3⟩

theorem emitConst_fits {w : Consts C} {op : Nat} {c : C} (hop : op = 0x10 ∨ op = 0x18 ∨ op = 0x20) {s : Asm C} (hc : CInv s)
    (hn : s.next < 65536) : ∃ s', emitConst w op c s = .ok s' ∧ s'.labels = s.labels ∧ s'.next ≤ s.next + 1 := by
  have hid : (constId w c s).1 < 65536 ∧ (constId w c s).2.next ≤ s.next + 1 := by
    unfold constId
    cases hf : findConst w c s.constants with
    | some i =>
      obtain ⟨c', h1, _⟩ := findConst_mem w c _ i hf
      have := hc.lt _ h1
      exact ⟨by simp only at this ⊢; omega, by simp⟩
    | none => exact ⟨hn, Nat.le_refl _⟩
  obtain ⟨_, _, h3, _⟩ := constId_ok w c s hc
  obtain ⟨s', e1, e2, e3⟩ := emitInsn_fits (op := op) (arg := some (constId w c s).1)
    (by unfold ValidOp; rw [if_pos (by omega)]; exact ⟨by omega, fun h => nomatch h⟩)
    (by intro n hn'; cases hn'; rw [if_neg (by omega)]; exact hid.1) (constId w c s).2
  exact ⟨s', e1, by rw [e2, h3], by rw [e3]; exact hid.2⟩

theorem step_fits {w : Consts C} {s : Asm C} {i : Insn C} (hc : CInv s) (hv : Valid i) (hf : Fits i)
    (hn : usesConst i = true → s.next < 65536) (hl : ∀ l, i = .label l → (s.labels l).address = none) :
    ∃ s', step w s i = .ok s' ∧ s'.next ≤ s.next + (if usesConst i then 1 else 0) ∧
      ∀ m, i ≠ .label m → (s'.labels m).address = (s.labels m).address := by
  cases i with
  | label l =>
    have := hl l rfl
    obtain ⟨_, r2, _, r4⟩ := patch_rest s.pc (s.labels l).forwards s
    refine ⟨_, by simp only [step, emitLabel, this]; rfl, ?_, ?_⟩
    · simp only [setLabel]; rw [r4]; simp
    · intro m hm
      have : ¬ m = l := fun e => hm (by rw [e])
      simp only [setLabel, if_neg this]
      rw [r2]
  | push c =>
    have hn := hn rfl
    have simple : ∀ op, op < 0xf8 → ¬ op < 0x40 → ¬ (op = 0x9f ∨ op = 0xa0 ∨ op = 0xa1) →
        ∃ s', emitInsn op none s = .ok s' ∧ s'.next ≤ s.next + 1 ∧ ∀ m, Insn.push c ≠ .label m → (s'.labels m).address = (s.labels m).address := by
      intro op h1 h2 h3
      obtain ⟨s', e1, e2, e3⟩ := emitInsn_fits (op := op) (arg := none) (by unfold ValidOp; rw [if_neg h2, if_neg h3]; exact ⟨h1, rfl⟩) (fun n h => nomatch h) s
      exact ⟨s', e1, by omega, fun m _ => by rw [e2]⟩
    have long : ∀ op (n : Nat), (op = 0x9f ∨ op = 0xa0 ∨ op = 0xa1) → (if op = 0x9f then n < 256 else n < 65536) →
        ∃ s', emitInsn op (some (n : Int)) s = .ok s' ∧ s'.next ≤ s.next + 1 ∧ ∀ m, Insn.push c ≠ .label m → (s'.labels m).address = (s.labels m).address := by
      intro op n h1 h2
      obtain ⟨s', e1, e2, e3⟩ := emitInsn_fits (op := op) (arg := some n)
        (by unfold ValidOp; rw [if_neg (by omega), if_pos h1]; exact fun h => nomatch h) (fun m h => by cases h; exact h2) s
      exact ⟨s', e1, by omega, fun m _ => by rw [e2]⟩
    have const : ∃ s', emitConst w 0x10 c s = .ok s' ∧ s'.next ≤ s.next + 1 ∧ ∀ m, Insn.push c ≠ .label m → (s'.labels m).address = (s.labels m).address := by
      obtain ⟨s', e1, e2, e3⟩ := emitConst_fits (w := w) (c := c) (.inl rfl) hc hn
      exact ⟨s', e1, e3, fun m _ => by rw [e2]⟩
    simp only [step, emitPush, usesConst, if_true]
    cases hvw : w.view c with
    | nil => exact simple 0x49 (by omega) (by omega) (by omega)
    | t => exact simple 0x4a (by omega) (by omega) (by omega)
    | other => exact const
    | fix n =>
      simp only
      split
      · rename_i hr
        split
        · exact simple 0x9a (by omega) (by omega) (by omega)
        · split
          · exact simple 0x9b (by omega) (by omega) (by omega)
          · split
            · exact simple 0x9c (by omega) (by omega) (by omega)
            · split
              · exact simple 0x9d (by omega) (by omega) (by omega)
              · split
                · exact simple 0x9e (by omega) (by omega) (by omega)
                · split
                  · have e : n % 256 = ((n % 256).toNat : Int) := by omega
                    rw [e]
                    exact long pushi _ (.inl rfl) (by unfold pushi; rw [if_pos rfl]; omega)
                  · split
                    · have e : -n = ((-n).toNat : Int) := by omega
                      rw [e]
                      exact long 0xa0 _ (by omega) (by rw [if_neg (by omega)]; omega)
                    · have e : n = (n.toNat : Int) := by omega
                      rw [e]
                      exact long 0xa1 _ (by omega) (by rw [if_neg (by omega)]; omega)
      · exact const
  | global op c =>
    obtain ⟨s', e1, e2, e3⟩ := emitConst_fits (w := w) (c := c) (.inr hv) hc (hn rfl)
    exact ⟨s', e1, e3, fun m _ => by rw [e2]⟩
  | op op arg =>
    have : ∃ n : Option Nat, arg = n.map Int.ofNat ∧ ValidOp op n := by
      simp only [Valid] at hv
      unfold ValidOp
      split at hv
      · obtain ⟨h8, n, rfl⟩ := hv
        exact ⟨some n, rfl, by simp [*]⟩
      · split at hv
        · obtain ⟨n, rfl⟩ := hv
          exact ⟨some n, rfl, by simp [*]⟩
        · obtain ⟨h1, rfl⟩ := hv
          exact ⟨none, rfl, by simp [*]⟩
    obtain ⟨n, rfl, hv'⟩ := this
    obtain ⟨s', e1, e2, e3⟩ := emitInsn_fits hv' (by
      intro m hm
      subst hm
      simp only [Fits, Option.map_some, Int.ofNat_eq_natCast] at hf
      split at hf <;> rename_i h <;> simp only [h, if_true, if_false] <;> omega) s
    exact ⟨s', e1, by rw [e3]; simp, fun m _ => by rw [e2]⟩
  | jump op l =>
    obtain ⟨h1, _, h3⟩ := step_good.addr_labels l (emitByte (op : Int) s)
    exact ⟨_, rfl, by rw [h3]; simp [emitByte, emitByteAt], fun m _ => h1 m⟩
  | pushLabel l =>
    obtain ⟨h1, _, h3⟩ := step_good.addr_labels l (emitByte 0xa1 s)
    exact ⟨_, rfl, by rw [h3]; simp [emitByte, emitByteAt], fun m _ => h1 m⟩

theorem run_fits (w : Consts C) {start : Nat} : ∀ (insns : List (Insn C)) (S : List SB) (s : Asm C), Inv start S s → CInv s →
    (∀ i ∈ insns, Valid i) → (∀ i ∈ insns, Fits i) → s.next + (insns.filter usesConst).length ≤ 65536 →
    (∀ l, Insn.label l ∈ insns → (s.labels l).address = none) →
    (∀ k k' l : Nat, insns[k]? = some (.label l) → insns[k']? = some (.label l) → k = k') → ∃ s', run w insns s = .ok s' := by
  intro insns
  induction insns with
  | nil => intro S s _ _ _ _ _ _ _; exact ⟨s, rfl⟩
  | cons i insns ih =>
    intro S s hi hc hv hf hn hl hone
    obtain ⟨s', e1, e2, e3⟩ := step_fits (w := w) hc (hv i List.mem_cons_self) (hf i List.mem_cons_self)
      (by intro hu; rw [List.filter_cons_of_pos hu, List.length_cons] at hn; omega)
      (by rintro l rfl; exact hl l List.mem_cons_self)
    obtain ⟨bs, g⟩ := step_good hi hc (hv i List.mem_cons_self) e1
    simp only [run, e1]
    refine ih _ s' g.inv g.cinv (fun j h => hv j (List.mem_cons_of_mem _ h)) (fun j h => hf j (List.mem_cons_of_mem _ h)) ?_ ?_ ?_
    · cases hu : usesConst i with
      | true => rw [List.filter_cons_of_pos hu, List.length_cons] at hn; rw [hu, if_pos rfl] at e2; omega
      | false => rw [List.filter_cons_of_neg (by simp [hu])] at hn; rw [hu] at e2; simp at e2; omega
    · intro l h
      rw [e3 l ?_]
      · exact hl l (List.mem_cons_of_mem _ h)
      · rintro rfl
        obtain ⟨q, hq⟩ := List.getElem?_of_mem h
        have := hone 0 (q + 1) l rfl (by simpa using hq)
        omega
    · intro k k' l hk hk'
      have := hone (k + 1) (k' + 1) l (by simpa using hk) (by simpa using hk')
      omega

/-- C58: nothing is refused that can be represented: with arguments in range, no label defined twice
and at most 2^16 instructions with a constant, the assembler returns code. -/
theorem C58_accepts (w : Consts C) (insns : List (Insn C)) (start : Nat) (hv : ∀ i ∈ insns, Valid i) (hf : ∀ i ∈ insns, Fits i)
    (hn : (insns.filter usesConst).length ≤ 65536)
    (hone : ∀ k k' l : Nat, insns[k]? = some (.label l) → insns[k']? = some (.label l) → k = k') :
    ∃ code, assemble w insns start = .ok code := by
  obtain ⟨s', e⟩ := run_fits w insns [] { pc := start } (Inv.empty start) ⟨by simp, by simp⟩ hv hf (by simpa using hn) (by simp) hone
  exact ⟨_, by simp only [assemble, e]; rfl⟩

/-- The constants of the examples: Lisp objects, with the `equal` of C09. -/
def objs : Consts Equal.Obj where
  view
    | .num (.fix n) => .fix n
    | _ => .other
  equal := Equal.equal (fun _ _ => false)

/-- Example: a loop with a jump forwards and one backwards, with arguments of each size. -/
def demo : List (Insn Equal.Obj) :=
  [.push (.num (.fix (-3))), .label 0, .op 0x38 (some 300), .jump 0xfc 1, .push (.str [1]), .global 0x18 (.str [2]), .push (.str [1]),
    .jump 0xfb 0, .label 1, .pushLabel 0, .push (.num (.fix 1000)), .op 0x38 (some 5), .op 0x38 (some 6)]

example : (∀ i ∈ demo, Valid i) ∧ (∀ i ∈ demo, Fits i) ∧ (∀ i ∈ demo, ∀ l, refers i = some l → Insn.label l ∈ demo) := by
  simp [demo, Valid, Fits, refers]
  exact ⟨⟨300, rfl⟩, ⟨5, rfl⟩, ⟨6, rfl⟩⟩

example : (assemble objs demo 0).toOption.map (fun c => (List.range c.length).map c.byte) =
    some [0x9f, 253, 0x3f, 1, 44, 0xfc, 0, 14, 0x10, 0x19, 0x10, 0xfb, 0, 2, 0xa1, 0, 2, 0xa1, 3, 232, 0x3d, 0x3e, 6] := by
  decide +kernel

/-- C58 as stated in full is false: a jump to a label that is not defined is not reported.  The jump
goes to the address 0x2020, the spaces that the string was filled with. -/
theorem C58_undefined_violated : ∃ (insns : List (Insn Equal.Obj)) (code : Code Equal.Obj), (∀ i ∈ insns, Valid i) ∧
    (∀ l, Insn.label l ∉ insns) ∧ assemble objs insns 0 = .ok code ∧ code.length = 3 ∧ fetch code.byte 0 = (⟨0xfb, some 0x2020⟩, 3) := by
  refine ⟨[.jump 0xfb 0], _, by simp [Valid], by simp, rfl, rfl, by decide +kernel⟩

/-- C58 as stated in full is false: two different integers are loaded from the same element of the
vector of constants. -/
theorem C58_merged_violated : ∃ (a b : Int) (code : Code Equal.Obj), a ≠ b ∧ (Rep.Number.compare (.fix a) (.fix b) = 0) ∧
    assemble objs [.push (.num (.fix a)), .push (.num (.fix b))] 0 = .ok code ∧
    fetch code.byte 0 = (⟨0x10, some 0⟩, 1) ∧ fetch code.byte 1 = (⟨0x10, some 0⟩, 2) ∧ code.consts 0 = some (.num (.fix a)) := by
  exact ⟨70000, 70000 + 2 ^ 32, _, by decide, by decide +kernel, rfl, by decide +kernel, by decide +kernel, rfl⟩

theorem fetch_simple {byte : Nat → Nat} {a n : Nat} (h : fetch byte a = (⟨0x46, none⟩, n)) : n = a + 1 := by
  simp only [fetch] at h
  split at h
  · split at h
    · simp at h
    · split at h <;> simp at h
  · split at h
    · simp at h
    · split at h
      · simp at h
      · simp at h; omega

theorem fetch_jump {byte : Nat → Nat} {a n x : Nat} (h : fetch byte a = (⟨0xfb, some x⟩, n)) : n = a + 3 := by
  simp only [fetch] at h
  split at h
  · split at h
    · simp at h; omega
    · split at h
      · simp at h; omega
      · simp at h; omega
  · split at h
    · rename_i h'; simp [h'] at h
    · split at h
      · simp at h; omega
      · simp at h

/-- A jump over 2^16 instructions `dup`. -/
def far : List (Insn Equal.Obj) := .jump 0xfb 0 :: (List.replicate 65536 (.op 0x46 none) ++ [.label 0])

theorem far_get (k : Nat) (h : k < 65536) : far[k + 1]? = some (.op 0x46 none) := by
  rw [far, List.getElem?_cons_succ, List.getElem?_append_left (by rw [List.length_replicate]; exact h), List.getElem?_replicate, if_pos h]

theorem far_label : far[65537]? = some (.label 0) := by
  rw [far, List.getElem?_cons_succ, List.getElem?_append_right (by rw [List.length_replicate]), List.length_replicate]
  rfl

theorem far_mem {i : Insn Equal.Obj} (h : i ∈ far) : i = .jump 0xfb 0 ∨ i = .op 0x46 none ∨ i = .label 0 := by
  simp only [far, List.mem_cons, List.mem_append, List.mem_replicate, List.not_mem_nil, or_false] at h
  rcases h with h | ⟨_, h⟩ | h
  · exact .inl h
  · exact .inr (.inl h)
  · exact .inr (.inr h)

/-- C58 as stated in full is false: addresses are stored modulo 2^16 without a report.  The jump to
the end of the code goes to the instruction after the jump. -/
theorem C58_long_violated : ∃ (insns : List (Insn Equal.Obj)) (code : Code Equal.Obj), (∀ i ∈ insns, Valid i) ∧
    (∀ i ∈ insns, ∀ l, refers i = some l → Insn.label l ∈ insns) ∧ insns[0]? = some (.jump 0xfb 0) ∧
    insns[65537]? = some (.label 0) ∧ insns.length = 65538 ∧ assemble objs insns 0 = .ok code ∧ code.length = 65539 ∧
    fetch code.byte 0 = (⟨0xfb, some 3⟩, 3) := by
  have hv : ∀ i ∈ far, Valid i := by
    intro i hi
    rcases far_mem hi with rfl | rfl | rfl <;> simp [Valid]
  have hf : ∀ i ∈ far, Fits i := by
    intro i hi
    rcases far_mem hi with rfl | rfl | rfl <;> simp [Fits]
  have hd : ∀ i ∈ far, ∀ l, refers i = some l → Insn.label l ∈ far := by
    intro i hi l hl
    rcases far_mem hi with rfl | rfl | rfl
    · simp [refers] at hl
      subst hl
      exact List.mem_of_getElem? far_label
    · simp [refers] at hl
    · simp [refers] at hl
  have hlen : far.length = 65538 := by simp only [far, List.length_cons, List.length_append, List.length_replicate, List.length_nil]
  have hlab : ∀ k l : Nat, far[k]? = some (.label l) → k = 65537 := by
    intro k l hk
    have h1 : k < 65538 := hlen ▸ (List.getElem?_eq_some_iff.mp hk).1
    cases k with
    | zero => cases hk
    | succ k =>
      by_cases h : k < 65536
      · rw [far_get k h] at hk; cases hk
      · omega
  have hn : (far.filter usesConst).length ≤ 65536 := by
    have : far.filter usesConst = [] := by
      rw [List.filter_eq_nil_iff]
      intro i hi
      rcases far_mem hi with rfl | rfl | rfl <;> simp [usesConst]
    rw [this]; exact Nat.zero_le _
  obtain ⟨code, hc⟩ := C58_accepts objs far 0 hv hf hn (fun k k' l h h' => by rw [hlab k l h, hlab k' l h'])
  obtain ⟨addr, at', h1, h2, _, h4, h5⟩ := assemble_reads objs far 0 code hv hd hc
  obtain ⟨r0, f0, d0⟩ := h5 0 _ rfl (fun l h => nomatch h)
  simp only [Does] at d0
  subst d0
  have a1 : addr 1 = 3 := by rw [fetch_jump f0, h1]
  have ak : ∀ k, k ≤ 65536 → addr (k + 1) = 3 + k := by
    intro k
    induction k with
    | zero => intro _; exact a1
    | succ k ih =>
      intro hk
      obtain ⟨r, f, d⟩ := h5 (k + 1) _ (far_get k (by omega)) (fun l h => nomatch h)
      simp only [Does] at d
      have hr : r = ⟨0x46, none⟩ := by
        obtain ⟨op, arg⟩ := r
        cases arg with
        | none => simp at d; rw [d]
        | some n => simp at d
      subst hr
      rw [fetch_simple f, ih (by omega)]
      omega
  have e1 := h4 65537 0 far_label
  have e2 : addr 65537 = 65539 := ak 65536 (Nat.le_refl _)
  refine ⟨far, code, hv, hd, rfl, far_label, hlen, hc, ?_, ?_⟩
  · rw [← h2, hlen, e1.2, e2]
  · rw [h1, e1.1, e2, a1] at f0
    exact f0

end Rep.Asm
