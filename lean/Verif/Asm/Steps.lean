import Verif.Asm.Lemmas

namespace Rep.Asm

open Spec

variable {C : Type}

/-- The bytes of an instruction. -/
def enc (op : Nat) (arg : Option Int) : Except Err (List Int) :=
  if 0x3f ≤ op then
    match arg with
    | none => .ok [op]
    | some n =>
      if op = pushi then
        if n < 256 then .ok [op, n] else .error .overflow
      else if threeByte op then
        if n < 65536 then .ok [op, n / 256, n % 256] else .error .overflow
      else .error .spurious
  else
    match arg with
    | none => .error .type
    | some n =>
      if n ≤ 5 then .ok [op + n]
      else if n ≤ 0xff then .ok [((op + 6 : Nat) : Int), n]
      else if n ≤ 0xffff then .ok [((op + 7 : Nat) : Int), n / 256, n % 256]
      else .error .overflow

def puts (bs : List Int) (s : Asm C) : Asm C := bs.foldl (fun s b => emitByte b s) s

theorem emitInsn_enc (op : Nat) (arg : Option Int) (s : Asm C) :
    emitInsn op arg s = (enc op arg).map (fun bs => puts bs s) := by
  unfold emitInsn enc
  split
  · cases arg with
    | none => rfl
    | some n =>
      simp only
      split
      · split <;> rfl
      · split
        · split <;> rfl
        · rfl
  · cases arg with
    | none => rfl
    | some n =>
      simp only
      split
      · rfl
      · split
        · rfl
        · split <;> rfl

theorem Inv.puts {start : Nat} : ∀ (bs : List Int) {S : List SB} {s : Asm C}, Inv start S s →
    Inv start (S ++ bs.map .byte) (puts bs s) := by
  intro bs
  induction bs with
  | nil => intro S s h; simpa [Asm.puts] using h
  | cons b bs ih =>
    intro S s h
    have := ih (h.emitByte b)
    simpa [Asm.puts] using this

theorem puts_rest : ∀ (bs : List Int) (s : Asm C), (puts bs s).labels = s.labels ∧ (puts bs s).constants = s.constants ∧ (puts bs s).next = s.next := by
  intro bs
  induction bs with
  | nil => intro s; exact ⟨rfl, rfl, rfl⟩
  | cons b bs ih => intro s; exact ih (emitByte b s)

/-- The bytes at an address. -/
def At (byte : Nat → Nat) (at' : Nat → Nat) (a : Nat) (bs : List SB) : Prop :=
  ∀ j x, bs[j]? = some x → byte (a + j) = x.val at'

/-- An operation and its argument (a natural number). -/
def ValidOp (op : Nat) (arg : Option Nat) : Prop :=
  if op < 0x40 then op % 8 = 0 ∧ arg ≠ none
  else if op = 0x9f ∨ op = 0xa0 ∨ op = 0xa1 then arg ≠ none
  else op < 0xf8 ∧ arg = none

theorem fetch_enc {op : Nat} {arg : Option Nat} {bs : List Int} (hv : ValidOp op arg)
    (he : enc op (arg.map Int.ofNat) = .ok bs) {byte at' : Nat → Nat} {a : Nat} (h : At byte at' a (bs.map .byte)) :
    fetch byte a = (⟨op, arg⟩, a + bs.length) := by
  have g : ∀ j b, bs[j]? = some b → byte (a + j) = (b % 256).toNat := by
    intro j b hj
    exact h j (.byte b) (by simp [hj])
  unfold ValidOp at hv
  unfold enc at he
  by_cases h40 : op < 0x40
  · rw [if_pos h40] at hv
    obtain ⟨h8, hn⟩ := hv
    have : ¬ 0x3f ≤ op := by omega
    rw [if_neg this] at he
    cases arg with
    | none => exact absurd rfl hn
    | some n =>
      simp only [Option.map_some, Int.ofNat_eq_natCast] at he
      split at he
      · simp only [Except.ok.injEq] at he
        subst he
        have g0 := g 0 _ rfl
        simp only [Nat.add_zero] at g0
        have e0 : byte a = op + n := by rw [g0]; omega
        simp only [fetch, e0]
        rw [if_pos (by omega), if_neg (by omega), if_neg (by omega)]
        have : (op + n) % 8 = n := by omega
        rw [this]
        simp
      · split at he
        · simp only [Except.ok.injEq] at he
          subst he
          have g0 := g 0 _ rfl
          have g1 := g 1 _ rfl
          simp only [Nat.add_zero] at g0
          have e0 : byte a = op + 6 := by rw [g0]; omega
          have e1 : byte (a + 1) = n := by rw [g1]; omega
          simp only [fetch, e0]
          rw [if_pos (by omega), if_neg (by omega), if_pos (by omega), e1]
          simp
        · split at he
          · simp only [Except.ok.injEq] at he
            subst he
            have g0 := g 0 _ rfl
            have g1 := g 1 _ rfl
            have g2 := g 2 _ rfl
            simp only [Nat.add_zero] at g0
            have e0 : byte a = op + 7 := by rw [g0]; omega
            have e1 : byte (a + 1) = n / 256 := by rw [g1]; omega
            have e2 : byte (a + 2) = n % 256 := by rw [g2]; omega
            simp only [fetch, e0]
            rw [if_pos (by omega), if_pos (by omega), e1, e2]
            have : n / 256 * 256 + n % 256 = n := by omega
            rw [this]
            simp
          · cases he
  · rw [if_neg h40] at hv
    rw [if_pos (by omega)] at he
    split at hv
    · rename_i hop
      cases arg with
      | none => exact absurd rfl hv
      | some n =>
        simp only [Option.map_some, Int.ofNat_eq_natCast] at he
        split at he
        · rename_i hpi
          unfold pushi at hpi
          split at he
          · simp only [Except.ok.injEq] at he
            subst he
            have g0 := g 0 _ rfl
            have g1 := g 1 _ rfl
            simp only [Nat.add_zero] at g0
            have e0 : byte a = op := by rw [g0]; omega
            have e1 : byte (a + 1) = n := by rw [g1]; omega
            simp only [fetch, e0]
            rw [if_neg h40, if_pos hpi, e1]
            rfl
          · cases he
        · rename_i hpi
          unfold pushi at hpi
          split at he
          · split at he
            · simp only [Except.ok.injEq] at he
              subst he
              have g0 := g 0 _ rfl
              have g1 := g 1 _ rfl
              have g2 := g 2 _ rfl
              simp only [Nat.add_zero] at g0
              have e0 : byte a = op := by rw [g0]; omega
              have e1 : byte (a + 1) = n / 256 := by rw [g1]; omega
              have e2 : byte (a + 2) = n % 256 := by rw [g2]; omega
              simp only [fetch, e0]
              rw [if_neg h40, if_neg hpi, if_pos (by omega), e1, e2]
              have : n / 256 * 256 + n % 256 = n := by omega
              rw [this]
              rfl
            · cases he
          · cases he
    · rename_i hop
      obtain ⟨hf8, rfl⟩ := hv
      simp only [Option.map_none, Except.ok.injEq] at he
      subst he
      have g0 := g 0 _ rfl
      simp only [Nat.add_zero] at g0
      have e0 : byte a = op := by rw [g0]; omega
      simp only [fetch, e0]
      rw [if_neg h40, if_neg (by omega), if_neg (by omega)]
      rfl

/-- The address of a label after an instruction. -/
theorem fetch_addr {op l : Nat} (hop : op = 0xa0 ∨ op = 0xa1 ∨ (0xf8 ≤ op ∧ op < 256)) {byte at' : Nat → Nat} {a : Nat}
    (h : At byte at' a [.byte op, .hi l, .lo l]) : fetch byte a = (⟨op, some (at' l % 65536)⟩, a + 3) := by
  have g0 := h 0 _ rfl
  have g1 := h 1 _ rfl
  have g2 := h 2 _ rfl
  simp only [Nat.add_zero, SB.val] at g0 g1 g2
  have e0 : byte a = op := by rw [g0]; omega
  simp only [fetch, e0]
  rw [if_neg (by omega), if_neg (by omega), if_pos (by omega), g1, g2]
  have : at' l / 256 % 256 * 256 + at' l % 256 = at' l % 65536 := by omega
  rw [this]

/-- Constants keep their numbers, labels their addresses. -/
structure Ext (s s' : Asm C) : Prop where
  addr : ∀ l A, (s.labels l).address = some A → (s'.labels l).address = some A
  const : ∀ i c, constAt s.constants i = some c → constAt s'.constants i = some c

theorem Ext.refl (s : Asm C) : Ext s s := ⟨fun _ _ h => h, fun _ _ h => h⟩

theorem Ext.trans {s s' s'' : Asm C} (h : Ext s s') (h' : Ext s' s'') : Ext s s'' :=
  ⟨fun l A e => h'.addr l A (h.addr l A e), fun i c e => h'.const i c (h.const i c e)⟩

/-- The numbers of the constants are below `next`, and different. -/
structure CInv (s : Asm C) : Prop where
  lt : ∀ p ∈ s.constants, p.2 < s.next
  at' : ∀ p ∈ s.constants, constAt s.constants p.2 = some p.1

theorem findConst_mem (w : Consts C) (c : C) : ∀ (l : List (C × Nat)) (i : Nat), findConst w c l = some i →
    ∃ c', (c', i) ∈ l ∧ w.equal c c' = true := by
  intro l
  induction l with
  | nil => intro i h; cases h
  | cons p l ih =>
    intro i h
    obtain ⟨c', j⟩ := p
    simp only [findConst] at h
    split at h
    · cases h
      exact ⟨c', List.mem_cons_self, by assumption⟩
    · obtain ⟨c'', h1, h2⟩ := ih i h
      exact ⟨c'', List.mem_cons_of_mem _ h1, h2⟩

theorem constId_ok (w : Consts C) (c : C) (s : Asm C) (h : CInv s) :
    CInv (constId w c s).2 ∧ Ext s (constId w c s).2 ∧ (constId w c s).2.labels = s.labels ∧ (constId w c s).2.pc = s.pc ∧
    (constId w c s).2.code = s.code ∧
    ∃ c', constAt (constId w c s).2.constants (constId w c s).1 = some c' ∧ (w.equal c c' = true ∨ c' = c) := by
  unfold constId
  cases hf : findConst w c s.constants with
  | some i =>
    obtain ⟨c', h1, h2⟩ := findConst_mem w c _ i hf
    exact ⟨h, Ext.refl s, rfl, rfl, rfl, c', h.at' _ h1, .inl h2⟩
  | none =>
    have hnew : ∀ p ∈ s.constants, ¬ s.next = p.2 := fun p hp e => by have := h.lt p hp; omega
    have hc : ∀ i c', constAt s.constants i = some c' → constAt ((c, s.next) :: s.constants) i = some c' := by
      intro i c' hi
      unfold constAt at hi ⊢
      rw [List.find?_cons]
      have : ¬ s.next = i := by
        intro e
        cases hff : s.constants.find? (fun p => p.2 = i) with
        | none => rw [hff] at hi; cases hi
        | some p =>
          have h1 := List.mem_of_find?_eq_some hff
          have h2 := List.find?_some hff
          simp at h2
          exact hnew p h1 (by omega)
      simp only [this, decide_false]
      exact hi
    refine ⟨⟨?_, ?_⟩, ⟨fun _ _ e => e, hc⟩, rfl, rfl, rfl, c, ?_, .inr rfl⟩
    · intro p hp
      simp only [List.mem_cons] at hp
      rcases hp with rfl | hp
      · simp
      · have := h.lt p hp
        simp only
        omega
    · intro p hp
      simp only [List.mem_cons] at hp
      rcases hp with rfl | hp
      · simp [constAt]
      · exact hc _ _ (h.at' p hp)
    · simp [constAt]

/-- The bytes `bs` are read by the machine as the instruction, with constants as in `consts`. -/
def Codes (w : Consts C) (l : List (C × Nat)) (i : Insn C) (bs : List SB) : Prop :=
  ∀ (consts : Nat → Option C) (byte at' : Nat → Nat) (a : Nat), (∀ k c, constAt l k = some c → consts k = some c) →
    At byte at' a bs → ∃ r, fetch byte a = (r, a + bs.length) ∧ Does w consts (fun l => at' l % 65536) i r

/-- What a step does. -/
structure Good (w : Consts C) (start : Nat) (S : List SB) (s s' : Asm C) (i : Insn C) (bs : List SB) : Prop where
  inv : Inv start (S ++ bs) s'
  cinv : CInv s'
  ext : Ext s s'
  label : ∀ l, i = .label l → (s.labels l).address = none ∧ (s'.labels l).address = some s.pc ∧ bs = []
  other : (∀ l, i ≠ .label l) → s'.labels = s.labels ∨ ∃ l, refers i = some l ∧ ∀ m, (s'.labels m).address = (s.labels m).address
  codes : (∀ l, i ≠ .label l) → Codes w s'.constants i bs
  refs : ∀ l, SB.hi l ∈ bs → refers i = some l

theorem Inv.congr {start : Nat} {S : List SB} {s s' : Asm C} (h : Inv start S s) (h1 : s'.pc = s.pc) (h2 : s'.code = s.code)
    (h3 : s'.labels = s.labels) : Inv start S s' := by
  obtain ⟨a, b, c, d, e, f⟩ := h
  exact ⟨by rw [h1]; exact a, by rw [h1, h2]; exact b, by rw [h2]; exact c, by rw [h2, h3]; exact d, by rw [h2, h3]; exact e, by rw [h3]; exact f⟩

/-- An instruction with an argument. -/
theorem emitInsn_good {w : Consts C} {start : Nat} {S : List SB} {s s0 s' : Asm C} {i : Insn C} {op : Nat} {arg : Option Nat}
    (hs : Inv start S s) (hc : CInv s) (hx : Ext s0 s) (hlab : s.labels = s0.labels) (hv : ValidOp op arg)
    (hi : ∀ l, i ≠ .label l)
    (he : emitInsn op (arg.map Int.ofNat) s = .ok s')
    (hd : ∀ (consts : Nat → Option C) (at' : Nat → Nat), (∀ k c, constAt s.constants k = some c → consts k = some c) →
      Does w consts (fun l => at' l % 65536) i ⟨op, arg⟩) :
    ∃ bs, Good w start S s0 s' i bs := by
  rw [emitInsn_enc] at he
  cases hb : enc op (arg.map Int.ofNat) with
  | error e => rw [hb] at he; cases he
  | ok bs =>
    rw [hb] at he
    simp only [Except.map, Except.ok.injEq] at he
    subst he
    obtain ⟨r1, r2, r3⟩ := puts_rest bs s
    refine ⟨bs.map .byte, hs.puts bs, ⟨by rw [r2, r3]; exact hc.lt, by rw [r2]; exact hc.at'⟩, ?_, fun l h => absurd h (hi l), ?_, ?_, ?_⟩
    · exact hx.trans ⟨by rw [r1]; exact fun _ _ h => h, by rw [r2]; exact fun _ _ h => h⟩
    · intro _; left; rw [r1, hlab]
    · intro _ consts byte at' a hk hat
      refine ⟨⟨op, arg⟩, ?_, hd consts at' (by rw [r2] at hk; exact hk)⟩
      have := fetch_enc hv hb hat
      simpa using this
    · intro l hl
      simp at hl

theorem emitConst_good {w : Consts C} {start : Nat} {S : List SB} {s s' : Asm C} {i : Insn C} {op : Nat} {c : C}
    (hs : Inv start S s) (hc : CInv s) (hop : op = 0x10 ∨ op = 0x18 ∨ op = 0x20)
    (hi : ∀ l, i ≠ .label l)
    (he : emitConst w op c s = .ok s')
    (hd : ∀ (consts : Nat → Option C) (at' : Nat → Nat) (k : Nat) (c' : C), consts k = some c' → (w.equal c c' = true ∨ c' = c) →
      Does w consts (fun l => at' l % 65536) i ⟨op, some k⟩) :
    ∃ bs, Good w start S s s' i bs := by
  obtain ⟨h1, h2, h3, h4, h5, c', h6, h7⟩ := constId_ok w c s hc
  refine emitInsn_good (arg := some (constId w c s).1) (hs.congr h4 h5 h3) h1 h2 h3 ?_ hi he ?_
  · unfold ValidOp
    rw [if_pos (by omega)]
    exact ⟨by omega, fun h => nomatch h⟩
  · intro consts at' hk
    exact hd consts at' _ c' (hk _ _ h6) h7

theorem step_good {w : Consts C} {start : Nat} {S : List SB} {s s' : Asm C} {i : Insn C} (hs : Inv start S s) (hc : CInv s)
    (hv : Valid i) (he : step w s i = .ok s') : ∃ bs, Good w start S s s' i bs := by
  cases i with
  | label l =>
    have hinv := hs.emitLabel he
    simp only [step, Asm.emitLabel] at he
    cases ha : (s.labels l).address with
    | some A => rw [ha] at he; cases he
    | none =>
      rw [ha] at he
      simp only [Except.ok.injEq] at he
      subst he
      obtain ⟨r1, r2, r3, r4⟩ := patch_rest s.pc (s.labels l).forwards s
      refine ⟨[], by simpa using hinv, ⟨?_, ?_⟩, ⟨?_, ?_⟩, ?_, fun h => absurd rfl (h l), fun h => absurd rfl (h l), fun l h => by simp at h⟩
      · simp only [setLabel]; rw [r3, r4]; exact hc.lt
      · simp only [setLabel]; rw [r3]; exact hc.at'
      · intro m A hm
        simp only [setLabel]
        rw [r2]
        by_cases hml : m = l
        · subst hml; rw [ha] at hm; cases hm
        · rw [if_neg hml]; exact hm
      · simp only [setLabel]; rw [r3]; exact fun _ _ h => h
      · intro m hm
        cases hm
        exact ⟨ha, by simp [setLabel], rfl⟩
  | push c =>
    have hni : ∀ l, Insn.push c ≠ .label l := fun l h => nomatch h
    simp only [step, emitPush] at he
    cases hvw : w.view c with
    | nil =>
      rw [hvw] at he
      exact emitInsn_good (arg := none) hs hc (Ext.refl s) rfl (by simp [ValidOp]) hni he (fun consts at' _ => ⟨.nil, rfl, hvw⟩)
    | t =>
      rw [hvw] at he
      exact emitInsn_good (arg := none) hs hc (Ext.refl s) rfl (by simp [ValidOp]) hni he (fun consts at' _ => ⟨.t, rfl, hvw⟩)
    | other =>
      rw [hvw] at he
      exact emitConst_good hs hc (.inl rfl) hni he (fun consts at' k c' hk hc' => ⟨.const c', by simp [pushed, hk], hc'⟩)
    | fix n =>
      rw [hvw] at he
      simp only at he
      split at he
      · rename_i hr
        split at he
        · subst n
          exact emitInsn_good (arg := none) hs hc (Ext.refl s) rfl (by simp [ValidOp]) hni he (fun consts at' _ => ⟨.int 0, rfl, hvw⟩)
        · split at he
          · subst n
            exact emitInsn_good (arg := none) hs hc (Ext.refl s) rfl (by simp [ValidOp]) hni he (fun consts at' _ => ⟨.int 1, rfl, hvw⟩)
          · split at he
            · subst n
              exact emitInsn_good (arg := none) hs hc (Ext.refl s) rfl (by simp [ValidOp]) hni he (fun consts at' _ => ⟨.int 2, rfl, hvw⟩)
            · split at he
              · subst n
                exact emitInsn_good (arg := none) hs hc (Ext.refl s) rfl (by simp [ValidOp]) hni he (fun consts at' _ => ⟨.int (-1), rfl, hvw⟩)
              · split at he
                · subst n
                  exact emitInsn_good (arg := none) hs hc (Ext.refl s) rfl (by simp [ValidOp]) hni he (fun consts at' _ => ⟨.int (-2), rfl, hvw⟩)
                · split at he
                  · have e : some (n % 256) = (some (n % 256).toNat).map Int.ofNat := by
                      simp only [Option.map_some, Option.some.injEq, Int.ofNat_eq_natCast]; omega
                    rw [e] at he
                    refine emitInsn_good (arg := some (n % 256).toNat) hs hc (Ext.refl s) rfl (by simp [ValidOp, pushi]) hni he (fun consts at' _ => ⟨.int n, ?_, hvw⟩)
                    simp only [pushed, pushi, Option.some.injEq, Pushed.int.injEq]
                    split <;> omega
                  · split at he
                    · have e : some (-n) = (some (-n).toNat).map Int.ofNat := by
                        simp only [Option.map_some, Option.some.injEq, Int.ofNat_eq_natCast]; omega
                      rw [e] at he
                      refine emitInsn_good (arg := some (-n).toNat) hs hc (Ext.refl s) rfl (by simp [ValidOp]) hni he (fun consts at' _ => ⟨.int n, ?_, hvw⟩)
                      simp only [pushed, Option.some.injEq, Pushed.int.injEq]
                      omega
                    · have e : some n = (some n.toNat).map Int.ofNat := by
                        simp only [Option.map_some, Option.some.injEq, Int.ofNat_eq_natCast]; omega
                      rw [e] at he
                      refine emitInsn_good (arg := some n.toNat) hs hc (Ext.refl s) rfl (by simp [ValidOp]) hni he (fun consts at' _ => ⟨.int n, ?_, hvw⟩)
                      simp only [pushed, Option.some.injEq, Pushed.int.injEq]
                      omega
      · exact emitConst_good hs hc (.inl rfl) hni he (fun consts at' k c' hk hc' => ⟨.const c', by simp [pushed, hk], hc'⟩)
  | global op c =>
    have hni : ∀ l, Insn.global op c ≠ .label l := fun l h => nomatch h
    exact emitConst_good hs hc (.inr hv) hni he (fun consts at' k c' hk hc' => ⟨rfl, k, c', rfl, hk, hc'⟩)
  | op op arg =>
    have hni : ∀ l, Insn.op (C := C) op arg ≠ .label l := fun l h => nomatch h
    have : ∃ n : Option Nat, arg = n.map Int.ofNat ∧ ValidOp op n := by
      simp only [Valid] at hv
      unfold ValidOp
      split at hv
      · obtain ⟨h8, n, rfl⟩ := hv
        exact ⟨some n, rfl, by simp [*]⟩
      · split at hv
        · obtain ⟨n, rfl⟩ := hv
          exact ⟨some n, rfl, by simp [*]⟩
        · obtain ⟨h1, rfl⟩ := hv
          exact ⟨none, rfl, by simp [*]⟩
    obtain ⟨n, rfl, hv'⟩ := this
    exact emitInsn_good hs hc (Ext.refl s) rfl hv' hni he (fun consts at' _ => ⟨rfl, rfl⟩)
  | jump op l =>
    have hni : ∀ m, Insn.jump (C := C) op l ≠ .label m := fun l h => nomatch h
    simp only [step, Except.ok.injEq] at he
    subst he
    have hl := addr_labels l (emitByte (op : Int) s)
    refine ⟨[.byte op, .hi l, .lo l], ?_, ?_, ?_, fun m h => absurd h (hni m), ?_, ?_, ?_⟩
    · have := (hs.emitByte (op : Int)).emitLabelAddr l
      simpa using this
    · exact ⟨by rw [hl.2.1, hl.2.2]; exact hc.lt, by rw [hl.2.1]; exact hc.at'⟩
    · exact ⟨fun m A h => by rw [hl.1]; exact h, by rw [hl.2.1]; exact fun _ _ h => h⟩
    · intro _; exact .inr ⟨l, rfl, hl.1⟩
    · intro _ consts byte at' a _ hat
      exact ⟨_, fetch_addr (.inr (.inr hv)) hat, rfl⟩
    · intro m hm
      simp at hm
      subst hm
      rfl
  | pushLabel l =>
    have hni : ∀ m, Insn.pushLabel (C := C) l ≠ .label m := fun l h => nomatch h
    simp only [step, Except.ok.injEq] at he
    subst he
    have hl := addr_labels l (emitByte 0xa1 s)
    refine ⟨[.byte 0xa1, .hi l, .lo l], ?_, ?_, ?_, fun m h => absurd h (hni m), ?_, ?_, ?_⟩
    · have := (hs.emitByte 0xa1).emitLabelAddr l
      simpa using this
    · exact ⟨by rw [hl.2.1, hl.2.2]; exact hc.lt, by rw [hl.2.1]; exact hc.at'⟩
    · exact ⟨fun m A h => by rw [hl.1]; exact h, by rw [hl.2.1]; exact fun _ _ h => h⟩
    · intro _; exact .inr ⟨l, rfl, hl.1⟩
    · intro _ consts byte at' a _ hat
      exact ⟨_, fetch_addr (op := 0xa1) (.inr (.inl rfl)) hat, rfl⟩
    · intro m hm
      simp at hm
      subst hm
      rfl
where
  addr_labels (l : Nat) (s : Asm C) : (∀ m, ((emitLabelAddr l s).labels m).address = (s.labels m).address) ∧
      (emitLabelAddr l s).constants = s.constants ∧ (emitLabelAddr l s).next = s.next := by
    unfold Asm.emitLabelAddr
    cases ha : (s.labels l).address with
    | some A => exact ⟨fun _ => rfl, rfl, rfl⟩
    | none =>
      refine ⟨fun m => ?_, rfl, rfl⟩
      simp only [setLabel]
      by_cases hm : m = l
      · subst hm; simp [ha]
      · simp [hm]

end Rep.Asm
