import Verif.Asm.Spec

namespace Rep.Asm

variable {C : Type}

/-- What was written at an address. -/
def wr : List (Int × Nat) → Nat → Option Int
  | [], _ => none
  | (b, a) :: l, x => (wr l x).or (if a = x then some b else none)

theorem find_wr (l : List (Int × Nat)) (x : Nat) : (l.find? (fun p => p.2 = x)).isSome = (wr l x).isSome := by
  induction l with
  | nil => rfl
  | cons p l ih =>
    obtain ⟨b, a⟩ := p
    simp only [wr, List.find?_cons]
    by_cases h : a = x
    · simp [h]
    · simp only [h, decide_false, if_false, Option.or_none]
      exact ih

theorem stored_wr (l : List (Int × Nat)) (x : Nat) : stored l x = ((wr l x).map (fun b => (b % 256).toNat)).getD 32 := by
  induction l with
  | nil => rfl
  | cons p l ih =>
    obtain ⟨b, a⟩ := p
    have hf := find_wr l x
    simp only [stored, wr]
    cases h : l.find? (fun p => p.2 = x) with
    | some y =>
      rw [h] at hf
      cases hw : wr l x with
      | none => simp [hw] at hf
      | some v => rw [hw] at ih; simpa using ih
    | none =>
      rw [h] at hf
      cases hw : wr l x with
      | some v => simp [hw] at hf
      | none => by_cases hx : a = x <;> simp [hx]

/-- A byte, or half of the address of a label. -/
inductive SB
  | byte (b : Int)
  | hi (l : Nat)
  | lo (l : Nat)
  deriving DecidableEq

def SB.val (at' : Nat → Nat) : SB → Nat
  | .byte b => (b % 256).toNat
  | .hi l => at' l / 256 % 256
  | .lo l => at' l % 256

/-- The bytes that were emitted so far. -/
structure Inv (start : Nat) (S : List SB) (s : Asm C) : Prop where
  len : s.pc = start + S.length
  out : ∀ a, a < start ∨ s.pc ≤ a → wr s.code a = none
  byte : ∀ k b, S[k]? = some (.byte b) → wr s.code (start + k) = some b
  hi : ∀ k l, S[k]? = some (.hi l) →
    (∀ A, (s.labels l).address = some A → wr s.code (start + k) = some ((A / 256 : Nat) : Int)) ∧
    ((s.labels l).address = none → start + k ∈ (s.labels l).forwards ∧ wr s.code (start + k) = none)
  lo : ∀ k l, S[k]? = some (.lo l) → ∃ k', k = k' + 1 ∧ S[k']? = some (.hi l) ∧
    (∀ A, (s.labels l).address = some A → wr s.code (start + k) = some ((A % 256 : Nat) : Int)) ∧
    ((s.labels l).address = none → wr s.code (start + k) = none)
  fwd : ∀ l f, f ∈ (s.labels l).forwards → (s.labels l).address = none ∧
    ∃ k, f = start + k ∧ S[k]? = some (.hi l) ∧ S[k + 1]? = some (.lo l)

theorem get_app {S T : List SB} {k : Nat} {x : SB} (h : S[k]? = some x) : (S ++ T)[k]? = some x := by
  have hk : k < S.length := (List.getElem?_eq_some_iff.mp h).1
  rw [List.getElem?_append_left hk, h]

theorem get_app_cases {S T : List SB} {k : Nat} {x : SB} (h : (S ++ T)[k]? = some x) :
    (k < S.length ∧ S[k]? = some x) ∨ ∃ j, k = S.length + j ∧ T[j]? = some x := by
  by_cases hk : k < S.length
  · rw [List.getElem?_append_left hk] at h
    exact .inl ⟨hk, h⟩
  · refine .inr ⟨k - S.length, by omega, ?_⟩
    rw [List.getElem?_append_right (by omega)] at h
    exact h

theorem wr_cons_ne {b : Int} {a x : Nat} {l : List (Int × Nat)} (h : a ≠ x) : wr ((b, a) :: l) x = wr l x := by
  simp [wr, h]

theorem wr_cons_eq {b : Int} {a : Nat} {l : List (Int × Nat)} (h : wr l a = none) : wr ((b, a) :: l) a = some b := by
  simp [wr, h]

theorem Inv.emitByte {start : Nat} {S : List SB} {s : Asm C} (b : Int) (h : Inv start S s) :
    Inv start (S ++ [.byte b]) (emitByte b s) := by
  have hl := h.len
  have hfree : wr s.code s.pc = none := h.out _ (.inr (Nat.le_refl _))
  refine ⟨by simp [Asm.emitByte, hl]; omega, ?_, ?_, ?_, ?_, ?_⟩
  · intro a ha
    simp only [Asm.emitByte, emitByteAt] at ha ⊢
    rw [wr_cons_ne (by omega)]
    exact h.out a (by omega)
  · intro k b' hk
    simp only [Asm.emitByte, emitByteAt]
    rcases get_app_cases hk with ⟨hk, he⟩ | ⟨j, rfl, hj⟩
    · rw [wr_cons_ne (by omega)]
      exact h.byte k b' he
    · cases j with
      | succ j => simp at hj
      | zero =>
        simp at hj
        subst hj
        rw [← Nat.add_assoc, ← hl]
        exact wr_cons_eq hfree
  · intro k l hk
    simp only [Asm.emitByte, emitByteAt]
    rcases get_app_cases hk with ⟨hk, he⟩ | ⟨j, rfl, hj⟩
    · rw [wr_cons_ne (by omega)]
      exact h.hi k l he
    · cases j <;> simp at hj
  · intro k l hk
    simp only [Asm.emitByte, emitByteAt]
    rcases get_app_cases hk with ⟨hk, he⟩ | ⟨j, rfl, hj⟩
    · rw [wr_cons_ne (by omega)]
      obtain ⟨k', h1, h2, h3⟩ := h.lo k l he
      exact ⟨k', h1, get_app h2, h3⟩
    · cases j <;> simp at hj
  · intro l f hf
    obtain ⟨h1, k, h2, h3, h4⟩ := h.fwd l f hf
    exact ⟨h1, k, h2, get_app h3, get_app h4⟩

theorem Inv.emitLabelAddr {start : Nat} {S : List SB} {s : Asm C} (l : Nat) (h : Inv start S s) :
    Inv start (S ++ [.hi l, .lo l]) (emitLabelAddr l s) := by
  have hl := h.len
  have hfree : ∀ a, s.pc ≤ a → wr s.code a = none := fun a ha => h.out _ (.inr ha)
  have hhi : (S ++ [SB.hi l, .lo l])[S.length]? = some (.hi l) := by simp
  have hlo : (S ++ [SB.hi l, .lo l])[S.length + 1]? = some (.lo l) := by simp
  cases ha : (s.labels l).address with
  | some A =>
    have e : Asm.emitLabelAddr l s = emitAddress A s := by simp [Asm.emitLabelAddr, ha]
    rw [e]
    have hne : ∀ x, x < s.pc → wr (emitAddress A s).code x = wr s.code x := by
      intro x hx
      simp only [emitAddress, emitAddressAt, emitByteAt]
      rw [wr_cons_ne (by omega), wr_cons_ne (by omega)]
    have e1 : wr (emitAddress A s).code s.pc = some ((A / 256 : Nat) : Int) := by
      simp only [emitAddress, emitAddressAt, emitByteAt]
      rw [wr_cons_ne (by omega)]
      exact wr_cons_eq (hfree _ (Nat.le_refl _))
    have e2 : wr (emitAddress A s).code (s.pc + 1) = some ((A % 256 : Nat) : Int) := by
      simp only [emitAddress, emitAddressAt, emitByteAt]
      apply wr_cons_eq
      rw [wr_cons_ne (by omega)]
      exact hfree _ (by omega)
    have hlab : (emitAddress A s).labels = s.labels := rfl
    have hpc : (emitAddress A s).pc = s.pc + 2 := rfl
    refine ⟨by rw [hpc]; simp [hl]; omega, ?_, ?_, ?_, ?_, ?_⟩
    · intro a hx
      rw [hpc] at hx
      simp only [emitAddress, emitAddressAt, emitByteAt]
      rw [wr_cons_ne (by omega), wr_cons_ne (by omega)]
      exact h.out a (by omega)
    · intro k b' hk
      rcases get_app_cases hk with ⟨hk, he⟩ | ⟨j, rfl, hj⟩
      · rw [hne _ (by omega)]
        exact h.byte k b' he
      · match j with
        | 0 => simp at hj
        | 1 => simp at hj
        | j + 2 => simp at hj
    · intro k m hk
      rw [hlab]
      rcases get_app_cases hk with ⟨hk, he⟩ | ⟨j, rfl, hj⟩
      · rw [hne _ (by omega)]
        exact h.hi k m he
      · match j, hj with
        | 0, hj =>
          simp at hj
          subst hj
          rw [ha]
          refine ⟨fun A' hA => ?_, fun hn => nomatch hn⟩
          cases hA
          rw [Nat.add_zero, ← hl]
          exact e1
        | 1, hj => simp at hj
        | j + 2, hj => simp at hj
    · intro k m hk
      rw [hlab]
      rcases get_app_cases hk with ⟨hk, he⟩ | ⟨j, rfl, hj⟩
      · rw [hne _ (by omega)]
        obtain ⟨k', h1, h2, h3⟩ := h.lo k m he
        exact ⟨k', h1, get_app h2, h3⟩
      · match j, hj with
        | 0, hj => simp at hj
        | 1, hj =>
          simp at hj
          subst hj
          refine ⟨S.length, rfl, hhi, ?_⟩
          rw [ha]
          refine ⟨fun A' hA => ?_, fun hn => nomatch hn⟩
          cases hA
          rw [← Nat.add_assoc, ← hl]
          exact e2
        | j + 2, hj => simp at hj
    · intro m f hf
      obtain ⟨h1, k, h2, h3, h4⟩ := h.fwd m f hf
      exact ⟨h1, k, h2, get_app h3, get_app h4⟩
  | none =>
    have e : Asm.emitLabelAddr l s = { setLabel l { s.labels l with forwards := s.pc :: (s.labels l).forwards } s with pc := s.pc + 2 } := by simp [Asm.emitLabelAddr, ha]
    rw [e]
    have hA : ∀ m, (if m = l then ({ s.labels l with forwards := s.pc :: (s.labels l).forwards } : Label) else s.labels m).address = (s.labels m).address := by
      intro m
      by_cases hm : m = l
      · simp [hm]
      · simp [hm]
    have hF : ∀ m f, f ∈ (s.labels m).forwards → f ∈ (if m = l then ({ s.labels l with forwards := s.pc :: (s.labels l).forwards } : Label) else s.labels m).forwards := by
      intro m f hf
      by_cases hm : m = l
      · subst hm; simp [hf]
      · simp [hm, hf]
    refine ⟨by simp [hl]; omega, ?_, ?_, ?_, ?_, ?_⟩
    · intro a hx
      exact h.out a (by simp at hx; omega)
    · intro k b' hk
      rcases get_app_cases hk with ⟨hk, he⟩ | ⟨j, rfl, hj⟩
      · exact h.byte k b' he
      · match j with
        | 0 => simp at hj
        | 1 => simp at hj
        | j + 2 => simp at hj
    · intro k m hk
      simp only [setLabel]
      rw [hA]
      rcases get_app_cases hk with ⟨hk, he⟩ | ⟨j, rfl, hj⟩
      · obtain ⟨h1, h2⟩ := h.hi k m he
        exact ⟨h1, fun hn => ⟨hF _ _ (h2 hn).1, (h2 hn).2⟩⟩
      · match j, hj with
        | 0, hj =>
          simp at hj
          subst hj
          rw [ha]
          refine ⟨(fun A' hA => nomatch hA), fun _ => ?_⟩
          rw [Nat.add_zero, ← hl]
          exact ⟨by simp, hfree _ (Nat.le_refl _)⟩
        | 1, hj => simp at hj
        | j + 2, hj => simp at hj
    · intro k m hk
      simp only [setLabel]
      rw [hA]
      rcases get_app_cases hk with ⟨hk, he⟩ | ⟨j, rfl, hj⟩
      · obtain ⟨k', h1, h2, h3⟩ := h.lo k m he
        exact ⟨k', h1, get_app h2, h3⟩
      · match j, hj with
        | 0, hj => simp at hj
        | 1, hj =>
          simp at hj
          subst hj
          refine ⟨S.length, rfl, hhi, ?_⟩
          rw [ha]
          refine ⟨(fun A' hA => nomatch hA), fun _ => ?_⟩
          rw [← Nat.add_assoc, ← hl]
          exact hfree _ (by omega)
        | j + 2, hj => simp at hj
    · intro m f hf
      simp only [setLabel] at hf ⊢
      rw [hA]
      by_cases hm : m = l
      · subst hm
        simp only [if_true, List.mem_cons] at hf
        rcases hf with rfl | hf
        · exact ⟨ha, S.length, hl, hhi, hlo⟩
        · obtain ⟨h1, k, h2, h3, h4⟩ := h.fwd m f hf
          exact ⟨h1, k, h2, get_app h3, get_app h4⟩
      · rw [if_neg hm] at hf
        obtain ⟨h1, k, h2, h3, h4⟩ := h.fwd m f hf
        exact ⟨h1, k, h2, get_app h3, get_app h4⟩

/-- What `patch` writes. -/
def patched (A : Nat) (fs : List Nat) (x : Nat) : Option Int :=
  if x ∈ fs then some ((A / 256 : Nat) : Int) else if ∃ f ∈ fs, x = f + 1 then some ((A % 256 : Nat) : Int) else none

theorem patch_wr (A : Nat) : ∀ (fs : List Nat) (s : Asm C) (x : Nat), (∀ f ∈ fs, f + 1 ∉ fs) →
    wr (patch A fs s).code x = (wr s.code x).or (patched A fs x) := by
  intro fs
  induction fs with
  | nil => intro s x _; simp [patch, patched]
  | cons f fs ih =>
    intro s x h
    rw [patch, ih _ x (fun g hg hg' => h g (List.mem_cons_of_mem _ hg) (List.mem_cons_of_mem _ hg'))]
    have h1 := h f List.mem_cons_self
    simp only [emitAddressAt, emitByteAt, wr, patched]
    cases wr s.code x with
    | some v => simp
    | none =>
      simp only [Option.none_or]
      by_cases hx : f = x
      · subst hx
        simp
      · by_cases hx1 : f + 1 = x
        · subst hx1
          have : f + 1 ∉ f :: fs := h1
          simp [this]
        · have hx' : ¬ x = f := fun h => hx h.symm
          have hx1' : ¬ x = f + 1 := fun h => hx1 h.symm
          simp [hx, hx1, hx', hx1']

theorem patch_rest (A : Nat) : ∀ (fs : List Nat) (s : Asm C),
    (patch A fs s).pc = s.pc ∧ (patch A fs s).labels = s.labels ∧ (patch A fs s).constants = s.constants ∧ (patch A fs s).next = s.next := by
  intro fs
  induction fs with
  | nil => intro s; exact ⟨rfl, rfl, rfl, rfl⟩
  | cons f fs ih => intro s; exact ih _

theorem Inv.emitLabel {start : Nat} {S : List SB} {s s' : Asm C} {l : Nat} (h : Inv start S s)
    (he : emitLabel l s = .ok s') : Inv start S s' := by
  unfold Asm.emitLabel at he
  cases ha : (s.labels l).address with
  | some A => rw [ha] at he; cases he
  | none =>
    rw [ha] at he
    simp only [Except.ok.injEq] at he
    subst he
    have hd : ∀ f ∈ (s.labels l).forwards, f + 1 ∉ (s.labels l).forwards := by
      intro f hf hf'
      obtain ⟨_, k, e1, _, e2⟩ := h.fwd l f hf
      obtain ⟨_, k', e1', e2', _⟩ := h.fwd l _ hf'
      have : k' = k + 1 := by omega
      subst this
      rw [e2] at e2'
      cases e2'
    have hw := fun x => patch_wr s.pc (s.labels l).forwards s x hd
    obtain ⟨r1, r2, r3, r4⟩ := patch_rest s.pc (s.labels l).forwards s
    have hk1 : ∀ k x, S[k]? = some x → (start + k ∈ (s.labels l).forwards → x = .hi l) := by
      intro k x hk hm
      obtain ⟨_, k', e1, e2, _⟩ := h.fwd l _ hm
      have : k' = k := by omega
      subst this
      rw [e2] at hk
      exact (Option.some.inj hk).symm
    have hk2 : ∀ k x, S[k]? = some x → ((∃ f ∈ (s.labels l).forwards, start + k = f + 1) → x = .lo l) := by
      rintro k x hk ⟨f, hf, hm⟩
      obtain ⟨_, k', e1, _, e2⟩ := h.fwd l _ hf
      have : k = k' + 1 := by omega
      subst this
      rw [e2] at hk
      exact (Option.some.inj hk).symm
    refine ⟨by simp only [setLabel]; rw [r1]; exact h.len, ?_, ?_, ?_, ?_, ?_⟩
    · intro a hx
      simp only [setLabel] at hx ⊢
      rw [r1] at hx
      rw [hw, h.out a hx]
      simp only [patched, Option.none_or]
      have n1 : a ∉ (s.labels l).forwards := by
        intro hm
        obtain ⟨_, k', e1, e2, e3⟩ := h.fwd l _ hm
        have := (List.getElem?_eq_some_iff.mp e3).1
        have := h.len
        omega
      have n2 : ¬ ∃ f ∈ (s.labels l).forwards, a = f + 1 := by
        rintro ⟨f, hf, rfl⟩
        obtain ⟨_, k', e1, e2, e3⟩ := h.fwd l _ hf
        have := (List.getElem?_eq_some_iff.mp e3).1
        have := h.len
        omega
      rw [if_neg n1, if_neg n2]
    · intro k b hk
      simp only [setLabel]
      rw [hw, h.byte k b hk]
      rfl
    · intro k m hk
      simp only [setLabel]
      rw [hw, r2]
      by_cases hm : m = l
      · subst hm
        rw [if_pos rfl]
        refine ⟨fun A hA => ?_, fun hn => nomatch hn⟩
        cases hA
        obtain ⟨e1, e2⟩ := (h.hi k m hk).2 ha
        rw [e2]
        simp [patched, e1]
      · rw [if_neg hm]
        have n1 : start + k ∉ (s.labels l).forwards := by
          intro hx
          have := hk1 k _ hk hx
          cases this
          exact hm rfl
        have n2 : ¬ ∃ f ∈ (s.labels l).forwards, start + k = f + 1 := by
          intro hx
          have := hk2 k _ hk hx
          cases this
        have hp : patched s.pc (s.labels l).forwards (start + k) = none := by rw [patched, if_neg n1, if_neg n2]
        rw [hp, Option.or_none]
        exact h.hi k m hk
    · intro k m hk
      simp only [setLabel]
      obtain ⟨k', e1, e2, e3, e4⟩ := h.lo k m hk
      refine ⟨k', e1, e2, ?_⟩
      rw [hw, r2]
      have n1 : start + k ∉ (s.labels l).forwards := by
        intro hx
        have := hk1 k _ hk hx
        cases this
      by_cases hm : m = l
      · subst hm
        rw [if_pos rfl]
        refine ⟨fun A hA => ?_, fun hn => nomatch hn⟩
        cases hA
        rw [e4 ha]
        have : ∃ f ∈ (s.labels m).forwards, start + k = f + 1 := ⟨start + k', ((h.hi k' m e2).2 ha).1, by omega⟩
        rw [patched, if_neg n1, if_pos this]
        rfl
      · rw [if_neg hm]
        have n2 : ¬ ∃ f ∈ (s.labels l).forwards, start + k = f + 1 := by
          intro hx
          have := hk2 k _ hk hx
          cases this
          exact hm rfl
        have hp : patched s.pc (s.labels l).forwards (start + k) = none := by rw [patched, if_neg n1, if_neg n2]
        rw [hp, Option.or_none]
        exact ⟨e3, e4⟩
    · intro m f hf
      simp only [setLabel] at hf ⊢
      rw [r2] at hf ⊢
      by_cases hm : m = l
      · subst hm; simp at hf
      · rw [if_neg hm] at hf ⊢
        exact h.fwd m f hf

theorem Inv.empty (start : Nat) : Inv start [] ({ pc := start } : Asm C) := by
  refine ⟨rfl, fun _ _ => rfl, ?_, ?_, ?_, ?_⟩
  · intro k b h; simp at h
  · intro k l h; simp at h
  · intro k l h; simp at h
  · intro l f h; simp at h

/-- With every label placed, the string holds the bytes. -/
theorem Inv.stored {start : Nat} {S : List SB} {s : Asm C} (h : Inv start S s) (at' : Nat → Nat)
    (hat : ∀ (k l : Nat), S[k]? = some (SB.hi l) → (s.labels l).address = some (at' l)) {k : Nat} {x : SB} (hk : S[k]? = some x) :
    Asm.stored s.code (start + k) = x.val at' := by
  rw [stored_wr]
  cases x with
  | byte b => rw [h.byte k b hk]; rfl
  | hi l =>
    rw [(h.hi k l hk).1 _ (hat k l hk)]
    simp only [Option.map_some, Option.getD_some, SB.val]
    omega
  | lo l =>
    obtain ⟨k', e1, e2, e3, _⟩ := h.lo k l hk
    rw [e3 _ (hat k' l e2)]
    simp only [Option.map_some, Option.getD_some, SB.val]
    omega

end Rep.Asm
