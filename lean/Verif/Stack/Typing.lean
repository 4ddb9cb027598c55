import Verif.Stack.Model
import Verif.Compile.Grow

/-
Heights of the stacks along code: a check of code, instruction by instruction, that predicts how
many values and frames there are before each instruction; `none` is a place that is not reached
from the instruction before it.
-/

namespace Rep.Stack

open Rep.Compile

/-- The numbers of values and of frames. -/
abbrev H := Nat × Nat

/-- The heights after an instruction; the outer `none` is an instruction that does not fit. -/
def tr0 (L : Nat → H) : Option H → I → Option (Option H)
  | some (h, b), .label l => if L l = (h, b) then some (some (h, b)) else none
  | none, .label l => some (some (L l))
  | none, _ => some none
  | some (h, b), .push _ => some (some (h + 1, b))
  | some (h, b), .refg _ => some (some (h + 1, b))
  | some (h, b), .refn _ => some (some (h + 1, b))
  | some (h, b), .slotRef _ => some (some (h + 1, b))
  | some (h, b), .lexRef _ _ => some (some (h + 1, b))
  | some (h, b), .reqArg => some (some (h + 1, b))
  | some (h, b), .enclose _ => some (some (h + 1, b))
  | some (h + 1, b), .dup => some (some (h + 2, b))
  | some (h + 1, b), .pop => some (some (h, b))
  | some (h + 1, b), .setg _ => some (some (h, b))
  | some (h + 1, b), .setn _ => some (some (h, b))
  | some (h + 1, b), .slotSet _ => some (some (h, b))
  | some (h + 1, b), .lexSet _ _ => some (some (h, b))
  | some (h + 1, b + 1), .bind => some (some (h, b + 1))
  | some (h + 1, b + 1), .lexBind _ _ => some (some (h, b + 1))
  | some (_, b), .popAll => some (some (0, b))
  | some (h, b), .initBind => some (some (h, b + 1))
  | some (h, b + 1), .unbind => some (some (h, b))
  | some (h, _ + 1), .unbindall => some (some (h, 1))
  | some (h, _), .unbindall0 => some (some (h, 0))
  | some (h, b), .jmp l => if L l = (h, b) then some none else none
  | some (h + 1, b), .jn l => if L l = (h, b) then some (some (h, b)) else none
  | some (h + 1, b), .jpt l => if L l = (h, b) then some (some (h + 1, b)) else none
  | some (h + 1, b), .jnp l => if L l = (h + 1, b) then some (some (h, b)) else none
  | some (h + 1, b), .jtp l => if L l = (h + 1, b) then some (some (h, b)) else none
  | some (h, b), .call n => if n + 1 ≤ h then some (some (h - n, b)) else none
  | some (_ + 1, _), .ret => some none
  | _, _ => none

/-- Within the limits. -/
def okH (M N : Nat) : Option H → Bool
  | none => true
  | some (h, b) => decide (h ≤ M ∧ b ≤ N)

def tr (L : Nat → H) (M N : Nat) (st : Option H) (i : I) : Option (Option H) :=
  match tr0 L st i with
  | some o => if okH M N o then some o else none
  | none => none

/-- The heights after some code. -/
def trs (L : Nat → H) (M N : Nat) : Option H → List I → Option (Option H)
  | st, [] => some st
  | st, i :: k => match tr L M N st i with
    | some o => trs L M N o k
    | none => none

theorem trs_append (L : Nat → H) (M N : Nat) (st : Option H) (k k' : List I) :
    trs L M N st (k ++ k') = match trs L M N st k with
      | some o => trs L M N o k'
      | none => none := by
  induction k generalizing st with
  | nil => simp [trs]
  | cons i k ih =>
    simp only [List.cons_append, trs]
    cases tr L M N st i with
    | none => rfl
    | some o => exact ih o

/-- At most as much is known to be reached. -/
def Le (a b : Option H) : Prop := a = none ∨ a = b

theorem Le.refl (a : Option H) : Le a a := .inr rfl

theorem Le.trans {a b c : Option H} (h : Le a b) (h' : Le b c) : Le a c := by
  rcases h with h | h
  · exact .inl h
  · subst h; exact h'

theorem tr0_mono {L : Nat → H} {a : H} {i : I} {o : Option H}
    (h : tr0 L (some a) i = some o) : ∃ o', tr0 L none i = some o' ∧ Le o' o := by
  obtain ⟨x, y⟩ := a
  cases i with
  | label l =>
    simp only [tr0] at h
    split at h
    · rename_i e
      simp only [Option.some.injEq] at h
      subst h
      exact ⟨_, rfl, .inr (by rw [e])⟩
    · simp at h
  | _ => exact ⟨none, by simp [tr0], .inl rfl⟩

theorem okH_mono {M N : Nat} {a b : Option H} (h : Le a b) (hb : okH M N b = true) :
    okH M N a = true := by
  rcases h with h | h
  · subst h; rfl
  · subst h; exact hb

theorem tr_mono {L : Nat → H} {M N : Nat} {a b : Option H} {i : I} {o : Option H} (hab : Le a b)
    (h : tr L M N b i = some o) : ∃ o', tr L M N a i = some o' ∧ Le o' o := by
  rcases hab with hab | hab
  · subst hab
    cases b with
    | none => exact ⟨o, h, .refl o⟩
    | some b =>
      unfold tr at h
      split at h
      · rename_i o1 h1
        split at h
        · rename_i h2
          simp only [Option.some.injEq] at h
          subst h
          obtain ⟨o', e, l⟩ := tr0_mono h1
          refine ⟨o', ?_, l⟩
          simp [tr, e, okH_mono l h2]
        · simp at h
      · simp at h
  · subst hab
    exact ⟨o, h, .refl o⟩

theorem trs_mono {L : Nat → H} {M N : Nat} {a b : Option H} {k : List I} {o : Option H}
    (hab : Le a b) (h : trs L M N b k = some o) : ∃ o', trs L M N a k = some o' ∧ Le o' o := by
  induction k generalizing a b with
  | nil =>
    simp only [trs, Option.some.injEq] at h
    subst h
    exact ⟨a, rfl, hab⟩
  | cons i k ih =>
    simp only [trs] at h ⊢
    split at h
    · rename_i o1 h1
      obtain ⟨o2, e, l⟩ := tr_mono hab h1
      rw [e]
      exact ih l h
    · simp at h

/-- Code that fits between the given heights. -/
def Ty (L : Nat → H) (M N : Nat) (a : Option H) (k : List I) (b : Option H) : Prop :=
  ∃ o, trs L M N a k = some o ∧ Le o b

theorem Ty.nil (L : Nat → H) (M N : Nat) (a : Option H) : Ty L M N a [] a := ⟨a, rfl, .refl a⟩

theorem Ty.append {L : Nat → H} {M N : Nat} {a b c : Option H} {k k' : List I}
    (h : Ty L M N a k b) (h' : Ty L M N b k' c) : Ty L M N a (k ++ k') c := by
  obtain ⟨o, e, l⟩ := h
  obtain ⟨o', e', l'⟩ := h'
  obtain ⟨o2, e2, l2⟩ := trs_mono l e'
  exact ⟨o2, by rw [trs_append, e]; exact e2, l2.trans l'⟩

theorem Ty.one {L : Nat → H} {M N : Nat} {a b : Option H} {i : I} (h : tr0 L a i = some b)
    (hb : okH M N b = true) : Ty L M N a [i] b :=
  ⟨b, by simp [trs, tr, h, hb], .refl b⟩

theorem Ty.cons {L : Nat → H} {M N : Nat} {a b c : Option H} {i : I} {k : List I}
    (h : tr0 L a i = some b) (hb : okH M N b = true) (hk : Ty L M N b k c) :
    Ty L M N a (i :: k) c :=
  (Ty.one h hb).append hk

/-- Code that is not reached, and has no label, fits. -/
theorem Ty.dead {L : Nat → H} {M N : Nat} {b : Option H} {k : List I} (h : labelsOf k = []) :
    Ty L M N none k b := by
  refine ⟨none, ?_, .inl rfl⟩
  induction k with
  | nil => rfl
  | cons i k ih =>
    rw [labelsOf_cons] at h
    cases i with
    | label l => simp [labelOf] at h
    | _ => simp [labelOf] at h; simp [trs, tr, tr0, okH, ih h]

theorem Ty.le {L : Nat → H} {M N : Nat} {a b c : Option H} {k : List I} (h : Ty L M N a k b)
    (hb : Le b c) : Ty L M N a k c := by
  obtain ⟨o, e, l⟩ := h
  exact ⟨o, e, l.trans hb⟩

/-- A statement about the heights at labels that can be met by choosing them for the labels in a
range. -/
def Fits (lo hi : Nat) (R : (Nat → H) → Prop) : Prop :=
  ∃ f : Nat → H, ∀ L : Nat → H, (∀ l, lo ≤ l → l < hi → L l = f l) → R L

theorem Fits.triv {lo hi : Nat} {R : (Nat → H) → Prop} (h : ∀ L, R L) : Fits lo hi R :=
  ⟨fun _ => (0, 0), fun L _ => h L⟩

theorem Fits.imp {lo hi : Nat} {R R' : (Nat → H) → Prop} (h : Fits lo hi R)
    (hi' : ∀ L, R L → R' L) : Fits lo hi R' := by
  obtain ⟨f, hf⟩ := h
  exact ⟨f, fun L hL => hi' L (hf L hL)⟩

theorem Fits.mono {lo hi lo' hi' : Nat} {R : (Nat → H) → Prop} (h : Fits lo hi R) (h1 : lo' ≤ lo)
    (h2 : hi ≤ hi') : Fits lo' hi' R := by
  obtain ⟨f, hf⟩ := h
  exact ⟨f, fun L hL => hf L fun l a b => hL l (Nat.le_trans h1 a) (Nat.lt_of_lt_of_le b h2)⟩

theorem Fits.and {lo mid hi : Nat} {R R' : (Nat → H) → Prop} (h : Fits lo mid R)
    (h' : Fits mid hi R') (h1 : lo ≤ mid) (h2 : mid ≤ hi) : Fits lo hi fun L => R L ∧ R' L := by
  obtain ⟨f, hf⟩ := h
  obtain ⟨g, hg⟩ := h'
  refine ⟨fun l => if l < mid then f l else g l, fun L hL => ⟨hf L ?_, hg L ?_⟩⟩
  · intro l a b
    simp [hL l a (by omega), b]
  · intro l a b
    simp [hL l (by omega) b, Nat.not_lt.2 a]

theorem Fits.label (l : Nat) (x : H) : Fits l (l + 1) fun L => L l = x :=
  ⟨fun _ => x, fun _ hL => hL l (Nat.le_refl _) (Nat.lt_succ_self _)⟩

end Rep.Stack
