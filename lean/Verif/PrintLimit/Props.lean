import Verif.PrintLimit.Model
/-!
# C113: the limits `print-length` and `print-level`

The specification is in `Spec`: trees, the text of a tree without any limit, and what the limits
leave of a tree.
-/
namespace Rep.PrintLimit

namespace Spec

/-- Objects that don't contain themselves. -/
inductive Tree
  | nil
  | atom (s : Str)
  | cons (a d : Tree)
  | vec (l : List Tree)

mutual
/-- The text of an object, without limits. -/
def text : Tree → Str
  | .nil => "()".toList
  | .atom s => s
  | .cons a d => "(".toList ++ text a ++ rest d ++ ")".toList
  | .vec l => "[".toList ++ all l ++ "]".toList
/-- The text after the first element of a list. -/
def rest : Tree → Str
  | .nil => []
  | .cons a d => " ".toList ++ text a ++ rest d
  | .atom s => " . ".toList ++ s
  | .vec l => " . ".toList ++ ("[".toList ++ all l ++ "]".toList)
/-- The elements of a vector, with a space between each two. -/
def all : List Tree → Str
  | [] => []
  | x :: l => text x ++ more l
/-- The elements of a vector after the first one. -/
def more : List Tree → Str
  | [] => []
  | x :: l => " ".toList ++ text x ++ more l
end

/-- What is written in place of something left out. -/
def dots : Tree := .atom "...".toList

/-- Nothing more may be printed. -/
def out : Option Int → Prop
  | none => False
  | some k => k ≤ 0

instance (k : Option Int) : Decidable (out k) := by
  cases k <;> unfold out <;> infer_instance

/-- One less may be printed. -/
def less : Option Int → Option Int
  | none => none
  | some k => some (k - 1)

mutual
/-- What is left of an object, if no more than `len` elements of each list and no more than
`lvl` lists inside each other may be printed. -/
def cut (len : Option Int) (lvl : Option Int) : Tree → Tree
  | .nil => .nil
  | .atom s => .atom s
  | .cons a d =>
    if out lvl then dots
    else if out len then .cons dots .nil
    else .cons (cut len (less lvl) a) (cutRest len (less lvl) (less len) d)
  | .vec l => .vec (cutAll len lvl l)
/-- What is left of the rest of a list, if `k` more elements may be printed. -/
def cutRest (len : Option Int) (lvl : Option Int) (k : Option Int) : Tree → Tree
  | .nil => .nil
  | .atom s => .atom s
  | .vec l => .vec (cutAll len lvl l)
  | .cons a d =>
    if out k then .cons dots .nil
    else .cons (cut len lvl a) (cutRest len lvl (less k) d)
/-- What is left of the elements of a vector. -/
def cutAll (len : Option Int) (lvl : Option Int) : List Tree → List Tree
  | [] => []
  | x :: l => cut len lvl x :: cutAll len lvl l
end

mutual
/-- The address holds the tree. -/
def Holds (h : Heap) : Tree → Nat → Prop
  | .nil, x => h x = .nil
  | .atom s, x => h x = .atom s
  | .cons a d, x => ∃ p q, h x = .cons p q ∧ Holds h a p ∧ Holds h d q
  | .vec l, x => ∃ ps, h x = .vec ps ∧ HoldsAll h l ps
/-- The addresses hold the trees. -/
def HoldsAll (h : Heap) : List Tree → List Nat → Prop
  | [], ps => ps = []
  | t :: l, ps => ∃ p qs, ps = p :: qs ∧ Holds h t p ∧ HoldsAll h l qs
end

/-- The printing ends, with this text. -/
def Prints (h : Heap) (len lvl : Option Int) (lev x : Nat) (s : Str) : Prop :=
  ∃ f₀, ∀ f, f₀ ≤ f → prin h len lvl f lev x = some s

/-- The printing ends. -/
def Ends (h : Heap) (len lvl : Option Int) (x : Nat) : Prop :=
  ∃ f, (prin h len lvl f 0 x).isSome

end Spec

open Spec

/-! ## Proofs -/

/-- What is left of a limit. -/
def left (l : Option Int) (n : Nat) : Option Int := l.map (· - (n : Int))

theorem left_zero (l : Option Int) : left l 0 = l := by
  cases l <;> simp [left]

theorem reached_iff (l : Option Int) (n : Nat) : reached l n = true ↔ out (left l n) := by
  cases l with
  | none => simp [reached, left, out]
  | some k =>
    simp only [reached, left, out, Option.map_some, decide_eq_true_eq]
    omega

theorem less_left (l : Option Int) (n : Nat) : less (left l n) = left l (n + 1) := by
  cases l with
  | none => rfl
  | some k =>
    simp only [left, less, Option.map_some, Option.some.injEq]
    omega

/-- The text of a list between its parentheses. -/
def inner : Tree → Str
  | .cons a d => text a ++ rest d
  | _ => []

/-- The list loop prints the rest of the list. -/
def ElemsOk (h : Heap) (len lvl : Option Int) (t : Tree) : Prop :=
  ∀ lev n x, Holds h t x → (∃ a d, t = .cons a d) →
    ∃ f₀, ∀ f, f₀ ≤ f →
      elems h len lvl f lev n x
        = some (inner (cutRest len (left lvl lev) (left len n) t))

def PrinOk (h : Heap) (len lvl : Option Int) (t : Tree) : Prop :=
  ∀ lev x, Holds h t x → Prints h len lvl lev x (text (cut len (left lvl lev) t))

def ItemsOk (h : Heap) (len lvl : Option Int) (l : List Tree) : Prop :=
  ∀ lev ps, HoldsAll h l ps →
    ∃ f₀, ∀ f, f₀ ≤ f →
      items h len lvl f lev ps = some (all (cutAll len (left lvl lev) l))

theorem prin_of_elems {h : Heap} {len lvl : Option Int} {a d : Tree}
    (he : ElemsOk h len lvl (.cons a d)) : PrinOk h len lvl (.cons a d) := by
  intro lev x hx
  obtain ⟨p, q, hc, _, _⟩ := id hx
  obtain ⟨f₀, hf⟩ := he (lev + 1) 0 x hx ⟨a, d, rfl⟩
  refine ⟨f₀ + 1, fun f hle => ?_⟩
  obtain ⟨g, rfl⟩ : ∃ g, f = g + 1 := ⟨f - 1, by omega⟩
  have hg := hf g (by omega)
  unfold prin
  simp only [hc]
  by_cases ho : reached lvl lev = true
  · have ho' := (reached_iff lvl lev).1 ho
    rw [if_pos ho]
    simp [cut, ho', dots, text, dotsText]
  · have ho' : ¬ out (left lvl lev) := fun k => ho ((reached_iff lvl lev).2 k)
    rw [if_neg ho, hg]
    simp only [cut, ho', if_false, cutRest, left_zero, less_left, Option.bind_eq_bind,
      Option.bind_some]
    by_cases hl : out len
    · simp [hl, inner, text, rest]
    · simp [hl, inner, text]

theorem cutRest_cons (len lvl k : Option Int) (a d : Tree) :
    cutRest len lvl k (.cons a d) = if out k then .cons dots .nil
      else .cons (cut len lvl a) (cutRest len lvl (less k) d) := by
  rw [cutRest]

theorem cutRest_not_cons {len lvl k : Option Int} {t : Tree} (hn : ∀ a d, t ≠ .cons a d) :
    cutRest len lvl k t = cut len lvl t := by
  cases t with
  | cons a d => exact absurd rfl (hn a d)
  | nil => simp [cut, cutRest]
  | atom s => simp [cut, cutRest]
  | vec l => simp [cut, cutRest]

theorem holds_isCons {h : Heap} {t : Tree} {x : Nat} (hx : Holds h t x) :
    isCons (h x) = true ↔ ∃ a d, t = .cons a d := by
  cases t with
  | cons a d =>
    obtain ⟨p, q, hc, _⟩ := hx
    simp [hc, isCons]
  | nil => simp only [Holds] at hx; simp [hx, isCons]
  | atom s => simp only [Holds] at hx; simp [hx, isCons]
  | vec l =>
    obtain ⟨ps, hc, _⟩ := hx
    simp [hc, isCons]

theorem elems_step {h : Heap} {len lvl : Option Int} {a d : Tree} (ha : PrinOk h len lvl a)
    (hd : PrinOk h len lvl d) (hde : ElemsOk h len lvl d) : ElemsOk h len lvl (.cons a d) := by
  intro lev n x hx _
  obtain ⟨p, q, hc, hp, hq⟩ := hx
  obtain ⟨f₁, h₁⟩ := ha lev p hp
  by_cases hcd : isCons (h q) = true
  · obtain ⟨a', d', rfl⟩ := (holds_isCons hq).1 hcd
    obtain ⟨f₂, h₂⟩ := hde lev (n + 1) q hq ⟨a', d', rfl⟩
    refine ⟨f₁ + f₂ + 1, fun f hle => ?_⟩
    obtain ⟨g, rfl⟩ : ∃ g, f = g + 1 := ⟨f - 1, by omega⟩
    have g₁ := h₁ g (by omega)
    have g₂ := h₂ g (by omega)
    unfold elems
    simp only [hc, hcd, if_true]
    by_cases ho : reached len n = true
    · have ho' := (reached_iff len n).1 ho
      rw [if_pos ho]
      simp [cutRest, ho', dots, text, rest, inner, dotsText]
    · have ho' : ¬ out (left len n) := fun k => ho ((reached_iff len n).2 k)
      rw [if_neg ho, g₁, g₂]
      rw [cutRest_cons len (left lvl lev) (left len n) a, if_neg ho', less_left]
      simp only [Option.bind_eq_bind, Option.bind_some, inner, Option.some.injEq]
      congr 1
      have : ∃ b c, cutRest len (left lvl lev) (left len (n + 1)) (.cons a' d') = .cons b c := by
        rw [cutRest]; split
        · exact ⟨_, _, rfl⟩
        · exact ⟨_, _, rfl⟩
      obtain ⟨b, c, hbc⟩ := this
      rw [hbc]
      simp [inner, rest]
  · have hnd : ∀ b c, d ≠ .cons b c := fun b c e => hcd ((holds_isCons hq).2 ⟨b, c, e⟩)
    obtain ⟨f₂, h₂⟩ := hd lev q hq
    refine ⟨f₁ + f₂ + 1, fun f hle => ?_⟩
    obtain ⟨g, rfl⟩ : ∃ g, f = g + 1 := ⟨f - 1, by omega⟩
    have g₁ := h₁ g (by omega)
    have g₂ := h₂ g (by omega)
    unfold elems
    simp only [hc]
    rw [if_neg hcd]
    by_cases ho : reached len n = true
    · have ho' := (reached_iff len n).1 ho
      rw [if_pos ho]
      simp [cutRest, ho', dots, text, rest, inner, dotsText]
    · have ho' : ¬ out (left len n) := fun k => ho ((reached_iff len n).2 k)
      rw [if_neg ho, g₁]
      simp only [Option.bind_eq_bind, Option.bind_some, g₂]
      rw [cutRest_cons, if_neg ho', cutRest_not_cons hnd]
      cases d with
      | cons b c => exact absurd rfl (hnd b c)
      | nil =>
        simp only [Holds] at hq
        simp [hq, isNil, cut, inner, rest]
      | atom s =>
        simp only [Holds] at hq
        simp [hq, isNil, cut, inner, rest, text]
      | vec l =>
        obtain ⟨ps, hv, _⟩ := hq
        simp [hv, isNil, cut, inner, rest, text]

mutual
theorem prin_ok (h : Heap) (len lvl : Option Int) :
    ∀ t : Tree, PrinOk h len lvl t ∧ ElemsOk h len lvl t
  | .nil => by
    refine ⟨fun lev x hx => ⟨1, fun f hf => ?_⟩, fun _ _ _ _ e => by obtain ⟨_, _, e⟩ := e; cases e⟩
    obtain ⟨g, rfl⟩ : ∃ g, f = g + 1 := ⟨f - 1, by omega⟩
    simp only [Holds] at hx
    simp [prin, hx, cut, text, nilText]
  | .atom s => by
    refine ⟨fun lev x hx => ⟨1, fun f hf => ?_⟩, fun _ _ _ _ e => by obtain ⟨_, _, e⟩ := e; cases e⟩
    obtain ⟨g, rfl⟩ : ∃ g, f = g + 1 := ⟨f - 1, by omega⟩
    simp only [Holds] at hx
    simp [prin, hx, cut, text]
  | .cons a d => by
    have ha := prin_ok h len lvl a
    have hd := prin_ok h len lvl d
    have he := elems_step ha.1 hd.1 hd.2
    exact ⟨prin_of_elems he, he⟩
  | .vec l => by
    have hl := items_ok h len lvl l
    refine ⟨fun lev x hx => ?_, fun _ _ _ _ e => by obtain ⟨_, _, e⟩ := e; cases e⟩
    obtain ⟨ps, hc, hps⟩ := hx
    obtain ⟨f₀, hf⟩ := hl lev ps hps
    refine ⟨f₀ + 1, fun f hle => ?_⟩
    obtain ⟨g, rfl⟩ : ∃ g, f = g + 1 := ⟨f - 1, by omega⟩
    have hg := hf g (by omega)
    unfold prin
    simp [hc, hg, cut, text]
theorem items_ok (h : Heap) (len lvl : Option Int) : ∀ l : List Tree, ItemsOk h len lvl l
  | [] => by
    intro lev ps hps
    simp only [HoldsAll] at hps
    subst hps
    refine ⟨1, fun f hf => ?_⟩
    obtain ⟨g, rfl⟩ : ∃ g, f = g + 1 := ⟨f - 1, by omega⟩
    simp [items, cutAll, all]
  | t :: l => by
    have ht := prin_ok h len lvl t
    have hl := items_ok h len lvl l
    intro lev ps hps
    obtain ⟨p, qs, rfl, hp, hqs⟩ := hps
    obtain ⟨f₁, h₁⟩ := ht.1 lev p hp
    obtain ⟨f₂, h₂⟩ := hl lev qs hqs
    refine ⟨f₁ + f₂ + 1, fun f hle => ?_⟩
    obtain ⟨g, rfl⟩ : ∃ g, f = g + 1 := ⟨f - 1, by omega⟩
    have g₁ := h₁ g (by omega)
    have g₂ := h₂ g (by omega)
    cases l with
    | nil =>
      simp only [HoldsAll] at hqs
      subst hqs
      simp [items, g₁, cutAll, all, more]
    | cons t' l' =>
      obtain ⟨p', qs', rfl, _, _⟩ := hqs
      simp [items, g₁, g₂, cutAll, all, more]
end

/-- **C113**: an object that doesn't contain itself is printed as what the limits leave of it is
printed without limits: of each list no more than `print-length` elements, and no more than
`print-level` lists inside each other; dots stand for what is left out. -/
theorem C113_cut (h : Heap) (len lvl : Option Int) (t : Tree) (x : Nat) (hx : Holds h t x) :
    Prints h len lvl 0 x (text (cut len lvl t)) := by
  have := (prin_ok h len lvl t).1 0 x hx
  rwa [left_zero] at this

mutual
theorem cut_none : ∀ t : Tree, cut none none t = t ∧ cutRest none none none t = t
  | .nil => by simp [cut, cutRest]
  | .atom s => by simp [cut, cutRest]
  | .cons a d => by
    have ha := cut_none a
    have hd := cut_none d
    simp [cut, cutRest, out, less, ha.1, hd.2]
  | .vec l => by simp [cut, cutRest, cutAll_none l]
theorem cutAll_none : ∀ l : List Tree, cutAll none none l = l
  | [] => by simp [cutAll]
  | t :: l => by simp [cutAll, (cut_none t).1, cutAll_none l]
end

/-- **C113**: without limits, the text is complete. -/
theorem C113_unlimited (h : Heap) (t : Tree) (x : Nat) (hx : Holds h t x) :
    Prints h none none 0 x (text t) := by
  have := C113_cut h none none t x hx
  rwa [(cut_none t).1] at this

/-- The list `(a (b (c)) d [e (f)])`. -/
def sample : Tree :=
  .cons (.atom ['a']) (.cons (.cons (.atom ['b']) (.cons (.cons (.atom ['c']) .nil) .nil))
    (.cons (.atom ['d']) (.cons (.vec [.atom ['e'], .cons (.atom ['f']) .nil]) .nil)))

example : text sample = "(a (b (c)) d [e (f)])".toList := by decide +kernel
example : text (cut (some 3) none sample) = "(a (b (c)) d ...)".toList := by decide +kernel
example : text (cut none (some 1) sample) = "(a ... d [e ...])".toList := by decide +kernel
example : text (cut (some 2) (some 2) sample) = "(a (b ...) ...)".toList := by decide +kernel

def sampleHeap : Heap
  | 0 => .cons 1 2 | 1 => .atom ['a'] | 2 => .cons 3 4 | 3 => .cons 5 6 | 5 => .atom ['b']
  | 6 => .cons 7 8 | 7 => .cons 9 8 | 9 => .atom ['c'] | 4 => .cons 10 11 | 10 => .atom ['d']
  | 11 => .cons 12 8 | 12 => .vec [13, 14] | 13 => .atom ['e'] | 14 => .cons 15 8
  | 15 => .atom ['f'] | _ => .nil

example : Holds sampleHeap sample 0 := by
  unfold sample
  repeat' first
    | exact rfl
    | refine ⟨_, _, rfl, ?_, ?_⟩
    | refine ⟨_, rfl, ?_⟩

/-! ### Objects that contain themselves -/

theorem elems_ends {h : Heap} {l d : Int} (lev : Nat)
    (hp : ∀ x, ∃ f₀, ∀ f, f₀ ≤ f → (prin h (some l) (some d) f lev x).isSome) :
    ∀ (k n : Nat), l - n ≤ k → ∀ x, isCons (h x) = true →
      ∃ f₀, ∀ f, f₀ ≤ f → (elems h (some l) (some d) f lev n x).isSome := by
  intro k
  induction k with
  | zero =>
    intro n hn x hx
    refine ⟨1, fun f hf => ?_⟩
    obtain ⟨g, rfl⟩ : ∃ g, f = g + 1 := ⟨f - 1, by omega⟩
    have hr : reached (some l) n = true := by simp only [reached, decide_eq_true_eq]; omega
    unfold elems
    cases hc : h x with
    | cons a q => simp [hr]
    | nil => rw [hc] at hx; cases hx
    | atom s => rw [hc] at hx; cases hx
    | vec s => rw [hc] at hx; cases hx
  | succ k ih =>
    intro n hn x hx
    cases hc : h x with
    | nil => rw [hc] at hx; cases hx
    | atom s => rw [hc] at hx; cases hx
    | vec s => rw [hc] at hx; cases hx
    | cons a q =>
      obtain ⟨f₁, h₁⟩ := hp a
      by_cases hq : isCons (h q) = true
      · obtain ⟨f₂, h₂⟩ := ih (n + 1) (by omega) q hq
        refine ⟨f₁ + f₂ + 1, fun f hf => ?_⟩
        obtain ⟨g, rfl⟩ : ∃ g, f = g + 1 := ⟨f - 1, by omega⟩
        obtain ⟨s, hs⟩ := Option.isSome_iff_exists.1 (h₁ g (by omega))
        obtain ⟨t, ht⟩ := Option.isSome_iff_exists.1 (h₂ g (by omega))
        unfold elems
        simp only [hc, hq, if_true, hs, ht]
        split <;> simp
      · obtain ⟨f₂, h₂⟩ := hp q
        refine ⟨f₁ + f₂ + 1, fun f hf => ?_⟩
        obtain ⟨g, rfl⟩ : ∃ g, f = g + 1 := ⟨f - 1, by omega⟩
        obtain ⟨s, hs⟩ := Option.isSome_iff_exists.1 (h₁ g (by omega))
        obtain ⟨t, ht⟩ := Option.isSome_iff_exists.1 (h₂ g (by omega))
        unfold elems
        simp only [hc]
        rw [if_neg hq]
        split
        · simp
        · simp only [hs, ht, Option.bind_eq_bind, Option.bind_some]
          split <;> simp

theorem prin_ends {h : Heap} (hv : ∀ x l, h x ≠ .vec l) (l d : Int) :
    ∀ (k lev : Nat), d - lev ≤ k → ∀ x,
      ∃ f₀, ∀ f, f₀ ≤ f → (prin h (some l) (some d) f lev x).isSome := by
  intro k
  induction k with
  | zero =>
    intro lev hk x
    refine ⟨1, fun f hf => ?_⟩
    obtain ⟨g, rfl⟩ : ∃ g, f = g + 1 := ⟨f - 1, by omega⟩
    have hr : reached (some d) lev = true := by simp only [reached, decide_eq_true_eq]; omega
    unfold prin
    cases hc : h x with
    | cons a q => simp [hr]
    | nil => simp
    | atom s => simp
    | vec s => exact absurd hc (hv x s)
  | succ k ih =>
    intro lev hk x
    cases hc : h x with
    | nil => exact ⟨1, fun f hf => by
        obtain ⟨g, rfl⟩ : ∃ g, f = g + 1 := ⟨f - 1, by omega⟩
        simp [prin, hc]⟩
    | atom s => exact ⟨1, fun f hf => by
        obtain ⟨g, rfl⟩ : ∃ g, f = g + 1 := ⟨f - 1, by omega⟩
        simp [prin, hc]⟩
    | vec s => exact absurd hc (hv x s)
    | cons a q =>
      obtain ⟨f₀, hf⟩ := elems_ends (lev + 1) (ih (lev + 1) (by omega)) l.toNat 0 (by omega) x
        (by simp [hc, isCons])
      refine ⟨f₀ + 1, fun f hle => ?_⟩
      obtain ⟨g, rfl⟩ : ∃ g, f = g + 1 := ⟨f - 1, by omega⟩
      obtain ⟨s, hs⟩ := Option.isSome_iff_exists.1 (hf g (by omega))
      unfold prin
      simp only [hc, hs]
      split <;> simp

/-- **C113, partial**: with both limits, the printing of any object ends, even if lists contain
themselves in any way. Missing: objects with vectors, see `C113_vector_violated`. -/
theorem C113_ends_partial (h : Heap) (hv : ∀ x l, h x ≠ .vec l) (len lvl : Int) (x : Nat) :
    Ends h (some len) (some lvl) x := by
  obtain ⟨f₀, hf⟩ := prin_ends hv len lvl lvl.toNat 0 (by omega) x
  exact ⟨f₀, hf f₀ (Nat.le_refl _)⟩

/-- A list whose elements and whose rest are the list itself. -/
def knot : Heap
  | 0 => .cons 0 0
  | _ => .nil

example : ∀ x l, knot x ≠ .vec l := by
  intro x l
  unfold knot
  split <;> simp

example : prin knot (some 2) (some 2) 20 0 0
    = some "((... ... ...) (... ... ...) ...)".toList := by decide +kernel

/-- A vector whose only element is itself. -/
def loopVec : Heap
  | 0 => .vec [0]
  | _ => .nil

theorem loopVec_never (len lvl : Option Int) :
    ∀ f lev, prin loopVec len lvl f lev 0 = none ∧ items loopVec len lvl f lev [0] = none := by
  intro f
  induction f with
  | zero => intro lev; simp [prin, items]
  | succ f ih =>
    intro lev
    have hc : loopVec 0 = .vec [0] := rfl
    refine ⟨?_, ?_⟩
    · unfold prin
      simp [hc, (ih lev).2]
    · unfold items
      exact (ih lev).1

/-- **C113, violated**: whatever the limits, a vector that contains itself is printed for ever (the
recursion ends with the C stack). -/
theorem C113_vector_violated :
    ∃ (h : Heap) (x : Nat), ∀ len lvl : Option Int, ¬ Ends h len lvl x := by
  refine ⟨loopVec, 0, fun len lvl ⟨f, hf⟩ => ?_⟩
  rw [(loopVec_never len lvl f 0).1] at hf
  cases hf

/-- The list `(a)`. -/
def oneHeap : Heap
  | 0 => .cons 1 2
  | 1 => .atom ['a']
  | _ => .nil

/-- **C113, violated**: the depth is counted over everything that is being printed at the time.
When the stream's function itself prints, or when it has left an earlier printing through a
continuation, the list `(a)` isn't printed although `print-level` is one. -/
theorem C113_nested_violated :
    ∃ (h : Heap) (t : Tree) (x : Nat), Holds h t x ∧
      Prints h none (some 1) 0 x "(a)".toList ∧ Prints h none (some 1) 1 x "...".toList := by
  have hx : Holds oneHeap (.cons (.atom ['a']) .nil) 0 := ⟨1, 2, rfl, rfl, rfl⟩
  refine ⟨oneHeap, .cons (.atom ['a']) .nil, 0, hx, ?_, ?_⟩
  · have := C113_cut oneHeap none (some 1) _ 0 hx
    simpa [cut, cutRest, out, less, text, rest] using this
  · have := (prin_ok oneHeap none (some 1) _).1 1 0 hx
    simpa [cut, out, left, dots, text] using this

end Rep.PrintLimit
