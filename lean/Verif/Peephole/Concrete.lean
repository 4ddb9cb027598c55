import Verif.Peephole.Sound2

/-
A concrete machine: it shows that the laws of `Machine` can be met, and it runs the examples.
-/

namespace Rep.Peep

/-- Values: `()`, fixnums, other objects, conses.  Object 0 is `#f`, 1 is `#t`, 2 is `t`. -/
inductive V0
  | nil
  | int (i : Int)
  | obj (n : Nat)
  | cons (a b : V0)
deriving DecidableEq, Repr

/-- The world: lexical environment, slots, global variables (or void), and a log of calls. -/
structure W0 where
  env : List V0
  slot : Nat → V0
  glob : Nat → Option V0
  log : List V0

/-- `bad-arg` and `void-value` -/
def badArg : V0 := .obj 100
def voidVar : V0 := .obj 101

def V0.truth (b : Bool) : V0 := if b then .obj 2 else .nil

/-- lispmach.h:1182-1198: `car` of something else is `()` -/
def V0.car : V0 → V0
  | .cons a _ => a
  | _ => .nil

def V0.cdr : V0 → V0
  | .cons _ b => b
  | _ => .nil

/-- `+` and `-` on fixnums (without overflow) -/
def V0.arith (f : Int → Int → Int) : V0 → V0 → Except V0 V0
  | .int i, .int j => .ok (.int (f i j))
  | _, _ => .error badArg

def bin0 (o : Bin) (_ : W0) (v u : V0) : Except V0 V0 :=
  match o with
  | .add => V0.arith (· + ·) v u
  | .sub => V0.arith (· - ·) v u
  | .numEq => .ok (.truth (decide (v = u)))
  | .other _ true => .ok (.cons v u)
  | .other _ false => .error badArg

def un0 (o : Un) (w : W0) (v : V0) : Except V0 V0 :=
  match o with
  | .car => .ok v.car
  | .cdr => .ok v.cdr
  | .caar => .ok v.car.car
  | .cdar => .ok v.car.cdr
  | .cadr => .ok v.cdr.car
  | .cddr => .ok v.cdr.cdr
  | .testScm => .ok (if v = .nil then .obj 0 else .obj 1)
  | .testScmF => .ok (if v = .nil then .obj 0 else v)
  | .scmTest => .ok (.truth (decide (v ≠ .obj 0)))
  | .inc => bin0 .add w v (.int 1)
  | .dec => bin0 .sub w v (.int 1)
  | .zerop => bin0 .numEq w v (.int 0)
  | .not => .ok (.truth (decide (v = .nil)))
  | .notZeroP => .ok (.truth (decide (v ≠ .int 0)))
  | .other _ true => .ok (.truth true)
  | .other _ false => .error badArg

def const0 : Const → V0
  | .nil => .nil
  | .int i => .int i
  | .obj n => .obj n

def ref0 (k : RK) (w : W0) (x : Nat) : RefRes V0 :=
  match k with
  | .n => match w.env[x]? with
    | some v => .ok v
    | none => .ub
  | .slot => .ok (w.slot x)
  | .g => match w.glob x with
    | some v => .ok v
    | none => .raise voidVar

def set0 (k : RK) (w : W0) (x : Nat) (v : V0) : Option W0 :=
  match k with
  | .n => if x < w.env.length then some { w with env := w.env.set x v } else none
  | .slot => some { w with slot := fun y => if y = x then v else w.slot y }
  | .g => some { w with glob := fun y => if y = x then some v else w.glob y }

/-- An opaque instruction: pop a value and log it. -/
def eff0 (_ : Nat) (w : W0) (st : List V0) : EffRes V0 W0 :=
  match st with
  | [] => .ub
  | v :: st => .ok { w with log := v :: w.log } st .none

theorem set_ref0 (k : RK) (w : W0) (x : Nat) (v : V0) (w' : W0) (_ : k ≠ .g)
    (h : set0 k w x v = some w') : ref0 k w' x = .ok v := by
  cases k with
  | n =>
    simp only [set0] at h
    by_cases hx : x < w.env.length
    · rw [if_pos hx] at h; cases h; simp [ref0, hx]
    · rw [if_neg hx] at h; cases h
  | slot => cases h; simp [ref0]
  | g => contradiction

theorem ref_set0 (k : RK) (w : W0) (x : Nat) (v : V0) (h : ref0 k w x = .ok v) :
    set0 k w x v = some w := by
  cases k with
  | n =>
    simp only [ref0] at h
    cases he : w.env[x]? with
    | none => rw [he] at h; cases h
    | some u =>
      rw [he] at h; cases h
      obtain ⟨hx, hv⟩ := List.getElem?_eq_some_iff.1 he
      simp only [set0, if_pos hx]
      congr
      rw [← hv]; exact List.set_getElem_self hx
  | slot =>
    cases h
    simp only [set0]
    congr
    funext y
    by_cases hy : y = x <;> simp [hy]
  | g =>
    simp only [ref0] at h
    cases he : w.glob x with
    | none => rw [he] at h; cases h
    | some u =>
      rw [he] at h; cases h
      simp only [set0]
      congr
      funext y
      by_cases hy : y = x <;> simp [hy, he]

/-- The machine. -/
def M0 : Machine where
  V := V0
  W := W0
  const := const0
  isNil v := decide (v = .nil)
  un := un0
  bin := bin0
  ref := ref0
  set := set0
  bindLex w v := { w with env := v :: w.env }
  unbind w l _ := { w with env := w.env.drop l }
  eff := eff0
  nil_const := rfl
  nil_unique v h := of_decide_eq_true h
  const_nonnil c h := by cases c <;> first | exact absurd rfl h | rfl
  caar_eq _ _ := rfl
  cdar_eq _ _ := rfl
  cadr_eq _ _ := rfl
  cddr_eq _ _ := rfl
  scm_eq w v v1 v2 h h' := by
    simp only [un0, Except.ok.injEq] at h h'
    subst h; subst h'
    by_cases hv : v = .nil <;> simp [hv, V0.truth]
  not_eq w v := ⟨_, rfl, by by_cases hv : v = .nil <;> simp [hv, V0.truth]⟩
  inc_add _ _ := rfl
  inc_sub w v := by
    cases v <;> simp [un0, bin0, V0.arith, const0]
  dec_sub _ _ := rfl
  dec_add w v := by
    cases v <;> simp [un0, bin0, V0.arith, const0] <;> rfl
  add_zero w v r h := by
    cases v <;> simp [bin0, V0.arith, const0] at h
    exact h.symm
  sub_zero w v r h := by
    cases v <;> simp [bin0, V0.arith, const0] at h
    exact h.symm
  zerop_eq _ _ := rfl
  notZeroP_eq w v := by
    by_cases hv : v = .int 0 <;> simp [un0, bin0, hv, V0.truth, Except.bind]
  set_ref := set_ref0
  ref_set := ref_set0
  bind_ref _ _ := rfl
  unbind_zero _ := rfl
  unbind_bind _ _ _ _ := rfl
  un_vf o w v h := by
    cases o <;> first
      | exact ⟨_, rfl, fun _ _ => rfl⟩
      | (simp [Un.vf] at h; subst h; exact ⟨_, rfl, fun _ _ => rfl⟩)
      | (simp [Un.vf] at h; done)
  bin_vf o w v u h := by
    cases o <;> first
      | (simp [Bin.vf] at h; subst h; exact ⟨_, rfl, fun _ _ => rfl⟩)
      | (simp [Bin.vf] at h; done)
  ref_safe k w x e hk h := by
    cases k with
    | n => simp only [ref0] at h; cases he : w.env[x]? <;> rw [he] at h <;> cases h
    | slot => cases h
    | g => exact hk rfl
  cddr_safe _ _ := ⟨_, rfl⟩
  numEq_safe _ _ _ := ⟨_, rfl⟩

end Rep.Peep
