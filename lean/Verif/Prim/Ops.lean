import Verif.Prim.Spec
import Mathlib.Tactic.Tauto

/-
The instructions compute what the functions compute.
-/

namespace Rep.Prim

open Rep.Number (Num Res)

theorem makeLongInt_fix {x : Int} (h : inFix x = true) : Number.makeLongInt x = .fix x := by
  simp only [inFix, decide_eq_true_eq] at h
  rw [Number.makeLongInt, if_pos h, Number.makeInt]
  unfold Number.minInt Number.maxInt at h
  congr 1
  rw [Int.bmod_def]
  split <;> omega

theorem clong_fix {x : Int} (h : inFix x = true) : Number.clong x = .ok x := by
  simp only [inFix, decide_eq_true_eq] at h
  unfold Number.minInt Number.maxInt at h
  rw [Number.clong, if_pos]
  omega

theorem fast_add (a b : Val) : fast2 (· + ·) Number.add a b = num2 Number.add a b := by
  unfold fast2
  split
  · split
    · rename_i x y h
      simp [num2, Number.add, Number.promoteDup, Number.typeCode, clong_fix h, Res.bind,
        makeLongInt_fix h, ofNum]
    · rfl
  · rfl

theorem fast_sub (a b : Val) : fast2 (· - ·) Number.sub a b = num2 Number.sub a b := by
  unfold fast2
  split
  · split
    · rename_i x y h
      simp [num2, Number.sub, Number.promoteDup, Number.typeCode, clong_fix h, Res.bind,
        makeLongInt_fix h, ofNum]
    · rfl
  · rfl

/-- The error without its position. -/
def Same {α : Type} (r r' : Res α) : Prop := ∀ tr, out r tr = out r' tr

theorem exec1_neg (W : World) (a : Val) : exec1 W .neg a = onNum (fun n => ofNum (Number.neg n)) a := by
  simp only [exec1]
  split
  · split
    · rename_i x h
      simp [onNum, Number.neg, clong_fix h, Res.bind, makeLongInt_fix h, ofNum]
    · rfl
  · rfl

theorem exec1_inc (W : World) (a : Val) : exec1 W .inc a = onNum (fun n => ofNum (Number.plus1 n)) a := by
  simp only [exec1]
  split
  · split
    · rename_i x h
      simp [onNum, Number.plus1, clong_fix h, Res.bind, makeLongInt_fix h, ofNum]
    · rfl
  · rfl

theorem exec1_dec (W : World) (a : Val) : exec1 W .dec a = onNum (fun n => ofNum (Number.sub1 n)) a := by
  simp only [exec1]
  split
  · split
    · rename_i x h
      simp [onNum, Number.sub1, clong_fix h, Res.bind, makeLongInt_fix h, ofNum]
    · rfl
  · rfl

theorem exec1_zerop (W : World) (a : Val) :
    exec1 W .zerop a = onNum (fun n => .ok (ofBool (Number.zerop n))) a := by
  simp only [exec1]
  split <;> rfl

/-- The unary instruction of a function. -/
def B.op1 : B → Option Op1
  | .inc => some .inc
  | .dec => some .dec
  | .zerop => some .zerop
  | .not => some .not
  | .null => some .not
  | .car => some .car
  | .cdr => some .cdr
  | .atom => some .atom
  | .consp => some .consp
  | .listp => some .listp
  | .numberp => some .numberp
  | .caar => some .caar
  | .cadr => some .cadr
  | .cdar => some .cdar
  | .cddr => some .cddr
  | .caddr => some (.ref 2)
  | _ => none

theorem drop_cons (n : Nat) (a d : Val) : drop (n + 1) (.cons a d) = drop n d := rfl

theorem drop_atom (n : Nat) {v : Val} (h : consp v = false) : drop n v = v := by
  cases n with
  | zero => unfold drop; rfl
  | succ n => cases v <;> first | rfl | simp [consp] at h

theorem car_cdr_drop (n : Nat) (v : Val) : car (drop (n + 1) v) = car (drop n (cdr v)) := by
  cases v <;> first | rfl | (rw [drop_atom _ rfl]; show Val.nil = _; rw [show cdr _ = Val.nil from rfl, drop_atom _ rfl]; rfl)

theorem drop_zero (v : Val) : drop 0 v = v := by
  unfold drop
  rfl

theorem car_ref (v : Val) : car (drop 2 v) = car (cdr (cdr v)) := by
  rw [car_cdr_drop, car_cdr_drop, drop_zero]

theorem exec1_op1 (W : World) {b : B} {o : Op1} (h : b.op1 = some o) (a : Val) :
    exec1 W o a = pure W b [a] := by
  cases b <;> simp only [B.op1, Option.some.injEq, reduceCtorEq] at h <;> subst h
  · exact exec1_inc W a
  · exact exec1_dec W a
  · exact exec1_zerop W a
  all_goals first
    | rfl
    | (simp only [exec1, pure, lisp1]
       first
         | rw [car_ref]
         | (cases a <;> first | rfl | (rename_i x y; first | (cases x <;> rfl) | (cases y <;> rfl))))

/-- The binary instruction of a function, and what it computes. -/
def B.op2 : B → Option Op2
  | .add => some .add
  | .sub => some .sub
  | .mul => some .mul
  | .div => some .div
  | .max => some .max
  | .min => some .min
  | .logior => some .lor
  | .logxor => some .lxor
  | .logand => some .land
  | _ => none

/-- Instructions in a row. -/
def folds (W : World) (o : Op2) : Val → List Val → Res Val
  | s, [] => .ok s
  | s, v :: vs => (exec2 W o s v).bind fun s => folds W o s vs

theorem foldArgs_other {op : Num → Num → Res Num} {vs : List Val} {s : Num} {i : Nat}
    {o : Op2} {W : World} (ho : ∀ a b, exec2 W o a b = num2 op a b) :
    ofNum (Number.foldArgs Number.anyNum op (.ok s) i (vs.map toNum)) = .ub ∨
      Same (ofNum (Number.foldArgs Number.anyNum op (.ok s) i (vs.map toNum))) (folds W o (.num s) vs) := by
  induction vs generalizing s i with
  | nil => right; intro tr; rfl
  | cons v vs ih =>
    cases v with
    | num n =>
      simp only [List.map_cons, toNum, Number.foldArgs, Number.anyNum, if_true, folds, ho, num2]
      cases h : op s n with
      | ok r => exact ih
      | ub =>
        left
        cases hv : vs.map toNum with
        | nil => rfl
        | cons w ws => cases w <;> rfl
      | _ =>
        cases hv : vs.map toNum with
        | nil => right; intro tr; rfl
        | cons w ws =>
          cases w with
          | num m => left; rfl
          | other => right; intro tr; rfl
    | _ =>
      right
      intro tr
      simp [toNum, Number.foldArgs, folds, ho, num2, ofNum, Res.bind, out]

theorem foldv_other {op : Num → Num → Res Num} {v w : Val} {vs : List Val}
    {o : Op2} {W : World} (ho : ∀ a b, exec2 W o a b = num2 op a b) :
    ofNum (Number.foldv Number.anyNum op ((v :: w :: vs).map toNum)) = .ub ∨
      Same (ofNum (Number.foldv Number.anyNum op ((v :: w :: vs).map toNum))) (folds W o v (w :: vs)) := by
  cases v with
  | num n =>
    simp only [List.map_cons, toNum, Number.foldv, Number.anyNum, if_true]
    exact foldArgs_other (vs := w :: vs) ho
  | _ =>
    right
    intro tr
    simp [toNum, Number.foldv, folds, ho, num2, ofNum, Res.bind, out]

theorem folds_ok {W : World} {o : Op2} {f : Val → Val → Val} (ho : ∀ a b, exec2 W o a b = .ok (f a b))
    (s : Val) (vs : List Val) : folds W o s vs = .ok (vs.foldl f s) := by
  induction vs generalizing s with
  | nil => rfl
  | cons v vs ih => simp [folds, ho, Res.bind, ih]

theorem minus_two (a b : Number.Val) (l : List Number.Val) :
    Number.minus (a :: b :: l) = Number.foldv Number.anyNum Number.sub (a :: b :: l) := by
  cases a <;> rfl

theorem divide_two (a b : Number.Val) (l : List Number.Val) :
    Number.divide (a :: b :: l) = Number.foldv Number.anyNum Number.div (a :: b :: l) := by
  cases a <;> rfl

/-- **Functions of numbers** of two or more arguments. -/
theorem pure_folds (W : World) {b : B} {o : Op2} (h : b.op2 = some o) (v w : Val) (vs : List Val) :
    pure W b (v :: w :: vs) = .ub ∨ Same (pure W b (v :: w :: vs)) (folds W o v (w :: vs)) := by
  cases b <;> simp only [B.op2, Option.some.injEq, reduceCtorEq] at h <;> subst h
  · exact foldv_other fun a b => fast_add a b
  · have := foldv_other (v := v) (w := w) (vs := vs) (W := W) (o := .sub) fun a b => fast_sub a b
    simp only [pure, List.map_cons] at this ⊢
    rw [minus_two]
    exact this
  · exact foldv_other fun a b => rfl
  · have := foldv_other (v := v) (w := w) (vs := vs) (W := W) (o := .div) fun a b => rfl
    simp only [pure, List.map_cons] at this ⊢
    rw [divide_two]
    exact this
  · right; intro tr; rw [folds_ok (f := max2 W) fun a b => rfl]; rfl
  · right; intro tr; rw [folds_ok (f := min2 W) fun a b => rfl]; rfl
  · exact foldv_other fun a b => rfl
  · exact foldv_other fun a b => rfl
  · exact foldv_other fun a b => rfl

/-- **Relations** of two arguments. -/
def B.rel : B → Option (Op2 × (Int → Bool))
  | .eq => some (.eq, isEq)
  | .gt => some (.gt, isGt)
  | .ge => some (.ge, isGe)
  | .lt => some (.lt, isLt)
  | .le => some (.le, isLe)
  | _ => none

theorem toCInt_near {x : Int} (h : -(2 ^ 31) ≤ x ∧ x < 2 ^ 31) : Number.toCInt x = x := by
  rw [Number.toCInt, Int.bmod_def]
  split <;> omega

theorem exec2_rel (W : World) {b : B} {o : Op2} {op : Int → Bool} (h : b.rel = some (o, op)) (v w : Val)
    (hn : ∀ x y, v = .num (.fix x) → w = .num (.fix y) → -(2 ^ 31) ≤ x - y ∧ x - y < 2 ^ 31) :
    exec2 W o v w = comparison W op [v, w] := by
  have key : rel W op v w = ofBool (op (sign W v w)) := by
    unfold rel sign
    split
    · rename_i x y
      have hn := hn x y rfl rfl
      simp only [isBig, Bool.or_self, Bool.false_eq_true, if_false, valueCmp, Number.valueCmp]
      split
      · rename_i he
        cases he
        simp
      · simp [Number.compare, Number.promoteDup, Number.typeCode, toCInt_near hn]
    · split <;> rfl
  cases b <;> simp only [B.rel, Option.some.injEq, Prod.mk.injEq, reduceCtorEq] at h <;>
    (obtain ⟨rfl, rfl⟩ := h; simp [exec2, key, comparison, comparison.go])

end Rep.Prim
