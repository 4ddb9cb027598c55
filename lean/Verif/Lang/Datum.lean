/-
Datums (src/datums.c).
-/
namespace Rep.Datum

/-- A value: a datum, or anything else. -/
inductive Val where
  | datum (addr : Nat)
  | other (n : Nat)
  deriving DecidableEq

/-- src/datums.c:42 `rep_eol_datum`: `()` is the first datum. -/
def nil : Val := .datum 0

/-- src/datums.c:38-39 a datum's key (`DATUM_ID`) and value (`DATUM_VALUE`). -/
structure Cell where
  id : Val
  value : Val

abbrev Heap := List Cell

/-- src/datums.c:156 `rep_pre_datums_init`. -/
def init : Heap := [⟨nil, nil⟩]

inductive Op where
  | make (value id : Val)
  | ref (obj id : Val)
  | set (obj id value : Val)
  | hasType (arg id : Val)

inductive Res where
  | val (v : Val)
  | bool (b : Bool)
  /-- `bad-arg` for argument 1 -/
  | error
  deriving DecidableEq

/-- `DATUMP (obj) && DATUM_ID (obj) == id`, and the datum. -/
def access (h : Heap) (obj id : Val) : Option (Nat × Cell) :=
  match obj with
  | .datum a => match h[a]? with
      | some c => if c.id = id then some (a, c) else none
      | none => none
  | .other _ => none

/-- One call. -/
def exec (h : Heap) : Op → Heap × Res
  -- src/datums.c:85 `make-datum`
  | .make value id => (h ++ [⟨id, value⟩], .val (.datum h.length))
  -- src/datums.c:118 `datum-ref`
  | .ref obj id => match access h obj id with
      | some (_, c) => (h, .val c.value)
      | none => (h, .error)
  -- src/datums.c:130 `datum-set`
  | .set obj id value => match access h obj id with
      | some (a, c) => (h.set a { c with value := value }, .val value)
      | none => (h, .error)
  -- src/datums.c:144 `has-type-p`
  | .hasType arg id => (h, .bool (access h arg id).isSome)

def run : Heap → List Op → Heap × List Res
  | h, [] => (h, [])
  | h, o :: os => let r := exec h o
      let s := run r.1 os
      (s.1, r.2 :: s.2)

/-! ### Specification

In terms of the calls made so far, latest first, with their results. -/

/-- The key that a datum was created with. -/
def keyOf (d : Val) : List (Op × Res) → Option Val
  | [] => if d = nil then some nil else none
  | (.make _ id, .val d') :: rest => if d' = d then some id else keyOf d rest
  | _ :: rest => keyOf d rest

/-- The value that it was created with, or that was last set with the right key. -/
def valueOf (d : Val) : List (Op × Res) → Val
  | [] => nil
  | (.make v _, .val d') :: rest => if d' = d then v else valueOf d rest
  | (.set d' id v, _) :: rest => if d' = d ∧ keyOf d rest = some id then v else valueOf d rest
  | _ :: rest => valueOf d rest

/-- What a call must return. -/
def Expected (past : List (Op × Res)) : Op → Res → Prop
  | .make _ _, r => ∃ d, r = .val d ∧ keyOf d past = none
  | .ref d id, r => r = if keyOf d past = some id then .val (valueOf d past) else .error
  | .set d id v, r => r = if keyOf d past = some id then .val v else .error
  | .hasType d id, r => r = .bool (keyOf d past == some id)

/-- Every call of a history returns what it must. -/
def AllExpected : List (Op × Res) → List Op → List Res → Prop
  | _, [], [] => True
  | past, o :: os, r :: rs => Expected past o r ∧ AllExpected ((o, r) :: past) os rs
  | _, _, _ => False

/-! ### Proof -/

def Rel (h : Heap) (past : List (Op × Res)) : Prop :=
  (∀ a, keyOf (.datum a) past = h[a]?.map Cell.id) ∧ (∀ n, keyOf (.other n) past = none) ∧
    ∀ a c, h[a]? = some c → valueOf (.datum a) past = c.value

theorem rel_init : Rel init [] := by
  refine ⟨?_, ?_, ?_⟩
  · intro a
    cases a with
    | zero => rfl
    | succ a => simp [keyOf, init, nil]
  · intro n; simp [keyOf, nil]
  · intro a c h
    cases a with
    | zero => simp [init] at h; subst h; rfl
    | succ a => simp [init] at h

theorem access_spec {h : Heap} {past : List (Op × Res)} (hr : Rel h past) (d id : Val) :
    (∃ a c, access h d id = some (a, c) ∧ d = .datum a ∧ h[a]? = some c ∧ c.id = id ∧ keyOf d past = some id ∧ valueOf d past = c.value) ∨
      access h d id = none ∧ keyOf d past ≠ some id := by
  cases d with
  | other n => right; exact ⟨rfl, by rw [hr.2.1]; simp⟩
  | datum a =>
    have hk := hr.1 a
    cases ha : h[a]? with
    | none =>
      right
      refine ⟨by simp [access, ha], ?_⟩
      rw [hk, ha]; simp
    | some c =>
      rw [ha] at hk
      by_cases hid : c.id = id
      · left
        exact ⟨a, c, by simp [access, ha, hid], rfl, ha, hid, by rw [hk, ← hid]; rfl, hr.2.2 a c ha⟩
      · right
        refine ⟨by simp [access, ha, hid], ?_⟩
        rw [hk]
        simpa using hid

theorem exec_spec {h : Heap} {past : List (Op × Res)} (hr : Rel h past) (o : Op) :
    Expected past o (exec h o).2 ∧ Rel (exec h o).1 ((o, (exec h o).2) :: past) := by
  cases o with
  | make v id =>
    refine ⟨⟨_, rfl, ?_⟩, ?_, ?_, ?_⟩
    · rw [hr.1]; simp
    · intro a
      show (if Val.datum h.length = .datum a then some id else _) = (h ++ [Cell.mk id v])[a]?.map Cell.id
      by_cases ha : a = h.length
      · subst ha; simp
      · rw [if_neg (by simpa using Ne.symm ha), hr.1]
        by_cases hl : a < h.length
        · rw [List.getElem?_append_left hl]
        · rw [List.getElem?_eq_none (by omega), List.getElem?_eq_none (by simp; omega)]
    · intro n
      show (if Val.datum h.length = .other n then some id else _) = none
      rw [if_neg (by simp), hr.2.1]
    · intro a c hc
      show (if Val.datum h.length = .datum a then v else _) = _
      change (h ++ [Cell.mk id v])[a]? = some c at hc
      by_cases ha : a = h.length
      · subst ha
        simp at hc
        subst hc
        simp
      · rw [if_neg (by simpa using Ne.symm ha)]
        by_cases hl : a < h.length
        · rw [List.getElem?_append_left hl] at hc
          exact hr.2.2 a c hc
        · rw [List.getElem?_eq_none (by simp; omega)] at hc
          simp at hc
  | ref d id =>
    rcases access_spec hr d id with ⟨a, c, h1, -, -, -, h5, h6⟩ | ⟨h1, h2⟩
    · refine ⟨?_, ?_⟩
      · simp only [Expected, exec, h1, h5, h6, if_true]
      · simp only [exec, h1]; exact hr
    · refine ⟨?_, ?_⟩
      · simp only [Expected, exec, h1, if_neg h2]
      · simp only [exec, h1]; exact hr
  | hasType d id =>
    rcases access_spec hr d id with ⟨a, c, h1, -, -, -, h5, h6⟩ | ⟨h1, h2⟩
    · exact ⟨by simp [Expected, exec, h1, h5], hr⟩
    · exact ⟨by simp [Expected, exec, h1, h2], hr⟩
  | set d id v =>
    rcases access_spec hr d id with ⟨a, c, h1, rfl, h3, h4, h5, h6⟩ | ⟨h1, h2⟩
    · refine ⟨by simp only [Expected, exec, h1, h5, if_true], ?_⟩
      simp only [exec, h1]
      refine ⟨?_, hr.2.1, ?_⟩
      · intro b
        show keyOf (.datum b) past = _
        rw [hr.1, List.getElem?_set]
        by_cases hb : a = b
        · subst hb
          rw [if_pos rfl, h3]
          have := List.getElem?_eq_some_iff.mp h3
          rw [if_pos this.1]; rfl
        · rw [if_neg hb]
      · intro b x hx
        show (if Val.datum a = .datum b ∧ keyOf (.datum b) past = some id then v else valueOf (.datum b) past) = _
        rw [List.getElem?_set] at hx
        by_cases hb : a = b
        · subst hb
          rw [if_pos rfl] at hx
          have := List.getElem?_eq_some_iff.mp h3
          rw [if_pos this.1] at hx
          cases hx
          rw [if_pos ⟨rfl, h5⟩]
        · rw [if_neg hb] at hx
          rw [if_neg (by rintro ⟨e, -⟩; cases e; exact hb rfl)]
          exact hr.2.2 b x hx
    · refine ⟨by simp only [Expected, exec, h1, if_neg h2], ?_⟩
      simp only [exec, h1]
      refine ⟨hr.1, hr.2.1, ?_⟩
      intro b x hx
      show (if d = .datum b ∧ keyOf (.datum b) past = some id then v else valueOf (.datum b) past) = _
      rw [if_neg (by rintro ⟨e, e2⟩; subst e; exact h2 e2)]
      exact hr.2.2 b x hx

theorem run_spec : ∀ (os : List Op) (h : Heap) (past : List (Op × Res)), Rel h past → AllExpected past os (run h os).2 := by
  intro os
  induction os with
  | nil => intro h past _; trivial
  | cons o os ih => intro h past hr; exact ⟨(exec_spec hr o).1, ih _ _ (exec_spec hr o).2⟩

/-- **C40**: in every history of calls each call returns what the specification says: the
value of a datum is read and changed with the key that it was created with, and a call with
another key is an error and changes nothing. -/
theorem C40_opaque (os : List Op) : AllExpected [] os (run init os).2 := run_spec os init [] rel_init

/-- In particular a history in which nobody has the key leaves the value as it is. -/
theorem C40_unchanged (past : List (Op × Res)) (d : Val) (os : List Op) (rs : List Res) (k : Val)
    (hk : keyOf d past = some k) (h : AllExpected past os rs) (hno : ∀ v, .set d k v ∉ os) :
    valueOf d ((os.zip rs).reverse ++ past) = valueOf d past ∧ keyOf d ((os.zip rs).reverse ++ past) = some k := by
  induction os generalizing past rs with
  | nil => exact ⟨rfl, hk⟩
  | cons o os ih =>
    cases rs with
    | nil => exact absurd h (by simp [AllExpected])
    | cons r rs =>
      obtain ⟨h1, h2⟩ := h
      have key : keyOf d ((o, r) :: past) = some k ∧ valueOf d ((o, r) :: past) = valueOf d past := by
        cases o with
        | make v id =>
          obtain ⟨d', rfl, h3⟩ := h1
          have : d' ≠ d := by rintro rfl; rw [hk] at h3; simp at h3
          simp only [keyOf, valueOf, if_neg this]
          exact ⟨hk, trivial⟩
        | ref d' id => exact ⟨hk, rfl⟩
        | hasType d' id => exact ⟨hk, rfl⟩
        | set d' id v =>
          refine ⟨hk, ?_⟩
          show (if d' = d ∧ keyOf d past = some id then v else _) = _
          rw [if_neg]
          rintro ⟨rfl, e⟩
          rw [hk] at e
          cases e
          exact hno v (List.mem_cons_self ..)
      obtain ⟨h3, h4⟩ := ih _ rs key.1 h2 (fun v hv => hno v (List.mem_cons_of_mem _ hv))
      rw [key.2] at h3
      simpa using ⟨h3, h4⟩

/-- A datum, an access with the wrong key and one with the right key. -/
example : (run init [.make (.other 5) (.other 1), .ref (.datum 1) (.other 2), .set (.datum 1) (.other 2) (.other 6),
    .ref (.datum 1) (.other 1), .set (.datum 1) (.other 1) (.other 7), .ref (.datum 1) (.other 1)]).2 =
    [.val (.datum 1), .error, .error, .val (.other 5), .val (.other 7), .val (.other 7)] := by decide

end Rep.Datum
