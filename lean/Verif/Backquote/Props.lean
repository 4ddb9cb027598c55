import Verif.Backquote.Spec
import Mathlib.Logic.Basic

namespace Rep.Backquote

open Spec

variable {St : Type} {eval : Sx → M St Sx}

/-! ### Lists of values -/

theorem consAll_append (r : Sx) : ∀ (l m : List Sx), consAll r (l ++ m) = consAll (consAll r m) l
  | [], _ => rfl
  | x :: l, m => by simp [consAll, consAll_append r l m]

theorem consAll_nil : ∀ l : List Sx, consAll .nil l = .ofList l
  | [] => rfl
  | x :: l => by simp [consAll, Sx.ofList, consAll_nil l]

theorem isList_ofList (l : List Sx) : isList (.ofList l) = true := by cases l <;> rfl

theorem onto_ofList (r : Sx) : ∀ l : List Sx, onto r (.ofList l) = consAll r l
  | [] => rfl
  | x :: l => by simp [onto, Sx.ofList, consAll, onto_ofList r l]

theorem join_ofList (l : List Sx) (r : Sx) : (join (.ofList l) r : M St Sx) = pure (consAll r l) := by
  simp [join, isList_ofList, onto_ofList]

theorem fail_bind {α β : Type} (f : α → M St β) : ((failure : M St α) >>= f) = failure := rfl

theorem map_bind' {α β : Type} (f : α → β) (x : M St α) : Functor.map f x = (x >>= fun a => pure (f a)) := by
  rw [map_eq_pure_bind]

theorem appendAll_cons (x y : Sx) (l : List Sx) : (appendAll (x :: y :: l) : M St Sx) = (do
    let u ← appendAll (y :: l)
    join x u) := by
  rw [appendAll]
  · by_cases h : isList x
    · simp [h, join]
    · simp only [h, join, Bool.false_eq_true, if_false]
      have : ∀ l : List Sx, ((appendAll l : M St Sx) >>= fun _ => (failure : M St Sx)) = failure := by
        intro l
        induction l with
        | nil => rfl
        | cons x l ih =>
          cases l with
          | nil => rfl
          | cons y l =>
            rw [appendAll]
            · by_cases h : isList x
              · rw [if_pos h, map_eq_pure_bind, bind_assoc]
                simpa using ih
              · rw [if_neg h]
                rfl
            · simp
      rw [this]
  · simp

theorem appendAll_two (v t : Sx) : ∀ l : List Sx, (appendAll (l ++ [v, t]) : M St Sx) = (do
    let u ← join v t
    appendAll (l ++ [u]))
  | [] => by
    rw [List.nil_append, appendAll_cons]
    simp [appendAll]
  | [x] => by
    simp only [List.cons_append, List.nil_append]
    rw [appendAll_cons, appendAll_cons]
    simp [appendAll, join]
  | x :: y :: l => by
    have ih := appendAll_two v t (y :: l)
    simp only [List.cons_append] at ih ⊢
    rw [appendAll_cons, ih, bind_assoc]
    simp only [appendAll_cons]

theorem appendAll_ofList (xs : List Sx) (v : Sx) (l : List Sx) :
    (appendAll (l ++ [.ofList xs, v]) : M St Sx) = appendAll (l ++ [consAll v xs]) := by
  rw [appendAll_two, join_ofList]
  simp

/-! ### Constants -/

/-- Forms of constants. -/
def Const (f : Sx) : Prop := f = .nil ∨ (∃ n, f = .atom n) ∨ ∃ c, f = quoted c

theorem const_eval (he : Standard eval) {f : Sx} (h : Const f) : eval f = pure (unwrap f) := by
  rcases h with rfl | ⟨n, rfl⟩ | ⟨c, rfl⟩
  · exact he.nil
  · exact he.atom n
  · exact he.quote c

/-- Values of items, in order. -/
def vals (eval : Sx → M St Sx) (l : List Item) : M St (List Sx) := (l.reverse.map (·.2)).mapM eval

theorem vals_cons (i : Item) (l : List Item) : vals eval (i :: l) = (do
    let xs ← vals eval l
    let x ← eval i.2
    pure (xs ++ [x])) := by
  simp [vals, List.mapM_append]

/-- Items that are constants have forms of constants. -/
def Items (l : List Item) : Prop := ∀ i ∈ l, i.1 = .const → Const i.2

/-! ### listify -/

/-- The value of the tail. -/
def tailVal (eval : Sx → M St Sx) (old : Bool) (tail : Sx) : M St Sx := if old then eval tail else pure tail

theorem listifyEnd_eval (he : Standard eval) (old : Bool) (heads : List Sx) (tail : Sx) :
    eval (listifyEnd old heads tail) = (do
      let hs ← heads.mapM eval
      let t ← tailVal eval old tail
      pure (consAll t hs)) := by
  unfold listifyEnd
  by_cases ht : tail = .nil
  · rw [if_pos ht, ht]
    unfold callTo
    rw [he.list]
    have : tailVal eval old .nil = (pure .nil : M St Sx) := by
      unfold tailVal
      split
      · exact he.nil
      · rfl
    rw [this]
    simp [consAll_nil]
  · rw [if_neg ht]
    simp only
    have htail : eval (if old = true then tail else quoted tail) = tailVal eval old tail := by
      unfold tailVal
      cases old
      · exact he.quote tail
      · rfl
    cases heads with
    | nil => simp [htail, consAll]
    | cons h hs =>
      simp only
      split
      · unfold callTo
        rw [he.listStar, htail]
      · rename_i hc
        have : hs = [] := by
          cases hs with
          | nil => rfl
          | cons => exact absurd (.inl (by simp)) hc
        subst this
        unfold callTo
        simp only [List.cons_append, List.nil_append, Sx.ofList]
        rw [he.cons, htail]
        simp [consAll]

theorem listifyLoop_eval (he : Standard eval) (old : Bool) : ∀ (lst : List Item) (heads : List Sx) (tail : Sx), Items lst →
    eval (listifyEnd old (listifyLoop old lst heads tail).1 (listifyLoop old lst heads tail).2) = (do
      let xs ← vals eval lst
      let hs ← heads.mapM eval
      let t ← tailVal eval old tail
      pure (consAll t (xs ++ hs)))
  | [], heads, tail, _ => by
    simp only [listifyLoop]
    rw [listifyEnd_eval he]
    simp [vals]
  | i :: l, heads, tail, hi => by
    have hl : Items l := fun j hj => hi j (List.mem_cons_of_mem _ hj)
    unfold listifyLoop
    split
    · rw [listifyLoop_eval he old l _ _ hl, vals_cons]
      simp
    · rename_i hc
      simp only [not_or, not_not, Bool.not_eq_true] at hc
      obtain ⟨rfl, rfl, h1⟩ := hc
      rw [listifyLoop_eval he false l _ _ hl, vals_cons, const_eval he (hi i (by simp) h1)]
      simp [consAll_append, consAll, tailVal]

theorem listify_eval (he : Standard eval) (lst : List Item) (r : Item) (hl : Items lst) (hr : r.1 = .const → Const r.2) :
    eval (listify lst r) = (do
      let xs ← vals eval lst
      let t ← eval r.2
      pure (consAll t xs)) := by
  unfold listify
  simp only
  rw [listifyLoop_eval he _ _ _ _ hl]
  by_cases h : r.1 = .const
  · rw [const_eval he (hr h)]
    simp [h, tailVal]
  · simp [h, tailVal]

theorem listifyLoop_quote (old : Bool) : ∀ (lst : List Item) (heads : List Sx) (tail : Sx),
    (listifyLoop old lst heads tail).1 = [] → heads = [] ∧ (lst = [] ∨ old = false) ∧ ∀ i ∈ lst, i.1 = .const
  | [], heads, tail, h => ⟨h, .inl rfl, by simp⟩
  | i :: l, heads, tail, h => by
    unfold listifyLoop at h
    split at h
    · have := (listifyLoop_quote old l _ _ h).1
      simp at this
    · rename_i hc
      simp only [not_or, not_not, Bool.not_eq_true] at hc
      have := listifyLoop_quote old l _ _ h
      exact ⟨hc.1, .inr hc.2.1, by simpa [hc.2.2] using this.2.2⟩

theorem listifyEnd_quote (old : Bool) (heads : List Sx) (tail : Sx) (h : (listifyEnd old heads tail).car = .sym .quote) :
    heads = [] ∧ (old = true → tail.car = .sym .quote) := by
  unfold listifyEnd at h
  split at h
  · simp [callTo, Sx.car] at h
  · cases heads with
    | nil =>
      refine ⟨rfl, ?_⟩
      rintro rfl
      simpa using h
    | cons x xs =>
      have : ∀ c : Prop, [Decidable c] → (if c then Sym.listStar else Sym.cons) ≠ Sym.quote := by
        intro c _
        split <;> simp
      simp only [callTo] at h
      exact absurd (Sx.sym.inj h) (this _)

theorem listify_quote (lst : List Item) (r : Item) (h : (listify lst r).car = .sym .quote) :
    (∀ i ∈ lst, i.1 = .const) ∧ (lst = [] ∨ r.1 = .const) := by
  unfold listify at h
  simp only at h
  have h1 := (listifyEnd_quote _ _ _ h).1
  have h2 := listifyLoop_quote _ _ _ _ h1
  refine ⟨h2.2.2, ?_⟩
  rcases h2.2.1 with h3 | h3
  · exact .inl h3
  · exact .inr (by simpa using h3)

/-! ### The loop -/

/-- The value of the list that is being built, with what is to come. -/
def total (eval : Sx → M St Sx) (st : Scan) (more : Bool) (r : M St Sx) : M St Sx :=
  if st.lists = [] then do
    let xs ← vals eval st.lst
    let t ← r
    pure (consAll t xs)
  else do
    let pre ← vals eval st.first
    let ls ← st.lists.reverse.mapM eval
    if st.lst = [] ∧ more = false then
      let u ← appendAll ls
      pure (consAll u pre)
    else
      let xs ← vals eval st.lst
      let t ← r
      let u ← appendAll (ls ++ [consAll t xs])
      pure (consAll u pre)

structure Inv (st : Scan) : Prop where
  lst : Items st.lst
  first : Items st.first
  empty : st.lists = [] → st.first = []

theorem push_inv {st : Scan} (h : Inv st) (i : Item) (hi : i.1 = .const → Const i.2) : Inv (push st i) := by
  unfold push
  split
  · by_cases hl : st.lists = []
    · simp only [hl, if_true]
      exact ⟨by simp [Items], h.lst, by simp⟩
    · simp only [hl, if_false]
      exact ⟨by simp [Items], h.first, by simp⟩
  · refine ⟨?_, h.first, h.empty⟩
    intro j hj
    simp only [List.mem_cons] at hj
    rcases hj with rfl | hj
    · exact hi
    · exact h.lst j hj

theorem push_one {st : Scan} (i : Item) (hi : i.1 ≠ .splice) (more : Bool) (r : M St Sx) :
    total eval (push st i) more r = total eval st true (do
      let x ← eval i.2
      let t ← r
      pure (.cons x t)) := by
  unfold push
  rw [if_neg hi]
  unfold total
  simp only [vals_cons]
  by_cases hl : st.lists = []
  · simp [hl, consAll_append, consAll]
  · simp [hl, consAll_append, consAll]

theorem vals_nil : vals eval [] = pure [] := by simp [vals]

theorem push_splice (he : Standard eval) {st : Scan} (h : Inv st) (e : Sx) (more : Bool) (r : M St Sx) :
    total eval (push st (.splice, e)) more r = total eval st true (do
      let v ← eval e
      if more = false then pure v
      else
        let t ← r
        join v t) := by
  unfold push
  simp only [if_true]
  unfold total
  by_cases hl : st.lists = []
  · simp only [hl, if_true]
    cases more
    · simp [vals_nil, appendAll]
    · have : ∀ v t : Sx, (appendAll [v, t] : M St Sx) = join v t := fun v t => by simpa [appendAll] using appendAll_two (St := St) v t []
      simp [vals_nil, consAll, this]
  · simp only [hl, if_false]
    by_cases hs : st.lst = []
    · cases more
      · simp [hs, hl, vals_nil, consAll]
      · simp [hs, hl, vals_nil, consAll, appendAll_two]
    · have h0 : (eval .nil : M St Sx) = pure .nil := he.nil
      have h1 := listify_eval he st.lst (.const, .nil) h.lst (fun _ => .inl rfl)
      simp only [h0, pure_bind, consAll_nil] at h1
      cases more
      · simp [hs, hl, vals_nil, h1, List.mapM_append]
        simp only [appendAll_ofList]
      · simp [hs, hl, vals_nil, h1, List.mapM_append, consAll]
        have : ∀ (ls xs : List Sx) (v t : Sx), (appendAll (ls ++ [.ofList xs, v, t]) : M St Sx) = (do
            let u ← join v t
            appendAll (ls ++ [consAll u xs])) := by
          intro ls xs v t
          have := appendAll_two (St := St) v t (ls ++ [.ofList xs])
          simp only [List.append_assoc, List.cons_append, List.nil_append] at this
          rw [this]
          simp only [appendAll_ofList]
        simp only [this, bind_assoc, map_eq_pure_bind]

/-- The form made at the end. -/
def exprOf (st : Scan) : Sx :=
  let e :=
    match st.lists with
    | [] => .nil
    | [x] => if x.car = .sym .splice then callTo .append [x] else x
    | x :: y :: l => callTo .append (x :: y :: l).reverse
  if st.first ≠ [] then listify st.first (.one, e) else e

theorem finish_eq (s : Sx) (st : Scan) :
    finish s st = if (exprOf st).car = .sym .quote then (.const, quoted s) else (.one, exprOf st) := rfl

theorem exprOf_eval (he : Standard eval) {st : Scan} (hf : Items st.first) (hne : st.lists ≠ []) :
    eval (exprOf st) = (do
      let pre ← vals eval st.first
      let ls ← st.lists.reverse.mapM eval
      let u ← appendAll ls
      pure (consAll u pre)) := by
  have h1 : eval (match st.lists with
    | [] => .nil
    | [x] => if x.car = .sym .splice then callTo .append [x] else x
    | x :: y :: l => callTo .append (x :: y :: l).reverse) = (do
      let ls ← st.lists.reverse.mapM eval
      appendAll ls) := by
    cases hl : st.lists with
    | nil => exact absurd hl hne
    | cons x l =>
      cases l with
      | nil =>
        simp only
        split
        · unfold callTo
          rw [he.append]
          rfl
        · simp [appendAll]
      | cons y l =>
        simp only [callTo]
        rw [he.append]
  unfold exprOf
  simp only
  split
  · rw [listify_eval he _ _ hf (by simp)]
    simp only
    rw [h1]
    simp
  · rename_i h
    have h : st.first = [] := by simpa using h
    rw [h1, h, vals_nil]
    simp [consAll]

theorem close_eval (he : Standard eval) {st : Scan} (h : Inv st) (rest : Sx) (r : Item) (hr : r.1 = .const → Const r.2)
    (hne : st.lists ≠ [] ∨ st.lst ≠ []) :
    eval (exprOf (close st rest r)) = total eval st (decide (rest ≠ .nil)) (eval r.2) := by
  unfold close
  by_cases hc : rest ≠ .nil ∨ st.lst ≠ []
  · rw [if_pos hc, exprOf_eval he (st := { st with lists := listify st.lst r :: st.lists }) h.first (by simp)]
    simp only [List.reverse_cons, List.mapM_append, List.mapM_cons, List.mapM_nil, bind_assoc, pure_bind, listify_eval he _ _ h.lst hr]
    unfold total
    by_cases hl : st.lists = []
    · simp [hl, h.empty hl, vals_nil, appendAll, consAll]
    · have : ¬(st.lst = [] ∧ decide (rest ≠ .nil) = false) := by
        rintro ⟨h1, h2⟩
        rcases hc with hc | hc
        · simp [hc] at h2
        · exact hc h1
      simp only [hl, if_false, this]
  · rw [if_neg hc]
    simp only [ne_eq, not_or, not_not] at hc
    have hl : st.lists ≠ [] := by
      rcases hne with h | h
      · exact h
      · exact absurd hc.2 h
    rw [exprOf_eval he h.first hl]
    unfold total
    simp [hl, hc]

theorem exprOf_quote {st : Scan} (h : (exprOf st).car = .sym .quote) :
    st.first = [] ∧ ((∃ x, st.lists = [x] ∧ x.car = .sym .quote) ∨ st.lists = []) := by
  unfold exprOf at h
  simp only at h
  split at h
  · rename_i hf
    have := (listify_quote _ _ h).2
    rcases this with h1 | h1
    · exact absurd h1 hf
    · simp at h1
  · rename_i hf
    refine ⟨by simpa using hf, ?_⟩
    cases hl : st.lists with
    | nil => exact .inr rfl
    | cons x l =>
      rw [hl] at h
      cases l with
      | nil =>
        simp only at h
        split at h
        · simp [callTo, Sx.car] at h
        · exact .inl ⟨x, rfl, h⟩
      | cons y l => simp [callTo, Sx.car] at h

theorem close_quote {st : Scan} (rest : Sx) (r : Item) (hne : st.lists ≠ [] ∨ st.lst ≠ []) (h : (exprOf (close st rest r)).car = .sym .quote) :
    (st.lists = [] ∧ (∀ i ∈ st.lst, i.1 = .const) ∧ r.1 = .const) ∨
      (rest = .nil ∧ st.lst = [] ∧ st.first = [] ∧ ∃ x, st.lists = [x] ∧ x.car = .sym .quote) := by
  unfold close at h
  split at h
  · obtain ⟨h1, h2⟩ := exprOf_quote h
    simp only [List.cons.injEq, reduceCtorEq, or_false] at h2
    obtain ⟨x, ⟨h3, h4⟩, h5⟩ := h2
    subst h3
    have := listify_quote _ _ h5
    refine .inl ⟨h4, this.1, ?_⟩
    rcases this.2 with h6 | h6
    · rcases hne with h7 | h7
      · exact absurd h4 h7
      · exact absurd h6 h7
    · exact h6
  · rename_i hc
    simp only [ne_eq, not_or, not_not] at hc
    obtain ⟨h1, h2⟩ := exprOf_quote h
    rcases h2 with ⟨x, h2, h3⟩ | h2
    · exact .inr ⟨hc.1, hc.2, h1, x, h2, h3⟩
    · rcases hne with h7 | h7
      · exact absurd h2 h7
      · exact absurd hc.2 h7

/-! ### Templates -/

/-- What is shown of an element. -/
def Means (eval : Sx → M St Sx) (s : Sx) : Item → Prop
  | (.const, f) => Const f ∧ unwrap f = s ∧ fill eval s = pure s ∧ spliceOf s = none
  | (.one, f) => eval f = fill eval s ∧ spliceOf s = none
  | (.splice, f) => spliceOf s = some f

theorem push_ne (st : Scan) (i : Item) : (push st i).lists ≠ [] ∨ (push st i).lst ≠ [] := by
  unfold push
  split <;> simp

/-- An element and the rest of the list. -/
theorem push_elem (he : Standard eval) {st : Scan} (h : Inv st) {a d : Sx} {i : Item} (hi : Means eval a i) (ha : a ≠ .sym .unquote) :
    total eval (push st i) (decide (d ≠ .nil)) (fill eval d) = total eval st true (fill eval (.cons a d)) := by
  obtain ⟨t, f⟩ := i
  cases t with
  | const =>
    rw [push_one _ (by simp), fill, if_neg ha, hi.2.2.2]
    simp only [hi.2.2.1, const_eval he hi.1, hi.2.1]
  | one =>
    rw [push_one _ (by simp), fill, if_neg ha, hi.2]
    simp only [hi.1]
  | splice =>
    have hi : spliceOf a = some f := hi
    rw [push_splice he h, fill, if_neg ha, hi]
    simp

/-- If nothing is spliced or evaluated. -/
theorem push_const {st : Scan} {i : Item} (h1 : (push st i).lists = []) (h2 : ∀ j ∈ (push st i).lst, j.1 = .const) :
    st.lists = [] ∧ (∀ j ∈ st.lst, j.1 = .const) ∧ i.1 = .const := by
  unfold push at h1 h2
  split at h1
  · simp at h1
  · rename_i h
    rw [if_neg h] at h2
    exact ⟨h1, fun j hj => h2 j (by simp [hj]), h2 i (by simp)⟩

/-- Only one splice. -/
theorem push_lone {st : Scan} {i : Item} {x : Sx} (h1 : (push st i).lst = []) (h2 : (push st i).first = []) (h3 : (push st i).lists = [x]) :
    st.lists = [] ∧ st.lst = [] ∧ i = (.splice, x) := by
  unfold push at h1 h2 h3
  split at h1
  · rename_i h
    rw [if_pos h] at h2 h3
    by_cases hl : st.lists = []
    · simp only [hl, if_true, ne_eq, not_true, if_false, List.cons.injEq, and_true] at h2 h3
      refine ⟨hl, h2, ?_⟩
      rw [← h3, ← h]
    · simp only [hl, if_false] at h2 h3
      split at h3 <;> simp [hl] at h3
  · simp at h1

/-- What is shown of the rest of a list. -/
def Rest (eval : Sx → M St Sx) (d : Sx) (st : Scan) (e : Sx) : Prop :=
  eval e = total eval st (decide (d ≠ .nil)) (fill eval d) ∧
  (e.car = .sym .quote →
    (st.lists = [] ∧ (∀ i ∈ st.lst, i.1 = .const) ∧ fill eval d = pure d) ∨
    (d = .nil ∧ st.lst = [] ∧ st.first = [] ∧ ∃ x, st.lists = [x] ∧ x.car = .sym .quote))

theorem rest_atom (he : Standard eval) {st : Scan} (h : Inv st) (hne : st.lists ≠ [] ∨ st.lst ≠ []) (d : Sx) (r : Item)
    (hr : Means eval d r) (hc : r.1 = .const) : Rest eval d st (exprOf (close st d r)) := by
  obtain ⟨t, f⟩ := r
  obtain rfl : t = .const := hc
  constructor
  · rw [close_eval he h d (.const, f) (fun _ => hr.1) hne, const_eval he hr.1, hr.2.1, hr.2.2.1]
  · intro hq
    rcases close_quote d (.const, f) hne hq with ⟨h1, h2, _⟩ | h1
    · exact .inl ⟨h1, h2, hr.2.2.1⟩
    · exact .inr h1

theorem templates (he : Standard eval) (again : Sx → Except Err Item) : ∀ s : Sx,
    (∀ i, process again s = .ok i → ((spliceOf s).isSome ∨ (good s ∧ s.car ≠ .sym .backquote ∧ lone s = false)) → Means eval s i) ∧
    (∀ st st', scan again s st = .ok st' → good s → Inv st → (st.lists ≠ [] ∨ st.lst ≠ []) → Rest eval s st (exprOf st')) := by
  intro s
  induction s with
  | nil =>
    have hm : Means eval .nil (.const, .nil) := ⟨.inl rfl, rfl, rfl, rfl⟩
    refine ⟨fun i hi _ => ?_, fun st st' hs _ h hne => ?_⟩
    · simp only [process, Except.ok.injEq] at hi
      exact hi ▸ hm
    · simp only [scan, Except.ok.injEq] at hs
      exact hs ▸ rest_atom he h hne _ _ hm rfl
  | atom n =>
    have hm : Means eval (.atom n) (.const, .atom n) := ⟨.inr (.inl ⟨n, rfl⟩), rfl, rfl, rfl⟩
    refine ⟨fun i hi _ => ?_, fun st st' hs _ h hne => ?_⟩
    · simp only [process, Except.ok.injEq] at hi
      exact hi ▸ hm
    · simp only [scan, Except.ok.injEq] at hs
      exact hs ▸ rest_atom he h hne _ _ hm rfl
  | sym n =>
    have hm : Means eval (.sym n) (.const, quoted (.sym n)) := ⟨.inr (.inr ⟨_, rfl⟩), rfl, rfl, rfl⟩
    refine ⟨fun i hi _ => ?_, fun st st' hs _ h hne => ?_⟩
    · simp only [process, Except.ok.injEq] at hi
      exact hi ▸ hm
    · simp only [scan, Except.ok.injEq] at hs
      exact hs ▸ rest_atom he h hne _ _ hm rfl
  | vec n =>
    refine ⟨fun i hi _ => ?_, fun st st' hs _ h hne => ?_⟩
    · simp [process] at hi
    · simp [scan] at hs
  | cons a d iha ihd =>
    constructor
    · intro i hi hg
      unfold process at hi
      by_cases hu : a = .sym .unquote
      · subst hu
        rw [if_pos rfl] at hi
        cases hi
        exact ⟨by simp [fill], rfl⟩
      rw [if_neg hu] at hi
      by_cases hs : a = .sym .splice
      · subst hs
        rw [if_pos rfl] at hi
        cases hi
        rfl
      rw [if_neg hs] at hi
      have hns : spliceOf (.cons a d) = none := by
        unfold spliceOf
        split
        · rename_i h
          cases h
          exact absurd rfl hs
        · rfl
      rw [hns] at hg
      simp only [Option.isSome_none, Bool.false_eq_true, false_or] at hg
      obtain ⟨hg, hb, hlone⟩ := hg
      rw [if_neg (by exact hb)] at hi
      have hg' : ((spliceOf a).isSome = true ∨ (good a = true ∧ a.car ≠ .sym .backquote ∧ lone a = false)) ∧ good d = true := by
        simp only [good, hu, decide_false, Bool.false_or, Bool.and_eq_true, Bool.or_eq_true, decide_eq_true_eq, Bool.not_eq_true'] at hg
        refine ⟨?_, hg.2⟩
        rcases hg.1 with h | h
        · exact .inl h
        · exact .inr ⟨h.2, by simpa using h.1.1, h.1.2⟩
      cases hp : process again a with
      | error e => simp [hp] at hi
      | ok j =>
        rw [hp] at hi
        simp only at hi
        have hm := iha.1 j hp hg'.1
        have hinv : Inv (push {} j) := push_inv ⟨by simp [Items], by simp [Items], by simp⟩ j (by
          intro h
          obtain ⟨t, f⟩ := j
          obtain rfl : t = .const := h
          exact hm.1)
        cases hsc : scan again d (push {} j) with
        | error e => simp [hsc] at hi
        | ok st =>
          rw [hsc] at hi
          simp only [Except.ok.injEq] at hi
          obtain ⟨r1, r2⟩ := ihd.2 _ _ hsc hg'.2 hinv (push_ne _ _)
          subst hi
          rw [finish_eq]
          split
          · rename_i hq
            rcases r2 hq with ⟨h1, h2, h3⟩ | ⟨h1, h2, h3, x, h4, h5⟩
            · have hj := (push_const h1 h2).2.2
              obtain ⟨t, f⟩ := j
              obtain rfl : t = .const := hj
              refine ⟨.inr (.inr ⟨_, rfl⟩), rfl, ?_, hns⟩
              rw [fill, if_neg hu, hm.2.2.2]
              simp only [hm.2.2.1, h3, pure_bind]
            · have := (push_lone h2 h3 h4).2.2
              subst this
              subst h1
              have hm : spliceOf a = some x := hm
              simp [lone, hm, h5] at hlone
          · refine ⟨?_, hns⟩
            rw [r1, push_elem he ⟨by simp [Items], by simp [Items], by simp⟩ hm hu]
            simp [total, vals_nil, consAll]
    · intro st st' hs hg h hne
      unfold scan at hs
      by_cases hu : a = .sym .unquote
      · subst hu
        rw [if_pos rfl] at hs
        simp only [Except.ok.injEq] at hs
        subst hs
        have hinv : Inv (push st (.splice, d.car)) := push_inv h _ (by simp)
        constructor
        · rw [close_eval he hinv _ _ (fun _ => .inl rfl) (push_ne _ _), push_splice he h]
          simp [fill]
        · intro hq
          rcases close_quote _ _ (push_ne _ _) hq with ⟨h1, h2, h3⟩ | ⟨h1, h2, h3, x, h4, h5⟩
          · have := (push_const h1 h2).2.2
            simp at this
          · have := push_lone h2 h3 h4
            rcases hne with h6 | h6
            · exact absurd this.1 h6
            · exact absurd this.2.1 h6
      · rw [if_neg hu] at hs
        have hg' : ((spliceOf a).isSome = true ∨ (good a = true ∧ a.car ≠ .sym .backquote ∧ lone a = false)) ∧ good d = true := by
          simp only [good, hu, decide_false, Bool.false_or, Bool.and_eq_true, Bool.or_eq_true, decide_eq_true_eq, Bool.not_eq_true'] at hg
          refine ⟨?_, hg.2⟩
          rcases hg.1 with h | h
          · exact .inl h
          · exact .inr ⟨h.2, by simpa using h.1.1, h.1.2⟩
        cases hp : process again a with
        | error e => simp [hp] at hs
        | ok j =>
          rw [hp] at hs
          simp only at hs
          have hm := iha.1 j hp hg'.1
          have hinv : Inv (push st j) := push_inv h j (by
            intro h
            obtain ⟨t, f⟩ := j
            obtain rfl : t = .const := h
            exact hm.1)
          obtain ⟨r1, r2⟩ := ihd.2 _ _ hs hg'.2 hinv (push_ne _ _)
          constructor
          · rw [r1, push_elem he h hm hu]
            simp
          · intro hq
            rcases r2 hq with ⟨h1, h2, h3⟩ | ⟨h1, h2, h3, x, h4, h5⟩
            · have hj := push_const h1 h2
              obtain ⟨t, f⟩ := j
              obtain rfl : t = .const := hj.2.2
              refine .inl ⟨hj.1, hj.2.1, ?_⟩
              rw [fill, if_neg hu, hm.2.2.2]
              simp only [hm.2.2.1, h3, pure_bind]
            · have := push_lone h2 h3 h4
              rcases hne with h6 | h6
              · exact absurd this.1 h6
              · exact absurd this.2.1 h6

/-! ### Nested backquotes -/

theorem nesting_ofList (l m : List Sx) : nesting (.ofList (l ++ m)) = nesting (.ofList l) + nesting (.ofList m) := by
  induction l with
  | nil => simp [Sx.ofList, nesting]
  | cons x l ih => simp [Sx.ofList, nesting, ih]; omega

theorem nesting_reverse (l : List Sx) : nesting (.ofList l.reverse) = nesting (.ofList l) := by
  induction l with
  | nil => rfl
  | cons x l ih => simp [nesting_ofList, ih, Sx.ofList, nesting]; omega

theorem nesting_quoted (x : Sx) : nesting (quoted x) = nesting x := by simp [quoted, nesting]

theorem nesting_callTo {f : Sym} (h : f ≠ .backquote) (l : List Sx) : nesting (callTo f l) = nesting (.ofList l) := by
  unfold callTo
  rw [nesting]
  suffices nesting (.sym f) = 0 by omega
  cases f <;> first | rfl | exact absurd rfl h

theorem nesting_car (x : Sx) : nesting x.car ≤ nesting x := by
  cases x <;> simp [Sx.car, nesting]

theorem nesting_cdr (x : Sx) : nesting x.cdr ≤ nesting x := by
  cases x <;> simp [Sx.cdr, nesting]

theorem nesting_unwrap (f : Sx) : nesting (unwrap f) ≤ nesting f := by
  unfold unwrap
  split
  · exact Nat.le_trans (nesting_car _) (nesting_cdr _)
  · exact Nat.le_refl _

/-- Occurrences in the forms of items. -/
def weight (l : List Item) : Nat := nesting (.ofList (l.map (·.2)))

theorem weight_cons (i : Item) (l : List Item) : weight (i :: l) = nesting i.2 + weight l := by simp [weight, Sx.ofList, nesting]

theorem listifyLoop_nesting (old : Bool) : ∀ (lst : List Item) (heads : List Sx) (tail : Sx),
    nesting (.ofList (listifyLoop old lst heads tail).1) + nesting (listifyLoop old lst heads tail).2 ≤
      weight lst + nesting (.ofList heads) + nesting tail
  | [], heads, tail => by simp [listifyLoop, weight, Sx.ofList, nesting]
  | i :: l, heads, tail => by
    unfold listifyLoop
    rw [weight_cons]
    split
    · have := listifyLoop_nesting old l (i.2 :: heads) tail
      simp only [Sx.ofList, nesting] at this
      omega
    · have := listifyLoop_nesting old l heads (.cons (unwrap i.2) tail)
      have := nesting_unwrap i.2
      simp only [nesting] at *
      omega

theorem listifyEnd_nesting (old : Bool) (heads : List Sx) (tail : Sx) :
    nesting (listifyEnd old heads tail) ≤ nesting (.ofList heads) + nesting tail := by
  unfold listifyEnd
  split
  · rw [nesting_callTo (by simp)]
    omega
  · have h : nesting (if old = true then tail else quoted tail) = nesting tail := by
      split
      · rfl
      · exact nesting_quoted _
    cases heads with
    | nil => simp [h]
    | cons x xs =>
      simp only
      rw [nesting_callTo (by split <;> simp), nesting_ofList]
      simp [Sx.ofList, nesting, h]

theorem listify_nesting (lst : List Item) (r : Item) : nesting (listify lst r) ≤ weight lst + nesting r.2 := by
  unfold listify
  simp only
  refine Nat.le_trans (listifyEnd_nesting _ _ _) (Nat.le_trans (listifyLoop_nesting _ _ _ _) ?_)
  have : nesting (Sx.ofList []) = 0 := rfl
  rw [this]
  split
  · omega
  · have := nesting_unwrap r.2
    omega

/-- Occurrences in what has been scanned. -/
def Scan.weight (st : Scan) : Nat := Backquote.weight st.first + Backquote.weight st.lst + nesting (.ofList st.lists)

theorem weight_nil : weight [] = 0 := rfl

theorem push_weight (st : Scan) (i : Item) : (push st i).weight ≤ st.weight + nesting i.2 := by
  unfold push
  split
  · by_cases hl : st.lists = []
    · simp [hl, Scan.weight, Sx.ofList, nesting, weight_nil]
    · have := listify_nesting st.lst (.const, .nil)
      simp only [hl, if_false, Scan.weight, Sx.ofList, nesting, weight_nil]
      split
      · simp only [Sx.ofList, nesting] at *
        omega
      · omega
  · simp only [Scan.weight, weight_cons]
    omega

theorem close_weight (st : Scan) (rest : Sx) (r : Item) :
    weight (close st rest r).first + nesting (.ofList (close st rest r).lists) ≤ st.weight + nesting r.2 := by
  unfold close
  split
  · have := listify_nesting st.lst r
    simp only [Scan.weight, Sx.ofList, nesting]
    omega
  · simp only [Scan.weight]
    omega

theorem finish_weight (s : Sx) (st : Scan) (h : weight st.first + nesting (.ofList st.lists) ≤ nesting s) :
    nesting (finish s st).2 ≤ nesting s := by
  rw [finish_eq]
  split
  · exact Nat.le_of_eq (nesting_quoted s)
  · refine Nat.le_trans ?_ h
    have h1 : nesting (match st.lists with
      | [] => .nil
      | [x] => if x.car = .sym .splice then callTo .append [x] else x
      | x :: y :: l => callTo .append (x :: y :: l).reverse) ≤ nesting (.ofList st.lists) := by
      cases st.lists with
      | nil => exact Nat.zero_le _
      | cons x l =>
        cases l with
        | nil =>
          simp only
          split
          · exact Nat.le_of_eq (nesting_callTo (by simp) _)
          · simp [Sx.ofList, nesting]
        | cons y l =>
          simp only
          exact Nat.le_of_eq (by rw [nesting_callTo (by simp), nesting_reverse])
    unfold exprOf
    simp only
    split
    · refine Nat.le_trans (listify_nesting _ _) ?_
      simp only
      omega
    · omega

/-- `again` does not add to the occurrences, for objects with less than `n`. -/
def Bounded (again : Sx → Except Err Item) (n : Nat) : Prop := ∀ x j, nesting x < n → again x = .ok j → nesting j.2 ≤ nesting x

mutual

/-- The expansion does not have more of them than the template. -/
theorem process_nesting (again : Sx → Except Err Item) (s : Sx) (i : Item) (hag : Bounded again (nesting s)) (hi : process again s = .ok i) :
    nesting i.2 ≤ nesting s :=
  match s with
  | .nil => by
    simp only [process, Except.ok.injEq] at hi
    exact hi ▸ Nat.le_refl _
  | .atom _ => by
    simp only [process, Except.ok.injEq] at hi
    exact hi ▸ Nat.le_refl _
  | .sym _ => by
    simp only [process, Except.ok.injEq] at hi
    exact hi ▸ Nat.le_of_eq (nesting_quoted _)
  | .vec _ => by simp [process] at hi
  | .cons a d => by
    have hc := nesting_car d
    unfold process at hi
    split at hi
    · cases hi
      simp only [nesting]
      omega
    split at hi
    · cases hi
      simp only [nesting]
      omega
    split at hi
    · rename_i hb
      subst hb
      have hn : nesting (.cons (.sym .backquote) d) = 1 + nesting d := rfl
      split at hi
      · rename_i b e
        cases hp : process again b with
        | error e => simp [hp] at hi
        | ok r =>
          rw [hp] at hi
          simp only at hi
          have hn' : nesting (.cons b e) = nesting b + nesting e := rfl
          have h1 : nesting r.2 ≤ nesting b := process_nesting again b r (fun x j hx => hag x j (by omega)) hp
          have := hag r.2 i (by omega) hi
          omega
      · exact Nat.le_trans (hag _ _ (by rw [hn]; show 0 < _; omega) hi) (by simp [nesting])
    · have hn : nesting (.cons a d) = nesting a + nesting d := rfl
      cases hp : process again a with
      | error e => simp [hp] at hi
      | ok j =>
        rw [hp] at hi
        simp only at hi
        cases hs : scan again d (push {} j) with
        | error e => simp [hs] at hi
        | ok st =>
          rw [hs] at hi
          simp only [Except.ok.injEq] at hi
          subst hi
          have h1 := process_nesting again a j (fun x j hx => hag x j (by omega)) hp
          have h2 := scan_nesting again d _ _ (fun x j hx => hag x j (by omega)) hs
          have h3 := push_weight {} j
          refine finish_weight _ _ ?_
          have : Scan.weight {} = 0 := rfl
          omega
  termination_by sizeOf s

theorem scan_nesting (again : Sx → Except Err Item) (s : Sx) (st st' : Scan) (hag : Bounded again (nesting s)) (hs : scan again s st = .ok st') :
    weight st'.first + nesting (.ofList st'.lists) ≤ st.weight + nesting s :=
  match s with
  | .nil => by
    simp only [scan, Except.ok.injEq] at hs
    exact hs ▸ close_weight _ _ _
  | .atom _ => by
    simp only [scan, Except.ok.injEq] at hs
    exact hs ▸ close_weight _ _ _
  | .sym _ => by
    simp only [scan, Except.ok.injEq] at hs
    refine hs ▸ Nat.le_trans (close_weight _ _ _) ?_
    simp [nesting_quoted]
  | .vec _ => by simp [scan] at hs
  | .cons a d => by
    have hn : nesting (.cons a d) = nesting a + nesting d := rfl
    have hc := nesting_car d
    unfold scan at hs
    split at hs
    · simp only [Except.ok.injEq] at hs
      subst hs
      refine Nat.le_trans (close_weight _ _ _) ?_
      have := push_weight st (.splice, d.car)
      simp only [nesting] at *
      omega
    · cases hp : process again a with
      | error e => simp [hp] at hs
      | ok j =>
        rw [hp] at hs
        simp only at hs
        have h1 := process_nesting again a j (fun x j hx => hag x j (by omega)) hp
        have h2 := scan_nesting again d _ _ (fun x j hx => hag x j (by omega)) hs
        have h3 := push_weight st j
        omega
  termination_by sizeOf s

end

theorem processN_nesting : ∀ (n : Nat) (s : Sx) (i : Item), processN n s = .ok i → nesting i.2 ≤ nesting s
  | 0, s, i, h => process_nesting _ s i (fun _ _ _ h => by simp at h) h
  | n + 1, s, i, h => process_nesting _ s i (fun x j _ h => processN_nesting n x j h) h

/-- Two continuations that agree, for objects with less than `n`. -/
def Agree (f g : Sx → Except Err Item) (n : Nat) : Prop := ∀ x, nesting x < n → f x = g x

mutual

theorem process_agree (f g : Sx → Except Err Item) (s : Sx) (hb : Bounded f (nesting s)) (h : Agree f g (nesting s)) :
    process f s = process g s :=
  match s with
  | .nil => by simp only [process]
  | .atom _ => by simp only [process]
  | .sym _ => by simp only [process]
  | .vec _ => by simp only [process]
  | .cons a d => by
    have hc := nesting_car d
    have hn : nesting (.cons a d) = nesting a + nesting d := rfl
    unfold process
    split
    · rfl
    split
    · rfl
    split
    · rename_i hbq
      subst hbq
      have hn : nesting (.cons (.sym .backquote) d) = 1 + nesting d := rfl
      cases d with
      | cons b e =>
        have hn' : nesting (.cons b e) = nesting b + nesting e := rfl
        simp only
        rw [← process_agree f g b (fun x j hx => hb x j (by omega)) (fun x hx => h x (by omega))]
        cases hp : process f b with
        | error e => rfl
        | ok r =>
          have h1 : nesting r.2 ≤ nesting b := process_nesting f b r (fun x j hx => hb x j (by omega)) hp
          exact h r.2 (by omega)
      | nil => exact h _ (by simp [nesting])
      | atom n => exact h _ (by simp [nesting])
      | vec n => exact h _ (by simp [nesting])
      | sym n => exact h _ (by rw [hn]; show 0 < _; omega)
    · rw [← process_agree f g a (fun x j hx => hb x j (by omega)) (fun x hx => h x (by omega))]
      cases hp : process f a with
      | error e => rfl
      | ok j =>
        simp only
        rw [scan_agree f g d _ (fun x j hx => hb x j (by omega)) (fun x hx => h x (by omega))]
  termination_by sizeOf s

theorem scan_agree (f g : Sx → Except Err Item) (s : Sx) (st : Scan) (hb : Bounded f (nesting s)) (h : Agree f g (nesting s)) :
    scan f s st = scan g s st :=
  match s with
  | .nil => by simp only [scan]
  | .atom _ => by simp only [scan]
  | .sym _ => by simp only [scan]
  | .vec _ => by simp only [scan]
  | .cons a d => by
    have hn : nesting (.cons a d) = nesting a + nesting d := rfl
    unfold scan
    split
    · rfl
    · rw [← process_agree f g a (fun x j hx => hb x j (by omega)) (fun x hx => h x (by omega))]
      cases hp : process f a with
      | error e => rfl
      | ok j =>
        simp only
        exact scan_agree f g d _ (fun x j hx => hb x j (by omega)) (fun x hx => h x (by omega))
  termination_by sizeOf s

end

/-- The bound does not matter once it is large enough. -/
theorem processN_stable : ∀ (n : Nat) (s : Sx), nesting s ≤ n → processN n s = processN (nesting s) s := by
  intro n
  induction n using Nat.strongRecOn with
  | ind n ih =>
    intro s h
    rcases Nat.eq_or_lt_of_le h with rfl | hlt
    · rfl
    · obtain ⟨m, rfl⟩ := Nat.exists_eq_succ_of_ne_zero (by omega : n ≠ 0)
      rw [processN]
      cases hk : nesting s with
      | zero =>
        rw [processN]
        exact process_agree _ _ s (fun x j hx => by omega) (fun x hx => by omega)
      | succ k =>
        rw [processN]
        refine process_agree _ _ s (fun x j _ h => processN_nesting m x j h) (fun x hx => ?_)
        rw [ih m (by omega) x (by omega), ← ih k (by omega) x (by omega)]

theorem expand_nil : expand .nil = .ok .nil := rfl

/-- C57.  In `` `(… `t …) `` the inner template is expanded first, and its expansion is the template of
the outer backquote. -/
theorem C57_innermost_first (t rest : Sx) :
    expand (.cons (.sym .backquote) (.cons t rest)) =
      match expand t with
      | .ok f => expand f
      | .error e => .error e := by
  unfold expand
  have hn : nesting (.cons (.sym .backquote) (.cons t rest)) = 1 + (nesting t + nesting rest) := rfl
  rw [hn, show 1 + (nesting t + nesting rest) = nesting t + nesting rest + 1 from by omega, processN]
  unfold process
  rw [if_neg (by simp), if_neg (by simp), if_pos rfl]
  simp only
  have h1 : process (processN (nesting t + nesting rest)) t = processN (nesting t) t := by
    rw [← processN_stable (nesting t + nesting rest + 1) t (by omega)]
    rfl
  rw [h1]
  cases hp : processN (nesting t) t with
  | error e => rfl
  | ok i =>
    simp only
    have := processN_nesting _ _ _ hp
    rw [processN_stable (nesting t + nesting rest) i.2 (by omega)]

/-! ### Errors -/

mutual

theorem process_fuel (again : Sx → Except Err Item) (s : Sx) (hb : Bounded again (nesting s))
    (h : ∀ x, nesting x < nesting s → again x ≠ .error .fuel) : process again s ≠ .error .fuel :=
  match s with
  | .nil => by simp [process]
  | .atom _ => by simp [process]
  | .sym _ => by simp [process]
  | .vec _ => by simp [process]
  | .cons a d => by
    have hn : nesting (.cons a d) = nesting a + nesting d := rfl
    unfold process
    split
    · simp
    split
    · simp
    split
    · rename_i hbq
      subst hbq
      have hn : nesting (.cons (.sym .backquote) d) = 1 + nesting d := rfl
      cases d with
      | cons b e =>
        have hn' : nesting (.cons b e) = nesting b + nesting e := rfl
        simp only
        have h0 := process_fuel again b (fun x j hx => hb x j (by omega)) (fun x hx => h x (by omega))
        cases hp : process again b with
        | error e =>
          rw [hp] at h0
          exact h0
        | ok r =>
          have h1 : nesting r.2 ≤ nesting b := process_nesting again b r (fun x j hx => hb x j (by omega)) hp
          exact h r.2 (by omega)
      | nil => exact h _ (by simp [nesting])
      | atom n => exact h _ (by simp [nesting])
      | vec n => exact h _ (by simp [nesting])
      | sym n => exact h _ (by rw [hn]; show 0 < _; omega)
    · have h0 := process_fuel again a (fun x j hx => hb x j (by omega)) (fun x hx => h x (by omega))
      cases hp : process again a with
      | error e =>
        rw [hp] at h0
        exact h0
      | ok j =>
        simp only
        have h1 := scan_fuel again d (push {} j) (fun x j hx => hb x j (by omega)) (fun x hx => h x (by omega))
        cases hs : scan again d (push {} j) with
        | error e =>
          rw [hs] at h1
          simpa using h1
        | ok st => simp
  termination_by sizeOf s

theorem scan_fuel (again : Sx → Except Err Item) (s : Sx) (st : Scan) (hb : Bounded again (nesting s))
    (h : ∀ x, nesting x < nesting s → again x ≠ .error .fuel) : scan again s st ≠ .error .fuel :=
  match s with
  | .nil => by simp [scan]
  | .atom _ => by simp [scan]
  | .sym _ => by simp [scan]
  | .vec _ => by simp [scan]
  | .cons a d => by
    have hn : nesting (.cons a d) = nesting a + nesting d := rfl
    unfold scan
    split
    · simp
    · have h0 := process_fuel again a (fun x j hx => hb x j (by omega)) (fun x hx => h x (by omega))
      cases hp : process again a with
      | error e =>
        rw [hp] at h0
        simpa using h0
      | ok j => exact scan_fuel again d _ (fun x j hx => hb x j (by omega)) (fun x hx => h x (by omega))
  termination_by sizeOf s

end

theorem processN_fuel : ∀ (n : Nat) (s : Sx), nesting s ≤ n → processN n s ≠ .error .fuel
  | 0, s, h => process_fuel _ s (fun x j hx => by omega) (fun x hx => by omega)
  | n + 1, s, _ => process_fuel _ s (fun x j _ h => processN_nesting n x j h) (fun x hx => processN_fuel n x (by omega))

/-- The expansion always ends, however backquotes are nested. -/
theorem C57_ends (t : Sx) : expand t ≠ .error .fuel := by
  unfold expand
  have := processN_fuel (nesting t) t (Nat.le_refl _)
  cases h : processN (nesting t) t with
  | ok i => simp
  | error e =>
    rw [h] at this
    simpa using this

/-- Good templates have an expansion. -/
theorem good_ok (again : Sx → Except Err Item) : ∀ s : Sx,
    (((spliceOf s).isSome ∨ (good s ∧ s.car ≠ .sym .backquote ∧ lone s = false)) → ∃ i, process again s = .ok i) ∧
    (∀ st, good s → ∃ st', scan again s st = .ok st') := by
  intro s
  induction s with
  | nil => simp [process, scan]
  | atom n => simp [process, scan]
  | sym n => simp [process, scan]
  | vec n => simp [good, spliceOf]
  | cons a d iha ihd =>
    have key : a ≠ .sym .unquote → good (.cons a d) = true →
        (((spliceOf a).isSome = true ∨ (good a = true ∧ a.car ≠ .sym .backquote ∧ lone a = false)) ∧ good d = true) := by
      intro hu hg
      simp only [good, hu, decide_false, Bool.false_or, Bool.and_eq_true, Bool.or_eq_true, decide_eq_true_eq, Bool.not_eq_true'] at hg
      refine ⟨?_, hg.2⟩
      rcases hg.1 with h | h
      · exact .inl h
      · exact .inr ⟨h.2, by simpa using h.1.1, h.1.2⟩
    constructor
    · intro hg
      unfold process
      by_cases hu : a = .sym .unquote
      · simp [hu]
      rw [if_neg hu]
      by_cases hs : a = .sym .splice
      · simp [hs]
      rw [if_neg hs]
      have hns : spliceOf (.cons a d) = none := by
        unfold spliceOf
        split
        · rename_i h
          cases h
          exact absurd rfl hs
        · rfl
      rw [hns] at hg
      simp only [Option.isSome_none, Bool.false_eq_true, false_or] at hg
      rw [if_neg (by exact hg.2.1)]
      obtain ⟨h1, h2⟩ := key hu hg.1
      obtain ⟨j, hj⟩ := iha.1 h1
      obtain ⟨st, hst⟩ := ihd.2 (push {} j) h2
      simp [hj, hst]
    · intro st hg
      unfold scan
      by_cases hu : a = .sym .unquote
      · simp [hu]
      rw [if_neg hu]
      obtain ⟨h1, h2⟩ := key hu hg
      obtain ⟨j, hj⟩ := iha.1 h1
      rw [hj]
      exact ihd.2 _ h2

/-! ### The property -/

/-- C57.  Evaluating the expansion of a template gives what the template stands for: the same value,
the same effects in the same order, or the same failure.  (For templates without vectors, without
nested backquotes and in which no list is only the splice of a quoted form.) -/
theorem C57_backquote_partial (he : Standard eval) (t : Sx) (ht : Template t) : ∃ f, expand t = .ok f ∧ eval f = fill eval t := by
  obtain ⟨h1, h2, h3, h4⟩ := ht
  have key : ∀ again, ∃ i, process again t = .ok i ∧ eval i.2 = fill eval t := by
    intro again
    obtain ⟨i, hi⟩ := (good_ok again t).1 (.inr ⟨h1, h3, h2⟩)
    have hm := (templates he again t).1 i hi (.inr ⟨h1, h3, h2⟩)
    refine ⟨i, hi, ?_⟩
    obtain ⟨tag, f⟩ := i
    cases tag with
    | const => rw [const_eval he hm.1, hm.2.1, hm.2.2.1]
    | one => exact hm.1
    | splice =>
      have hm : spliceOf t = some f := hm
      unfold spliceOf at hm
      split at hm
      · exact absurd rfl h4
      · cases hm
  unfold expand
  cases nesting t with
  | zero =>
    obtain ⟨i, hi, hv⟩ := key (fun _ => .error .fuel)
    exact ⟨i.2, by rw [processN, hi], hv⟩
  | succ n =>
    obtain ⟨i, hi, hv⟩ := key (processN n)
    exact ⟨i.2, by rw [processN, hi], hv⟩

/-- C57.  The same for a nested backquote: the outer one fills in the expansion of the inner one. -/
theorem C57_nested_partial (he : Standard eval) (t f : Sx) (hf : expand t = .ok f) (ht : Template f) :
    ∃ g, expand (.cons (.sym .backquote) (.cons t .nil)) = .ok g ∧ eval g = fill eval f := by
  rw [C57_innermost_first, hf]
  exact C57_backquote_partial he f ht

/-- A vector in a template, not inside an unquoted form or a nested backquote. -/
def hasVec : Sx → Bool
  | .vec _ => true
  | .cons a d => a ≠ .sym .unquote && (((spliceOf a).isNone && a.car ≠ .sym .backquote && hasVec a) || hasVec d)
  | _ => false

theorem vec_error (again : Sx → Except Err Item) : ∀ s : Sx, hasVec s = true →
    (spliceOf s = none → s.car ≠ .sym .backquote → ∃ e, process again s = .error e) ∧ (∀ st, ∃ e, scan again s st = .error e) := by
  intro s
  induction s with
  | nil => simp [hasVec]
  | atom n => simp [hasVec]
  | sym n => simp [hasVec]
  | vec n => simp [process, scan]
  | cons a d iha ihd =>
    intro h
    simp only [hasVec, Bool.and_eq_true, decide_eq_true_eq, Bool.or_eq_true, Option.isNone_iff_eq_none] at h
    obtain ⟨hu, h⟩ := h
    have hu : a ≠ .sym .unquote := by simpa using hu
    constructor
    · intro hns hb
      unfold process
      rw [if_neg hu, if_neg (by rintro rfl; simp [spliceOf] at hns), if_neg (by exact hb)]
      rcases h with ⟨⟨h1, h2⟩, h3⟩ | h
      · obtain ⟨e, he⟩ := (iha h3).1 h1 (by simpa using h2)
        simp [he]
      · cases process again a with
        | error e => simp
        | ok j =>
          obtain ⟨e, he⟩ := (ihd h).2 (push {} j)
          simp [he]
    · intro st
      unfold scan
      rw [if_neg hu]
      rcases h with ⟨⟨h1, h2⟩, h3⟩ | h
      · obtain ⟨e, he⟩ := (iha h3).1 h1 (by simpa using h2)
        simp [he]
      · cases process again a with
        | error e => simp
        | ok j => simpa using (ihd h).2 (push st j)

/-- Every template with a vector is refused: the documentation says "vectors work just like lists". -/
theorem C57_vector_violated (t : Sx) (h : hasVec t = true) (h1 : spliceOf t = none) (h2 : t.car ≠ .sym .backquote) :
    expand t = .error .arg := by
  have hf := C57_ends t
  have : ∃ e, expand t = .error e := by
    unfold expand
    cases nesting t with
    | zero =>
      obtain ⟨e, he⟩ := (vec_error (fun _ => .error .fuel) t h).1 h1 h2
      exact ⟨e, by rw [processN, he]⟩
    | succ n =>
      obtain ⟨e, he⟩ := (vec_error (processN n) t h).1 h1 h2
      exact ⟨e, by rw [processN, he]⟩
  obtain ⟨e, he⟩ := this
  rw [he] at hf ⊢
  cases e with
  | arg => rfl
  | fuel => exact absurd rfl hf

/-- `` `(,@'x) `` gives the template itself, for every `x`. -/
theorem C57_lone_violated (he : Standard eval) (x : Sx) :
    ∃ f, expand (.ofList [.ofList [.sym .splice, quoted x]]) = .ok f ∧
      eval f = pure (.ofList [.ofList [.sym .splice, quoted x]]) ∧
      fill eval (.ofList [.ofList [.sym .splice, quoted x]]) = pure x := by
  refine ⟨quoted (.ofList [.ofList [.sym .splice, quoted x]]), ?_, he.quote _, ?_⟩
  · have key : ∀ again, process again (.ofList [.ofList [.sym .splice, quoted x]]) =
        .ok (.const, quoted (.ofList [.ofList [.sym .splice, quoted x]])) := by
      intro again
      rfl
    unfold expand
    cases nesting (.ofList [.ofList [.sym .splice, quoted x]]) <;> rw [processN, key]
  · simp only [Sx.ofList, fill]
    simp only [reduceCtorEq, if_false, spliceOf, Sx.car, if_true]
    rw [show eval (quoted x) = pure x from he.quote x]
    simp

/-! ### A standard evaluator -/

mutual

/-- Variables are bound to lists of two numbers, and evaluating one is counted. -/
def ev : Sx → M Nat Sx
  | .sym (.user n) => do
    modify (· + 1)
    pure (.ofList [.atom n, .atom (n + 1)])
  | .cons (.sym .quote) d => pure d.car
  | .cons (.sym .list) d => do
    let l ← evs d
    pure (.ofList l)
  | .cons (.sym .cons) d => do
    let l ← evs d
    match l with
    | [a, b] => pure (.cons a b)
    | _ => failure
  | .cons (.sym .listStar) d => do
    let l ← evs d
    pure (consAll (l.getLastD .nil) l.dropLast)
  | .cons (.sym .append) d => do
    let l ← evs d
    appendAll l
  | t => pure t

def evs : Sx → M Nat (List Sx)
  | .cons a d => do
    let x ← ev a
    let l ← evs d
    pure (x :: l)
  | _ => pure []

end

theorem evs_ofList : ∀ l : List Sx, evs (.ofList l) = l.mapM ev
  | [] => by simp [Sx.ofList, evs]
  | x :: l => by simp [Sx.ofList, evs, evs_ofList l]

theorem ev_standard : Standard ev where
  nil := by simp [ev]
  atom n := by simp [ev]
  quote x := by rw [ev]; rfl
  list args := by rw [ev, evs_ofList]
  cons a b := by
    rw [ev]
    simp [evs]
  listStar args last := by
    rw [ev, evs_ofList]
    simp [List.mapM_append]
  append args := by rw [ev, evs_ofList]

/-- `` `(a (b ,x) ,@y . ,z) `` -/
def sample : Sx :=
  .cons (.sym (.user 0)) (.cons (.ofList [.sym (.user 1), .ofList [.sym .unquote, .sym (.user 5)]])
    (.cons (.ofList [.sym .splice, .sym (.user 6)]) (.ofList [.sym .unquote, .sym (.user 7)])))

example : Template sample := by unfold Template; decide

example : (fill ev sample).run.run 0 =
    (some (.cons (.sym (.user 0)) (.cons (.ofList [.sym (.user 1), .ofList [.atom 5, .atom 6]])
      (.ofList [.atom 6, .atom 7, .atom 7, .atom 8]))), 3) := by rfl

example : ∃ f, expand sample = .ok f ∧ (ev f).run.run 0 =
    (some (.cons (.sym (.user 0)) (.cons (.ofList [.sym (.user 1), .ofList [.atom 5, .atom 6]])
      (.ofList [.atom 6, .atom 7, .atom 7, .atom 8]))), 3) := ⟨_, rfl, rfl⟩

/-- ``` ``(a ,,x) ```: the hypotheses of the theorem on nested backquotes. -/
example : ∃ f, expand (.ofList [.sym (.user 0), .ofList [.sym .unquote, .ofList [.sym .unquote, .sym (.user 5)]]]) = .ok f ∧ Template f :=
  ⟨_, rfl, by unfold Template; decide⟩

end Rep.Backquote
