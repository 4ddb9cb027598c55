import Verif.Repdoc.Model
import Mathlib.Tactic.Common
import Mathlib.Algebra.BigOperators.Group.List.Basic
/-!
# Documentation collected from source files (C117)
-/
namespace Rep.Repdoc

/-! ### What should be found -/
namespace Spec

abbrev Line := List Char

/-- Where a text first occurs in another one. -/
def firstAt (p s : Str) : Option Nat := (List.range (s.length + 1)).find? fun i => p.isPrefixOf (s.drop i)

/-- The name in a line that contains `::doc:NAME::`. -/
def nameIn (l : Line) : Option Str :=
  match firstAt "::doc:".toList l with
  | none => none
  | some i =>
    match firstAt "::".toList (l.drop (i + 6)) with
    | none => none
    | some j => some ((l.drop (i + 6)).take j)

/-- The line contains `::end::`. -/
def isEnd (l : Line) : Bool := (firstAt "::end::".toList l).isSome

/-- A piece of documentation: its name, its lines, and the line that ends it, if there is one. -/
structure Doc where
  name : Str
  body : List Line
  last : Option Line

/-- The pieces of documentation in the lines of a file. -/
def docs (ls : List Line) : List Doc :=
  match ls with
  | [] => []
  | l :: ls =>
    match nameIn l with
    | none => docs ls
    | some n =>
      ⟨n, ls.takeWhile (!isEnd ·), (ls.dropWhile (!isEnd ·)).head?⟩ :: docs ((ls.dropWhile (!isEnd ·)).drop 1)
termination_by ls.length
decreasing_by
  · simp
  · have := (List.dropWhile_sublist (l := ls) (!isEnd ·)).length_le
    simp only [List.length_drop, List.length_cons]
    omega

/-- The text of the file. -/
def textOf (ls : List Line) : Str := (ls.map (· ++ ['\n'])).flatten

/-- The lines, with line breaks between them. -/
def between : List Line → Str
  | [] => []
  | [l] => l
  | l :: ls => l ++ '\n' :: between ls

/-- The documentation and the line that ends it are shorter than 16384 characters. -/
def Fits (d : Doc) : Prop := (textOf d.body).length + (d.last.getD []).length + 1 ≤ 16383

end Spec

open Spec

/-! ### Searching -/

theorem firstAt_cons (p : Str) (c : Char) (r : Str) :
    firstAt p (c :: r) = if p.isPrefixOf (c :: r) then some 0 else (firstAt p r).map (· + 1) := by
  unfold firstAt
  rw [List.length_cons, List.range_succ_eq_map, List.find?_cons]
  simp only [List.drop_zero]
  cases p.isPrefixOf (c :: r) with
  | true => simp
  | false =>
    simp only [Bool.false_eq_true, if_false]
    rw [List.find?_map]
    rfl

theorem strstr_firstAt (p : Str) (hp : p ≠ []) (s : Str) :
    strstr p s = (firstAt p s).map fun i => (s.take i, s.drop (i + p.length)) := by
  induction s with
  | nil =>
    unfold strstr
    rw [if_neg hp]
    have : firstAt p [] = none := by
      unfold firstAt
      simp [List.range_succ, hp]
    rw [this]; rfl
  | cons c r ih =>
    rw [firstAt_cons]
    unfold strstr
    by_cases h : p.isPrefixOf (c :: r) = true
    · rw [if_pos h, if_pos h]; simp
    · rw [if_neg h, if_neg h, ih]
      cases firstAt p r with
      | none => rfl
      | some i =>
        simp only [Option.map_some, List.take_succ_cons, Option.some.injEq, Prod.mk.injEq, true_and]
        rw [show i + 1 + p.length = (i + p.length) + 1 by omega, List.drop_succ_cons]

/-- Whether a text without line breaks occurs doesn't depend on a line break at the end. -/
theorem prefix_newline {p s : Str} (hp : p ≠ []) (hn : '\n' ∉ p) : p.isPrefixOf (s ++ ['\n']) = p.isPrefixOf s := by
  induction p generalizing s with
  | nil => exact absurd rfl hp
  | cons a p ih =>
    cases s with
    | nil =>
      simp only [List.nil_append, List.isPrefixOf]
      have : (a == '\n') = false := by
        simp only [beq_eq_false_iff_ne]
        rintro rfl; exact hn (List.mem_cons_self ..)
      rw [this]; simp
    | cons b s =>
      simp only [List.cons_append, List.isPrefixOf]
      by_cases h : p = []
      · subst h; simp
      · rw [ih h (fun e => hn (List.mem_cons_of_mem _ e))]

theorem firstAt_newline {p : Str} (hp : p ≠ []) (hn : '\n' ∉ p) (s : Str) : firstAt p (s ++ ['\n']) = firstAt p s := by
  induction s with
  | nil =>
    rw [List.nil_append, firstAt_cons]
    have h1 : p.isPrefixOf (['\n'] : Str) = p.isPrefixOf ([] : Str) := prefix_newline (s := []) hp hn
    have h2 : p.isPrefixOf ([] : Str) = false := by cases p with
      | nil => exact absurd rfl hp
      | cons a p => rfl
    rw [h1, h2]
    have : firstAt p [] = none := by
      unfold firstAt
      simp [List.range_succ, hp]
    rw [this]; rfl
  | cons c s ih =>
    rw [List.cons_append, firstAt_cons, firstAt_cons, ih, ← List.cons_append, prefix_newline hp hn]

/-! ### Reading -/

theorem takeLine_line {l : Line} (hl : '\n' ∉ l) (r : Str) : ∀ n, l.length + 1 ≤ n → takeLine n (l ++ '\n' :: r) = (l ++ ['\n'], r) := by
  induction l with
  | nil =>
    intro n hn
    cases n with
    | zero => simp at hn
    | succ n => simp [takeLine]
  | cons c l ih =>
    intro n hn
    cases n with
    | zero => simp at hn
    | succ n =>
      have hc : c ≠ '\n' := by rintro rfl; exact hl (List.mem_cons_self ..)
      simp only [List.cons_append, takeLine, if_neg hc]
      rw [ih (fun e => hl (List.mem_cons_of_mem _ e)) n (by simpa using hn)]

theorem fgets_line {l : Line} (hl : '\n' ∉ l) (r : Str) {n : Nat} (hn : l.length + 2 ≤ n) :
    fgets n (l ++ '\n' :: r) = some (l ++ ['\n'], r) := by
  unfold fgets
  rw [if_neg (by omega), if_neg (by simp), takeLine_line hl r _ (by omega)]

theorem textOf_cons (l : Line) (ls : List Line) : textOf (l :: ls) = l ++ '\n' :: textOf ls := by
  simp [textOf]

theorem textOf_length {a b : List Line} (h : a.Sublist b) : (textOf a).length ≤ (textOf b).length := by
  induction h with
  | slnil => exact Nat.le_refl _
  | cons l _ ih => rw [textOf_cons, List.length_append, List.length_cons]; omega
  | cons_cons l _ ih => rw [textOf_cons, textOf_cons, List.length_append, List.length_append, List.length_cons, List.length_cons]; omega

theorem isEnd_iff (l : Line) : (strstr endMark (l ++ ['\n'])).isSome = isEnd l := by
  rw [strstr_firstAt endMark (by decide +kernel), firstAt_newline (by decide +kernel) (by decide +kernel)]
  simp only [Option.isSome_map]
  rfl

theorem collect_lines (ls : List Line) (hl : ∀ l ∈ ls, '\n' ∉ l) : ∀ (f : Nat) (out : Str), (textOf ls).length + 1 ≤ f →
    out.length + (textOf (ls.takeWhile (!isEnd ·))).length + (((ls.dropWhile (!isEnd ·)).head?).getD []).length + 1 ≤ 16383 →
    collect f (textOf ls) out = .ok (out ++ textOf (ls.takeWhile (!isEnd ·)), textOf ((ls.dropWhile (!isEnd ·)).drop 1)) := by
  induction ls with
  | nil =>
    intro f out hf ho
    cases f with
    | zero => omega
    | succ f =>
      have h1 : ¬ textSize - out.length ≤ 1 := by unfold textSize; simp [textOf] at ho; omega
      simp only [collect, if_neg h1]
      simp [textOf, fgets, h1]
  | cons l ls ih =>
    intro f out hf ho
    have hn := hl l (List.mem_cons_self ..)
    cases f with
    | zero => omega
    | succ f =>
      rw [textOf_cons] at hf ⊢
      have hb : out.length + l.length + 1 ≤ 16383 := by
        cases he : isEnd l with
        | true =>
          simp only [List.takeWhile_cons, List.dropWhile_cons, he, Bool.not_true, Bool.false_eq_true, if_false, List.head?_cons, Option.getD_some] at ho
          omega
        | false =>
          simp only [List.takeWhile_cons, he, Bool.not_false, if_true, textOf_cons, List.length_append, List.length_cons] at ho
          omega
      have h1 : ¬ textSize - out.length ≤ 1 := by unfold textSize; omega
      simp only [collect, if_neg h1]
      rw [fgets_line hn _ (by unfold textSize; omega)]
      simp only [isEnd_iff]
      cases he : isEnd l with
      | true => simp [he, textOf]
      | false =>
        simp only [List.takeWhile_cons, List.dropWhile_cons, he, Bool.not_false, if_true, Bool.false_eq_true, if_false, textOf_cons] at ho ⊢
        rw [ih (fun x hx => hl x (List.mem_cons_of_mem _ hx))]
        · simp
        · simp only [List.length_append, List.length_cons] at hf
          omega
        · simp only [List.length_append, List.length_cons, List.length_nil] at ho ⊢
          omega

theorem between_eq (ls : List Line) : (textOf ls).dropLast = between ls := by
  induction ls with
  | nil => rfl
  | cons l ls ih =>
    rw [textOf_cons]
    cases ls with
    | nil => simp [textOf, between]
    | cons l' ls =>
      have : textOf (l' :: ls) ≠ [] := by simp [textOf_cons]
      rw [between, ← ih, List.dropLast_append_of_ne_nil (by simp), List.dropLast_cons_of_ne_nil this]
      simp

/-! ### The scanner -/

theorem nameIn_eq (l : Line) :
    (match strstr docMark (l ++ ['\n']) with
      | none => none
      | some (_, id) => (strstr colons id).map Prod.fst) = nameIn l := by
  rw [strstr_firstAt docMark (by decide +kernel), firstAt_newline (by decide +kernel) (by decide +kernel)]
  unfold nameIn
  have e : docMark = "::doc:".toList := rfl
  have e6 : docMark.length = 6 := by decide +kernel
  rw [← e]
  cases h : firstAt docMark l with
  | none => rfl
  | some i =>
    simp only [Option.map_some, e6]
    have hi : i + 6 ≤ l.length := by
      unfold firstAt at h
      have hp := List.find?_some h
      have := (List.isPrefixOf_iff_prefix.mp hp).length_le
      rw [e6, List.length_drop] at this
      omega
    rw [List.drop_append_of_le_length hi, strstr_firstAt colons (by decide +kernel),
      firstAt_newline (by decide +kernel) (by decide +kernel)]
    have ec : colons = "::".toList := rfl
    rw [← ec]
    cases h2 : firstAt colons (l.drop (i + 6)) with
    | none => rfl
    | some j =>
      simp only [Option.map_some]
      have hj : j ≤ (l.drop (i + 6)).length := by
        unfold firstAt at h2
        have := List.mem_of_find?_eq_some h2
        rw [List.mem_range] at this
        omega
      rw [List.take_append_of_le_length hj]

/-- The stores that should be made. -/
def stores (db : Db) (ds : List Doc) : Db := ds.foldl (fun db d => store db d.name (between d.body)) db

theorem scan_lines : ∀ (n : Nat) (ls : List Line), ls.length ≤ n → (∀ l ∈ ls, '\n' ∉ l) → (∀ l ∈ ls, l.length ≤ 510) →
    (∀ d ∈ docs ls, Fits d) → ∀ (f : Nat) (db : Db), (textOf ls).length + 1 ≤ f → scan f (textOf ls) db = .ok (stores db (docs ls)) := by
  intro n
  induction n with
  | zero =>
    intro ls h0 _ _ _ f db hf
    have : ls = [] := List.length_eq_zero_iff.mp (by omega)
    subst this
    cases f with
    | zero => omega
    | succ f => simp [scan, textOf, fgets, lineSize, docs, stores]
  | succ n ih =>
    intro ls h0 hl h5 hfit f db hf
    cases ls with
    | nil =>
      cases f with
      | zero => omega
      | succ f => simp [scan, textOf, fgets, lineSize, docs, stores]
    | cons l ls =>
      have hn := hl l (List.mem_cons_self ..)
      have hlen := h5 l (List.mem_cons_self ..)
      cases f with
      | zero => omega
      | succ f =>
        rw [textOf_cons] at hf ⊢
        simp only [List.length_append, List.length_cons] at hf h0
        simp only [scan]
        rw [fgets_line hn _ (by unfold lineSize; omega)]
        simp only
        have hname := nameIn_eq l
        have hskip : nameIn l = none → scan f (textOf ls) db = .ok (stores db (docs (l :: ls))) := by
          intro hx
          have e : docs (l :: ls) = docs ls := by rw [docs, hx]
          rw [e] at hfit ⊢
          exact ih ls (by omega) (fun x hx => hl x (List.mem_cons_of_mem _ hx)) (fun x hx => h5 x (List.mem_cons_of_mem _ hx)) hfit f db (by omega)
        cases h1 : strstr docMark (l ++ ['\n']) with
        | none =>
          rw [h1] at hname
          exact hskip hname.symm
        | some p =>
          obtain ⟨a, id⟩ := p
          rw [h1] at hname
          simp only at hname ⊢
          cases h2 : strstr colons id with
          | none =>
            rw [h2] at hname
            exact hskip hname.symm
          | some q =>
            obtain ⟨nm, b⟩ := q
            rw [h2] at hname
            simp only [Option.map_some] at hname ⊢
            have e : docs (l :: ls) = ⟨nm, ls.takeWhile (!isEnd ·), (ls.dropWhile (!isEnd ·)).head?⟩ ::
                docs ((ls.dropWhile (!isEnd ·)).drop 1) := by rw [docs, ← hname]
            have hf0 := hfit _ (by rw [e]; exact List.mem_cons_self ..)
            have hsub : ((ls.dropWhile (!isEnd ·)).drop 1).Sublist ls := (List.drop_sublist _ _).trans (List.dropWhile_sublist _)
            rw [collect_lines ls (fun x hx => hl x (List.mem_cons_of_mem _ hx)) _ [] (Nat.le_refl _) (by
              unfold Fits at hf0
              simpa using hf0)]
            simp only [List.nil_append]
            have htl : (textOf ((ls.dropWhile (!isEnd ·)).drop 1)).length ≤ (textOf ls).length := by
              exact textOf_length hsub
            rw [ih _ (by have := hsub.length_le; omega) (fun x hx => hl x (List.mem_cons_of_mem _ (hsub.subset hx)))
              (fun x hx => h5 x (List.mem_cons_of_mem _ (hsub.subset hx)))
              (fun d hd => hfit d (by rw [e]; exact List.mem_cons_of_mem _ hd)) f _ (by omega), e]
            simp only [stores, List.foldl_cons, between_eq]

theorem stores_lookup (ds : List Doc) (db : Db) (k : Str) :
    stores db ds k = match ds.reverse.find? (fun d => decide (d.name = k)) with
      | some d => some (between d.body)
      | none => db k := by
  unfold stores
  induction ds generalizing db with
  | nil => rfl
  | cons d ds ih =>
    rw [List.foldl_cons, ih, List.reverse_cons, List.find?_append]
    cases h : ds.reverse.find? (fun d => decide (d.name = k)) with
    | some x => rfl
    | none =>
      by_cases hk : d.name = k
      · simp [store, hk]
      · have : k ≠ d.name := fun e => hk e.symm
        simp [store, hk, this]

/-- C117: after a file was read the data base has for each name the last text which the file has for it, exactly the lines between the marks, and for
other names what it had before; missing are lines longer than 510 characters, documentation longer than the buffer, and files that don't end in a
line break. -/
theorem C117_found_partial (ls : List Line) (db : Db) (hl : ∀ l ∈ ls, '\n' ∉ l) (h5 : ∀ l ∈ ls, l.length ≤ 510) (hf : ∀ d ∈ docs ls, Fits d) :
    ∃ db', scanfile (textOf ls) db = .ok db' ∧ ∀ k, db' k =
      match (docs ls).reverse.find? (fun d => decide (d.name = k)) with
      | some d => some (between d.body)
      | none => db k :=
  ⟨stores db (docs ls), scan_lines ls.length ls (Nat.le_refl _) hl h5 hf _ db (Nat.le_refl _), stores_lookup _ _⟩

/-! ### What goes wrong -/

theorem takeLine_xs (n : Nat) : ∀ m, n ≤ m → ∀ r, takeLine n (List.replicate m 'x' ++ r) = (List.replicate n 'x', List.replicate (m - n) 'x' ++ r) := by
  induction n with
  | zero => intro m _ r; simp [takeLine]
  | succ n ih =>
    intro m hm r
    cases m with
    | zero => omega
    | succ m =>
      simp only [List.replicate_succ, List.cons_append, takeLine]
      rw [if_neg (by decide), ih m (by omega) r]
      simp

theorem strstr_xs (n : Nat) : strstr endMark (List.replicate n 'x') = none := by
  induction n with
  | zero => decide +kernel
  | succ n ih =>
    rw [List.replicate_succ, strstr, if_neg, ih]
    have : endMark = ':' :: ":end::".toList := by decide +kernel
    rw [this]
    simp [List.isPrefixOf]

/-- C117 is wrong of documentation that is longer than the buffer: the program never ends. -/
theorem C117_long_text_violated (n : Nat) (hn : 16383 ≤ n) (rest : Str) (db : Db) :
    scanfile ("::doc:f::\n".toList ++ (List.replicate n 'x' ++ rest)) db = .hang := by
  have h1 : fgets lineSize ("::doc:f::\n".toList ++ (List.replicate n 'x' ++ rest)) =
      some ("::doc:f::\n".toList, List.replicate n 'x' ++ rest) := by
    have e : "::doc:f::\n".toList = "::doc:f::".toList ++ ['\n'] := by decide +kernel
    rw [e, List.append_assoc]
    exact fgets_line (by decide +kernel) _ (by decide +kernel)
  have h2 : strstr docMark "::doc:f::\n".toList = some ([], "f::\n".toList) := by decide +kernel
  have h3 : strstr colons "f::\n".toList = some (['f'], ['\n']) := by decide +kernel
  have h4 : ∀ f, collect (f + 2) (List.replicate n 'x' ++ rest) [] = .hang := by
    intro f
    rw [collect, if_neg (by decide)]
    have : fgets (textSize - ([] : Str).length) (List.replicate n 'x' ++ rest) =
        some (List.replicate 16383 'x', List.replicate (n - 16383) 'x' ++ rest) := by
      unfold fgets
      rw [if_neg (by decide), if_neg]
      · rw [show textSize - ([] : Str).length - 1 = 16383 from rfl, takeLine_xs 16383 n hn]
      · intro h
        have := congrArg List.length h
        simp only [List.length_append, List.length_replicate, List.length_nil] at this
        omega
    rw [this]
    simp only [strstr_xs, Option.isSome_none, Bool.false_eq_true, if_false]
    rw [collect, if_pos]
    rw [List.nil_append, List.length_replicate]
    decide
  unfold scanfile scan
  rw [h1]
  simp only [h2, h3]
  have : (List.replicate n 'x' ++ rest).length + 1 = ((List.replicate n 'x' ++ rest).length - 1) + 2 := by
    simp only [List.length_append, List.length_replicate]; omega
  rw [this, h4]

/-- A line with a mark behind 508 characters. -/
def farMark : Line := List.replicate 508 ' ' ++ "::doc:f::".toList

/-- The line at the end. -/
def endLine : Line := "::end::".toList

/-- What the data base has for `f` after the file was read. -/
def after (src : Str) : Out (Option Str) :=
  match scanfile src (fun _ => none) with
  | .ok db => .ok (db ['f'])
  | .hang => .hang

/-- C117 is wrong of marks which lie across the end of the buffer for lines: they are not seen. -/
theorem C117_long_line_violated :
    (docs [farMark, ['t'], endLine]).map Doc.name = [['f']] ∧ after (textOf [farMark, ['t'], endLine]) = .ok none := by
  constructor
  · have h1 : nameIn farMark = some ['f'] := by decide +kernel
    have h2 : isEnd ['t'] = false := by decide +kernel
    have h3 : isEnd endLine = true := by decide +kernel
    rw [docs, h1]
    simp [List.dropWhile, h2, h3, docs]
  · decide +kernel

/-- C117 is wrong of documentation at the end of a file without a line break: the last character is lost. -/
theorem C117_last_violated : after "::doc:f::\nabc".toList = .ok (some "ab".toList) := by decide +kernel

/-! ### Examples -/

def sample : List Line := ["int x; /*".toList, "::doc:f::".toList, "f X".toList, "".toList, "Does it.".toList, "::end:: */".toList, "y".toList]

example : after (textOf sample) = .ok (some "f X\n\nDoes it.".toList) := by decide +kernel

/-- The hypotheses of `C117_found_partial` are met. -/
example : (∀ l ∈ sample, '\n' ∉ l) ∧ (∀ l ∈ sample, l.length ≤ 510) := by decide +kernel

end Rep.Repdoc
