import Verif.Xgettext.Model
import Mathlib.Data.List.Nodup
import Mathlib.Tactic.Common
/-!
# C121: collecting strings for translation
-/
namespace Rep.Xgettext
open Sx

/-! ### Specification -/
namespace Spec

/-- The names of special forms. -/
def special : List String := ["quote", "setq", "setq-default", "%define", "let", "let*", "letrec", "let-fluids", "function", "cond", "lambda", "defun", "defmacro",
  "defsubst", "defvar", "defconst", "define-structure", "structure"]

/-- A list as a form. -/
def list : List Sx → Sx
  | [] => nil
  | e :: r => cons e (list r)

/-- A binding of `let`: a variable and its value. -/
def binding (v : String) (e : Sx) : Sx := list [sym v, e]

/-- When the form is evaluated (or functions made by it are called), `(_ s)` may be. If the first argument is true, also in `let` without variables. -/
inductive Says (full : Bool) (s : Str) : Sx → Prop
  | here : Says full s (list [sym "_", str s])
  | arg {f : String} {es : List Sx} {e : Sx} : f ∉ special → f ≠ "_" → e ∈ es → Says full s e → Says full s (list (sym f :: es))
  | head {a d : Sx} {es : List Sx} : Says full s (cons a d) → Says full s (list (cons a d :: es))
  | headArg {a d : Sx} {es : List Sx} {e : Sx} : e ∈ es → Says full s e → Says full s (list (cons a d :: es))
  | setq {k v : String} {e : Sx} (es : List Sx) (h : es.length % 2 = 0) (rest : List Sx) : k ∈ ["setq", "setq-default", "%define"] → Says full s e →
      Says full s (list (sym k :: (es ++ sym v :: e :: rest)))
  | letInit {k v : String} {e : Sx} {bs body : List Sx} : k ∈ ["let", "let*", "letrec", "let-fluids"] → binding v e ∈ bs → Says full s e →
      Says full s (list (sym k :: list bs :: body))
  | letBody {k : String} {e : Sx} {bs body : List Sx} : k ∈ ["let", "let*", "letrec", "let-fluids"] → (full = true ∨ bs ≠ []) → e ∈ body → Says full s e →
      Says full s (list (sym k :: list bs :: body))
  | loopInit {n v : String} {e : Sx} {bs body : List Sx} : binding v e ∈ bs → Says full s e → Says full s (list (sym "let" :: sym n :: list bs :: body))
  | loopBody {n : String} {e : Sx} {bs body : List Sx} : e ∈ body → Says full s e → Says full s (list (sym "let" :: sym n :: list bs :: body))
  | function {a d : Sx} : Says full s (cons a d) → Says full s (list [sym "function", cons a d])
  | cond {cl : List Sx} {cls : List Sx} {e : Sx} : list cl ∈ cls → e ∈ cl → Says full s e → Says full s (list (sym "cond" :: cls))
  | lambda {ps e : Sx} {body : List Sx} : e ∈ body → Says full s e → Says full s (list (sym "lambda" :: ps :: body))
  | defun {k : String} {n ps e : Sx} {body : List Sx} : k ∈ ["defun", "defmacro", "defsubst"] → e ∈ body → Says full s e →
      Says full s (list (sym k :: n :: ps :: body))
  | defvar {k : String} {n e : Sx} {rest : List Sx} : k ∈ ["defvar", "defconst"] → Says full s e → Says full s (list (sym k :: n :: e :: rest))
  | modul {n i c e : Sx} {body : List Sx} : e ∈ body → Says full s e → Says full s (list (sym "define-structure" :: n :: i :: c :: body))
  | struct {i c e : Sx} {body : List Sx} : e ∈ body → Says full s e → Says full s (list (sym "structure" :: i :: c :: body))

/-- How programs for translators read a text: strings in quotes, one per line, joined; with the usual escapes. -/
inductive Reads : Bool → Str → Str → Prop
  | done : Reads false [] []
  | line {r s} : Reads false r s → Reads false ('\n' :: r) s
  | start {r s} : Reads true r s → Reads false ('"' :: r) s
  | stop {r s} : Reads false r s → Reads true ('"' :: r) s
  | plain {c r s} : c ≠ '"' → c ≠ '\\' → c ≠ '\n' → Reads true r s → Reads true (c :: r) (c :: s)
  | newline {r s} : Reads true r s → Reads true ('\\' :: 'n' :: r) ('\n' :: s)
  | tab {r s} : Reads true r s → Reads true ('\\' :: 't' :: r) ('\t' :: s)
  | ret {r s} : Reads true r s → Reads true ('\\' :: 'r' :: r) ('\r' :: s)
  | feed {r s} : Reads true r s → Reads true ('\\' :: 'f' :: r) ('\x0c' :: s)
  | backslash {r s} : Reads true r s → Reads true ('\\' :: '\\' :: r) ('\\' :: s)
  | quote {r s} : Reads true r s → Reads true ('\\' :: '"' :: r) ('"' :: s)

end Spec

open Spec

/-! ### Scanning -/

theorem elems_list (l : List Sx) : (list l).elems = l := by
  induction l with
  | nil => rfl
  | cons e r ih => rw [list, elems, ih]

theorem scan_special (inc : String → Bool) (n : Nat) (k : String) (r : Sx) (h : k ≠ "_") :
    scan inc (n + 1) (cons (sym k) r) =
      if k = "quote" then []
      else if k = "setq" ∨ k = "setq-default" ∨ k = "%define" then (values r.elems).flatMap (scan inc n)
      else if k = "let" ∨ k = "let*" ∨ k = "letrec" ∨ k = "let-fluids" then (letParts r).flatMap (scan inc n)
      else if k = "function" then scan inc n r
      else if k = "cond" then (r.elems.flatMap Sx.elems).flatMap (scan inc n)
      else if k = "lambda" then r.cdr.elems.flatMap (scan inc n)
      else if k = "defun" ∨ k = "defmacro" ∨ k = "defsubst" ∨ k = "defvar" ∨ k = "defconst" then
        (if inc k then
          match r.cdr.cdr.car with
          | str d => [d]
          | _ => []
        else []) ++
        (if k = "defun" ∨ k = "defmacro" ∨ k = "defsubst" then r.cdr.cdr.elems else r.cdr.elems).flatMap (scan inc n)
      else if k = "define-structure" then r.cdr.cdr.cdr.elems.flatMap (scan inc n)
      else if k = "structure" then r.cdr.cdr.elems.flatMap (scan inc n)
      else (cons (sym k) r).elems.flatMap (scan inc n) := by
  rw [scan]
  · rfl
  · intro _ _ _ e
    exact absurd e h

/-- Something that is found in a part is found in the whole. -/
theorem found_in {inc : String → Bool} {s : Str} {form e : Sx} (he : ∃ N, ∀ n, N ≤ n → s ∈ scan inc n e)
    (h : ∀ n, s ∈ scan inc n e → s ∈ scan inc (n + 1) form) : ∃ N, ∀ n, N ≤ n → s ∈ scan inc n form := by
  obtain ⟨N, hN⟩ := he
  refine ⟨N + 1, fun n hn => ?_⟩
  obtain ⟨m, rfl⟩ := Nat.exists_eq_succ_of_ne_zero (show n ≠ 0 by omega)
  exact h m (hN m (by omega))

theorem values_mem (es : List Sx) (h : es.length % 2 = 0) (a e : Sx) (r : List Sx) : e ∈ values (es ++ a :: e :: r) := by
  match es, h with
  | [], _ => simp [values]
  | [_], h => simp at h
  | x :: y :: es, h =>
    have := values_mem es (by simp only [List.length_cons] at h; omega) a e r
    simp only [List.cons_append, values]
    exact List.mem_cons_of_mem _ this

theorem not_special {f : String} (h : f ∉ special) : ∀ k ∈ special, f ≠ k := fun k hk e => h (e ▸ hk)

/-- C121, scanning: every `(_ STRING)` that the program may evaluate is found, if no `let` without variables contains it. -/
theorem C121_found_partial (inc : String → Bool) {s : Str} {form : Sx} (h : Says false s form) : ∃ N, ∀ n, N ≤ n → s ∈ scan inc n form := by
  have mem : ∀ {n : Nat} {l : List Sx} {e : Sx}, e ∈ l → s ∈ scan inc n e → s ∈ l.flatMap (scan inc n) := fun he hs => List.mem_flatMap.mpr ⟨_, he, hs⟩
  induction h with
  | here =>
    refine ⟨1, fun n hn => ?_⟩
    obtain ⟨m, rfl⟩ := Nat.exists_eq_succ_of_ne_zero (show n ≠ 0 by omega)
    simp [list, scan]
  | @arg f es e hf hf' he _ ih =>
    refine found_in ih fun n hs => ?_
    have := not_special hf
    simp only [special, List.mem_cons, List.not_mem_nil, or_false, forall_eq_or_imp, forall_eq] at this
    rw [list, scan_special _ _ _ _ hf']
    simp only [this, false_or, if_false, elems, elems_list]
    exact mem (List.mem_cons_of_mem _ he) hs
  | @head a d es _ ih =>
    refine found_in ih fun n hs => ?_
    rw [list, scan]
    · simp only [elems]
      exact mem (List.mem_cons_self ..) hs
    · intro _ _ e; cases e
    · intro _ e; cases e
  | @headArg a d es e he _ ih =>
    refine found_in ih fun n hs => ?_
    rw [list, scan]
    · simp only [elems, elems_list]
      exact mem (List.mem_cons_of_mem _ he) hs
    · intro _ _ e; cases e
    · intro _ e; cases e
  | @setq k v e es hl rest hk _ ih =>
    refine found_in ih fun n hs => ?_
    have hm := mem (values_mem es hl (sym v) e rest) hs
    simp only [List.mem_cons, List.not_mem_nil, or_false] at hk
    rcases hk with rfl | rfl | rfl <;>
      (rw [list, scan_special _ _ _ _ (by decide)]; simpa [elems_list] using hm)
  | @letInit k v e bs body hk hb _ ih =>
    refine found_in ih fun n hs => ?_
    have hp : e ∈ letParts (list (list bs :: body)) := by
      cases bs with
      | nil => cases hb
      | cons b bs =>
        simp only [letParts, list, car, symbolp, cdr, Bool.false_eq_true, if_false, List.mem_append]
        left
        rw [List.mem_flatMap]
        refine ⟨binding v e, ?_, by simp [binding, list, cdr, elems]⟩
        rw [elems, elems_list]
        exact hb
    have hm := mem hp hs
    simp only [List.mem_cons, List.not_mem_nil, or_false] at hk
    rcases hk with rfl | rfl | rfl | rfl <;>
      (rw [list, scan_special _ _ _ _ (by decide)]; simpa using hm)
  | @letBody k e bs body hk hne he _ ih =>
    refine found_in ih fun n hs => ?_
    have hp : e ∈ letParts (list (list bs :: body)) := by
      cases bs with
      | nil => rcases hne with h | h
               · cases h
               · exact absurd rfl h
      | cons b bs =>
        simp only [letParts, list, car, symbolp, cdr, Bool.false_eq_true, if_false, List.mem_append]
        right
        rw [elems_list]
        exact he
    have hm := mem hp hs
    simp only [List.mem_cons, List.not_mem_nil, or_false] at hk
    rcases hk with rfl | rfl | rfl | rfl <;>
      (rw [list, scan_special _ _ _ _ (by decide)]; simpa using hm)
  | @loopInit m v e bs body hb _ ih =>
    refine found_in ih fun n hs => ?_
    have hp : e ∈ letParts (list (sym m :: list bs :: body)) := by
      simp only [letParts, list, car, symbolp, cdr, if_true, List.mem_append]
      left
      rw [List.mem_flatMap]
      refine ⟨binding v e, ?_, by simp [binding, list, cdr, elems]⟩
      rw [elems_list]
      exact hb
    have hm := mem hp hs
    rw [list, scan_special _ _ _ _ (by decide)]
    simpa using hm
  | @loopBody m e bs body he _ ih =>
    refine found_in ih fun n hs => ?_
    have hp : e ∈ letParts (list (sym m :: list bs :: body)) := by
      simp only [letParts, list, car, symbolp, cdr, if_true, List.mem_append]
      right
      rw [elems_list]
      exact he
    have hm := mem hp hs
    rw [list, scan_special _ _ _ _ (by decide)]
    simpa using hm
  | @function a d _ ih =>
    obtain ⟨N, hN⟩ := ih
    refine ⟨N + 2, fun n hn => ?_⟩
    obtain ⟨m, rfl⟩ : ∃ m, n = m + 2 := ⟨n - 2, by omega⟩
    have hs := hN m (by omega)
    rw [list, scan_special _ _ _ _ (by decide)]
    have : s ∈ scan inc (m + 1) (list [cons a d]) := by
      rw [list, scan]
      · simp only [elems]
        exact mem (List.mem_cons_self ..) hs
      · intro _ _ e; cases e
      · intro _ e; cases e
    simpa using this
  | @cond cl cls e hcl he _ ih =>
    refine found_in ih fun n hs => ?_
    have hm : s ∈ (cls.flatMap Sx.elems).flatMap (scan inc n) := mem (List.mem_flatMap.mpr ⟨_, hcl, by rw [elems_list]; exact he⟩) hs
    rw [list, scan_special _ _ _ _ (by decide)]
    simpa [elems_list] using hm
  | @lambda ps e body he _ ih =>
    refine found_in ih fun n hs => ?_
    have hm := mem he hs
    rw [list, scan_special _ _ _ _ (by decide)]
    simpa [list, cdr, elems_list] using hm
  | @defun k m ps e body hk he _ ih =>
    refine found_in ih fun n hs => ?_
    have hm := mem he hs
    simp only [List.mem_cons, List.not_mem_nil, or_false] at hk
    rcases hk with rfl | rfl | rfl <;>
      (rw [list, scan_special _ _ _ _ (by decide)]
       simp only [list, cdr, elems_list]
       simp only [String.reduceEq, or_false, false_or, if_false, if_true, or_true, true_or]
       exact List.mem_append_right _ hm)
  | @defvar k m e rest hk _ ih =>
    refine found_in ih fun n hs => ?_
    have hm : s ∈ (e :: rest).flatMap (scan inc n) := mem (List.mem_cons_self ..) hs
    simp only [List.mem_cons, List.not_mem_nil, or_false] at hk
    rcases hk with rfl | rfl <;>
      (rw [list, scan_special _ _ _ _ (by decide)]
       simp only [list, cdr, elems, elems_list]
       simp only [String.reduceEq, or_false, false_or, if_false, if_true, or_true, true_or]
       exact List.mem_append_right _ hm)
  | @modul m i c e body he _ ih =>
    refine found_in ih fun n hs => ?_
    have hm := mem he hs
    rw [list, scan_special _ _ _ _ (by decide)]
    simpa [list, cdr, elems_list] using hm
  | @struct i c e body he _ ih =>
    refine found_in ih fun n hs => ?_
    have hm := mem he hs
    rw [list, scan_special _ _ _ _ (by decide)]
    simpa [list, cdr, elems_list] using hm

def hello : Str := ['h', 'e', 'l', 'l', 'o']

/-- `(let () (_ "hello"))` -/
def emptyLet : Sx := list [sym "let", list [], list [sym "_", str hello]]

/-- C121 is wrong of `let` without variables: nil is taken for the name of a loop, and the first form of the body for the variables. -/
theorem C121_empty_let_violated (inc : String → Bool) : Says true hello emptyLet ∧ ∀ n, scan inc n emptyLet = [] := by
  refine ⟨Says.letBody (k := "let") (bs := []) (by simp) (Or.inl rfl) (List.mem_singleton.mpr rfl) Says.here, fun n => ?_⟩
  cases n with
  | zero => rfl
  | succ n =>
    simp only [emptyLet, list]
    rw [scan_special _ _ _ _ (by decide)]
    simp [letParts, car, cdr, symbolp, elems]

/-! ### Registering -/

theorem register_keys (f s : Str) (found : Found) (h : (found.map Prod.fst).Nodup) :
    ((register f s found).map Prod.fst).Nodup ∧ (∀ x g, (∃ fs, (x, fs) ∈ register f s found ∧ g ∈ fs) ↔ (∃ fs, (x, fs) ∈ found ∧ g ∈ fs) ∨ (x = s ∧ g = f)) := by
  unfold register
  split
  · rename_i ha
    have hk : (found.map fun c => if c.1 = s then (if f ∈ c.2 then c else (c.1, f :: c.2)) else c).map Prod.fst = found.map Prod.fst := by
      rw [List.map_map]
      apply List.map_congr_left
      intro c _
      simp only [Function.comp]
      split
      · split <;> rfl
      · rfl
    refine ⟨hk ▸ h, fun x g => ?_⟩
    simp only [List.mem_map]
    constructor
    · rintro ⟨fs, ⟨c, hc, e⟩, hg⟩
      split at e
      · rename_i hs
        split at e
        · rw [e] at hc; exact Or.inl ⟨fs, hc, hg⟩
        · injection e with e1 e2
          rw [← e2] at hg
          rcases List.mem_cons.mp hg with hg | hg
          · exact Or.inr ⟨e1 ▸ hs, hg⟩
          · exact Or.inl ⟨c.2, by rw [← e1]; exact hc, hg⟩
      · rw [e] at hc; exact Or.inl ⟨fs, hc, hg⟩
    · rintro (⟨fs, hc, hg⟩ | ⟨rfl, rfl⟩)
      · by_cases hs : x = s
        · by_cases hf : f ∈ fs
          · exact ⟨fs, ⟨(x, fs), hc, by simp [hf]⟩, hg⟩
          · exact ⟨f :: fs, ⟨(x, fs), hc, by simp [hs, hf]⟩, List.mem_cons_of_mem _ hg⟩
        · exact ⟨fs, ⟨(x, fs), hc, by simp [hs]⟩, hg⟩
      · obtain ⟨c, hc, e⟩ := List.any_eq_true.mp ha
        have e : c.1 = x := by simpa using e
        by_cases hf : g ∈ c.2
        · exact ⟨c.2, ⟨c, hc, by rw [if_pos e, if_pos hf, ← e]⟩, hf⟩
        · exact ⟨g :: c.2, ⟨c, hc, by simp [e, hf]⟩, List.mem_cons_self ..⟩
  · rename_i ha
    refine ⟨?_, fun x g => ?_⟩
    · rw [List.map_cons, List.nodup_cons]
      refine ⟨fun hm => ha ?_, h⟩
      obtain ⟨c, hc, e⟩ := List.mem_map.mp hm
      exact List.any_eq_true.mpr ⟨c, hc, by simpa using e⟩
    · constructor
      · rintro ⟨fs, hm, hg⟩
        rcases List.mem_cons.mp hm with e | hm
        · injection e with e1 e2
          rw [e2] at hg
          exact Or.inr ⟨e1, List.mem_singleton.mp hg⟩
        · exact Or.inl ⟨fs, hm, hg⟩
      · rintro (⟨fs, hm, hg⟩ | ⟨rfl, rfl⟩)
        · exact ⟨fs, List.mem_cons_of_mem _ hm, hg⟩
        · exact ⟨[g], List.mem_cons_self .., List.mem_singleton.mpr rfl⟩

/-- C121, the list: each string is listed once, with exactly the files it was found in. -/
theorem C121_listed_once (l : List (Str × Str)) :
    ((registerAll l).map Prod.fst).Nodup ∧ ∀ f s, (∃ fs, (s, fs) ∈ registerAll l ∧ f ∈ fs) ↔ (f, s) ∈ l := by
  have main : ∀ (l : List (Str × Str)) (found : Found), (found.map Prod.fst).Nodup →
      ((l.foldl (fun found p => register p.1 p.2 found) found).map Prod.fst).Nodup ∧
      ∀ f s, (∃ fs, (s, fs) ∈ l.foldl (fun found p => register p.1 p.2 found) found ∧ f ∈ fs) ↔ (∃ fs, (s, fs) ∈ found ∧ f ∈ fs) ∨ (f, s) ∈ l := by
    intro l
    induction l with
    | nil => intro found h; exact ⟨h, fun f s => by simp⟩
    | cons p l ih =>
      intro found h
      obtain ⟨h1, h2⟩ := register_keys p.1 p.2 found h
      obtain ⟨i1, i2⟩ := ih _ h1
      refine ⟨i1, fun f s => ?_⟩
      rw [List.foldl_cons, i2, h2, List.mem_cons, or_assoc]
      have : (s = p.2 ∧ f = p.1) ↔ (f, s) = p := by
        constructor
        · rintro ⟨rfl, rfl⟩; rfl
        · rintro rfl; exact ⟨rfl, rfl⟩
      rw [this]
  obtain ⟨h1, h2⟩ := main l [] List.nodup_nil
  refine ⟨h1, fun f s => ?_⟩
  have := h2 f s
  simpa [registerAll] using this

/-! ### The template -/

theorem breaks_other {c : Char} (h : c ≠ '\\') (r : Str) : breaks (c :: r) = c :: breaks r := by
  rw [breaks]
  intro _ e
  exact absurd e h

theorem breaks_pair {c : Char} (h : c ≠ 'n') (r : Str) : breaks ('\\' :: c :: r) = '\\' :: breaks (c :: r) := by
  rw [breaks]
  intro _ _ e
  injection e with e _
  exact absurd e h

theorem reads_breaks (s : Str) : Reads true (breaks (s.flatMap esc ++ ['"'])) s ∧
    Reads true ('\\' :: breaks ('\\' :: (s.flatMap esc ++ ['"']))) ('\\' :: s) := by
  induction s with
  | nil =>
    have e1 : breaks ['"'] = ['"'] := by rw [breaks_other (by decide)]; rfl
    have h1 : Reads true ['"'] [] := .stop .done
    refine ⟨?_, ?_⟩
    · simp only [List.flatMap_nil, List.nil_append, e1]
      exact h1
    · simp only [List.flatMap_nil, List.nil_append]
      rw [breaks_pair (by decide), e1]
      exact .backslash h1
  | cons c s ih =>
    obtain ⟨ih1, ih2⟩ := ih
    have first : Reads true (breaks ((c :: s).flatMap esc ++ ['"'])) (c :: s) := by
      rw [List.flatMap_cons, List.append_assoc]
      unfold esc
      split
      · rename_i h; subst h
        simp only [List.cons_append, List.nil_append]
        rw [breaks_pair (by decide), breaks_other (by decide)]
        exact .tab ih1
      · split
        · rename_i h; subst h
          simp only [List.cons_append, List.nil_append]
          rw [breaks]
          exact .newline (.stop (.line (.start ih1)))
        · split
          · rename_i h; subst h
            simp only [List.cons_append, List.nil_append]
            rw [breaks_pair (by decide), breaks_other (by decide)]
            exact .ret ih1
          · split
            · rename_i h; subst h
              simp only [List.cons_append, List.nil_append]
              rw [breaks_pair (by decide), breaks_other (by decide)]
              exact .feed ih1
            · split
              · rename_i h; subst h
                simp only [List.cons_append, List.nil_append]
                rw [breaks_pair (by decide)]
                exact ih2
              · split
                · rename_i h; subst h
                  simp only [List.cons_append, List.nil_append]
                  rw [breaks_pair (by decide), breaks_other (by decide)]
                  exact .quote ih1
                · rename_i h2 _ _ h5 h6
                  simp only [List.cons_append, List.nil_append]
                  rw [breaks_other h5]
                  exact .plain h6 h5 h2 ih1
    refine ⟨first, ?_⟩
    by_cases hn : c = 'n'
    · subst hn
      have e : ('n' :: s).flatMap esc ++ ['"'] = 'n' :: (s.flatMap esc ++ ['"']) := by
        rw [List.flatMap_cons]
        rfl
      rw [e, breaks]
      exact .backslash (.plain (by decide) (by decide) (by decide) (.stop (.line (.start ih1))))
    · have e : ∃ d t, (c :: s).flatMap esc ++ ['"'] = d :: t ∧ d ≠ 'n' := by
        rw [List.flatMap_cons, List.append_assoc]
        unfold esc
        repeat' split
        all_goals first
          | exact ⟨_, _, rfl, by decide⟩
          | exact ⟨_, _, rfl, hn⟩
      obtain ⟨d, t, e, hd⟩ := e
      rw [e, breaks_pair hd, ← e]
      exact .backslash first

/-- C121, the template: read as such files are, what is written for a string is the string. -/
theorem C121_template (s : Str) : Reads false (msgid s) s := by
  rw [msgid, quoted, breaks_other (by decide)]
  exact .start (reads_breaks s).1

/-! ### Examples -/

example : msgid ['a', '\n', '\\', 'n', '"'] = "\"a\\n\"\n\"\\\\n\"\n\"\\\"\"".toList := by decide +kernel

/-- `(defun f (x) (if x (let ((y (_ "hello"))) y)))` -/
def sample : Sx := list [sym "defun", sym "f", list [sym "x"], list [sym "if", sym "x", list [sym "let", list [binding "y" (list [sym "_", str hello])], sym "y"]]]

example : Says false hello sample := by
  refine Says.defun (by simp) (List.mem_singleton.mpr rfl) (Says.arg (by decide) (by decide) (e := list [sym "let", list [binding "y" (list [sym "_", str hello])], sym "y"])
    (by simp) ?_)
  exact Says.letInit (k := "let") (v := "y") (bs := [binding "y" (list [sym "_", str hello])]) (body := [sym "y"]) (by simp) (List.mem_singleton.mpr rfl) Says.here

example : scan (fun _ => true) 9 sample = [hello] := by decide +kernel

end Rep.Xgettext
