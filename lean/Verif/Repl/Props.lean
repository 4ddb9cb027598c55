import Verif.Repl.Model
/-!
# C128: the read-eval-print loop
-/
namespace Rep.Repl

/-! ### Specification -/
namespace Spec

mutual
/-- The tokens of a form. -/
inductive IsForm : List Tok → Prop
  | atom (n : Nat) : IsForm [.atom n]
  | quote {f : List Tok} : IsForm f → IsForm (.quo :: f)
  | list {fs : List Tok} : AreForms fs → IsForm (.lp :: fs ++ [.rp])
/-- Those of several forms. -/
inductive AreForms : List Tok → Prop
  | nil : AreForms []
  | cons {f fs : List Tok} : IsForm f → AreForms fs → AreForms (f ++ fs)
end

/-- A session in which each form is typed on lines of its own; a form may take any number of lines, and lines may be empty. -/
inductive Typed : List (List Tok) → List (List Tok) → Prop
  | nil : Typed [] []
  | blank {fs ls : List (List Tok)} : Typed fs ls → Typed fs ([] :: ls)
  | form {f last : List Tok} {ls : List (List Tok)} {fs rest : List (List Tok)} :
      IsForm f → f = ls.flatten ++ last → last ≠ [] → Typed fs rest → Typed (f :: fs) (ls ++ last :: rest)

/-- The commands a name may mean. -/
def matching (cmds : List (List Char)) (name : List Char) : List (List Char) := cmds.filter fun c => name.isPrefixOf c

end Spec

open Spec

/-- A form is read up to its end, wherever it is. -/
def Reads (f : List Tok) : Prop := ∀ d q r, scan d q (f ++ r) = if d = 0 then .done r else scan d false r

theorem reads {f : List Tok} (h : IsForm f) : Reads f := by
  refine IsForm.rec (motive_1 := fun f _ => Reads f) (motive_2 := fun fs _ => ∀ d r, scan (d + 1) false (fs ++ r) = scan (d + 1) false r) ?_ ?_ ?_ ?_ ?_ h
  · intro n d q r
    simp [scan]
  · intro f _ ih d q r
    rw [List.cons_append, scan]
    exact ih d true r
  · intro fs _ ih d q r
    rw [List.append_assoc, List.cons_append, scan, ih]
    simp only [List.singleton_append, scan, Bool.or_false]
    by_cases hd : d = 0
    · simp [hd]
    · simp [hd]
  · intro d r
    rfl
  · intro f fs _ _ ih1 ih2 d r
    rw [List.append_assoc, ih1, if_neg (Nat.succ_ne_zero d), ih2]

/-- What was read stays so if text is added. -/
theorem scan_more (p s : List Tok) (d : Nat) (q : Bool) :
    (∀ r, scan d q p = .done r → scan d q (p ++ s) = .done (r ++ s)) ∧ (scan d q p = .bad → scan d q (p ++ s) = .bad) := by
  induction p generalizing d q with
  | nil => exact ⟨fun r h => (by cases h), fun h => (by cases h)⟩
  | cons t p ih =>
    cases t with
    | lp => simp only [List.cons_append, scan]; exact ih _ _
    | quo => simp only [List.cons_append, scan]; exact ih _ _
    | atom n =>
      simp only [List.cons_append, scan]
      split
      · exact ⟨fun r h => by injection h with h; rw [h], fun h => by cases h⟩
      · exact ih _ _
    | rp =>
      simp only [List.cons_append, scan]
      split
      · exact ⟨fun r h => (by cases h), fun _ => rfl⟩
      · split
        · exact ⟨fun r h => by injection h with h; rw [h], fun h => by cases h⟩
        · exact ih _ _

theorem scan_form {f : List Tok} (h : IsForm f) : scan 0 false f = .done [] := by
  have := reads h 0 false []
  rwa [List.append_nil, if_pos rfl] at this

/-- The beginning of a form is premature. -/
theorem scan_prefix {f p s : List Tok} (h : IsForm f) (e : f = p ++ s) (hs : s ≠ []) : scan 0 false p = .premature := by
  have hf := scan_form h
  rw [e] at hf
  obtain ⟨m1, m2⟩ := scan_more p s 0 false
  cases hp : scan 0 false p with
  | premature => rfl
  | done r =>
    rw [m1 r hp] at hf
    injection hf with hf
    exact absurd (List.append_eq_nil_iff.mp hf).2 hs
  | bad => rw [m2 hp] at hf; cases hf

theorem form_ne {f : List Tok} (h : IsForm f) : f ≠ [] := by cases h <;> simp

theorem session_lines {f : List Tok} (h : IsForm f) (ls : List (List Tok)) (last : List Tok) (hl : last ≠ []) (p : List Tok) (e : f = p ++ ls.flatten ++ last) (rest : List (List Tok)) :
    session p (ls ++ last :: rest) = ((session [] rest).1, .eval f :: (session [] rest).2) := by
  induction ls generalizing p with
  | nil =>
    have e' : p ++ last = f := by simpa using e.symm
    simp only [List.nil_append, session, iterate, e', if_neg (form_ne h), scan_form h, List.length_nil, Nat.sub_zero, List.take_length]
    rfl
  | cons l ls ih =>
    have e' : f = (p ++ l) ++ ls.flatten ++ last := by simpa using e
    have hp : scan 0 false (p ++ l) = .premature := scan_prefix h (by rw [e', List.append_assoc]) (by simp [hl])
    have hi : iterate p l = (p ++ l, []) := by
      simp only [iterate]
      split
      · rename_i h0; rw [h0]
      · rw [hp]
    simp only [List.cons_append, session, hi, List.nil_append]
    exact ih (p ++ l) e'

/-- **C128**, partial: the forms that are typed are evaluated once each, in order, and nothing is left over, if each form begins on a new line. -/
theorem C128_forms_partial (fs ls : List (List Tok)) (h : Typed fs ls) : session [] ls = ([], fs.map .eval) := by
  induction h with
  | nil => rfl
  | blank _ ih =>
    simp only [session, iterate, List.append_nil, if_true, List.nil_append]
    exact ih
  | form hf e hl _ ih =>
    rw [session_lines hf _ _ hl [] (by simpa using e), ih]
    rfl

/-- **C128**, violated: a second form on the line is ignored, also if it is unfinished. -/
theorem C128_two_forms_violated : session [] [[.atom 1, .atom 2]] = ([], [.eval [.atom 1]]) ∧
    session [] [[.atom 1, .lp, .atom 2], [.atom 3, .rp]] = ([], [.eval [.atom 1], .eval [.atom 3]]) := by decide +kernel

theorem findLoop_some (name m : List Char) (cs : List (List Char)) : findLoop name cs (some m) = if matching cs name = [] then .command m else .ambiguous := by
  induction cs with
  | nil => rfl
  | cons c cs ih =>
    rw [findLoop, matching, List.filter_cons]
    split
    · simp
    · exact ih

/-- **C128**: a command may be abbreviated if the abbreviation is not ambiguous; a name that is that of a command means this. -/
theorem C128_command (cmds : List (List Char)) (name : List Char) :
    (name ∈ cmds → findCommand cmds name = .command name) ∧
      (name ∉ cmds → (∀ c, matching cmds name = [c] → findCommand cmds name = .command c) ∧ (matching cmds name = [] → findCommand cmds name = .unknown) ∧
        (2 ≤ (matching cmds name).length → findCommand cmds name = .ambiguous)) := by
  refine ⟨fun h => by rw [findCommand, if_pos h], fun h => ?_⟩
  rw [findCommand, if_neg h]
  clear h
  have key : findLoop name cmds none = match matching cmds name with | [] => .unknown | [c] => .command c | _ => .ambiguous := by
    induction cmds with
    | nil => rfl
    | cons c cs ih =>
      rw [findLoop, matching, List.filter_cons]
      split
      · simp only [findLoop_some]
        show _ = match c :: matching cs name with | [] => Found.unknown | [c] => .command c | _ => .ambiguous
        cases matching cs name with
        | nil => rfl
        | cons _ _ => rfl
      · exact ih
  rw [key]
  refine ⟨fun c hc => by rw [hc], fun hc => by rw [hc], fun hc => ?_⟩
  match hm : matching cmds name with
  | [] => rw [hm] at hc; simp at hc
  | [_] => rw [hm] at hc; simp at hc
  | _ :: _ :: _ => rfl

/-! ### The hypotheses are met -/

/-- `(1 '(2) )` on three lines, one of them empty, and `3`. -/
example : Typed [[.lp, .atom 1, .quo, .lp, .atom 2, .rp, .rp], [.atom 3]] [[.lp, .atom 1, .quo], [], [.lp, .atom 2, .rp, .rp], [], [.atom 3]] := by
  refine Typed.form (ls := [[.lp, .atom 1, .quo], []]) (last := [.lp, .atom 2, .rp, .rp]) ?_ rfl (by simp) (.blank (Typed.form (ls := []) (.atom 3) rfl (by simp) .nil))
  exact IsForm.list (.cons (.atom 1) (.cons (f := [.quo, .lp, .atom 2, .rp]) (fs := []) (.quote (IsForm.list (fs := [.atom 2]) (.cons (fs := []) (.atom 2) .nil))) .nil))

example : findCommand ["help".toList, "in".toList, "inspect".toList] "h".toList = .command "help".toList ∧
    findCommand ["help".toList, "in".toList, "inspect".toList] "i".toList = .ambiguous ∧ findCommand ["help".toList, "in".toList, "inspect".toList] "in".toList = .command "in".toList := by
  decide +kernel

end Rep.Repl
