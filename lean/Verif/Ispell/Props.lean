import Verif.Ispell.Model
/-!
# C123: checking words with ispell
-/
namespace Rep.Ispell

/-! ### Specification -/
namespace Spec

/-- The text of an answer to a word: a line that is not empty. -/
def Answer (a : List Char) : Prop := a ≠ [] ∧ '\n' ∉ a

/-- What ispell writes for these words: for each the line and an empty line (ispell(1), option -a). -/
def output (as : List (List Char)) : List Char := as.flatMap fun a => a ++ ['\n', '\n']

/-- The text of the pieces. -/
def text : List Ev → List Char
  | [] => []
  | .piece s :: e => s ++ text e
  | .timeout :: e => text e

/-- No timeout. -/
def InTime (evs : List Ev) : Prop := ∀ e ∈ evs, ∃ s, e = .piece s

end Spec

open Spec

theorem firstLine_eq (a r : List Char) (h : '\n' ∉ a) : firstLine (a ++ '\n' :: r) = some (a ++ ['\n'], r) := by
  induction a with
  | nil => simp [firstLine]
  | cons c a ih =>
    have hc : c ≠ '\n' := fun e => h (by simp [e])
    rw [List.cons_append, firstLine, if_neg hc, ih (fun hm => h (List.mem_cons_of_mem _ hm))]
    rfl

theorem firstLine_some {p l r : List Char} (h : firstLine p = some (l, r)) : p = l ++ r ∧ ∃ a, '\n' ∉ a ∧ l = a ++ ['\n'] := by
  induction p generalizing l r with
  | nil => cases h
  | cons c p ih =>
    rw [firstLine] at h
    split at h
    · rename_i hc
      injection h with h
      injection h with h1 h2
      subst h1 h2 hc
      exact ⟨rfl, [], by simp, rfl⟩
    · rename_i hc
      cases hp : firstLine p with
      | none => rw [hp] at h; cases h
      | some q =>
        obtain ⟨l', r'⟩ := q
        rw [hp] at h
        injection h with h
        injection h with h1 h2
        obtain ⟨e, a, ha, hl⟩ := ih hp
        subst h1 h2
        exact ⟨by rw [e]; rfl, c :: a, by simp [Ne.symm hc, ha], by simp only [hl]; rfl⟩

theorem line_unique {a b r s : List Char} (ha : '\n' ∉ a) (hb : '\n' ∉ b) (h : a ++ '\n' :: r = b ++ '\n' :: s) : a = b ∧ r = s := by
  have h1 := firstLine_eq a r ha
  rw [h, firstLine_eq b s hb] at h1
  injection h1 with h1
  injection h1 with h1 h2
  exact ⟨(List.append_cancel_right h1).symm, h2.symm⟩

/-- Reading a line gives the first line of all that arrives. -/
theorem readLine_eq (evs : List Ev) (p a r : List Char) (ha : '\n' ∉ a) (ht : InTime evs) (h : p ++ text evs = a ++ '\n' :: r) :
    ∃ p' e', readLine p evs = (some (a ++ ['\n']), p', e') ∧ InTime e' ∧ p' ++ text e' = r := by
  induction evs generalizing p with
  | nil =>
    have hp : p = a ++ '\n' :: r := by simpa [text] using h
    refine ⟨r, [], ?_, ht, by simp [text]⟩
    rw [readLine, hp, firstLine_eq a r ha]
  | cons e evs ih =>
    obtain ⟨s, rfl⟩ := ht e (List.mem_cons_self ..)
    cases hp : firstLine p with
    | some q =>
      obtain ⟨l, r'⟩ := q
      obtain ⟨e1, b, hb, rfl⟩ := firstLine_some hp
      rw [e1] at h
      simp only [List.append_assoc, List.singleton_append] at h
      obtain ⟨rfl, h2⟩ := line_unique hb ha h
      refine ⟨r', .piece s :: evs, ?_, ht, h2⟩
      rw [readLine, hp]
    | none =>
      obtain ⟨p', e', h1, h2, h3⟩ := ih (p ++ s) (fun e he => ht e (List.mem_cons_of_mem _ he)) (by rw [← h]; simp [text])
      refine ⟨p', e', ?_, h2, h3⟩
      rw [readLine, hp]
      exact h1

theorem word_eq (st : St) (a r : List Char) (hb : st.busy = false) (ha : Answer a) (ht : InTime st.evs) (h : st.pending ++ text st.evs = a ++ '\n' :: '\n' :: r) :
    ∃ st', word st = (.line (a ++ ['\n']), st') ∧ st'.busy = false ∧ InTime st'.evs ∧ st'.pending ++ text st'.evs = r := by
  obtain ⟨p1, e1, h1, t1, q1⟩ := readLine_eq st.evs st.pending a ('\n' :: r) ha.2 ht h
  obtain ⟨p2, e2, h2, t2, q2⟩ := readLine_eq e1 p1 [] r (by simp) t1 q1
  have hh : (a ++ ['\n']).head? ≠ some '\n' := by
    obtain ⟨hn, hm⟩ := ha
    cases a with
    | nil => exact absurd rfl hn
    | cons c a =>
      intro e
      injection e with e
      exact hm (by simp [e])
  refine ⟨{ pending := p2, evs := e2, busy := false }, ?_, rfl, t2, q2⟩
  simp only [word, hb, Bool.false_eq_true, if_false, answer, h1, if_neg hh, h2]
  rfl

/-- **C123**, partial: the result for each word is the answer to that word, however the output is cut into pieces, if no wait times out and each word has one
answer. Nothing is left over. -/
theorem C123_answers_partial (as : List (List Char)) (evs : List Ev) (ha : ∀ a ∈ as, Answer a) (ht : InTime evs) (h : text evs = output as) :
    (words as.length { pending := [], evs := evs }).1 = as.map (fun a => .line (a ++ ['\n'])) ∧
      (words as.length { pending := [], evs := evs }).2.busy = false ∧
      (words as.length { pending := [], evs := evs }).2.pending ++ text (words as.length { pending := [], evs := evs }).2.evs = [] := by
  have key : ∀ (as : List (List Char)) (st : St), st.busy = false → (∀ a ∈ as, Answer a) → InTime st.evs → st.pending ++ text st.evs = output as →
      (words as.length st).1 = as.map (fun a => .line (a ++ ['\n'])) ∧ (words as.length st).2.busy = false ∧
        (words as.length st).2.pending ++ text (words as.length st).2.evs = [] := by
    intro as
    induction as with
    | nil => exact fun st hb _ _ h => ⟨rfl, hb, h⟩
    | cons a as ih =>
      intro st hb ha ht h
      obtain ⟨st', w, b', t', q'⟩ := word_eq st a (output as) hb (ha a (List.mem_cons_self ..)) ht (by rw [h]; simp [output])
      obtain ⟨i1, i2⟩ := ih st' b' (fun a h => ha a (List.mem_cons_of_mem _ h)) t' q'
      simp only [List.length_cons, words, w, List.map_cons]
      exact ⟨by rw [i1], i2⟩
  exact key as _ rfl ha ht (by simpa using h)

/-- **C123**: the process is never left marked as busy, whatever arrives. -/
theorem C123_free (st : St) (h : st.busy = false) : (word st).2.busy = false ∧ (word st).1 ≠ .busy := by
  refine ⟨by simp [word, h], ?_⟩
  simp only [word, h, Bool.false_eq_true, if_false, answer]
  split
  · simp
  · split
    · simp
    · split
      · simp
      · dsimp only
        split <;> simp

/-- ispell's answers to `right`, and to `wrng` and `teh`. -/
def good : List Char := "*".toList
def bad : List Char := "# wrng 0".toList
def bad2 : List Char := "# teh 0".toList

/-- **C123**, violated: if the answer to a word comes after the timeout, it is taken for that to the next word, which is wrong but found to be right; and so on. -/
theorem C123_late_violated :
    (words 3 { pending := [], evs := [.timeout, .piece (output [good]), .piece (output [bad]), .piece (output [good])] }).1.map testWord =
      [none, some true, some false] ∧
    (words 3 { pending := [], evs := [.piece (output [good]), .piece (output [bad]), .piece (output [good])] }).1.map testWord =
      [some true, some false, some true] := by decide +kernel

/-- **C123**, violated: after a string of two words, for which ispell writes two lines, the next call fails, and all later ones get the answer to the word before. -/
theorem C123_two_words_violated :
    (words 4 { pending := [], evs := [.piece (good ++ '\n' :: good ++ ['\n', '\n']), .piece (output [good]), .piece (output [bad]), .piece (output [bad2])] }).1 =
      [.trailing, .null, .line (good ++ ['\n']), .line (bad ++ ['\n'])] := by decide +kernel

/-! ### The hypotheses are met -/

/-- Two answers in pieces. -/
def pieces : List Ev := [.piece "*".toList, .piece [], .piece "\n\n# wr".toList, .piece "ng 0\n".toList, .piece "\n".toList]

example : Answer good ∧ Answer bad ∧ InTime pieces ∧ text pieces = output [good, bad] := by
  refine ⟨⟨by decide, by decide⟩, ⟨by decide, by decide⟩, ?_, by decide +kernel⟩
  intro e he
  simp only [pieces, List.mem_cons, List.not_mem_nil, or_false] at he
  rcases he with rfl | rfl | rfl | rfl | rfl <;> exact ⟨_, rfl⟩

end Rep.Ispell
