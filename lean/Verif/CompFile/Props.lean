import Verif.CompFile.Model
/-!
# C129: compile-file
-/
namespace Rep.CompFile

/-! ### Specification -/
namespace Spec

/-- Nothing fails. -/
def Works (i : Input) (c : Content) : Prop := i.compiled = some c ∧ i.tempOpens = true ∧ i.writeFails = none ∧ i.closeFails = none ∧ i.copyFails = none

/-- It fails before the result is complete. -/
def Early (i : Input) : Prop := i.compiled = none ∨ i.tempOpens = false ∨ i.writeFails.isSome

/-- A text between `#!` and `!#`: it doesn't contain the end, and no two exclamation marks meet, counting that of the end. -/
def Simple (h : List Char) : Prop := (∀ a b, h ≠ a ++ '!' :: '#' :: b) ∧ (∀ a b, h ++ ['!'] ≠ a ++ '!' :: '!' :: b)

end Spec

open Spec

theorem writing_dst {fs : Fs} {i : Input} {c : Content} {s : Fs} (h : s ∈ writing fs i c) : s.dst = fs.dst ∧ s.mode = fs.mode := by
  obtain ⟨t, _, rfl⟩ := List.mem_map.mp h
  exact ⟨rfl, rfl⟩

theorem grow_prefix {c d : Content} {f : Option Nat} (h : d ∈ grow c f) : d <+: c := by
  obtain ⟨k, _, rfl⟩ := List.mem_map.mp h
  exact List.take_prefix k c

/-- **C129**: if nothing fails, the compiled file has the new content and the mode of the source at the end, and the temporary file is gone. -/
theorem C129_done (fs : Fs) (i : Input) (c : Content) (h : Works i c) :
    (compileFile fs i).2 = .ok ∧ final fs i = some { dst := some c, mode := i.srcMode, temp := none } := by
  obtain ⟨h1, h2, h3, h5, h4⟩ := h
  refine ⟨by simp [compileFile, h1, h2, h3, h4], ?_⟩
  simp only [final, compileFile, kept, h1, h2, h3, h4, h5, Bool.not_true, Bool.false_eq_true, if_false, Option.isSome_none]
  rw [List.getLast?_append]
  rfl

/-- **C129**: if the source can't be compiled, or its result not be written to the temporary file, the compiled file is as before at all times, and no temporary file
is left at the end. -/
theorem C129_early (fs : Fs) (i : Input) (h : Early i) (ht : fs.temp = none) :
    (compileFile fs i).2 ≠ .ok ∧ (∀ s ∈ (compileFile fs i).1, s.dst = fs.dst ∧ s.mode = fs.mode) ∧ final fs i = some fs := by
  have he : ({ fs with temp := none } : Fs) = fs := by rw [← ht]
  unfold final compileFile
  cases hc : i.compiled with
  | none => exact ⟨by simp, by simp, rfl⟩
  | some c =>
    cases hto : i.tempOpens with
    | false => exact ⟨by simp, by simp, rfl⟩
    | true =>
      have hw : i.writeFails.isSome = true := by
        rcases h with h | h | h
        · rw [hc] at h; cases h
        · rw [hto] at h; cases h
        · exact h
      simp only [Bool.not_true, Bool.false_eq_true, if_false, hw, if_true, he]
      refine ⟨by simp, fun s hs => ?_, by rw [List.getLast?_append]; rfl⟩
      rcases List.mem_append.mp hs with hs | hs
      · rcases List.mem_cons.mp hs with rfl | hs
        · exact ⟨rfl, rfl⟩
        · exact writing_dst hs
      · rw [List.mem_singleton.mp hs]
        exact ⟨rfl, rfl⟩

/-- **C129**, partial: whenever the system stops, the compiled file is as before, or a beginning of the new content; in the latter case the temporary file has all of
it, unless copying failed or all is done. -/
theorem C129_stop_partial (fs : Fs) (i : Input) (c : Content) (h : i.compiled = some c) (hf : i.closeFails = none) (s : Fs) (hs : s ∈ (compileFile fs i).1) :
    s.dst = fs.dst ∨ ∃ d, s.dst = some d ∧ d <+: c ∧ (s.temp = some c ∨ i.copyFails.isSome ∨ d = c) := by
  unfold compileFile at hs
  simp only [h, kept, hf] at hs
  split at hs
  · rw [List.mem_singleton.mp hs]; exact Or.inl rfl
  · have hww : s ∈ fs :: writing fs i c → s.dst = fs.dst := fun hs => by
      rcases List.mem_cons.mp hs with rfl | hs
      · rfl
      · exact (writing_dst hs).1
    split at hs
    · rcases List.mem_append.mp hs with hs | hs
      · exact Or.inl (hww hs)
      · rw [List.mem_singleton.mp hs]; exact Or.inl rfl
    · have hcc : s ∈ fs :: writing fs i c ++ { fs with temp := some c } :: copying { fs with temp := some c } i c →
          s.dst = fs.dst ∨ ∃ d, s.dst = some d ∧ d <+: c ∧ (s.temp = some c ∨ i.copyFails.isSome ∨ d = c) := fun hs => by
        rcases List.mem_append.mp hs with hs | hs
        · exact Or.inl (hww hs)
        rcases List.mem_cons.mp hs with rfl | hs
        · exact Or.inl rfl
        · obtain ⟨d, hd, rfl⟩ := List.mem_map.mp hs
          exact Or.inr ⟨d, rfl, grow_prefix hd, Or.inl rfl⟩
      split at hs
      · rename_i k hk
        rcases List.mem_append.mp hs with hs | hs
        · exact hcc hs
        · rw [List.mem_singleton.mp hs]
          exact Or.inr ⟨_, rfl, List.take_prefix k c, Or.inr (Or.inl (by rw [hk]; rfl))⟩
      · rcases List.mem_append.mp hs with hs | hs
        · exact hcc hs
        · simp only [List.mem_cons, List.not_mem_nil, or_false] at hs
          rcases hs with rfl | rfl
          · exact Or.inr ⟨c, rfl, List.prefix_refl c, Or.inl rfl⟩
          · exact Or.inr ⟨c, rfl, List.prefix_refl c, Or.inr (Or.inr rfl)⟩

/-- **C129**, violated: if the system stops during the copy, the compiled file has neither the old nor the new content; nor has it after an error of the copy. -/
theorem C129_stop_violated :
    (∃ s ∈ (compileFile { dst := some [7, 8] } { compiled := some [1, 2, 3] }).1, s.dst = some [1]) ∧
      final { dst := some [7, 8] } { compiled := some [1, 2, 3], copyFails := some 1 } = some { dst := some [1] } := by decide +kernel

/-- **C129**, violated: if what is in the buffer can't be written when the temporary file is closed, `compile-file` succeeds with a part of the content. -/
theorem C129_close_violated : (compileFile { dst := none } { compiled := some [1, 2, 3], closeFails := some 1 }).2 = .ok ∧
    final { dst := none } { compiled := some [1, 2, 3], closeFails := some 1 } = some { dst := some [1] } := by decide +kernel

theorem header_simple (h rest : List Char) (hs : Simple h) : header (h ++ '!' :: '#' :: rest) = (h ++ ['!', '#'], rest) := by
  match h, hs with
  | [], _ => simp [header]
  | [c], hs =>
    have hc : c ≠ '!' := fun e => hs.2 [] [] (by rw [e]; rfl)
    simp [header, hc]
  | c :: d :: s, hs =>
    have tail : ∀ {x : Char} {l : List Char}, Simple (x :: l) → Simple l := fun {x l} hs =>
      ⟨fun a b e => hs.1 (x :: a) b (by rw [e]; rfl), fun a b e => hs.2 (x :: a) b (by rw [List.cons_append, e]; rfl)⟩
    rw [List.cons_append, List.cons_append, header]
    by_cases hc : c = '!'
    · have hd : d ≠ '#' := fun e => hs.1 [] s (by rw [hc, e]; rfl)
      rw [if_pos hc, if_neg hd, header_simple s rest (tail (tail hs))]
      rfl
    · have := header_simple (d :: s) rest (tail hs)
      rw [List.cons_append] at this
      rw [if_neg hc, this]
      rfl

/-- **C129**, partial: a header is kept apart from the program, which is compiled. -/
theorem C129_header_partial (h rest : List Char) (hs : Simple h) :
    split ('#' :: '!' :: h ++ '!' :: '#' :: rest) = (some ('#' :: '!' :: h ++ ['!', '#']), rest) := by
  simp only [split, List.cons_append, header_simple h rest hs]

/-- **C129**: a file without header is compiled as it is. -/
theorem C129_no_header (s : List Char) (h : ∀ r, s ≠ '#' :: '!' :: r) : split s = (none, s) := by
  unfold split
  split
  · rename_i r; exact absurd rfl (h r)
  · rfl

def odd : List Char := "#!/bin/rep -q!!#(foo)".toList

/-- **C129**, violated: if an exclamation mark comes before the end of the header, the end isn't seen, and nothing of the program is compiled. -/
theorem C129_header_violated : split odd = (some odd, []) := by decide +kernel

/-! ### The hypotheses are met -/

example : Works { compiled := some [1, 2, 3], srcMode := 420 } [1, 2, 3] := ⟨rfl, rfl, rfl, rfl, rfl⟩
example : Early { compiled := some [1, 2, 3], writeFails := some 2 } := Or.inr (Or.inr rfl)

def line : List Char := "/bin/rep\n".toList

example : split ("#!".toList ++ line ++ "!#(foo)".toList) = (some ("#!".toList ++ line ++ "!#".toList), "(foo)".toList) := by decide +kernel

theorem simple_of {h : List Char} (hn : '!' ∉ h) : Simple h := by
  refine ⟨fun a b e => hn (by rw [e]; simp), fun a b e => ?_⟩
  have := congrArg (List.count '!') e
  rw [List.count_append, List.count_append, List.count_eq_zero_of_not_mem hn, List.count_cons_self, List.count_cons_self] at this
  simp at this
  omega

example : Simple line := simple_of (by decide)

end Rep.CompFile
