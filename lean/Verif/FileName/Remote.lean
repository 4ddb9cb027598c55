import Verif.FileName.RemoteModel
import Verif.FileName.Props
import Mathlib.Tactic.Common
/-!
# Names of files on other machines (C116)
-/
namespace Rep.FileName.Remote

/-! ### What such a name is -/

/-- A name of a user or of a machine. -/
def Word (w : Str) : Prop := w ≠ [] ∧ ∀ c ∈ w, c.isAlphanum = true ∨ c = '.' ∨ c = '_' ∨ c = '-'

/-- The text names the file `f` of the machine `h`, perhaps with a user. -/
def Names (u : Option Str) (h f s : Str) : Prop :=
  (∀ v, u = some v → Word v) ∧ Word h ∧
    s = match u with
      | none => ['/'] ++ h ++ [':'] ++ f
      | some v => ['/'] ++ v ++ ['@'] ++ h ++ [':'] ++ f

/-! ### The scanner -/

theorem inSet_iff (c : Char) : inSet c = true ↔ c.isAlphanum = true ∨ c = '.' ∨ c = '_' ∨ c = '-' := by
  have e : c.isAlphanum = true ↔ (97 ≤ c.toNat ∧ c.toNat ≤ 122) ∨ (65 ≤ c.toNat ∧ c.toNat ≤ 90) ∨ (48 ≤ c.toNat ∧ c.toNat ≤ 57) := by
    simp only [Char.isAlphanum, Char.isAlpha, Char.isUpper, Char.isLower, Char.isDigit, Char.toNat, Bool.or_eq_true, decide_eq_true_eq,
      Bool.and_eq_true, UInt32.le_iff_toNat_le, ge_iff_le]
    constructor
    · rintro ((h | h) | h)
      · right; left; exact h
      · left; exact h
      · right; right; exact h
    · rintro (h | h | h)
      · left; right; exact h
      · left; left; exact h
      · right; exact h
  simp only [inSet, Bool.or_eq_true, Bool.and_eq_true, decide_eq_true_eq, beq_iff_eq, e, or_assoc]

theorem word_iff (w : Str) : Word w ↔ w ≠ [] ∧ ∀ c ∈ w, inSet c = true := by
  unfold Word
  constructor
  · rintro ⟨h, h'⟩; exact ⟨h, fun c hc => (inSet_iff c).mpr (h' c hc)⟩
  · rintro ⟨h, h'⟩; exact ⟨h, fun c hc => (inSet_iff c).mp (h' c hc)⟩

theorem take_word {w : Str} (hw : ∀ c ∈ w, inSet c = true) {c : Char} (hc : inSet c = false) (r : Str) :
    (w ++ c :: r).takeWhile inSet = w ∧ (w ++ c :: r).dropWhile inSet = c :: r := by
  induction w with
  | nil => simp [List.takeWhile, List.dropWhile, hc]
  | cons a w ih =>
    have ha := hw a (List.mem_cons_self ..)
    obtain ⟨h1, h2⟩ := ih (fun c hc => hw c (List.mem_cons_of_mem _ hc))
    simp only [List.cons_append, List.takeWhile_cons, List.dropWhile_cons, ha, if_true, h1, h2, and_self]

theorem mem_take {c : Char} {s : Str} (h : c ∈ s.takeWhile inSet) : inSet c = true := by
  induction s with
  | nil => cases h
  | cons a s ih =>
    rw [List.takeWhile_cons] at h
    split at h
    · rename_i ha
      rcases List.mem_cons.mp h with rfl | h
      · exact ha
      · exact ih h
    · cases h

theorem hostPart_iff (s h f : Str) : hostPart s = some (h, f) ↔ Word h ∧ s = h ++ ':' :: f := by
  rw [word_iff]
  constructor
  · intro he
    unfold hostPart at he
    split at he
    · cases he
    · rename_i hne
      split at he
      · rename_i r hr
        simp only [Option.some.injEq, Prod.mk.injEq] at he
        obtain ⟨rfl, rfl⟩ := he
        refine ⟨⟨hne, fun c hc => mem_take hc⟩, ?_⟩
        rw [← hr, List.takeWhile_append_dropWhile]
      · cases he
  · rintro ⟨⟨hne, hw⟩, rfl⟩
    obtain ⟨h1, h2⟩ := take_word hw (c := ':') (by decide) f
    unfold hostPart
    rw [h1, h2, if_neg hne]
    rfl

/-- C116: a name is taken apart exactly if it is a name of a remote file, and into the user, the machine and the file which it is made of. -/
theorem C116_split (s : Str) (u : Option Str) (h f : Str) : split s = some ⟨u, h, f⟩ ↔ Names u h f s := by
  constructor
  · intro he
    unfold split at he
    split at he
    · rename_i r
      split at he
      · rename_i r' hr
        split at he
        · cases he
        · rename_i hne
          split at he
          · rename_i h' f' hh
            simp only [Option.some.injEq, Split.mk.injEq] at he
            obtain ⟨rfl, rfl, rfl⟩ := he
            obtain ⟨hw, rfl⟩ := (hostPart_iff _ _ _).mp hh
            refine ⟨?_, hw, ?_⟩
            · intro v hv
              cases hv
              exact (word_iff _).mpr ⟨hne, fun c hc => mem_take hc⟩
            · have : r = r.takeWhile inSet ++ r.dropWhile inSet := (List.takeWhile_append_dropWhile).symm
              rw [hr] at this
              simp only [List.append_assoc, List.cons_append, List.nil_append]
              rw [← this]
          · cases he
      · split at he
        · rename_i h' f' hh
          simp only [Option.some.injEq, Split.mk.injEq] at he
          obtain ⟨rfl, rfl, rfl⟩ := he
          obtain ⟨hw, rfl⟩ := (hostPart_iff _ _ _).mp hh
          exact ⟨fun v hv => (by cases hv), hw, by simp⟩
        · cases he
    · cases he
  · rintro ⟨hu, hh, hs⟩
    cases u with
    | none =>
      simp only at hs
      subst hs
      obtain ⟨h1, h2⟩ := take_word ((word_iff h).mp hh).2 (c := ':') (by decide) f
      have hp := (hostPart_iff (h ++ ':' :: f) h f).mpr ⟨hh, rfl⟩
      simp only [List.append_assoc, List.cons_append, List.nil_append, split, h2, hp]
      rfl
    | some v =>
      simp only at hs
      subst hs
      have hv := hu v rfl
      obtain ⟨h1, h2⟩ := take_word ((word_iff v).mp hv).2 (c := '@') (by decide) (h ++ ':' :: f)
      have hp := (hostPart_iff (h ++ ':' :: f) h f).mpr ⟨hh, rfl⟩
      simp only [List.append_assoc, List.cons_append, List.nil_append, split, h1, h2, hp, if_neg hv.1]

/-- C116: the parts put together again are the name. -/
theorem C116_join {s : Str} {u : Option Str} {h f : Str} (hn : Names u h f s) (g : Str) :
    join u h f = s ∧ Names u h g (join u h g) := by
  obtain ⟨h1, h2, h3⟩ := hn
  constructor
  · rw [h3]; cases u <;> simp [join]
  · refine ⟨h1, h2, ?_⟩
    cases u <;> simp [join]

theorem join_append (u : Option Str) (h f g : Str) : join u h f ++ g = join u h (f ++ g) := by
  cases u <;> simp [join]

/-- C116: the directory of a remote file is on the same machine, and together with the rest it is the name. -/
theorem C116_parts {s : Str} {u : Option Str} {h f : Str} (hn : Names u h f s) :
    directoryOp s ++ nondirectoryOp s = s ∧ '/' ∉ nondirectoryOp s ∧
      ∃ d, Names u h d (directoryOp s) ∧ (d = [] ∨ ∃ t, d = t ++ ['/']) := by
  have hs := (C116_split s u h f).mpr hn
  obtain ⟨h1, h2, h3⟩ := C60_directory_and_nondirectory f
  refine ⟨?_, ?_, directory f, ?_, h3⟩
  · simp only [directoryOp, nondirectoryOp, hs, join_append, h1]
    exact (C116_join hn f).1
  · simp only [nondirectoryOp, hs]; exact h2
  · simp only [directoryOp, hs]; exact (C116_join hn _).2

/-- C116: a remote name as the name of a directory, and as that of a file, leads to the same place of the same machine. -/
theorem C116_as_directory {s : Str} {u : Option Str} {h f : Str} (hn : Names u h f s) :
    (∃ d, Names u h d (asDirectoryOp s) ∧ place d = place f ∧ (d = [] ∨ ∃ t, d = t ++ ['/'])) ∧
    asDirectoryOp (asDirectoryOp s) = asDirectoryOp s ∧
    (∃ d, Names u h d (directoryFileNameOp s) ∧ place d = place f) ∧
    (f ≠ [] → (∀ t, f ≠ t ++ ['/']) → directoryFileNameOp (asDirectoryOp s) = s) := by
  have hs := (C116_split s u h f).mpr hn
  obtain ⟨h1, h2, h3, h4, h5⟩ := C60_as_directory f
  have ha : asDirectoryOp s = join u h (asDirectory f) := by
    simp only [asDirectoryOp, hs]
    by_cases hf : f = []
    · rw [if_pos hf, hf]; rfl
    · rw [if_neg hf]
  have hn' := (C116_join hn (asDirectory f)).2
  have hs' := (C116_split _ u h _).mpr hn'
  refine ⟨⟨asDirectory f, by rw [ha]; exact hn', h1, asDirectory_spec f⟩, ?_, ⟨directoryFileName f, ?_, h4⟩, ?_⟩
  · rw [ha]
    simp only [asDirectoryOp, hs', h3]
    by_cases hf : asDirectory f = []
    · rw [if_pos hf, hf]
    · rw [if_neg hf]
  · simp only [directoryFileNameOp, hs]; exact (C116_join hn _).2
  · intro hf hl
    rw [ha]
    simp only [directoryFileNameOp, hs', h5 hf hl]
    exact (C116_join hn f).1

theorem split_none_of_head {s : Str} (h : ∀ t, s ≠ '/' :: t) : split s = none := by
  unfold split
  split
  · rename_i r; exact absurd rfl (h r)
  · rfl

theorem atDir_head {s dir : Str} (hs : ∀ t, s ≠ '~' :: t) (hd : ∀ t, dir ≠ '~' :: t) : ∀ t, atDir s dir ≠ '~' :: t := by
  intro t
  unfold atDir
  split
  · exact hs t
  · split
    · rename_i hl
      cases dir with
      | nil => simp [asDirectory, filePart] at hl
      | cons a r =>
        have : ∃ r', asDirectory (a :: r) = a :: r' := by
          unfold asDirectory
          split
          · exact ⟨r, rfl⟩
          · exact ⟨r ++ ['/'], rfl⟩
        obtain ⟨r', e⟩ := this
        rw [e]
        intro h
        injection h with h _
        exact hd r (by rw [h])
    · exact hs t

/-- The file part of a name in a remote directory. -/
theorem atDirOp_remote {dir name : Str} {u : Option Str} {h f : Str} (hn : Names u h f dir) (h1 : ∀ t, name ≠ '/' :: t)
    (h2 : ∀ t, name ≠ '~' :: t) : atDirOp name dir = join u h (atDir name f) := by
  have hs := (C116_split dir u h f).mpr hn
  have habs : absoluteP name = false := by
    cases name with
    | nil => rfl
    | cons c r =>
      simp only [absoluteP, Bool.or_eq_false_iff, beq_eq_false_iff_ne]
      exact ⟨fun e => h1 r (by rw [e]), fun e => h2 r (by rw [e])⟩
  have hop : absoluteOp name = false := by
    simp only [absoluteOp, split_none_of_head h1, habs]
  have ha : asDirectoryOp dir = join u h (asDirectory f) := by
    simp only [asDirectoryOp, hs]
    by_cases hf : f = []
    · rw [if_pos hf, hf]; rfl
    · rw [if_neg hf]
  unfold atDirOp
  rw [hop, ha]
  have hl : (join u h (asDirectory f)).length > 0 := by simp [join]
  simp only [Bool.false_eq_true, if_false, hl, if_true, join_append]
  congr 1
  unfold atDir
  rw [habs]
  simp only [Bool.false_eq_true, if_false]
  split
  · rfl
  · rename_i hh
    have : asDirectory f = [] := by
      cases hx : asDirectory f with
      | nil => rfl
      | cons a l => rw [hx] at hh; simp at hh
    rw [this, List.nil_append]

/-- Simple names are not changed. -/
theorem expand_again {t : Str} (hr : expandRaw t = .ok t) (ht : ∀ u, t ≠ '~' :: u) : expandFileName t ['.'] = .ok t := by
  by_cases ha : absoluteP t = true
  · rw [expandFileName_raw t _ (by unfold atDir; rw [if_pos ha]; exact ht)]
    unfold atDir
    rw [if_pos ha, hr]
  · have e : atDir t ['.'] = '.' :: '/' :: t := by
      unfold atDir
      rw [if_neg ha]
      rfl
    rw [expandFileName_raw t _ (by rw [e]; intro u h; injection h with h _; exact absurd h (by decide)), e]
    have hns : ∀ u, t ≠ '/' :: u := by
      rintro u rfl; exact ha rfl
    have hst : strip ('/' :: t) = t := by
      have : strip ('/' :: t) = strip t := by simp [strip]
      rw [this, strip_id hns]
    rw [← hr]
    unfold expandRaw
    rw [ev_dot, hst]

/-- C116: a relative name in a directory of another machine is expanded to the name of the place it leads to on that machine, for the same user;
nothing in it is left to simplify, and expanding it again doesn't change it. Missing are names and directories which begin with `~`, and those
longer than the buffer. -/
theorem C116_expand_partial {dir name base : Str} {u : Option Str} {h f : Str} (hn : Names u h f dir) (h1 : ∀ t, name ≠ '/' :: t)
    (h2 : ∀ t, name ≠ '~' :: t) (hf : ∀ t, f ≠ '~' :: t) (hlen : f.length + name.length + 3 ≤ 4096) :
    ∃ t r, expandOp name dir = .ok r ∧ Names u h t r ∧ place t = (place f).go name ∧ Simple t ∧
      ((∀ v, t ≠ '~' :: v) → expandOp r base = .ok r) := by
  have hal : (atDir name f).length ≤ f.length + 1 + name.length := by
    have hdl : (asDirectory f).length ≤ f.length + 1 := by
      unfold asDirectory
      split
      · omega
      · simp
    unfold atDir
    split
    · omega
    · split
      · rw [List.length_append]; omega
      · omega
  obtain ⟨t, e1, e2, e3, _, _, e6, _⟩ := C60_expand_file_name_partial (atDir name f) ['.'] [] (atDir_head h2 hf)
    (fun t e => by injection e with e _; exact absurd e (by decide)) (by simp only [List.length_singleton]; omega)
  have hn' := (C116_join hn (atDir name f)).2
  have ht := (C116_join hn t).2
  refine ⟨t, join u h t, ?_, ht, ?_, e3, ?_⟩
  · simp only [expandOp, atDirOp_remote hn h1 h2, (C116_split _ _ _ _).mpr hn', e1]
  · rw [e2, ← place_atDir name f h2]
    rfl
  · intro hv
    have hs := (C116_split _ _ _ _).mpr ht
    have : atDirOp (join u h t) base = join u h t := by
      simp only [atDirOp, absoluteOp, hs, if_true]
    simp only [expandOp, this, hs, expand_again e6 hv]

/-- C116: a remote name is expanded without regard to the directory. -/
theorem C116_absolute {s : Str} {u : Option Str} {h f : Str} (hn : Names u h f s) (dir dir' : Str) :
    absoluteOp s = true ∧ expandOp s dir = expandOp s dir' := by
  have hs := (C116_split s u h f).mpr hn
  have ha : absoluteOp s = true := by simp only [absoluteOp, hs]
  exact ⟨ha, by simp only [expandOp, atDirOp, ha, if_true]⟩

/-- C116: names which are not those of remote files are treated as before. -/
theorem C116_local {s dir : Str} (hs : ∀ u h f, ¬ Names u h f s) (hd : ∀ u h f, ¬ Names u h f dir) (ha : ∀ u h f, ¬ Names u h f (atDir s dir)) :
    directoryOp s = directory s ∧ nondirectoryOp s = nondirectory s ∧ asDirectoryOp s = asDirectory s ∧
      directoryFileNameOp s = directoryFileName s ∧ expandOp s dir = expandFileName s dir := by
  have e : ∀ s : Str, (∀ u h f, ¬ Names u h f s) → split s = none := by
    intro s hs
    cases hx : split s with
    | none => rfl
    | some p => exact absurd ((C116_split s p.user p.host p.file).mp hx) (hs _ _ _)
  have h1 := e s hs
  have h2 := e dir hd
  have h3 : atDirOp s dir = atDir s dir := by
    simp only [atDirOp, absoluteOp, h1, asDirectoryOp, h2, atDir]
  refine ⟨by simp only [directoryOp, h1], by simp only [nondirectoryOp, h1], by simp only [asDirectoryOp, h1],
    by simp only [directoryFileNameOp, h1], ?_⟩
  simp only [expandOp, h3, e _ ha, expandFileName]
  rfl

/-- C116 is wrong of local names: a file in the root directory whose name has a colon is taken for one on another machine once its name was
expanded. -/
theorem C116_local_violated :
    (∀ u h f, ¬ Names u h f "/./h:x".toList) ∧ expandOp "/./h:x".toList [] = .ok "/h:x".toList ∧
      Names none "h".toList "x".toList "/h:x".toList ∧
    (∀ u h f, ¬ Names u h f "h:x".toList) ∧ (∀ u h f, ¬ Names u h f "/".toList) ∧ expandOp "h:x".toList "/".toList = .ok "/h:x".toList := by
  have n : ∀ s : Str, split s = none → ∀ u h f, ¬ Names u h f s := by
    intro s hs u h f hn
    rw [(C116_split s u h f).mpr hn] at hs
    cases hs
  have hh : Names none "h".toList "x".toList "/h:x".toList := (C116_split _ _ _ _).mp (by decide +kernel)
  refine ⟨n _ (by decide +kernel), ?_, hh, n _ (by decide +kernel), n _ (by decide +kernel), ?_⟩
  · have h1 : split "/./h:x".toList = none := by decide +kernel
    have h2 : atDirOp "/./h:x".toList [] = "/./h:x".toList := by decide +kernel
    simp only [expandOp, h2, h1]
    simp [expandRaw, ev_dot, ev_comp, strip, put, pathMax]
  · have h2 : atDirOp "h:x".toList "/".toList = "/h:x".toList := by decide +kernel
    have h1 : split "/h:x".toList = some ⟨none, ['h'], ['x']⟩ := by decide +kernel
    simp only [expandOp, h2, h1]
    simp [expandFileName, atDir, asDirectory, filePart, absoluteP, expandRaw, ev_dot, ev_comp, strip, put, pathMax, join]

/-! ### Examples -/

example : split "/jo@a.b-c.org:dir/x".toList = some ⟨some "jo".toList, "a.b-c.org".toList, "dir/x".toList⟩ := by decide +kernel
example : split "/jo@:x".toList = none ∧ split "/@h:x".toList = none ∧ split "/a/b:x".toList = none ∧ split "/a@b@c:x".toList = none := by decide +kernel
example : Names (some "jo".toList) "a.org".toList "dir".toList "/jo@a.org:dir".toList := (C116_split _ _ _ _).mp (by decide +kernel)
example : directoryOp "/h:a/b".toList = "/h:a/".toList ∧ asDirectoryOp "/h:".toList = "/h:".toList ∧ asDirectoryOp "/h:a".toList = "/h:a/".toList := by
  decide +kernel
/-- The hypotheses of `C116_local` are met. -/
example : split "a/b".toList = none ∧ split "/usr".toList = none ∧ split (atDir "a/b".toList "/usr".toList) = none := by decide +kernel

end Rep.FileName.Remote
