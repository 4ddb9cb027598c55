/-
`copy-file` of local files (src/unix_files.c): the loop over `read` and `write`, for
every way these calls may behave.
-/
import Mathlib.Tactic.ByContra

namespace Rep.Copy

/-- The file system: names lead to files (several may lead to one), a file has bytes and
modes.  Simplification: regular files only; nobody else changes them meanwhile. -/
structure Fs where
  names : String → Option Nat
  data : Nat → List UInt8
  modes : Nat → Nat
  next : Nat

/-- How the system calls behave: whether the files can be opened, whether `fstat` and
`chmod` work, and what the n-th `read` and `write` do.  `none`: they fail; `some m`:
at most `m + 1` bytes are read, at most `m` are written. -/
structure Os where
  openSrc : Bool
  openDst : Bool
  fstat : Bool
  chmod : Bool
  read : Nat → Option Nat
  write : Nat → Option Nat

/-- `BUFSIZ`. -/
def bufsiz : Nat := 8192

/-- `read` at an offset: no bytes at the end of the file only. -/
def readAt (os : Os) (i : Nat) (bytes : List UInt8) (pos : Nat) : Option (List UInt8) :=
  (os.read i).map fun m => (bytes.drop pos).take (min (m + 1) bufsiz)

/-- `write` at an offset: the file, and how many bytes were written. -/
def writeAt (os : Os) (i : Nat) (file : List UInt8) (pos : Nat) (buf : List UInt8) :
    List UInt8 × Option Nat :=
  match os.write i with
  | none => (file, none)
  | some m =>
    let k := min m buf.length
    (file.take pos ++ buf.take k ++ file.drop (pos + k), some k)

def setData (fs : Fs) (f : Nat) (bytes : List UInt8) : Fs :=
  { fs with data := fun g => if g = f then bytes else fs.data g }

/-- The loop (unix_files.c:342-357).  `rp`, `wp`: the positions of the two files.
`none`: the fuel did not suffice; otherwise whether there was no error. -/
def loop (os : Os) (src dst : Nat) : Nat → Nat → Nat → Nat → Fs → Option (Bool × Fs)
  | 0, _, _, _, _ => none
  | n + 1, i, rp, wp, fs =>
    match readAt os i (fs.data src) rp with
    | none => some (false, fs)
    | some buf =>
      let r := writeAt os i (fs.data dst) wp buf
      let fs := setData fs dst r.1
      if r.2 ≠ some buf.length then some (false, fs)
      else if buf.length ≠ 0 then
        loop os src dst n (i + 1) (rp + buf.length) (wp + buf.length) fs
      else some (true, fs)

/-- `open(dst, O_WRONLY | O_CREAT | O_TRUNC, 0666)`. -/
def openDst (fs : Fs) (dst : String) : Nat × Fs :=
  match fs.names dst with
  | some f => (f, setData fs f [])
  | none => (fs.next,
      { names := fun s => if s = dst then some fs.next else fs.names s,
        data := fun g => if g = fs.next then [] else fs.data g,
        modes := fun g => if g = fs.next then 0o644 else fs.modes g,
        next := fs.next + 1 })

/-- `rep_copy_file` (unix_files.c:327-367). -/
def copyFile (os : Os) (fuel : Nat) (fs : Fs) (src dst : String) : Option (Bool × Fs) :=
  match fs.names src with
  | none => some (false, fs)
  | some s =>
    if !os.openSrc then some (false, fs)
    else if !os.openDst then some (false, fs)
    else
      let (d, fs) := openDst fs dst
      let fs := if os.fstat && os.chmod then
        { fs with modes := fun g => if g = d then fs.modes s else fs.modes g } else fs
      loop os s d fuel 0 0 0 fs

/-! ### Specification and proofs -/

/-- The numbers in use. -/
def Ok (fs : Fs) : Prop := ∀ s f, fs.names s = some f → f < fs.next

/-- Everything about the files but the contents of `d` is the same. -/
def SameBut (d : Nat) (a b : Fs) : Prop :=
  a.names = b.names ∧ a.modes = b.modes ∧ a.next = b.next ∧ ∀ g, g ≠ d → a.data g = b.data g

theorem bufsiz_pos : 0 < bufsiz := by decide

theorem readAt_some {os : Os} {i p : Nat} {bytes buf : List UInt8}
    (h : readAt os i bytes p = some buf) : ∃ c, 0 < c ∧ buf = (bytes.drop p).take c := by
  unfold readAt at h
  obtain ⟨m, _, e⟩ := Option.map_eq_some_iff.1 h
  exact ⟨_, Nat.lt_min.2 ⟨Nat.succ_pos m, bufsiz_pos⟩, e.symm⟩

theorem loop_spec (os : Os) {s d : Nat} (ne : s ≠ d) : ∀ (fuel i p : Nat) (fs : Fs),
    fs.data d = (fs.data s).take p → p ≤ (fs.data s).length → (fs.data s).length - p < fuel →
    ∃ ok fs', loop os s d fuel i p p fs = some (ok, fs') ∧ SameBut d fs fs' ∧
      fs'.data d <+: fs.data s ∧ (ok = true → fs'.data d = fs.data s)
  | 0, _, _, _, _, _, h => by omega
  | fuel + 1, i, p, fs, hd, hp, hf => by
    simp only [loop]
    rcases hr : readAt os i (fs.data s) p with _ | buf
    · exact ⟨false, fs, rfl, ⟨rfl, rfl, rfl, fun _ _ => rfl⟩, by rw [hd]; exact List.take_prefix _ _,
        (fun h => by cases h)⟩
    · simp only
      obtain ⟨c, hz, hb⟩ := readAt_some hr
      have hpre : ∀ k, (fs.data s).take p ++ buf.take k = (fs.data s).take (p + min k c) := by
        intro k
        rw [hb, List.take_take, ← List.take_add]
      have hlen : (fs.data d).length = p := by rw [hd]; simp; omega
      have hdrop : ∀ k, (fs.data d).drop (p + k) = [] := fun k =>
        List.drop_eq_nil_of_le (by omega)
      have htake : (fs.data d).take p = (fs.data s).take p := by
        rw [hd, List.take_take, Nat.min_self]
      have hbl : buf.length = min c ((fs.data s).length - p) := by
        rw [hb]; simp
      rcases hw : os.write i with _ | w
      · have e1 : writeAt os i (fs.data d) p buf = (fs.data d, none) := by simp [writeAt, hw]
        rw [e1]
        refine ⟨false, setData fs d (fs.data d), by simp,
          ⟨rfl, rfl, rfl, fun g hg => by simp [setData, hg]⟩, ?_, (fun h => by cases h)⟩
        simp only [setData, if_true]
        rw [hd]; exact List.take_prefix _ _
      · have e1 : writeAt os i (fs.data d) p buf =
            ((fs.data s).take p ++ buf.take (min w buf.length), some (min w buf.length)) := by
          simp only [writeAt, hw, hdrop, List.append_nil, htake]
        rw [e1]
        by_cases full : min w buf.length = buf.length
        · by_cases z : buf.length = 0
          · have : buf = [] := List.length_eq_zero_iff.1 z
            subst this
            have e0 : (fs.data s).length ≤ p := by
              simp only [List.length_nil] at hbl
              omega
            refine ⟨true, setData fs d ((fs.data s).take p), by simp, ⟨rfl, rfl, rfl, fun g hg => by simp [setData, hg]⟩, ?_, ?_⟩
            · simp only [setData, if_true]; exact List.take_prefix _ _
            · intro _
              simp only [setData, if_true]
              exact List.take_of_length_le e0
          · simp only [full, ne_eq, not_true_eq_false, if_false, z, not_false_eq_true, if_true]
            have ss : (setData fs d ((fs.data s).take p ++ buf.take buf.length)).data s = fs.data s := by
              simp [setData, ne]
            have sd : (setData fs d ((fs.data s).take p ++ buf.take buf.length)).data d =
                (fs.data s).take (p + buf.length) := by
              simp only [setData, if_true]
              rw [hpre]
              rcases Nat.le_total c ((fs.data s).length - p) with l | l
              · rw [hbl, Nat.min_eq_left l, Nat.min_self]
              · rw [List.take_of_length_le (by omega), List.take_of_length_le (by omega)]
            obtain ⟨ok, fs', e, k1, k2, k3⟩ := loop_spec os ne fuel (i + 1) (p + buf.length)
              (setData fs d ((fs.data s).take p ++ buf.take buf.length))
              (by rw [sd, ss]) (by rw [ss]; omega) (by rw [ss]; omega)
            rw [ss] at k2 k3
            refine ⟨ok, fs', e, ⟨k1.1, k1.2.1, k1.2.2.1, fun g hg => ?_⟩, k2, k3⟩
            rw [← k1.2.2.2 g hg]; simp [setData, hg]
        · have : (some (min w buf.length) : Option Nat) ≠ some buf.length := by simpa using full
          simp only [this, ne_eq, not_false_eq_true, if_true]
          refine ⟨false, _, rfl, ⟨rfl, rfl, rfl, fun g hg => by simp [setData, hg]⟩, ?_,
            (fun h => by cases h)⟩
          simp only [setData, if_true]
          rw [hpre]; exact List.take_prefix _ _

/-- C86 (two different files): `copy-file` comes to an end, however short the reads are
and wherever a call fails.  If it returns, the destination has the contents (and, unless
`chmod` failed, the modes) of the source; if it signals an error, the destination is
what it was, or has a beginning of the contents.  The source and all other files keep
their contents, names and modes. -/
theorem C86_copy_partial (os : Os) (fs : Fs) (ok : Ok fs) (src dst : String) {s : Nat}
    (hs : fs.names src = some s) (ne : fs.names dst ≠ some s) :
    ∃ r fs', copyFile os ((fs.data s).length + 1) fs src dst = some (r, fs') ∧
      (r = true → ∃ d, fs'.names dst = some d ∧ fs'.data d = fs.data s ∧
        (os.fstat = true → os.chmod = true → fs'.modes d = fs.modes s)) ∧
      (r = false → fs' = fs ∨ ∃ d, fs'.names dst = some d ∧ fs'.data d <+: fs.data s) ∧
      (∀ name, name ≠ dst → fs'.names name = fs.names name) ∧
      (∀ name f, fs.names name = some f → fs.names dst ≠ some f →
        fs'.data f = fs.data f ∧ fs'.modes f = fs.modes f) := by
  simp only [copyFile, hs]
  by_cases o1 : os.openSrc = true
  case neg =>
    have o1 : os.openSrc = false := by simpa using o1
    exact ⟨false, fs, by simp [o1], (fun h => by cases h), fun _ => .inl rfl,
      fun _ _ => rfl, fun _ _ _ _ => ⟨rfl, rfl⟩⟩
  by_cases o2 : os.openDst = true
  case neg =>
    have o2 : os.openDst = false := by simpa using o2
    exact ⟨false, fs, by simp [o1, o2], (fun h => by cases h), fun _ => .inl rfl,
      fun _ _ => rfl, fun _ _ _ _ => ⟨rfl, rfl⟩⟩
  simp only [o1, o2, Bool.not_true, Bool.false_eq_true, if_false]
  -- the destination, emptied
  have hopen : ∃ d fs1, openDst fs dst = (d, fs1) ∧ d ≠ s ∧ fs1.names dst = some d ∧
      fs1.data d = [] ∧ fs1.data s = fs.data s ∧ fs1.modes s = fs.modes s ∧
      (∀ name, name ≠ dst → fs1.names name = fs.names name) ∧
      (∀ name f, fs.names name = some f → fs.names dst ≠ some f →
        f ≠ d ∧ fs1.data f = fs.data f ∧ fs1.modes f = fs.modes f) := by
    rcases hd : fs.names dst with _ | d
    · refine ⟨fs.next, _, by simp only [openDst, hd]; rfl, ?_, by simp, by simp, ?_, ?_, ?_, ?_⟩
      · have := ok src s hs; omega
      · have := ok src s hs; simp; omega
      · have := ok src s hs; simp; omega
      · intro name hn; simp [hn]
      · intro name f hf _
        have := ok name f hf
        exact ⟨by omega, by simp; omega, by simp; omega⟩
    · have nd : d ≠ s := fun e => ne (by rw [hd, e])
      refine ⟨d, setData fs d [], by simp only [openDst, hd], nd, hd, by simp [setData], ?_, rfl,
        fun _ _ => rfl, ?_⟩
      · simp [setData, nd.symm]
      · intro name f hf hn
        have : f ≠ d := fun e => hn (by rw [e])
        exact ⟨this, by simp [setData, this], rfl⟩
  obtain ⟨d, fs1, e1, nd, h1, h2, h3, h4, h5, h6⟩ := hopen
  rw [e1]
  simp only
  -- with the modes
  have hmode : ∃ fs2, (if (os.fstat && os.chmod) = true then
      { fs1 with modes := fun g => if g = d then fs1.modes s else fs1.modes g } else fs1) = fs2 ∧
      fs2.names = fs1.names ∧ fs2.data = fs1.data ∧ (∀ g, g ≠ d → fs2.modes g = fs1.modes g) ∧
      (os.fstat = true → os.chmod = true → fs2.modes d = fs1.modes s) := by
    by_cases q : (os.fstat && os.chmod) = true
    · exact ⟨_, if_pos q, rfl, rfl, fun g hg => by simp [hg], fun _ _ => by simp⟩
    · exact ⟨fs1, if_neg q, rfl, rfl, fun g hg => rfl, fun a b => absurd (by simp [a, b]) q⟩
  obtain ⟨fs2, e2, n2, dd2, m2, md2⟩ := hmode
  rw [e2]
  obtain ⟨r, fs', e, ⟨k1, k2, _, k3⟩, k4, k5⟩ := loop_spec os (Ne.symm nd) ((fs.data s).length + 1) 0 0 fs2
    (by rw [dd2, h2]; simp) (by omega) (by rw [dd2, h3]; omega)
  rw [dd2, h3] at k4 k5
  refine ⟨r, fs', e, fun hr => ⟨d, by rw [← k1, n2, h1], k5 hr, fun a b => ?_⟩,
    fun _ => .inr ⟨d, by rw [← k1, n2, h1], k4⟩, fun name hn => by rw [← k1, n2, h5 name hn],
    fun name f hf hn => ?_⟩
  · rw [← k2, md2 a b, h4]
  · obtain ⟨q1, q2, q3⟩ := h6 name f hf hn
    exact ⟨by rw [← k3 f q1, dd2, q2], by rw [← k2, m2 f q1, q3]⟩

/-- System calls without errors. -/
def fair : Os := ⟨true, true, true, true, fun _ => some 8191, fun _ => some 8192⟩

/-- C86 is violated: copying a file to itself, by whatever names, empties it; no error
is signalled. -/
theorem C86_same_file_violated (fs : Fs) (src dst : String) {s : Nat}
    (hs : fs.names src = some s) (hd : fs.names dst = some s) :
    ∃ fs', copyFile fair 1 fs src dst = some (true, fs') ∧ fs'.data s = [] := by
  have e : copyFile fair 1 fs src dst =
      loop fair s s 1 0 0 0 { setData fs s [] with
        modes := fun g => if g = s then (setData fs s []).modes s else (setData fs s []).modes g } := by
    simp only [copyFile, hs, openDst, hd]
    rfl
  rw [e]
  generalize hg : ({ setData fs s [] with
        modes := fun g => if g = s then (setData fs s []).modes s else (setData fs s []).modes g } :
        Fs) = fs1
  have h0 : fs1.data s = [] := by rw [← hg]; simp [setData]
  refine ⟨setData fs1 s [], ?_, by simp [setData]⟩
  have r : readAt fair 0 [] 0 = some [] := by simp [readAt, fair]
  have w : writeAt fair 0 [] 0 [] = ([], some 0) := by simp [writeAt, fair]
  simp [loop, h0, r, w]

/-- C86 is violated: after an error the old contents of the destination are lost. -/
theorem C86_error_violated :
    ∃ r, copyFile { fair with write := fun _ => some 1 } 5
      ⟨fun s => if s = "a" then some 0 else if s = "b" then some 1 else none,
       fun f => if f = 0 then [1, 2, 3] else [9, 9], fun _ => 0o600, 2⟩ "a" "b" = some (false, r) ∧
      r.data 1 = [1] := by
  refine ⟨_, rfl, by decide⟩

/-- A copy in pieces of two bytes. -/
example : ∃ r, copyFile { fair with read := fun _ => some 1 } 4
      ⟨fun s => if s = "a" then some 0 else none,
       fun f => if f = 0 then [1, 2, 3] else [], fun _ => 0o600, 1⟩ "a" "b" = some (true, r) ∧
      r.names "b" = some 1 ∧ r.data 1 = [1, 2, 3] ∧ r.modes 1 = 0o600 := by
  refine ⟨_, rfl, by decide, by decide, by decide⟩
example : Ok ⟨fun s => if s = "a" then some 0 else none,
    fun f => if f = 0 then [1, 2, 3] else [], fun _ => 0o600, 1⟩ := by
  intro s f h
  simp only at h
  split at h
  · cases h; decide
  · cases h

end Rep.Copy
