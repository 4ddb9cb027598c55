import Verif.Stream.Input

/-
C65 and C66: streams kept in strings, and reading from files.
-/

namespace Rep.Stream

/-- C65.  A new string output stream accepts any sequence of writes and answers as specified: `write` returns the
number of characters written, and `get-output-stream-string` returns exactly the characters written since the last
time; the strings returned still hold those characters at the end of the history.
Missing: streams which come to hold a gigabyte (`C65_overflow_violated`), lengths which are no `int`
(`C65_length_violated`), and pairs made otherwise than by `make-string-output-stream` (`C65_pair_violated`). -/
theorem C65_output_partial (h : Heap) (os : List Op) (hs : Spec.Small [] os) :
    ∃ h0 s0 h' s' rs, makeOutput h = some (h0, s0) ∧ run h0 s0 os = some (h', s', rs) ∧
      List.Forall₂ (Agrees h') rs (Spec.run [] os).2 ∧ ∀ k, k < h.length → h'[k]? = h[k]? := by
  obtain ⟨st, e, i⟩ := inv_fresh h
  obtain ⟨h', s', rs, e', _, k, a⟩ := i.run os hs
  refine ⟨_, _, h', s', rs, by rw [makeOutput, e]; rfl, e', a, fun j hj => ?_⟩
  rw [(k.2 j (by simp; omega) (by show j ≠ h.length; omega)).1, List.getElem?_append_left hj]

/-- Two strings come out, and the second writes do not reach the first. -/
example : Spec.run [] [.char 104, .string [105, 0, 33] none, .take, .string [1, 2, 3] (some 2), .take, .take, .string [7] (some 2)] =
    ([], [.wrote 1, .wrote 3, .text [104, 105, 0, 33], .wrote 2, .text [1, 2], .text [], .refused]) := by decide

example : Spec.Small [] [.char 104, .string [105, 0, 33] none, .take, .string [1, 2, 3] (some 2), .take, .take, .string [7] (some 2)] := by
  simp [Spec.Small, Spec.step, Spec.Op.sane]

theorem int_no {z : Int} (h : 2147483648 ≤ z) : int z = none := if_neg (by omega)

theorem overflow (h : Heap) (bs : List Byte) (n : Nat) (hb : bs.length = n) (hn : n = 1073741823) :
    ∃ h0 s0 h1 s1, makeOutput h = some (h0, s0) ∧ step h0 s0 (.string bs none) = some (h1, s1, .wrote n) ∧
      step h1 s1 (.char 65) = none := by
  obtain ⟨st, e, i⟩ := inv_fresh h
  obtain ⟨st', g, t, hm⟩ := i.get
  have g' : (h ++ [st])[h.length]? = some st' := g
  obtain ⟨hx, sx, m, ee, r⟩ := enlarge_ok (h := h ++ [st]) (s := ⟨h.length, 0⟩) t (newlen := n + 1) (need := bs.length)
    (by rw [hb, List.length_nil]; omega) (by omega)
  have hcap : sx.cap = n + 1 := by
    simp only [enlarge] at ee
    revert ee
    split
    · simp
    · split
      · simp
      · split
        · simp
        · rintro ⟨⟩
          rfl
  obtain ⟨m', e', i', _⟩ := r.write
  simp only [List.length_nil, Nat.zero_add, hb] at ee e' i'
  have et : toInt (n : Int) = n := toInt_ok (by omega) (by omega)
  have en : putsLen bs n true = n := if_neg (by omega)
  have hl : load bs n = some bs := by
    rw [load_ok (by omega), List.take_of_length_le (by omega)]
  refine ⟨_, _, hx.set sx.str ⟨m', n⟩, sx, by rw [makeOutput, e]; rfl, ?_, ?_⟩
  · have hput : puts (h ++ [st]) ⟨h.length, 0⟩ bs n true = some (hx.set sx.str ⟨m', n⟩, sx) := by
      have hlen : st'.len = 0 := t.1
      have ez' : toInt (0 : Int) = 0 := toInt_ok (by omega) (by omega)
      have ez : toInt ((0 : Nat) : Int) = 0 := ez'
      simp only [puts, g', hlen, ez, en, putsRoom]
      rw [int_ok (by omega) (by omega)]
      simp only [ez']
      rw [if_pos (by omega)]
      simp only [double, if_pos (show (0 : Int) < 16 by decide)]
      rw [if_neg (by omega), Int.zero_add]
      have ee' : enlarge (h ++ [st]) st' 0 (n + 1) = some (hx, sx, m) := ee
      rw [ee']
      simp only [hl]
      have e'' : store m 0 (bs.map some ++ [some 0]) = some m' := e'
      rw [e'']
      simp
    simp only [step, hb, et, hput, Option.map_some]
  · have hg : (hx.set sx.str (⟨m', n⟩ : Str))[sx.str]? = some ⟨m', n⟩ := List.getElem?_set_self r.idx
    have e2 : toInt ((n : Int) + 1) = n + 1 := toInt_ok (by omega) (by omega)
    simp only [step, putc, hg, et, putcRoom, hcap, e2, double]
    rw [int_ok (by omega) (by omega)]
    simp only
    rw [if_pos (by omega), if_neg (by omega), int_no (by omega)]
    rfl

/-- The size of the buffer overflows when the stream holds 2^30 - 1 characters and one more is written. -/
theorem C65_overflow_violated (h : Heap) (bs : List Byte) (hb : bs.length = 1073741823) :
    ∃ h0 s0 h1 s1, makeOutput h = some (h0, s0) ∧ step h0 s0 (.string bs none) = some (h1, s1, .wrote bs.length) ∧
      step h1 s1 (.char 65) = none := overflow h bs bs.length rfl hb

/-- A length which does not fit in an `int` is taken modulo 2^32: one character is written where the call should have
been refused. -/
theorem C65_length_violated :
    ∃ h s h' s', makeOutput [] = some (h, s) ∧ step h s (.string [97, 98, 99] (some 4294967297)) = some (h', s', .wrote 1) ∧
      (Spec.step [] (.string [97, 98, 99] (some 4294967297))).2 = .refused := by
  refine ⟨_, _, _, _, rfl, rfl, by decide⟩

/-- A pair whose number is greater than the room of its string is an output stream too (`output-stream-p`), and writing
to it goes past the end of the string. -/
theorem C65_pair_violated : step [⟨[some 97, some 98, some 99, some 0], 3⟩] ⟨0, 100⟩ (.char 65) = none := by decide

/-! ### C66 -/

/-- The lines read from a file hold no zero; counts are not negative and fit on the stack; lines are shorter than two
gigabytes. -/
def Within (room : Nat) (isFile : Bool) (bs : List Byte) : List IOp → Prop
  | [] => True
  | o :: os =>
    (match o with
      | .chars n => 0 ≤ n ∧ n ≤ room
      | .line => (isFile = true → ∀ b ∈ Spec.line bs, b ≠ 0) ∧ (Spec.line bs).length < 2097151999
      | _ => True) ∧ Within room isFile (Spec.istep bs o).2 os

/-- C66.  Any sequence of `read-char`, `peek-char`, `read-chars` and `read-line` on a string or a file gives what the
bytes still to be read say, and consumes exactly that.
Missing: lines with a zero in a file (`C66_zero_violated`), very long lines, and counts which are negative or too large
for the stack (`C66_count_violated`). -/
theorem C66_input_partial (room : Nat) (s : Src) (hs : s.Sane) (os : List IOp) (hw : Within room s.isFile (Spec.rest s) os) :
    ∃ rs s', irun room s os = some (rs, s') ∧ (rs, Spec.rest s') = Spec.irun (Spec.rest s) os := by
  induction os generalizing s with
  | nil => exact ⟨[], s, rfl, rfl⟩
  | cons o os ih =>
    obtain ⟨h1, h2⟩ := hw
    have key : ∃ r s1, istep room s o = some (r, s1) ∧ (r, Spec.rest s1) = Spec.istep (Spec.rest s) o ∧ s1.Sane ∧
        s1.isFile = s.isFile := by
      cases o with
      | char =>
        obtain ⟨a, b, c, _, d⟩ := getc_spec hs
        exact ⟨_, _, rfl, by simp [Spec.istep, a, b], c, d⟩
      | peek =>
        obtain ⟨a, b, c, d⟩ := peek_spec hs
        exact ⟨_, _, rfl, by simp [Spec.istep, a, b], c, d⟩
      | chars n =>
        obtain ⟨s1, a, b, c, d⟩ := readChars_spec h1.1 h1.2 hs
        exact ⟨_, s1, by simp only [istep, a]; rfl, by simp [Spec.istep, b], c, d⟩
      | line =>
        obtain ⟨s1, a, b, c, d⟩ := readLine_spec hs h1.1 h1.2
        exact ⟨_, s1, by simp only [istep, a]; rfl, by simp [Spec.istep, b], c, d⟩
    obtain ⟨r, s1, e, q, c, d⟩ := key
    have q1 : r = (Spec.istep (Spec.rest s) o).1 := congrArg Prod.fst q
    have q2 : Spec.rest s1 = (Spec.istep (Spec.rest s) o).2 := congrArg Prod.snd q
    obtain ⟨rs, s', e', q'⟩ := ih s1 c (by rw [d, q2]; exact h2)
    refine ⟨r :: rs, s', by simp only [irun, e, e'], ?_⟩
    rw [q2] at q'
    simp only [Spec.irun, ← q', q1]

example : Spec.irun [97, 98, 10, 99, 100] [.peek, .line, .chars 1, .line, .line, .char] =
    ([.char (some 97), .text (some [97, 98, 10]), .text (some [99]), .text (some [100]), .text none, .char none], []) := by decide

example : Within 100 true (Spec.rest (.file [97, 98, 10, 99, 100])) [.peek, .line, .chars 1, .line, .line, .char] := by
  simp [Within, Spec.istep, Spec.rest, Spec.line]

/-- The lines read are lines: each ends with its only newline, except the last, and together they are the text. -/
theorem C66_lines (bs : List Byte) :
    bs = Spec.line bs ++ bs.drop (Spec.line bs).length ∧ (bs ≠ [] → Spec.line bs ≠ []) ∧
      (∃ l, 10 ∉ l ∧ (Spec.line bs = l ++ [10] ∨ Spec.line bs = l ∧ l = bs)) := by
  refine ⟨line_prefix bs, fun h h' => h ((line_nil_iff bs).1 h'), ?_⟩
  induction bs with
  | nil => exact ⟨[], by simp, Or.inr ⟨rfl, rfl⟩⟩
  | cons b bs ih =>
    by_cases hb : b = 10
    · subst hb
      exact ⟨[], by simp, Or.inl (line_cons_newline bs)⟩
    · obtain ⟨l, hl, h⟩ := ih
      refine ⟨b :: l, ?_, ?_⟩
      · rw [List.mem_cons, not_or]
        exact ⟨fun h => hb h.symm, hl⟩
      · rcases h with h | ⟨h, h'⟩
        · exact Or.inl (by rw [line_cons_ne hb, h]; rfl)
        · exact Or.inr ⟨by rw [line_cons_ne hb, h], by rw [h']⟩

/-- `copy-stream` adds all that is left of the source to the destination, in order, and returns its length. -/
theorem C66_copy (s : Src) (hs : s.Sane) (h : Heap) (os : List Op) (ho : Spec.Small [] os)
    (hl : (Spec.run [] os).1.length + (Spec.rest s).length ≤ 1073741822) :
    ∃ h0 d0 h1 d1 rs h2 d2 s', makeOutput h = some (h0, d0) ∧ run h0 d0 os = some (h1, d1, rs) ∧
      copyStream s h1 d1 = some (h2, d2, s', ((Spec.rest s).length : Int)) ∧ Spec.rest s' = [] ∧
      ∃ h3 d3 k st, getString h2 d2 = some (h3, d3, k) ∧ h3[k]? = some st ∧ HasText st ((Spec.run [] os).1 ++ Spec.rest s) := by
  obtain ⟨st, e, i⟩ := inv_fresh h
  obtain ⟨h1, d1, rs, e1, i1, _, _⟩ := i.run os ho
  obtain ⟨h2, d2, s', e2, i2, r2, _⟩ := copyStream_spec hs i1 hl
  obtain ⟨h3, d3, k, st', e3, _, _, _, _, g, t⟩ := i2.getString
  exact ⟨_, _, h1, d1, rs, h2, d2, s', by rw [makeOutput, e]; rfl, e1, e2, r2, h3, d3, k, st', e3, g, t⟩

/-- A line of a file loses what follows a zero in it; and a line which begins with one reads as the end of the file. -/
theorem C66_zero_violated :
    readLine (.file [97, 0, 98, 10, 99]) = some (some [97], .file [99]) ∧
      readLine (.file [0, 98, 10, 99]) = some (none, .file [99]) ∧
      Spec.line [97, 0, 98, 10, 99] = [97, 0, 98, 10] := by
  decide

/-- A count too large for the stack, or negative, is not refused. -/
theorem C66_count_violated (room : Nat) (s : Src) (n : Int) (h : n < 0 ∨ n > room) : readChars room s n = none :=
  if_neg (by omega)

end Rep.Stream
