import Verif.Md5.Buffer
import Verif.NumText.Props

/-
C64: message digests.
-/

namespace Rep.Md5

theorem bulk_init (junk m : List Byte) (hj : junk.length = 128) :
    ∃ c p w, processBytes (init junk) m = some c ∧ m = p ++ w ∧
      Inv c p w (if m.length > 64 then longCount (m.length / 64 * 64) else 0) ∧
      p.length = (if m.length > 64 then m.length / 64 * 64 else 0) := by
  unfold processBytes
  rw [if_neg (by show ¬ ((0 : Nat) ≠ 0); simp)]
  obtain ⟨c, p, w, e, hc, i, hl⟩ := (inv_init junk hj).bulk m
  refine ⟨c, p, w, e, by simpa using hc, ?_, by simpa using hl⟩
  rw [tot_count_zero (init junk) _ rfl rfl] at i
  exact i

theorem longCount_eq {n : Nat} (h : n < 2 ^ 33) : longCount n = n := by
  unfold longCount
  split <;> omega

/-- C64.  What `md5-string` computes from the bytes of the string is their message digest.
Missing: strings of more than 8 gigabytes (`C64_long_violated`). -/
theorem C64_string_partial (junk m : List Byte) (hj : junk.length = 128) (hm : m.length < 2 ^ 33) :
    md5Buffer junk m = some (Rfc.digest m) := by
  obtain ⟨c, p, w, e, hc, i, hl⟩ := bulk_init junk m hj
  unfold md5Buffer
  rw [e]
  show finish c = _
  rw [i.finish]
  unfold Rfc.digest
  rw [← hc]
  congr 3
  have hlen : m.length = p.length + w.length := by rw [← List.length_append, ← hc]
  split at hl <;> rename_i hg
  · rw [if_pos hg, longCount_eq (by omega)]
    omega
  · rw [if_neg hg]
    omega

/-- For a longer string the length in the padding is wrong: what is digested is another sequence of blocks. -/
theorem C64_long_violated (junk m : List Byte) (hj : junk.length = 128) (hm : 2 ^ 33 ≤ m.length) (hl : m.length < 2 ^ 61) :
    ∃ n, md5Buffer junk m = some (Rfc.digestWith n m) ∧ Rfc.pad m n ≠ Rfc.pad m (8 * m.length) := by
  obtain ⟨c, p, w, e, hc, i, hp⟩ := bulk_init junk m hj
  have hlen : m.length = p.length + w.length := by rw [← List.length_append, ← hc]
  rw [if_pos (by omega)] at i hp
  refine ⟨8 * (longCount (m.length / 64 * 64) + w.length), ?_, ?_⟩
  · unfold md5Buffer
    rw [e]
    show finish c = _
    rw [i.finish, ← hc]
  · unfold Rfc.pad
    intro he
    have he := List.append_cancel_left he
    rw [lowBytes_eight, lowBytes_eight, ← lowBytes_mod, ← lowBytes_mod, ← lowBytes_mod, ← lowBytes_mod] at he
    have h2 := (List.append_inj he rfl).2
    unfold longCount at h2
    rw [if_pos (by omega)] at h2
    simp only [Rfc.lowBytes, List.range, List.range.loop, List.map_cons, List.map_nil, List.cons.injEq, and_true] at h2
    obtain ⟨a, b, c, d⟩ := h2
    have a := congrArg BitVec.toNat a
    have b := congrArg BitVec.toNat b
    have c := congrArg BitVec.toNat c
    have d := congrArg BitVec.toNat d
    simp only [BitVec.toNat_ofNat] at a b c d
    norm_num at a b c d
    omega

/-- C64.  The same digest comes from any division of the message into parts: no part is lost, none is
counted twice, and the buffer is not overrun. -/
theorem C64_parts (junk : List Byte) (hj : junk.length = 128) (parts : List (List Byte)) (hp : ∀ m ∈ parts, m.length < 2 ^ 32) :
    ∃ c, parts.foldlM processBytes (init junk) = some c ∧ finish c = some (Rfc.digest parts.flatten) := by
  have H : ∀ (parts : List (List Byte)) (c : Ctx) (p w : List Byte), (∀ m ∈ parts, m.length < 2 ^ 32) →
      Inv c p w (p.length % 2 ^ 64) → ∃ c' p' w', parts.foldlM processBytes c = some c' ∧
        p ++ w ++ parts.flatten = p' ++ w' ∧ Inv c' p' w' (p'.length % 2 ^ 64) := by
    intro parts
    induction parts with
    | nil => intro c p w _ i; exact ⟨c, p, w, rfl, by simp, i⟩
    | cons m l ih =>
      intro c p w hp i
      obtain ⟨c1, p1, w1, e, h1, i1⟩ := i.bytes m (hp m List.mem_cons_self)
      obtain ⟨c2, p2, w2, e2, h2, i2⟩ := ih c1 p1 w1 (fun x hx => hp x (List.mem_cons_of_mem _ hx)) i1
      refine ⟨c2, p2, w2, ?_, ?_, i2⟩
      · rw [List.foldlM_cons, e]
        exact e2
      · rw [List.flatten_cons, ← List.append_assoc, h1, h2]
  obtain ⟨c, p, w, e, h, i⟩ := H parts (init junk) [] [] hp (inv_init junk hj)
  refine ⟨c, e, ?_⟩
  rw [i.finish]
  have h : parts.flatten = p ++ w := by simpa using h
  rw [h]
  unfold Rfc.digest Rfc.digestWith
  have : Rfc.pad (p ++ w) (8 * (p.length % 2 ^ 64 + w.length)) = Rfc.pad (p ++ w) (8 * (p ++ w).length) := by
    unfold Rfc.pad
    rw [lowBytes_eight, lowBytes_eight (8 * (p ++ w).length), List.length_append]
    congr 3 <;> omega
  rw [this]

/-- The parts "a", the empty string and "bc" give the digest of "abc". -/
example : ∃ c, [[97], [], [98, 99]].foldlM processBytes (init (List.replicate 128 0)) = some c ∧
    finish c = some [0x90, 0x01, 0x50, 0x98, 0x3c, 0xd2, 0x4f, 0xb0, 0xd6, 0x96, 0x3f, 0x7d, 0x28, 0xe1, 0x7f, 0x72] := by
  decide +kernel

/-! Files. -/

theorem readBlock_spec : ∀ (fuel : Nat) (f : File) (acc : List Byte), f.data.length < fuel → acc.length < 4096 →
    (4096 ≤ acc.length + f.data.length →
      ∃ s, readBlock fuel f acc = (acc ++ f.data.take (4096 - acc.length), false, ⟨f.data.drop (4096 - acc.length), s, f.err⟩)) ∧
    (acc.length + f.data.length < 4096 → ∃ s, readBlock fuel f acc = (acc ++ f.data, true, ⟨[], s, f.err⟩))
  | 0, f, acc, h, _ => absurd h (Nat.not_lt_zero _)
  | fuel + 1, f, acc, h, ha => by
    unfold readBlock fread
    simp only
    generalize hk : min (4096 - acc.length) (f.sizes.headD (4096 - acc.length) + 1) = k
    have hk1 : 1 ≤ k := by omega
    have hk2 : k ≤ 4096 - acc.length := by omega
    have hl : (acc ++ f.data.take k).length = acc.length + min k f.data.length := by
      rw [List.length_append, List.length_take]
    by_cases hd : f.data = []
    · have hdl : f.data.length = 0 := by rw [hd]; rfl
      rw [if_neg (by rw [hd]; simp)]
      refine ⟨fun hx => by omega, fun _ => ⟨f.sizes.tail, ?_⟩⟩
      rw [hd]
      simp
    · have hdl : f.data.length ≠ 0 := fun h0 => hd (List.length_eq_zero_iff.mp h0)
      have hne : f.data.take k ≠ [] := by
        intro h0
        have := congrArg List.length h0
        rw [List.length_take, List.length_nil] at this
        omega
      by_cases hc : (acc ++ f.data.take k).length < 4096
      · rw [if_pos ⟨hc, hne⟩]
        obtain ⟨r1, r2⟩ := readBlock_spec fuel ⟨f.data.drop k, f.sizes.tail, f.err⟩ (acc ++ f.data.take k)
          (by rw [List.length_drop]; omega) hc
        simp only [List.length_drop, hl] at r1 r2
        constructor
        · intro hx
          obtain ⟨s, e⟩ := r1 (by omega)
          refine ⟨s, ?_⟩
          rw [e]
          have hkm : min k f.data.length = k := by omega
          rw [hkm]
          rw [List.drop_drop, List.append_assoc]
          have e1 : k + (4096 - (acc.length + k)) = 4096 - acc.length := by omega
          rw [e1, ← e1, List.take_add, e1]
        · intro hx
          obtain ⟨s, e⟩ := r2 (by omega)
          refine ⟨s, ?_⟩
          rw [e, List.append_assoc, List.take_append_drop]
      · rw [if_neg (fun h => hc h.1)]
        rw [hl] at hc
        have hkk : k = 4096 - acc.length := by omega
        refine ⟨fun _ => ⟨f.sizes.tail, ?_⟩, fun hx => by omega⟩
        rw [hkk] at hne ⊢
        simp [hne]

theorem readBlock_err : ∀ (fuel : Nat) (f : File) (acc : List Byte), (readBlock fuel f acc).2.2.err = f.err
  | 0, _, _ => rfl
  | fuel + 1, f, acc => by
    unfold readBlock
    simp only
    split
    · rw [readBlock_err fuel]
      rfl
    · rfl

theorem stream_spec : ∀ (fuel : Nat) (f : File) (c : Ctx) (p : List Byte), f.data.length < fuel → Inv c p [] (p.length % 2 ^ 64) →
    f.err = false → streamLoop fuel f c = .digest (Rfc.digest (p ++ f.data))
  | 0, f, c, p, h, _, _ => absurd h (Nat.not_lt_zero _)
  | fuel + 1, f, c, p, h, i, he => by
    have hfin : ∀ (c : Ctx) (p w : List Byte), Inv c p w (p.length % 2 ^ 64) → finish c = some (Rfc.digest (p ++ w)) := by
      intro c p w i
      rw [i.finish]
      unfold Rfc.digest Rfc.digestWith
      have : Rfc.pad (p ++ w) (8 * (p.length % 2 ^ 64 + w.length)) = Rfc.pad (p ++ w) (8 * (p ++ w).length) := by
        unfold Rfc.pad
        rw [lowBytes_eight, lowBytes_eight (8 * (p ++ w).length), List.length_append]
        congr 3 <;> omega
      rw [this]
    obtain ⟨r1, r2⟩ := readBlock_spec (f.data.length + 1) f [] (by omega) (by simp)
    simp only [List.length_nil, Nat.zero_add, Nat.sub_zero, List.nil_append] at r1 r2
    unfold streamLoop
    simp only
    by_cases hl : 4096 ≤ f.data.length
    · obtain ⟨s, e⟩ := r1 hl
      rw [e]
      simp only [Bool.false_eq_true, if_false]
      have hx : (f.data.take 4096).length = 64 * 64 := by rw [List.length_take]; omega
      obtain ⟨c1, e1, q1, q2, q3, q4⟩ := i.process (f.data.take 4096) [] 64 hx
      rw [List.append_nil, show 64 * 64 = 4096 from rfl] at e1
      rw [e1]
      simp only
      have hmul := i.mul
      have i1 : Inv c1 (p ++ f.data.take 4096) [] ((p ++ f.data.take 4096).length % 2 ^ 64) := by
        refine ⟨by rw [q3, i.size], by rw [q4, i.len], by simp, ⟨_, rfl⟩, ?_, q1, ?_⟩
        · rw [List.length_append, hx]; omega
        · rw [q2, tot_count _ _ (by omega), i.count, List.length_append, hx]; omega
      rw [stream_spec fuel ⟨f.data.drop 4096, s, f.err⟩ c1 _ (by simp only [List.length_drop]; omega) i1 he]
      simp only [List.append_assoc, List.take_append_drop]
    · obtain ⟨s, e⟩ := r2 (by omega)
      rw [e]
      simp only [if_true, he, Bool.false_eq_true, if_false]
      split
      · obtain ⟨c1, p1, w1, e1, h1, i1⟩ := i.bytes f.data (by omega)
        rw [e1]
        simp only
        rw [hfin c1 p1 w1 i1, ← h1, List.append_nil]
        rfl
      · have hd : f.data = [] := List.length_eq_zero_iff.mp (by omega)
        rw [hfin c p [] i, hd]
        rfl

/-- C64.  `md5-local-file` digests the contents of the file, however the calls of `fread` divide it. -/
theorem C64_file (junk : List Byte) (hj : junk.length = 128) (f : File) (he : f.err = false) :
    md5Stream junk f = .digest (Rfc.digest f.data) := by
  unfold md5Stream
  have := stream_spec (f.data.length + 1) f (init junk) [] (by omega) (inv_init junk hj) he
  simpa using this

example : (⟨List.replicate 10000 97, [5, 3, 10000, 17], false⟩ : File).err = false := rfl

/-- C64 fails if the file cannot be read (as a directory): the error is ignored, and the result is a number
made from uninitialised memory. -/
theorem C64_read_error_violated (junk : List Byte) : md5LocalFile junk ⟨[], [], true⟩ = .garbage := rfl

/-! Numbers. -/

/-- The byte with its two digits exchanged. -/
def swapped (x : Byte) : Byte := x.rotateLeft 4

theorem hex_low : ∀ n, n < 128 → ∃ p q, hexDigit ((BitVec.ofNat 8 n) &&& 15).toInt = some p ∧
    hexDigit ((BitVec.ofNat 8 n).sshiftRight 4).toInt = some q ∧
    p = NumText.digitChar (n % 16) ∧ q = NumText.digitChar (n / 16) := by
  have : ∀ n, n < 128 → hexDigit ((BitVec.ofNat 8 n) &&& 15).toInt = some (NumText.digitChar (n % 16)) ∧
    hexDigit ((BitVec.ofNat 8 n).sshiftRight 4).toInt = some (NumText.digitChar (n / 16)) := by decide +kernel
  exact fun n h => ⟨_, _, (this n h).1, (this n h).2, rfl, rfl⟩

theorem hex_high : ∀ n, n < 256 → 128 ≤ n → hexDigit ((BitVec.ofNat 8 n).sshiftRight 4).toInt = none := by
  decide +kernel

theorem swapped_toNat : ∀ n, n < 256 → (swapped (BitVec.ofNat 8 n)).toNat = n % 16 * 16 + n / 16 := by
  decide +kernel

theorem hexDigits_low : ∀ (d : List Byte), (∀ x ∈ d, x.toNat < 128) →
    hexDigits d = some (d.flatMap fun x => [NumText.digitChar (x.toNat % 16), NumText.digitChar (x.toNat / 16)])
  | [], _ => rfl
  | x :: l, h => by
    obtain ⟨p, q, h1, h2, h3, h4⟩ := hex_low x.toNat (h x List.mem_cons_self)
    rw [BitVec.ofNat_toNat, BitVec.setWidth_eq] at h1 h2
    rw [hexDigits, h1, h2, hexDigits_low l (fun y hy => h y (List.mem_cons_of_mem _ hy)), h3, h4]
    rfl

theorem hexDigits_high : ∀ (d : List Byte), (∃ x ∈ d, 128 ≤ x.toNat) → hexDigits d = none
  | [], h => by obtain ⟨_, h, _⟩ := h; simp at h
  | x :: l, h => by
    rw [hexDigits]
    by_cases hx : 128 ≤ x.toNat
    · have := hex_high x.toNat x.isLt hx
      rw [BitVec.ofNat_toNat, BitVec.setWidth_eq] at this
      rw [this]
      split <;> simp_all
    · have hl : ∃ y ∈ l, 128 ≤ y.toNat := by
        obtain ⟨y, hy, h8⟩ := h
        rcases List.mem_cons.mp hy with rfl | hy
        · exact absurd h8 hx
        · exact ⟨y, hy, h8⟩
      rw [hexDigits_high l hl]
      split <;> simp_all

theorem horner_hex : ∀ (d : List Byte) (v : Nat),
    NumText.horner 16 (d.flatMap fun x => [NumText.digitChar (x.toNat % 16), NumText.digitChar (x.toNat / 16)]) v =
      (d.map swapped).foldl (fun v x => v * 256 + x.toNat) v
  | [], _ => rfl
  | x :: l, v => by
    have hx := x.isLt
    have h := swapped_toNat x.toNat hx
    rw [BitVec.ofNat_toNat, BitVec.setWidth_eq] at h
    rw [List.flatMap_cons, List.map_cons, List.foldl_cons, NumText.horner_append, horner_hex l]
    congr 1
    rw [NumText.horner_cons, NumText.horner_cons, NumText.digitChar_spec _ (by omega), NumText.digitChar_spec _ (by omega), h]
    simp only [Option.getD_some, NumText.horner, List.foldl_nil]
    omega

/-- C64.  The number returned for a digest has the right digits, but the two digits of every byte are
exchanged; and this holds only for a digest without bytes over 127. -/
theorem C64_number_partial (d : List Byte) (h0 : d ≠ []) (hl : d.length < 2 ^ 26) (h : ∀ x ∈ d, x.toNat < 128) :
    digestToNumber d = .number (.num (NumText.ofInt (Rfc.asNumber (d.map swapped)))) := by
  unfold digestToNumber
  rw [hexDigits_low d h]
  simp only
  rw [NumText.parseInt_digits 16 (by simp)]
  · rw [if_neg (by simp)]
    congr 4
    exact congrArg Nat.cast (horner_hex d 0)
  · obtain ⟨x, l, rfl⟩ := List.exists_cons_of_ne_nil h0
    simp
  · intro c hc
    obtain ⟨x, -, hc⟩ := List.mem_flatMap.mp hc
    have hx := x.isLt
    rcases List.mem_cons.mp hc with rfl | hc
    · exact NumText.digitChar_digit (by omega) (by omega)
    · rcases List.mem_cons.mp hc with rfl | hc
      · exact NumText.digitChar_digit (by omega) (by omega)
      · simp at hc
  · have : ∀ d : List Byte, (d.flatMap fun x => [NumText.digitChar (x.toNat % 16), NumText.digitChar (x.toNat / 16)]).length = 2 * d.length := by
      intro d
      induction d with
      | nil => rfl
      | cons x l ih => rw [List.flatMap_cons, List.length_append, ih, List.length_cons]; simp; omega
    rw [this]
    omega

/-- C64 fails for every digest with a byte over 127 (all but one in 65536): `char` is signed, and the array
of digits is read at a negative index. -/
theorem C64_signed_violated (d : List Byte) (h : ∃ x ∈ d, 128 ≤ x.toNat) : (match digestToNumber d with | .undefined => True | _ => False) := by
  unfold digestToNumber
  rw [hexDigits_high d h]
  trivial

/-- Memory for the buffer. -/
def zeros : List Byte := List.replicate 128 0

/-- The string "16500". -/
def message : List Byte := [49, 54, 53, 48, 48]

/-- C64 fails: the number for "16500" is not the one its digest, 1c474e7b437a3729231a4105790a6340, stands
for. -/
theorem C64_swapped_violated :
    Rfc.asNumber (Rfc.digest message) = 0x1c474e7b437a3729231a4105790a6340 ∧
    md5String zeros message = .number (.num (NumText.ofInt 0xc174e4b734a7739232a1145097a03604)) := by
  have h : md5Buffer zeros message = some [0x1c, 0x47, 0x4e, 0x7b, 0x43, 0x7a, 0x37, 0x29, 0x23, 0x1a, 0x41, 0x05, 0x79, 0x0a, 0x63, 0x40] := by
    decide +kernel
  have hs := C64_string_partial zeros message rfl (by decide)
  rw [h] at hs
  constructor
  · rw [← Option.some.inj hs]
    decide +kernel
  · unfold md5String
    rw [h]
    simp only
    rw [C64_number_partial _ (by simp) (by decide) (by decide)]
    have : Rfc.asNumber (List.map swapped [0x1c, 0x47, 0x4e, 0x7b, 0x43, 0x7a, 0x37, 0x29, 0x23, 0x1a, 0x41, 0x05, 0x79, 0x0a, 0x63, 0x40]) = 0xc174e4b734a7739232a1145097a03604 := by
      decide +kernel
    rw [this]
    rfl

/-- The digest of "abc", as RFC 1321 gives it (section A.5). -/
example : Rfc.digest [97, 98, 99] = [0x90, 0x01, 0x50, 0x98, 0x3c, 0xd2, 0x4f, 0xb0, 0xd6, 0x96, 0x3f, 0x7d, 0x28, 0xe1, 0x7f, 0x72] := by
  have hs := C64_string_partial zeros [97, 98, 99] rfl (by decide)
  have h : md5Buffer zeros [97, 98, 99] = some [0x90, 0x01, 0x50, 0x98, 0x3c, 0xd2, 0x4f, 0xb0, 0xd6, 0x96, 0x3f, 0x7d, 0x28, 0xe1, 0x7f, 0x72] := by
    decide +kernel
  rw [h] at hs
  exact (Option.some.inj hs).symm

end Rep.Md5
