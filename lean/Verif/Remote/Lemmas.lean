import Verif.Remote.Model
import Verif.Remote.Spec
import Mathlib.Tactic.Ring
import Mathlib.Tactic.Linarith

namespace Rep.Remote

/-! ### numbers -/

/-- Exactly `w` digits. -/
def hexW : Nat → Nat → Bytes
  | 0, _ => []
  | w + 1, n => hexW w (n / 16) ++ [hexChar (n % 16)]

theorem hexW_length : ∀ w n, (hexW w n).length = w
  | 0, _ => rfl
  | w + 1, n => by simp [hexW, hexW_length w]

theorem hexW_zero : ∀ w, hexW w 0 = List.replicate w 48
  | 0 => rfl
  | w + 1 => by
    rw [hexW, hexW_zero w, List.replicate_succ']
    rfl

/-- Padding to `w` digits. -/
theorem pad_toHex : ∀ (w n : Nat), n < 16 ^ (w + 1) →
    List.replicate (w + 1 - (toHex n).length) 48 ++ toHex n = hexW (w + 1) n ∧ (toHex n).length ≤ w + 1 := by
  intro w
  induction w with
  | zero =>
    intro n hn
    rw [toHex, if_pos (by omega)]
    simp [hexW, Nat.mod_eq_of_lt (show n < 16 by omega)]
  | succ w ih =>
    intro n hn
    rw [toHex]
    split
    · rename_i h
      rw [hexW, Nat.div_eq_of_lt h, hexW_zero, Nat.mod_eq_of_lt h]
      simp
    · obtain ⟨h1, h2⟩ := ih (n / 16) (by
        rw [Nat.div_lt_iff_lt_mul (by decide)]; rw [pow_succ] at hn; exact hn)
      constructor
      · rw [hexW, ← h1, List.length_append, List.length_singleton, List.append_assoc]
        congr 2
        omega
      · simp; omega

theorem padHex_small {n : Nat} (h : n < 2 ^ 32) : padHex n = hexW 8 n := by
  have := (pad_toHex 7 n (by norm_num at h ⊢; exact h)).1
  exact this

theorem sendLong_small {n : Nat} (h : n < 2 ^ 32) : sendLong n = hexW 8 n := by
  unfold sendLong
  rw [padHex_small h, List.take_of_length_le (by rw [hexW_length])]

theorem toHex_length_ge : ∀ (w n : Nat), 16 ^ w ≤ n → w + 1 ≤ (toHex n).length := by
  intro w
  induction w with
  | zero => intro n _; rw [toHex]; split <;> simp
  | succ w ih =>
    intro n hn
    rw [toHex]
    have h16 : 16 ≤ n := by
      have : 16 ^ 1 ≤ 16 ^ (w + 1) := Nat.pow_le_pow_right (by decide) (by omega)
      omega
    rw [if_neg (by omega)]
    have := ih (n / 16) (by rw [Nat.le_div_iff_mul_le (by decide)]; rw [pow_succ] at hn; exact hn)
    simp; omega

/-- Nine digits: the last is not sent. -/
theorem sendLong_large {n : Nat} (h : 2 ^ 32 ≤ n) (h' : n < 2 ^ 36) : sendLong n = hexW 8 (n / 16) := by
  have h1 := toHex_length_ge 8 n (by norm_num at h ⊢; exact h)
  have e : padHex n = toHex (n / 16) ++ [hexChar (n % 16)] := by
    unfold padHex
    rw [show 8 - (toHex n).length = 0 by omega]
    rw [List.replicate_zero, List.nil_append]
    conv_lhs => rw [toHex]
    rw [if_neg (by omega)]
  have hlt : n / 16 < 2 ^ 32 := by omega
  obtain ⟨h2, h3⟩ := pad_toHex 7 (n / 16) (by norm_num at hlt ⊢; exact hlt)
  have h4 := toHex_length_ge 7 (n / 16) (by norm_num at h ⊢; omega)
  have h5 : (toHex (n / 16)).length = 8 := by omega
  rw [h5, Nat.sub_self, List.replicate_zero, List.nil_append] at h2
  unfold sendLong
  rw [e, List.take_append_of_le_length (by omega), List.take_of_length_le (by omega), h2]

theorem hexVal_hexChar {d : Nat} (h : d < 16) : hexVal (hexChar d) = some d := by
  have : ∀ d : Fin 16, hexVal (hexChar d) = some d.val := by decide
  exact this ⟨d, h⟩

theorem hexW8 (n : Nat) : hexW 8 n = [hexChar (n / 268435456 % 16), hexChar (n / 16777216 % 16),
    hexChar (n / 1048576 % 16), hexChar (n / 65536 % 16), hexChar (n / 4096 % 16), hexChar (n / 256 % 16),
    hexChar (n / 16 % 16), hexChar (n % 16)] := by
  simp only [hexW, List.nil_append, List.cons_append, Nat.div_div_eq_div_mul]

theorem readLength_hexW {n : Nat} (h : n < 2 ^ 32) (z : Bytes) : readLength (hexW 8 n ++ z) = some n := by
  rw [hexW8]
  simp only [List.cons_append, List.nil_append, readLength]
  simp only [hexVal_hexChar (Nat.mod_lt _ (by decide : 16 > 0)), Option.getD_some]
  congr 1
  omega

theorem strtol_hexW {n : Nat} (h : n < 2 ^ 32) : strtol16 (hexW 8 n) = n := by
  rw [hexW8]
  simp only [strtol16, strtol16.go, hexVal_hexChar (Nat.mod_lt _ (by decide : 16 > 0))]
  omega

theorem readLength_short {s : Bytes} (h : s.length < 8) : readLength s = none := by
  unfold readLength
  split
  · simp only [List.length_cons] at h; omega
  · rfl

theorem sendString_eq {m : Bytes} (h : Short m) : sendString m = hexW 8 m.length ++ m := by
  unfold sendString; rw [sendLong_small h]

theorem sendString_length {m : Bytes} (h : Short m) : (sendString m).length = 8 + m.length := by
  rw [sendString_eq h, List.length_append, hexW_length]

/-- Any part of a stream that starts with a string. -/
theorem readStr_prefix {m x fut z : Bytes} (h : Short m) (he : x ++ fut = sendString m ++ z) :
    readStr x = if 8 + m.length ≤ x.length then some m else none := by
  rw [sendString_eq h, List.append_assoc] at he
  by_cases h8 : x.length < 8
  · unfold readStr
    rw [readLength_short h8, if_neg (by omega)]
  · have hx : x = hexW 8 m.length ++ x.drop 8 := by
      have h1 : (x ++ fut).take 8 = hexW 8 m.length := by
        rw [he, List.take_append_of_le_length (by rw [hexW_length]), List.take_of_length_le (by rw [hexW_length])]
      rw [List.take_append_of_le_length (by omega)] at h1
      rw [← h1, List.take_append_drop]
    have hd : x.drop 8 ++ fut = m ++ z := by
      have := congrArg (List.drop 8) he
      rw [List.drop_append_of_le_length (by omega), List.drop_append_of_le_length (by rw [hexW_length]),
        show List.drop 8 (hexW 8 m.length) = [] from List.drop_of_length_le (by rw [hexW_length]),
        List.nil_append] at this
      exact this
    unfold readStr
    have e : readLength x = some m.length := by rw [hx]; exact readLength_hexW h _
    rw [e]
    simp only [ge_iff_le]
    split
    · rename_i hl
      have h2 := congrArg (List.take m.length) hd
      rw [List.take_append_of_le_length (by rw [List.length_drop]; omega), List.take_append_of_le_length (le_refl _),
        List.take_of_length_le (le_refl _)] at h2
      rw [h2]
    · rfl

/-! ### the server -/

theorem Arrives.nonempty {cs ws : List Bytes} (h : Arrives cs ws) : ∀ c ∈ cs, c ≠ [] := by
  induction h with
  | nil => simp
  | empty _ ih => exact ih
  | alone hw _ ih =>
    intro c hc
    rcases List.mem_cons.1 hc with rfl | hc
    · exact hw
    · exact ih c hc
  | together hw _ ih =>
    intro c hc
    rcases List.mem_cons.1 hc with rfl | hc
    · simp [hw]
    · exact ih c (List.mem_cons_of_mem _ hc)

theorem Arrives.flatten {cs ws : List Bytes} (h : Arrives cs ws) : cs.flatten = ws.flatten := by
  induction h with
  | nil => rfl
  | empty _ ih => simpa using ih
  | alone _ _ ih => simp [ih]
  | together _ _ ih => simp only [List.flatten_cons, List.append_assoc] at ih ⊢; rw [ih]

theorem Arrives.read {cs ws : List Bytes} {w : Bytes} (h : Arrives cs (w :: ws)) (hw : w ≠ []) :
    ∃ cs', readSome w.length cs = (w, cs') ∧ Arrives cs' ws := by
  cases h with
  | empty _ => exact absurd rfl hw
  | alone _ h => exact ⟨_, by simp [readSome], h⟩
  | together _ h =>
    rename_i c cs _
    have hc : c ≠ [] := h.nonempty c (by simp)
    refine ⟨c :: cs, ?_, h⟩
    have : 0 < c.length := List.length_pos_iff.2 hc
    simp only [readSome, List.length_append]
    rw [if_neg (by omega)]
    simp

theorem Arrives.skip {cs ws : List Bytes} (h : Arrives cs ([] :: ws)) : Arrives cs ws := by
  cases h with
  | empty h => exact h
  | alone hw _ => exact absurd rfl hw
  | together hw _ => exact absurd rfl hw

theorem Arrives.split {cs ws : List Bytes} {a b : Bytes} (h : Arrives cs ((a ++ b) :: ws)) (ha : a ≠ [])
    (hb : b ≠ []) : Arrives cs (a :: b :: ws) := by
  generalize e : (a ++ b) :: ws = l at h
  cases h with
  | nil => cases e
  | empty _ => simp [ha] at e
  | alone _ h =>
    simp only [List.cons.injEq] at e
    obtain ⟨rfl, rfl⟩ := e
    exact .together ha (.alone hb h)
  | together _ h =>
    simp only [List.cons.injEq] at e
    obtain ⟨rfl, rfl⟩ := e
    rw [List.append_assoc]
    exact .together ha (.together hb h)

theorem Arrives.readExactly {cs ws : List Bytes} {w : Bytes} (h : Arrives cs (w :: ws)) (hw : w ≠ []) :
    ∃ cs', readExactly w.length cs = .go w cs' ∧ Arrives cs' ws := by
  obtain ⟨cs', h1, h2⟩ := h.read hw
  exact ⟨cs', by simp [Remote.readExactly, h1], h2⟩

theorem Arrives.readChar {cs ws : List Bytes} {c : Nat} (h : Arrives cs ([c] :: ws)) :
    ∃ cs', readChar cs = .go c cs' ∧ Arrives cs' ws := by
  obtain ⟨cs', h1, h2⟩ := h.readExactly (by simp)
  refine ⟨cs', ?_, h2⟩
  simp only [List.length_singleton] at h1
  simp [Remote.readChar, h1, Next.bind]

theorem Arrives.readLong {cs ws : List Bytes} {n : Nat} (hn : n < 2 ^ 32) (h : Arrives cs (padHex n :: ws)) :
    ∃ cs', readLong cs = .go n cs' ∧ Arrives cs' ws := by
  rw [padHex_small hn] at h
  have h0 : hexW 8 n ≠ [] := by rw [← List.length_pos_iff, hexW_length]; decide
  obtain ⟨cs', h1, h2⟩ := h.readExactly h0
  rw [hexW_length] at h1
  refine ⟨cs', ?_, h2⟩
  simp [Remote.readLong, h1, Next.bind, strtol_hexW hn]

theorem takeWhile_name {b : Bytes} (h : 0 ∉ b) : b.takeWhile (· ≠ 0) = b := by
  induction b with
  | nil => rfl
  | cons x b ih =>
    rw [List.takeWhile_cons_of_pos (by simpa using fun e : x = 0 => h (by simp [e])),
      ih (fun hb => h (by simp [hb]))]

theorem Arrives.readString {cs ws : List Bytes} {b : Bytes} (hn : Name b)
    (h : Arrives cs (writeString b ++ ws)) : ∃ cs', readString cs = .go b cs' ∧ Arrives cs' ws := by
  obtain ⟨cs', h1, h2⟩ := Arrives.readLong hn.2 h
  by_cases hb : b = []
  · subst hb
    exact ⟨cs', by simp [Remote.readString, h1, Next.bind], h2.skip⟩
  · obtain ⟨cs'', h3, h4⟩ := Arrives.readExactly h2 hb
    refine ⟨cs'', ?_, h4⟩
    have : b.length ≠ 0 := fun e => hb (List.length_eq_zero_iff.1 e)
    simp only [Remote.readString, h1, Next.bind, if_neg this, h3, takeWhile_name hn.1]

theorem Arrives.readStrings : ∀ {args ws cs : List Bytes}, (∀ a ∈ args, Name a) →
    Arrives cs ((args.map writeString).flatten ++ ws) →
    ∃ cs', readStrings args.length cs = .go args cs' ∧ Arrives cs' ws := by
  intro args
  induction args with
  | nil => intro ws cs _ h; exact ⟨cs, rfl, by simpa using h⟩
  | cons a args ih =>
    intro ws cs hn h
    rw [List.map_cons, List.flatten_cons, List.append_assoc] at h
    obtain ⟨cs1, h1, h2⟩ := Arrives.readString (hn a (by simp)) h
    obtain ⟨cs2, h3, h4⟩ := ih (fun b hb => hn b (by simp [hb])) h2
    exact ⟨cs2, by simp [Remote.readStrings, h1, Next.bind, h3], h4⟩

/-- `do_put` reads exactly the data, however they come. -/
theorem putLoop_spec : ∀ (k todo : Nat) (cs : List Bytes) (done data rest : Bytes), todo + cs.length ≤ k →
    cs.flatten = data ++ rest → data.length = todo →
    ∃ cs', putLoop todo done cs = .go (done ++ data) cs' ∧ cs'.flatten = rest ∧
      ((∀ c ∈ cs, c ≠ []) → ∀ c ∈ cs', c ≠ []) := by
  intro k
  induction k with
  | zero =>
    intro todo cs done data rest hk hf hl
    have : todo = 0 := by omega
    subst this
    have : data = [] := List.length_eq_zero_iff.1 hl
    subst this
    exact ⟨cs, by rw [putLoop.eq_def]; simp, by simpa using hf, id⟩
  | succ k ih =>
    intro todo cs done data rest hk hf hl
    by_cases h0 : todo = 0
    · subst h0
      have : data = [] := List.length_eq_zero_iff.1 hl
      subst this
      exact ⟨cs, by rw [putLoop.eq_def]; simp, by simpa using hf, id⟩
    · match cs, hk, hf with
      | [], _, hf =>
        have : data = [] := by
          rw [List.flatten_nil] at hf
          exact (List.append_eq_nil_iff.1 hf.symm).1
        subst this
        exact absurd hl.symm (by simpa using h0)
      | [] :: cs, hk, hf =>
        rw [putLoop, dif_neg h0]
        obtain ⟨cs', h1, h2, h3⟩ := ih todo cs done data rest (by simp only [List.length_cons] at hk; omega)
          (by simpa using hf) hl
        exact ⟨cs', h1, h2, fun hc => absurd rfl (hc [] (by simp))⟩
      | (b :: c) :: cs, hk, hf =>
        rw [putLoop, dif_neg h0]
        simp only
        have hb : 0 < bufsiz := by decide
        simp only [readSome]
        split
        · rename_i hle
          have hle' : (b :: c).length ≤ data.length := by omega
          have hd : data = (b :: c) ++ data.drop (b :: c).length := by
            have := congrArg (List.take (b :: c).length) hf
            rw [List.flatten_cons, List.take_append_of_le_length (le_refl _), List.take_length,
              List.take_append_of_le_length hle'] at this
            calc data = List.take (b :: c).length data ++ data.drop (b :: c).length := (List.take_append_drop _ _).symm
              _ = _ := by rw [← this]
          obtain ⟨cs', h1, h2, h3⟩ := ih (todo - (b :: c).length) cs (done ++ (b :: c)) (data.drop (b :: c).length) rest
            (by simp only [List.length_cons] at hk ⊢; omega)
            (by
              rw [hd] at hf
              simp only [List.flatten_cons, List.append_assoc, List.cons_append, List.cons.injEq, true_and] at hf
              exact List.append_cancel_left hf)
            (by rw [List.length_drop, hl])
          refine ⟨cs', ?_, h2, fun hc => h3 (fun x hx => hc x (by simp [hx]))⟩
          rw [h1, List.append_assoc, ← hd]
        · rename_i hgt
          set n := min todo bufsiz with hn
          have hn0 : 0 < n := by omega
          have hlt : n < (b :: c).length := by omega
          have hle' : n ≤ data.length := by omega
          have hd : data = (b :: c).take n ++ data.drop n := by
            have := congrArg (List.take n) hf
            rw [List.flatten_cons, List.take_append_of_le_length (by omega),
              List.take_append_of_le_length hle'] at this
            rw [this, List.take_append_drop]
          have hln : ((b :: c).take n).length = n := by rw [List.length_take]; omega
          obtain ⟨cs', h1, h2, h3⟩ := ih (todo - ((b :: c).take n).length) ((b :: c).drop n :: cs)
            (done ++ (b :: c).take n) (data.drop n) rest
            (by rw [hln]; simp only [List.length_cons] at hk ⊢; omega)
            (by
              have h5 : (b :: c).take n ++ ((b :: c).drop n ++ cs.flatten) = (b :: c).take n ++ (data.drop n ++ rest) := by
                rw [← List.append_assoc, List.take_append_drop, ← List.append_assoc, ← hd]
                simpa using hf
              simpa using List.append_cancel_left h5)
            (by rw [List.length_drop, hl, hln])
          refine ⟨cs', ?_, h2, fun hc => h3 (fun x hx => ?_)⟩
          · rw [h1, List.append_assoc, ← hd]
          · rcases List.mem_cons.1 hx with rfl | hx
            · rw [← List.length_pos_iff, List.length_drop]; omega
            · exact hc x (by simp [hx])

theorem flatten_nil_of {cs : List Bytes} (h : cs.flatten = []) (hc : ∀ c ∈ cs, c ≠ []) : cs = [] := by
  cases cs with
  | nil => rfl
  | cons c cs =>
    rw [List.flatten_cons, List.append_eq_nil_iff] at h
    exact absurd h.1 (hc c (by simp))

theorem Arrives.done {cs : List Bytes} (h : Arrives cs []) : cs = [] := by cases h; rfl

end Rep.Remote
