import Verif.Md5.Block

/-
Blocks, buffers and counting.
-/

namespace Rep.Md5

theorem word_lt : ∀ i, i < 64 → Rfc.word i < 16 := by decide

theorem block_congr {m m' : List Byte} (h : ∀ j, j < 64 → m.getD j 0 = m'.getD j 0) (q : Rfc.State) :
    Rfc.block m q = Rfc.block m' q := by
  have hw : ∀ j, j < 16 → Rfc.toWord m j = Rfc.toWord m' j := by
    intro j hj
    unfold Rfc.toWord
    rw [h (4 * j) (by omega), h (4 * j + 1) (by omega), h (4 * j + 2) (by omega), h (4 * j + 3) (by omega)]
  have hf : ∀ n, n ≤ 64 → (List.range n).foldl (fun r i => Rfc.step (Rfc.toWord m) i r) q =
      (List.range n).foldl (fun r i => Rfc.step (Rfc.toWord m') i r) q := by
    intro n
    induction n with
    | zero => intro _; simp only [List.range_zero, List.foldl_nil]
    | succ n ih =>
      intro hn
      rw [List.range_succ, List.foldl_append, List.foldl_append, ih (by omega)]
      simp only [List.foldl_cons, List.foldl_nil]
      unfold Rfc.step
      rw [hw _ (word_lt n (by omega))]
  unfold Rfc.block
  rw [hf 64 le_rfl]

theorem getD_append_left (x y : List Byte) (j : Nat) (h : j < x.length) : (x ++ y).getD j 0 = x.getD j 0 := by
  simp [List.getD_eq_getElem?_getD, List.getElem?_append_left h]

theorem block_append (x y : List Byte) (h : 64 ≤ x.length) (q : Rfc.State) : Rfc.block (x ++ y) q = Rfc.block x q :=
  block_congr (fun j hj => getD_append_left x y j (by omega)) q

section
variable {σ : Type} {f : List Byte → σ → σ}

/-- Blocks of one part and then of the next. -/
theorem iter_append (hf : ∀ x y q, 64 ≤ x.length → f (x ++ y) q = f x q) (n k : Nat) :
    ∀ (x y : List Byte) (q : σ), x.length = 64 * n → iter f (n + k) (x ++ y) q = iter f k y (iter f n x q) := by
  induction n with
  | zero =>
    intro x y q h
    have : x = [] := List.length_eq_zero_iff.mp (by omega)
    rw [this, iter, Nat.zero_add, List.nil_append]
  | succ n ih =>
    intro x y q h
    have e : n + 1 + k = (n + k) + 1 := by omega
    rw [e, iter, iter, hf x y _ (by omega), List.drop_append_of_le_length (by omega)]
    apply ih
    rw [List.length_drop]
    omega

theorem iter_last : ∀ (n : Nat) (m : List Byte) (q : σ), iter f (n + 1) m q = f (m.drop (64 * n)) (iter f n m q)
  | 0, m, q => by rw [iter, iter, iter, Nat.mul_zero, List.drop_zero]
  | n + 1, m, q => by
    have e : 64 * (n + 1) = 64 + 64 * n := by ring
    rw [iter, iter_last n, iter, List.drop_drop, e]

theorem foldl_iter (m : List Byte) (q : σ) : ∀ n,
    (List.range n).foldl (fun q i => f (m.drop (64 * i)) q) q = iter f n m q
  | 0 => by rw [iter, List.range_zero, List.foldl_nil]
  | n + 1 => by rw [List.range_succ, List.foldl_append, foldl_iter m q n, List.foldl_cons, List.foldl_nil, iter_last]

theorem iter_map {τ : Type} {g : List Byte → τ → τ} (v : τ → σ) (h : ∀ m q, v (g m q) = f m (v q)) :
    ∀ (n : Nat) (m : List Byte) (q : τ), v (iter g n m q) = iter f n m (v q)
  | 0, m, q => by rw [iter, iter]
  | n + 1, m, q => by rw [iter, iter, iter_map v h n, h]

end

/-- The first `n` blocks. -/
@[irreducible] noncomputable def blk (n : Nat) (m : List Byte) (q : Rfc.State) : Rfc.State := iter Rfc.block n m q

theorem blk_append (n k : Nat) (x y : List Byte) (q : Rfc.State) (h : x.length = 64 * n) :
    blk (n + k) (x ++ y) q = blk k y (blk n x q) := by
  unfold blk
  exact iter_append (fun x y q h => block_append x y h q) n k x y q h

theorem blk_zero (m : List Byte) (q : Rfc.State) : blk 0 m q = q := by
  unfold blk
  rw [iter]

theorem blk_prefix (n : Nat) (x y : List Byte) (q : Rfc.State) (h : x.length = 64 * n) :
    blk n (x ++ y) q = blk n x q := by
  have := blk_append n 0 x y q h
  rwa [blk_zero, Nat.add_zero] at this

theorem blocks_eq (n : Nat) (m : List Byte) (r : Regs) : toState (blocks n m r) = blk n m (toState r) := by
  unfold blocks blk
  exact iter_map toState (fun m q => transform_eq m q) n m r

theorem allBlocks_eq (m : List Byte) : Rfc.allBlocks m = blk (m.length / 64) m Rfc.start := by
  unfold Rfc.allBlocks blk
  rw [foldl_iter]

/-! Counting. -/

/-- The 64-bit counter. -/
def tot (c : Ctx) : Nat := c.total1.toNat * 2 ^ 32 + c.total0.toNat

theorem tot_lt (c : Ctx) : tot c < 2 ^ 64 := by
  unfold tot
  have h1 := c.total0.isLt
  have h2 := c.total1.isLt
  omega

theorem tot_count (c : Ctx) (len : Nat) (h : len < 2 ^ 32) : tot (count c len) = (tot c + len) % 2 ^ 64 := by
  unfold tot count
  have h1 := c.total0.isLt
  have h2 := c.total1.isLt
  simp only [BitVec.toNat_add, BitVec.toNat_ofNat]
  rw [Nat.mod_eq_of_lt h]
  by_cases hc : (c.total0.toNat + len) % 2 ^ 32 < len
  · rw [if_pos hc, BitVec.toNat_add]
    have : (1 : W).toNat = 1 := rfl
    rw [this]
    omega
  · rw [if_neg hc]
    omega

/-- The count in one call for a long message. -/
def longCount (len : Nat) : Nat := if len % 2 ^ 32 < len then 2 ^ 32 + len % 2 ^ 32 else len

theorem tot_count_zero (c : Ctx) (len : Nat) (h0 : c.total0 = 0) (h1 : c.total1 = 0) :
    tot (count c len) = longCount len := by
  unfold tot count longCount
  have hz : ((0 : W) + BitVec.ofNat 32 len).toNat = len % 2 ^ 32 := by
    rw [show (0 : W) + BitVec.ofNat 32 len = BitVec.ofNat 32 len from BitVec.zero_add _, BitVec.toNat_ofNat]
  simp only [h0, h1, hz]
  by_cases hc : len % 2 ^ 32 < len
  · rw [if_pos hc, if_pos hc]
    rfl
  · rw [if_neg hc, if_neg hc]
    have : len % 2 ^ 32 ≤ len := Nat.mod_le _ _
    show 0 * 2 ^ 32 + len % 2 ^ 32 = len
    omega

/-! Memory. -/

theorem copyIn_eq (x y src : List Byte) (h : src.length ≤ y.length) :
    copyIn (x ++ y) x.length src = some (x ++ src ++ y.drop src.length) := by
  unfold copyIn
  rw [if_pos (by rw [List.length_append]; omega), List.take_left']
  · rw [List.drop_append]
    simp
  · rfl

theorem copyIn_zero (y src : List Byte) (h : src.length ≤ y.length) :
    copyIn y 0 src = some (src ++ y.drop src.length) := by
  have := copyIn_eq [] y src h
  simpa using this

theorem processBlock_eq (c : Ctx) (x y : List Byte) (n : Nat) (h : x.length = 64 * n) :
    ∃ c', processBlock c (x ++ y) (64 * n) = some c' ∧ toState c'.regs = blk n x (toState c.regs) ∧
      tot c' = tot (count c (64 * n)) ∧ c'.buffer = c.buffer ∧ c'.buflen = c.buflen := by
  unfold processBlock
  have hn : (64 * n / 4 + 15) / 16 = n := by omega
  simp only [hn]
  rw [if_neg (by rw [List.length_append]; omega)]
  refine ⟨_, rfl, ?_, rfl, rfl, rfl⟩
  show toState (blocks n (x ++ y) c.regs) = _
  rw [blocks_eq, blk_prefix n x y _ h]

/-- What a context stands for: the blocks `p` have been processed, `w` waits in the buffer, and the counter
has the value `t`. -/
structure Inv (c : Ctx) (p w : List Byte) (t : Nat) : Prop where
  size : c.buffer.length = 128
  len : c.buflen = w.length
  le : w.length ≤ 64
  buf : ∃ y, c.buffer = w ++ y
  mul : p.length % 64 = 0
  regs : toState c.regs = blk (p.length / 64) p Rfc.start
  count : tot c = t

theorem inv_init (junk : List Byte) (h : junk.length = 128) : Inv (init junk) [] [] 0 :=
  ⟨h, rfl, by simp, ⟨junk, rfl⟩, rfl, by rw [show ([] : List Byte).length / 64 = 0 from rfl, blk_zero]; rfl, by simp [tot, init]⟩

theorem Inv.process {c : Ctx} {p w : List Byte} {t : Nat} (h : Inv c p w t) (x y : List Byte) (n : Nat) (hx : x.length = 64 * n) :
    ∃ c', processBlock c (x ++ y) (64 * n) = some c' ∧ toState c'.regs = blk ((p ++ x).length / 64) (p ++ x) Rfc.start ∧
      tot c' = tot (Rep.Md5.count c (64 * n)) ∧ c'.buffer = c.buffer ∧ c'.buflen = c.buflen := by
  obtain ⟨c', e, h1, h2, h3, h4⟩ := processBlock_eq c x y n hx
  refine ⟨c', e, ?_, h2, h3, h4⟩
  rw [h1, h.regs]
  have hm := h.mul
  rw [← blk_append (p.length / 64) n p x Rfc.start (by omega), List.length_append]
  congr 1
  omega

/-- `md5_process_bytes` with an empty buffer. -/
theorem Inv.bulk {c : Ctx} {p : List Byte} {t : Nat} (h : Inv c p [] t) (m : List Byte) :
    ∃ c' p' w', bulk c m = some c' ∧ p ++ m = p' ++ w' ∧
      Inv c' p' w' (if m.length > 64 then tot (Rep.Md5.count c (m.length / 64 * 64)) else t) ∧
      p'.length = p.length + (if m.length > 64 then m.length / 64 * 64 else 0) := by
  unfold Rep.Md5.bulk
  by_cases hl : m.length > 64
  · simp only [if_pos hl]
    have hx : (m.take (m.length / 64 * 64)).length = 64 * (m.length / 64) := by rw [List.length_take]; omega
    obtain ⟨c1, e, h1, h2, h3, h4⟩ := h.process (m.take (m.length / 64 * 64)) (m.drop (m.length / 64 * 64)) _ hx
    rw [List.take_append_drop, Nat.mul_comm 64] at e
    rw [e]
    simp only [Option.map_some]
    have hd : (m.drop (m.length / 64 * 64)).length < 64 := by rw [List.length_drop]; omega
    have hpm : (p ++ m.take (m.length / 64 * 64)).length % 64 = 0 := by
      have := h.mul
      rw [List.length_append, hx]; omega
    have hcat : p ++ m = (p ++ m.take (m.length / 64 * 64)) ++ m.drop (m.length / 64 * 64) := by
      rw [List.append_assoc, List.take_append_drop]
    rw [Nat.mul_comm 64] at h2 hx
    generalize m.drop (m.length / 64 * 64) = w at *
    by_cases h0 : w.length > 0
    · rw [if_pos h0, copyIn_zero _ _ (by rw [h3, h.size]; omega)]
      simp only [Option.map_some]
      refine ⟨_, p ++ m.take (m.length / 64 * 64), w, rfl, hcat, ⟨?_, rfl, by omega, ⟨_, rfl⟩, hpm, h1, h2⟩, ?_⟩
      · show (w ++ _).length = 128
        rw [List.length_append, List.length_drop, h3, h.size]; omega
      · rw [List.length_append, hx]
    · rw [if_neg h0]
      have hw : w = [] := List.length_eq_zero_iff.mp (by omega)
      subst hw
      refine ⟨c1, p ++ m.take (m.length / 64 * 64), [], rfl, hcat, ⟨by rw [h3, h.size], by rw [h4, h.len], by simp, ⟨_, rfl⟩, hpm, h1, h2⟩, ?_⟩
      rw [List.length_append, hx]
  · simp only [if_neg hl]
    by_cases h0 : m.length > 0
    · rw [if_pos h0, copyIn_zero _ _ (by rw [h.size]; omega)]
      simp only [Option.map_some]
      refine ⟨_, p, m, rfl, rfl, ⟨?_, rfl, by omega, ⟨_, rfl⟩, h.mul, h.regs, h.count⟩, rfl⟩
      show (m ++ _).length = 128
      rw [List.length_append, List.length_drop, h.size]; omega
    · rw [if_neg h0]
      have hw : m = [] := List.length_eq_zero_iff.mp (by omega)
      subst hw
      exact ⟨c, p, [], rfl, rfl, h, rfl⟩

theorem bulk_nil (c : Ctx) : bulk c [] = some c := by
  unfold bulk
  simp

theorem tot_congr {c c' : Ctx} (n : Nat) (h0 : c.total0 = c'.total0) (h1 : c.total1 = c'.total1) :
    tot (count c n) = tot (count c' n) := by
  unfold tot count
  simp only [h0, h1]

/-- `md5_process_bytes` with bytes in the buffer. -/
theorem Inv.fill {c : Ctx} {p w : List Byte} {t : Nat} (h : Inv c p w t) (m : List Byte) :
    ∃ c' add p' w', fillBuffer c m = some (c', add) ∧ add ≤ m.length ∧ p ++ w ++ m.take add = p' ++ w' ∧
      (add < m.length → w' = []) ∧ p'.length ≤ p.length + 128 ∧ p.length ≤ p'.length ∧
      Inv c' p' w' ((t + (p'.length - p.length)) % 2 ^ 64) := by
  obtain ⟨y, hy⟩ := h.buf
  have hyl : w.length + y.length = 128 := by rw [← h.size, hy, List.length_append]
  have hle := h.le
  have htt : t < 2 ^ 64 := h.count ▸ tot_lt c
  unfold fillBuffer
  simp only [h.len]
  generalize ha : (if 128 - w.length > m.length then m.length else 128 - w.length) = add
  have hadd : add ≤ m.length := by rw [← ha]; split <;> omega
  have hadd2 : w.length + add ≤ 128 := by rw [← ha]; split <;> omega
  have hfull : add < m.length → w.length + add = 128 := by
    intro hlt
    rw [← ha] at hlt ⊢
    split at hlt <;> rename_i hh
    · omega
    · rw [if_neg hh]; omega
  have hml : (m.take add).length = add := by rw [List.length_take]; omega
  rw [hy, copyIn_eq w y (m.take add) (by rw [hml]; omega)]
  simp only
  by_cases hg : w.length + add > 64
  · rw [if_pos hg]
    generalize hu : w ++ m.take add = u
    have hul : u.length = w.length + add := by rw [← hu, List.length_append, hml]
    have hq : (w.length + add) / 64 * 64 = 64 * (u.length / 64) := by rw [hul]; omega
    have hr : (w.length + add) % 64 = u.length % 64 := by rw [hul]
    rw [hq, hr]
    generalize hz : y.drop (m.take add).length = z
    have hzl : u.length + z.length = 128 := by
      rw [← hz, List.length_drop, hml, hul]; omega
    have hx : (u.take (64 * (u.length / 64))).length = 64 * (u.length / 64) := by rw [List.length_take]; omega
    generalize hc1 : ({ c with buffer := u ++ z, buflen := w.length + add } : Ctx) = c1
    obtain ⟨c2, e, r1, r2, r3, r4⟩ := processBlock_eq c1 (u.take (64 * (u.length / 64)))
      (u.drop (64 * (u.length / 64)) ++ z) (u.length / 64) hx
    have hb1 : c1.buffer = u ++ z := by rw [← hc1]
    have hr1 : c1.regs = c.regs := by rw [← hc1]
    rw [← List.append_assoc, List.take_append_drop] at e
    rw [e]
    simp only
    rw [r3, hb1]
    have hd : ((u ++ z).drop (64 * (u.length / 64))).take (u.length % 64) = u.drop (64 * (u.length / 64)) := by
      rw [List.drop_append_of_le_length (by omega), List.take_append_of_le_length (by rw [List.length_drop]; omega)]
      exact List.take_of_length_le (by rw [List.length_drop]; omega)
    rw [hd]
    have hwl : (u.drop (64 * (u.length / 64))).length = u.length % 64 := by rw [List.length_drop]; omega
    rw [copyIn_zero _ _ (by rw [hwl, List.length_append]; omega)]
    simp only
    have hpl : (p ++ u.take (64 * (u.length / 64))).length = p.length + 64 * (u.length / 64) := by
      rw [List.length_append, hx]
    have hmul := h.mul
    refine ⟨_, add, p ++ u.take (64 * (u.length / 64)), u.drop (64 * (u.length / 64)), rfl, hadd, ?_, ?_, ?_, ?_, ?_⟩
    · rw [List.append_assoc, hu, List.append_assoc, List.take_append_drop]
    · intro hlt
      have := hfull hlt
      apply List.length_eq_zero_iff.mp
      rw [hwl, hul, this]
    · rw [hpl]; omega
    · rw [hpl]; omega
    · refine ⟨?_, hwl.symm, by rw [hwl]; omega, ⟨_, rfl⟩, by rw [hpl]; omega, ?_, ?_⟩
      · show (_ ++ _ : List Byte).length = 128
        rw [List.length_append, List.length_drop (l := u ++ z), hwl, List.length_append]; omega
      · show toState c2.regs = _
        rw [r1, hr1, h.regs, ← blk_append (p.length / 64) (u.length / 64) p _ Rfc.start (by omega), hpl]
        congr 1
        omega
      · show tot c2 = _
        rw [r2, tot_congr (c' := c) _ (by rw [← hc1]) (by rw [← hc1]), tot_count _ _ (by omega), h.count, hpl]
        congr 1
        omega
  · rw [if_neg hg]
    refine ⟨_, add, p, w ++ m.take add, rfl, hadd, by rw [List.append_assoc], ?_, by omega, le_rfl, ?_⟩
    · intro hlt
      have := hfull hlt
      omega
    · refine ⟨?_, ?_, ?_, ⟨_, rfl⟩, h.mul, h.regs, ?_⟩
      · show (_ ++ _ : List Byte).length = 128
        rw [List.length_append, List.length_append, List.length_drop, hml]; omega
      · rw [List.length_append, hml]
      · rw [List.length_append, hml]; omega
      · show tot c = _
        rw [h.count]
        omega

/-- `md5_process_bytes` -/
theorem Inv.bytes {c : Ctx} {p w : List Byte} (h : Inv c p w (p.length % 2 ^ 64)) (m : List Byte) (hm : m.length < 2 ^ 32) :
    ∃ c' p' w', processBytes c m = some c' ∧ p ++ w ++ m = p' ++ w' ∧ Inv c' p' w' (p'.length % 2 ^ 64) := by
  unfold processBytes
  by_cases h0 : c.buflen ≠ 0
  · rw [if_pos h0]
    obtain ⟨c1, add, p1, w1, e, ha, hcat, hfull, hl1, hl2, i1⟩ := h.fill m
    rw [e]
    simp only
    have i1' : Inv c1 p1 w1 (p1.length % 2 ^ 64) := by
      have : (p.length % 2 ^ 64 + (p1.length - p.length)) % 2 ^ 64 = p1.length % 2 ^ 64 := by omega
      rwa [this] at i1
    by_cases hlt : add < m.length
    · have hw := hfull hlt
      subst hw
      obtain ⟨c2, p2, w2, e2, hc2, i2, hl⟩ := i1'.bulk (m.drop add)
      refine ⟨c2, p2, w2, e2, ?_, ?_⟩
      · rw [← List.take_append_drop add m, ← List.append_assoc, hcat, List.append_nil]
        exact hc2
      · have hlen : (m.drop add).length ≤ m.length := by rw [List.length_drop]; omega
        split at i2
        · rename_i hg
          rw [if_pos hg] at hl
          rw [tot_count _ _ (by omega), i1'.count] at i2
          rw [hl]
          have : (p1.length % 2 ^ 64 + (m.drop add).length / 64 * 64) % 2 ^ 64 = (p1.length + (m.drop add).length / 64 * 64) % 2 ^ 64 := by
            omega
          rwa [this] at i2
        · rename_i hg
          rw [if_neg hg] at hl
          rw [hl]
          exact i2
    · have hd : m.drop add = [] := List.drop_eq_nil_of_le (by omega)
      rw [hd, bulk_nil]
      refine ⟨c1, p1, w1, rfl, ?_, i1'⟩
      rw [← hcat, List.take_of_length_le (by omega)]
  · rw [if_neg h0]
    have hw : w = [] := List.length_eq_zero_iff.mp (by rw [← h.len]; omega)
    subst hw
    obtain ⟨c2, p2, w2, e2, hc2, i2, hl⟩ := h.bulk m
    refine ⟨c2, p2, w2, e2, by rw [List.append_nil]; exact hc2, ?_⟩
    split at i2
    · rename_i hg
      rw [if_pos hg] at hl
      rw [tot_count _ _ (by omega), h.count] at i2
      rw [hl]
      have : (p.length % 2 ^ 64 + m.length / 64 * 64) % 2 ^ 64 = (p.length + m.length / 64 * 64) % 2 ^ 64 := by omega
      rwa [this] at i2
    · rename_i hg
      rw [if_neg hg] at hl
      rw [hl]
      exact i2

/-! The end. -/

theorem store_eq (w : W) : store w = Rfc.lowBytes 4 w.toNat := by
  unfold store Rfc.lowBytes
  have h : ∀ k, (w >>> k).setWidth 8 = BitVec.ofNat 8 (w.toNat / 2 ^ k) := by
    intro k
    apply BitVec.eq_of_toNat_eq
    simp [Nat.shiftRight_eq_div_pow]
  have h0 : w.setWidth 8 = BitVec.ofNat 8 w.toNat := by
    apply BitVec.eq_of_toNat_eq
    simp
  simp only [List.range, List.range.loop, List.map_cons, List.map_nil]
  rw [h0, h 8, h 16, h 24]
  norm_num

theorem lowBytes_mod (x : Nat) : Rfc.lowBytes 4 x = Rfc.lowBytes 4 (x % 2 ^ 32) := by
  unfold Rfc.lowBytes
  simp only [List.range, List.range.loop, List.map_cons, List.map_nil, List.cons.injEq, and_true]
  refine ⟨?_, ?_, ?_, ?_⟩ <;> apply BitVec.eq_of_toNat_eq <;> simp only [BitVec.toNat_ofNat] <;> norm_num <;> omega

theorem lowBytes_eight (x : Nat) : Rfc.lowBytes 8 x = Rfc.lowBytes 4 (x % 2 ^ 32) ++ Rfc.lowBytes 4 (x / 2 ^ 32 % 2 ^ 32) := by
  rw [← lowBytes_mod, ← lowBytes_mod]
  unfold Rfc.lowBytes
  simp only [List.range, List.range.loop, List.map_cons, List.map_nil, List.cons_append, List.nil_append, Nat.div_div_eq_div_mul]
  norm_num

/-- The two words that give the length in bits. -/
theorem bits_eq (t0 t1 : W) (x : Nat) (h : t1.toNat * 2 ^ 32 + t0.toNat = x % 2 ^ 64) :
    store (BitVec.shiftLeft t0 3) ++ store (BitVec.shiftLeft t1 3 ||| BitVec.ushiftRight t0 29) = Rfc.lowBytes 8 (8 * x) := by
  have l0 := t0.isLt
  have l1 := t1.isLt
  rw [store_eq, store_eq, lowBytes_eight]
  have e0 : (BitVec.shiftLeft t0 3).toNat = 8 * x % 2 ^ 32 := by
    show (t0 <<< 3).toNat = _
    rw [BitVec.toNat_shiftLeft, Nat.shiftLeft_eq]
    omega
  have e1 : (BitVec.shiftLeft t1 3 ||| BitVec.ushiftRight t0 29).toNat = 8 * x / 2 ^ 32 % 2 ^ 32 := by
    show ((t1 <<< 3) ||| (t0 >>> 29)).toNat = _
    rw [BitVec.toNat_or, BitVec.toNat_shiftLeft, BitVec.toNat_ushiftRight, Nat.shiftLeft_eq, Nat.shiftRight_eq_div_pow]
    have h3 : t1.toNat * 2 ^ 3 % 2 ^ 32 = (t1.toNat % 2 ^ 29) <<< 3 := by rw [Nat.shiftLeft_eq]; omega
    rw [h3, ← Nat.shiftLeft_add_eq_or_of_lt (by omega), Nat.shiftLeft_eq]
    omega
  rw [e0, e1]

theorem store_length (w : W) : (store w).length = 4 := rfl

theorem readCtx_eq (c : Ctx) : readCtx c = Rfc.output (toState c.regs) := by
  unfold readCtx Rfc.output toState
  simp only [store_eq]

theorem fill_take (n : Nat) (h1 : 1 ≤ n) (h2 : n ≤ 64) : fillbuf.take n = 0x80 :: List.replicate (n - 1) 0 := by
  obtain ⟨k, rfl⟩ : ∃ k, n = k + 1 := ⟨n - 1, by omega⟩
  unfold fillbuf
  rw [List.take_succ_cons, List.take_replicate, Nat.min_eq_left (by omega)]
  rfl

/-- `md5_finish_ctx` -/
theorem Inv.finish {c : Ctx} {p w : List Byte} {t : Nat} (h : Inv c p w t) :
    finish c = some (Rfc.digestWith (8 * (t + w.length)) (p ++ w)) := by
  obtain ⟨y, hy⟩ := h.buf
  have hyl : w.length + y.length = 128 := by rw [← h.size, hy, List.length_append]
  have hle := h.le
  have hmul := h.mul
  unfold Rep.Md5.finish finishPad
  simp only [h.len]
  generalize hc1 : Rep.Md5.count c w.length = c1
  have hbuf : c1.buffer = w ++ y := by rw [← hc1]; exact hy
  have htot : tot c1 = (t + w.length) % 2 ^ 64 := by rw [← hc1, tot_count _ _ (by omega), h.count]
  have hreg : c1.regs = c.regs := by rw [← hc1]; rfl
  generalize hp : (if w.length ≥ 56 then 64 + 56 - w.length else 56 - w.length) = n
  have hn : 1 ≤ n ∧ n ≤ 64 ∧ (w.length + n + 8 = 64 ∨ w.length + n + 8 = 128) ∧ n - 1 = (119 - (p ++ w).length % 64) % 64 := by
    rw [List.length_append, ← hp]
    split <;> omega
  obtain ⟨n1, n2, n3, n4⟩ := hn
  have hfl : (fillbuf.take n).length = n := by rw [List.length_take]; show min n 64 = n; omega
  rw [hbuf, copyIn_eq w y _ (by rw [hfl]; omega)]
  simp only
  have hz1 : (y.drop (fillbuf.take n).length).length = 128 - w.length - n := by rw [List.length_drop, hfl]; omega
  generalize y.drop (fillbuf.take n).length = z at *
  rw [show w.length + n = (w ++ fillbuf.take n).length by rw [List.length_append, hfl],
    copyIn_eq _ z _ (by rw [store_length, hz1]; omega)]
  simp only
  have hz2 : (z.drop (store (BitVec.shiftLeft c1.total0 3)).length).length = 124 - w.length - n := by
    rw [List.length_drop, store_length, hz1]; omega
  generalize z.drop (store (BitVec.shiftLeft c1.total0 3)).length = z2 at *
  rw [show (w ++ fillbuf.take n).length + 4 = (w ++ fillbuf.take n ++ store (BitVec.shiftLeft c1.total0 3)).length by
      rw [List.length_append (bs := store _), store_length],
    copyIn_eq _ z2 _ (by rw [store_length, hz2]; omega)]
  simp only
  generalize z2.drop (store (BitVec.shiftLeft c1.total1 3 ||| BitVec.ushiftRight c1.total0 29)).length = z3
  have hx : (w ++ fillbuf.take n ++ store (BitVec.shiftLeft c1.total0 3) ++
      store (BitVec.shiftLeft c1.total1 3 ||| BitVec.ushiftRight c1.total0 29)).length = 64 * ((w.length + n + 8) / 64) := by
    rw [List.length_append, List.length_append, List.length_append, store_length, store_length, hfl]; omega
  rw [show (w ++ fillbuf.take n).length + 8 = 64 * ((w.length + n + 8) / 64) by rw [List.length_append, hfl]; omega]
  obtain ⟨c2, e, r1, -, -, -⟩ := processBlock_eq c1 _ z3 _ hx
  rw [e]
  simp only [Option.map_some, Option.some.injEq]
  rw [readCtx_eq, r1, hreg, h.regs]
  unfold Rfc.digestWith
  rw [allBlocks_eq, ← blk_append (p.length / 64) _ p _ Rfc.start (by omega)]
  rw [List.append_assoc _ (store _) (store _), bits_eq c1.total0 c1.total1 (t + w.length) htot, fill_take n n1 n2, n4]
  have hpad : p ++ (w ++ 128#8 :: List.replicate ((119 - (p ++ w).length % 64) % 64) 0 ++ Rfc.lowBytes 8 (8 * (t + w.length))) =
      Rfc.pad (p ++ w) (8 * (t + w.length)) := by
    unfold Rfc.pad
    simp only [List.append_assoc, List.cons_append, List.nil_append]
    rfl
  have hlen : (Rfc.pad (p ++ w) (8 * (t + w.length))).length = p.length + (w.length + n + 8) := by
    unfold Rfc.pad
    rw [List.length_append, List.length_append, List.length_append, List.length_replicate, ← n4]
    unfold Rfc.lowBytes
    rw [List.length_map, List.length_range, List.length_append]
    simp only [List.length_cons, List.length_nil]
    omega
  rw [show (0x80 : Byte) = 128#8 from rfl, hpad, hlen]
  congr 2
  omega

end Rep.Md5
