/-
Every operation keeps the invariant and has the effect of the operation on the map.
-/
import Verif.Sdbm.DbMap

namespace Rep.Sdbm

variable {db : Db (List Pair)} {pg : Nat → List Pair} {D : Nat → Prop} {M : Bytes → Option Bytes}

section
variable {P : Type} (db : Db P) (n : Nat)

theorem loadDir_eq : ∃ x y, loadDir db n = { db with dirbuf := x, dirbno := y } := by
  unfold loadDir
  dsimp only
  split
  · exact ⟨_, _, rfl⟩
  · exact ⟨db.dirbuf, db.dirbno, rfl⟩

theorem setdbit_eq : ∃ x y z, setdbit db n = { db with dirbuf := x, dirbno := y, maxbno := z, dirf := db.dirf.write (n / 8 / 4096) x } := by
  obtain ⟨x, y, e⟩ := loadDir_eq db n
  unfold setdbit
  dsimp only
  rw [e]
  exact ⟨_, _, _, rfl⟩

theorem setdbit_size : (setdbit db n).dirf.size = max db.dirf.size (n / 8 / 4096 + 1) := by
  obtain ⟨x, y, z, e⟩ := setdbit_eq db n
  rw [e]
  rfl

end

theorem dirOK_set (h : DirOK db D) (n : Nat) (hn : n < 32768) : DirOK (setdbit db n) (addBit D n) := by
  have hs := h.size
  have hm := h.maxbno
  have hidx : n / 8 % 4096 * 8 + n % 8 = n := by omega
  have hz : n / 8 / 4096 = 0 := by omega
  -- the block in memory
  have hload : DirOK (loadDir db n) D ∧ (loadDir db n).dirbuf = (db.dirf.read 0 0).getD 0 ∧ (loadDir db n).dirbno = 0 ∧
      (loadDir db n).maxbno = db.maxbno ∧ (loadDir db n).dirf = db.dirf := by
    unfold loadDir
    rw [hz]
    dsimp only
    rcases h.buf with hd | ⟨hd, hbuf⟩
    · have h1 : db.dirf.size = 1 := by
        have := h.empty
        by_contra hc
        have := this (by omega)
        omega
      rw [if_pos (by rw [hd]; decide)]
      obtain ⟨c, hc⟩ : ∃ c, db.dirf.read 0 0 = some c := by
        unfold File.read; rw [if_pos (by omega)]; exact ⟨_, rfl⟩
      refine ⟨{ h with buf := Or.inr ⟨rfl, by simp [hc]⟩, empty := fun _ => rfl }, ?_, rfl, rfl, rfl⟩
      simp only [hc, Option.getD_some]
    · rw [if_neg (by rw [hd]; simp)]
      exact ⟨h, hbuf, hd, rfl, rfl⟩
  obtain ⟨h1, h2, h3, h4, h5⟩ := hload
  unfold setdbit
  rw [hidx, hz]
  dsimp only
  rw [h2, h4, h5]
  refine ⟨?_, ?_, ?_, ?_, ?_⟩
  · show max db.dirf.size 1 ≤ 1
    omega
  · intro m
    show addBit D n m ↔ _
    unfold addBit
    rw [read_write_self, Option.getD_some, Nat.testBit_or, Nat.testBit_two_pow, h.bits]
    simp only [Bool.or_eq_true, decide_eq_true_eq]
    constructor
    · rintro (⟨a, b⟩ | rfl)
      · exact ⟨a, Or.inl b⟩
      · exact ⟨hn, Or.inr rfl⟩
    · rintro ⟨a, b | b⟩
      · exact Or.inl ⟨a, b⟩
      · exact Or.inr b.symm
  · show (if n ≥ db.maxbno then db.maxbno + 4096 * 8 else db.maxbno) = max db.dirf.size (0 + 1) * 32768
    rcases (by omega : db.dirf.size = 0 ∨ db.dirf.size = 1) with e | e
    · have e' : db.maxbno = 0 := by rw [hm, e]
      rw [e, e', if_pos (Nat.zero_le n)]
      rfl
    · have e' : db.maxbno = 32768 := by rw [hm, e]
      rw [e, e', if_neg (by omega)]
      rfl
  · right
    refine ⟨h3, ?_⟩
    show _ = ((db.dirf.write 0 _).read 0 0).getD 0
    rw [read_write_self]; rfl
  · intro _; exact h3

theorem newp_eq (h d : Nat) : (h &&& (2 ^ d - 1)) ||| (2 ^ d - 1 + 1) = h % 2 ^ d + 2 ^ d := by
  have hp : 0 < 2 ^ d := Nat.two_pow_pos d
  have := Nat.two_pow_add_eq_or_of_lt (Nat.mod_lt h hp) 1
  rw [Nat.mul_one] at this
  rw [Nat.and_two_pow_sub_one_eq_mod, Nat.sub_add_cancel hp, Nat.or_comm, ← this, Nat.add_comm]

theorem Dirty.setdbit {b : Nat} (h : Dirty db pg D b) (n : Nat) (hn : n < 32768)
    (hl : ∀ h' d', Leaf (addBit D n) h' d' → h' % 2 ^ d' < db.pagf.size ∨ h' % 2 ^ d' = b) : Dirty (setdbit db n) pg (addBit D n) b := by
  have hd := dirOK_set h.dir n hn
  obtain ⟨x, y, z, e⟩ := setdbit_eq db n
  rw [e] at hd ⊢
  exact ⟨hd, h.wf, h.pagbno, h.pagbuf, h.pagf, hl⟩

theorem place_low {h d : Nat} (hm : db.hmask = 2 ^ d - 1) (ht : h.testBit d = false) (tw : List Pair) :
    place db h tw = { db with pagf := db.pagf.write (h % 2 ^ d + 2 ^ d) tw, pos := h % 2 ^ d + 2 ^ d + 1 } := by
  have hz : ¬(h &&& (2 ^ d - 1 + 1) ≠ 0) := by
    rw [Nat.sub_add_cancel (Nat.two_pow_pos d), and_pow_ne, ht]; simp
  have e := newp_eq h d
  rw [← hm] at e hz
  unfold place
  dsimp only
  rw [if_neg hz, e]

theorem place_high {h d : Nat} (hm : db.hmask = 2 ^ d - 1) (ht : h.testBit d = true) (tw : List Pair) :
    place db h tw = { flush db with pagbno := ((h % 2 ^ d + 2 ^ d : Nat) : Int), pagbuf := tw } := by
  have hz : h &&& (2 ^ d - 1 + 1) ≠ 0 := by
    rw [Nat.sub_add_cancel (Nat.two_pow_pos d), and_pow_ne, ht]
  have e := newp_eq h d
  rw [← hm] at e hz
  unfold place
  dsimp only
  rw [if_pos hz, e]

theorem place_spec {h d : Nat} (hd : Dirty db pg D (h % 2 ^ d)) (hm : db.hmask = 2 ^ d - 1) :
    Dirty (place { db with pagbuf := (pg (h % 2 ^ d)).filter fun kv => hash kv.1 &&& 2 ^ d == 0 } h
      ((pg (h % 2 ^ d)).filter fun kv => hash kv.1 &&& 2 ^ d != 0)) (splitPages pg (h % 2 ^ d) d) D (h % 2 ^ (d + 1)) ∧
    (∀ b, b = h % 2 ^ d ∨ b = h % 2 ^ d + 2 ^ d →
      b < (place { db with pagbuf := (pg (h % 2 ^ d)).filter fun kv => hash kv.1 &&& 2 ^ d == 0 } h
        ((pg (h % 2 ^ d)).filter fun kv => hash kv.1 &&& 2 ^ d != 0)).pagf.size ∨ b = h % 2 ^ (d + 1)) := by
  have hp : 0 < 2 ^ d := Nat.two_pow_pos d
  have hbno : db.pagbno.toNat = h % 2 ^ d := by rw [hd.pagbno]; exact Int.toNat_natCast _
  cases ht : h.testBit d
  · rw [place_low (db := { db with pagbuf := (pg (h % 2 ^ d)).filter fun kv => hash kv.1 &&& 2 ^ d == 0 }) (d := d) hm ht, mod_succ, ht]
    simp only [Bool.false_eq_true, if_false, Nat.add_zero]
    refine ⟨⟨⟨hd.dir.size, hd.dir.bits, hd.dir.maxbno, hd.dir.buf, hd.dir.empty⟩, hd.wf.write _ _, hd.pagbno, ?_, ?_, ?_⟩, ?_⟩
    · show _ = splitPages pg _ d _
      unfold splitPages setPage
      rw [if_neg (by omega), if_pos rfl]
    · intro i hi
      show splitPages pg _ d i = ((db.pagf.write _ _).read [] i).getD []
      unfold splitPages setPage
      by_cases hi2 : i = h % 2 ^ d + 2 ^ d
      · rw [if_pos hi2, hi2, read_write_self]; rfl
      · rw [if_neg hi2, if_neg hi, read_write_getD hd.wf _ _ _ _ hi2]
        exact hd.pagf i hi
    · intro h' d' hL'
      show h' % 2 ^ d' < max db.pagf.size _ ∨ _
      rcases hd.leaves h' d' hL' with h1 | h1
      · left; omega
      · exact Or.inr h1
    · rintro b (rfl | rfl)
      · exact Or.inr rfl
      · left; show _ < max db.pagf.size _; omega
  · rw [place_high (db := { db with pagbuf := (pg (h % 2 ^ d)).filter fun kv => hash kv.1 &&& 2 ^ d == 0 }) (d := d) hm ht, mod_succ, ht]
    simp only [if_true]
    unfold flush
    simp only [hbno]
    refine ⟨⟨⟨hd.dir.size, hd.dir.bits, hd.dir.maxbno, hd.dir.buf, hd.dir.empty⟩, hd.wf.write _ _, rfl, ?_, ?_, ?_⟩, ?_⟩
    · show _ = splitPages pg _ d _
      unfold splitPages setPage
      rw [if_pos rfl]
    · intro i hi
      show splitPages pg _ d i = ((db.pagf.write _ _).read [] i).getD []
      unfold splitPages setPage
      by_cases hi2 : i = h % 2 ^ d
      · rw [if_neg hi, if_pos hi2, hi2, read_write_self]; rfl
      · rw [if_neg hi, if_neg hi2, read_write_getD hd.wf _ _ _ _ hi2]
        exact hd.pagf i hi2
    · intro h' d' hL'
      show h' % 2 ^ d' < max db.pagf.size _ ∨ _
      rcases hd.leaves h' d' hL' with h1 | h1
      · left; omega
      · left; omega
    · rintro b (rfl | rfl)
      · left; show _ < max db.pagf.size _; omega
      · exact Or.inr rfl

theorem place_rest (db : Db (List Pair)) (h : Nat) (tw : List Pair) :
    (place db h tw).dirf = db.dirf ∧ (place db h tw).rdonly = db.rdonly ∧ (place db h tw).curbit = db.curbit ∧
      (place db h tw).hmask = db.hmask := by
  unfold place
  dsimp only
  split
  · exact ⟨rfl, rfl, rfl, rfl⟩
  · exact ⟨rfl, rfl, rfl, rfl⟩

/-- What a split does to the rest of the state. -/
theorem splitOnce_rest (db : Db (List Pair)) (h : Nat) : ∃ db', splitOnce lists db h = some db' ∧
    db'.dirf.size = max db.dirf.size (db.curbit / 8 / 4096 + 1) ∧ db'.rdonly = db.rdonly ∧ db'.curbit = db.curbit ∧ db'.hmask = db.hmask := by
  have key : ∀ (lo hi : List Pair) (c : Nat), (setdbit (place { db with pagbuf := lo } h hi) c).dirf.size = max db.dirf.size (c / 8 / 4096 + 1) ∧
      (setdbit (place { db with pagbuf := lo } h hi) c).rdonly = db.rdonly ∧
      (setdbit (place { db with pagbuf := lo } h hi) c).curbit = db.curbit ∧
      (setdbit (place { db with pagbuf := lo } h hi) c).hmask = db.hmask := by
    intro lo hi c
    have hr := place_rest { db with pagbuf := lo } h hi
    refine ⟨by rw [setdbit_size, hr.1], ?_⟩
    obtain ⟨x, y, z, e⟩ := setdbit_eq (place { db with pagbuf := lo } h hi) c
    rw [e]
    exact ⟨hr.2.1, hr.2.2.1, hr.2.2.2⟩
  exact ⟨_, rfl, key _ _ _⟩

theorem splitOnce_spec {h d : Nat} (hc : Core pg D) (hd : Dirty db pg D (h % 2 ^ d)) (hL : Leaf D h d)
    (hcur : db.curbit = node h d) (hmask : db.hmask = 2 ^ d - 1) (hb : node h d < 32768) {db' : Db (List Pair)}
    (hs : splitOnce lists db h = some db') :
    Dirty db' (splitPages pg (h % 2 ^ d) d) (addBit D (node h d)) (h % 2 ^ (d + 1)) := by
  have hsb : db.hmask + 1 = 2 ^ d := by rw [hmask]; exact Nat.sub_add_cancel (Nat.two_pow_pos d)
  have hlo : (db.pagbuf.filter fun kv => hash kv.1 &&& (db.hmask + 1) == 0) = (pg (h % 2 ^ d)).filter fun kv => hash kv.1 &&& 2 ^ d == 0 := by
    rw [hsb, hd.pagbuf]
  have hhi : (db.pagbuf.filter fun kv => hash kv.1 &&& (db.hmask + 1) != 0) = (pg (h % 2 ^ d)).filter fun kv => hash kv.1 &&& 2 ^ d != 0 := by
    rw [hsb, hd.pagbuf]
  obtain ⟨h1, h2⟩ := place_spec hd hmask
  have e : splitOnce lists db h = some (setdbit (place { db with pagbuf := db.pagbuf.filter fun kv => hash kv.1 &&& (db.hmask + 1) == 0 } h
      (db.pagbuf.filter fun kv => hash kv.1 &&& (db.hmask + 1) != 0)) db.curbit) := rfl
  rw [hlo, hhi] at e
  have e2 := e.trans (congrArg some (congrArg (setdbit _) hcur))
  rw [e2] at hs
  cases hs
  refine Dirty.setdbit h1 _ hb ?_
  intro h' d' hL'
  rw [leaf_addBit hc.closed hL] at hL'
  split at hL'
  · rename_i e
    subst hL'
    rw [mod_succ h', e]
    cases h'.testBit d
    · exact h2 _ (Or.inl (by simp))
    · exact h2 _ (Or.inr (by simp))
  · exact h1.leaves h' d' hL'

theorem deepen_spec {h d b : Nat} (hd : Dirty db pg D b) (hcur : db.curbit = node h d) (hmask : db.hmask = 2 ^ d - 1) :
    Clean (deepen db h) pg D ∧ (deepen db h).curbit = node h (d + 1) ∧ (deepen db h).hmask = 2 ^ (d + 1) - 1 ∧
      (deepen db h).pagbno = b ∧ (deepen db h).pagbuf = pg b ∧ (deepen db h).rdonly = db.rdonly ∧ (deepen db h).dirf = db.dirf := by
  have hp : 0 < 2 ^ d := Nat.two_pow_pos d
  unfold deepen
  refine ⟨Dirty.flush (b := b) ⟨⟨hd.dir.size, hd.dir.bits, hd.dir.maxbno, hd.dir.buf, hd.dir.empty⟩, hd.wf, hd.pagbno, hd.pagbuf, hd.pagf, hd.leaves⟩,
    ?_, ?_, hd.pagbno, hd.pagbuf, rfl, rfl⟩
  · show 2 * db.curbit + (if h &&& (db.hmask + 1) ≠ 0 then 2 else 1) = _
    rw [hcur, hmask, Nat.sub_add_cancel hp]
    simp only [node, and_pow_ne]
  · show db.hmask ||| (db.hmask + 1) = _
    have := Nat.two_pow_add_eq_or_of_lt (show 2 ^ d - 1 < 2 ^ d by omega) 1
    rw [Nat.mul_one] at this
    rw [hmask, Nat.sub_add_cancel hp, Nat.or_comm, ← this, Nat.pow_succ]
    omega

/-- `makroom` always returns, and the directory does not shrink. -/
theorem makroom_total (h : Nat) (need : Int) : ∀ (n : Nat) (db : Db (List Pair)),
    ∃ db' ok, makroom lists h need n db = some (db', ok) ∧ db.dirf.size ≤ db'.dirf.size ∧ db'.rdonly = db.rdonly := by
  intro n
  induction n with
  | zero => intro db; exact ⟨db, false, rfl, Nat.le_refl _, rfl⟩
  | succ n ih =>
    intro db
    obtain ⟨db1, e, h1, h2, -⟩ := splitOnce_rest db h
    unfold makroom
    rw [e, Option.bind_some]
    split
    · exact ⟨db1, true, rfl, by omega, h2⟩
    · obtain ⟨db', ok, e', h3, h4⟩ := ih (deepen db1 h)
      have h5 : (deepen db1 h).dirf = db1.dirf := rfl
      have h6 : (deepen db1 h).rdonly = db1.rdonly := rfl
      exact ⟨db', ok, e', by rw [h5] at h3; omega, by rw [h4, h6, h2]⟩

/-- What `makroom` achieves. -/
def Made (h : Nat) (need : Int) (M : Bytes → Option Bytes) (n d : Nat) (db' : Db (List Pair)) (ok : Bool) : Prop :=
  ∃ pg' D' d', Core pg' D' ∧ Abs pg' D' M ∧ Leaf D' h d' ∧ Dirty db' pg' D' (h % 2 ^ d') ∧
    (ok = true → lists.fit (pg' (h % 2 ^ d')) need = true) ∧
    (ok = false → Clean db' pg' D' ∧ d + n ≤ d' ∧ lists.fit (pg' (h % 2 ^ d')) need = false)

theorem Clean.dirty' {h d : Nat} (hc : Clean db pg D) (hL : Leaf D h d) (hp : db.pagbno = ((h % 2 ^ d : Nat) : Int))
    (hb : db.pagbuf = pg (h % 2 ^ d)) : Dirty db pg D (h % 2 ^ d) := by
  have := hc.dirty hL hp db.pagbuf
  have e : (fun i => if i = h % 2 ^ d then db.pagbuf else pg i) = pg := by
    funext i
    split
    · rename_i e; rw [hb, e]
    · rfl
  rw [e] at this
  exact this

theorem makroom_spec (h : Nat) (need : Int) : ∀ (n : Nat) (db db' : Db (List Pair)) (ok : Bool) (pg : Nat → List Pair) (D : Nat → Prop) (d : Nat),
    Core pg D → Abs pg D M → Leaf D h d → Dirty db pg D (h % 2 ^ d) → db.curbit = node h d → db.hmask = 2 ^ d - 1 →
    (n = 0 → Clean db pg D) → lists.fit (pg (h % 2 ^ d)) need = false →
    makroom lists h need n db = some (db', ok) → db'.dirf.size ≤ 1 → Made h need M n d db' ok := by
  intro n
  induction n with
  | zero =>
    intro db db' ok pg D d hc ha hL hd _ _ h0 hfit e _
    cases e
    exact ⟨pg, D, d, hc, ha, hL, hd, by simp, fun _ => ⟨h0 rfl, Nat.le_refl _, hfit⟩⟩
  | succ n ih =>
    intro db db' ok pg D d hc ha hL hd hcur hmask _ _ e hsize
    obtain ⟨db1, e1, h1, h2, h3, h4⟩ := splitOnce_rest db h
    unfold makroom at e
    rw [e1, Option.bind_some] at e
    -- the directory is still within one block
    have hle : db1.dirf.size ≤ db'.dirf.size := by
      split at e
      · cases e; exact Nat.le_refl _
      · obtain ⟨db2, ok2, e2, h5, -⟩ := makroom_total h need n (deepen db1 h)
        rw [e2] at e; cases e
        exact h5
    have hb : node h d < 32768 := by rw [← hcur]; omega
    have hd1 := splitOnce_spec hc hd hL hcur hmask hb e1
    have hL1 : Leaf (addBit D (node h d)) h (d + 1) := by rw [leaf_addBit hc.closed hL, if_pos rfl]
    have hc1 := core_split hc hL hb
    have ha1 := abs_split hc ha hL
    rw [hcur] at h3
    rw [hmask] at h4
    split at e
    · rename_i hfit
      cases e
      rw [hd1.pagbuf] at hfit
      exact ⟨_, _, d + 1, hc1, ha1, hL1, hd1, fun _ => hfit, by simp⟩
    · rename_i hfit
      rw [hd1.pagbuf] at hfit
      obtain ⟨k1, k2, k3, k4, k5, k6, k7⟩ := deepen_spec hd1 h3 h4
      obtain ⟨pg', D', d', m1, m2, m3, m4, m5, m6⟩ := ih (deepen db1 h) db' ok _ _ (d + 1) hc1 ha1 hL1 (k1.dirty' hL1 k4 k5) k2 k3
        (fun _ => k1) (by simpa using hfit) e hsize
      exact ⟨pg', D', d', m1, m2, m3, m4, m5, fun ho => ⟨(m6 ho).1, by have := (m6 ho).2.1; omega, (m6 ho).2.2⟩⟩

/-! ### The operations -/

theorem abs_empty (hc : Core pg D) (ha : Abs pg D M) : M [] = none := by
  obtain ⟨d, -, hL⟩ := leaf_exists hc.bound (hash [])
  rw [← ha [] d hL, lookup_isNone]
  intro kv hkv e
  exact hc.keys _ kv hkv e

theorem upd_same {k : Bytes} (h : M k = none) : upd M k none = M := by
  funext k'
  unfold upd
  split
  · rename_i e; rw [e, h]
  · rfl

theorem fetch_inv (h : Inv db M) (k : Bytes) : ∃ db', fetch lists db k = some (db', M k) ∧ Inv db' M ∧
    db'.dirf = db.dirf ∧ db'.rdonly = db.rdonly := by
  obtain ⟨pg, D, hc, hcl, ha⟩ := h
  unfold fetch
  by_cases hk : k.length ≤ 0
  · rw [if_pos hk]
    have : k = [] := List.eq_nil_of_length_eq_zero (by omega)
    subst this
    exact ⟨db, by rw [abs_empty hc ha], ⟨pg, D, hc, hcl, ha⟩, rfl, rfl⟩
  · rw [if_neg hk]
    obtain ⟨db', d, e, hL, -, -, -, hbuf, hcl', hdir, hro, -⟩ := getpage_spec hc hcl (hash k)
    rw [e]
    simp only [Option.map_some, if_true]
    refine ⟨db', ?_, ⟨pg, D, hc, hcl', ha⟩, hdir, hro⟩
    rw [hbuf]
    show some (db', lookup _ k) = _
    rw [ha k d hL]

theorem delete_inv (h : Inv db M) (k : Bytes) : ∃ db' n, delete lists db k = some (db', n) ∧ db'.dirf = db.dirf ∧ db'.rdonly = db.rdonly ∧
    (if db.rdonly = true then n = -1 ∧ Inv db' M else n = (if (M k).isSome then 0 else -1) ∧ Inv db' (upd M k none)) := by
  have hinv := h
  obtain ⟨pg, D, hc, hcl, ha⟩ := h
  unfold delete
  by_cases hk : k.length ≤ 0
  · rw [if_pos hk]
    have : k = [] := List.eq_nil_of_length_eq_zero (by omega)
    subst this
    have hM := abs_empty hc ha
    refine ⟨db, -1, rfl, rfl, rfl, ?_⟩
    split
    · exact ⟨rfl, hinv⟩
    · rw [upd_same hM, hM]; exact ⟨rfl, hinv⟩
  rw [if_neg hk]
  by_cases hro : db.rdonly = true
  · rw [if_pos hro]
    exact ⟨db, -1, rfl, rfl, rfl, by rw [if_pos hro]; exact ⟨rfl, hinv⟩⟩
  rw [if_neg hro]
  obtain ⟨db', d, e, hL, -, -, hbno, hbuf, hcl', hdir, hro', -⟩ := getpage_spec hc hcl (hash k)
  rw [e]
  simp only [Option.bind_some, if_true, lists, Option.map_some, if_neg hro]
  have hM := ha k d hL
  have hdirty := hcl'.dirty hL hbno (db'.pagbuf.eraseP fun kv => kv.1 == k)
  by_cases hany : (db'.pagbuf.any fun kv => kv.1 == k) = true
  · rw [if_pos hany]
    rw [hbuf, lookup_any, hM] at hany
    have hs : (M k).isSome = true := by cases hx : M k <;> simp_all
    refine ⟨_, _, rfl, hdir, hro', by rw [if_pos hs], ?_⟩
    rw [hbuf] at hdirty
    rw [hbuf]
    exact ⟨_, D, core_erase hc _ k, hdirty.flush, abs_erase hc ha hL⟩
  · rw [if_neg hany]
    have hl : lookup (pg (hash k % 2 ^ d)) k = none := by
      by_contra hc; rw [hbuf, lookup_any] at hany; exact hany hc
    rw [hM] at hl
    refine ⟨_, _, rfl, hdir, hro', by rw [hl]; rfl, ?_⟩
    rw [upd_same hl]
    have e2 : (db'.pagbuf.eraseP fun kv => kv.1 == k) = db'.pagbuf := by
      apply List.eraseP_of_forall_not
      intro x hx hxe
      exact hany (List.any_eq_true.mpr ⟨x, hx, hxe⟩)
    rw [e2]
    exact ⟨pg, D, hc, hcl', ha⟩

theorem pageBytes_eq (l : List Pair) : pageBytes l = room l := by
  induction l with
  | nil => rfl
  | cons kv l ih =>
    rw [pageBytes, ih]
    unfold room
    simp only [body, List.length_append, List.length_cons]
    omega

theorem room_put (l : List Pair) (k v : Bytes) : room (l ++ [(k, v)]) = room l + 4 + k.length + v.length := by
  unfold room
  rw [body_append]
  simp only [body, List.length_append, List.length_cons, List.length_nil]
  omega

theorem fit_iff (l : List Pair) (k v : Bytes) : lists.fit l (k.length + v.length) = true ↔ room (l ++ [(k, v)]) ≤ 1024 := by
  rw [room_put]
  show decide _ = true ↔ _
  rw [decide_eq_true_eq]
  omega

/-- The pair is put on its page. -/
theorem insert_inv {k v : Bytes} {d : Nat} (hc : Core pg D) (ha : Abs pg D M) (hL : Leaf D (hash k) d)
    (hd : Dirty db pg D (hash k % 2 ^ d)) (hk : k ≠ []) (hno : M k = none)
    (hfit : lists.fit (pg (hash k % 2 ^ d)) (k.length + v.length) = true) :
    ∃ db', insert lists db k v = some (db', 0) ∧ Inv db' (upd M k (some v)) ∧ db'.dirf = db.dirf ∧ db'.rdonly = db.rdonly := by
  have hl : lookup (pg (hash k % 2 ^ d)) k = none := by rw [ha k d hL, hno]
  rw [fit_iff] at hfit
  refine ⟨_, rfl, ?_, rfl, rfl⟩
  refine ⟨_, D, core_put hc hL hk hl hfit, ?_, abs_put ha hL hl⟩
  apply Dirty.flush (b := hash k % 2 ^ d)
  refine ⟨⟨hd.dir.size, hd.dir.bits, hd.dir.maxbno, hd.dir.buf, hd.dir.empty⟩, hd.wf, hd.pagbno, ?_, ?_, hd.leaves⟩
  · show db.pagbuf ++ _ = setPage _ _ _ _
    unfold setPage
    rw [if_pos rfl, hd.pagbuf]
  · intro i hi
    unfold setPage
    rw [if_neg hi]
    exact hd.pagf i hi

theorem crowded {k v : Bytes} {d : Nat} (hc : Core pg D) (ha : Abs pg D M) (hL : Leaf D (hash k) d) (hd : 10 ≤ d)
    (hfit : lists.fit (pg (hash k % 2 ^ d)) (k.length + v.length) = false) : Crowded M k v := by
  refine ⟨pg (hash k % 2 ^ d), hc.nodup _, ?_, ?_⟩
  · intro kv hkv
    obtain ⟨d', hL', e⟩ := hc.home _ kv hkv
    have := hL.page hL' e
    subst this
    refine ⟨?_, ?_⟩
    · rw [← ha kv.1 d hL', ← e]
      exact mem_lookup (hc.nodup _) hkv
    · have hdv : 2 ^ 10 ∣ 2 ^ d := Nat.pow_dvd_pow 2 hd
      have := congrArg (· % 2 ^ 10) e
      simp only [Nat.mod_mod_of_dvd _ hdv] at this
      exact this.symm
  · rw [pageBytes_eq]
    by_contra hcon
    have : lists.fit (pg (hash k % 2 ^ d)) (k.length + v.length) = true := (fit_iff _ _ _).mpr (by omega)
    rw [this] at hfit
    simp at hfit

/-- The last part of `store`, after the page was found and the old pair removed. -/
theorem store_tail {k v : Bytes} {d : Nat} (hc : Core pg D) (ha : Abs pg D M) (hL : Leaf D (hash k) d)
    (hd : Dirty db pg D (hash k % 2 ^ d)) (hcur : db.curbit = node (hash k) d) (hmask : db.hmask = 2 ^ d - 1)
    (hk : k ≠ []) (hno : M k = none) :
    ∃ db' n, (if lists.fit db.pagbuf (k.length + v.length) then insert lists db k v
      else (makroom lists (hash k) (k.length + v.length) 10 db).bind fun t =>
        if t.2 then insert lists t.1 k v else some ({ t.1 with ioerr := true }, -1)) = some (db', n) ∧
      db.dirf.size ≤ db'.dirf.size ∧ db'.rdonly = db.rdonly ∧
      (db'.dirf.size ≤ 1 → n = 0 ∧ Inv db' (upd M k (some v)) ∨ n = -1 ∧ Inv db' M ∧ Crowded M k v) := by
  by_cases hfit : lists.fit db.pagbuf (k.length + v.length) = true
  · rw [if_pos hfit]
    rw [hd.pagbuf] at hfit
    obtain ⟨db', e, h1, h2, h3⟩ := insert_inv hc ha hL hd hk hno hfit
    exact ⟨db', 0, e, Nat.le_of_eq (congrArg _ h2.symm), h3, fun _ => Or.inl ⟨rfl, h1⟩⟩
  · rw [if_neg hfit]
    obtain ⟨db1, ok, e, hsz, hro⟩ := makroom_total (hash k) (k.length + v.length) 10 db
    have hmade := fun hs => makroom_spec (hash k) (k.length + v.length) 10 db db1 ok pg D d hc ha hL hd hcur hmask (by simp)
      (by rw [hd.pagbuf] at hfit; simpa using hfit) e hs
    rw [e]
    simp only [Option.bind_some]
    cases ok with
    | true =>
      simp only [if_true]
      refine ⟨_, 0, rfl, hsz, hro, fun hs => Or.inl ⟨rfl, ?_⟩⟩
      obtain ⟨pg', D', d', m1, m2, m3, m4, m5, -⟩ := hmade hs
      obtain ⟨db', e', h1, -⟩ := insert_inv m1 m2 m3 m4 hk hno (m5 rfl)
      have e'' : insert lists db1 k v = some (flush { db1 with pagbuf := db1.pagbuf ++ [(k, v)] }, 0) := rfl
      rw [e''] at e'
      cases e'
      exact h1
    | false =>
      simp only [Bool.false_eq_true, if_false]
      refine ⟨_, -1, rfl, hsz, hro, fun hs => Or.inr ⟨rfl, ?_⟩⟩
      obtain ⟨pg', D', d', m1, m2, m3, m4, -, m6⟩ := hmade hs
      obtain ⟨n1, n2, n3⟩ := m6 rfl
      refine ⟨⟨pg', D', m1, ⟨⟨n1.dir.size, n1.dir.bits, n1.dir.maxbno, n1.dir.buf, n1.dir.empty⟩, n1.wf, n1.pagf, n1.leaves, n1.empty, n1.cache⟩, m2⟩, ?_⟩
      exact crowded m1 m2 m3 (by omega) n3

theorem store_inv (h : Inv db M) (k v : Bytes) (replace : Bool) : ∃ db' n, store lists db k v replace = some (db', n) ∧
    db.dirf.size ≤ db'.dirf.size ∧ db'.rdonly = db.rdonly ∧
    (db'.dirf.size ≤ 1 → ∃ M', Inv db' M' ∧
      if k = [] ∨ db.rdonly = true ∨ k.length + v.length > 1008 ∨ (replace = false ∧ M k ≠ none) then n ≠ 0 ∧ M' = M
      else (n = 0 ∧ M' = upd M k (some v)) ∨ (n ≠ 0 ∧ M' = (if replace then upd M k none else M) ∧ Crowded M' k v)) := by
  have hinv := h
  obtain ⟨pg, D, hc, hcl, ha⟩ := h
  unfold store
  by_cases hk : k.length ≤ 0
  · rw [if_pos hk]
    have : k = [] := List.eq_nil_of_length_eq_zero (by omega)
    exact ⟨db, -1, rfl, Nat.le_refl _, rfl, fun _ => ⟨M, hinv, by rw [if_pos (Or.inl this)]; exact ⟨by decide, rfl⟩⟩⟩
  rw [if_neg hk]
  have hk' : k ≠ [] := by rintro rfl; simp at hk
  by_cases hro : db.rdonly = true
  · rw [if_pos hro]
    exact ⟨db, -1, rfl, Nat.le_refl _, rfl, fun _ => ⟨M, hinv, by rw [if_pos (Or.inr (Or.inl hro))]; exact ⟨by decide, rfl⟩⟩⟩
  rw [if_neg hro]
  dsimp only
  by_cases hbig : (k.length : Int) + v.length > 1008
  · rw [if_pos hbig]
    exact ⟨db, -1, rfl, Nat.le_refl _, rfl, fun _ => ⟨M, hinv, by rw [if_pos (Or.inr (Or.inr (Or.inl (by omega))))]; exact ⟨by decide, rfl⟩⟩⟩
  rw [if_neg hbig]
  obtain ⟨db1, d, e, hL, hcur, hmask, hbno, hbuf, hcl1, hdir, hro1, -⟩ := getpage_spec hc hcl (hash k)
  rw [e]
  rw [Option.bind_some]
  dsimp only
  have hM := ha k d hL
  unfold prepare
  cases replace with
  | true =>
    simp only [if_true, lists, Option.map_some, Option.bind_some, Bool.false_eq_true, if_false]
    have hd := hcl1.dirty hL hbno (db1.pagbuf.eraseP fun kv => kv.1 == k)
    have hc' : Core _ D := core_erase hc (hash k % 2 ^ d) k
    have ha' := abs_erase hc ha hL
    rw [hbuf] at hd
    have := store_tail (db := { db1 with pagbuf := (pg (hash k % 2 ^ d)).eraseP fun kv => kv.1 == k }) (v := v) hc' ha' hL hd hcur hmask hk' (by simp [upd])
    rw [← hbuf] at this
    obtain ⟨db', n, e', h1, h2, h3⟩ := this
    refine ⟨db', n, e', by rw [← hdir]; exact h1, h2.trans hro1, fun hs => ?_⟩
    have hcond : ¬(k = [] ∨ db.rdonly = true ∨ k.length + v.length > 1008 ∨ (true = false ∧ M k ≠ none)) := by
      rintro (h | h | h | h)
      · exact hk' h
      · exact hro h
      · omega
      · exact absurd h.1 (by simp)
    simp only [if_neg hcond]
    rcases h3 hs with ⟨h4, h5⟩ | ⟨h4, h5, h6⟩
    · refine ⟨_, h5, Or.inl ⟨h4, ?_⟩⟩
      funext k'; unfold upd; split <;> rfl
    · exact ⟨_, h5, Or.inr ⟨by rw [h4]; decide, rfl, h6⟩⟩
  | false =>
    rw [if_neg Bool.false_ne_true, Option.bind_some]
    by_cases hdup : lists.dup db1.pagbuf k = true
    · rw [if_pos hdup]
      change (db1.pagbuf.any fun kv => kv.1 == k) = true at hdup
      rw [hbuf, lookup_any, hM] at hdup
      refine ⟨db1, 1, rfl, Nat.le_of_eq (congrArg _ hdir.symm), hro1, fun _ => ⟨M, ⟨pg, D, hc, hcl1, ha⟩, ?_⟩⟩
      rw [if_pos (Or.inr (Or.inr (Or.inr ⟨rfl, hdup⟩)))]
      exact ⟨by decide, rfl⟩
    · rw [if_neg hdup]
      change ¬(db1.pagbuf.any fun kv => kv.1 == k) = true at hdup
      have hno : M k = none := by
        by_contra hx; rw [hbuf, lookup_any, hM] at hdup; exact hdup hx
      obtain ⟨db', n, e', h1, h2, h3⟩ := store_tail (v := v) hc ha hL (hcl1.dirty' hL hbno hbuf) hcur hmask hk' hno
      refine ⟨db', n, e', by rw [← hdir]; exact h1, h2.trans hro1, fun hs => ?_⟩
      have hcond : ¬(k = [] ∨ db.rdonly = true ∨ k.length + v.length > 1008 ∨ (false = false ∧ M k ≠ none)) := by
        rintro (h | h | h | h)
        · exact hk' h
        · exact hro h
        · omega
        · exact h.2 hno
      rcases h3 hs with ⟨h4, h5⟩ | ⟨h4, h5, h6⟩
      · exact ⟨_, h5, by rw [if_neg hcond]; exact Or.inl ⟨h4, rfl⟩⟩
      · exact ⟨M, h5, by rw [if_neg hcond]; exact Or.inr ⟨by rw [h4]; decide, rfl, h6⟩⟩

end Rep.Sdbm
