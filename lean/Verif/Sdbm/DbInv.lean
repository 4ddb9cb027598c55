/-
The invariant of a database whose directory fits into one block, and the proof that every
operation keeps it and behaves like a map.  All of this is about lists of pairs; the
result is carried over to pages of bytes in Verif.Sdbm.Props.
-/
import Verif.Sdbm.DbSpec
import Mathlib.Data.Nat.Bitwise

namespace Rep.Sdbm

/-- The directory bit reached with the low `d` bits of a hash. -/
def node (h : Nat) : Nat → Nat
  | 0 => 0
  | d + 1 => 2 * node h d + if h.testBit d then 2 else 1

/-- The search for a page ends after `d` bits. -/
def Leaf (D : Nat → Prop) (h d : Nat) : Prop := (∀ e, e < d → D (node h e)) ∧ ¬D (node h d)

theorem node_ge (h d : Nat) : 2 ^ d ≤ node h d + 1 := by
  induction d with
  | zero => simp [node]
  | succ d ih => simp only [node, Nat.pow_succ]; split <;> omega

theorem node_congr {h h' d : Nat} (e : h % 2 ^ d = h' % 2 ^ d) : ∀ e', e' ≤ d → node h e' = node h' e' := by
  intro e' he'
  induction e' with
  | zero => rfl
  | succ n ih =>
    simp only [node]
    rw [ih (by omega)]
    have : h.testBit n = h'.testBit n := by
      have := congrArg (fun x => x.testBit n) e
      simpa [Nat.testBit_mod_two_pow, show n < d by omega] using this
    rw [this]

theorem node_inj (h h' : Nat) : ∀ d d', node h d = node h' d' → d = d' ∧ h % 2 ^ d = h' % 2 ^ d' := by
  intro d
  induction d with
  | zero =>
    intro d' e
    cases d' with
    | zero => simp [Nat.mod_one]
    | succ d' => simp only [node] at e; split at e <;> omega
  | succ d ih =>
    intro d' e
    cases d' with
    | zero => simp only [node] at e; split at e <;> omega
    | succ d' =>
      simp only [node] at e
      have hb : h.testBit d = h'.testBit d' := by
        cases h1 : h.testBit d <;> cases h2 : h'.testBit d' <;> simp [h1, h2] at e <;> first | rfl | omega
      obtain ⟨rfl, hm⟩ := ih d' (by rw [hb] at e; omega)
      refine ⟨rfl, ?_⟩
      apply Nat.eq_of_testBit_eq
      intro i
      simp only [Nat.testBit_mod_two_pow]
      by_cases hi : i < d
      · have := congrArg (fun x => x.testBit i) hm
        simpa [Nat.testBit_mod_two_pow, hi, show i < d + 1 by omega] using this
      · by_cases hi2 : i = d
        · subst hi2; simp [hb]
        · simp [show ¬i < d + 1 by omega]

theorem Leaf.unique {D : Nat → Prop} {h d d' : Nat} (h1 : Leaf D h d) (h2 : Leaf D h d') : d = d' := by
  rcases Nat.lt_trichotomy d d' with hlt | heq | hgt
  · exact absurd (h2.1 d hlt) h1.2
  · exact heq
  · exact absurd (h1.1 d' hgt) h2.2

theorem Leaf.congr {D : Nat → Prop} {h h' d : Nat} (h1 : Leaf D h d) (e : h % 2 ^ d = h' % 2 ^ d) : Leaf D h' d := by
  have hn := node_congr e
  refine ⟨fun x hx => ?_, ?_⟩
  · rw [← hn x (by omega)]; exact h1.1 x hx
  · rw [← hn d (Nat.le_refl _)]; exact h1.2

/-- Two hashes with the same page have the same leaf. -/
theorem Leaf.page {D : Nat → Prop} {h h' d d' : Nat} (h1 : Leaf D h d) (h2 : Leaf D h' d') (e : h % 2 ^ d = h' % 2 ^ d') :
    d = d' := by
  have key : ∀ {h h' d d' : Nat}, Leaf D h d → Leaf D h' d' → h % 2 ^ d = h' % 2 ^ d' → d ≤ d' → d = d' := by
    intro h h' d d' h1 h2 e hle
    have hm : h % 2 ^ d = h' % 2 ^ d := by
      have := congrArg (· % 2 ^ d) e
      simp only [Nat.mod_mod] at this
      rw [this, Nat.mod_mod_of_dvd _ (Nat.pow_dvd_pow 2 hle)]
    exact (h1.congr hm).unique h2
  rcases Nat.le_total d d' with hle | hle
  · exact key h1 h2 e hle
  · exact (key h2 h1 e.symm hle).symm

theorem leaf_exists {D : Nat → Prop} (hb : ∀ n, D n → n < 32768) (h : Nat) : ∃ d, d ≤ 16 ∧ Leaf D h d := by
  classical
  have hx : ∃ d, ¬D (node h d) := ⟨16, fun hd => by have := hb _ hd; have := node_ge h 16; omega⟩
  refine ⟨Nat.find hx, ?_, fun e he => ?_, Nat.find_spec hx⟩
  · apply Nat.find_min'
    intro hd; have := hb _ hd; have := node_ge h 16; omega
  · have := Nat.find_min hx he
    simpa using this

/-- A file whose blocks are within its size. -/
def File.WF {β : Type} (f : File β) : Prop := ∀ x ∈ f.blocks, x.1 < f.size

/-- The logical state: the pairs on each page, and the directory. -/
structure Core (pg : Nat → List Pair) (D : Nat → Prop) : Prop where
  closed : ∀ h e, D (node h (e + 1)) → D (node h e)
  bound : ∀ n, D n → n < 32768
  home : ∀ b kv, kv ∈ pg b → ∃ d, Leaf D (hash kv.1) d ∧ b = hash kv.1 % 2 ^ d
  nodup : ∀ b, ((pg b).map Prod.fst).Nodup
  keys : ∀ b kv, kv ∈ pg b → kv.1 ≠ []
  room : ∀ b, room (pg b) ≤ 1024

/-- The map that it stands for. -/
def Abs (pg : Nat → List Pair) (D : Nat → Prop) (M : Bytes → Option Bytes) : Prop :=
  ∀ k d, Leaf D (hash k) d → lookup (pg (hash k % 2 ^ d)) k = M k

/-- The directory, on the disk and in memory. -/
structure DirOK (db : Db (List Pair)) (D : Nat → Prop) : Prop where
  size : db.dirf.size ≤ 1
  bits : ∀ n, D n ↔ n < 32768 ∧ ((db.dirf.read 0 0).getD 0).testBit n = true
  maxbno : db.maxbno = db.dirf.size * 32768
  buf : db.dirbno = -1 ∨ db.dirbno = 0 ∧ db.dirbuf = (db.dirf.read 0 0).getD 0
  empty : db.dirf.size = 0 → db.dirbno = 0

/-- The state between two calls. -/
structure Clean (db : Db (List Pair)) (pg : Nat → List Pair) (D : Nat → Prop) : Prop where
  dir : DirOK db D
  wf : db.pagf.WF
  pagf : ∀ i, pg i = (db.pagf.read [] i).getD []
  leaves : db.pagf.size ≠ 0 → ∀ h d, Leaf D h d → h % 2 ^ d < db.pagf.size
  empty : db.pagf.size = 0 → (∀ n, ¬D n) ∧ db.pagbuf = []
  cache : db.pagbno = -1 ∨ ∃ b : Nat, db.pagbno = b ∧
    (b < db.pagf.size ∧ db.pos = b + 1 ∧ db.pagbuf = pg b ∨ db.pagf.size ≤ b ∧ db.pagf.size ≤ db.pos)

/-- The state within a call, when the page in memory may differ from that on the disk. -/
structure Dirty (db : Db (List Pair)) (pg : Nat → List Pair) (D : Nat → Prop) (b : Nat) : Prop where
  dir : DirOK db D
  wf : db.pagf.WF
  pagbno : db.pagbno = b
  pagbuf : db.pagbuf = pg b
  pagf : ∀ i, i ≠ b → pg i = (db.pagf.read [] i).getD []
  leaves : ∀ h d, Leaf D h d → h % 2 ^ d < db.pagf.size ∨ h % 2 ^ d = b

/-- The invariant: the database stands for the map. -/
def Inv (db : Db (List Pair)) (M : Bytes → Option Bytes) : Prop :=
  ∃ pg D, Core pg D ∧ Clean db pg D ∧ Abs pg D M

/-! ### Files -/

theorem read_write {β : Type} (f : File β) (z : β) (i j : Nat) (v : β) :
    (f.write i v).read z j = if j = i then some v else
      if j < max f.size (i + 1) then some (((f.blocks.find? fun b => b.1 == j).map Prod.snd).getD z) else none := by
  unfold File.read File.write
  by_cases e : j = i
  · subst e; simp
  · simp [e, Ne.symm e]

theorem read_write_self {β : Type} (f : File β) (z : β) (i : Nat) (v : β) : (f.write i v).read z i = some v := by
  rw [read_write, if_pos rfl]

theorem File.WF.write {β : Type} {f : File β} (h : f.WF) (i : Nat) (v : β) : (f.write i v).WF := by
  intro x hx
  simp only [File.write, List.mem_cons] at hx ⊢
  rcases hx with rfl | hx
  · simp
  · have := h x hx; omega

theorem read_write_getD {β : Type} {f : File β} (hf : f.WF) (z : β) (i j : Nat) (v : β) (hij : j ≠ i) :
    ((f.write i v).read z j).getD z = (f.read z j).getD z := by
  rw [read_write, if_neg hij]
  unfold File.read
  by_cases h1 : j < f.size
  · rw [if_pos h1, if_pos (by omega)]
  · rw [if_neg h1]
    split
    · have : f.blocks.find? (fun b => b.1 == j) = none := by
        rw [List.find?_eq_none]
        intro x hx
        have := hf x hx
        simp; omega
      simp [this]
    · rfl

/-! ### Finding a page -/

theorem dirOK_read {db : Db (List Pair)} {D : Nat → Prop} (h : DirOK db D) (n : Nat) (hn : n < db.maxbno) :
    DirOK (loadDir db n) D ∧ ((getdbit db n).2 = true ↔ D n) ∧
      ∃ x y, loadDir db n = { db with dirbuf := x, dirbno := y } := by
  have hs := h.size
  have hm := h.maxbno
  have hsize : db.dirf.size = 1 := by omega
  rw [hsize] at hm
  have hn' : n < 32768 := by omega
  have hidx : n / 8 % 4096 * 8 + n % 8 = n := by omega
  have hz : n / 8 / 4096 = 0 := by omega
  have hb := h.bits n
  unfold getdbit
  dsimp only
  rw [hidx]
  unfold loadDir
  rw [hz]
  obtain ⟨c, hc⟩ : ∃ c, db.dirf.read 0 0 = some c := by
    unfold File.read; rw [if_pos (by omega)]; exact ⟨_, rfl⟩
  rcases h.buf with hd | ⟨hd, hbuf⟩
  · dsimp only
    rw [if_pos (by rw [hd]; decide)]
    simp only [hc, Option.getD_some] at hb ⊢
    refine ⟨{ h with buf := Or.inr ⟨rfl, by simp [hc]⟩, empty := fun _ => rfl }, ?_, _, _, rfl⟩
    rw [hb]
    constructor
    · intro e; exact ⟨hn', e⟩
    · intro e; exact e.2
  · dsimp only
    rw [if_neg (by rw [hd]; simp)]
    refine ⟨h, ?_, db.dirbuf, db.dirbno, rfl⟩
    rw [hb, hbuf]
    constructor
    · intro e; exact ⟨hn', e⟩
    · intro e; exact e.2

theorem dirOK_beyond {db : Db (List Pair)} {D : Nat → Prop} (h : DirOK db D) (n : Nat) (hn : ¬n < db.maxbno) : ¬D n := by
  rw [h.bits]
  rintro ⟨h1, h2⟩
  have hs := h.size
  have hm := h.maxbno
  have : db.dirf.size = 0 := by omega
  unfold File.read at h2
  rw [if_neg (by omega)] at h2
  simp at h2

theorem and_pow_ne (h d : Nat) : h &&& 2 ^ d ≠ 0 ↔ h.testBit d = true := by
  rw [Nat.and_two_pow]
  cases h.testBit d <;> simp

theorem trie_spec {D : Nat → Prop} (hb : ∀ n, D n → n < 32768) (h : Nat) : ∀ (fuel : Nat) (db : Db (List Pair)) (hbit : Nat),
    DirOK db D → fuel + hbit = 32 → hbit ≤ 16 → (∀ e, e < hbit → D (node h e)) →
    ∃ db' d, trie h fuel db (node h hbit) hbit = some (db', node h d, d) ∧ Leaf D h d ∧ d ≤ 16 ∧ DirOK db' D ∧
      ∃ x y, db' = { db with dirbuf := x, dirbno := y } := by
  intro fuel
  induction fuel with
  | zero => intro db hbit _ _ _ _; omega
  | succ fuel ih =>
    intro db hbit hd hf hl hp
    unfold trie
    by_cases hm : node h hbit < db.maxbno
    · rw [if_pos hm]
      obtain ⟨h1, h2, x, y, h3⟩ := dirOK_read hd _ hm
      dsimp only
      by_cases hg : (getdbit db (node h hbit)).2 = true
      · rw [if_pos hg]
        have hD := h2.mp hg
        have hn : (2 * node h hbit + if h &&& 2 ^ hbit ≠ 0 then 2 else 1) = node h (hbit + 1) := by
          simp only [node, and_pow_ne]
        rw [hn]
        have hlt : hbit + 1 ≤ 16 := by
          by_contra hc
          have : hbit = 16 := by omega
          subst this
          have := hb _ hD; have := node_ge h 16; omega
        obtain ⟨db', d, e, hL, h16, hd', x', y', e'⟩ := ih (getdbit db (node h hbit)).1 (hbit + 1) h1 (by omega) hlt (by
          intro e he
          by_cases hee : e = hbit
          · subst hee; exact hD
          · exact hp e (by omega))
        refine ⟨db', d, e, hL, h16, hd', x', y', ?_⟩
        rw [e']
        show { loadDir db (node h hbit) with dirbuf := x', dirbno := y' } = _
        rw [h3]
      · rw [if_neg hg]
        exact ⟨_, hbit, rfl, ⟨hp, fun hD => hg (h2.mpr hD)⟩, hl, h1, x, y, h3⟩
    · rw [if_neg hm]
      exact ⟨db, hbit, rfl, ⟨hp, dirOK_beyond hd _ hm⟩, hl, hd, _, _, rfl⟩

theorem no_bits_leaf {D : Nat → Prop} (hn : ∀ n, ¬D n) {h d : Nat} (hl : Leaf D h d) : d = 0 := by
  rcases Nat.eq_zero_or_pos d with h0 | hp
  · exact h0
  · exact absurd (hl.1 0 hp) (hn _)

/-- The page with the key's hash is brought into memory. -/
theorem getpage_spec {db : Db (List Pair)} {pg : Nat → List Pair} {D : Nat → Prop} (hc : Core pg D) (h : Clean db pg D) (hh : Nat) :
    ∃ db' d, getpage lists db hh = some (db', true) ∧ Leaf D hh d ∧ db'.curbit = node hh d ∧ db'.hmask = 2 ^ d - 1 ∧
      db'.pagbno = ((hh % 2 ^ d : Nat) : Int) ∧ db'.pagbuf = pg (hh % 2 ^ d) ∧ Clean db' pg D ∧
      db'.dirf = db.dirf ∧ db'.rdonly = db.rdonly ∧ db'.blkptr = db.blkptr ∧ db'.keyptr = db.keyptr ∧ db'.pagf = db.pagf := by
  obtain ⟨db1, d, e, hL, -, hd, x, y, e1⟩ := trie_spec hc.bound hh 32 db 0 h.dir rfl (by omega) (by simp)
  have e' : trie hh 32 db 0 0 = some (db1, node hh d, d) := e
  unfold getpage
  rw [e']
  simp only [Option.map_some, Nat.and_two_pow_sub_one_eq_mod]
  have hlt : db.pagf.size ≠ 0 → hh % 2 ^ d < db.pagf.size := fun h0 => h.leaves h0 hh d hL
  have hzero : db.pagf.size = 0 → hh % 2 ^ d = 0 := by
    intro h0
    rw [no_bits_leaf (h.empty h0).1 hL]; simp [Nat.mod_one]
  generalize hb : hh % 2 ^ d = b at hlt hzero
  subst e1
  unfold loadPage
  by_cases hbno : (b : Int) ≠ db.pagbno
  · rw [if_pos hbno]
    by_cases h0 : db.pagf.size = 0
    · have hr : db.pagf.read lists.zero b = none := by unfold File.read; rw [if_neg (by omega)]
      simp only [hr]
      refine ⟨_, d, rfl, hL, rfl, rfl, by rw [hb], ?_, ⟨⟨hd.size, hd.bits, hd.maxbno, hd.buf, hd.empty⟩, h.wf, h.pagf, h.leaves, h.empty, Or.inr ⟨b, rfl, Or.inr ⟨?_, ?_⟩⟩⟩, rfl, rfl, rfl, rfl, rfl⟩
      · show db.pagbuf = _
        rw [(h.empty h0).2, hb, h.pagf]
        have : db.pagf.read [] b = none := hr
        rw [this]; rfl
      · show db.pagf.size ≤ b; omega
      · show db.pagf.size ≤ b; omega
    · obtain ⟨p, hp⟩ : ∃ p, db.pagf.read lists.zero b = some p := by
        unfold File.read; rw [if_pos (hlt h0)]; exact ⟨_, rfl⟩
      have hpg : p = pg b := by
        rw [h.pagf]
        have : db.pagf.read [] b = some p := hp
        rw [this]; rfl
      simp only [hp]
      refine ⟨_, d, rfl, hL, rfl, rfl, by rw [hb], ?_, ⟨⟨hd.size, hd.bits, hd.maxbno, hd.buf, hd.empty⟩, h.wf, h.pagf, h.leaves, fun h1 => absurd h1 h0, Or.inr ⟨b, rfl, Or.inl ⟨hlt h0, rfl, hpg⟩⟩⟩, rfl, rfl, rfl, rfl, rfl⟩
      rw [hb]; exact hpg
  · rw [if_neg hbno]
    have hbno : db.pagbno = b := by
      by_contra hc; exact hbno (Ne.symm hc)
    refine ⟨_, d, rfl, hL, rfl, rfl, by rw [hb]; exact hbno, ?_, ⟨⟨hd.size, hd.bits, hd.maxbno, hd.buf, hd.empty⟩, h.wf, h.pagf, h.leaves, h.empty, h.cache⟩, rfl, rfl, rfl, rfl, rfl⟩
    show db.pagbuf = _
    rw [hb]
    rcases h.cache with hm1 | ⟨b', hb', hcase⟩
    · omega
    · have : b' = b := by omega
      subst this
      rcases hcase with ⟨h1, h2, h3⟩ | ⟨h1, h2⟩
      · exact h3
      · by_cases h0 : db.pagf.size = 0
        · rw [(h.empty h0).2, h.pagf]
          have : db.pagf.read [] b' = none := by unfold File.read; rw [if_neg (by omega)]
          rw [this]; rfl
        · have := hlt h0; omega

/-- What `getpage` leaves can be changed in memory. -/
theorem Clean.dirty {db : Db (List Pair)} {pg : Nat → List Pair} {D : Nat → Prop} {hh d : Nat} (h : Clean db pg D)
    (hL : Leaf D hh d) (hp : db.pagbno = ((hh % 2 ^ d : Nat) : Int)) (l : List Pair) :
    Dirty { db with pagbuf := l } (fun i => if i = hh % 2 ^ d then l else pg i) D (hh % 2 ^ d) where
  dir := ⟨h.dir.size, h.dir.bits, h.dir.maxbno, h.dir.buf, h.dir.empty⟩
  wf := h.wf
  pagbno := hp
  pagbuf := by simp
  pagf := by intro i hi; simp only [if_neg hi]; exact h.pagf i
  leaves := by
    intro h' d' hL'
    by_cases h0 : db.pagf.size = 0
    · right
      have hn := (h.empty h0).1
      rw [no_bits_leaf hn hL, no_bits_leaf hn hL']
      simp [Nat.mod_one]
    · exact Or.inl (h.leaves h0 h' d' hL')

/-- Writing the page in memory. -/
theorem Dirty.flush {db : Db (List Pair)} {pg : Nat → List Pair} {D : Nat → Prop} {b : Nat} (h : Dirty db pg D b) :
    Clean (flush db) pg D := by
  have hb : db.pagbno.toNat = b := by rw [h.pagbno]; simp
  unfold Sdbm.flush
  rw [hb]
  refine ⟨⟨h.dir.size, h.dir.bits, h.dir.maxbno, h.dir.buf, h.dir.empty⟩, h.wf.write _ _, ?_, ?_, ?_, ?_⟩
  · intro i
    show pg i = ((db.pagf.write b db.pagbuf).read [] i).getD []
    by_cases hi : i = b
    · subst hi; rw [read_write_self]; exact h.pagbuf.symm
    · rw [read_write_getD h.wf _ _ _ _ hi]; exact h.pagf i hi
  · intro _ h' d' hL
    show h' % 2 ^ d' < max db.pagf.size (b + 1)
    rcases h.leaves h' d' hL with h1 | h1 <;> omega
  · intro h0
    change max db.pagf.size (b + 1) = 0 at h0
    omega
  · refine Or.inr ⟨b, h.pagbno, Or.inl ⟨?_, rfl, h.pagbuf⟩⟩
    show b < max db.pagf.size (b + 1)
    omega

end Rep.Sdbm
