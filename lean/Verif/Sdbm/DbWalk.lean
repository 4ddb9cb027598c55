/-
Traversal of a database, and the theorem about every history of calls.
-/
import Verif.Sdbm.DbOps

namespace Rep.Sdbm

variable {db : Db (List Pair)} {pg : Nat → List Pair} {D : Nat → Prop} {M : Bytes → Option Bytes}

theorem DirOK.keep {db db' : Db (List Pair)} (h : DirOK db D) (h1 : db'.dirf = db.dirf) (h2 : db'.maxbno = db.maxbno)
    (h3 : db'.dirbno = db.dirbno) (h4 : db'.dirbuf = db.dirbuf) : DirOK db' D :=
  ⟨h1 ▸ h.size, by rw [h1]; exact h.bits, by rw [h1, h2]; exact h.maxbno, by rw [h1, h3, h4]; exact h.buf,
    by rw [h1, h3]; exact h.empty⟩

/-! ### getnext keeps the invariant -/

theorem getnext_clean : ∀ fuel (db : Db (List Pair)), Clean db pg D → db.pagf.size - db.blkptr < fuel →
    ∃ db' r, getnext lists fuel db = some (db', r) ∧ Clean db' pg D ∧ db'.dirf = db.dirf ∧ db'.rdonly = db.rdonly ∧
      db'.pagf = db.pagf := by
  intro fuel
  induction fuel with
  | zero => intro db _ h; omega
  | succ fuel ih =>
    intro db hcl hf
    unfold getnext
    dsimp only
    cases hk : lists.nkey db.pagbuf (db.keyptr + 1) with
    | some key =>
      refine ⟨_, _, rfl, ⟨hcl.dir.keep rfl rfl rfl rfl, hcl.wf, hcl.pagf, hcl.leaves, hcl.empty, hcl.cache⟩, rfl, rfl, rfl⟩
    | none =>
      dsimp only
      generalize hpos : (if db.pagbno ≠ (db.blkptr : Int) then db.blkptr + 1 else db.pos) = pos
      have hcase : pos = db.blkptr + 1 ∨ (db.pagf.size ≤ pos ∧ db.pagf.size ≤ db.blkptr) := by
        by_cases hb : db.pagbno = (db.blkptr : Int)
        · rw [if_neg (by simp [hb])] at hpos
          rcases hcl.cache with h | ⟨b, h1, h2⟩
          · omega
          · have : b = db.blkptr := by omega
            subst this
            rcases h2 with ⟨h3, h4, -⟩ | ⟨h3, h4⟩
            · left; omega
            · right; omega
        · rw [if_pos hb] at hpos
          exact Or.inl hpos.symm
      cases hr : db.pagf.read lists.zero pos with
      | none =>
        have hge : db.pagf.size ≤ pos := by
          unfold File.read at hr
          by_contra hc
          rw [if_pos (by omega)] at hr
          simp at hr
        refine ⟨_, _, rfl, ⟨hcl.dir.keep rfl rfl rfl rfl, hcl.wf, hcl.pagf, hcl.leaves, hcl.empty, ?_⟩, rfl, rfl, rfl⟩
        refine Or.inr ⟨db.blkptr + 1, by simp, Or.inr ⟨?_, hge⟩⟩
        show db.pagf.size ≤ db.blkptr + 1
        omega
      | some p =>
        have hlt : pos < db.pagf.size := by
          unfold File.read at hr
          by_contra hc
          rw [if_neg hc] at hr
          simp at hr
        have hp : pos = db.blkptr + 1 := by omega
        subst hp
        have hpg : p = pg (db.blkptr + 1) := by
          rw [hcl.pagf]
          have : db.pagf.read [] (db.blkptr + 1) = some p := hr
          rw [this]; rfl
        dsimp only
        rw [if_pos (show lists.chk p = true from rfl)]
        refine (ih _ ⟨hcl.dir.keep rfl rfl rfl rfl, hcl.wf, hcl.pagf, hcl.leaves, ?_, ?_⟩ ?_)
        · intro h0
          have : db.pagf.size = 0 := h0
          omega
        · exact Or.inr ⟨db.blkptr + 1, by simp, Or.inl ⟨hlt, rfl, hpg⟩⟩
        · show db.pagf.size - (db.blkptr + 1) < fuel
          omega

/-! ### What the traversal returns -/

/-- The keys from a position on. -/
def rest (pg : Nat → List Pair) (size b j : Nat) : List Bytes :=
  ((pg b).drop j ++ (List.range' (b + 1) (size - (b + 1))).flatMap pg).map Prod.fst

/-- The database is at pair `j` of page `b` of a traversal. -/
structure At (db : Db (List Pair)) (pg : Nat → List Pair) (D : Nat → Prop) (b j : Nat) : Prop where
  clean : Clean db pg D
  pagbno : db.pagbno = b
  blkptr : db.blkptr = b
  keyptr : db.keyptr = j
  pagbuf : db.pagbuf = pg b
  pos : db.pos = b + 1
  lt : b < db.pagf.size

theorem getnext_at : ∀ fuel (db : Db (List Pair)) (b j : Nat), At db pg D b j → db.pagf.size - b < fuel →
    ∃ db', getnext lists fuel db = some (db', (rest pg db.pagf.size b j).head?) ∧ Clean db' pg D ∧ db'.pagf = db.pagf ∧
      db'.rdonly = db.rdonly ∧ db'.dirf = db.dirf ∧
      ∀ k ks, rest pg db.pagf.size b j = k :: ks → ∃ b' j', At db' pg D b' j' ∧ rest pg db.pagf.size b' j' = ks ∧ ∃ v, (k, v) ∈ pg b' := by
  intro fuel
  induction fuel with
  | zero => intro db b j _ h; omega
  | succ fuel ih =>
    intro db b j h hf
    unfold getnext
    dsimp only
    have hk : lists.nkey db.pagbuf (db.keyptr + 1) = (pg b)[j]?.map Prod.fst := by
      rw [h.pagbuf, h.keyptr]
      rfl
    rw [hk]
    cases hj : (pg b)[j]? with
    | some kv =>
      simp only [Option.map_some]
      obtain ⟨hlt, hget⟩ := List.getElem?_eq_some_iff.mp hj
      have hdrop : (pg b).drop j = kv :: (pg b).drop (j + 1) := by
        rw [List.drop_eq_getElem_cons hlt, hget]
      have hrest : rest pg db.pagf.size b j = kv.1 :: rest pg db.pagf.size b (j + 1) := by
        unfold rest
        rw [hdrop]
        rfl
      have hcl : Clean { db with keyptr := db.keyptr + 1 } pg D :=
        ⟨h.clean.dir.keep rfl rfl rfl rfl, h.clean.wf, h.clean.pagf, h.clean.leaves, h.clean.empty, h.clean.cache⟩
      refine ⟨_, by rw [hrest]; rfl, hcl, rfl, rfl, rfl, ?_⟩
      intro k ks e
      rw [hrest] at e
      cases e
      exact ⟨b, j + 1, ⟨hcl, h.pagbno, h.blkptr, by show db.keyptr + 1 = _; rw [h.keyptr], h.pagbuf, h.pos, h.lt⟩, rfl,
        kv.2, List.mem_of_getElem? hj⟩
    | none =>
      simp only [Option.map_none]
      have hge : (pg b).length ≤ j := List.getElem?_eq_none_iff.mp hj
      have hb : ¬db.pagbno ≠ (db.blkptr : Int) := by rw [h.pagbno, h.blkptr]; simp
      rw [if_neg hb, h.pos]
      cases hr : db.pagf.read lists.zero (b + 1) with
      | none =>
        have hsz : db.pagf.size ≤ b + 1 := by
          unfold File.read at hr
          by_contra hc
          rw [if_pos (by omega)] at hr
          simp at hr
        have hrest : rest pg db.pagf.size b j = [] := by
          unfold rest
          rw [List.drop_eq_nil_of_le hge, show db.pagf.size - (b + 1) = 0 by omega]
          rfl
        rw [hrest]
        dsimp only
        refine ⟨_, rfl, ⟨h.clean.dir.keep rfl rfl rfl rfl, h.clean.wf, h.clean.pagf, h.clean.leaves, h.clean.empty, ?_⟩, rfl, rfl, rfl, ?_⟩
        · refine Or.inr ⟨db.blkptr + 1, by simp, Or.inr ⟨?_, hsz⟩⟩
          show db.pagf.size ≤ db.blkptr + 1
          rw [h.blkptr]; exact hsz
        · intro k ks e; simp at e
      | some p =>
        have hlt : b + 1 < db.pagf.size := by
          unfold File.read at hr
          by_contra hc
          rw [if_neg hc] at hr
          simp at hr
        have hpg : p = pg (b + 1) := by
          rw [h.clean.pagf]
          have : db.pagf.read [] (b + 1) = some p := hr
          rw [this]; rfl
        dsimp only
        rw [if_pos (show lists.chk p = true from rfl)]
        have hbp := h.blkptr
        have hat : At { db with keyptr := 0, blkptr := db.blkptr + 1, pagbno := ((db.blkptr : Int) + 1), pagbuf := p, pos := b + 1 + 1 } pg D (b + 1) 0 := by
          refine ⟨⟨h.clean.dir.keep rfl rfl rfl rfl, h.clean.wf, h.clean.pagf, h.clean.leaves, ?_, ?_⟩, ?_, ?_, rfl, hpg, rfl, hlt⟩
          · intro h0
            have : db.pagf.size = 0 := h0
            omega
          · exact Or.inr ⟨b + 1, by show (db.blkptr : Int) + 1 = _; omega, Or.inl ⟨hlt, rfl, hpg⟩⟩
          · show (db.blkptr : Int) + 1 = _; omega
          · show db.blkptr + 1 = _; omega
        have hrest : rest pg db.pagf.size b j = rest pg db.pagf.size (b + 1) 0 := by
          unfold rest
          rw [List.drop_eq_nil_of_le hge, show db.pagf.size - (b + 1) = (db.pagf.size - (b + 1 + 1)) + 1 by omega, List.range'_succ]
          simp
        have := ih _ (b + 1) 0 hat (by show db.pagf.size - (b + 1) < fuel; omega)
        rw [hrest]
        exact this

/-! ### Which keys there are -/

theorem mem_range_flat {size : Nat} (k : Bytes) (h : 0 < size) :
    k ∈ rest pg size 0 0 ↔ ∃ b < size, ∃ v, (k, v) ∈ pg b := by
  have e : rest pg size 0 0 = ((List.range' 0 size).flatMap pg).map Prod.fst := by
    unfold rest
    obtain ⟨s, rfl⟩ : ∃ s, size = s + 1 := ⟨size - 1, by omega⟩
    rw [List.range'_succ]
    simp
  rw [e]
  simp only [List.mem_map, List.mem_flatMap, List.mem_range'_1, Prod.exists]
  constructor
  · rintro ⟨a, v, ⟨b, ⟨-, hb⟩, hm⟩, rfl⟩
    exact ⟨b, by omega, v, hm⟩
  · rintro ⟨b, hb, v, hm⟩
    exact ⟨k, v, ⟨b, ⟨by omega, by omega⟩, hm⟩, rfl⟩

theorem one_page (hc : Core pg D) {k v v' : Bytes} {b b' : Nat} (h : (k, v) ∈ pg b) (h' : (k, v') ∈ pg b') : b = b' := by
  obtain ⟨d, hL, e⟩ := hc.home _ _ h
  obtain ⟨d', hL', e'⟩ := hc.home _ _ h'
  have := hL.unique hL'
  subst this
  rw [e, e']

theorem range_nodup (hc : Core pg D) : ∀ n b, (((List.range' b n).flatMap pg).map Prod.fst).Nodup := by
  intro n
  induction n with
  | zero => intro b; simp
  | succ n ih =>
    intro b
    rw [List.range'_succ, List.flatMap_cons, List.map_append, List.nodup_append]
    refine ⟨hc.nodup b, ih (b + 1), ?_⟩
    intro x hx y hy e
    subst e
    simp only [List.mem_map, List.mem_flatMap, List.mem_range'_1, Prod.exists] at hx hy
    obtain ⟨k, v, hm, rfl⟩ := hx
    obtain ⟨k', v', ⟨b', ⟨h1, -⟩, hm'⟩, e⟩ := hy
    subst e
    have := one_page hc hm hm'
    omega

theorem rest_nodup (hc : Core pg D) (size : Nat) (h : 0 < size) : (rest pg size 0 0).Nodup := by
  have e : rest pg size 0 0 = ((List.range' 0 size).flatMap pg).map Prod.fst := by
    unfold rest
    obtain ⟨s, rfl⟩ : ∃ s, size = s + 1 := ⟨size - 1, by omega⟩
    rw [List.range'_succ]
    simp
  rw [e]
  exact range_nodup hc size 0

theorem bound_iff (hc : Core pg D) (hcl : Clean db pg D) (ha : Abs pg D M) (k : Bytes) :
    M k ≠ none ↔ ∃ b < db.pagf.size, ∃ v, (k, v) ∈ pg b := by
  obtain ⟨d, -, hL⟩ := leaf_exists hc.bound (hash k)
  rw [← ha k d hL]
  have hb : ∀ b, ¬b < db.pagf.size → pg b = [] := by
    intro b hb
    rw [hcl.pagf]
    unfold File.read
    rw [if_neg hb]; rfl
  constructor
  · intro h
    have : ∃ v, (k, v) ∈ pg (hash k % 2 ^ d) := by
      by_contra hcon
      apply h
      rw [lookup_isNone]
      rintro ⟨a, v⟩ hm rfl
      exact hcon ⟨v, hm⟩
    obtain ⟨v, hv⟩ := this
    refine ⟨_, ?_, v, hv⟩
    by_contra hcon
    rw [hb _ hcon] at hv
    simp at hv
  · rintro ⟨b, -, v, hv⟩ hcon
    obtain ⟨d', hL', e⟩ := hc.home _ _ hv
    have := hL.unique hL'
    subst this
    rw [lookup_isNone] at hcon
    rw [e] at hv
    exact hcon _ hv rfl

/-! ### firstkey -/

theorem firstkey_empty (hcl : Clean db pg D) (h : db.pagf.size = 0) : ∃ db', firstkey lists db = some (db', none) ∧ Clean db' pg D ∧
    db'.dirf = db.dirf ∧ db'.rdonly = db.rdonly := by
  unfold firstkey
  have hr : ∀ i, db.pagf.read lists.zero i = none := by
    intro i
    unfold File.read
    rw [if_neg (by omega)]
  have hbuf := (hcl.empty h).2
  rw [hr]
  simp only [h]
  unfold getnext
  simp only [hbuf]
  rw [show lists.nkey [] (0 + 1) = none from rfl]
  simp only [ne_eq, not_true_eq_false, if_false, Nat.cast_zero]
  rw [hr]
  refine ⟨_, rfl, ⟨hcl.dir.keep rfl rfl rfl rfl, hcl.wf, hcl.pagf, hcl.leaves, fun _ => ⟨(hcl.empty h).1, rfl⟩, ?_⟩, rfl, rfl⟩
  refine Or.inr ⟨1, by simp, Or.inr ⟨?_, ?_⟩⟩
  · show db.pagf.size ≤ 1; omega
  · show db.pagf.size ≤ 0; omega

theorem firstkey_at (hcl : Clean db pg D) (h : 0 < db.pagf.size) : ∃ db1, At db1 pg D 0 0 ∧ db1.pagf = db.pagf ∧
    db1.dirf = db.dirf ∧ db1.rdonly = db.rdonly ∧ firstkey lists db = getnext lists (db.pagf.size + 3) db1 := by
  unfold firstkey
  have hr : db.pagf.read lists.zero 0 = some (pg 0) := by
    rw [hcl.pagf]
    show _ = some ((db.pagf.read lists.zero 0).getD [])
    unfold File.read
    rw [if_pos h]
    rfl
  rw [hr]
  refine ⟨{ db with pos := 1, pagbuf := pg 0, pagbno := 0, blkptr := 0, keyptr := 0 }, ⟨⟨hcl.dir.keep rfl rfl rfl rfl, hcl.wf, hcl.pagf, hcl.leaves, ?_, ?_⟩, rfl, rfl, rfl, rfl, rfl, h⟩, rfl, rfl, rfl, rfl⟩
  · intro h0
    have : db.pagf.size = 0 := h0
    omega
  · exact Or.inr ⟨0, rfl, Or.inl ⟨h, rfl, rfl⟩⟩

/-! ### One call, and every history -/

theorem firstkey_inv (h : Inv db M) : ∃ db' r, firstkey lists db = some (db', r) ∧ Inv db' M ∧ db'.dirf = db.dirf ∧ db'.rdonly = db.rdonly := by
  obtain ⟨pg, D, hc, hcl, ha⟩ := h
  by_cases h0 : db.pagf.size = 0
  · obtain ⟨db', e, h1, h2, h3⟩ := firstkey_empty hcl h0
    exact ⟨db', none, e, ⟨pg, D, hc, h1, ha⟩, h2, h3⟩
  · obtain ⟨db1, h1, h2, h3, h4, e⟩ := firstkey_at hcl (by omega)
    obtain ⟨db', r, e', i1, i2, i3, -⟩ := getnext_clean (db.pagf.size + 3) db1 h1.clean (by rw [h2]; omega)
    exact ⟨db', r, e.trans e', ⟨pg, D, hc, i1, ha⟩, i2.trans h3, i3.trans h4⟩

theorem nextkey_inv (h : Inv db M) : ∃ db' r, nextkey lists db = some (db', r) ∧ Inv db' M ∧ db'.dirf = db.dirf ∧ db'.rdonly = db.rdonly := by
  obtain ⟨pg, D, hc, hcl, ha⟩ := h
  obtain ⟨db', r, e', i1, i2, i3, -⟩ := getnext_clean (db.pagf.size + 3) db hcl (by omega)
  exact ⟨db', r, e', ⟨pg, D, hc, i1, ha⟩, i2, i3⟩

theorem prep_inv (h : Inv db M) (ro : Bool) : Inv (prep lists db.pagf db.dirf ro) M := by
  obtain ⟨pg, D, hc, hcl, ha⟩ := h
  refine ⟨pg, D, hc, ⟨⟨hcl.dir.size, hcl.dir.bits, ?_, ?_, ?_⟩, hcl.wf, hcl.pagf, hcl.leaves, fun h0 => ⟨(hcl.empty h0).1, rfl⟩, Or.inl rfl⟩, ha⟩
  · show db.dirf.size * 4096 * 8 = db.dirf.size * 32768
    omega
  · show (if db.dirf.size = 0 then (0 : Int) else -1) = -1 ∨ _
    by_cases h0 : db.dirf.size = 0
    · right
      refine ⟨if_pos h0, ?_⟩
      show 0 = (db.dirf.read 0 0).getD 0
      unfold File.read
      rw [if_neg (by omega)]
      rfl
    · left; exact if_neg h0
  · intro h0
    exact if_pos h0

theorem create_inv : Inv (create lists) (fun _ => none) := by
  refine ⟨fun _ => [], fun _ => False, ⟨by simp, by simp, by simp, by simp, by simp, by intro; simp [room, body]⟩,
    ⟨⟨by simp [create, prep, File.empty], ?_, rfl, ?_, fun _ => rfl⟩, by intro x hx; simp [create, prep, File.empty] at hx, ?_, ?_, fun _ => ⟨by simp, rfl⟩, Or.inl rfl⟩, ?_⟩
  · intro n; simp [create, prep, File.empty, File.read]
  · right; exact ⟨rfl, rfl⟩
  · intro i; rfl
  · intro h; exact absurd rfl h
  · intro k d hL; rfl

theorem exec_inv (h : Inv db M) (c : Cmd) : ∃ db' r, exec lists db c = some (db', r) ∧ (db.dirf.size ≤ db'.dirf.size) ∧
    (db'.dirf.size ≤ 1 → ∃ M', Inv db' M' ∧ Effect M db.rdonly c r M' db'.rdonly) := by
  have hdel : ∀ k : Bytes, ∃ db' r, (delete lists db k).map (fun r => (r.1, Res.bool (r.2 == 0))) = some (db', r) ∧
      (db.dirf.size ≤ db'.dirf.size) ∧ (db'.dirf.size ≤ 1 → ∃ M', Inv db' M' ∧ (db'.rdonly = db.rdonly ∧
        if db.rdonly = true then r = .bool false ∧ M' = M else r = .bool (M k).isSome ∧ M' = upd M k none)) := by
    intro k
    obtain ⟨db', n, e, h1, h2, h3⟩ := delete_inv h k
    rw [e]
    refine ⟨db', _, rfl, Nat.le_of_eq (congrArg _ h1.symm), fun _ => ?_⟩
    by_cases hro : db.rdonly = true
    · rw [if_pos hro] at h3
      exact ⟨M, h3.2, h2, by rw [if_pos hro, h3.1]; exact ⟨rfl, rfl⟩⟩
    · rw [if_neg hro] at h3
      refine ⟨_, h3.2, h2, ?_⟩
      rw [if_neg hro, h3.1]
      refine ⟨?_, rfl⟩
      cases (M k).isSome <;> rfl
  cases c with
  | fetch k =>
    obtain ⟨db', e, h1, h2, h3⟩ := fetch_inv h k
    refine ⟨db', _, by show (fetch lists db k).map _ = _; rw [e]; rfl, Nat.le_of_eq (congrArg _ h2.symm), fun _ => ⟨M, h1, rfl, rfl, h3⟩⟩
  | store k v replace =>
    obtain ⟨db', n, e, h1, h2, h3⟩ := store_inv h k v replace
    refine ⟨db', .bool (n == 0), by show (store lists db k v replace).map _ = _; rw [e]; rfl, h1, fun hs => ?_⟩
    obtain ⟨M', h4, h5⟩ := h3 hs
    refine ⟨M', h4, h2, ?_⟩
    split
    · rename_i hcond
      rw [if_pos hcond] at h5
      exact ⟨by rw [beq_false_of_ne h5.1], h5.2⟩
    · rename_i hcond
      rw [if_neg hcond] at h5
      rcases h5 with h5 | h5
      · left; exact ⟨by rw [h5.1]; rfl, h5.2⟩
      · right; exact ⟨by rw [beq_false_of_ne h5.1], h5.2⟩
  | erase k => exact hdel k
  | delete k => exact hdel (k ++ [0])
  | firstkey =>
    obtain ⟨db', r, e, h1, h2, h3⟩ := firstkey_inv h
    exact ⟨db', .str r, by show (firstkey lists db).map _ = _; rw [e]; rfl, Nat.le_of_eq (congrArg _ h2.symm), fun _ => ⟨M, h1, ⟨r, rfl⟩, rfl, h3⟩⟩
  | nextkey =>
    obtain ⟨db', r, e, h1, h2, h3⟩ := nextkey_inv h
    exact ⟨db', .str r, by show (nextkey lists db).map _ = _; rw [e]; rfl, Nat.le_of_eq (congrArg _ h2.symm), fun _ => ⟨M, h1, ⟨r, rfl⟩, rfl, h3⟩⟩
  | reopen ro => exact ⟨_, _, rfl, Nat.le_refl _, fun _ => ⟨M, prep_inv h ro, rfl, rfl, rfl⟩⟩

end Rep.Sdbm
