/-
The database over lists of pairs, and the proof that the database over pages of bytes
behaves in the same way.
-/
import Verif.Sdbm.Db
import Verif.Sdbm.PageSpec
import Mathlib.Data.Option.Basic

namespace Rep.Sdbm

/-- Pages as lists of pairs. -/
def lists : PageOps (List Pair) where
  zero := []
  fit l need := (room l : Int) + 4 + need ≤ 1024
  put l key val := some (l ++ [(key, val)])
  get := lookup
  dup l key := l.any fun kv => kv.1 == key
  nkey l n := (l[n - 1]?).map Prod.fst
  del l key := some (l.eraseP fun kv => kv.1 == key, l.any fun kv => kv.1 == key)
  split l sbit := some (l.filter fun kv => hash kv.1 &&& sbit == 0, l.filter fun kv => hash kv.1 &&& sbit != 0)
  chk _ := true

structure FileRel (f : File Page) (g : File (List Pair)) : Prop where
  size : f.size = g.size
  blocks : List.Forall₂ (fun a b => a.1 = b.1 ∧ Holds a.2 b.2) f.blocks g.blocks

theorem FileRel.find {xs : List (Nat × Page)} {ys : List (Nat × List Pair)}
    (h : List.Forall₂ (fun a b => a.1 = b.1 ∧ Holds a.2 b.2) xs ys) (i : Nat) :
    Holds (((xs.find? fun b => b.1 == i).map Prod.snd).getD zeroPage) (((ys.find? fun b => b.1 == i).map Prod.snd).getD []) := by
  induction h with
  | nil => exact holds_zero
  | cons hab _ ih =>
    obtain ⟨e, hh⟩ := hab
    simp only [List.find?_cons, e]
    split
    · exact hh
    · exact ih

theorem FileRel.read {f : File Page} {g : File (List Pair)} (h : FileRel f g) (i : Nat) :
    Option.Rel Holds (f.read zeroPage i) (g.read [] i) := by
  unfold File.read
  rw [h.size]
  split
  · exact .some (FileRel.find h.blocks i)
  · exact .none

theorem FileRel.write {f : File Page} {g : File (List Pair)} (h : FileRel f g) (i : Nat) {p : Page} {l : List Pair}
    (hp : Holds p l) : FileRel (f.write i p) (g.write i l) :=
  ⟨by simp [File.write, h.size], .cons ⟨rfl, hp⟩ h.blocks⟩

structure DbRel (a : Db Page) (b : Db (List Pair)) : Prop where
  pagf : FileRel a.pagf b.pagf
  dirf : a.dirf = b.dirf
  pos : a.pos = b.pos
  rdonly : a.rdonly = b.rdonly
  ioerr : a.ioerr = b.ioerr
  maxbno : a.maxbno = b.maxbno
  curbit : a.curbit = b.curbit
  hmask : a.hmask = b.hmask
  blkptr : a.blkptr = b.blkptr
  keyptr : a.keyptr = b.keyptr
  pagbno : a.pagbno = b.pagbno
  pagbuf : Holds a.pagbuf b.pagbuf
  dirbno : a.dirbno = b.dirbno
  dirbuf : a.dirbuf = b.dirbuf

/-- Related results. -/
def ResRel {ρ : Type} (x : Db Page × ρ) (y : Db (List Pair) × ρ) : Prop := DbRel x.1 y.1 ∧ x.2 = y.2

variable {a : Db Page} {b : Db (List Pair)}

theorem fitpair_eq {p : Page} {l : List Pair} (h : Holds p l) (need : Int) : fitpair p need = lists.fit l need := by
  unfold fitpair
  rw [h.freeEnd, h.count]
  show decide _ = decide _
  congr 1
  unfold room
  apply propext
  push_cast
  omega

theorem rel_prep {f : File Page} {g : File (List Pair)} (h : FileRel f g) (d : File Nat) (ro : Bool) :
    DbRel (prep pages f d ro) (prep lists g d ro) :=
  ⟨h, rfl, rfl, rfl, rfl, rfl, rfl, rfl, rfl, rfl, rfl, holds_zero, rfl, rfl⟩

theorem rel_loadDir (h : DbRel a b) (n : Nat) : DbRel (loadDir a n) (loadDir b n) := by
  unfold loadDir
  rw [h.dirbno]
  dsimp only
  split
  · exact { h with dirbuf := by simp only [h.dirf, h.dirbuf], dirbno := rfl }
  · exact h

theorem rel_getdbit (h : DbRel a b) (n : Nat) : ResRel (getdbit a n) (getdbit b n) := by
  have := rel_loadDir h n
  exact ⟨this, by simp only [getdbit, this.dirbuf]⟩

theorem rel_setdbit (h : DbRel a b) (n : Nat) : DbRel (setdbit a n) (setdbit b n) := by
  have := rel_loadDir h n
  unfold setdbit
  exact { this with
    dirbuf := by simp only [this.dirbuf]
    maxbno := by simp only [this.maxbno]
    dirf := by simp only [this.dirf, this.dirbuf] }

theorem rel_trie (hh : Nat) : ∀ (fuel : Nat) (a : Db Page) (b : Db (List Pair)) (dbit hbit : Nat), DbRel a b →
    Option.Rel ResRel (trie hh fuel a dbit hbit) (trie hh fuel b dbit hbit) := by
  intro fuel
  induction fuel with
  | zero => intro a b _ _ _; exact .none
  | succ fuel ih =>
    intro a b dbit hbit h
    unfold trie
    rw [h.maxbno]
    split
    · have := rel_getdbit h dbit
      dsimp only
      rw [this.2]
      split
      · exact ih _ _ _ _ this.1
      · exact .some ⟨this.1, rfl⟩
    · exact .some ⟨h, rfl⟩

theorem rel_loadPage (h : DbRel a b) (n : Nat) : ResRel (loadPage pages a n) (loadPage lists b n) := by
  unfold loadPage
  rw [h.pagbno]
  split
  · have hr := h.pagf.read n
    change Option.Rel Holds (a.pagf.read pages.zero n) (b.pagf.read lists.zero n) at hr
    rcases e1 : a.pagf.read pages.zero n with _ | p <;> rcases e2 : b.pagf.read lists.zero n with _ | l <;>
      rw [e1, e2] at hr <;> cases hr
    · have c : pages.chk a.pagbuf = true := chkpage_spec h.pagbuf
      have c' : lists.chk b.pagbuf = true := rfl
      simp only [c, c', if_true]
      exact ⟨{ h with pos := rfl, pagbno := rfl }, rfl⟩
    · rename_i hp
      have c : pages.chk p = true := chkpage_spec hp
      have c' : lists.chk l = true := rfl
      simp only [c, c', if_true]
      exact ⟨{ h with pos := rfl, pagbno := rfl, pagbuf := hp }, rfl⟩
  · exact ⟨h, rfl⟩

theorem rel_getpage (h : DbRel a b) (hh : Nat) : Option.Rel ResRel (getpage pages a hh) (getpage lists b hh) := by
  unfold getpage
  have := rel_trie hh 32 a b 0 0 h
  rcases e1 : trie hh 32 a 0 0 with _ | x <;> rcases e2 : trie hh 32 b 0 0 with _ | y <;> rw [e1, e2] at this <;> cases this
  · exact .none
  · rename_i hr
    obtain ⟨x1, x2⟩ := x
    obtain ⟨y1, y2⟩ := y
    obtain ⟨hr, rfl⟩ : DbRel x1 y1 ∧ x2 = y2 := hr
    exact .some (rel_loadPage (a := { x1 with curbit := x2.1, hmask := 2 ^ x2.2 - 1 })
      (b := { y1 with curbit := x2.1, hmask := 2 ^ x2.2 - 1 }) { hr with curbit := rfl, hmask := rfl } _)

theorem rel_flush (h : DbRel a b) : DbRel (flush a) (flush b) := by
  unfold flush
  exact { h with pagf := by rw [h.pagbno]; exact h.pagf.write _ h.pagbuf, pos := by simp only [h.pagbno] }

theorem rel_fetch (h : DbRel a b) (key : Bytes) : Option.Rel ResRel (fetch pages a key) (fetch lists b key) := by
  unfold fetch
  split
  · exact .some ⟨h, rfl⟩
  · have := rel_getpage h (hash key)
    rcases e1 : getpage pages a (hash key) with _ | x <;> rcases e2 : getpage lists b (hash key) with _ | y <;>
      rw [e1, e2] at this <;> cases this
    · exact .none
    · rename_i hr
      refine .some ?_
      dsimp only
      rw [hr.2]
      split
      · exact ⟨hr.1, getpair_spec hr.1.pagbuf key⟩
      · exact ⟨{ hr.1 with ioerr := rfl }, rfl⟩

theorem rel_delete (h : DbRel a b) (key : Bytes) : Option.Rel ResRel (delete pages a key) (delete lists b key) := by
  unfold delete
  rw [h.rdonly]
  split
  · exact .some ⟨h, rfl⟩
  · split
    · exact .some ⟨h, rfl⟩
    · have := rel_getpage h (hash key)
      rcases e1 : getpage pages a (hash key) with _ | x <;> rcases e2 : getpage lists b (hash key) with _ | y <;>
        rw [e1, e2] at this <;> cases this
      · exact .none
      · rename_i hr
        simp only [Option.bind_some]
        rw [hr.2]
        split
        · obtain ⟨p', e, hp'⟩ := delpair_spec hr.1.pagbuf key
          have e' : pages.del x.1.pagbuf key = some (p', y.1.pagbuf.any fun kv => kv.1 == key) := e
          rw [e']
          refine .some ?_
          dsimp only [lists]
          have hd : DbRel { x.1 with pagbuf := p' } { y.1 with pagbuf := y.1.pagbuf.eraseP fun kv => kv.1 == key } :=
            { hr.1 with pagbuf := hp' }
          split
          · exact ⟨rel_flush hd, rfl⟩
          · exact ⟨hd, rfl⟩
        · exact .some ⟨{ hr.1 with ioerr := rfl }, rfl⟩

theorem rel_place (h : DbRel a b) (hh : Nat) {p : Page} {l : List Pair} (hp : Holds p l) :
    DbRel (place a hh p) (place b hh l) := by
  unfold place
  rw [h.hmask]
  dsimp only
  split
  · exact { rel_flush h with pagbno := rfl, pagbuf := hp }
  · exact { h with pagf := h.pagf.write _ hp, pos := rfl, hmask := rfl }

theorem rel_splitOnce (h : DbRel a b) (hh : Nat) : Option.Rel DbRel (splitOnce pages a hh) (splitOnce lists b hh) := by
  unfold splitOnce
  obtain ⟨p1, p2, e, h1, h2⟩ := splpage_spec hash (b.hmask + 1) h.pagbuf
  have e' : pages.split a.pagbuf (b.hmask + 1) = some (p1, p2) := e
  rw [h.hmask, e', h.curbit]
  refine .some (rel_setdbit (rel_place ?_ hh h2) _)
  exact { h with pagbuf := h1, curbit := rfl, hmask := rfl }

theorem rel_deepen (h : DbRel a b) (hh : Nat) : DbRel (deepen a hh) (deepen b hh) := by
  unfold deepen
  apply rel_flush
  rw [h.curbit, h.hmask]
  exact { h with curbit := rfl, hmask := rfl }

theorem rel_makroom (hh : Nat) (need : Int) : ∀ (n : Nat) (a : Db Page) (b : Db (List Pair)), DbRel a b →
    Option.Rel (fun x y => ResRel x y ∧ (y.2 = true → lists.fit y.1.pagbuf need = true)) (makroom pages hh need n a) (makroom lists hh need n b) := by
  intro n
  induction n with
  | zero => intro a b h; exact .some ⟨⟨h, rfl⟩, by simp⟩
  | succ n ih =>
    intro a b h
    unfold makroom
    have := rel_splitOnce h hh
    rcases e1 : splitOnce pages a hh with _ | x <;> rcases e2 : splitOnce lists b hh with _ | y <;> rw [e1, e2] at this <;> cases this
    · exact .none
    · rename_i hr
      simp only [Option.bind_some]
      have hf : pages.fit x.pagbuf need = lists.fit y.pagbuf need := fitpair_eq hr.pagbuf need
      rw [hf]
      split
      · rename_i hfit
        exact .some ⟨⟨hr, rfl⟩, fun _ => hfit⟩
      · exact ih _ _ (rel_deepen hr hh)

theorem rel_prepare (h : DbRel a b) (key : Bytes) (r : Bool) :
    Option.Rel ResRel (prepare pages a key r) (prepare lists b key r) := by
  unfold prepare
  split
  · obtain ⟨p', e, hp'⟩ := delpair_spec h.pagbuf key
    have e' : pages.del a.pagbuf key = some (p', b.pagbuf.any fun kv => kv.1 == key) := e
    rw [e']
    exact .some ⟨{ h with pagbuf := hp' }, rfl⟩
  · exact .some ⟨h, duppair_spec h.pagbuf key⟩

theorem rel_insert (h : DbRel a b) (key val : Bytes) (hf : lists.fit b.pagbuf (key.length + val.length) = true) :
    Option.Rel ResRel (insert pages a key val) (insert lists b key val) := by
  unfold insert
  rw [← fitpair_eq h.pagbuf, fitpair_iff h.pagbuf (key, val)] at hf
  obtain ⟨p', e, hp'⟩ := putpair_spec h.pagbuf (key, val) hf
  have e' : pages.put a.pagbuf key val = some p' := e
  rw [e']
  exact .some ⟨rel_flush { h with pagbuf := hp' }, rfl⟩

theorem rel_store (h : DbRel a b) (key val : Bytes) (r : Bool) :
    Option.Rel ResRel (store pages a key val r) (store lists b key val r) := by
  unfold store
  rw [h.rdonly]
  by_cases c1 : key.length ≤ 0
  · rw [if_pos c1, if_pos c1]; exact .some ⟨h, rfl⟩
  rw [if_neg c1, if_neg c1]
  by_cases c2 : b.rdonly = true
  · rw [if_pos c2, if_pos c2]; exact .some ⟨h, rfl⟩
  rw [if_neg c2, if_neg c2]
  dsimp only
  by_cases c3 : (key.length : Int) + val.length > 1008
  · rw [if_pos c3, if_pos c3]; exact .some ⟨h, rfl⟩
  rw [if_neg c3, if_neg c3]
  have := rel_getpage h (hash key)
  rcases e1 : getpage pages a (hash key) with _ | x <;> rcases e2 : getpage lists b (hash key) with _ | y <;>
    rw [e1, e2] at this <;> cases this
  · exact .none
  rename_i hr
  simp only [Option.bind_some]
  rw [hr.2]
  split
  · have := rel_prepare hr.1 key r
    rcases e1 : prepare pages x.1 key r with _ | x' <;> rcases e2 : prepare lists y.1 key r with _ | y' <;>
      rw [e1, e2] at this <;> cases this
    · exact .none
    rename_i hr'
    simp only [Option.bind_some]
    have hf : pages.fit x'.1.pagbuf (key.length + val.length) = lists.fit y'.1.pagbuf (key.length + val.length) := fitpair_eq hr'.1.pagbuf _
    rw [hr'.2, hf]
    split
    · exact .some ⟨hr'.1, rfl⟩
    split
    · rename_i hfit
      exact rel_insert hr'.1 key val hfit
    · have := rel_makroom (hash key) (key.length + val.length) 10 _ _ hr'.1
      rcases e1 : makroom pages (hash key) (key.length + val.length) 10 x'.1 with _ | x'' <;>
        rcases e2 : makroom lists (hash key) (key.length + val.length) 10 y'.1 with _ | y'' <;>
        rw [e1, e2] at this <;> cases this
      · exact .none
      rename_i hr''
      obtain ⟨hr'', hfit⟩ := hr''
      simp only [Option.bind_some]
      rw [hr''.2]
      split
      · rename_i ht
        exact rel_insert hr''.1 key val (hfit ht)
      · exact .some ⟨{ hr''.1 with ioerr := rfl }, rfl⟩
  · exact .some ⟨{ hr.1 with ioerr := rfl }, rfl⟩

theorem rel_getnext : ∀ (n : Nat) (a : Db Page) (b : Db (List Pair)), DbRel a b →
    Option.Rel ResRel (getnext pages n a) (getnext lists n b) := by
  intro n
  induction n with
  | zero => intro a b _; exact .none
  | succ n ih =>
    intro a b h
    unfold getnext
    have hk : pages.nkey a.pagbuf (a.keyptr + 1) = lists.nkey b.pagbuf (b.keyptr + 1) := by
      rw [h.keyptr]; exact getnkey_spec h.pagbuf b.keyptr
    dsimp only
    rw [hk]
    rcases e : lists.nkey b.pagbuf (b.keyptr + 1) with _ | key
    · dsimp only
      rw [h.pagbno, h.blkptr, h.pos]
      generalize (if b.pagbno ≠ (b.blkptr : Int) then b.blkptr + 1 else b.pos) = pos
      have hr := h.pagf.read pos
      change Option.Rel Holds (a.pagf.read pages.zero pos) (b.pagf.read lists.zero pos) at hr
      rcases e1 : a.pagf.read pages.zero pos with _ | p <;> rcases e2 : b.pagf.read lists.zero pos with _ | l <;>
        rw [e1, e2] at hr <;> cases hr
      · exact .some ⟨{ h with pos := rfl, ioerr := rfl, keyptr := rfl, blkptr := rfl, pagbno := rfl }, rfl⟩
      · rename_i hp
        have c : pages.chk p = true := chkpage_spec hp
        have c' : lists.chk l = true := rfl
        simp only [c, c', if_true]
        exact ih _ _ { h with pos := rfl, pagbuf := hp, keyptr := rfl, blkptr := rfl, pagbno := rfl }
    · exact .some ⟨{ h with keyptr := by simp only [h.keyptr] }, rfl⟩

theorem rel_firstkey (h : DbRel a b) : Option.Rel ResRel (firstkey pages a) (firstkey lists b) := by
  unfold firstkey
  have hr := h.pagf.read 0
  change Option.Rel Holds (a.pagf.read pages.zero 0) (b.pagf.read lists.zero 0) at hr
  have hs := h.pagf.size
  rcases e1 : a.pagf.read pages.zero 0 with _ | p <;> rcases e2 : b.pagf.read lists.zero 0 with _ | l <;>
    rw [e1, e2] at hr <;> cases hr
  · dsimp only
    rw [hs]
    exact rel_getnext _ _ _ { h with pos := rfl, pagbno := rfl, blkptr := rfl, keyptr := rfl }
  · rename_i hp
    dsimp only
    rw [hs]
    exact rel_getnext _ _ _ { h with pos := rfl, pagbuf := hp, pagbno := rfl, blkptr := rfl, keyptr := rfl }

theorem rel_map {ρ σ : Type} {x : Option (Db Page × ρ)} {y : Option (Db (List Pair) × ρ)} (h : Option.Rel ResRel x y) (f : ρ → σ) :
    Option.Rel ResRel (x.map fun r => (r.1, f r.2)) (y.map fun r => (r.1, f r.2)) := by
  cases h with
  | none => exact .none
  | some h => exact .some ⟨h.1, congrArg f h.2⟩

/-- The same call has the same result on related databases. -/
theorem rel_exec (h : DbRel a b) (c : Cmd) : Option.Rel ResRel (exec pages a c) (exec lists b c) := by
  cases c with
  | fetch key => exact rel_map (rel_fetch h key) _
  | store key val r => exact rel_map (rel_store h key val r) (fun n => Res.bool (n == 0))
  | erase key => exact rel_map (rel_delete h key) (fun n => Res.bool (n == 0))
  | delete key => exact rel_map (rel_delete h (key ++ [0])) (fun n => Res.bool (n == 0))
  | firstkey => exact rel_map (rel_firstkey h) _
  | nextkey =>
    refine rel_map ?_ _
    unfold nextkey
    rw [h.pagf.size]
    exact rel_getnext _ _ _ h
  | reopen ro =>
    refine .some ⟨?_, rfl⟩
    rw [h.dirf]
    exact rel_prep h.pagf _ _

theorem rel_run : ∀ (cs : List Cmd) (a : Db Page) (b : Db (List Pair)), DbRel a b →
    Option.Rel ResRel (run pages a cs) (run lists b cs) := by
  intro cs
  induction cs with
  | nil => intro a b h; exact .some ⟨h, rfl⟩
  | cons c cs ih =>
    intro a b h
    unfold run
    have := rel_exec h c
    rcases e1 : exec pages a c with _ | x <;> rcases e2 : exec lists b c with _ | y <;> rw [e1, e2] at this <;> cases this
    · exact .none
    · rename_i hr
      simp only [Option.bind_some]
      have := ih _ _ hr.1
      rcases e1 : run pages x.1 cs with _ | x' <;> rcases e2 : run lists y.1 cs with _ | y' <;> rw [e1, e2] at this <;> cases this
      · exact .none
      · rename_i hr'
        exact .some ⟨hr'.1, by simp only [hr.2, hr'.2]⟩

theorem rel_create : DbRel (create pages) (create lists) := rel_prep ⟨rfl, .nil⟩ _ _

end Rep.Sdbm
