/-
The properties of sdbm databases.  The specification is `Verif/Sdbm/MapSpec.lean`.
-/
import Verif.Sdbm.DbWalk

namespace Rep.Sdbm

/-! ### C34: pages -/

/-- What the library does to a page: it puts a pair if it fits, it deletes a pair, or it
splits the page and goes on with one of the two. -/
inductive PageOp where
  | put (key val : Bytes)
  | del (key : Bytes)
  | split (sbit : Nat) (high : Bool)

/-- An operation on a page of 1024 bytes. -/
def PageOp.page (p : Page) : PageOp → Option Page
  | .put key val => if fitpair p (key.length + val.length) then putpair p key val else some p
  | .del key => (delpair p key).map Prod.fst
  | .split sbit high => (splpage hash p sbit).map fun s => if high then s.2 else s.1

/-- The same on a list of pairs. -/
def PageOp.list (l : List (Bytes × Bytes)) : PageOp → List (Bytes × Bytes)
  | .put key val => if pageBytes (l ++ [(key, val)]) ≤ 1024 then l ++ [(key, val)] else l
  | .del key => l.eraseP fun kv => kv.1 == key
  | .split sbit high => l.filter fun kv => decide (hash kv.1 &&& sbit ≠ 0) == high

def runPage : Page → List PageOp → Option Page
  | p, [] => some p
  | p, o :: os => (o.page p).bind fun p => runPage p os

theorem page_op {p : Page} {l : List Pair} (h : Holds p l) (o : PageOp) : ∃ p', o.page p = some p' ∧ Holds p' (o.list l) := by
  cases o with
  | put key val =>
    dsimp only [PageOp.page, PageOp.list]
    by_cases hf : fitpair p (key.length + val.length) = true
    · rw [if_pos hf]
      have hr := (fitpair_iff h (key, val)).mp hf
      rw [if_pos (by rw [pageBytes_eq]; exact hr)]
      exact putpair_spec h (key, val) hr
    · rw [if_neg hf, if_neg]
      · exact ⟨p, rfl, h⟩
      · rw [pageBytes_eq]
        exact fun hr => hf ((fitpair_iff h (key, val)).mpr hr)
  | del key =>
    obtain ⟨p', e, h'⟩ := delpair_spec h key
    exact ⟨p', by dsimp only [PageOp.page]; rw [e]; rfl, h'⟩
  | split sbit high =>
    obtain ⟨a, b, e, ha, hb⟩ := splpage_spec hash sbit h
    dsimp only [PageOp.page, PageOp.list]
    rw [e]
    cases high with
    | false =>
      refine ⟨a, rfl, ?_⟩
      have : (fun kv : Pair => decide (hash kv.1 &&& sbit ≠ 0) == false) = fun kv => hash kv.1 &&& sbit == 0 := by
        funext kv
        by_cases hz : hash kv.1 &&& sbit = 0 <;> simp [hz]
      rw [this]; exact ha
    | true =>
      refine ⟨b, rfl, ?_⟩
      have : (fun kv : Pair => decide (hash kv.1 &&& sbit ≠ 0) == true) = fun kv => hash kv.1 &&& sbit != 0 := by
        funext kv
        by_cases hz : hash kv.1 &&& sbit = 0 <;> simp [hz]
      rw [this]; exact hb

theorem runPage_holds : ∀ (os : List PageOp) (p : Page) (l : List Pair), Holds p l →
    ∃ p', runPage p os = some p' ∧ Holds p' (os.foldl PageOp.list l) := by
  intro os
  induction os with
  | nil => intro p l h; exact ⟨p, rfl, h⟩
  | cons o os ih =>
    intro p l h
    obtain ⟨p', e, h'⟩ := page_op h o
    obtain ⟨p'', e', h''⟩ := ih p' _ h'
    refine ⟨p'', ?_, h''⟩
    show (o.page p).bind _ = _
    rw [e]
    exact e'

/-- C34: any sequence of operations on an empty page writes only within the page, and
leaves a page of 1024 bytes that consists of a table of offsets, free space and, disjoint
from each other, the keys and values of the list that the sequence makes.  Whether a pair
fits is decided rightly, a search for a key finds its value, and the keys can be
enumerated. -/
theorem C34_pages (os : List PageOp) : ∃ p l, runPage zeroPage os = some p ∧ l = os.foldl PageOp.list [] ∧
    p.length = 1024 ∧ chkpage p = true ∧
    (∃ table gap, p = table ++ gap ++ l.reverse.flatMap (fun kv => kv.2 ++ kv.1) ∧ table.length = 2 + 4 * l.length) ∧
    (∀ key, getpair p key = (l.find? fun kv => kv.1 == key).map Prod.snd) ∧
    (∀ key, duppair p key = l.any fun kv => kv.1 == key) ∧
    (∀ i, getnkey p (i + 1) = l[i]?.map Prod.fst) ∧
    (∀ key val : Bytes, fitpair p (key.length + val.length) = decide (pageBytes (l ++ [(key, val)]) ≤ 1024)) := by
  obtain ⟨p, e, h⟩ := runPage_holds os zeroPage [] holds_zero
  refine ⟨p, _, e, rfl, ?_, chkpage_spec h, ?_, getpair_spec h, duppair_spec h, getnkey_spec h, ?_⟩
  · obtain ⟨gap, -, hl⟩ := h; exact hl
  · obtain ⟨gap, hp, -⟩ := h
    refine ⟨enc (index (os.foldl PageOp.list [])), gap, ?_, by rw [enc_length, index_length]; omega⟩
    · generalize os.foldl PageOp.list [] = l at hp
      have hb : body l = l.reverse.flatMap (fun kv => kv.2 ++ kv.1) := by
        clear hp
        induction l with
        | nil => rfl
        | cons kv l ih => simp [body, ih]
      rw [hp, hb, List.append_assoc]
  · intro key val
    rw [pageBytes_eq]
    by_cases hf : fitpair p (key.length + val.length) = true
    · rw [hf, decide_eq_true ((fitpair_iff h (key, val)).mp hf)]
    · rw [decide_eq_false fun hr => hf ((fitpair_iff h (key, val)).mpr hr)]
      simpa using hf

/-- A split loses and alters nothing: every pair is on the page that the bit of its hash
selects, in the same order. -/
theorem C34_split (os : List PageOp) (sbit : Nat) : ∃ p a b l, runPage zeroPage os = some p ∧ l = os.foldl PageOp.list [] ∧
    splpage hash p sbit = some (a, b) ∧
    (∀ i, getnkey a (i + 1) = (l.filter fun kv => hash kv.1 &&& sbit == 0)[i]?.map Prod.fst) ∧
    (∀ i, getnkey b (i + 1) = (l.filter fun kv => hash kv.1 &&& sbit != 0)[i]?.map Prod.fst) ∧
    (∀ key, getpair p key = getpair (if hash key &&& sbit = 0 then a else b) key) := by
  obtain ⟨p, e, h⟩ := runPage_holds os zeroPage [] holds_zero
  obtain ⟨a, b, e', ha, hb⟩ := splpage_spec hash sbit h
  refine ⟨p, a, b, _, e, rfl, e', getnkey_spec ha, getnkey_spec hb, ?_⟩
  intro key
  rw [getpair_spec h]
  split
  · rename_i hz
    rw [getpair_spec ha, lookup_filter _ (fun k => hash k &&& sbit == 0)]
    simp [hz]
  · rename_i hz
    rw [getpair_spec hb, lookup_filter _ (fun k => hash k &&& sbit != 0)]
    simp [hz]

/-! ### C33: histories -/

theorem loadDir_dirf (db : Db (List Pair)) (n : Nat) : (loadDir db n).dirf = db.dirf := by
  unfold loadDir
  dsimp only
  split <;> rfl

theorem trie_dirf (hh : Nat) : ∀ fuel (db : Db (List Pair)) dbit hbit db' x, trie hh fuel db dbit hbit = some (db', x) → db'.dirf = db.dirf := by
  intro fuel
  induction fuel with
  | zero => intro db dbit hbit db' x h; simp [trie] at h
  | succ fuel ih =>
    intro db dbit hbit db' x h
    unfold trie at h
    dsimp only at h
    by_cases h1 : dbit < db.maxbno
    · rw [if_pos h1] at h
      by_cases h2 : (getdbit db dbit).2 = true
      · rw [if_pos h2] at h
        exact (ih _ _ _ _ _ h).trans (loadDir_dirf db dbit)
      · rw [if_neg h2] at h
        cases h
        exact loadDir_dirf db dbit
    · rw [if_neg h1] at h
      cases h
      rfl

theorem getpage_dirf {db db' : Db (List Pair)} {hh : Nat} {x : Bool} (h : getpage lists db hh = some (db', x)) : db'.dirf = db.dirf := by
  unfold getpage at h
  rw [Option.map_eq_some_iff] at h
  obtain ⟨⟨d1, n1, n2⟩, h1, h2⟩ := h
  have h3 := trie_dirf hh _ _ _ _ _ _ h1
  rw [← h3]
  unfold loadPage at h2
  dsimp only at h2
  split at h2
  · split at h2
    · cases h2; rfl
    · cases h2; rfl
  · cases h2; rfl

theorem getnext_dirf : ∀ fuel (db : Db (List Pair)) db' x, getnext lists fuel db = some (db', x) → db'.dirf = db.dirf := by
  intro fuel
  induction fuel with
  | zero => intro db db' x h; simp [getnext] at h
  | succ fuel ih =>
    intro db db' x h
    unfold getnext at h
    dsimp only at h
    split at h
    · cases h; rfl
    · split at h
      · cases h; rfl
      · split at h
        · have := ih _ _ _ h; exact this
        · cases h; rfl

theorem store_mono {db db' : Db (List Pair)} {k v : Bytes} {r : Bool} {x : Int} (h : store lists db k v r = some (db', x)) :
    db.dirf.size ≤ db'.dirf.size := by
  unfold store at h
  dsimp only at h
  split at h
  · cases h; exact Nat.le_refl _
  split at h
  · cases h; exact Nat.le_refl _
  split at h
  · cases h; exact Nat.le_refl _
  rw [Option.bind_eq_some_iff] at h
  obtain ⟨⟨d1, b1⟩, h1, h2⟩ := h
  rw [← getpage_dirf h1]
  dsimp only at h2
  split at h2
  swap
  · cases h2; exact Nat.le_refl _
  rw [Option.bind_eq_some_iff] at h2
  obtain ⟨⟨d2, b2⟩, h3, h4⟩ := h2
  have h5 : d2.dirf = d1.dirf := by
    unfold prepare at h3
    split at h3
    · rw [Option.map_eq_some_iff] at h3
      obtain ⟨_, -, h3⟩ := h3
      cases h3; rfl
    · cases h3; rfl
  rw [← h5]
  dsimp only at h4
  split at h4
  · cases h4; exact Nat.le_refl _
  split at h4
  · cases h4; exact Nat.le_refl _
  rw [Option.bind_eq_some_iff] at h4
  obtain ⟨⟨d3, b3⟩, h6, h7⟩ := h4
  obtain ⟨d4, b4, h8, h9, -⟩ := makroom_total (hash k) (k.length + v.length) 10 d2
  rw [h8] at h6
  cases h6
  dsimp only at h7
  split at h7
  · cases h7; exact h9
  · cases h7; exact h9

theorem delete_mono {db db' : Db (List Pair)} {k : Bytes} {x : Int} (h : delete lists db k = some (db', x)) : db.dirf.size ≤ db'.dirf.size := by
  unfold delete at h
  split at h
  · cases h; exact Nat.le_refl _
  split at h
  · cases h; exact Nat.le_refl _
  rw [Option.bind_eq_some_iff] at h
  obtain ⟨⟨d1, b1⟩, h1, h2⟩ := h
  rw [← getpage_dirf h1]
  dsimp only at h2
  split at h2
  · rw [Option.map_eq_some_iff] at h2
    obtain ⟨_, -, h2⟩ := h2
    split at h2 <;> · cases h2; exact Nat.le_refl _
  · cases h2; exact Nat.le_refl _

theorem exec_mono {db db' : Db (List Pair)} {c : Cmd} {r : Res} (h : exec lists db c = some (db', r)) : db.dirf.size ≤ db'.dirf.size := by
  cases c with
  | fetch k =>
    change (fetch lists db k).map _ = _ at h
    rw [Option.map_eq_some_iff] at h
    obtain ⟨⟨d, x⟩, h1, h2⟩ := h
    cases h2
    unfold fetch at h1
    split at h1
    · cases h1; exact Nat.le_refl _
    · rw [Option.map_eq_some_iff] at h1
      obtain ⟨⟨d1, b1⟩, h3, h4⟩ := h1
      rw [← getpage_dirf h3]
      dsimp only at h4
      split at h4 <;> · cases h4; exact Nat.le_refl _
  | store k v r =>
    change (store lists db k v r).map _ = _ at h
    rw [Option.map_eq_some_iff] at h
    obtain ⟨⟨d, x⟩, h1, h2⟩ := h
    cases h2
    exact store_mono h1
  | erase k =>
    change (delete lists db k).map _ = _ at h
    rw [Option.map_eq_some_iff] at h
    obtain ⟨⟨d, x⟩, h1, h2⟩ := h
    cases h2
    exact delete_mono h1
  | delete k =>
    change (delete lists db _).map _ = _ at h
    rw [Option.map_eq_some_iff] at h
    obtain ⟨⟨d, x⟩, h1, h2⟩ := h
    cases h2
    exact delete_mono h1
  | firstkey =>
    change (firstkey lists db).map _ = _ at h
    rw [Option.map_eq_some_iff] at h
    obtain ⟨⟨d, x⟩, h1, h2⟩ := h
    cases h2
    unfold firstkey at h1
    dsimp only at h1
    have := getnext_dirf _ _ _ _ h1
    rw [this]
    split <;> exact Nat.le_refl _
  | nextkey =>
    change (nextkey lists db).map _ = _ at h
    rw [Option.map_eq_some_iff] at h
    obtain ⟨⟨d, x⟩, h1, h2⟩ := h
    cases h2
    exact Nat.le_of_eq (congrArg _ (getnext_dirf _ _ _ _ h1).symm)
  | reopen ro => cases h; exact Nat.le_refl _

theorem run_cons {P : Type} {ops : PageOps P} {db db' : Db P} {c : Cmd} {cs : List Cmd} {rs : List Res} (h : run ops db (c :: cs) = some (db', rs)) :
    ∃ db1 r rs', exec ops db c = some (db1, r) ∧ run ops db1 cs = some (db', rs') ∧ rs = r :: rs' := by
  change (exec ops db c).bind _ = _ at h
  rw [Option.bind_eq_some_iff] at h
  obtain ⟨⟨d, x⟩, h1, h2⟩ := h
  rw [Option.map_eq_some_iff] at h2
  obtain ⟨⟨d2, y⟩, h3, h4⟩ := h2
  cases h4
  exact ⟨d, x, y, h1, h3, rfl⟩

theorem run_mono : ∀ (cs : List Cmd) {db db' : Db (List Pair)} {rs : List Res}, run lists db cs = some (db', rs) → db.dirf.size ≤ db'.dirf.size := by
  intro cs
  induction cs with
  | nil => intro db db' rs h; cases h; exact Nat.le_refl _
  | cons c cs ih =>
    intro db db' rs h
    obtain ⟨db1, r, rs', h1, h2, -⟩ := run_cons h
    exact Nat.le_trans (exec_mono h1) (ih h2)

theorem run_inv : ∀ (cs : List Cmd) {db db' : Db (List Pair)} {M : Map} {rs : List Res}, Inv db M → run lists db cs = some (db', rs) →
    db'.dirf.size ≤ 1 → ∃ M', Inv db' M' ∧ Effects M db.rdonly cs rs M' db'.rdonly := by
  intro cs
  induction cs with
  | nil => intro db db' M rs h e hs; cases e; exact ⟨M, h, .nil M _⟩
  | cons c cs ih =>
    intro db db' M rs h e hs
    obtain ⟨db1, r, rs', h1, h2, rfl⟩ := run_cons e
    obtain ⟨db1', r', e', -, h3⟩ := exec_inv h c
    rw [e'] at h1
    cases h1
    obtain ⟨M1, h4, h5⟩ := h3 (Nat.le_trans (run_mono cs h2) hs)
    obtain ⟨M2, h6, h7⟩ := ih h4 h2 hs
    exact ⟨M2, h6, .cons h5 h7⟩

/-- The database on the disk corresponds to one with lists of pairs, which stands for a
map. -/
theorem history {cs : List Cmd} {db : Db Page} {rs : List Res} (h : run pages (create pages) cs = some (db, rs)) (hd : db.dirf.size ≤ 1) :
    ∃ db' M, DbRel db db' ∧ Inv db' M ∧ Effects (fun _ => none) false cs rs M db.rdonly := by
  have hrel := rel_run cs _ _ rel_create
  rw [h] at hrel
  cases hb : run lists (create lists) cs with
  | none => rw [hb] at hrel; cases hrel
  | some y =>
    rw [hb] at hrel
    obtain ⟨db', rs'⟩ := y
    cases hrel with
    | some hr =>
      obtain ⟨h1, h2⟩ := hr
      simp only at h1 h2
      subst h2
      rw [h1.dirf] at hd
      obtain ⟨M, h3, h4⟩ := run_inv cs create_inv hb hd
      refine ⟨db', M, h1, h3, ?_⟩
      rw [h1.rdonly]
      exact h4

/-- What holds of C33: as long as the file with the directory is not larger than one block
of 4096 bytes, every history of calls behaves as the specification says. -/
theorem C33_partial (cs : List Cmd) (db : Db Page) (rs : List Res) (h : run pages (create pages) cs = some (db, rs))
    (hd : db.dirf.size ≤ 1) : ∃ M ro, Effects (fun _ => none) false cs rs M ro := by
  obtain ⟨_, M, -, -, h4⟩ := history h hd
  exact ⟨M, _, h4⟩

/-- The calls do not access memory outside of the page and end, as long as the directory
does not grow beyond one block. -/
theorem C33_defined_partial (cs : List Cmd)
    (h : ∀ cs1 cs2 db rs, cs = cs1 ++ cs2 → run pages (create pages) cs1 = some (db, rs) → db.dirf.size ≤ 1) :
    ∃ db rs, run pages (create pages) cs = some (db, rs) := by
  have key : ∀ (cs : List Cmd) (db : Db (List Pair)) (M : Map), Inv db M →
      (∀ cs1 cs2 db' rs, cs = cs1 ++ cs2 → run lists db cs1 = some (db', rs) → db'.dirf.size ≤ 1) →
      ∃ db' rs, run lists db cs = some (db', rs) := by
    intro cs
    induction cs with
    | nil => intro db M _ _; exact ⟨db, [], rfl⟩
    | cons c cs ih =>
      intro db M hi hp
      obtain ⟨db1, r, e, -, h3⟩ := exec_inv hi c
      have h1 : run lists db [c] = some (db1, [r]) := by
        show (exec lists db c).bind _ = _
        rw [e]; rfl
      obtain ⟨M1, h4, -⟩ := h3 (hp [c] cs db1 [r] rfl h1)
      obtain ⟨db2, rs, e2⟩ := ih db1 M1 h4 (by
        intro cs1 cs2 db' rs hcs hr
        refine hp (c :: cs1) cs2 db' (r :: rs) (by rw [hcs]; rfl) ?_
        show (exec lists db c).bind _ = _
        rw [e]
        simp only [Option.bind_some, hr, Option.map_some])
      refine ⟨db2, r :: rs, ?_⟩
      show (exec lists db c).bind _ = _
      rw [e]
      simp only [Option.bind_some, e2, Option.map_some]
  have back : ∀ cs1 db' rs, run lists (create lists) cs1 = some (db', rs) → ∃ db, run pages (create pages) cs1 = some (db, rs) ∧ DbRel db db' := by
    intro cs1 db' rs hr
    have hrel := rel_run cs1 _ _ rel_create
    rw [hr] at hrel
    cases ha : run pages (create pages) cs1 with
    | none => rw [ha] at hrel; cases hrel
    | some x =>
      rw [ha] at hrel
      cases hrel with
      | some hr => exact ⟨x.1, by rw [← show x.2 = rs from hr.2], hr.1⟩
  obtain ⟨db', rs, e⟩ := key cs (create lists) _ create_inv (by
    intro cs1 cs2 db' rs hcs hr
    obtain ⟨db, e, hrel⟩ := back cs1 db' rs hr
    rw [← hrel.dirf]
    exact h cs1 cs2 db rs hcs e)
  obtain ⟨db, e', -⟩ := back cs db' rs e
  exact ⟨db, rs, e'⟩

/-- A call that may change what is stored under a key. -/
def Touches (k : Bytes) : Cmd → Prop
  | .store k' _ _ => k' = k
  | .erase k' => k' = k
  | .delete k' => k' ++ [0] = k
  | _ => False

theorem effect_keep {M M' : Map} {ro ro' : Bool} {c : Cmd} {r : Res} (h : Effect M ro c r M' ro') {k : Bytes} (hk : ¬Touches k c) : M' k = M k := by
  have hu : ∀ k' x, k' ≠ k → upd M k' x k = M k := by
    intro k' x hne
    unfold upd
    rw [if_neg (Ne.symm hne)]
  cases c with
  | fetch k' => rw [h.2.1]
  | store k' v r' =>
    have hne : k' ≠ k := hk
    obtain ⟨-, h⟩ := h
    split at h
    · rw [h.2]
    · rcases h with h | h
      · rw [h.2, hu _ _ hne]
      · rw [h.2.1]
        split
        · rw [hu _ _ hne]
        · rfl
  | erase k' =>
    have hne : k' ≠ k := hk
    obtain ⟨-, h⟩ := h
    split at h
    · rw [h.2]
    · rw [h.2, hu _ _ hne]
  | delete k' =>
    have hne : k' ++ [0] ≠ k := hk
    obtain ⟨-, h⟩ := h
    split at h
    · rw [h.2]
    · rw [h.2, hu _ _ hne]
  | firstkey => rw [h.2.1]
  | nextkey => rw [h.2.1]
  | reopen ro2 => rw [h.2.1]

theorem effects_keep {M M' : Map} {ro ro' : Bool} {cs : List Cmd} {rs : List Res} (h : Effects M ro cs rs M' ro') {k : Bytes}
    (hk : ∀ c ∈ cs, ¬Touches k c) : M' k = M k := by
  induction h with
  | nil => rfl
  | cons h1 h2 ih =>
    rw [ih fun c hc => hk c (List.mem_cons_of_mem _ hc)]
    exact effect_keep h1 (hk _ (List.mem_cons_self ..))

theorem effects_append {cs ds : List Cmd} : ∀ {M M' : Map} {ro ro' : Bool} {rs ss : List Res}, rs.length = cs.length →
    Effects M ro (cs ++ ds) (rs ++ ss) M' ro' → ∃ M1 ro1, Effects M ro cs rs M1 ro1 ∧ Effects M1 ro1 ds ss M' ro' := by
  induction cs with
  | nil =>
    intro M M' ro ro' rs ss hl h
    have : rs = [] := List.eq_nil_of_length_eq_zero hl
    subst this
    exact ⟨M, ro, .nil M ro, h⟩
  | cons c cs ih =>
    intro M M' ro ro' rs ss hl h
    cases rs with
    | nil => simp at hl
    | cons r rs =>
      cases h with
      | cons h1 h2 =>
        obtain ⟨M1, ro1, h3, h4⟩ := ih (by simpa using hl) h2
        exact ⟨M1, ro1, .cons h1 h3, h4⟩

/-- C33 in terms of one key: a fetch returns the value of the last successful store, if
no call since then was about the key. -/
theorem C33_last_partial (cs ds : List Cmd) (k v : Bytes) (replace : Bool) (rs ss : List Res) (db : Db Page) (r : Res)
    (h : run pages (create pages) (cs ++ .store k v replace :: ds ++ [.fetch k]) = some (db, rs ++ .bool true :: ss ++ [r]))
    (h1 : rs.length = cs.length) (h2 : ss.length = ds.length) (hd : db.dirf.size ≤ 1)
    (hk : ∀ c ∈ ds, ¬Touches k c) : r = .str (some v) := by
  obtain ⟨M, ro, he⟩ := C33_partial _ _ _ h hd
  rw [List.append_assoc, List.append_assoc] at he
  obtain ⟨M1, ro1, -, he⟩ := effects_append h1 he
  cases he with
  | cons e1 e2 =>
    obtain ⟨M3, ro3, e3, e4⟩ := effects_append h2 e2
    cases e4 with
    | cons e5 e6 =>
      obtain ⟨e5, -⟩ := e5
      rw [e5, effects_keep e3 hk]
      obtain ⟨-, e1⟩ := e1
      split at e1
      · exact absurd e1.1 (by simp)
      · rcases e1 with e1 | e1
        · rw [e1.2]; simp [upd]
        · exact absurd e1.1 (by simp)

/-- A key about which no call was made, or that was erased last, is not found. -/
theorem C33_absent_partial (cs ds : List Cmd) (k : Bytes) (rs ss : List Res) (db : Db Page) (r : Res)
    (h : run pages (create pages) (cs ++ .erase k :: ds ++ [.fetch k]) = some (db, rs ++ .bool true :: ss ++ [r]))
    (h1 : rs.length = cs.length) (h2 : ss.length = ds.length) (hd : db.dirf.size ≤ 1)
    (hk : ∀ c ∈ ds, ¬Touches k c) : r = .str none := by
  obtain ⟨M, ro, he⟩ := C33_partial _ _ _ h hd
  rw [List.append_assoc, List.append_assoc] at he
  obtain ⟨M1, ro1, -, he⟩ := effects_append h1 he
  cases he with
  | cons e1 e2 =>
    obtain ⟨M3, ro3, e3, e4⟩ := effects_append h2 e2
    cases e4 with
    | cons e5 e6 =>
      obtain ⟨e5, -⟩ := e5
      rw [e5, effects_keep e3 hk]
      obtain ⟨-, e1⟩ := e1
      split at e1
      · exact absurd e1.1 (by simp)
      · rw [e1.2]; simp [upd]

/-! ### C35: traversal -/

/-- The calls of a traversal that returns `ks`, with any number of fetches of a key between
the call that returned it and the next one. -/
def walkCmds (f : Bytes → Nat) (ks : List Bytes) : List Cmd :=
  ks.flatMap fun k => List.replicate (f k) (.fetch k) ++ [.nextkey]

/-- Their results, beginning with that of `sdbm-firstkey`. -/
def walkRes (f : Bytes → Nat) (M : Map) : List Bytes → List Res
  | [] => [.str none]
  | k :: ks => .str (some k) :: (List.replicate (f k) (.str (M k)) ++ walkRes f M ks)

theorem fetch_at {db : Db (List Pair)} {pg : Nat → List Pair} {D : Nat → Prop} {M : Map} {b j : Nat} {k v : Bytes} (hc : Core pg D) (ha : Abs pg D M)
    (h : At db pg D b j) (hm : (k, v) ∈ pg b) : ∃ db', fetch lists db k = some (db', M k) ∧ At db' pg D b j ∧ db'.pagf = db.pagf := by
  have hk : ¬k.length ≤ 0 := by
    intro hl
    have hz : k = [] := List.eq_nil_of_length_eq_zero (by omega)
    exact hc.keys _ _ hm hz
  unfold fetch
  rw [if_neg hk]
  obtain ⟨db', d, e, hL, -, -, hbno, hbuf, hcl', hdir, hro, hblk, hkey, hpf⟩ := getpage_spec hc h.clean (hash k)
  obtain ⟨d', hL', eb⟩ := hc.home _ _ hm
  have := hL.unique hL'
  subst this
  simp only at eb
  rw [← eb] at hbno hbuf
  rw [e]
  simp only [Option.map_some, if_true]
  have hlt : b < db'.pagf.size := by rw [hpf]; exact h.lt
  refine ⟨db', ?_, ⟨hcl', hbno, hblk.trans h.blkptr, hkey.trans h.keyptr, hbuf, ?_, hlt⟩, hpf⟩
  · rw [hbuf]
    show some (db', lookup _ k) = _
    rw [eb, ha k d hL]
  · rcases hcl'.cache with h1 | ⟨b', h1, h2⟩
    · rw [hbno] at h1; omega
    · rw [hbno] at h1
      have : b' = b := by omega
      subst this
      rcases h2 with ⟨-, h2, -⟩ | ⟨h2, -⟩
      · exact h2
      · omega

theorem fetches_at {pg : Nat → List Pair} {D : Nat → Prop} {M : Map} {b j : Nat} {k v : Bytes} (hc : Core pg D) (ha : Abs pg D M) (hm : (k, v) ∈ pg b) (cs : List Cmd) :
    ∀ n (db : Db (List Pair)), At db pg D b j → ∃ db', At db' pg D b j ∧ db'.pagf = db.pagf ∧
      run lists db (List.replicate n (.fetch k) ++ cs) = (run lists db' cs).map fun s => (s.1, List.replicate n (.str (M k)) ++ s.2) := by
  intro n
  induction n with
  | zero => intro db h; exact ⟨db, h, rfl, by simp⟩
  | succ n ih =>
    intro db h
    obtain ⟨db1, e, h1, h2⟩ := fetch_at hc ha h hm
    obtain ⟨db2, h3, h4, e2⟩ := ih db1 h1
    refine ⟨db2, h3, h4.trans h2, ?_⟩
    rw [List.replicate_succ, List.cons_append]
    show ((fetch lists db k).map _).bind _ = _
    rw [e]
    simp only [Option.map_some, Option.bind_some, e2, Option.map_map]
    rfl

theorem walk_at {pg : Nat → List Pair} {D : Nat → Prop} {M : Map} (hc : Core pg D) (ha : Abs pg D M) (f : Bytes → Nat) :
    ∀ (ks : List Bytes) (db0 db : Db (List Pair)) (b j : Nat) (c : Cmd),
      At db pg D b j → rest pg db.pagf.size b j = ks →
      exec lists db0 c = (getnext lists (db.pagf.size + 3) db).map (fun r => (r.1, Res.str r.2)) →
      ∃ db', run lists db0 (c :: walkCmds f ks) = some (db', walkRes f M ks) := by
  intro ks
  induction ks with
  | nil =>
    intro db0 db b j c h hr he
    obtain ⟨db', e, -⟩ := getnext_at (db.pagf.size + 3) db b j h (by omega)
    rw [e, hr] at he
    refine ⟨db', ?_⟩
    show (exec lists db0 c).bind _ = _
    rw [he]
    rfl
  | cons k ks ih =>
    intro db0 db b j c h hr he
    obtain ⟨db1, e, -, hpf, -, -, hnext⟩ := getnext_at (db.pagf.size + 3) db b j h (by omega)
    obtain ⟨b', j', h1, h2, v, hv⟩ := hnext k ks hr
    rw [e, hr] at he
    obtain ⟨db2, h3, h4, e2⟩ := fetches_at hc ha hv (.nextkey :: walkCmds f ks) (f k) db1 h1
    obtain ⟨db3, e3⟩ := ih db2 db2 b' j' .nextkey h3 (by rw [h4, hpf]; exact h2) rfl
    refine ⟨db3, ?_⟩
    show (exec lists db0 c).bind _ = _
    rw [he]
    have hw : walkCmds f (k :: ks) = List.replicate (f k) (.fetch k) ++ (.nextkey :: walkCmds f ks) := by
      simp [walkCmds]
    rw [hw]
    simp only [Option.map_some, Option.bind_some, e2, e3, List.head?_cons]
    rfl

/-- What holds of C35: in any database reached by a history (with a directory of at most
one block), `sdbm-firstkey` and then `sdbm-nextkey` until it returns nil return each key of
the map exactly once; a key may be fetched any number of times before the next key is asked
for. -/
theorem C35_partial (cs : List Cmd) (db : Db Page) (rs : List Res) (h : run pages (create pages) cs = some (db, rs))
    (hd : db.dirf.size ≤ 1) (f : Bytes → Nat) : ∃ M ro ks, Effects (fun _ => none) false cs rs M ro ∧
      ks.Nodup ∧ (∀ k, k ∈ ks ↔ M k ≠ none) ∧
      ∃ db', run pages db (.firstkey :: walkCmds f ks) = some (db', walkRes f M ks) := by
  obtain ⟨dbl, M, hrel, ⟨pg, D, hc, hcl, ha⟩, heff⟩ := history h hd
  have back : ∀ cs db' rs, run lists dbl cs = some (db', rs) → ∃ db1, run pages db cs = some (db1, rs) := by
    intro cs db' rs hr
    have hx := rel_run cs _ _ hrel
    rw [hr] at hx
    cases hp : run pages db cs with
    | none => rw [hp] at hx; cases hx
    | some x =>
      rw [hp] at hx
      cases hx with
      | some hr => exact ⟨x.1, by rw [← show x.2 = rs from hr.2]⟩
  by_cases h0 : dbl.pagf.size = 0
  · refine ⟨M, _, [], heff, List.nodup_nil, ?_, ?_⟩
    · intro k
      rw [bound_iff hc hcl ha k, h0]
      simp
    · obtain ⟨db', e, -⟩ := firstkey_empty hcl h0
      refine back _ db' _ ?_
      show ((firstkey lists dbl).map _).bind _ = _
      rw [e]
      rfl
  · obtain ⟨db1, h1, hpf, -, -, e⟩ := firstkey_at hcl (by omega)
    refine ⟨M, _, rest pg dbl.pagf.size 0 0, heff, rest_nodup hc _ (by omega), ?_, ?_⟩
    · intro k
      rw [mem_range_flat k (by omega), bound_iff hc hcl ha k]
    · obtain ⟨db', e'⟩ := walk_at hc ha f _ dbl db1 0 0 .firstkey h1 (by rw [hpf]) (by
        show (firstkey lists dbl).map _ = _
        rw [e, hpf])
      exact back _ db' _ e'

/-! ### C36: sdbm-delete -/

/-- C36 does not hold of any key in any database: the Lisp function `sdbm-delete` passes a
length that counts the NUL byte after the string, and what is stored under the key stays. -/
theorem C36_keeps (cs : List Cmd) (k : Bytes) (db : Db Page) (rs : List Res) (r1 r2 r3 : Res)
    (h : run pages (create pages) (cs ++ [.fetch k, .delete k, .fetch k]) = some (db, rs ++ [r1, r2, r3]))
    (hl : rs.length = cs.length) (hd : db.dirf.size ≤ 1) : r3 = r1 := by
  obtain ⟨M, ro, he⟩ := C33_partial _ _ _ h hd
  obtain ⟨M1, ro1, -, he⟩ := effects_append hl he
  cases he with
  | cons e1 e2 =>
    cases e2 with
    | cons e2 e3 =>
      cases e3 with
      | cons e3 e4 =>
        rw [e3.1, effect_keep e2 (k := k) (by
          intro ht
          have := congrArg List.length (show k ++ [0] = k from ht)
          simp at this), e1.2.1, e1.1]

/-- The function of the library does remove what is stored under the key. -/
theorem C36_library_partial (cs : List Cmd) (k : Bytes) (db : Db Page) (rs : List Res) (r1 r2 r3 : Res)
    (h : run pages (create pages) (cs ++ [.fetch k, .erase k, .fetch k]) = some (db, rs ++ [r1, r2, r3]))
    (hl : rs.length = cs.length) (hd : db.dirf.size ≤ 1) (hro : db.rdonly = false) :
    (r2 = .bool true ↔ r1 ≠ .str none) ∧ r3 = .str none := by
  obtain ⟨_, M, -, -, he⟩ := history h hd
  obtain ⟨M1, ro1, -, he⟩ := effects_append hl he
  rw [hro] at he
  cases he with
  | cons e1 e2 =>
    cases e2 with
    | cons e2 e3 =>
      cases e3 with
      | cons e3 e4 =>
        cases e4
        obtain ⟨a1, a2, a3⟩ := e1
        obtain ⟨c1, c2, c3⟩ := e3
        obtain ⟨b1, b2⟩ := e2
        subst a2
        have hr := c3.trans b1
        rw [if_neg (by rw [← hr]; exact Bool.false_ne_true)] at b2
        refine ⟨?_, ?_⟩
        · rw [b2.1, a1]
          rw [Res.bool.injEq, ne_eq, Res.str.injEq, Option.isSome_iff_ne_none]
        · rw [c1, b2.2]; simp [upd]

/-- What `sdbm-delete` removes is what is stored under the key with a NUL byte after it. -/
theorem C36_nul_partial (cs : List Cmd) (k : Bytes) (db : Db Page) (rs : List Res) (r1 r2 r3 : Res)
    (h : run pages (create pages) (cs ++ [.fetch (k ++ [0]), .delete k, .fetch (k ++ [0])]) = some (db, rs ++ [r1, r2, r3]))
    (hl : rs.length = cs.length) (hd : db.dirf.size ≤ 1) (hro : db.rdonly = false) :
    (r2 = .bool true ↔ r1 ≠ .str none) ∧ r3 = .str none := by
  refine C36_library_partial cs (k ++ [0]) db rs r1 r2 r3 ?_ hl hd hro
  rw [← h]
  clear h
  generalize create pages = d
  revert d
  clear hl
  induction cs with
  | nil => intro d; rfl
  | cons c cs ih =>
    intro d
    show (exec pages d c).bind (fun r => (run pages r.1 (cs ++ _)).map _) = (exec pages d c).bind _
    simp only [ih]
    rfl

/-! ### C37: failed stores -/

/-- What holds of C37: a failed store leaves what is stored under every other key, and when
it was to insert, or is refused because the key is empty or the pair is too large, it leaves
everything. -/
theorem C37_partial (cs : List Cmd) (k v k' : Bytes) (replace : Bool) (db : Db Page) (rs : List Res) (r1 r3 : Res)
    (h : run pages (create pages) (cs ++ [.fetch k', .store k v replace, .fetch k']) = some (db, rs ++ [r1, .bool false, r3]))
    (hl : rs.length = cs.length) (hd : db.dirf.size ≤ 1)
    (hr : k' ≠ k ∨ replace = false ∨ k = [] ∨ k.length + v.length > 1008 ∨ db.rdonly = true) : r3 = r1 := by
  obtain ⟨_, M, -, -, he⟩ := history h hd
  obtain ⟨M1, ro1, -, he⟩ := effects_append hl he
  cases he with
  | cons e1 e2 =>
    cases e2 with
    | cons e2 e3 =>
      cases e3 with
      | cons e3 e4 =>
        obtain ⟨a1, a2, a3⟩ := e1
        obtain ⟨c1, c2, c3⟩ := e3
        cases e4
        rw [c1, a1]
        subst a2 a3
        have hro : db.rdonly = _ := c3.trans e2.1
        by_cases hne : k' = k
        · obtain ⟨-, b⟩ := e2
          split at b
          · rw [b.2]
          · rename_i hcond
            rcases b with b | b
            · exact absurd b.1 (by simp)
            · rcases hr with hr | hr | hr | hr | hr
              · exact absurd hne hr
              · rw [b.2.1, hr]; rfl
              · exact absurd (Or.inl hr) hcond
              · exact absurd (Or.inr (Or.inr (Or.inl hr))) hcond
              · rw [hro] at hr
                exact absurd (Or.inr (Or.inl hr)) hcond
        · rw [effect_keep e2 (k := k') (fun ht => hne (show k = k' from ht).symm)]

/-- When a store fails although it is not refused, there really is no room: some pairs whose
keys' hashes agree with that of the key in ten bits do not fit on one page with it. -/
theorem C37_room (cs : List Cmd) (k v : Bytes) (replace : Bool) (db : Db Page) (rs : List Res)
    (h : run pages (create pages) (cs ++ [.store k v replace]) = some (db, rs ++ [.bool false]))
    (hl : rs.length = cs.length) (hd : db.dirf.size ≤ 1) (h1 : k ≠ []) (h2 : db.rdonly = false) (h3 : k.length + v.length ≤ 1008) :
    ∃ M ro, Effects (fun _ => none) false cs rs M ro ∧
      ((replace = false ∧ M k ≠ none) ∨ Crowded (if replace then upd M k none else M) k v) := by
  obtain ⟨_, M, -, -, he⟩ := history h hd
  obtain ⟨M1, ro1, h4, he⟩ := effects_append hl he
  refine ⟨M1, ro1, h4, ?_⟩
  cases he with
  | cons e1 e2 =>
    cases e2
    obtain ⟨b1, b2⟩ := e1
    split at b2
    · rename_i hcond
      rcases hcond with hx | hx | hx | hx
      · exact absurd hx h1
      · rw [← b1, h2] at hx; simp at hx
      · omega
      · exact Or.inl hx
    · rcases b2 with b2 | b2
      · exact absurd b2.1 (by simp)
      · right
        rw [← b2.2.1]
        exact b2.2.2

/-! ### Witnesses -/

theorem results {cs : List Cmd} {rs : List Res} (n : Nat) (h : (run lists (create lists) cs).map (fun x => (x.2, x.1.dirf.size)) = some (rs, n)) :
    ∃ db, run pages (create pages) cs = some (db, rs) ∧ db.dirf.size = n := by
  rw [Option.map_eq_some_iff] at h
  obtain ⟨⟨db', rs'⟩, h1, h2⟩ := h
  cases h2
  have hrel := rel_run cs _ _ rel_create
  rw [h1] at hrel
  cases ha : run pages (create pages) cs with
  | none => rw [ha] at hrel; cases hrel
  | some x =>
    rw [ha] at hrel
    cases hrel with
    | some hr => exact ⟨x.1, by rw [← show x.2 = rs' from hr.2], by rw [hr.1.dirf]⟩

def bytes (n : Nat) : Bytes := List.replicate n 120

/-- "ahmf" -/
def k1 : Bytes := [97, 104, 109, 102]
/-- "bl1g" -/
def k2 : Bytes := [98, 108, 49, 103]
/-- "bkpg" -/
def k3 : Bytes := [98, 107, 112, 103]

/-- C33 does not hold when the directory needs a second block: `maxbno` grows by one block
for each bit that is set beyond it, also when the bit is several blocks beyond it, so that a
bit that was set is not read later.  A pair is stored with success and then not found. -/
theorem C33_violated : ∃ db, run pages (create pages)
    [.store k1 (bytes 600) true, .store k2 (bytes 600) true, .store k2 (bytes 600) true, .fetch k2] =
      some (db, [.bool true, .bool false, .bool true, .str none]) := by
  obtain ⟨db, h, -⟩ := results 3 (cs := [.store k1 (bytes 600) true, .store k2 (bytes 600) true, .store k2 (bytes 600) true, .fetch k2])
    (rs := [.bool true, .bool false, .bool true, .str none]) (by decide +kernel)
  exact ⟨db, h⟩

/-- C37 does not hold of a replacement: the old pair is deleted before room for the new one
is looked for, and when that fails it is gone. -/
theorem C37_violated : ∃ db, run pages (create pages)
    [.store k1 (bytes 500) true, .store k3 (bytes 300) true, .store k3 (bytes 600) true, .fetch k3] =
      some (db, [.bool true, .bool true, .bool false, .str none]) ∧ db.dirf.size ≤ 1 := by
  obtain ⟨db, h, h'⟩ := results 1 (cs := [.store k1 (bytes 500) true, .store k3 (bytes 300) true, .store k3 (bytes 600) true, .fetch k3])
    (rs := [.bool true, .bool true, .bool false, .str none]) (by decide +kernel)
  exact ⟨db, h, by omega⟩

/-- C35 does not hold when another key is fetched in between: "b" and "d" are on the first
page, "a" on the second.  The fetch puts the second page into memory, and the traversal goes
on as if that were the first page: "d" is not returned. -/
theorem C35_violated : ∃ db, run pages (create pages)
    [.store [98] (bytes 400) true, .store [100] (bytes 400) true, .store [97] (bytes 400) true,
      .firstkey, .fetch [97], .nextkey, .nextkey] =
      some (db, [.bool true, .bool true, .bool true, .str (some [98]), .str (some (bytes 400)), .str (some [97]), .str none]) := by
  obtain ⟨db, h, -⟩ := results 1 (cs := [.store [98] (bytes 400) true, .store [100] (bytes 400) true, .store [97] (bytes 400) true,
      .firstkey, .fetch [97], .nextkey, .nextkey])
    (rs := [.bool true, .bool true, .bool true, .str (some [98]), .str (some (bytes 400)), .str (some [97]), .str none]) (by decide +kernel)
  exact ⟨db, h⟩

/-- A concrete case of `C36_keeps`. -/
theorem C36_violated : ∃ db, run pages (create pages) [.store [97] [98] true, .fetch [97], .delete [97], .fetch [97]] =
    some (db, [.bool true, .str (some [98]), .bool false, .str (some [98])]) := by
  obtain ⟨db, h, -⟩ := results 0 (cs := [.store [97] [98] true, .fetch [97], .delete [97], .fetch [97]])
    (rs := [.bool true, .str (some [98]), .bool false, .str (some [98])]) (by decide +kernel)
  exact ⟨db, h⟩

/-- The hypotheses of the theorems above can be met: a history with a split, an erasure, a
traversal and a reopened database. -/
example : ∃ db, run pages (create pages)
    [.store [98] (bytes 400) true, .store [100] (bytes 400) true, .store [97] (bytes 400) false, .erase [98],
      .reopen true, .fetch [97], .store [97] [1] true, .fetch [98], .firstkey, .nextkey, .nextkey] =
      some (db, [.bool true, .bool true, .bool true, .bool true, .bool true, .str (some (bytes 400)), .bool false, .str none,
        .str (some [100]), .str (some [97]), .str none]) ∧ db.dirf.size = 1 :=
  results 1 (by decide +kernel)

/-- A failed insertion, as in `C37_partial` and `C37_room`. -/
example : ∃ db, run pages (create pages)
    [.store k1 (bytes 500) true, .fetch k1, .store k3 (bytes 600) false, .fetch k1] =
      some (db, [.bool true, .str (some (bytes 500)), .bool false, .str (some (bytes 500))]) ∧ db.dirf.size = 1 :=
  results 1 (by decide +kernel)

example : ∃ db, run pages (create pages) [.store [97, 0] [98] true, .fetch [97, 0], .delete [97], .fetch [97, 0]] =
    some (db, [.bool true, .str (some [98]), .bool true, .str none]) ∧ db.dirf.size = 0 :=
  results 0 (by decide +kernel)

end Rep.Sdbm
