import Verif.Gdbm.Model
/-!
# C131: database objects of the gdbm module
-/
namespace Rep.Gdbm

/-! ### Specification -/
namespace Spec

/-- The function of a walk doesn't close the database that is walked. -/
def Keeps : Op → Prop
  | .plain _ => True
  | .walk o keys => ∀ cs ∈ keys, ∀ c ∈ cs, c ≠ .close o

/-- The handles that are open are those of the objects that have not been closed or collected; nothing undefined happened. -/
def Sound (s : St) : Prop := s.lib.ub = false ∧ ∀ n, s.lib.isOpen n = true ↔ s.obj n = some true

end Spec

open Spec

structure Inv (s : St) : Prop where
  sound : Sound s
  nodup : s.chain.Nodup
  mem : ∀ n, n ∈ s.chain ↔ (s.obj n).isSome = true
  lt : ∀ n, n ∈ s.chain → n < s.next

theorem dbmp_iff {s : St} {o : Nat} : dbmp s o = true ↔ s.obj o = some true := by simp [dbmp]

theorem inv_init : Inv {} := ⟨⟨rfl, by simp⟩, by simp, by simp, by simp⟩

theorem inv_open {s : St} (h : Inv s) (f : Bool) : Inv (gdbmOpen s f).1 := by
  cases f with
  | true => exact h
  | false =>
    have hn : s.next ∉ s.chain := fun hm => Nat.lt_irrefl _ (h.lt _ hm)
    refine ⟨⟨h.sound.1, fun n => ?_⟩, List.nodup_cons.mpr ⟨hn, h.nodup⟩, fun n => ?_, fun n hm => ?_⟩
    · by_cases e : n = s.next
      · simp [gdbmOpen, e]
      · simpa [gdbmOpen, e] using h.sound.2 n
    · by_cases e : n = s.next
      · simp [gdbmOpen, e]
      · simpa [gdbmOpen, e] using h.mem n
    · rcases List.mem_cons.mp hm with e | hm
      · subst e; exact Nat.lt_succ_self _
      · exact Nat.lt_succ_of_lt (h.lt n hm)

theorem inv_close {s : St} (h : Inv s) (o : Nat) : Inv (gdbmClose s o).1 := by
  unfold gdbmClose
  split
  · rename_i hd
    have ho := dbmp_iff.mp hd
    have hl := (h.sound.2 o).mpr ho
    refine ⟨⟨by simp [Lib.close, hl, h.sound.1], fun n => ?_⟩, h.nodup, fun n => ?_, h.lt⟩
    · by_cases e : n = o
      · simp [Lib.close, hl, e]
      · simpa [Lib.close, hl, e] using h.sound.2 n
    · by_cases e : n = o
      · simp only [e, if_true, Option.isSome_some, iff_true]
        exact (h.mem o).mpr (by rw [ho]; rfl)
      · simpa [e] using h.mem n
  · exact h

theorem use_id {s : St} (h : Inv s) {o : Nat} (hd : dbmp s o = true) : s.lib.use o = s.lib := by
  simp [Lib.use, (h.sound.2 o).mpr (dbmp_iff.mp hd)]

theorem access_id {s : St} (h : Inv s) (o : Nat) : (gdbmAccess s o).1 = s := by
  unfold gdbmAccess
  split
  · rename_i hd; simp [use_id h hd]
  · rfl

theorem closeAll : ∀ (ds : List Nat) (l : Lib), ds.Nodup → (∀ d ∈ ds, l.isOpen d = true) →
    (ds.foldl Lib.close l).ub = l.ub ∧ ∀ n, (ds.foldl Lib.close l).isOpen n = true ↔ l.isOpen n = true ∧ n ∉ ds
  | [], l, _, _ => ⟨rfl, fun n => by simp⟩
  | d :: ds, l, hn, ho => by
    obtain ⟨hd, hn⟩ := List.nodup_cons.mp hn
    have hl := ho d (List.mem_cons_self ..)
    have e : ∀ n, (l.close d).isOpen n = if n = d then false else l.isOpen n := fun n => by simp [Lib.close, hl]
    obtain ⟨h1, h2⟩ := closeAll ds (l.close d) hn (fun x hx => by
      have hne : x ≠ d := fun c => hd (c ▸ hx)
      rw [e, if_neg hne]
      exact ho x (List.mem_cons_of_mem _ hx))
    refine ⟨by rw [List.foldl_cons, h1]; simp [Lib.close, hl], fun n => ?_⟩
    rw [List.foldl_cons, h2, e]
    by_cases c : n = d <;> simp [c]

theorem inv_sweep {s : St} (h : Inv s) (live : Nat → Bool) : Inv (sweep s live) := by
  obtain ⟨h1, h2⟩ := closeAll (s.chain.filter fun n => !live n && s.obj n == some true) s.lib (h.nodup.filter _) (fun d hd => by
    have := (List.mem_filter.mp hd).2
    simp only [Bool.and_eq_true, beq_iff_eq] at this
    exact (h.sound.2 d).mpr this.2)
  refine ⟨⟨h1.trans h.sound.1, fun n => ?_⟩, (List.reverse_perm _).nodup_iff.mpr (h.nodup.filter _), fun n => ?_, fun n hm => ?_⟩
  · simp only [sweep]
    rw [h2, h.sound.2 n]
    cases hl : live n with
    | true => simp [hl]
    | false =>
      simp only [List.mem_filter, hl, Bool.not_false, Bool.true_and, beq_iff_eq, Bool.false_eq_true, if_false, reduceCtorEq, iff_false, not_and]
      intro e hx
      exact hx ((h.mem n).mpr (by rw [e]; rfl)) e
  · simp only [sweep, List.mem_reverse, List.mem_filter, h.mem n]
    cases hl : live n <;> simp
  · exact h.lt n (List.mem_filter.mp (List.mem_reverse.mp hm)).1

theorem inv_call {s : St} (h : Inv s) (root : Nat → Bool) (c : Call) : Inv (call root s c).1 := by
  cases c with
  | opn f => exact inv_open h f
  | close o => exact inv_close h o
  | access o => simp only [call, access_id h]; exact h
  | collect live => exact inv_sweep h _

/-- A protected object that isn't closed keeps its handle. -/
theorem keep_call {s : St} (h : Inv s) {o : Nat} (hd : dbmp s o = true) (c : Call) (hc : c ≠ .close o) : dbmp (call (fun n => n == o) s c).1 o = true := by
  rw [dbmp_iff] at *
  cases c with
  | opn f =>
    cases f with
    | true => exact hd
    | false =>
      have : o ≠ s.next := fun e => Nat.lt_irrefl s.next (e ▸ h.lt o ((h.mem o).mpr (by rw [hd]; rfl)))
      simpa [call, gdbmOpen, this] using hd
  | close p =>
    have : o ≠ p := fun e => hc (by rw [e])
    simp only [call, gdbmClose]
    split
    · simpa [this] using hd
    · exact hd
  | access p => simp only [call, access_id h]; exact hd
  | collect live => simpa [call, sweep] using hd

theorem keep_calls {o : Nat} : ∀ (cs : List Call) {s : St}, Inv s → dbmp s o = true → (∀ c ∈ cs, c ≠ .close o) →
    Inv (calls (fun n => n == o) s cs) ∧ dbmp (calls (fun n => n == o) s cs) o = true
  | [], _, h, hd, _ => ⟨h, hd⟩
  | c :: cs, _, h, hd, hc =>
    keep_calls cs (inv_call h _ c) (keep_call h hd c (hc c (List.mem_cons_self ..))) fun x hx => hc x (List.mem_cons_of_mem _ hx)

theorem keep_walk {o : Nat} : ∀ (keys : List (List Call)) {s : St}, Inv s → dbmp s o = true → (∀ cs ∈ keys, ∀ c ∈ cs, c ≠ .close o) →
    Inv (keys.foldl (fun s cs => nextkey (calls (fun n => n == o) s cs) o) s)
  | [], _, h, _, _ => h
  | cs :: keys, s, h, hd, hc => by
    obtain ⟨h1, h2⟩ := keep_calls cs h hd (hc cs (List.mem_cons_self ..))
    have e : nextkey (calls (fun n => n == o) s cs) o = calls (fun n => n == o) s cs := by simp [nextkey, h2, use_id h1 h2]
    rw [List.foldl_cons, e]
    exact keep_walk keys h1 h2 fun x hx => hc x (List.mem_cons_of_mem _ hx)

theorem inv_step {s : St} (h : Inv s) (op : Op) (hk : Keeps op) : Inv (step s op).1 := by
  cases op with
  | plain c => exact inv_call h _ c
  | walk o keys =>
    simp only [step, walk]
    split
    · rename_i hd
      rw [use_id h hd]
      exact keep_walk keys h hd hk
    · exact h

theorem inv_run : ∀ (ops : List Op) {s : St}, Inv s → (∀ op ∈ ops, Keeps op) → Inv (run s ops)
  | [], _, h, _ => h
  | op :: ops, _, h, hk => inv_run ops (inv_step h op (hk op (List.mem_cons_self ..))) fun x hx => hk x (List.mem_cons_of_mem _ hx)

/-- **C131**, partial: after any calls and collections, no handle has been used or closed that wasn't open; and the handles that are open are those of the objects
that have not been closed or collected. -/
theorem C131_sound_partial (ops : List Op) (hk : ∀ op ∈ ops, Keeps op) : Sound (run {} ops) := (inv_run ops inv_init hk).sound

/-- **C131**: calls with an object that has been closed fail, and have no effect. -/
theorem C131_closed (s : St) (o : Nat) (h : s.obj o ≠ some true) (keys : List (List Call)) :
    step s (.plain (.access o)) = (s, false) ∧ step s (.plain (.close o)) = (s, false) ∧ step s (.walk o keys) = (s, false) := by
  have hd : dbmp s o = false := by
    cases e : dbmp s o with
    | false => rfl
    | true => exact absurd (dbmp_iff.mp e) h
  simp [step, call, gdbmAccess, gdbmClose, walk, hd]

/-- **C131**: an object stays usable until it is closed, or collected when nothing refers to it. -/
theorem C131_usable (s : St) (o : Nat) (h : s.obj o = some true) (c : Call) (hlt : o < s.next) (hc : c ≠ .close o) (hl : ∀ live, c = .collect live → live o = true) :
    (step s (.plain c)).1.obj o = some true := by
  cases c with
  | opn f =>
    cases f with
    | true => exact h
    | false => simpa [step, call, gdbmOpen, Nat.ne_of_lt hlt] using h
  | close p =>
    have : o ≠ p := fun e => hc (by rw [e])
    simp only [step, call, gdbmClose]
    split
    · simpa [this] using h
    · exact h
  | access p =>
    simp only [step, call, gdbmAccess]
    split <;> exact h
  | collect live => simpa [step, call, sweep, hl live rfl] using h

theorem kill_fold : ∀ (cs : List Nat) {s : St}, Inv s →
    Inv (cs.foldl (fun s o => if dbmp s o then (gdbmClose s o).1 else s) s) ∧
      ∀ n, (cs.foldl (fun s o => if dbmp s o then (gdbmClose s o).1 else s) s).obj n = some true → s.obj n = some true ∧ n ∉ cs
  | [], _, h => ⟨h, fun n hn => ⟨hn, by simp⟩⟩
  | c :: cs, s, h => by
    rw [List.foldl_cons]
    cases hd : dbmp s c with
    | false =>
      obtain ⟨h1, h2⟩ := kill_fold cs h
      refine ⟨h1, fun n hn => ?_⟩
      obtain ⟨a, b⟩ := h2 n hn
      refine ⟨a, fun hm => ?_⟩
      rcases List.mem_cons.mp hm with rfl | hm
      · rw [dbmp_iff.mpr a] at hd; cases hd
      · exact b hm
    | true =>
      obtain ⟨h1, h2⟩ := kill_fold cs (inv_close h c)
      refine ⟨h1, fun n hn => ?_⟩
      obtain ⟨a, b⟩ := h2 n hn
      simp only [gdbmClose, hd, if_true] at a
      by_cases e : n = c
      · simp [e] at a
      · rw [if_neg e] at a
        exact ⟨a, fun hm => (List.mem_cons.mp hm).elim e b⟩

/-- **C131**, partial: when the module is shut down, all handles are closed, each once. -/
theorem C131_kill_partial (ops : List Op) (hk : ∀ op ∈ ops, Keeps op) :
    (kill (run {} ops)).lib.ub = false ∧ ∀ n, (kill (run {} ops)).lib.isOpen n = false := by
  have hi := inv_run ops inv_init hk
  obtain ⟨h1, h2⟩ := kill_fold (run {} ops).chain hi
  refine ⟨h1.sound.1, fun n => ?_⟩
  cases e : (kill (run {} ops)).lib.isOpen n with
  | false => rfl
  | true =>
    obtain ⟨a, b⟩ := h2 n ((h1.sound.2 n).mp e)
    exact absurd ((hi.mem n).mpr (by rw [a]; rfl)) b

/-- **C131**, violated: if the function given to `gdbm-walk` closes the database, the library is called with a null pointer. -/
theorem C131_walk_violated : (run {} [.plain (.opn false), .walk 0 [[.close 0]]]).lib.ub = true := by decide +kernel

/-! ### The hypotheses are met -/

def sample : List Op := [.plain (.opn false), .plain (.opn false), .walk 0 [[.access 1, .collect fun _ => false], [.close 1]], .plain (.access 0)]

example : ∀ op ∈ sample, Keeps op := by
  intro op h
  simp only [sample, List.mem_cons, List.not_mem_nil, or_false] at h
  rcases h with rfl | rfl | rfl | rfl <;> simp [Keeps]

example : (run {} sample).obj 0 = some true ∧ (run {} sample).obj 1 = none ∧ (run {} sample).lib.isOpen 0 = true ∧ (run {} sample).lib.isOpen 1 = false := by decide +kernel

end Rep.Gdbm
