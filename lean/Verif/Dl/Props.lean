import Verif.Dl.Inv
import Mathlib.Data.List.Perm.Subperm

/-
C102: loading of shared libraries.  A library is initialised once however often it is asked for, its
handle stands for it from then on, one whose initialisation fails leaves nothing behind, and at the end
each library is told once.
-/

namespace Rep.Dl

theorem inv_start (W : World) : Inv W .start where
  nodup := by simp [State.start, State.files]
  known := by simp [State.start, State.files]
  count1 := by simp [State.start, State.files]
  count0 := by simp [State.start]
  opened := by simp [State.start, State.files]
  kill := by simp [State.start]

theorem loadAll_ok {W : World} {rank : Nat → Nat} (ha : Acyclic W rank) (hc : CleanFailures W) (n : Nat) :
    ∀ (fs : List Nat) (s s' : State) (rs : List (Option Nat)), Inv W s → loadAll W n fs s = some (.ok s' rs) →
      Inv W s' ∧ (∃ X, s'.files = s.files ++ X) ∧ rs.length = fs.length ∧
      ∀ (k f i : Nat), fs[k]? = some f → rs[k]? = some (some i) → s'.files[i]? = some f := by
  intro fs
  induction fs with
  | nil =>
    intro s s' rs hs h
    cases h
    exact ⟨hs, ⟨[], by simp⟩, rfl, by simp⟩
  | cons f fs ih =>
    intro s s' rs hs h
    simp only [loadAll] at h
    cases hl : load W n f s with
    | none => rw [hl] at h; cases h
    | some res =>
      rw [hl] at h
      cases res with
      | ub => cases h
      | ok s1 r =>
        simp only at h
        obtain ⟨h1, ⟨X, e1, -⟩, h3⟩ := load_ok ha hc n f s s1 r hs hl
        cases hl2 : loadAll W n fs s1 with
        | none => rw [hl2] at h; cases h
        | some res =>
          rw [hl2] at h
          cases res with
          | ub => cases h
          | ok s2 rs2 =>
            cases h
            obtain ⟨h4, ⟨Y, e2⟩, h5, h6⟩ := ih s1 s' rs2 h1 hl2
            refine ⟨h4, ⟨X ++ Y, by rw [e2, e1, List.append_assoc]⟩, by simp [h5], ?_⟩
            intro k g i hk hr
            cases k with
            | zero =>
              simp only [List.getElem?_cons_zero, Option.some.injEq] at hk hr
              subst hk; subst hr
              have := h3 i rfl
              rw [e2, List.getElem?_append_left (List.getElem?_eq_some_iff.1 this).1, this]
            | succ k => exact h6 k g i (by simpa using hk) (by simpa using hr)

/-- However the loads go, at the end a library with an initialisation has been initialised once more
than closed if it is loaded, and as often otherwise; the handles that were given stand for their
files, the same file has the same handle, different files have different handles; to load a file
again changes nothing.  Partial: no library leads back to itself, an initialisation that fails has
loaded no other library. -/
theorem C102_once_partial {W : World} {rank : Nat → Nat} (ha : Acyclic W rank) (hc : CleanFailures W) (n : Nat)
    (fs : List Nat) (s : State) (rs : List (Option Nat)) (h : loadAll W n fs .start = some (.ok s rs)) :
    (∀ f ∈ s.files, HasInit W f → s.log.count (.init f) = s.log.count (.closed f) + 1) ∧
    (∀ f ∉ s.files, s.log.count (.init f) = s.log.count (.closed f)) ∧
    (∀ (k f i : Nat), fs[k]? = some f → rs[k]? = some (some i) → s.files[i]? = some f) ∧
    (∀ (k l f g i j : Nat), fs[k]? = some f → fs[l]? = some g → rs[k]? = some (some i) → rs[l]? = some (some j) →
      (f = g ↔ i = j)) ∧
    ∀ (k f i : Nat), fs[k]? = some f → rs[k]? = some (some i) → ∀ m, load W (m + 1) f s = some (.ok s (some i)) := by
  obtain ⟨h1, -, h3, h4⟩ := loadAll_ok ha hc n fs .start s rs (inv_start W) h
  have again : ∀ (k f i : Nat), fs[k]? = some f → rs[k]? = some (some i) → find f 0 s.libs = some i := by
    intro k f i hk hr
    have := find_of_getElem (i := 0) h1.nodup (h4 k f i hk hr)
    simpa using this
  refine ⟨h1.count1, fun f hf => h1.count0 f (Or.inl hf), h4, ?_, ?_⟩
  · intro k l f g i j hk hl hi hj
    have e1 := h4 k f i hk hi
    have e2 := h4 l g j hl hj
    constructor
    · rintro rfl
      have a1 := again k f i hk hi
      have a2 := again l f j hl hj
      rw [a1] at a2
      exact Option.some.inj a2
    · rintro rfl
      rw [e1] at e2
      exact Option.some.inj e2
  · intro k f i hk hr m
    simp only [load, again k f i hk hr]

/-- At the end each library that is loaded, if it has a function for this, is told once; no other
library is told. -/
theorem C102_end_partial {W : World} {rank : Nat → Nat} (ha : Acyclic W rank) (hc : CleanFailures W) (n : Nat)
    (fs : List Nat) (s : State) (rs : List (Option Nat)) (h : loadAll W n fs .start = some (.ok s rs)) (f : Nat) :
    (f ∈ s.files → HasKill W f → (killAll W s).log.count (.kill f) = 1) ∧
    (f ∉ s.files ∨ ¬ HasKill W f → (killAll W s).log.count (.kill f) = 0) := by
  obtain ⟨h1, -⟩ := loadAll_ok ha hc n fs .start s rs (inv_start W) h
  have hk0 : s.log.count (.kill f) = 0 := List.count_eq_zero.2 (h1.kill f)
  have hcount : (killAll W s).log.count (.kill f) =
      ((s.libs.filter fun x => match W x.file with | some d => d.kill | none => false).map Lib.file).count f := by
    simp only [killAll, List.count_append, hk0, Nat.zero_add]
    rw [show (fun x : Lib => Event.kill x.file) = Event.kill ∘ Lib.file from rfl, ← List.map_map]
    exact List.count_map_of_injective _ _ (fun a b e => by cases e; rfl) _
  have hmem : f ∈ ((s.libs.filter fun x => match W x.file with | some d => d.kill | none => false).map Lib.file) ↔
      f ∈ s.files ∧ HasKill W f := by
    simp only [List.mem_map, List.mem_filter, State.files]
    constructor
    · rintro ⟨x, ⟨hx, hk⟩, rfl⟩
      refine ⟨⟨x, hx, rfl⟩, ?_⟩
      cases hW : W x.file with
      | none => rw [hW] at hk; cases hk
      | some d => rw [hW] at hk; exact ⟨d, hW, hk⟩
    · rintro ⟨⟨x, hx, rfl⟩, d, hW, hk⟩
      exact ⟨x, ⟨hx, by rw [hW]; exact hk⟩, rfl⟩
  have hnd : ((s.libs.filter fun x => match W x.file with | some d => d.kill | none => false).map Lib.file).Nodup :=
    List.Nodup.sublist (List.Sublist.map _ List.filter_sublist) h1.nodup
  rw [hcount]
  constructor
  · intro hf hk
    exact List.count_eq_one_of_mem hnd (hmem.2 ⟨hf, hk⟩)
  · intro hf
    rw [List.count_eq_zero, hmem]
    rintro ⟨h2, h3⟩
    rcases hf with h | h
    · exact h h2
    · exact h h3

/-! ### loading ends -/

theorem run_ends {rank : Nat → Nat} {ld : Nat → State → Option (Res (Option Nat))} {k : Nat}
    (h : ∀ f s, rank f < k → ld f s ≠ none) : ∀ (p : Prog) (s : State), Below rank k p → run ld p s ≠ none := by
  intro p
  induction p with
  | done r => intro s _ e; cases e
  | load f c ih =>
    intro s hb e
    simp only [run] at e
    cases hl : ld f s with
    | none => exact h f s hb.1 hl
    | some res =>
      rw [hl] at e
      cases res with
      | ub => cases e
      | ok s1 i => exact ih _ s1 (hb.2 _) e

/-- A load ends: nested calls are never deeper than the rank of the library. -/
theorem C102_ends_partial {W : World} {rank : Nat → Nat} (ha : Acyclic W rank) :
    ∀ (n f : Nat) (s : State), rank f < n → load W n f s ≠ none := by
  intro n
  induction n with
  | zero => intro f s h; exact absurd h (Nat.not_lt_zero _)
  | succ n ih =>
    intro f s hn h
    simp only [load] at h
    cases hf : find f 0 s.libs with
    | some i => rw [hf] at h; cases h
    | none =>
      rw [hf] at h
      cases hW : W f with
      | none => rw [hW] at h; cases h
      | some d =>
        rw [hW] at h
        obtain ⟨hb1, hb2⟩ := ha f d hW
        have ih' : ∀ g s, rank g < rank f → load W n g s ≠ none := fun g s hg => ih g s (by omega)
        simp only at h
        cases hr : run (load W n) d.requires s with
        | none => exact run_ends ih' _ _ hb1 hr
        | some res =>
          rw [hr] at h
          cases res with
          | ub => cases h
          | ok s1 r1 =>
            cases r1 with
            | fail => cases h
            | ok y =>
              simp only at h
              split at h
              · cases hi : d.init with
                | none => rw [hi] at h; cases h
                | some p =>
                  rw [hi] at h
                  simp only at h
                  split at h
                  · next hr2 => exact run_ends ih' _ _ (hb2 p hi) hr2
                  · cases h
                  · cases h
                  · cases h
                  · split at h <;> cases h
              · cases h

/-! ### no undefined behaviour -/

/-- There is room for 32 libraries from the first on. -/
def Roomy (s : State) : Prop := s.cap = 0 ∧ s.libs = [] ∨ s.cap = 32

theorem run_safe {W : World} {rank : Nat → Nat} {ld : Nat → State → Option (Res (Option Nat))} (hok : LoadOk W rank ld) (k : Nat)
    (h : ∀ f s, Inv W s → Roomy s → ld f s ≠ some .ub ∧ ∀ s' r, ld f s = some (.ok s' r) → Roomy s' ∧ (s.cap = 32 → s'.cap = 32)) :
    ∀ (p : Prog) (s : State), Below rank k p → Inv W s → Roomy s →
      run ld p s ≠ some .ub ∧ ∀ s' r, run ld p s = some (.ok s' r) → Roomy s' ∧ (s.cap = 32 → s'.cap = 32) := by
  intro p
  induction p with
  | done r =>
    intro s _ _ hr
    refine ⟨fun e => (by cases e), ?_⟩
    intro s' r e
    cases e
    exact ⟨hr, id⟩
  | load f c ih =>
    intro s hb hs hr
    obtain ⟨h1, h2⟩ := h f s hs hr
    simp only [run]
    cases hl : ld f s with
    | none => exact ⟨fun e => (by cases e), fun s' r e => (by cases e)⟩
    | some res =>
      cases res with
      | ub => exact absurd hl h1
      | ok s1 i =>
        obtain ⟨r1, c1⟩ := h2 s1 i hl
        obtain ⟨i1, -, -⟩ := hok f s s1 i hs hl
        obtain ⟨h3, h4⟩ := ih i.isSome s1 (hb.2 _) i1 r1
        refine ⟨h3, ?_⟩
        intro s' r e
        obtain ⟨r2, c2⟩ := h4 s' r e
        exact ⟨r2, fun hcap => c2 (c1 hcap)⟩

theorem load_safe {W : World} {rank : Nat → Nat} (ha : Acyclic W rank) (hc : CleanFailures W) (F : List Nat)
    (hF : ∀ f d, W f = some d → f ∈ F) (hlen : F.length ≤ 32) :
    ∀ (n f : Nat) (s : State), Inv W s → Roomy s →
      load W n f s ≠ some .ub ∧ ∀ s' r, load W n f s = some (.ok s' r) → Roomy s' ∧ (s.cap = 32 → s'.cap = 32) := by
  intro n
  induction n with
  | zero => intro f s _ _; exact ⟨fun e => (by cases e), fun s' r e => (by cases e)⟩
  | succ n ih =>
    intro f s hs hr
    simp only [load]
    cases hf : find f 0 s.libs with
    | some i =>
      refine ⟨fun e => (by cases e), ?_⟩
      intro s' r e; cases e
      exact ⟨hr, id⟩
    | none =>
      simp only
      cases hW : W f with
      | none =>
        refine ⟨fun e => (by cases e), ?_⟩
        intro s' r e; cases e
        exact ⟨hr, id⟩
      | some d =>
        obtain ⟨hb1, hb2⟩ := ha f d hW
        simp only
        obtain ⟨a1, a2⟩ := run_safe (load_ok ha hc n) (rank f) ih d.requires s hb1 hs hr
        cases hrun : run (load W n) d.requires s with
        | none => exact ⟨fun e => (by cases e), fun s' r e => (by cases e)⟩
        | some res =>
          cases res with
          | ub => exact absurd hrun a1
          | ok s1 r1 =>
            obtain ⟨rm1, c1⟩ := a2 s1 r1 hrun
            obtain ⟨i1, g1, -⟩ := run_ok (load_ok ha hc n) (rank f) d.requires s s1 r1 hb1 hs hrun
            cases r1 with
            | fail =>
              refine ⟨fun e => (by cases e), ?_⟩
              intro s' r e; cases e
              exact ⟨rm1, c1⟩
            | ok y =>
              simp only
              split
              · -- the array has room
                have hnf : f ∉ s1.files := by
                  obtain ⟨X, e, hX⟩ := g1
                  rw [e]
                  intro hm
                  rcases List.mem_append.1 hm with h | h
                  · exact find_none hf h
                  · exact absurd (hX f h) (Nat.lt_irrefl _)
                have hfew : (s1.files ++ [f]).length ≤ 32 := by
                  have hnd : (s1.files ++ [f]).Nodup := List.Nodup.append i1.nodup (by simp) (by simpa using hnf)
                  have hsub : s1.files ++ [f] ⊆ F := by
                    intro g hg
                    rcases List.mem_append.1 hg with h | h
                    · obtain ⟨d', hd'⟩ := i1.known g h
                      exact hF g d' hd'
                    · simp at h; subst h; exact hF g d hW
                  exact Nat.le_trans (List.subperm_of_subset hnd hsub).length_le hlen
                have hl : s1.libs.length < 32 := by
                  have : s1.files.length = s1.libs.length := by simp [State.files]
                  simp at hfew; omega
                have hg : grow s1 = 32 := by
                  unfold grow
                  rcases rm1 with ⟨h1, h2⟩ | h1
                  · rw [h1, h2]; rfl
                  · rw [h1, if_neg (by omega)]
                have hgo : ∀ (l : List Lib) (e : List Event), Roomy { libs := l, cap := grow s1, log := e } := fun l e => Or.inr hg
                cases hi : d.init with
                | none =>
                  refine ⟨fun e => (by cases e), ?_⟩
                  intro s' r e; cases e
                  exact ⟨hgo _ _, fun _ => hg⟩
                | some p =>
                  simp only
                  have heq : ({ libs := s1.libs ++ [{ file := f, feature := none }], cap := grow s1, log := s1.log ++ [.opened f] ++ [.init f] } : State) = s1.add f [.opened f, .init f] := by
                    simp [State.add]
                  rw [heq]
                  have hfi : HasInit W f := ⟨d, p, hW, hi⟩
                  have i2 : Inv W (s1.add f [.opened f, .init f]) := add_inv i1 hnf hW hfi
                  obtain ⟨b1, b2⟩ := run_safe (load_ok ha hc n) (rank f) ih p _ (hb2 p hi) i2 (hgo _ _)
                  cases hr2 : run (load W n) p (s1.add f [.opened f, .init f]) with
                  | none => exact ⟨fun e => (by cases e), fun s' r e => (by cases e)⟩
                  | some res =>
                    cases res with
                    | ub => exact absurd hr2 b1
                    | ok s3 r3 =>
                      obtain ⟨rm3, c3⟩ := b2 s3 r3 hr2
                      have hcap : s3.cap = 32 := c3 hg
                      cases r3 with
                      | fail =>
                        refine ⟨fun e => (by cases e), ?_⟩
                        intro s' r e; cases e
                        exact ⟨Or.inr hcap, fun _ => hcap⟩
                      | ok y =>
                        cases y with
                        | none =>
                          refine ⟨fun e => (by cases e), ?_⟩
                          intro s' r e; cases e
                          exact ⟨Or.inr hcap, fun _ => hcap⟩
                        | some y =>
                          simp only
                          rw [if_neg (by rw [hcap, hg]; simp)]
                          refine ⟨fun e => (by cases e), ?_⟩
                          intro s' r e; cases e
                          exact ⟨Or.inr hcap, fun _ => hcap⟩
              · refine ⟨fun e => (by cases e), ?_⟩
                intro s' r e; cases e
                exact ⟨rm1, c1⟩

/-- If there are no more than 32 libraries nothing undefined happens, and the loads end.  Partial as
above. -/
theorem C102_safe_partial {W : World} {rank : Nat → Nat} (ha : Acyclic W rank) (hc : CleanFailures W) (F : List Nat)
    (hF : ∀ f d, W f = some d → f ∈ F) (hlen : F.length ≤ 32) (n : Nat) (fs : List Nat) (hn : ∀ f ∈ fs, rank f < n) :
    ∃ s rs, loadAll W n fs .start = some (.ok s rs) := by
  have key : ∀ (fs : List Nat) (s : State), (∀ f ∈ fs, rank f < n) → Inv W s → Roomy s →
      ∃ s' rs, loadAll W n fs s = some (.ok s' rs) := by
    intro fs
    induction fs with
    | nil => intro s _ _ _; exact ⟨s, [], rfl⟩
    | cons f fs ih =>
      intro s hn hs hr
      obtain ⟨h1, h2⟩ := load_safe ha hc F hF hlen n f s hs hr
      have h3 := C102_ends_partial ha n f s (hn f List.mem_cons_self)
      cases hl : load W n f s with
      | none => exact absurd hl h3
      | some res =>
        cases res with
        | ub => exact absurd hl h1
        | ok s1 r =>
          obtain ⟨i1, -, -⟩ := load_ok ha hc n f s s1 r hs hl
          obtain ⟨s2, rs, h4⟩ := ih s1 (fun g hg => hn g (List.mem_cons_of_mem _ hg)) i1 (h2 s1 r hl).1
          exact ⟨s2, r :: rs, by simp only [loadAll, hl, h4]⟩
  exact key fs .start hn (inv_start W) (Or.inl ⟨rfl, rfl⟩)

/-! ### an example -/

def good : Prog := .done (.ok (some 7))

/-- Library 3 requires 1 and loads 2 while it is initialised, 2 fails, 4 cannot be opened. -/
def someWorld : World
  | 1 => some { requires := .done (.ok none), opens := true, init := some good, kill := true }
  | 2 => some { requires := .done (.ok none), opens := true, init := some (.done .fail), kill := true }
  | 3 => some { requires := .load 1 fun b => .done (if b then .ok none else .fail), opens := true,
                init := some (.load 2 fun _ => good), kill := false }
  | 4 => some { requires := .load 3 fun _ => .done (.ok none), opens := false, init := none, kill := true }
  | _ => none

theorem someWorld_cases {f : Nat} {d : Desc} (h : someWorld f = some d) : f = 1 ∨ f = 2 ∨ f = 3 ∨ f = 4 := by
  unfold someWorld at h
  split at h
  · exact Or.inl rfl
  · exact Or.inr (Or.inl rfl)
  · exact Or.inr (Or.inr (Or.inl rfl))
  · exact Or.inr (Or.inr (Or.inr rfl))
  · cases h

theorem someWorld_acyclic : Acyclic someWorld id := by
  intro f d h
  rcases someWorld_cases h with rfl | rfl | rfl | rfl <;> cases h <;>
    refine ⟨?_, ?_⟩ <;> first | (intro p e; cases e; simp [Below, good]) | simp [Below]

theorem someWorld_clean : CleanFailures someWorld := by
  intro f d p h e
  rcases someWorld_cases h with rfl | rfl | rfl | rfl <;> cases h <;> cases e
  · exact Or.inl ⟨_, rfl⟩
  · exact Or.inl ⟨_, rfl⟩
  · exact Or.inr fun _ => by simp [NeverFails, good]

example : ∃ s, loadAll someWorld 5 [4, 2, 3, 1] .start = some (.ok s [none, none, some 1, some 0]) ∧ s.files = [1, 3] :=
  ⟨_, rfl, rfl⟩
example : ∀ f d, someWorld f = some d → f ∈ [1, 2, 3, 4] := by
  intro f d h
  rcases someWorld_cases h with rfl | rfl | rfl | rfl <;> simp

/-! ### where the claims fail -/

/-- A library whose initialisation loads another and then fails: the other one is taken out of the
table, the failed one stays, though it has been closed.  Then the handle of the other is that of
nothing, it is initialised again, and the closed one is told of the end. -/
def failing : World
  | 1 => some { requires := .done (.ok none), opens := true, init := some (.load 2 fun _ => .done .fail), kill := true }
  | 2 => some { requires := .done (.ok none), opens := true, init := some good, kill := true }
  | _ => none

theorem C102_failed_violated :
    ∃ s rs, loadAll failing 3 [1] .start = some (.ok s rs) ∧ rs = [none] ∧ s.files = [1] ∧
      Event.closed 1 ∈ s.log ∧ Event.closed 2 ∉ s.log ∧ Event.init 2 ∈ s.log ∧
      Event.kill 1 ∈ (killAll failing s).log ∧ Event.kill 2 ∉ (killAll failing s).log ∧
      ∃ s2, load failing 3 2 s = some (.ok s2 (some 1)) ∧ s2.log.count (.init 2) = 2 ∧ s2.log.count (.closed 2) = 0 :=
  ⟨_, _, rfl, rfl, rfl, by decide, by decide, by decide, by decide, by decide, _, rfl, by decide, by decide⟩

/-- Library 1 requires 2, which loads 1 while it is initialised: 1 is loaded and initialised
twice. -/
def circle : World
  | 1 => some { requires := .load 2 fun b => .done (if b then .ok none else .fail), opens := true, init := some good, kill := true }
  | 2 => some { requires := .done (.ok none), opens := true, init := some (.load 1 fun _ => good), kill := true }
  | _ => none

theorem C102_circle_violated :
    ∃ s, loadAll circle 5 [1] .start = some (.ok s [some 2]) ∧ s.files = [2, 1, 1] ∧ s.log.count (.init 1) = 2 ∧
      s.log.count (.closed 1) = 0 ∧ (killAll circle s).log.count (.kill 1) = 2 :=
  ⟨_, rfl, rfl, by decide, by decide, by decide⟩

/-- Libraries that require each other: the load does not end. -/
def mutualReq : World
  | 1 => some { requires := .load 2 fun _ => .done (.ok none), opens := true, init := none, kill := false }
  | 2 => some { requires := .load 1 fun _ => .done (.ok none), opens := true, init := none, kill := false }
  | _ => none

theorem start_libs : State.start.libs = [] := rfl

theorem C102_mutual_violated (n : Nat) : load mutualReq n 1 .start = none ∧ load mutualReq n 2 .start = none := by
  induction n with
  | zero => exact ⟨rfl, rfl⟩
  | succ n ih =>
    constructor <;> simp only [load, find, mutualReq, run, ih.1, ih.2, start_libs]

/-- Libraries 0 to 30 are simple, the 32nd one loads another while it is initialised: the array is
moved and the old place is written. -/
def many : World := fun f =>
  some { requires := .done (.ok none), opens := true,
         init := if f = 31 then some (.load 32 fun _ => good) else none, kill := false }

theorem C102_moved_violated : loadAll many 3 (List.range 32) .start = some .ub := by rfl

/-- The first library is not found by its feature. -/
theorem C102_first_violated :
    ∃ s, loadAll someWorld 5 [1, 3] .start = some (.ok s [some 0, some 1]) ∧ s.libs.map Lib.feature = [some 7, some 7] ∧
      symbolLib s 7 = none := ⟨_, rfl, rfl, rfl⟩

end Rep.Dl
