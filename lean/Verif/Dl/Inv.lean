import Verif.Dl.Spec
import Mathlib.Data.List.Nodup
import Mathlib.Data.List.Count
import Mathlib.Order.Basic
import Mathlib.Tactic.Tauto

namespace Rep.Dl

/-- No file is loaded twice; every initialisation belongs to a loaded library or was undone. -/
structure Inv (W : World) (s : State) : Prop where
  nodup : s.files.Nodup
  known : ∀ f ∈ s.files, ∃ d, W f = some d
  count1 : ∀ f, f ∈ s.files → HasInit W f → s.log.count (.init f) = s.log.count (.closed f) + 1
  count0 : ∀ f, f ∉ s.files ∨ ¬ HasInit W f → s.log.count (.init f) = s.log.count (.closed f)
  opened : ∀ f ∈ s.files, Event.opened f ∈ s.log
  kill : ∀ f, Event.kill f ∉ s.log

theorem find_none {f : Nat} : ∀ {l : List Lib} {i : Nat}, find f i l = none → f ∉ l.map Lib.file := by
  intro l
  induction l with
  | nil => intro i _; simp
  | cons x xs ih =>
    intro i h
    simp only [find] at h
    split at h
    · cases h
    · next hx => simp only [List.map_cons, List.mem_cons, not_or]; exact ⟨fun e => hx e.symm, ih h⟩

theorem find_some {f : Nat} : ∀ {l : List Lib} {i j : Nat}, find f i l = some j → i ≤ j ∧ (l.map Lib.file)[j - i]? = some f := by
  intro l
  induction l with
  | nil => intro i j h; cases h
  | cons x xs ih =>
    intro i j h
    simp only [find] at h
    split at h
    · next hx => cases h; simp [hx]
    · obtain ⟨h1, h2⟩ := ih h
      refine ⟨by omega, ?_⟩
      rw [show j - i = (j - (i + 1)) + 1 by omega, List.map_cons, List.getElem?_cons_succ, h2]

theorem find_of_getElem {f : Nat} : ∀ {l : List Lib} {i j : Nat}, (l.map Lib.file).Nodup → (l.map Lib.file)[j]? = some f →
    find f i l = some (i + j) := by
  intro l
  induction l with
  | nil => intro i j _ h; simp at h
  | cons x xs ih =>
    intro i j hn h
    simp only [find]
    cases j with
    | zero =>
      simp only [List.map_cons, List.getElem?_cons_zero, Option.some.injEq] at h
      rw [if_pos h]; rfl
    | succ j =>
      rw [List.map_cons, List.getElem?_cons_succ] at h
      rw [List.map_cons, List.nodup_cons] at hn
      rw [if_neg (fun e => hn.1 (by rw [e]; exact List.mem_of_getElem? h)), ih hn.2 h]
      congr 1; omega

/-- The libraries after are those before, and more, all of a rank below `k`. -/
def Grows (rank : Nat → Nat) (k : Nat) (s s' : State) : Prop :=
  ∃ X, s'.files = s.files ++ X ∧ ∀ g ∈ X, rank g < k

theorem Grows.refl (rank : Nat → Nat) (k : Nat) (s : State) : Grows rank k s s := ⟨[], by simp, by simp⟩

theorem Grows.trans {rank : Nat → Nat} {k : Nat} {s s' s'' : State} (h : Grows rank k s s') (h' : Grows rank k s' s'') :
    Grows rank k s s'' := by
  obtain ⟨X, e, hX⟩ := h
  obtain ⟨Y, e', hY⟩ := h'
  refine ⟨X ++ Y, by rw [e', e, List.append_assoc], ?_⟩
  intro g hg
  rcases List.mem_append.1 hg with h | h
  · exact hX g h
  · exact hY g h

theorem Grows.mono {rank : Nat → Nat} {k l : Nat} (hkl : k ≤ l) {s s' : State} (h : Grows rank k s s') : Grows rank l s s' := by
  obtain ⟨X, e, hX⟩ := h
  exact ⟨X, e, fun g hg => Nat.lt_of_lt_of_le (hX g hg) hkl⟩

/-- What is claimed of a way to load. -/
def LoadOk (W : World) (rank : Nat → Nat) (ld : Nat → State → Option (Res (Option Nat))) : Prop :=
  ∀ f s s' r, Inv W s → ld f s = some (.ok s' r) →
    Inv W s' ∧ Grows rank (rank f + 1) s s' ∧ ∀ i, r = some i → s'.files[i]? = some f

theorem run_ok {W : World} {rank : Nat → Nat} {ld : Nat → State → Option (Res (Option Nat))} (h : LoadOk W rank ld) (k : Nat) :
    ∀ (p : Prog) (s s' : State) (r : Ret), Below rank k p → Inv W s → run ld p s = some (.ok s' r) →
      Inv W s' ∧ Grows rank k s s' ∧ (NeverFails p → r ≠ .fail) := by
  intro p
  induction p with
  | done r0 =>
    intro s s' r _ hs e
    cases e
    exact ⟨hs, .refl _ _ _, id⟩
  | load f c ih =>
    intro s s' r hb hs e
    simp only [run] at e
    cases hl : ld f s with
    | none => rw [hl] at e; cases e
    | some res =>
      rw [hl] at e
      cases res with
      | ub => cases e
      | ok s1 i =>
        obtain ⟨h1, h2, -⟩ := h f s s1 i hs hl
        obtain ⟨h3, h4, h5⟩ := ih i.isSome s1 s' r (hb.2 _) h1 e
        exact ⟨h3, (h2.mono (by have := hb.1; omega)).trans h4, fun hn => h5 (hn _)⟩

/-- The state after a library has been put in the table. -/
def State.add (s : State) (f : Nat) (e : List Event) : State :=
  { libs := s.libs ++ [{ file := f, feature := none }], cap := grow s, log := s.log ++ e }

theorem add_files (s : State) (f : Nat) (e : List Event) : (s.add f e).files = s.files ++ [f] := by
  simp [State.add, State.files]

theorem add_inv {W : World} {s1 : State} {f : Nat} {d : Desc} (i1 : Inv W s1) (hnf : f ∉ s1.files) (hW : W f = some d)
    (hfi : HasInit W f) : Inv W (s1.add f [.opened f, .init f]) := by
  have hfs := add_files s1 f [.opened f, .init f]
  refine ⟨?_, ?_, ?_, ?_, ?_, ?_⟩
  · rw [hfs]
    exact List.Nodup.append i1.nodup (by simp) (by simpa using hnf)
  · intro g hg
    rw [hfs] at hg
    rcases List.mem_append.1 hg with h | h
    · exact i1.known g h
    · simp at h; subst h; exact ⟨d, hW⟩
  · intro g hg hgi
    rw [hfs] at hg
    simp only [State.add, List.count_append]
    have e2 : List.count (Event.closed g) [Event.opened f, Event.init f] = 0 := by
      rw [List.count_eq_zero]; simp
    rw [e2]
    by_cases hgf : g = f
    · subst hgf
      have e1 : List.count (Event.init g) [Event.opened g, Event.init g] = 1 := by simp
      rw [e1, i1.count0 g (Or.inl hnf)]
    · have e1 : List.count (Event.init g) [Event.opened f, Event.init f] = 0 := by
        rw [List.count_eq_zero]; simp [hgf]
      rw [e1]
      rcases List.mem_append.1 hg with h | h
      · exact i1.count1 g h hgi
      · simp at h; exact absurd h hgf
  · intro g hg
    rw [hfs] at hg
    simp only [State.add, List.count_append]
    have e2 : List.count (Event.closed g) [Event.opened f, Event.init f] = 0 := by
      rw [List.count_eq_zero]; simp
    have hgf : g ≠ f := by
      rintro rfl
      rcases hg with h | h
      · exact h (by simp)
      · exact h hfi
    have e1 : List.count (Event.init g) [Event.opened f, Event.init f] = 0 := by
      rw [List.count_eq_zero]; simp [hgf]
    rw [e1, e2]
    exact i1.count0 g (hg.imp_left fun h h' => h (List.mem_append_left _ h'))
  · intro g hg
    rw [hfs] at hg
    rcases List.mem_append.1 hg with h | h
    · exact List.mem_append_left _ (i1.opened g h)
    · simp at h; subst h; simp [State.add]
  · intro g hg
    rcases List.mem_append.1 hg with h | h
    · exact i1.kill g h
    · simp at h

theorem load_ok {W : World} {rank : Nat → Nat} (ha : Acyclic W rank) (hc : CleanFailures W) :
    ∀ n, LoadOk W rank (load W n) := by
  intro n
  induction n with
  | zero => intro f s s' r _ h; cases h
  | succ n ih =>
    intro f s s' r hs h
    simp only [load] at h
    cases hf : find f 0 s.libs with
    | some i =>
      rw [hf] at h
      cases h
      refine ⟨hs, .refl _ _ _, ?_⟩
      rintro i' e
      cases e
      have := (find_some hf).2
      rwa [Nat.sub_zero] at this
    | none =>
      rw [hf] at h
      cases hW : W f with
      | none =>
        rw [hW] at h; cases h
        exact ⟨hs, .refl _ _ _, fun i e => by cases e⟩
      | some d =>
        rw [hW] at h
        obtain ⟨hb1, hb2⟩ := ha f d hW
        simp only at h
        cases hr : run (load W n) d.requires s with
        | none => rw [hr] at h; cases h
        | some res =>
          rw [hr] at h
          cases res with
          | ub => cases h
          | ok s1 r1 =>
            obtain ⟨i1, g1, -⟩ := run_ok ih (rank f) d.requires s s1 r1 hb1 hs hr
            have hnf : f ∉ s1.files := by
              obtain ⟨X, e, hX⟩ := g1
              rw [e]
              intro hm
              rcases List.mem_append.1 hm with h | h
              · exact find_none hf h
              · exact absurd (hX f h) (Nat.lt_irrefl _)
            cases r1 with
            | fail =>
              cases h
              exact ⟨i1, g1.mono (Nat.le_succ _), fun i e => by cases e⟩
            | ok y1 =>
              simp only at h
              split at h
              · next hop =>
                cases hi : d.init with
                | none =>
                  rw [hi] at h
                  simp only [Option.some.injEq, Res.ok.injEq] at h
                  obtain ⟨rfl, rfl⟩ := h
                  have hfi : ¬ HasInit W f := by
                    rintro ⟨d', p, e1, e2⟩
                    rw [hW] at e1; cases e1
                    rw [hi] at e2; cases e2
                  have hfs := add_files s1 f [.opened f]
                  refine ⟨⟨?_, ?_, ?_, ?_, ?_, ?_⟩, ?_, ?_⟩
                  · show (s1.add f _).files.Nodup
                    rw [hfs]
                    exact List.Nodup.append i1.nodup (by simp) (by simpa using hnf)
                  · intro g hg
                    have hg : g ∈ (s1.add f [.opened f]).files := hg
                    rw [hfs] at hg
                    rcases List.mem_append.1 hg with h | h
                    · exact i1.known g h
                    · simp at h; subst h; exact ⟨d, hW⟩
                  · intro g hg hgi
                    have hg : g ∈ (s1.add f [.opened f]).files := hg
                    rw [hfs] at hg
                    have e1 : List.count (Event.init g) [Event.opened f] = 0 := by rw [List.count_eq_zero]; simp
                    have e2 : List.count (Event.closed g) [Event.opened f] = 0 := by rw [List.count_eq_zero]; simp
                    rw [List.count_append, List.count_append, e1, e2]
                    rcases List.mem_append.1 hg with h | h
                    · exact i1.count1 g h hgi
                    · simp at h; subst h; exact absurd hgi hfi
                  · intro g hg
                    have hg : g ∉ (s1.add f [.opened f]).files ∨ _ := hg
                    rw [hfs] at hg
                    have e1 : List.count (Event.init g) [Event.opened f] = 0 := by rw [List.count_eq_zero]; simp
                    have e2 : List.count (Event.closed g) [Event.opened f] = 0 := by rw [List.count_eq_zero]; simp
                    rw [List.count_append, List.count_append, e1, e2]
                    exact i1.count0 g (hg.imp_left fun h h' => h (List.mem_append_left _ h'))
                  · intro g hg
                    have hg : g ∈ (s1.add f [.opened f]).files := hg
                    rw [hfs] at hg
                    rcases List.mem_append.1 hg with h | h
                    · exact List.mem_append_left _ (i1.opened g h)
                    · simp at h; subst h; simp
                  · intro g hg
                    rcases List.mem_append.1 hg with h | h
                    · exact i1.kill g h
                    · simp at h
                  · refine (g1.mono (Nat.le_succ _)).trans ⟨[f], hfs, by simp⟩
                  · rintro i e
                    cases e
                    show (s1.add f [.opened f]).files[_]? = _
                    rw [hfs, show s1.libs.length = s1.files.length by simp [State.files]]
                    simp
                | some p =>
                  rw [hi] at h
                  simp only at h
                  have hfi : HasInit W f := ⟨d, p, hW, hi⟩
                  -- the state in which the initialisation starts
                  have hfs := add_files s1 f [.opened f, .init f]
                  have heq : ({ libs := s1.libs ++ [{ file := f, feature := none }], cap := grow s1, log := s1.log ++ [.opened f] ++ [.init f] } : State) = s1.add f [.opened f, .init f] := by
                    simp [State.add]
                  rw [heq] at h
                  have i2 : Inv W (s1.add f [.opened f, .init f]) := add_inv i1 hnf hW hfi
                  have g2 : Grows rank (rank f + 1) s (s1.add f [.opened f, .init f]) :=
                    (g1.mono (Nat.le_succ _)).trans ⟨[f], hfs, by simp⟩
                  cases hr2 : run (load W n) p (s1.add f [.opened f, .init f]) with
                  | none => rw [hr2] at h; cases h
                  | some res =>
                    rw [hr2] at h
                    cases res with
                    | ub => cases h
                    | ok s3 r3 =>
                      obtain ⟨i3, g3, hnever⟩ := run_ok ih (rank f) p _ s3 r3 (hb2 p hi) i2 hr2
                      have hidx : s3.files[s1.libs.length]? = some f := by
                        obtain ⟨X, e, -⟩ := g3
                        rw [e, hfs, show s1.libs.length = s1.files.length by simp [State.files]]
                        simp
                      cases r3 with
                      | fail =>
                        rcases hc f d p hW hi with ⟨r, rfl⟩ | hn
                        · simp only [run, Option.some.injEq, Res.ok.injEq] at hr2
                          obtain ⟨e3, rfl⟩ := hr2
                          subst e3
                          simp only [Option.some.injEq, Res.ok.injEq] at h
                          obtain ⟨rfl, rfl⟩ := h
                          have hl : (State.files { (s1.add f [.opened f, .init f]) with libs := (s1.add f [.opened f, .init f]).libs.dropLast, log := (s1.add f [.opened f, .init f]).log ++ [.closed f] }) = s1.files := by
                            simp [State.files, State.add]
                          refine ⟨⟨?_, ?_, ?_, ?_, ?_, ?_⟩, ?_, fun i e => by cases e⟩
                          · rw [hl]; exact i1.nodup
                          · intro g hg; rw [hl] at hg; exact i1.known g hg
                          · intro g hg hgi
                            rw [hl] at hg
                            have hgf : g ≠ f := by rintro rfl; exact hnf hg
                            simp only [State.add, List.count_append]
                            have e1 : List.count (Event.init g) [Event.opened f, Event.init f] = 0 := by
                              rw [List.count_eq_zero]; simp [hgf]
                            have e2 : List.count (Event.closed g) [Event.opened f, Event.init f] = 0 := by
                              rw [List.count_eq_zero]; simp
                            have e3 : List.count (Event.init g) [Event.closed f] = 0 := by
                              rw [List.count_eq_zero]; simp
                            have e4 : List.count (Event.closed g) [Event.closed f] = 0 := by
                              rw [List.count_eq_zero]; simp [hgf]
                            rw [e1, e2, e3, e4]
                            exact i1.count1 g hg hgi
                          · intro g hg
                            rw [hl] at hg
                            simp only [State.add, List.count_append, i1.count0 g hg]
                            by_cases hgf : g = f
                            · subst hgf
                              have e1 : List.count (Event.init g) [Event.opened g, Event.init g] = 1 := by simp
                              have e2 : List.count (Event.closed g) [Event.opened g, Event.init g] = 0 := by
                                rw [List.count_eq_zero]; simp
                              have e3 : List.count (Event.init g) [Event.closed g] = 0 := by
                                rw [List.count_eq_zero]; simp
                              have e4 : List.count (Event.closed g) [Event.closed g] = 1 := by simp
                              rw [e1, e2, e3, e4]
                            · have e1 : List.count (Event.init g) [Event.opened f, Event.init f] = 0 := by
                                rw [List.count_eq_zero]; simp [hgf]
                              have e2 : List.count (Event.closed g) [Event.opened f, Event.init f] = 0 := by
                                rw [List.count_eq_zero]; simp
                              have e3 : List.count (Event.init g) [Event.closed f] = 0 := by
                                rw [List.count_eq_zero]; simp
                              have e4 : List.count (Event.closed g) [Event.closed f] = 0 := by
                                rw [List.count_eq_zero]; simp [hgf]
                              rw [e1, e2, e3, e4]
                          · intro g hg
                            rw [hl] at hg
                            exact List.mem_append_left _ (List.mem_append_left _ (i1.opened g hg))
                          · intro g hg
                            simp only [State.add, List.mem_append] at hg
                            rcases hg with (h | h) | h
                            · exact i1.kill g h
                            · simp at h
                            · simp at h
                          · obtain ⟨X, e, hX⟩ := g1
                            exact ⟨X, by rw [hl, e], fun g hg => Nat.lt_succ_of_lt (hX g hg)⟩
                        · exact absurd rfl (hnever hn)
                      | ok y =>
                        have g4 := g2.trans (g3.mono (Nat.le_succ _))
                        cases y with
                        | none =>
                          simp only [Option.some.injEq, Res.ok.injEq] at h
                          obtain ⟨rfl, rfl⟩ := h
                          refine ⟨i3, g4, ?_⟩
                          rintro i e
                          cases e
                          exact hidx
                        | some y =>
                          simp only at h
                          split at h
                          · cases h
                          · simp only [Option.some.injEq, Res.ok.injEq] at h
                            obtain ⟨rfl, rfl⟩ := h
                            have hl : State.files { s3 with libs := s3.libs.modify s1.libs.length fun x => { x with feature := some y } } = s3.files := by
                              unfold State.files
                              simp only
                              apply List.ext_getElem?
                              intro i
                              simp only [List.getElem?_map, List.getElem?_modify]
                              cases s3.libs[i]? with
                              | none => rfl
                              | some x => simp; split <;> rfl
                            refine ⟨⟨?_, ?_, ?_, ?_, ?_, ?_⟩, ?_, ?_⟩
                            · rw [hl]; exact i3.nodup
                            · rw [hl]; exact i3.known
                            · intro g; rw [hl]; exact i3.count1 g
                            · intro g; rw [hl]; exact i3.count0 g
                            · rw [hl]; exact i3.opened
                            · exact i3.kill
                            · obtain ⟨X, e, hX⟩ := g4
                              exact ⟨X, by rw [hl, e], hX⟩
                            · rintro i e
                              cases e
                              rw [hl]; exact hidx
              · cases h
                exact ⟨i1, g1.mono (Nat.le_succ _), fun i e => by cases e⟩

end Rep.Dl
