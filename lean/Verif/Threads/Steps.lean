import Verif.Threads.Inv

/-
Every step keeps the invariant of the queues, or fails in one of the ways listed.
-/

namespace Rep.Threads

/-- The calls on which an assertion fails: `thread-wake` on a thread that is not suspended,
`thread-suspend` on one that is. -/
def Misuse (c : Com) : Ev → Prop
  | .wake t => c.threadp t = true ∧ (c.th t).susp = false
  | .suspend t _ _ => c.threadp t = true ∧ (c.th t).susp = true
  | _ => False

/-- The outcome of a step: a good state, a failed assertion because of a wrong call, or an
overflow when all threads are suspended. -/
def Good (m : Prop) (r : Res S) : Prop :=
  (∃ s', r = .ok s' ∧ Wf s' ∧ Act s') ∨ (r = .bad .abort ∧ m) ∨ r = .bad .ub

theorem good_invoke {m : Prop} {s : S} (w : Wf s) (z : Wk) : Good m (s.invoke rounds z) := by
  rcases invoke_cases w z with h | ⟨h, -⟩
  · exact .inl h
  · exact .inr (.inr h)

theorem unlink_c (s : S) (t : Tid) : (s.unlink t).c = s.c := by
  unfold S.unlink; split <;> rfl

theorem unlink_run_head {s : S} {t : Tid} (h : s.run.head? ≠ some t) :
    (s.unlink t).run.head? = s.run.head? := by
  unfold S.unlink
  split
  · rfl
  · show (s.run.erase t).head? = _
    cases hr : s.run with
    | nil => rfl
    | cons a l =>
      have : (a == t) = false := by
        rw [hr] at h
        simpa using h
      simp [List.erase_cons, this]

theorem good_delete {m : Prop} {s : S} {t : Tid} (z : Wk) (w : WfBut t (s.unlink t)) (a : Act s) :
    Good m (s.delete t z) := by
  have w' : Wf ((s.unlink t).set t { (s.unlink t).c.th t with exited := true }) :=
    (w.set _).exited (by simp [S.set, set_th])
  unfold S.delete
  show Good m (if s.run.head? = some t then _ else _)
  split
  · exact good_invoke w' z
  · next h =>
    refine .inl ⟨_, rfl, w', ?_⟩
    show (s.unlink t).c.active = (s.unlink t).run.head?
    rw [unlink_c, unlink_run_head h, a]

theorem enqueue_susp {s : S} {t : Tid} (he : (s.c.th t).exited = false) (hs : (s.c.th t).susp = true) :
    s.enqueue t = .ok { s with susp := insertBy s.c t s.susp } := by
  unfold S.enqueue
  simp [he, hs]

theorem enqueue_run {s : S} {t : Tid} (he : (s.c.th t).exited = false) (hs : (s.c.th t).susp = false) :
    s.enqueue t = .ok { s with run := s.run ++ [t] } := by
  unfold S.enqueue
  simp [he, hs]

theorem good_suspend {s : S} {t : Tid} (w : Wf s) (a : Act s) (hn : t < s.c.n) (ms : Nat)
    (poll : Option Tid) (call : Call) (z : Wk) :
    Good ((s.c.th t).susp = true ∨ (s.c.th t).exited = true) (s.suspend t ms poll call z) := by
  unfold S.suspend
  split
  · next h => exact .inr (.inl ⟨rfl, h⟩)
  · next h =>
    have h1 : (s.c.th t).susp = false := by
      rcases hx : (s.c.th t).susp with _ | _
      · rfl
      · exact absurd (.inl hx) h
    have h2 : (s.c.th t).exited = false := by
      rcases hx : (s.c.th t).exited with _ | _
      · rfl
      · exact absurd (.inr hx) h
    have ht := w.mem_of_run hn h1 h2
    have wb := (w.unlink (.inl ht)).set { (s.unlink t).c.th t with
      susp := true, runAt := wakeTime (s.unlink t).c.now ms, poll := poll, val := .nil, call := call }
    have hth : (((s.unlink t).set t { (s.unlink t).c.th t with
      susp := true, runAt := wakeTime (s.unlink t).c.now ms, poll := poll, val := .nil,
      call := call }).c.th t).exited = false := by
      simp [S.set, set_th, unlink_c, h2]
    have hts : (((s.unlink t).set t { (s.unlink t).c.th t with
      susp := true, runAt := wakeTime (s.unlink t).c.now ms, poll := poll, val := .nil,
      call := call }).c.th t).susp = true := by
      simp [S.set, set_th]
    have e := enqueue_susp hth hts
    have w' := wb.enqueue (by simp only [S.set, Com.set, unlink_c]; exact hn) e
    show Good _ (Res.andThen (S.enqueue _ t) _)
    rw [e]
    show Good _ (if _ then _ else _)
    split
    · exact good_invoke w' z
    · next hne =>
      refine .inl ⟨_, rfl, w', ?_⟩
      show (s.unlink t).c.active = (s.unlink t).run.head?
      rw [unlink_c, unlink_run_head, a]
      intro hh
      apply hne
      show (s.unlink t).c.active = some t
      rw [unlink_c, a, hh]

theorem good_wake {m : Prop} {s : S} {t : Tid} (w : Wf s) (a : Act s) (ht : t ∈ s.susp)
    (hne : s.run ≠ []) : Good m (s.wake t) := by
  rw [wake_ok w ht]
  refine .inl ⟨_, rfl, woken_wf w ht, ?_⟩
  show s.c.active = (s.run ++ [t]).head?
  rw [a]
  cases h : s.run with
  | nil => exact absurd h hne
  | cons x l => rfl

theorem make_but {s : S} (w : Wf s) (susp : Bool) :
    WfBut s.c.n { s with c := { s.c.set s.c.n { susp := susp } with n := s.c.n + 1 } } := by
  have nr : s.c.n ∉ s.run := fun h => Nat.lt_irrefl _ (w.run _ h).2.2
  have ns : s.c.n ∉ s.susp := fun h => Nat.lt_irrefl _ (w.susp _ h).2.2
  have e : ∀ u, u ≠ s.c.n → (s.c.set s.c.n { susp := susp }).th u = s.c.th u := fun u hu => by
    rw [set_th, if_neg hu]
  have er : ∀ u ∈ s.run, u ≠ s.c.n := fun u hu h => nr (h ▸ hu)
  have es : ∀ u ∈ s.susp, u ≠ s.c.n := fun u hu h => ns (h ▸ hu)
  exact { nd := w.nd, nr := nr, ns := ns
          run := fun u hu => by
            have := w.run u hu
            refine ⟨?_, ?_, Nat.lt_succ_of_lt this.2.2⟩
            · rw [show (_ : Com).th u = _ from e u (er u hu)]; exact this.1
            · rw [show (_ : Com).th u = _ from e u (er u hu)]; exact this.2.1
          susp := fun u hu => by
            have := w.susp u hu
            refine ⟨?_, ?_, Nat.lt_succ_of_lt this.2.2⟩
            · rw [show (_ : Com).th u = _ from e u (es u hu)]; exact this.1
            · rw [show (_ : Com).th u = _ from e u (es u hu)]; exact this.2.1
          live := fun u hu hne he => by
            rw [show (_ : Com).th u = _ from e u hne] at he
            have : u < s.c.n + 1 := hu
            exact w.live u (Nat.lt_of_le_of_ne (Nat.le_of_lt_succ this) hne) he
          sorted := by
            refine w.sorted.imp_of_mem fun {a b} ha hb h => ?_
            rw [show (_ : Com).th a = _ from e a (es a ha), show (_ : Com).th b = _ from e b (es b hb)]
            exact h }

theorem good_make {m : Prop} {s : S} (w : Wf s) (a : Act s) (susp : Bool) (hne : s.run ≠ []) :
    Good m (s.make susp) := by
  unfold S.make
  have wb := make_but w susp
  have hact : ∀ l, s.c.active = (s.run ++ l).head? := fun l => by
    rw [a]
    cases h : s.run with
    | nil => exact absurd h hne
    | cons x l => rfl
  cases susp with
  | true =>
    have e := enqueue_susp (s := { s with c := { s.c.set s.c.n { susp := true } with n := s.c.n + 1 } })
      (t := s.c.n) (by simp [Com.set]) (by simp [Com.set])
    rw [e]
    exact .inl ⟨_, rfl, wb.enqueue (Nat.lt_succ_self _) e, by
      have := hact []
      rw [List.append_nil] at this
      exact this⟩
  | false =>
    have e := enqueue_run (s := { s with c := { s.c.set s.c.n { susp := false } with n := s.c.n + 1 } })
      (t := s.c.n) (by simp [Com.set]) (by simp [Com.set])
    rw [e]
    exact .inl ⟨_, rfl, wb.enqueue (Nat.lt_succ_self _) e, hact [s.c.n]⟩

theorem rotate_wf {s : S} (w : Wf s) : Wf s.rotate := by
  unfold S.rotate
  split
  · exact w
  · next t l h =>
    have hp : (l ++ [t]).Perm s.run := by
      rw [h]
      exact (List.perm_append_comm).trans (List.Perm.refl _)
    have hm : ∀ u, u ∈ l ++ [t] ↔ u ∈ s.run := fun u => hp.mem_iff
    exact { nd := (hp.append_right s.susp).nodup_iff.2 w.nd
            run := fun u hu => w.run u ((hm u).1 hu)
            susp := w.susp
            live := fun u hu he => (w.live u hu he).imp (hm u).2 id
            sorted := w.sorted }

theorem rotate_c (s : S) : s.rotate.c = s.c ∧ s.rotate.susp = s.susp := by
  unfold S.rotate; split <;> exact ⟨rfl, rfl⟩

theorem good_yield {m : Prop} {s : S} (w : Wf s) (a : Act s) (z : Wk) : Good m (s.yield z) := by
  obtain ⟨s', ws, b', h1, h2, h3, h4, h5, h6, h7, h8, h9, -⟩ :=
    wakeAll_ok Com.due s.rotate.susp [] s.rotate false (rotate_wf w) rfl
  unfold S.yield
  show Good m (Res.andThen _ _)
  rw [h1]
  show Good m (if s'.run.head? = s.run.head? then _ else _)
  split
  · next h =>
    refine .inl ⟨_, rfl, h2, ?_⟩
    show s'.c.active = s'.run.head?
    rw [h8, (rotate_c s).1, a, h]
  · exact good_invoke h2 z

theorem head_ne {s : S} {t : Tid} (a : Act s) (h : s.c.active = some t) :
    s.run ≠ [] ∧ s.run.head? = some t := by
  rw [a] at h
  exact ⟨fun e => (by rw [e] at h; cases h), h⟩

theorem sameq_log (c : Com) (l : Log) : SameQ c (c.logged l) :=
  ⟨rfl, fun _ => rfl, fun _ => rfl, fun _ => rfl⟩

theorem Good.imp {m m' : Prop} {r : Res S} (h : Good m r) (f : m → m') : Good m' r :=
  Or.imp id (Or.imp (And.imp id f) id) h

theorem threadp_iff (c : Com) (t : Tid) : c.threadp t = true ↔ t < c.n ∧ (c.th t).exited = false := by
  simp [Com.threadp]

theorem exit_unlink {s : S} {x : Tid} (h : (s.c.th x).susp = false) {v : Val} {l : Log} :
    (({ s with c := s.c.logged l } : S).set x { s.c.th x with exited := true, val := v }).unlink x =
      (({ s with c := s.c.logged l } : S).unlink x).set x { s.c.th x with exited := true, val := v } := by
  have h' : ((s.c.logged l).th x).susp = false := h
  unfold S.unlink S.set
  simp [set_th, h, h']

/-- Every step is good. -/
theorem good_step {s : S} (w : Wf s) (a : Act s) (e : Ev) : Good (Misuse s.c e) (s.step e) := by
  unfold S.step
  cases hact : s.c.active with
  | none => exact .inl ⟨_, rfl, w, a⟩
  | some x =>
    obtain ⟨hne, hh⟩ := head_ne a hact
    have hx : x ∈ s.run := by
      cases hr : s.run with
      | nil => exact absurd hr hne
      | cons y l => rw [hr] at hh; cases hh; simp
    obtain ⟨x1, x2, x3⟩ := w.run x hx
    show Good _ (s.stepBy x e)
    cases e with
    | tick now => exact .inl ⟨_, rfl, w.same ⟨rfl, fun _ => rfl, fun _ => rfl, fun _ => rfl⟩, a⟩
    | make susp => exact good_make w a susp hne
    | yield z => exact good_yield w a z
    | suspend t ms z =>
      show Good _ (if s.c.threadp t = true then s.fsuspend x t ms z else _)
      split
      · next ht =>
        obtain ⟨ht1, ht2⟩ := (threadp_iff _ _).1 ht
        unfold S.fsuspend
        split
        · next hx =>
          have w' := w.same (sameq_log s.c (.called t ms s.c.now))
          refine (good_suspend w' a ht1 _ _ _ _).imp fun h => ⟨ht, ?_⟩
          rcases h with h | h
          · exact h
          · exact Bool.noConfusion (ht2.symm.trans h)
        · next hx =>
          have hg := good_suspend w a ht1 (suspendMsecs ms) none (s.c.th t).call z
          rcases hg with ⟨s', e', w', a'⟩ | ⟨e', h⟩ | e'
          · rw [e']
            refine .inl ⟨_, rfl, w'.same (SameQ.set rfl rfl rfl), a'⟩
          · rw [e']
            refine .inr (.inl ⟨rfl, ht, ?_⟩)
            rcases h with h | h
            · exact h
            · rw [ht2] at h; cases h
          · rw [e']; exact .inr (.inr rfl)
      · exact .inl ⟨_, rfl, w, a⟩
    | join t ms d z =>
      show Good _ (if t < s.c.n ∧ t ≠ x then _ else _)
      split
      · have w' := w.same (sameq_log s.c (.joined x t ms d s.c.now))
        refine (good_suspend w' a x3 _ _ _ _).imp fun h => ?_
        rcases h with h | h
        · exact Bool.noConfusion (x1.symm.trans h)
        · exact Bool.noConfusion (x2.symm.trans h)
      · exact .inl ⟨_, rfl, w, a⟩
    | wake t =>
      show Good _ (if s.c.threadp t = true then s.fwake t else _)
      split
      · next ht =>
        obtain ⟨ht1, ht2⟩ := (threadp_iff _ _).1 ht
        by_cases hs : (s.c.th t).susp = true
        · have w1 : Wf (({ s with c := s.c.logged (.woken t) } : S).set t { s.c.th t with val := .t }) :=
            w.same ((sameq_log s.c (.woken t)).trans (SameQ.set rfl rfl rfl))
          exact good_wake w1 a (w.mem_of_susp ht1 hs ht2) hne
        · have hs' : (s.c.th t).susp = false := by simpa using hs
          refine .inr (.inl ⟨?_, ht, hs'⟩)
          unfold S.fwake S.wake
          rw [if_pos]
          left
          simp [S.set, set_th, hs']
      · exact .inl ⟨_, rfl, w, a⟩
    | delete t z =>
      show Good _ (if s.c.threadp t = true then S.delete _ t z else _)
      split
      · next ht =>
        obtain ⟨ht1, ht2⟩ := (threadp_iff _ _).1 ht
        have w' := w.same (sameq_log s.c (.gone t))
        exact good_delete z (w'.unlink (w.live t ht1 ht2)) a
      · exact .inl ⟨_, rfl, w, a⟩
    | exit v z =>
      show Good _ (if x = 0 then S.delete _ x z else S.delete _ x z)
      split
      · have w' := w.same (sameq_log s.c (.gone x))
        exact good_delete z (w'.unlink (.inl hx)) a
      · refine good_delete z ?_ a
        have w' := w.same (sameq_log s.c (.done x v))
        have := (w'.unlink (.inl hx)).set { s.c.th x with exited := true, val := v }
        rw [exit_unlink x1]
        exact this
    | throw => exact .inl ⟨_, rfl, close_inv s⟩

theorem init_inv (t : TV) : Wf { c := { now := t } } ∧ Act { c := { now := t } } := by
  refine ⟨⟨by simp, ?_, ?_, ?_, by simp⟩, rfl⟩
  · intro u hu
    have : u = 0 := by simpa using hu
    subst this
    exact ⟨rfl, rfl, Nat.one_pos⟩
  · intro u hu; cases hu
  · intro u hu _
    have : u < 1 := hu
    have : u = 0 := Nat.lt_one_iff.1 this
    subst this
    exact .inl (by simp)

/-- Every history keeps the invariant. -/
theorem runs_inv : ∀ (es : List Ev) {s s' : S}, Wf s → Act s → s.runs es = .ok s' → Wf s' ∧ Act s'
  | [], s, s', w, a, h => by cases h; exact ⟨w, a⟩
  | e :: es, s, s', w, a, h => by
    have h' : (s.step e).andThen (fun s => s.runs es) = .ok s' := h
    rcases good_step w a e with ⟨s1, h1, w1, a1⟩ | ⟨h1, -⟩ | h1
    · rw [h1] at h'; exact runs_inv es w1 a1 h'
    · rw [h1] at h'; cases h'
    · rw [h1] at h'; cases h'

end Rep.Threads
