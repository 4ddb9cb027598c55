import Verif.Threads.Links

/-
The queues of the scheduler: the invariant, and its preservation by every step.
-/

namespace Rep.Threads

/-- The two queues, without the thread `t`, which is in neither. -/
structure WfBut (t : Tid) (s : S) : Prop where
  nd : (s.run ++ s.susp).Nodup
  nr : t ∉ s.run
  ns : t ∉ s.susp
  run : ∀ u ∈ s.run, (s.c.th u).susp = false ∧ (s.c.th u).exited = false ∧ u < s.c.n
  susp : ∀ u ∈ s.susp, (s.c.th u).susp = true ∧ (s.c.th u).exited = false ∧ u < s.c.n
  live : ∀ u < s.c.n, u ≠ t → (s.c.th u).exited = false → u ∈ s.run ∨ u ∈ s.susp
  sorted : s.susp.Pairwise fun a b => later (s.c.th a).runAt (s.c.th b).runAt = false

/-- The two queues: no thread is in a queue twice or in both, the flags are right, every
thread that has not exited is in a queue, and the suspended queue is ordered. -/
structure Wf (s : S) : Prop where
  nd : (s.run ++ s.susp).Nodup
  run : ∀ u ∈ s.run, (s.c.th u).susp = false ∧ (s.c.th u).exited = false ∧ u < s.c.n
  susp : ∀ u ∈ s.susp, (s.c.th u).susp = true ∧ (s.c.th u).exited = false ∧ u < s.c.n
  live : ∀ u < s.c.n, (s.c.th u).exited = false → u ∈ s.run ∨ u ∈ s.susp
  sorted : s.susp.Pairwise fun a b => later (s.c.th a).runAt (s.c.th b).runAt = false

/-- The active thread is the first runnable one; there is none after the root has been left. -/
def Act (s : S) : Prop := s.c.active = s.run.head?

theorem later_trans {a b c : TV} (h1 : later a b = false) (h2 : later b c = false) :
    later a c = false := by
  unfold later at *
  simp only [Bool.or_eq_false_iff, Bool.and_eq_false_iff, decide_eq_false_iff_not] at *
  omega

theorem later_asymm {a b : TV} (h : later a b = true) : later b a = false := by
  unfold later at *
  simp only [Bool.or_eq_false_iff, Bool.and_eq_false_iff, decide_eq_false_iff_not,
    Bool.or_eq_true, Bool.and_eq_true, decide_eq_true_eq] at *
  omega

theorem set_th (c : Com) (t : Tid) (x : Th) (u : Tid) :
    (c.set t x).th u = if u = t then x else c.th u := rfl

theorem Wf.mem_of_susp {s : S} (w : Wf s) {t : Tid} (ht : t < s.c.n) (hs : (s.c.th t).susp = true)
    (he : (s.c.th t).exited = false) : t ∈ s.susp := by
  rcases w.live t ht he with h | h
  · have := (w.run t h).1
    rw [hs] at this; cases this
  · exact h

theorem Wf.mem_of_run {s : S} (w : Wf s) {t : Tid} (ht : t < s.c.n) (hs : (s.c.th t).susp = false)
    (he : (s.c.th t).exited = false) : t ∈ s.run := by
  rcases w.live t ht he with h | h
  · exact h
  · have := (w.susp t h).1
    rw [hs] at this; cases this

theorem nodup_erase {l₁ l₂ : List Tid} {t : Tid} (nd : (l₁ ++ l₂).Nodup) :
    (l₁.erase t ++ l₂).Nodup ∧ (l₁ ++ l₂.erase t).Nodup := by
  rw [List.nodup_append] at nd
  obtain ⟨a, b, c⟩ := nd
  constructor
  · rw [List.nodup_append]
    exact ⟨a.erase t, b, fun x hx y hy => c x (List.mem_of_mem_erase hx) y hy⟩
  · rw [List.nodup_append]
    exact ⟨a, b.erase t, fun x hx y hy => c x hx y (List.mem_of_mem_erase hy)⟩

/-- Without its member `t` -/
theorem Wf.unlink {s : S} (w : Wf s) {t : Tid} (h : t ∈ s.run ∨ t ∈ s.susp) :
    WfBut t (s.unlink t) := by
  have ndr : s.run.Nodup := (List.nodup_append.1 w.nd).1
  have nds : s.susp.Nodup := (List.nodup_append.1 w.nd).2.1
  have dis := (List.nodup_append.1 w.nd).2.2
  by_cases hs : (s.c.th t).susp = true
  · have ht : t ∈ s.susp := by
      rcases h with h | h
      · have := (w.run t h).1
        rw [hs] at this; cases this
      · exact h
    have e : s.unlink t = { s with susp := s.susp.erase t } := by unfold S.unlink; rw [if_pos hs]
    rw [e]
    exact { nd := (nodup_erase w.nd).2
            nr := fun hr => dis t hr t ht rfl
            ns := nds.not_mem_erase
            run := w.run
            susp := fun u hu => w.susp u (List.mem_of_mem_erase hu)
            live := fun u hu hne he => (w.live u hu he).imp id fun h => (List.mem_erase_of_ne hne).2 h
            sorted := w.sorted.sublist List.erase_sublist }
  · have ht : t ∈ s.run := by
      rcases h with h | h
      · exact h
      · exact absurd (w.susp t h).1 hs
    have e : s.unlink t = { s with run := s.run.erase t } := by unfold S.unlink; rw [if_neg hs]
    rw [e]
    exact { nd := (nodup_erase w.nd).1
            nr := ndr.not_mem_erase
            ns := fun hr => dis t ht t hr rfl
            run := fun u hu => w.run u (List.mem_of_mem_erase hu)
            susp := w.susp
            live := fun u hu hne he => (w.live u hu he).imp (fun h => (List.mem_erase_of_ne hne).2 h) id
            sorted := w.sorted }

theorem WfBut.set {t : Tid} {s : S} (w : WfBut t s) (x : Th) : WfBut t (s.set t x) := by
  have e : ∀ u, u ≠ t → ((s.set t x).c.th u) = s.c.th u := fun u hu => by
    show (if u = t then x else s.c.th u) = _
    rw [if_neg hu]
  have er : ∀ u ∈ s.run, u ≠ t := fun u hu h => w.nr (h ▸ hu)
  have es : ∀ u ∈ s.susp, u ≠ t := fun u hu h => w.ns (h ▸ hu)
  exact { nd := w.nd, nr := w.nr, ns := w.ns
          run := fun u hu => by rw [e u (er u hu)]; exact w.run u hu
          susp := fun u hu => by rw [e u (es u hu)]; exact w.susp u hu
          live := fun u hu hne he => by rw [e u hne] at he; exact w.live u hu hne he
          sorted := by
            refine w.sorted.imp_of_mem fun {a b} ha hb h => ?_
            rw [e a (es a ha), e b (es b hb)]; exact h }

theorem WfBut.exited {t : Tid} {s : S} (w : WfBut t s) (h : (s.c.th t).exited = true) : Wf s :=
  { nd := w.nd, run := w.run, susp := w.susp, sorted := w.sorted
    live := fun u hu he => w.live u hu (fun e => by rw [e, h] at he; cases he) he }

theorem mem_insertBy (c : Com) (t : Tid) : ∀ (l : List Tid) (u : Tid),
    u ∈ insertBy c t l ↔ u = t ∨ u ∈ l
  | [], u => by simp [insertBy]
  | q :: l, u => by
    unfold insertBy
    split
    · simp only [List.mem_cons, mem_insertBy c t l u]; tauto
    · simp only [List.mem_cons]

theorem perm_insertBy (c : Com) (t : Tid) : ∀ (l : List Tid), (insertBy c t l).Perm (t :: l)
  | [] => List.Perm.refl _
  | q :: l => by
    unfold insertBy
    split
    · exact ((perm_insertBy c t l).cons q).trans (List.Perm.swap t q l)
    · exact List.Perm.refl _

theorem sorted_insertBy (c : Com) (t : Tid) : ∀ (l : List Tid),
    l.Pairwise (fun a b => later (c.th a).runAt (c.th b).runAt = false) →
    (insertBy c t l).Pairwise (fun a b => later (c.th a).runAt (c.th b).runAt = false)
  | [], _ => List.pairwise_singleton _ _
  | q :: l, h => by
    obtain ⟨h1, h2⟩ := List.pairwise_cons.1 h
    unfold insertBy
    split
    · next hl =>
      refine List.pairwise_cons.2 ⟨fun u hu => ?_, sorted_insertBy c t l h2⟩
      rcases (mem_insertBy c t l u).1 hu with rfl | hu
      · exact later_asymm hl
      · exact h1 u hu
    · next hl =>
      have hl' : later (c.th t).runAt (c.th q).runAt = false := by simpa using hl
      refine List.pairwise_cons.2 ⟨fun u hu => ?_, h⟩
      rcases List.mem_cons.1 hu with rfl | hu
      · exact hl'
      · exact later_trans hl' (h1 u hu)

/-- Back in a queue -/
theorem WfBut.enqueue {t : Tid} {s s' : S} (w : WfBut t s) (hn : t < s.c.n)
    (h : s.enqueue t = .ok s') : Wf s' := by
  unfold S.enqueue at h
  have nd := List.nodup_append.1 w.nd
  by_cases he : (s.c.th t).exited = true
  · rw [if_pos he] at h; cases h
  · have he' : (s.c.th t).exited = false := by simpa using he
    rw [if_neg he] at h
    by_cases hs : (s.c.th t).susp = true
    · rw [if_pos hs] at h
      cases h
      refine { nd := ?_, run := w.run, susp := ?_, live := ?_, sorted := sorted_insertBy _ _ _ w.sorted }
      · show (s.run ++ insertBy s.c t s.susp).Nodup
        have : (s.run ++ insertBy s.c t s.susp).Perm (s.run ++ t :: s.susp) :=
          (perm_insertBy s.c t s.susp).append_left _
        rw [this.nodup_iff, List.nodup_append]
        refine ⟨nd.1, List.nodup_cons.2 ⟨w.ns, nd.2.1⟩, fun a ha b hb => ?_⟩
        rcases List.mem_cons.1 hb with rfl | hb
        · exact fun e => w.nr (e ▸ ha)
        · exact nd.2.2 a ha b hb
      · intro u hu
        rcases (mem_insertBy _ _ _ _).1 hu with rfl | hu
        · exact ⟨hs, he', hn⟩
        · exact w.susp u hu
      · intro u hu hue
        by_cases hut : u = t
        · exact .inr ((mem_insertBy _ _ _ _).2 (.inl hut))
        · exact (w.live u hu hut hue).imp id fun h => (mem_insertBy _ _ _ _).2 (.inr h)
    · rw [if_neg hs] at h
      cases h
      refine { nd := ?_, run := ?_, susp := w.susp, live := ?_, sorted := w.sorted }
      · show ((s.run ++ [t]) ++ s.susp).Nodup
        have : ((s.run ++ [t]) ++ s.susp).Perm (t :: (s.run ++ s.susp)) := by
          rw [List.append_assoc]
          exact List.perm_middle
        rw [this.nodup_iff]
        exact List.nodup_cons.2 ⟨by simp [w.nr, w.ns], w.nd⟩
      · intro u hu
        rcases List.mem_append.1 hu with hu | hu
        · exact w.run u hu
        · have : u = t := by simpa using hu
          subst this
          exact ⟨by simpa using hs, he', hn⟩
      · intro u hu hue
        by_cases hut : u = t
        · exact .inl (by simp [hut])
        · exact (w.live u hu hut hue).imp (fun h => by simp [h]) id

/-- Nothing that the queues depend on is changed. -/
structure SameQ (c c' : Com) : Prop where
  n : c'.n = c.n
  susp : ∀ t, (c'.th t).susp = (c.th t).susp
  exited : ∀ t, (c'.th t).exited = (c.th t).exited
  runAt : ∀ t, (c'.th t).runAt = (c.th t).runAt

theorem Wf.same {s : S} (w : Wf s) {c : Com} (h : SameQ s.c c) : Wf { s with c := c } :=
  { nd := w.nd
    run := fun u hu => by rw [h.n, h.susp, h.exited]; exact w.run u hu
    susp := fun u hu => by rw [h.n, h.susp, h.exited]; exact w.susp u hu
    live := fun u hu he => w.live u (h.n ▸ hu) (h.exited u ▸ he)
    sorted := by
      have := w.sorted
      simp only [h.runAt]
      exact this }

theorem SameQ.set {c : Com} {t : Tid} {x : Th} (h1 : x.susp = (c.th t).susp)
    (h2 : x.exited = (c.th t).exited) (h3 : x.runAt = (c.th t).runAt) : SameQ c (c.set t x) where
  n := rfl
  susp u := by rw [set_th]; split <;> simp_all
  exited u := by rw [set_th]; split <;> simp_all
  runAt u := by rw [set_th]; split <;> simp_all

theorem SameQ.refl (c : Com) : SameQ c c := ⟨rfl, fun _ => rfl, fun _ => rfl, fun _ => rfl⟩

theorem SameQ.trans {a b c : Com} (h : SameQ a b) (h' : SameQ b c) : SameQ a c :=
  ⟨h'.n.trans h.n, fun t => (h'.susp t).trans (h.susp t), fun t => (h'.exited t).trans (h.exited t),
    fun t => (h'.runAt t).trans (h.runAt t)⟩

theorem SameQ.resume (c : Com) (t : Tid) : SameQ c (c.resume t) := by
  have h : SameQ c (c.set t { c.th t with val := .null, call := .none }) := SameQ.set rfl rfl rfl
  unfold Com.resume
  split
  · exact .refl c
  · exact ⟨h.n, h.susp, h.exited, h.runAt⟩
  · exact ⟨h.n, h.susp, h.exited, h.runAt⟩

/-- The result of waking a suspended thread. -/
def S.woken (s : S) (t : Tid) : S :=
  { c := s.c.set t { s.c.th t with susp := false }, run := s.run ++ [t], susp := s.susp.erase t }

theorem wake_ok {s : S} {t : Tid} (w : Wf s) (h : t ∈ s.susp) : s.wake t = .ok (s.woken t) := by
  obtain ⟨h1, h2, -⟩ := w.susp t h
  unfold S.wake S.unlink S.enqueue S.set
  simp [h1, h2, set_th, S.woken]

theorem woken_wf {s : S} {t : Tid} (w : Wf s) (h : t ∈ s.susp) : Wf (s.woken t) := by
  obtain ⟨h1, h2, h3⟩ := w.susp t h
  have hw := wake_ok w h
  unfold S.wake at hw
  rw [if_neg (by simp [h1, h2])] at hw
  exact ((w.unlink (.inr h)).set _).enqueue (by unfold S.unlink S.set; rw [if_pos h1]; exact h3) hw

/-- Wake some of the suspended threads: what remains, and what is added to the runnable
queue, in the order of the suspended queue. -/
theorem wakeAll_ok (test : Com → Tid → Bool)
    : ∀ (l : List Tid) (l₀ : List Tid) (s : S) (b : Bool), Wf s → s.susp = l₀ ++ l →
      ∃ s' ws b', S.wakeAll test l s b = .ok (s', b') ∧ Wf s' ∧ s'.run = s.run ++ ws ∧
        ws.Sublist l ∧ b' = (b || !ws.isEmpty) ∧ s'.c.n = s.c.n ∧ s'.c.now = s.c.now ∧
        s'.c.active = s.c.active ∧ s'.c.log = s.c.log ∧ s'.c.closed = s.c.closed ∧
        (b' = b → ws = [] → s' = s)
  | [], l₀, s, b, w, h =>
    ⟨s, [], b, rfl, w, by simp, by simp, by simp, rfl, rfl, rfl, rfl, rfl, fun _ _ => rfl⟩
  | t :: l, l₀, s, b, w, h => by
    unfold S.wakeAll
    split
    · have ht : t ∈ s.susp := by rw [h]; simp
      have nd : s.susp.Nodup := (List.nodup_append.1 w.nd).2.1
      have hs : (s.woken t).susp = l₀ ++ l := by
        show s.susp.erase t = _
        rw [h] at nd ⊢
        have : t ∉ l₀ := fun hx => (List.nodup_append.1 nd).2.2 t hx t (by simp) rfl
        rw [List.erase_append_right _ this]; simp
      obtain ⟨s', ws, b', h1, h2, h3, h4, h5, h6, h7, h8, h9, h10, -⟩ :=
        wakeAll_ok test l l₀ (s.woken t) true (woken_wf w ht) hs
      refine ⟨s', t :: ws, b', ?_, h2, ?_, h4.cons_cons t, by simpa using h5, h6, h7, h8, h9, h10,
        fun _ h => by cases h⟩
      · rw [wake_ok w ht]; exact h1
      · rw [h3]; simp [S.woken]
    · obtain ⟨s', ws, b', h1, h2, h3, h4, h5⟩ := wakeAll_ok test l (l₀ ++ [t]) s b w (by rw [h]; simp)
      exact ⟨s', ws, b', h1, h2, h3, h4.cons t, h5⟩

/-- The result of `thread_invoke` when a thread can run. -/
theorem invoke_run {s : S} {t : Tid} {l : List Tid} (h : s.run = t :: l) (k : Nat) (z : Wk) :
    s.invoke (k + 1) z = .ok { s with c := ({ s.c with active := some t } : Com).resume t } := by
  rw [S.invoke.eq_def]
  simp only [h]

theorem invoke_none {s : S} (h : s.run = []) (h' : s.susp = []) (k : Nat) (z : Wk) :
    s.invoke (k + 1) z = .ok s.close := by
  unfold S.invoke
  rw [h, h']

theorem invoke_sleep {s : S} {b : Tid} {l : List Tid} (h : s.run = []) (h' : s.susp = b :: l)
    (k : Nat) (z : Wk) :
    s.invoke (k + 1) z = (S.wakeAll Com.pollTrue (b :: l) s false).andThen fun r =>
        if r.2 then S.invoke k r.1 z
        else (sleepUntil s.c (s.c.th b).runAt z).andThen fun c =>
          (S.wake { s with c := c } b).andThen fun s => S.invoke k s z := by
  rw [S.invoke.eq_def]
  simp only [h, h']

theorem close_inv (s : S) : Wf s.close ∧ Act s.close :=
  ⟨{ nd := List.nodup_nil
     run := fun _ h => by cases h
     susp := fun _ h => by cases h
     live := fun _ _ h => by cases h
     sorted := List.Pairwise.nil }, rfl⟩

theorem run_inv {s : S} {t : Tid} {l : List Tid} (w : Wf s) (h : s.run = t :: l) :
    Wf { s with c := ({ s.c with active := some t } : Com).resume t } ∧
    Act { s with c := ({ s.c with active := some t } : Com).resume t } := by
  refine ⟨w.same ?_, ?_⟩
  · exact (SameQ.trans (b := { s.c with active := some t }) ⟨rfl, fun _ => rfl, fun _ => rfl, fun _ => rfl⟩
      (SameQ.resume _ t))
  · show (({ s.c with active := some t } : Com).resume t).active = s.run.head?
    rw [h]
    unfold Com.resume
    split <;> rfl

theorem sleep_cases (c : Com) (r : TV) (z : Wk) : sleepUntil c r z = .bad .ub ∨
    ∃ c', sleepUntil c r z = .ok c' ∧ SameQ c c' ∧ c'.th = c.th ∧ c'.active = c.active ∧
      c'.log = c.log := by
  unfold sleepUntil
  split
  · split
    · exact .inl rfl
    · exact .inr ⟨_, rfl, ⟨rfl, fun _ => rfl, fun _ => rfl, fun _ => rfl⟩, rfl, rfl, rfl⟩
  · exact .inr ⟨_, rfl, .refl c, rfl, rfl, rfl⟩

/-- `thread_invoke` either runs the first runnable thread, or leaves the root, or wakes a
thread and runs it, or the sum in `rep_sleep_for` overflows. -/
theorem invoke_cases {s : S} (w : Wf s) (z : Wk) :
    (∃ s', s.invoke rounds z = .ok s' ∧ Wf s' ∧ Act s') ∨
    (s.invoke rounds z = .bad .ub ∧ s.run = [] ∧
      ∃ b l, s.susp = b :: l ∧ sleepUntil s.c (s.c.th b).runAt z = .bad .ub) := by
  cases hr : s.run with
  | cons t l => exact .inl ⟨_, invoke_run hr 1 z, run_inv w hr⟩
  | nil =>
    cases hs : s.susp with
    | nil => exact .inl ⟨_, invoke_none hr hs 1 z, close_inv s⟩
    | cons b l =>
      have e := invoke_sleep hr hs 1 z
      obtain ⟨s', ws, b', h1, h2, h3, h4, h5, -, -, -, -, -, h6⟩ :=
        wakeAll_ok Com.pollTrue (b :: l) [] s false w (by rw [hs]; rfl)
      rw [show rounds = 1 + 1 from rfl, e, h1]
      show (∃ s'', (if b' = true then S.invoke 1 s' z else
          (sleepUntil s.c (s.c.th b).runAt z).andThen fun c =>
          (S.wake { s with c := c } b).andThen fun s => S.invoke 1 s z) = Res.ok s'' ∧ _) ∨
        (if b' = true then S.invoke 1 s' z else
          (sleepUntil s.c (s.c.th b).runAt z).andThen fun c =>
          (S.wake { s with c := c } b).andThen fun s => S.invoke 1 s z) = _ ∧ _
      by_cases hb : b' = true
      · rw [if_pos hb]
        have hws : ws ≠ [] := by rintro rfl; simp [hb] at h5
        obtain ⟨x, xs, rfl⟩ := List.exists_cons_of_ne_nil hws
        have hx : s'.run = x :: xs := by rw [h3, hr]; rfl
        exact .inl ⟨_, invoke_run hx 0 z, run_inv h2 hx⟩
      · rw [if_neg hb]
        rcases sleep_cases s.c (s.c.th b).runAt z with hsl | ⟨c, hsl, hc⟩
        · rw [hsl]
          exact .inr ⟨rfl, rfl, b, l, rfl, hsl⟩
        · rw [hsl]
          refine .inl ?_
          have w' : Wf { s with c := c } := w.same hc.1
          have hb' : b ∈ ({ s with c := c } : S).susp := by
            show b ∈ s.susp; rw [hs]; simp
          show ∃ s'', (S.wake { s with c := c } b).andThen _ = _ ∧ _
          rw [wake_ok w' hb']
          have hx : (S.woken { s with c := c } b).run = b :: [] := by
            show s.run ++ [b] = _; rw [hr]; rfl
          exact ⟨_, invoke_run hx 0 z, run_inv (woken_wf w' hb') hx⟩

end Rep.Threads
