import Verif.Threads.Steps
import Mathlib.Data.List.Range
import Mathlib.Data.List.Perm.Subperm

/-
The scheduler with linked lists does the same as the one with lists.
-/

namespace Rep.Threads

/-- The links represent the queues; a thread that is in no queue has no links. -/
structure Rep (p : P) (s : S) : Prop where
  c : p.c = s.c
  run : Links p.next p.pred s.run p.head p.tail
  susp : Links p.next p.pred s.susp p.shead p.stail
  free : ∀ t, t ∉ s.run → t ∉ s.susp → p.next t = none ∧ p.pred t = none

/-- Related results. -/
def RR {α β : Type} (R : α → β → Prop) : Res α → Res β → Prop
  | .ok a, .ok b => R a b
  | .bad x, .bad y => x = y
  | _, _ => False

theorem RR.andThen {α β γ δ : Type} {R : α → β → Prop} {R' : γ → δ → Prop} {r : Res α} {r' : Res β}
    {f : α → Res γ} {g : β → Res δ} (h : RR R r r') (hf : ∀ a b, R a b → RR R' (f a) (g b)) :
    RR R' (r.andThen f) (r'.andThen g) := by
  cases r <;> cases r' <;> first | exact hf _ _ h | exact h | exact h.elim

theorem setNextOf_eq (p : P) (q v) : p.setNextOf q v = { p with next := upd p.next q v } := by
  cases q <;> rfl
theorem setPredOf_eq (p : P) (q v) : p.setPredOf q v = { p with pred := upd p.pred q v } := by
  cases q <;> rfl
theorem setNext_eq (p : P) (t v) : p.setNext t v = { p with next := upd p.next (some t) v } := rfl
theorem setPred_eq (p : P) (t v) : p.setPred t v = { p with pred := upd p.pred (some t) v } := rfl

theorem Rep.setC {p : P} {s : S} (r : Rep p s) (c : Com) : Rep { p with c := c } { s with c := c } :=
  ⟨rfl, r.run, r.susp, r.free⟩

theorem Rep.set {p : P} {s : S} (r : Rep p s) (t : Tid) (x : Th) : Rep (p.set t x) (s.set t x) :=
  ⟨by show p.c.set t x = s.c.set t x; rw [r.c], r.run, r.susp, r.free⟩

/-- The value of `unlink` in terms of `upd`. -/
theorem unlink_eq {p : P} {t : Tid} (h1 : p.next t ≠ some t) (h2 : p.pred t ≠ some t) :
    p.unlink t =
      if (p.c.th t).susp then
        { p with
          next := upd (upd p.next (p.pred t) (p.next t)) (some t) none
          pred := upd (upd p.pred (p.next t) (p.pred t)) (some t) none
          shead := if p.shead = some t then p.next t else p.shead
          stail := if p.stail = some t then p.pred t else p.stail }
      else
        { p with
          next := upd (upd p.next (p.pred t) (p.next t)) (some t) none
          pred := upd (upd p.pred (p.next t) (p.pred t)) (some t) none
          head := if p.head = some t then p.next t else p.head
          tail := if p.tail = some t then p.pred t else p.tail } := by
  have e1 : upd p.next (p.pred t) (p.next t) t = p.next t := upd_ne _ _ _ _ h2
  have e2 : upd p.pred (p.next t) (p.pred t) t = p.pred t := upd_ne _ _ _ _ h1
  unfold P.unlink
  simp only [setNextOf_eq, setPredOf_eq, setNext_eq, setPred_eq, e1]
  by_cases hs : (p.c.th t).susp = true
  · simp only [hs, if_true]
    by_cases ha : p.shead = some t <;> by_cases hb : p.stail = some t <;> simp [ha, hb, e1, e2]
  · simp only [hs]
    by_cases ha : p.head = some t <;> by_cases hb : p.tail = some t <;> simp [ha, hb, e1, e2]

theorem Rep.mid_ne {nx pr : Tid → Option Tid} {l : List Tid} {hd tl : Option Tid} {t : Tid}
    (h : Links nx pr l hd tl) (nd : l.Nodup) (ht : t ∈ l) : nx t ≠ some t ∧ pr t ≠ some t ∧
      (∀ u, nx t = some u → u ∈ l) ∧ (∀ u, pr t = some u → u ∈ l) := by
  obtain ⟨l₁, l₂, rfl, t1, t2, -⟩ := split_of_mem ht nd
  obtain ⟨m1, m2, -, -⟩ := h.mid
  rw [m1, m2]
  refine ⟨fun e => t2 (List.mem_of_mem_head? (by rw [e]; rfl)), fun e => t1 (List.mem_of_getLast? e),
    fun u e => ?_, fun u e => ?_⟩
  · have := List.mem_of_mem_head? (l := l₂) (a := u) (by rw [e]; rfl)
    simp [this]
  · have := List.mem_of_getLast? e
    simp [this]

theorem Rep.unlink {p : P} {s : S} (r : Rep p s) (nd : (s.run ++ s.susp).Nodup) {t : Tid}
    (hs : (s.c.th t).susp = true → t ∈ s.susp) (hr : (s.c.th t).susp = false → t ∈ s.run) :
    Rep (p.unlink t) (s.unlink t) := by
  have ndr : s.run.Nodup := (List.nodup_append.1 nd).1
  have nds : s.susp.Nodup := (List.nodup_append.1 nd).2.1
  have dis := (List.nodup_append.1 nd).2.2
  by_cases h : (s.c.th t).susp = true
  · have ht := hs h
    obtain ⟨n1, n2, n3, n4⟩ := Rep.mid_ne r.susp nds ht
    rw [unlink_eq n1 n2, r.c, if_pos h]
    have ha : ∀ u, u ∉ s.susp →
        upd (upd p.next (p.pred t) (p.next t)) (some t) none u = p.next u ∧
        upd (upd p.pred (p.next t) (p.pred t)) (some t) none u = p.pred u := by
      intro u hu
      have ut : some t ≠ some u := by intro e; cases e; exact hu ht
      exact ⟨by rw [upd_ne _ _ _ _ ut, upd_ne _ _ _ _ (fun e => hu (n4 u e))],
        by rw [upd_ne _ _ _ _ ut, upd_ne _ _ _ _ (fun e => hu (n3 u e))]⟩
    have e : s.unlink t = { s with susp := s.susp.erase t } := by unfold S.unlink; rw [if_pos h]
    rw [e]
    obtain ⟨l₁, l₂, hl, t1, t2, he⟩ := split_of_mem ht nds
    refine ⟨rfl, r.run.congr fun u hu => ha u fun hx => dis u hu u hx rfl, ?_, ?_⟩
    · show Links _ _ (s.susp.erase t) _ _
      rw [he]
      have := r.susp
      rw [hl] at this nds
      exact this.unlink nds
    · intro u hu hv
      by_cases hut : u = t
      · subst hut
        exact ⟨upd_self _ _ _, upd_self _ _ _⟩
      · have hv' : u ∉ s.susp := fun hx => hv ((List.mem_erase_of_ne hut).2 hx)
        rw [show (_ : P).next u = _ from (ha u hv').1, show (_ : P).pred u = _ from (ha u hv').2]
        exact r.free u hu hv'
  · have h' : (s.c.th t).susp = false := by simpa using h
    have ht := hr h'
    obtain ⟨n1, n2, n3, n4⟩ := Rep.mid_ne r.run ndr ht
    rw [unlink_eq n1 n2, r.c, if_neg h]
    have ha : ∀ u, u ∉ s.run →
        upd (upd p.next (p.pred t) (p.next t)) (some t) none u = p.next u ∧
        upd (upd p.pred (p.next t) (p.pred t)) (some t) none u = p.pred u := by
      intro u hu
      have ut : some t ≠ some u := by intro e; cases e; exact hu ht
      exact ⟨by rw [upd_ne _ _ _ _ ut, upd_ne _ _ _ _ (fun e => hu (n4 u e))],
        by rw [upd_ne _ _ _ _ ut, upd_ne _ _ _ _ (fun e => hu (n3 u e))]⟩
    have e : s.unlink t = { s with run := s.run.erase t } := by unfold S.unlink; rw [if_neg h]
    rw [e]
    obtain ⟨l₁, l₂, hl, t1, t2, he⟩ := split_of_mem ht ndr
    refine ⟨rfl, ?_, r.susp.congr fun u hu => ha u fun hx => dis u hx u hu rfl, ?_⟩
    · show Links _ _ (s.run.erase t) _ _
      rw [he]
      have := r.run
      rw [hl] at this ndr
      exact this.unlink ndr
    · intro u hv hu
      by_cases hut : u = t
      · subst hut
        exact ⟨upd_self _ _ _, upd_self _ _ _⟩
      · have hv' : u ∉ s.run := fun hx => hv ((List.mem_erase_of_ne hut).2 hx)
        rw [show (_ : P).next u = _ from (ha u hv').1, show (_ : P).pred u = _ from (ha u hv').2]
        exact r.free u hv' hu

/-- The search in the suspended queue finds the place. -/
theorem findPtr_eq (p : P) (c : Com) (hc : p.c = c) (t : Tid) : ∀ (l : List Tid) (b : Option Tid) (k : Nat),
    Seg p.next p.pred b l none → l.length ≤ k →
    ∃ l₁ l₂, l = l₁ ++ l₂ ∧ p.findPtr t k l.head? = .ok l₂.head? ∧ insertBy c t l = l₁ ++ t :: l₂
  | [], _, k, _, _ => ⟨[], [], rfl, by cases k <;> rfl, rfl⟩
  | q :: l, b, k, h, hk => by
    cases k with
    | zero => simp at hk
    | succ k =>
      obtain ⟨-, h2, h3⟩ := h
      by_cases hl : later (c.th t).runAt (c.th q).runAt = true
      · obtain ⟨l₁, l₂, e1, e2, e3⟩ := findPtr_eq p c hc t l (some q) k h3 (by simpa using hk)
        refine ⟨q :: l₁, l₂, by rw [e1]; rfl, ?_, ?_⟩
        · show (if later (p.c.th t).runAt (p.c.th q).runAt = true then p.findPtr t k (p.next q) else _) = _
          rw [hc, if_pos hl, h2, Option.or_none, e2]
        · unfold insertBy
          rw [if_pos hl, e3]; rfl
      · refine ⟨[], q :: l, rfl, ?_, ?_⟩
        · show (if later (p.c.th t).runAt (p.c.th q).runAt = true then p.findPtr t k (p.next q) else _) = _
          rw [hc, if_neg hl]; rfl
        · unfold insertBy
          rw [if_neg hl]; rfl

theorem length_le {l : List Tid} {n : Nat} (nd : l.Nodup) (h : ∀ u ∈ l, u < n) : l.length ≤ n := by
  have : l.Subperm (List.range n) := nd.subperm fun u hu => List.mem_range.2 (h u hu)
  simpa using this.length_le

theorem Rep.enqueue {p : P} {s : S} (r : Rep p s) {t : Tid} (w : WfBut t s) :
    RR Rep (p.enqueue t) (s.enqueue t) := by
  have ndr : s.run.Nodup := (List.nodup_append.1 w.nd).1
  have nds : s.susp.Nodup := (List.nodup_append.1 w.nd).2.1
  obtain ⟨fn, fp⟩ := r.free t w.nr w.ns
  unfold P.enqueue S.enqueue
  rw [r.c]
  split
  · rfl
  · split
    · obtain ⟨l₁, l₂, e1, e2, e3⟩ := findPtr_eq p s.c r.c t s.susp none s.c.n r.susp.seg
        (length_le nds fun u hu => (w.susp u hu).2.2)
      rw [r.susp.head, e2]
      show Rep _ _
      rw [e3]
      cases l₂ with
      | nil =>
        rw [List.append_nil] at e1
        subst e1
        have e : p.addSusp t = { p with
            next := upd p.next p.stail (some t), pred := upd p.pred (some t) p.stail
            shead := if p.shead = none then some t else p.shead, stail := some t } := by
          unfold P.addSusp
          simp only [setPred_eq, setNextOf_eq, upd_self]
          by_cases h : p.shead = none <;> simp [h]
        show Rep (p.addSusp t) _
        rw [e]
        have ha : ∀ u, u ∉ s.susp → u ≠ t → upd p.next p.stail (some t) u = p.next u ∧
            upd p.pred (some t) p.stail u = p.pred u := by
          intro u hu hut
          refine ⟨upd_ne _ _ _ _ fun e => hu ?_, upd_ne _ _ _ _ fun e => hut (by cases e; rfl)⟩
          rw [r.susp.tail] at e
          exact List.mem_of_getLast? e
        refine ⟨r.c, ?_, r.susp.addTail nds w.ns fn, ?_⟩
        · refine r.run.congr fun u hu => ha u ?_ fun e => w.nr (e ▸ hu)
          exact fun hx => (List.nodup_append.1 w.nd).2.2 u hu u hx rfl
        · intro u hu hv
          have hv' : u ∉ s.susp ++ [t] := hv
          rw [List.mem_append, not_or] at hv'
          have hut : u ≠ t := fun e => hv'.2 (by simp [e])
          obtain ⟨a1, a2⟩ := ha u hv'.1 hut
          rw [show (_ : P).next u = _ from a1, show (_ : P).pred u = _ from a2]
          exact r.free u hu hv'.1
      | cons q l₂ =>
        have hq : q ∈ s.susp := by rw [e1]; simp
        have hqt : q ≠ t := fun e => w.ns (e ▸ hq)
        have e0 : upd p.pred (some t) (p.pred q) q = p.pred q :=
          upd_ne _ _ _ _ fun e => hqt (by cases e; rfl)
        have e : p.addBefore t q = { p with
            next := upd (upd p.next (p.pred q) (some t)) (some t) (some q)
            pred := upd (upd p.pred (some t) (p.pred q)) (some q) (some t)
            shead := if p.pred q = none then some t else p.shead } := by
          unfold P.addBefore
          simp only [setPred_eq, setNextOf_eq, setNext_eq, e0]
          by_cases h : p.pred q = none
          · simp [h, upd_none]
          · simp [h]
        show Rep (p.addBefore t q) _
        rw [e]
        have n4 := (Rep.mid_ne r.susp nds hq).2.2.2
        have ha : ∀ u, u ∉ s.susp → u ≠ t →
            upd (upd p.next (p.pred q) (some t)) (some t) (some q) u = p.next u ∧
            upd (upd p.pred (some t) (p.pred q)) (some q) (some t) u = p.pred u := by
          intro u hu hut
          have ut : some t ≠ some u := fun e => hut (by cases e; rfl)
          have uq : some q ≠ some u := fun e => hu (by cases e; exact hq)
          exact ⟨by rw [upd_ne _ _ _ _ ut, upd_ne _ _ _ _ (fun e => hu (n4 u e))],
            by rw [upd_ne _ _ _ _ uq, upd_ne _ _ _ _ ut]⟩
        refine ⟨r.c, ?_, ?_, ?_⟩
        · refine r.run.congr fun u hu => ha u ?_ fun e => w.nr (e ▸ hu)
          exact fun hx => (List.nodup_append.1 w.nd).2.2 u hu u hx rfl
        · have hl := r.susp
          have nds' := nds
          have wns := w.ns
          rw [e1] at hl nds' wns
          exact hl.addBefore nds' wns
        · intro u hu hv
          have hv' : u ∉ l₁ ++ t :: q :: l₂ := hv
          have hut : u ≠ t := fun e => hv' (by simp [e])
          have hus : u ∉ s.susp := by
            rw [e1]
            intro hx
            apply hv'
            simp only [List.mem_append, List.mem_cons] at hx ⊢
            tauto
          obtain ⟨a1, a2⟩ := ha u hus hut
          rw [show (_ : P).next u = _ from a1, show (_ : P).pred u = _ from a2]
          exact r.free u hu hus
    · have e : p.addRun t = { p with
          next := upd p.next p.tail (some t), pred := upd p.pred (some t) p.tail
          head := if p.head = none then some t else p.head, tail := some t } := by
        unfold P.addRun
        simp only [setPred_eq, setNextOf_eq, upd_self]
        by_cases h : p.head = none <;> simp [h]
      show Rep (p.addRun t) _
      rw [e]
      have ha : ∀ u, u ∉ s.run → u ≠ t → upd p.next p.tail (some t) u = p.next u ∧
          upd p.pred (some t) p.tail u = p.pred u := by
        intro u hu hut
        refine ⟨upd_ne _ _ _ _ fun e => hu ?_, upd_ne _ _ _ _ fun e => hut (by cases e; rfl)⟩
        rw [r.run.tail] at e
        exact List.mem_of_getLast? e
      refine ⟨r.c, r.run.addTail ndr w.nr fn, ?_, ?_⟩
      · refine r.susp.congr fun u hu => ha u ?_ fun e => w.ns (e ▸ hu)
        exact fun hx => (List.nodup_append.1 w.nd).2.2 u hx u hu rfl
      · intro u hv hu
        have hv' : u ∉ s.run ++ [t] := hv
        rw [List.mem_append, not_or] at hv'
        have hut : u ≠ t := fun e => hv'.2 (by simp [e])
        obtain ⟨a1, a2⟩ := ha u hv'.1 hut
        rw [show (_ : P).next u = _ from a1, show (_ : P).pred u = _ from a2]
        exact r.free u hv'.1 hu

theorem Rep.wake {p : P} {s : S} (r : Rep p s) (w : Wf s) {t : Tid}
    (hn : (s.c.th t).susp = true → (s.c.th t).exited = false → t ∈ s.susp) :
    RR Rep (p.wake t) (s.wake t) := by
  unfold P.wake S.wake
  rw [r.c]
  split
  · rfl
  · next h =>
    have hs : (s.c.th t).susp = true := by
      rcases hx : (s.c.th t).susp with _ | _
      · exact absurd (.inl hx) h
      · rfl
    have he : (s.c.th t).exited = false := by
      rcases hx : (s.c.th t).exited with _ | _
      · rfl
      · exact absurd (.inr hx) h
    have ht := hn hs he
    have ru := r.unlink w.nd (t := t) (fun _ => ht) (fun h => by rw [hs] at h; cases h)
    show RR Rep (((p.unlink t).set t { (p.unlink t).c.th t with susp := false }).enqueue t) _
    rw [ru.c, unlink_c]
    exact (ru.set t _).enqueue ((w.unlink (.inr ht)).set _)

/-- The links represent the queues, and these are well formed. -/
def RW (p : P) (s : S) : Prop := Rep p s ∧ Wf s

theorem RR.wf {r : Res P} {r' : Res S} (h : RR Rep r r') (hw : ∀ s, r' = .ok s → Wf s) :
    RR RW r r' := by
  cases r <;> cases r' <;> first | exact ⟨h, hw _ rfl⟩ | exact h

theorem wakeLoop_sim (test : Com → Tid → Bool) : ∀ (l l₀ : List Tid) (k : Nat) (p : P) (s : S) (b : Bool),
    RW p s → s.susp = l₀ ++ l → l.length ≤ k →
    RR (fun x y => RW x.1 y.1 ∧ x.2 = y.2) (P.wakeLoop test k l.head? p b) (S.wakeAll test l s b)
  | [], l₀, k, p, s, b, h, hl, hk => by
    cases k <;> exact ⟨h, rfl⟩
  | t :: l, l₀, k, p, s, b, h, hl, hk => by
    cases k with
    | zero => simp at hk
    | succ k =>
      have nds : s.susp.Nodup := (List.nodup_append.1 h.2.nd).2.1
      have ht : t ∈ s.susp := by rw [hl]; simp
      have hsl := h.1.susp
      rw [hl] at hsl
      obtain ⟨-, m2, -, -⟩ := hsl.mid
      show RR _ (if test p.c t = true then (p.wake t).andThen fun p' => P.wakeLoop test k (p.next t) p' true
        else P.wakeLoop test k (p.next t) p b) (if test s.c t = true then _ else _)
      rw [h.1.c, m2]
      split
      · have hw := h.1.wake h.2 (t := t) (fun _ _ => ht)
        rw [wake_ok h.2 ht] at hw ⊢
        have hs : (s.woken t).susp = l₀ ++ l := by
          show s.susp.erase t = _
          rw [hl] at nds ⊢
          have : t ∉ l₀ := fun hx => (List.nodup_append.1 nds).2.2 t hx t (by simp) rfl
          rw [List.erase_append_right _ this]; simp
        cases hps : p.wake t with
        | bad x => rw [hps] at hw; exact hw.elim
        | ok p' =>
          rw [hps] at hw
          exact wakeLoop_sim test l l₀ k p' (s.woken t) true ⟨hw, woken_wf h.2 ht⟩ hs (by simpa using hk)
      · exact wakeLoop_sim test l (l₀ ++ [t]) k p s b h (by rw [hl]; simp) (by simpa using hk)

/-- The dynamic root has been left. -/
structure Left (p : P) (s : S) : Prop where
  c : p.c = s.c
  active : s.c.active = none
  head : p.head = none
  tail : p.tail = none
  shead : p.shead = none
  stail : p.stail = none
  run : s.run = []
  susp : s.susp = []

theorem close_sim {p : P} {s : S} (h : p.c = s.c) : Left p.close s.close := by
  refine ⟨?_, rfl, rfl, rfl, rfl, rfl, rfl, rfl⟩
  unfold P.close S.close
  rw [h]

/-- The relation between the two schedulers. -/
def RS (p : P) (s : S) : Prop := (RW p s ∧ Act s) ∨ Left p s

theorem invoke_head {p : P} {t : Tid} (h : p.head = some t) (k : Nat) (z : Wk) :
    p.invoke (k + 1) z = .ok { p with c := ({ p.c with active := some t } : Com).resume t } := by
  rw [P.invoke.eq_def]
  simp only [h]

theorem invoke_nil {p : P} (h : p.head = none) (h' : p.shead = none) (k : Nat) (z : Wk) :
    p.invoke (k + 1) z = .ok p.close := by
  unfold P.invoke
  rw [h, h']

theorem invoke_slp {p : P} {b : Tid} (h : p.head = none) (h' : p.shead = some b)
    (k : Nat) (z : Wk) :
    p.invoke (k + 1) z = (P.wakeLoop Com.pollTrue p.c.n (some b) p false).andThen fun r =>
        if r.2 then P.invoke k r.1 z
        else (sleepUntil p.c (p.c.th b).runAt z).andThen fun c =>
          (P.wake { p with c := c } b).andThen fun p => P.invoke k p z := by
  rw [P.invoke.eq_def]
  simp only [h, h']

theorem susp_le {s : S} (w : Wf s) : s.susp.length ≤ s.c.n :=
  length_le (List.nodup_append.1 w.nd).2.1 fun u hu => (w.susp u hu).2.2

theorem invoke_sim : ∀ (k : Nat) {p : P} {s : S} (z : Wk), RW p s →
    RR RS (p.invoke k z) (s.invoke k z)
  | 0, _, _, _, _ => rfl
  | k + 1, p, s, z, h => by
    cases hr : s.run with
    | cons t l =>
      have hh : p.head = some t := by rw [h.1.run.head, hr]; rfl
      rw [invoke_run hr, invoke_head hh, h.1.c]
      have := run_inv h.2 hr
      exact .inl ⟨⟨h.1.setC _, this.1⟩, this.2⟩
    | nil =>
      have hh : p.head = none := by rw [h.1.run.head, hr]; rfl
      cases hs : s.susp with
      | nil =>
        have hh' : p.shead = none := by rw [h.1.susp.head, hs]; rfl
        rw [invoke_none hr hs, invoke_nil hh hh']
        exact .inr (close_sim h.1.c)
      | cons b l =>
        have hh' : p.shead = some b := by rw [h.1.susp.head, hs]; rfl
        rw [invoke_sleep hr hs, invoke_slp hh hh', h.1.c]
        have hl := susp_le h.2
        rw [hs] at hl
        refine (wakeLoop_sim Com.pollTrue (b :: l) [] s.c.n p s false h (by rw [hs]; rfl) hl).andThen ?_
        rintro ⟨p', x⟩ ⟨s', y⟩ ⟨h1, h2⟩
        have h2' : x = y := h2
        subst h2'
        show RR RS (if x = true then P.invoke k p' z else _) (if x = true then S.invoke k s' z else _)
        split
        · exact invoke_sim k z h1
        · rcases sleep_cases s.c (s.c.th b).runAt z with hsl | ⟨c, hsl, hc⟩
          · rw [hsl]; rfl
          · rw [hsl]
            have w' : Wf { s with c := c } := h.2.same hc.1
            have hb : b ∈ ({ s with c := c } : S).susp := by show b ∈ s.susp; rw [hs]; simp
            have hw := (h.1.setC c).wake w' (t := b) (fun _ _ => hb)
            show RR RS ((P.wake { p with c := c } b).andThen fun p => P.invoke k p z)
              ((S.wake { s with c := c } b).andThen fun s => S.invoke k s z)
            refine RR.andThen (hw.wf fun s' hs' => ?_) fun p' s' hps => invoke_sim k z hps
            rw [wake_ok w' hb] at hs'
            cases hs'
            exact woken_wf w' hb

theorem Rep.pc {p : P} {s : S} (h : Rep p s) : p.c = s.c := h.c

theorem delete_sim {p : P} {s : S} (r : Rep p s) (nd : (s.run ++ s.susp).Nodup) {t : Tid} (z : Wk)
    (hm : ((s.c.th t).susp = true → t ∈ s.susp) ∧ ((s.c.th t).susp = false → t ∈ s.run))
    (w : WfBut t (s.unlink t)) (a : Act s) : RR RS (p.delete t z) (s.delete t z) := by
  have ru := r.unlink nd hm.1 hm.2
  have w' : Wf ((s.unlink t).set t { (s.unlink t).c.th t with exited := true }) :=
    (w.set _).exited (by simp [S.set, set_th])
  unfold P.delete S.delete
  show RR RS (if p.head = some t then P.invoke rounds
      ((p.unlink t).set t { (p.unlink t).c.th t with exited := true }) z else .ok _)
    (if s.run.head? = some t then S.invoke rounds
      ((s.unlink t).set t { (s.unlink t).c.th t with exited := true }) z else .ok _)
  rw [r.run.head, ru.c]
  split
  · exact invoke_sim _ z ⟨ru.set t _, w'⟩
  · next h =>
    refine .inl ⟨⟨ru.set t _, w'⟩, ?_⟩
    show (s.unlink t).c.active = (s.unlink t).run.head?
    rw [unlink_c, unlink_run_head h, a]

theorem suspend_sim {p : P} {s : S} (r : Rep p s) {t : Tid} (w : Wf s) (a : Act s) (hn : t < s.c.n)
    (ms : Nat) (poll : Option Tid) (call : Call) (z : Wk) :
    RR RS (p.suspend t ms poll call z) (s.suspend t ms poll call z) := by
  unfold P.suspend S.suspend
  rw [r.c]
  split
  · rfl
  · next h =>
    have h1 : (s.c.th t).susp = false := by
      rcases hx : (s.c.th t).susp with _ | _
      · rfl
      · exact absurd (.inl hx) h
    have h2 : (s.c.th t).exited = false := by
      rcases hx : (s.c.th t).exited with _ | _
      · rfl
      · exact absurd (.inr hx) h
    have ht := w.mem_of_run hn h1 h2
    have ru := r.unlink w.nd (t := t) (fun h => by rw [h1] at h; cases h) (fun _ => ht)
    have wb := (w.unlink (.inl ht)).set { (s.unlink t).c.th t with
      susp := true, runAt := wakeTime (s.unlink t).c.now ms, poll := poll, val := .nil, call := call }
    have hth : (((s.unlink t).set t { (s.unlink t).c.th t with
      susp := true, runAt := wakeTime (s.unlink t).c.now ms, poll := poll, val := .nil,
      call := call }).c.th t).exited = false := by
      simp [S.set, set_th, unlink_c, h2]
    have hts : (((s.unlink t).set t { (s.unlink t).c.th t with
      susp := true, runAt := wakeTime (s.unlink t).c.now ms, poll := poll, val := .nil,
      call := call }).c.th t).susp = true := by
      simp [S.set, set_th]
    have e := enqueue_susp hth hts
    have w' := wb.enqueue (by simp only [S.set, Com.set, unlink_c]; exact hn) e
    have hq := (ru.set t { (s.unlink t).c.th t with
      susp := true, runAt := wakeTime (s.unlink t).c.now ms, poll := poll, val := .nil,
      call := call }).enqueue wb
    show RR RS (((p.unlink t).set t { (p.unlink t).c.th t with
      susp := true, runAt := wakeTime (p.unlink t).c.now ms, poll := poll, val := .nil,
      call := call }).enqueue t |>.andThen _) (Res.andThen (S.enqueue _ t) _)
    rw [ru.c]
    rw [e] at hq ⊢
    cases hp : ((p.unlink t).set t { (s.unlink t).c.th t with
      susp := true, runAt := wakeTime (s.unlink t).c.now ms, poll := poll, val := .nil,
      call := call }).enqueue t with
    | bad x => rw [hp] at hq; exact hq.elim
    | ok p' =>
      rw [hp] at hq
      show RR RS (if p'.c.active = some t then p'.invoke rounds z else .ok p') (if _ then _ else _)
      rw [(hq : Rep p' _).c]
      split
      · exact invoke_sim _ z ⟨hq, w'⟩
      · next hne =>
        refine .inl ⟨⟨hq, w'⟩, ?_⟩
        show (s.unlink t).c.active = (s.unlink t).run.head?
        rw [unlink_c, unlink_run_head, a]
        intro hh
        apply hne
        show (s.unlink t).c.active = some t
        rw [unlink_c, a, hh]

/-- The head of a queue goes to its end. -/
theorem rotate_sim {p : P} {s : S} (r : Rep p s) (nd : (s.run ++ s.susp).Nodup) :
    Rep p.rotate s.rotate := by
  have ndr : s.run.Nodup := (List.nodup_append.1 nd).1
  have dis := (List.nodup_append.1 nd).2.2
  have hrun := r.run
  cases hr : s.run with
  | nil =>
    have hh : p.head = none := by rw [r.run.head, hr]; rfl
    have e1 : p.rotate = p := by unfold P.rotate; rw [hh]
    have e2 : s.rotate = s := by unfold S.rotate; rw [hr]
    rw [e1, e2]; exact r
  | cons t l =>
    have hh : p.head = some t := by rw [r.run.head, hr]; rfl
    have e2 : s.rotate = { s with run := l ++ [t] } := by unfold S.rotate; rw [hr]
    rw [hr] at hrun ndr dis
    obtain ⟨g1, g2, g3⟩ := hrun.seg
    have g2' : p.next t = l.head? := by rw [g2]; simp
    have tl : t ∉ l := (List.nodup_cons.1 ndr).1
    cases l with
    | nil =>
      have e1 : p.rotate = p := by unfold P.rotate; rw [hh]; simp [g2']
      rw [e1, e2]
      have : s = { s with run := [t] } := by
        cases s; simp at hr; subst hr; rfl
      show Rep p { s with run := [t] }
      rw [← this]; exact r
    | cons x l =>
      have hxt : some x ≠ some t := fun e => tl (by cases e; simp)
      have htl : p.tail ≠ some t := by
        rw [hrun.tail]
        intro e
        have : t ∈ x :: l := List.mem_of_getLast? (l := x :: l) (by simpa [List.getLast?_cons] using e)
        exact tl this
      have e1 : p.rotate = { p with
          next := upd (upd p.next (some t) none) p.tail (some t)
          pred := upd (upd p.pred (some x) none) (some t) p.tail
          head := some x, tail := some t } := by
        unfold P.rotate
        rw [hh]
        have hn : ¬ p.next t = none := by rw [g2']; simp
        simp only [hn, if_false, setNextOf_eq, setPredOf_eq, setNext_eq, setPred_eq, g1, upd_none, g2',
          List.head?_cons, upd_self, reduceCtorEq]
      rw [e1, e2]
      have h0 : p.next t = some x := g2'
      have ul := Links.unlink (l₁ := []) hrun ndr
      simp only [List.nil_append, g1, h0, upd_none, hrun.head, List.head?_cons, if_true] at ul
      have hlt : ¬ (t :: x :: l).getLast? = some t := by rw [← hrun.tail]; exact htl
      rw [hrun.tail, if_neg hlt] at ul
      have ndx : (x :: l).Nodup := (List.nodup_cons.1 ndr).2
      have at' := ul.addTail ndx tl (upd_self _ _ _)
      have hlast : (t :: x :: l).getLast? = (x :: l).getLast? := by simp [List.getLast?_cons]
      have key : ∀ u, upd (upd p.next (some t) none) p.tail (some t) u =
            upd (upd p.next (some t) none) (t :: x :: l).getLast? (some t) u ∧
          upd (upd p.pred (some x) none) (some t) p.tail u =
            upd (upd (upd p.pred (some x) none) (some t) none) (some t) (t :: x :: l).getLast? u := by
        intro u
        rw [hrun.tail]
        refine ⟨rfl, ?_⟩
        by_cases hu : u = t
        · rw [hu, upd_self, upd_self]
        · have hu' : some t ≠ some u := fun e => hu (by cases e; rfl)
          rw [upd_ne _ _ _ _ hu', upd_ne _ _ _ _ hu', upd_ne _ _ _ _ hu']
      have hout : ∀ u, u ∉ t :: x :: l → upd (upd p.next (some t) none) p.tail (some t) u = p.next u ∧
          upd (upd p.pred (some x) none) (some t) p.tail u = p.pred u := by
        intro u hu
        have ut : some t ≠ some u := fun e => hu (by cases e; simp)
        have ux : some x ≠ some u := fun e => hu (by cases e; simp)
        have ul : p.tail ≠ some u := fun e => hu (List.mem_of_getLast? (by rw [← hrun.tail, e]))
        exact ⟨by rw [upd_ne _ _ _ _ ul, upd_ne _ _ _ _ ut], by rw [upd_ne _ _ _ _ ut, upd_ne _ _ _ _ ux]⟩
      refine ⟨r.c, ?_, ?_, ?_⟩
      · have := at'.congr fun u _ => key u
        simpa using this
      · exact r.susp.congr fun u hu => hout u fun hx => dis u hx u hu rfl
      · intro u hu hv
        have hu' : u ∉ t :: x :: l := by
          intro hx; apply hu
          show u ∈ (x :: l) ++ [t]
          simp only [List.mem_append, List.mem_cons, List.mem_nil_iff, or_false] at hx ⊢
          tauto
        rw [show (_ : P).next u = _ from (hout u hu').1, show (_ : P).pred u = _ from (hout u hu').2]
        exact r.free u (by rw [hr]; exact hu') hv

theorem yield_sim {p : P} {s : S} (r : Rep p s) (w : Wf s) (a : Act s) (z : Wk) :
    RR RS (p.yield z) (s.yield z) := by
  have rr := rotate_sim r w.nd
  have ww := rotate_wf w
  have hsim := wakeLoop_sim Com.due s.rotate.susp [] s.rotate.c.n p.rotate s.rotate false ⟨rr, ww⟩ rfl
    (susp_le ww)
  obtain ⟨s', ws, b', h1, h2, h3, h4, h5, h6, h7, h8, h9, -⟩ :=
    wakeAll_ok Com.due s.rotate.susp [] s.rotate false ww rfl
  unfold P.yield S.yield
  show RR RS (Res.andThen (P.wakeLoop Com.due p.rotate.c.n p.rotate.shead p.rotate false) _)
    (Res.andThen (S.wakeAll Com.due s.rotate.susp s.rotate false) _)
  rw [rr.c, rr.susp.head]
  rw [h1] at hsim ⊢
  cases hp : P.wakeLoop Com.due s.rotate.c.n s.rotate.susp.head? p.rotate false with
  | bad x => rw [hp] at hsim; exact hsim.elim
  | ok x =>
    obtain ⟨p', y⟩ := x
    rw [hp] at hsim
    have hrw : RW p' s' := hsim.1
    show RR RS (if p'.head = p.head then .ok p' else p'.invoke rounds z)
      (if s'.run.head? = s.run.head? then .ok s' else s'.invoke rounds z)
    rw [hrw.1.run.head, r.run.head]
    split
    · next h =>
      refine .inl ⟨hrw, ?_⟩
      show s'.c.active = s'.run.head?
      rw [h8, (rotate_c s).1, a, h]
    · exact invoke_sim _ z hrw

theorem make_sim {p : P} {s : S} (r : Rep p s) (w : Wf s) (a : Act s) (susp : Bool) (hne : s.run ≠ []) :
    RR RS (p.make susp) (s.make susp) := by
  have nr : s.c.n ∉ s.run := fun h => Nat.lt_irrefl _ (w.run _ h).2.2
  have ns : s.c.n ∉ s.susp := fun h => Nat.lt_irrefl _ (w.susp _ h).2.2
  rcases good_make (m := False) w a susp hne with ⟨s', e, w', a'⟩ | ⟨-, h⟩ | h
  · have hq : RR Rep (p.make susp) (s.make susp) := by
      unfold P.make S.make
      rw [r.c]
      exact Rep.enqueue (r.setC _) (make_but w susp)
    rw [e] at hq ⊢
    cases hp : p.make susp with
    | bad x => rw [hp] at hq; exact hq.elim
    | ok p' => rw [hp] at hq; exact .inl ⟨⟨hq, w'⟩, a'⟩
  · exact h.elim
  · unfold S.make S.enqueue at h
    simp [Com.set] at h
    cases susp <;> simp at h

/-- Each step of the scheduler with links is a step of the scheduler with lists. -/
theorem step_sim {p : P} {s : S} (h : RS p s) (e : Ev) : RR RS (p.step e) (s.step e) := by
  rcases h with ⟨⟨r, w⟩, a⟩ | hl
  · unfold P.step S.step
    rw [r.c]
    cases hact : s.c.active with
    | none => exact .inl ⟨⟨r, w⟩, a⟩
    | some x =>
      obtain ⟨hne, hh⟩ := head_ne a hact
      have hx : x ∈ s.run := by
        cases hr : s.run with
        | nil => exact absurd hr hne
        | cons y l => rw [hr] at hh; cases hh; simp
      obtain ⟨x1, x2, x3⟩ := w.run x hx
      show RR RS (p.stepBy x e) (s.stepBy x e)
      cases e with
      | tick now =>
        show RS { p with c := { p.c with now := now } } { s with c := { s.c with now := now } }
        rw [r.c]
        exact .inl ⟨⟨r.setC _, w.same ⟨rfl, fun _ => rfl, fun _ => rfl, fun _ => rfl⟩⟩, a⟩
      | make susp => exact make_sim r w a susp hne
      | yield z => exact yield_sim r w a z
      | suspend t ms z =>
        show RR RS (if p.c.threadp t = true then p.fsuspend x t ms z else .ok p)
          (if s.c.threadp t = true then s.fsuspend x t ms z else .ok s)
        rw [r.c]
        split
        · next ht =>
          obtain ⟨ht1, ht2⟩ := (threadp_iff _ _).1 ht
          unfold P.fsuspend S.fsuspend
          rw [r.c]
          split
          · exact suspend_sim (r.setC _) (w.same (sameq_log s.c _)) a ht1 _ _ _ z
          · refine (suspend_sim r w a ht1 _ _ _ z).andThen fun p' s' hps => ?_
            show RS (p'.set t _) (s'.set t _)
            rcases hps with ⟨⟨r', w'⟩, a'⟩ | hl
            · rw [r'.c]
              exact .inl ⟨⟨r'.set _ _, w'.same (SameQ.set rfl rfl rfl)⟩, a'⟩
            · rw [hl.c]
              exact .inr ⟨by show p'.c.set _ _ = s'.c.set _ _; rw [hl.c], hl.active, hl.head, hl.tail,
                hl.shead, hl.stail, hl.run, hl.susp⟩
        · exact .inl ⟨⟨r, w⟩, a⟩
      | join t ms d z =>
        show RR RS (if t < p.c.n ∧ t ≠ x then _ else .ok p) (if t < s.c.n ∧ t ≠ x then _ else .ok s)
        rw [r.c]
        split
        · exact suspend_sim (r.setC _) (w.same (sameq_log s.c _)) a x3 _ _ _ z
        · exact .inl ⟨⟨r, w⟩, a⟩
      | wake t =>
        show RR RS (if p.c.threadp t = true then p.fwake t else .ok p)
          (if s.c.threadp t = true then s.fwake t else .ok s)
        rw [r.c]
        split
        · next ht =>
          obtain ⟨ht1, ht2⟩ := (threadp_iff _ _).1 ht
          have w1 : Wf (({ s with c := s.c.logged (.woken t) } : S).set t { s.c.th t with val := .t }) :=
            w.same ((sameq_log s.c (.woken t)).trans (SameQ.set rfl rfl rfl))
          have hq : RR Rep (p.fwake t) (s.fwake t) := by
            unfold P.fwake S.fwake
            rw [r.c]
            refine Rep.wake ((r.setC _).set _ _) w1 (fun h1 h2 => ?_)
            refine w.mem_of_susp ht1 ?_ ht2
            simpa [S.set, set_th] using h1
          rcases good_step w a (.wake t) with ⟨s', e', w', a'⟩ | ⟨e', -⟩ | e'
          · have e2 : s.fwake t = .ok s' := by
              unfold S.step at e'
              rw [hact] at e'
              change (if s.c.threadp t = true then s.fwake t else .ok s) = _ at e'
              rwa [if_pos ht] at e'
            rw [e2] at hq ⊢
            cases hp : p.fwake t with
            | bad y => rw [hp] at hq; exact hq.elim
            | ok p' => rw [hp] at hq; exact .inl ⟨⟨hq, w'⟩, a'⟩
          · have e2 : s.fwake t = .bad .abort := by
              unfold S.step at e'
              rw [hact] at e'
              change (if s.c.threadp t = true then s.fwake t else .ok s) = _ at e'
              rwa [if_pos ht] at e'
            rw [e2] at hq ⊢
            cases hp : p.fwake t with
            | bad y => rw [hp] at hq; exact hq
            | ok p' => rw [hp] at hq; exact hq.elim
          · have e2 : s.fwake t = .bad .ub := by
              unfold S.step at e'
              rw [hact] at e'
              change (if s.c.threadp t = true then s.fwake t else .ok s) = _ at e'
              rwa [if_pos ht] at e'
            rw [e2] at hq ⊢
            cases hp : p.fwake t with
            | bad y => rw [hp] at hq; exact hq
            | ok p' => rw [hp] at hq; exact hq.elim
        · exact .inl ⟨⟨r, w⟩, a⟩
      | delete t z =>
        show RR RS (if p.c.threadp t = true then P.delete _ t z else .ok p)
          (if s.c.threadp t = true then S.delete _ t z else .ok s)
        rw [r.c]
        split
        · next ht =>
          obtain ⟨ht1, ht2⟩ := (threadp_iff _ _).1 ht
          have w' := w.same (sameq_log s.c (.gone t))
          exact delete_sim (r.setC (s.c.logged (.gone t))) w.nd z
            ⟨fun h => w.mem_of_susp ht1 h ht2, fun h => w.mem_of_run ht1 h ht2⟩
            (w'.unlink (w.live t ht1 ht2)) a
        · exact .inl ⟨⟨r, w⟩, a⟩
      | exit v z =>
        show RR RS (if x = 0 then P.delete _ x z else P.delete _ x z)
          (if x = 0 then S.delete _ x z else S.delete _ x z)
        rw [r.c]
        split
        · have w' := w.same (sameq_log s.c (.gone x))
          exact delete_sim (r.setC (s.c.logged (.gone x))) w.nd z
            ⟨fun h => Bool.noConfusion (x1.symm.trans h), fun _ => hx⟩ (w'.unlink (.inl hx)) a
        · have w' := w.same (sameq_log s.c (.done x v))
          have hset := (w'.unlink (.inl hx)).set { s.c.th x with exited := true, val := v }
          refine delete_sim ((r.setC _).set _ _) w.nd z ⟨fun h => ?_, fun _ => hx⟩
            (by rw [exit_unlink x1]; exact hset) a
          have : (s.c.th x).susp = true := by simpa [S.set, set_th] using h
          rw [x1] at this; cases this
      | throw => exact .inr (close_sim r.c)
  · unfold P.step S.step
    rw [hl.c, hl.active]
    exact .inr hl

/-- Each history of the scheduler with links is one of the scheduler with lists. -/
theorem runs_sim : ∀ (es : List Ev) {p : P} {s : S}, RS p s → RR RS (p.run es) (s.runs es)
  | [], _, _, h => h
  | e :: es, _, _, h => (step_sim h e).andThen fun _ _ h' => runs_sim es h'

theorem init_sim (t : TV) : RS { c := { now := t } } { c := { now := t } } := by
  refine .inl ⟨⟨⟨rfl, ⟨rfl, rfl, ⟨rfl, rfl, trivial⟩⟩, ⟨rfl, rfl, trivial⟩, fun _ _ _ => ⟨rfl, rfl⟩⟩,
    (init_inv t).1⟩, (init_inv t).2⟩

end Rep.Threads
