import Verif.Proc.Frame
import Mathlib.Tactic.Tauto

/-
The states of the objects and of their children agree, in every state that can be reached.
-/

namespace Rep.Proc

open Spec

/-- One object and its child: `st`, `ex`, `sy` the object's state, exit status and whether
`call-process` waits for it; `al`, `rp` the child; `nw`, `en` what the observations say. -/
structure PS (st : Status) (ex : Option Nat) (sy al : Bool) (rp : Option Report) (nw : Status)
    (en : Option Nat) : Prop where
  now : st = nw
  alive : al = true → st.active = true ∧ en = none ∧ ∀ x, rp ≠ some (.exited x)
  gone : al = false → st.active = true → ∃ x, rp = some (.exited x) ∧ en = some x
  dead : st = .dead → rp = none ∧ sy = false ∧ ex = en

def psOf (s : St) (p : Id) : Prop :=
  PS (s.obj p).status (s.obj p).exit (s.obj p).sync (s.kid p).alive (s.kid p).report (now s.log p)
    (ended s.log p)

def counted (s : St) (p : Id) : Bool := (s.obj p).status.active && !(s.obj p).sync

structure InvS (s : St) : Prop where
  ps : ∀ p, psOf s p
  act : ∀ p, (s.obj p).status.active = true → p ∈ s.ids
  fresh : ∀ p ∈ s.ids, p < s.fresh
  nodup : s.ids.Nodup
  flag : ∀ p, (s.kid p).report ≠ none → (s.obj p).sync = false → s.got = true ∨ s.reaping = true
  count : s.count = (s.ids.countP (counted s) : Int)

theorem countP_change {f g : Id → Bool} {p : Id} (h : ∀ q, q ≠ p → f q = g q) :
    ∀ {l : List Id}, l.Nodup → p ∈ l →
      (l.countP g : Int) = l.countP f + (if g p then 1 else 0) - (if f p then 1 else 0)
  | [], _, hm => by cases hm
  | a :: l, hn, hm => by
    obtain ⟨ha, hl⟩ := List.nodup_cons.mp hn
    by_cases hap : a = p
    · subst hap
      have : l.countP f = l.countP g := List.countP_congr fun x hx => by
        rw [h x (fun hh => ha (hh ▸ hx))]
      rw [List.countP_cons, List.countP_cons, this]
      cases f a <;> cases g a <;> simp <;> omega
    · have hm' : p ∈ l := by
        rcases List.mem_cons.mp hm with hh | hh
        · exact absurd hh.symm hap
        · exact hh
      have ih := countP_change h hl hm'
      rw [List.countP_cons, List.countP_cons, h a hap]
      push_cast
      omega

/-- Only the object `p` is touched. -/
theorem InvS.one {s s' : St} {p : Id} (h : InvS s) (hp : p ∈ s.ids) (hi : s'.ids = s.ids)
    (hf : s'.fresh = s.fresh)
    (ho : ∀ q, q ≠ p → (s'.obj q).status = (s.obj q).status ∧ (s'.obj q).exit = (s.obj q).exit ∧
      (s'.obj q).sync = (s.obj q).sync ∧ (s'.kid q).alive = (s.kid q).alive ∧
      (s'.kid q).report = (s.kid q).report ∧ now s'.log q = now s.log q ∧
      ended s'.log q = ended s.log q)
    (hps : psOf s' p)
    (hgot : (s.got = true ∨ s.reaping = true) → (s'.got = true ∨ s'.reaping = true))
    (hflag : (s'.kid p).report ≠ none → (s'.obj p).sync = false → s'.got = true ∨ s'.reaping = true)
    (hcount : s'.count = s.count + (if counted s' p then 1 else 0) - (if counted s p then 1 else 0)) :
    InvS s' := by
  refine ⟨?_, ?_, ?_, ?_, ?_, ?_⟩
  · intro q
    by_cases hq : q = p
    · rw [hq]; exact hps
    · obtain ⟨h1, h2, h3, h4, h5, h6, h7⟩ := ho q hq
      have := h.ps q
      unfold psOf at this ⊢
      rw [h1, h2, h3, h4, h5, h6, h7]
      exact this
  · intro q hq
    rw [hi]
    by_cases hqp : q = p
    · rw [hqp]; exact hp
    · exact h.act q (by rw [← (ho q hqp).1]; exact hq)
  · rw [hi, hf]; exact h.fresh
  · rw [hi]; exact h.nodup
  · intro q hr hs
    by_cases hqp : q = p
    · rw [hqp] at hr hs; exact hflag hr hs
    · obtain ⟨h1, h2, h3, h4, h5, h6, h7⟩ := ho q hqp
      exact hgot (h.flag q (h5 ▸ hr) (h3 ▸ hs))
  · rw [hi, hcount, h.count]
    rw [countP_change (f := counted s) (g := counted s') (p := p) ?_ h.nodup hp]
    intro q hq
    obtain ⟨h1, h2, h3, _⟩ := ho q hq
    unfold counted
    rw [h1, h3]

/-- Nothing of this is touched. -/
theorem InvS.same {s s' : St} (h : InvS s) (hi : s'.ids = s.ids)
    (hf : s'.fresh = s.fresh)
    (ho : ∀ q, (s'.obj q).status = (s.obj q).status ∧ (s'.obj q).exit = (s.obj q).exit ∧
      (s'.obj q).sync = (s.obj q).sync ∧ (s'.kid q).alive = (s.kid q).alive ∧
      (s'.kid q).report = (s.kid q).report ∧ now s'.log q = now s.log q ∧
      ended s'.log q = ended s.log q)
    (hgot : (s.got = true ∨ s.reaping = true) → (s'.got = true ∨ s'.reaping = true) ∨
      ∀ q, (s'.kid q).report ≠ none → (s'.obj q).sync = true)
    (hcount : s'.count = s.count) : InvS s' := by
  refine ⟨?_, ?_, ?_, ?_, ?_, ?_⟩
  · intro q
    obtain ⟨h1, h2, h3, h4, h5, h6, h7⟩ := ho q
    have := h.ps q
    unfold psOf at this ⊢
    rw [h1, h2, h3, h4, h5, h6, h7]
    exact this
  · intro q hq
    rw [hi]
    exact h.act q (by rw [← (ho q).1]; exact hq)
  · rw [hi, hf]; exact h.fresh
  · rw [hi]; exact h.nodup
  · intro q hr hs
    obtain ⟨h1, h2, h3, h4, h5, h6, h7⟩ := ho q
    rcases hgot (h.flag q (h5 ▸ hr) (h3 ▸ hs)) with h' | h'
    · exact h'
    · rw [h' q hr] at hs; cases hs
  · rw [hi, hcount, h.count]
    congr 1
    apply List.countP_congr
    intro q _
    obtain ⟨h1, h2, h3, _⟩ := ho q
    unfold counted
    rw [h1, h3]

theorem InvS.init : InvS init := by
  refine ⟨?_, ?_, ?_, ?_, ?_, ?_⟩
  · intro p
    refine ⟨rfl, fun h => ?_, fun _ h => ?_, fun _ => ⟨rfl, rfl, rfl⟩⟩
    · cases h
    · cases h
  · intro p h; cases h
  · intro p h; cases h
  · exact List.nodup_nil
  · intro p h; exact absurd rfl h
  · rfl

theorem live_iff {s : St} {p : Id} (h : s.live p = true) :
    p ∈ s.ids ∧ (s.kid p).alive = true ∧ (s.obj p).status.active = true := by
  simpa [St.live, and_assoc] using h

/-- Reading touches nothing of this. -/
theorem InvS.read {s : St} {p : Id} {e : Bool} (h : InvS s) : InvS (readFd s p e) :=
  h.same (by simp) (by simp) (fun q => by simp) (fun hg => Or.inl (by simpa using hg)) (by simp)

theorem InvS.queue {s : St} {p : Id} (h : InvS s) : InvS (queueNotify s p) :=
  h.same (by simp) (by simp) (fun q => by simp) (fun hg => Or.inl (by simpa using hg)) (by simp)

theorem active_cases {st : Status} : st.active = true ↔ st ≠ .dead := by cases st <;> simp [Status.active]

theorem InvS.dispatch {s s' : St} (h : InvS s) (hs : dispatch s = .ok s') : InvS s' := by
  unfold Rep.Proc.dispatch at hs
  split at hs
  · cases hs
  · rename_i p _
    cases hs
    refine h.same rfl rfl (fun q => ?_) (fun hg => Or.inl hg) rfl
    simp only [see_obj, setObj_obj, see_kid, setObj_kid, see_log, setObj_log, now, ended]
    split
    · rename_i hq; subst hq; simp
    · simp

theorem InvS.notify1 {s s' : St} {p : Id} (h : InvS s) (hs : notify1 s p = .ok s') : InvS s' := by
  unfold Rep.Proc.notify1 at hs
  split at hs
  · cases hs
  · split at hs
    · cases hs
    · cases hs
      refine h.same rfl rfl (fun q => ?_) (fun hg => Or.inl hg) rfl
      simp only [see_obj, setObj_obj, see_kid, setObj_kid, see_log, setObj_log, now, ended]
      split
      · rename_i hq; subst hq; simp
      · simp
    · rename_i r _ _
      cases hs
      refine h.same rfl rfl (fun q => ?_) (fun hg => Or.inl hg) rfl
      simp only [see_obj, setObj_obj, see_kid, setObj_kid, see_log, setObj_log, now, ended]
      split
      · rename_i hq; subst hq
        split
        · rename_i hq; subst hq; simp
        · simp
      · split
        · rename_i hq; subst hq; simp
        · simp

theorem InvS.reap {s s' : St} {p : Id} (h : InvS s) (hsy : (s.obj p).sync = false)
    (hs : reap s p = .ok s') : InvS s' := by
  unfold Rep.Proc.reap at hs
  split at hs
  · cases hs
  rename_i hg
  simp only [not_not] at hg
  obtain ⟨hrp, hc, hp⟩ := hg
  have hps := h.ps p
  split at hs
  · cases hs
  rename_i r hr
  have hact : (s.obj p).status.active = true := by
    rw [active_cases]; intro hd
    have := (hps.dead hd).1
    rw [hr] at this; cases this
  simp only [setKid_obj, hact, not_true, if_false] at hs
  split at hs
  · cases hs
    refine InvS.queue ?_
    refine h.one (p := p) hp rfl rfl ?_ ?_ (fun hg => hg) (fun hh => ?_) ?_
    · intro q hq
      simp [hq, now, ended, Ne.symm hq]
    · unfold psOf
      simp only [see_obj, setObj_obj, if_true, see_kid, setObj_kid, setKid_kid, see_log, setObj_log, setKid_log, now, ended]
      refine ⟨rfl, fun ha => ⟨rfl, (hps.alive ha).2.1, fun x hx => nomatch hx⟩, fun ha _ => ?_, fun hd => nomatch hd⟩
      obtain ⟨x, hx, _⟩ := hps.gone ha hact
      rw [hr] at hx; cases hx
    · simp at hh
    · have c1 : counted s p = true := by simp [counted, hact, hsy]
      rw [c1]
      simp [counted, hsy, Status.active]
  · rename_i st
    have hal : (s.kid p).alive = false := by
      cases ha : (s.kid p).alive with
      | false => rfl
      | true => exact absurd hr ((hps.alive ha).2.2 st)
    have hen : ended s.log p = some st := by
      obtain ⟨x, hx, hx'⟩ := hps.gone hal hact
      rw [hr] at hx; cases hx; exact hx'
    cases hs
    refine InvS.queue ?_
    refine h.one (p := p) hp (by simp) (by simp) ?_ ?_ ?_ (fun hh => ?_) ?_
    · intro q hq
      simp [hq, Ne.symm hq, now, ended]
    · unfold psOf
      simp only [see_obj, setObj_obj, if_true, see_kid, setObj_kid, see_log, setObj_log, now, ended,
        readOpen_status, readOpen_exit, readOpen_sync, readOpen_alive, readOpen_report, readOpen_ended,
        setKid_kid, setKid_log, hen, hsy, hal, setKid_obj]
      exact ⟨rfl, fun ha => (nomatch ha), fun _ ha => (nomatch ha), fun _ => ⟨rfl, rfl, rfl⟩⟩
    · intro _; right; simpa using hrp
    · exfalso; simp at hh
    · have c1 : counted s p = true := by simp [counted, hact, hsy]
      rw [c1]
      simp [counted, Status.active]

theorem countP_filter_of {f m : Id → Bool} : ∀ {l : List Id}, (∀ p ∈ l, f p = true → m p = true) →
    (l.filter m).countP f = l.countP f
  | [], _ => rfl
  | a :: l, h => by
    have ih := countP_filter_of (l := l) fun p hp => h p (List.mem_cons_of_mem _ hp)
    rw [List.countP_cons]
    cases hm : m a with
    | true => rw [List.filter_cons_of_pos hm, List.countP_cons, ih]
    | false =>
      rw [List.filter_cons_of_neg (by simp [hm]), ih]
      have : f a = false := by
        cases hf : f a with
        | false => rfl
        | true => have := h a List.mem_cons_self hf; rw [hm] at this; cases this
      simp [this]

theorem InvS.gc {s s' : St} {marked : Id → Bool} (h : InvS s)
    (hm : ∀ p ∈ s.ids, (s.obj p).status.active = true → marked p = true) (hs : sweep s marked = .ok s') :
    InvS s' := by
  have key : ∀ t : St, t.ids = s.ids.filter marked → t.fresh = s.fresh → t.kid = s.kid → t.log = s.log →
      t.got = s.got → t.reaping = s.reaping → t.count = s.count →
      (∀ q, (t.obj q).status = (s.obj q).status ∧ (t.obj q).exit = (s.obj q).exit ∧
        (t.obj q).sync = (s.obj q).sync) → InvS t := by
    intro t hi hf hk hl hg hr hc ho
    refine ⟨?_, ?_, ?_, ?_, ?_, ?_⟩
    · intro q
      have := h.ps q
      obtain ⟨h1, h2, h3⟩ := ho q
      unfold psOf at this ⊢
      rw [h1, h2, h3, hk, hl]; exact this
    · intro q hq
      rw [(ho q).1] at hq
      have := h.act q hq
      rw [hi, List.mem_filter]
      exact ⟨this, hm q this hq⟩
    · intro q hq
      rw [hi, List.mem_filter] at hq
      rw [hf]; exact h.fresh q hq.1
    · rw [hi]; exact h.nodup.filter _
    · intro q hq hs
      rw [hg, hr]
      exact h.flag q (by rw [← hk]; exact hq) (by rw [← (ho q).2.2]; exact hs)
    · rw [hc, h.count, hi]
      have : ∀ q, counted t q = counted s q := fun q => by
        unfold counted; rw [(ho q).1, (ho q).2.2]
      rw [show counted t = counted s from funext this]
      rw [countP_filter_of]
      intro q hq hc
      refine hm q hq ?_
      unfold counted at hc
      simp only [Bool.and_eq_true] at hc
      exact hc.1
  unfold sweep at hs
  split at hs
  · cases hs
    exact key _ rfl rfl rfl rfl rfl rfl rfl (fun q => ⟨rfl, rfl, rfl⟩)
  · split at hs
    · cases hs
    · cases hs
      exact key _ rfl rfl rfl rfl rfl rfl rfl (fun q => ⟨rfl, rfl, rfl⟩)
    · cases hs
      refine key _ rfl rfl rfl rfl rfl rfl rfl (fun q => ?_)
      simp only [setObj_obj]
      split
      · rename_i hq; subst hq; simp
      · simp

theorem InvS.step {s s' : St} {op : Op} (h : InvS s) (ha : Allowed s op) (hs : step s op = .ok s') :
    InvS s' := by
  cases op with
  | write p e b =>
    simp only [Rep.Proc.step] at hs
    split at hs
    · cases hs
      refine h.same rfl rfl (fun q => ?_) (fun hg => Or.inl hg) rfl
      simp only [see_obj, setKid_obj, see_kid, setKid_kid, see_log, setKid_log, now, ended]
      split
      · rename_i hq; subst hq; cases e <;> simp
      · simp
    · cases hs
  | halt p =>
    simp only [Rep.Proc.step] at hs
    split at hs
    · rename_i hl
      obtain ⟨h1, h2, h3⟩ := live_iff hl
      have hps := h.ps p
      cases hs
      refine h.one (p := p) h1 rfl rfl ?_ ?_ (fun _ => Or.inl rfl) (fun _ _ => Or.inl rfl) ?_
      · intro q hq; simp [hq]
      · unfold psOf
        simp only [setKid_obj, setKid_kid, if_true, setKid_log]
        refine ⟨hps.now, fun _ => ⟨h3, (hps.alive h2).2.1, fun x hx => nomatch hx⟩, ?_, ?_⟩
        · intro hf; rw [h2] at hf; cases hf
        · intro hd; rw [hd] at h3; cases h3
      · simp [counted]
    · cases hs
  | exit p st =>
    simp only [Rep.Proc.step] at hs
    split at hs
    · rename_i hl
      obtain ⟨h1, h2, h3⟩ := live_iff hl
      have hps := h.ps p
      cases hs
      refine h.one (p := p) h1 rfl rfl ?_ ?_ (fun _ => Or.inl rfl) (fun _ _ => Or.inl rfl) ?_
      · intro q hq; simp [hq, now, ended, Ne.symm hq]
      · unfold psOf
        simp only [see_obj, setKid_obj, see_kid, setKid_kid, if_true, see_log, setKid_log, now, ended]
        refine ⟨hps.now, (fun hf => nomatch hf), fun _ _ => ⟨st, rfl, rfl⟩, ?_⟩
        intro hd; rw [hd] at h3; cases h3
      · simp [counted]
    · cases hs
  | make =>
    simp only [Rep.Proc.step] at hs
    cases hs
    have hdead : (s.obj s.fresh).status.active = false := by
      cases hh : (s.obj s.fresh).status.active with
      | false => rfl
      | true => exact absurd (h.fresh _ (h.act _ hh)) (Nat.lt_irrefl _)
    have hnew : s.fresh ∉ s.ids := fun hh => absurd (h.fresh _ hh) (Nat.lt_irrefl _)
    refine ⟨h.ps, ?_, ?_, List.nodup_cons.mpr ⟨hnew, h.nodup⟩, h.flag, ?_⟩
    · intro p hp; exact List.mem_cons_of_mem _ (h.act p hp)
    · intro p hp
      rcases List.mem_cons.mp hp with hh | hh
      · rw [hh]; exact Nat.lt_succ_self _
      · exact Nat.lt_succ_of_lt (h.fresh p hh)
    · have e1 : counted { s with ids := s.fresh :: s.ids, fresh := s.fresh + 1 } = counted s := rfl
      show s.count = ((s.fresh :: s.ids).countP (counted { s with ids := s.fresh :: s.ids, fresh := s.fresh + 1 }) : Int)
      rw [e1, List.countP_cons]
      have : counted s s.fresh = false := by simp [counted, hdead]
      rw [this]; exact h.count
  | start p =>
    simp only [Rep.Proc.step] at hs
    split at hs
    · rename_i hg
      cases hs
      have hps := h.ps p
      refine h.one (p := p) hg.1 rfl rfl ?_ ?_ (fun hg => hg) (fun hh => ?_) ?_
      · intro q hq; simp [hq, now, ended, Ne.symm hq]
      · unfold psOf
        simp only [see_obj, setObj_obj, see_kid, setObj_kid, setKid_kid, if_true, see_log, setObj_log,
          setKid_log, now, ended]
        exact ⟨rfl, fun _ => ⟨rfl, rfl, fun x hx => nomatch hx⟩, (fun hf => nomatch hf), fun hd => nomatch hd⟩
      · simp at hh
      · simp [counted, hg.2, Status.active, (hps.dead hg.2).2.1]
    · cases hs
  | resume p =>
    simp only [Rep.Proc.step] at hs
    split at hs
    · rename_i hg
      cases hs
      have hps := h.ps p
      refine InvS.queue ?_
      have hact : (s.obj p).status.active = true := by rw [hg.2]; rfl
      split
      · rename_i hr
        refine h.one (p := p) hg.1 rfl rfl ?_ ?_ (fun hg => hg) (fun hh => ?_) ?_
        · intro q hq; simp [hq, now, ended, Ne.symm hq]
        · unfold psOf
          simp only [see_obj, setObj_obj, see_kid, setObj_kid, setKid_kid, if_true, see_log, setObj_log,
            setKid_log, now, ended, setKid_obj]
          refine ⟨rfl, fun ha => ⟨rfl, (hps.alive ha).2.1, fun x hx => nomatch hx⟩, fun hf _ => ?_,
            fun hd => nomatch hd⟩
          obtain ⟨x, hx, _⟩ := hps.gone hf hact
          rw [hr] at hx; cases hx
        · simp at hh
        · have : counted s p = !(s.obj p).sync := by simp [counted, hact]
          rw [this]
          simp [counted, Status.active]
      · refine h.one (p := p) hg.1 rfl rfl ?_ ?_ (fun hg => hg) (fun hh => ?_) ?_
        · intro q hq; simp [hq, now, ended, Ne.symm hq]
        · unfold psOf
          simp only [see_obj, setObj_obj, see_kid, setObj_kid, if_true, see_log, setObj_log, now, ended]
          exact ⟨rfl, fun ha => ⟨rfl, (hps.alive ha).2⟩, fun hf _ => hps.gone hf hact, fun hd => nomatch hd⟩
        · intro hsy
          exact h.flag p (by simpa using hh) (by simpa using hsy)
        · have : counted s p = !(s.obj p).sync := by simp [counted, hact]
          rw [this]
          simp [counted, Status.active]
    · cases hs
  | close p =>
    simp only [Rep.Proc.step] at hs
    split at hs
    · cases hs
      refine h.same rfl rfl (fun q => ?_) (fun hg => Or.inl hg) rfl
      simp only [setObj_obj, setObj_kid, setObj_log]
      split
      · rename_i hq; subst hq; simp
      · simp
    · cases hs
  | read p e =>
    simp only [Rep.Proc.step] at hs
    split at hs
    · cases hs; exact h.read
    · cases hs
  | zombies =>
    simp only [Rep.Proc.step] at hs
    split at hs
    · cases hs
      exact h.same rfl rfl (fun q => by simp) (fun _ => Or.inl (Or.inr rfl)) rfl
    · cases hs
  | reap p => exact h.reap ha hs
  | reaped =>
    simp only [Rep.Proc.step] at hs
    split at hs
    · rename_i hg
      cases hs
      refine h.same rfl rfl (fun q => by simp) (fun _ => Or.inr ?_) rfl
      intro q hq
      show (s.obj q).sync = true
      have hq : (s.kid q).report ≠ none := hq
      have hact : (s.obj q).status.active = true := by
        rw [active_cases]; intro hd; exact hq ((h.ps q).dead hd).1
      have hid := h.act q hact
      rcases hg.2 with hc | hc
      · cases hsy : (s.obj q).sync with
        | true => rfl
        | false =>
          have hpos : 0 < s.ids.countP (counted s) :=
            List.countP_pos_iff.mpr ⟨q, hid, by simp [counted, hact, hsy]⟩
          rw [h.count] at hc
          omega
      · exact absurd (hc q hid) hq
    · cases hs
  | dispatch => exact h.dispatch hs
  | notify1 p =>
    simp only [Rep.Proc.step] at hs
    split at hs
    · exact h.notify1 hs
    · cases hs
  | call p =>
    simp only [Rep.Proc.step] at hs
    split at hs
    · rename_i hg
      cases hs
      have hps := h.ps p
      refine h.one (p := p) hg.1 rfl rfl ?_ ?_ (fun hg => hg) (fun hh => ?_) ?_
      · intro q hq; simp [hq, now, ended, Ne.symm hq]
      · unfold psOf
        simp only [see_obj, setObj_obj, see_kid, setObj_kid, setKid_kid, if_true, see_log, setObj_log,
          setKid_log, now, ended]
        exact ⟨rfl, fun _ => ⟨rfl, rfl, fun x hx => nomatch hx⟩, (fun hf => nomatch hf), fun hd => nomatch hd⟩
      · simp at hh
      · simp [counted, hg.2, Status.active]
    · cases hs
  | callRead p e =>
    simp only [Rep.Proc.step] at hs
    split at hs
    · cases hs; exact h.read
    · cases hs
  | called p st =>
    simp only [Rep.Proc.step] at hs
    split at hs
    · rename_i hg
      obtain ⟨hp, hsy, _, _, hal⟩ := hg
      have hps := h.ps p
      have hal : (s.kid p).alive = false := by simpa using hal
      have hact : (s.obj p).status.active = true := by
        rw [active_cases]; intro hd; rw [(hps.dead hd).2.1] at hsy; cases hsy
      obtain ⟨x, hx, hen⟩ := hps.gone hal hact
      rw [hx] at hs
      dsimp only at hs
      split at hs
      · rename_i hst
        cases hs
        subst hst
        refine InvS.queue ?_
        refine h.one (p := p) hp rfl rfl ?_ ?_ (fun hg => hg) (fun hh => ?_) ?_
        · intro q hq; simp [hq, now, ended, Ne.symm hq]
        · unfold psOf
          simp only [see_obj, setObj_obj, see_kid, setObj_kid, setKid_kid, if_true, see_log, setObj_log,
            setKid_log, now, ended, hen]
          refine ⟨rfl, fun ha => ?_, (fun _ ha => nomatch ha), fun _ => ⟨rfl, rfl, rfl⟩⟩
          rw [hal] at ha; cases ha
        · simp at hh
        · simp [counted, hsy, Status.active]
      · cases hs
    · cases hs
  | gc marked =>
    simp only [Rep.Proc.step] at hs
    split at hs
    · rename_i hg
      exact h.gc hg hs
    · cases hs

theorem InvS.run {s s' : St} {ops : List Op} (h : InvS s) (hr : AllowedRun s ops s') : InvS s' := by
  induction hr with
  | nil => exact h
  | cons ha hs _ ih => exact ih (h.step ha hs)

end Rep.Proc
