import Verif.Proc.State
import Mathlib.Data.List.Perm.Subperm

/-
Whoever has changed state and has not been told of is in the chain, in every state that can be reached.
-/

namespace Rep.Proc

open Spec

def nx (s : St) : Links := fun q => (s.obj q).next

/-- How much is in the chain. -/
def load (L : List Id) (e : Option Id) : Nat := 2 * L.length + (if e = none then 0 else 1)

structure InvQ (s : St) (L : List Id) (e : Option Id) : Prop where
  q : Q (nx s) s.chain L e
  sub : ∀ p ∈ L, p ∈ s.ids
  wait : ∀ p, waiting s.log p = true → p ∈ L
  count : ∀ p, calls s.log p + (if p ∈ L then 1 else 0) + (if e = some p then 1 else 0) ≤ changes s.log p

theorem InvQ.init : InvQ init [] none :=
  ⟨⟨rfl, (fun _ h => nomatch h), List.nodup_nil, (fun _ h => absurd rfl h)⟩, (fun _ h => nomatch h),
    (fun _ h => nomatch h), fun _ => by simp [Rep.Proc.init, calls, changes]⟩

theorem InvQ.same {s s' : St} {L e} (h : InvQ s L e) (hi : ∀ p ∈ L, p ∈ s'.ids) (hn : nx s' = nx s)
    (hc : s'.chain = s.chain) (hw : ∀ p, waiting s'.log p = waiting s.log p)
    (h1 : ∀ p, calls s'.log p = calls s.log p) (h2 : ∀ p, changes s'.log p = changes s.log p) :
    InvQ s' L e := by
  refine ⟨?_, hi, ?_, ?_⟩
  · rw [hn, hc]; exact h.q
  · intro p hp; rw [hw] at hp; exact h.wait p hp
  · intro p; rw [h1, h2]; exact h.count p

theorem nx_setObj (s : St) (p : Id) (o : Obj) : nx (setObj s p o) = upd (nx s) p o.next := by
  funext q
  simp only [nx, setObj_obj, upd]
  split <;> rfl

theorem nx_setObj_same (s : St) (p : Id) (o : Obj) (h : o.next = (s.obj p).next) :
    nx (setObj s p o) = nx s := by
  funext q
  simp only [nx, setObj_obj]
  split
  · rename_i hq; rw [hq, h]
  · rfl

theorem load_append (L : List Id) (p : Id) : load (L ++ [p]) none + 1 = load (p :: L) (some p) := by
  simp [load]

/-- The state of `p` changes and it is put in the chain. -/
theorem InvQ.change {s s1 : St} {L e} {p : Id} {st : Status} (h : InvQ s L e) (hp : p ∈ s.ids)
    (hi : s1.ids = s.ids) (hn : nx s1 = nx s) (hc : s1.chain = s.chain) {l : List Obs}
    (hl : s1.log = .change p st :: l) (hw : ∀ q, waiting l q = waiting s.log q)
    (h1 : ∀ q, calls l q = calls s.log q) (h2 : ∀ q, changes l q = changes s.log q) :
    ∃ L' e', InvQ (queueNotify s1 p) L' e' ∧ load L' e' ≤ load L e + 2 := by
  have hch : ∀ q, changes (.change p st :: l) q = changes s.log q + if p = q then 1 else 0 := by
    intro q
    have := h2 q
    unfold changes at this ⊢
    rw [List.countP_cons, this]
    simp
  have hca : ∀ q, calls (.change p st :: l) q = calls s.log q := by
    intro q
    have := h1 q
    unfold calls at this ⊢
    rw [List.countP_cons, this]
    simp
  have hwa : ∀ q, waiting (.change p st :: l) q = true → q = p ∨ waiting s.log q = true := by
    intro q hq
    simp only [waiting] at hq
    split at hq
    · left; rename_i hh; exact hh.symm
    · right; rw [← hw]; exact hq
  have hnp : (s1.obj p).next = nx s p := by rw [← hn]; rfl
  by_cases hno : nx s p = none
  · have hlog : (queueNotify s1 p).log = .change p st :: l := by rw [queue_log, hl]
    have hq : nx (queueNotify s1 p) = upd (nx s) p s.chain ∧ (queueNotify s1 p).chain = some p := by
      unfold queueNotify
      rw [hnp, if_pos hno]
      refine ⟨?_, rfl⟩
      rw [← hn, ← hc]
      exact nx_setObj s1 p _
    by_cases hpl : p ∈ L
    · obtain ⟨he, L0, hL, hq'⟩ := h.q.push_old hpl hno
      refine ⟨p :: L0, some p, ⟨?_, ?_, ?_, ?_⟩, ?_⟩
      · rw [hq.1, hq.2]; exact hq'
      · intro q hq
        rw [queue_ids, hi]
        refine h.sub q ?_
        rw [hL]
        rcases List.mem_cons.mp hq with hh | hh
        · simp [hh]
        · simp [hh]
      · intro q hq
        rw [hlog] at hq
        rcases hwa q hq with hh | hh
        · simp [hh]
        · have := h.wait q hh
          rw [hL] at this
          simpa [or_comm] using this
      · intro q
        rw [hlog, hch, hca]
        have := h.count q
        rw [he] at this
        simp only [hL, List.mem_append, List.mem_singleton, reduceCtorEq, if_false] at this
        by_cases hqp : q = p
        · subst hqp
          simp only [or_true, if_true, List.mem_cons, true_or] at this ⊢
          omega
        · simp only [hqp, or_false, List.mem_cons, false_or, Option.some.injEq, Ne.symm hqp, if_false] at this ⊢
          omega
      · simp [load, hL]; omega
    · have hq' := h.q.push_new hpl
      refine ⟨p :: L, e, ⟨?_, ?_, ?_, ?_⟩, ?_⟩
      · rw [hq.1, hq.2]; exact hq'
      · intro q hq
        rw [queue_ids, hi]
        rcases List.mem_cons.mp hq with hh | hh
        · rw [hh]; exact hp
        · exact h.sub q hh
      · intro q hq
        rw [hlog] at hq
        rcases hwa q hq with hh | hh
        · simp [hh]
        · exact List.mem_cons_of_mem _ (h.wait q hh)
      · intro q
        rw [hlog, hch, hca]
        have := h.count q
        by_cases hqp : q = p
        · subst hqp
          simp only [hpl, if_false, List.mem_cons, true_or, if_true] at this ⊢
          omega
        · simp only [hqp, List.mem_cons, false_or, Ne.symm hqp, if_false] at this ⊢
          omega
      · simp [load]; omega
  · have hq : queueNotify s1 p = s1 := by
      unfold queueNotify
      rw [hnp, if_neg hno]
    rw [hq]
    have hpl := h.q.all p hno
    refine ⟨L, e, ⟨?_, ?_, ?_, ?_⟩, by omega⟩
    · rw [hn, hc]; exact h.q
    · rw [hi]; exact h.sub
    · intro q hq
      rw [hl] at hq
      rcases hwa q hq with hh | hh
      · rw [hh]; exact hpl
      · exact h.wait q hh
    · intro q
      rw [hl, hch, hca]
      have := h.count q
      omega

/-- The function of `p` is called; the chain without `p`. -/
theorem InvQ.called {s s' : St} {A B : List Id} {e} {p : Id} {st : Status} (h : InvQ s (A ++ p :: B) e)
    (hi : s'.ids = s.ids) (hl : s'.log = .call p st :: s.log)
    (hq : if e = some p then Q (nx s') s'.chain (A ++ (B ++ [p])) none else Q (nx s') s'.chain (A ++ B) e) :
    ∃ L' e', InvQ s' L' e' ∧ load L' e' < load (A ++ p :: B) e := by
  have hca : ∀ q, calls (.call p st :: s.log) q = calls s.log q + if p = q then 1 else 0 := by
    intro q
    unfold calls
    rw [List.countP_cons]
    simp
  have hch : ∀ q, changes (.call p st :: s.log) q = changes s.log q := by
    intro q
    unfold changes
    rw [List.countP_cons]
    simp
  have hwa : ∀ q, waiting (.call p st :: s.log) q = true → q ≠ p ∧ waiting s.log q = true := by
    intro q hq
    simp only [waiting] at hq
    split at hq
    · cases hq
    · rename_i hh; exact ⟨Ne.symm hh, hq⟩
  have hnd := h.q.nodup
  have hpA : p ∉ A := fun hm => (List.nodup_append.mp hnd).2.2 p hm p (by simp) rfl
  have hpB : p ∉ B := (List.nodup_cons.mp (List.nodup_append.mp hnd).2.1).1
  split at hq
  · rename_i he
    subst he
    refine ⟨_, _, ⟨hq, ?_, ?_, ?_⟩, ?_⟩
    · intro q hm
      rw [hi]
      refine h.sub q ?_
      simp only [List.mem_append, List.mem_cons, List.not_mem_nil] at hm ⊢
      tauto
    · intro q hm
      rw [hl] at hm
      have := h.wait q (hwa q hm).2
      simp only [List.mem_append, List.mem_cons, List.not_mem_nil] at this ⊢
      tauto
    · intro q
      rw [hl, hch, hca]
      have := h.count q
      by_cases hqp : q = p
      · subst hqp
        simp only [List.mem_append, List.mem_cons, true_or, or_true, if_true, reduceCtorEq, if_false] at this ⊢
        omega
      · simp only [List.mem_append, List.mem_cons, hqp, false_or, or_false, List.not_mem_nil, Option.some.injEq,
          Ne.symm hqp, if_false, reduceCtorEq] at this ⊢
        omega
    · simp [load]
  · rename_i he
    refine ⟨_, _, ⟨hq, ?_, ?_, ?_⟩, ?_⟩
    · intro q hm
      rw [hi]
      refine h.sub q ?_
      simp only [List.mem_append, List.mem_cons] at hm ⊢
      tauto
    · intro q hm
      rw [hl] at hm
      have h1 := hwa q hm
      have := h.wait q h1.2
      simp only [List.mem_append, List.mem_cons, h1.1, false_or] at this ⊢
      exact this
    · intro q
      rw [hl, hch, hca]
      have := h.count q
      by_cases hqp : q = p
      · subst hqp
        simp only [List.mem_append, List.mem_cons, true_or, or_true, if_true, hpA, hpB, or_self, he, if_false] at this ⊢
        omega
      · simp only [List.mem_append, List.mem_cons, hqp, false_or, Ne.symm hqp, if_false] at this ⊢
        omega
    · simp [load]

theorem InvQ.dispatch {s s' : St} {L e} (h : InvQ s L e) (hs : dispatch s = .ok s') :
    ∃ L' e', InvQ s' L' e' ∧ load L' e' < load L e := by
  unfold Rep.Proc.dispatch at hs
  split at hs
  · cases hs
  rename_i p hc
  have hq := h.q
  rw [hc] at hq
  obtain ⟨l, hL, hq'⟩ := hq.pop
  clear hq
  subst hL
  cases hs
  refine InvQ.called (A := []) (B := l) (p := p) h rfl rfl ?_
  have hn : nx (see (setObj { s with chain := (s.obj p).next } p
      { s.obj p with next := none }) (.call p (s.obj p).status)) = upd (nx s) p none := nx_setObj _ _ _
  have hc' : nx s p = (s.obj p).next := rfl
  rw [hc'] at hq'
  by_cases he : e = some p
  · rw [if_pos he] at hq' ⊢
    simp only [setObj_obj, if_true]; rw [hn]; exact hq'
  · rw [if_neg he] at hq' ⊢
    simp only [setObj_obj, if_true]; rw [hn]; exact hq'

theorem findLink_spec {s : St} {p : Id} : ∀ {B : List Id} {n : Nat} {c : Option Id} {e} {acc : List Id},
    Linked (nx s) c B e → p ∈ B → B.Nodup → B.length < n →
    ∃ A C, B = A ++ p :: C ∧ findLink s p n c acc = some (A.reverse ++ acc)
  | [], _, _, _, _, _, hp, _, _ => by cases hp
  | a :: B, 0, _, _, _, _, _, _, hn => by cases hn
  | a :: B, n + 1, c, e, acc, hl, hp, hd, hn => by
    obtain ⟨hc, hl⟩ := hl
    subst hc
    by_cases hap : a = p
    · subst hap
      exact ⟨[], B, rfl, by simp [findLink]⟩
    · have hpB : p ∈ B := by
        rcases List.mem_cons.mp hp with hh | hh
        · exact absurd hh.symm hap
        · exact hh
      obtain ⟨A, C, h1, h2⟩ := findLink_spec (acc := a :: acc) hl hpB (List.nodup_cons.mp hd).2
        (Nat.lt_of_succ_lt_succ hn)
      refine ⟨a :: A, C, by rw [h1]; rfl, ?_⟩
      rw [findLink, if_neg hap]
      have : (s.obj a).next = nx s a := rfl
      rw [this, h2]
      simp

theorem InvQ.short {s : St} {L e} (h : InvQ s L e) : L.length ≤ s.ids.length :=
  (List.Nodup.subperm h.q.nodup fun p hp => h.sub p hp).length_le

theorem InvQ.notify1 {s : St} {L e} {p : Id} (h : InvQ s L e) (hne : (s.obj p).next ≠ none) :
    ∃ s', notify1 s p = .ok s' ∧ s'.log = .call p (s.obj p).status :: s.log ∧
      ∃ L' e', InvQ s' L' e' ∧ load L' e' < load L e := by
  have hpL := h.q.all p hne
  obtain ⟨A, C, hL, hf⟩ := findLink_spec (acc := []) h.q.link hpL h.q.nodup
    (Nat.lt_succ_of_le h.short)
  subst hL
  rw [List.append_nil] at hf
  unfold Rep.Proc.notify1
  rw [if_neg hne]
  rw [hf]
  rcases List.eq_nil_or_concat A with hA | ⟨A', q, hA⟩
  · subst hA
    have hc : s.chain = some p := h.q.link.1
    have hq := h.q
    rw [hc] at hq
    obtain ⟨l, hl, hq'⟩ := hq.pop
    clear hq
    simp only [List.nil_append, List.cons.injEq, true_and] at hl
    subst hl
    refine ⟨_, rfl, by simp, ?_⟩
    refine InvQ.called (A := []) (B := C) (p := p) h rfl rfl ?_
    have hn : nx (see (setObj { s with chain := (s.obj p).next } p
        { s.obj p with next := none }) (.call p (s.obj p).status)) = upd (nx s) p none := nx_setObj _ _ _
    have hc' : nx s p = (s.obj p).next := rfl
    rw [hc'] at hq'
    by_cases he : e = some p
    · rw [if_pos he] at hq' ⊢
      simp only [setObj_obj, if_true]; rw [hn]; exact hq'
    · rw [if_neg he] at hq' ⊢
      simp only [setObj_obj, if_true]; rw [hn]; exact hq'
  · rw [List.concat_eq_append] at hA
    subst hA
    have hr : (A' ++ [q]).reverse = q :: A'.reverse := by simp
    rw [hr]
    have hqp : q ≠ p := by
      intro hh
      exact (List.nodup_append.mp h.q.nodup).2.2 q (by simp) p (by simp) hh
    refine ⟨_, rfl, by simp [Ne.symm hqp], ?_⟩
    refine InvQ.called (A := A' ++ [q]) (B := C) (p := p) h rfl rfl ?_
    have hq := h.q.remove
    have hn : ∀ o : Obs, nx (see (setObj (setObj s q { s.obj q with next := (s.obj p).next }) p
        { (setObj s q { s.obj q with next := (s.obj p).next }).obj p with next := none }) o) =
        upd (upd (nx s) q (nx s p)) p none := by
      intro o
      show nx (setObj (setObj s q _) p _) = _
      rw [nx_setObj, nx_setObj]
      rfl
    rw [hn]
    exact hq

theorem InvQ.step {s s' : St} {L e} {op : Op} (hS : InvS s) (h : InvQ s L e) (ha : Allowed s op)
    (hs : step s op = .ok s') : ∃ L' e', InvQ s' L' e' ∧
      (op.internal = true → load L' e' ≤ load L e + (match op with | .reap _ => 2 | _ => 0)) := by
  have keep : ∀ {t : St}, t.ids = s.ids → nx t = nx s → t.chain = s.chain →
      (∀ p, waiting t.log p = waiting s.log p) → (∀ p, calls t.log p = calls s.log p) →
      (∀ p, changes t.log p = changes s.log p) → ∃ L' e', InvQ t L' e' ∧
      (op.internal = true → load L' e' ≤ load L e + (match op with | .reap _ => 2 | _ => 0)) :=
    fun hi h1 h2 h3 h4 h5 => ⟨L, e, h.same (fun p hp => by rw [hi]; exact h.sub p hp) h1 h2 h3 h4 h5,
      fun _ => Nat.le_add_right _ _⟩
  cases op with
  | write p e b =>
    simp only [Rep.Proc.step] at hs
    split at hs
    · cases hs
      exact keep rfl rfl rfl (fun _ => rfl) (fun _ => by simp [calls]) (fun _ => by simp [changes])
    · cases hs
  | halt p =>
    simp only [Rep.Proc.step] at hs
    split at hs
    · cases hs
      exact keep rfl rfl rfl (fun _ => rfl) (fun _ => rfl) (fun _ => rfl)
    · cases hs
  | exit p st =>
    simp only [Rep.Proc.step] at hs
    split at hs
    · cases hs
      exact keep rfl rfl rfl (fun _ => rfl) (fun _ => by simp [calls]) (fun _ => by simp [changes])
    · cases hs
  | make =>
    simp only [Rep.Proc.step] at hs
    cases hs
    exact ⟨L, e, h.same (fun p hp => List.mem_cons_of_mem _ (h.sub p hp)) rfl rfl (fun _ => rfl) (fun _ => rfl)
      (fun _ => rfl), fun hi => nomatch hi⟩
  | start p =>
    simp only [Rep.Proc.step] at hs
    split at hs
    · cases hs
      exact keep rfl (nx_setObj_same _ _ _ rfl) rfl (fun _ => rfl) (fun _ => by simp [calls])
        (fun _ => by simp [changes])
    · cases hs
  | resume p =>
    simp only [Rep.Proc.step] at hs
    split at hs
    · rename_i hg
      cases hs
      have hk : ∀ t : St, t.ids = s.ids → t.obj = s.obj → t.chain = s.chain → t.log = s.log →
          ∃ L' e', InvQ (queueNotify (see (setObj t p { t.obj p with status := .running })
            (.change p .running)) p) L' e' ∧ load L' e' ≤ load L e + 2 := by
        intro t h1 h2 h3 h4
        refine h.change (p := p) (st := .running) (l := t.log) hg.1 h1 ?_ h3 rfl ?_ ?_ ?_
        · have : nx (see (setObj t p { t.obj p with status := .running }) (.change p .running)) = nx t :=
            nx_setObj_same _ _ _ rfl
          rw [this]; unfold nx; rw [h2]
        · intro q; rw [h4]
        · intro q; rw [h4]
        · intro q; rw [h4]
      split
      · obtain ⟨L', e', h1, h2⟩ := hk (setKid s p { s.kid p with report := none }) rfl rfl rfl rfl
        exact ⟨L', e', h1, fun hi => nomatch hi⟩
      · obtain ⟨L', e', h1, h2⟩ := hk s rfl rfl rfl rfl
        exact ⟨L', e', h1, fun hi => nomatch hi⟩
    · cases hs
  | close p =>
    simp only [Rep.Proc.step] at hs
    split at hs
    · cases hs
      exact keep rfl (nx_setObj_same _ _ _ rfl) rfl (fun _ => rfl) (fun _ => rfl) (fun _ => rfl)
    · cases hs
  | read p e =>
    simp only [Rep.Proc.step] at hs
    split at hs
    · cases hs
      exact keep (by simp) (by funext q; simp [nx]) (by simp) (fun _ => by simp) (fun _ => by simp)
        (fun _ => by simp)
    · cases hs
  | zombies =>
    simp only [Rep.Proc.step] at hs
    split at hs
    · cases hs
      exact keep rfl rfl rfl (fun _ => rfl) (fun _ => rfl) (fun _ => rfl)
    · cases hs
  | reap p =>
    simp only [Rep.Proc.step] at hs
    unfold Rep.Proc.reap at hs
    split at hs
    · cases hs
    rename_i hg
    simp only [not_not] at hg
    split at hs
    · cases hs
    dsimp only at hs
    by_cases hact : ((setKid s p { s.kid p with report := none }).obj p).status.active = true
    · rw [if_neg (by simpa using hact)] at hs
      split at hs
      · cases hs
        obtain ⟨L', e', h1, h2⟩ := h.change (p := p) (st := .stopped) (l := s.log)
          (s1 := see (setObj (setKid s p { s.kid p with report := none }) p
            { (setKid s p { s.kid p with report := none }).obj p with status := .stopped }) (.change p .stopped))
          hg.2.2 rfl (nx_setObj_same _ _ _ rfl) rfl rfl (fun _ => rfl) (fun _ => rfl) (fun _ => rfl)
        exact ⟨L', e', h1, fun _ => h2⟩
      · cases hs
        have hk : ∀ t : St, t.ids = s.ids → nx t = nx s → t.chain = s.chain →
            (∀ q, waiting t.log q = waiting s.log q) → (∀ q, calls t.log q = calls s.log q) →
            (∀ q, changes t.log q = changes s.log q) →
            ∃ L' e', InvQ (queueNotify (see (setObj t p { t.obj p with out := false, err := false })
              (.change p .dead)) p) L' e' ∧ load L' e' ≤ load L e + 2 :=
          fun t h1 h2 h3 h4 h5 h6 => h.change (p := p) (st := .dead) hg.2.2 h1
            ((nx_setObj_same t p { t.obj p with out := false, err := false } rfl).trans h2) h3 rfl h4 h5 h6
        refine Exists.imp (fun L' h => Exists.imp (fun e' h => ⟨h.1, fun _ => h.2⟩) h)
          (hk _ ?_ ?_ ?_ ?_ ?_ ?_)
        · simp
        · funext q
          simp only [nx, readOpen_next, setObj_obj]
          split
          · rename_i hq; subst hq; rfl
          · rfl
        · simp
        · simp
        · simp
        · simp
    · rw [if_pos hact] at hs
      cases hs
      exact keep rfl rfl rfl (fun _ => rfl) (fun _ => rfl) (fun _ => rfl)
  | reaped =>
    simp only [Rep.Proc.step] at hs
    split at hs
    · cases hs
      exact keep rfl rfl rfl (fun _ => rfl) (fun _ => rfl) (fun _ => rfl)
    · cases hs
  | dispatch =>
    obtain ⟨L', e', h1, h2⟩ := h.dispatch hs
    exact ⟨L', e', h1, fun _ => by simpa using Nat.le_of_lt h2⟩
  | notify1 p =>
    simp only [Rep.Proc.step] at hs
    split at hs
    · have hne : (s.obj p).next ≠ none := by
        intro hh
        unfold Rep.Proc.notify1 at hs
        rw [if_pos hh] at hs; cases hs
      obtain ⟨t, h1, _, L', e', h2, _⟩ := h.notify1 hne
      rw [h1] at hs
      cases hs
      exact ⟨L', e', h2, fun hi => nomatch hi⟩
    · cases hs
  | call p =>
    simp only [Rep.Proc.step] at hs
    split at hs
    · cases hs
      exact keep rfl (nx_setObj_same _ _ _ rfl) rfl (fun _ => rfl) (fun _ => by simp [calls])
        (fun _ => by simp [changes])
    · cases hs
  | callRead p e =>
    simp only [Rep.Proc.step] at hs
    split at hs
    · cases hs
      exact keep (by simp) (by funext q; simp [nx]) (by simp) (fun _ => by simp) (fun _ => by simp)
        (fun _ => by simp)
    · cases hs
  | called p st =>
    simp only [Rep.Proc.step] at hs
    split at hs
    · rename_i hg
      have hk : ∀ (t : St) (o : Obj), t.ids = s.ids → t.obj = s.obj → t.chain = s.chain → t.log = s.log →
          o.next = (s.obj p).next →
          ∃ L' e', InvQ (queueNotify (see (setObj t p o) (.change p .dead)) p) L' e' ∧
            load L' e' ≤ load L e + 2 := by
        intro t o h1 h2 h3 h4 h5
        refine h.change (p := p) (st := .dead) (l := t.log) hg.1 h1 ?_ h3 rfl ?_ ?_ ?_
        · have : nx (see (setObj t p o) (.change p .dead)) = nx t :=
            nx_setObj_same _ _ _ (by rw [h2]; exact h5)
          rw [this]; unfold nx; rw [h2]
        · intro q; rw [h4]
        · intro q; rw [h4]
        · intro q; rw [h4]
      split at hs
      · split at hs
        · cases hs
          obtain ⟨L', e', h1, h2⟩ := hk (setKid s p { s.kid p with report := none })
            { s.obj p with exit := some st, status := .dead, sync := false } rfl rfl rfl rfl rfl
          exact ⟨L', e', h1, fun hi => nomatch hi⟩
        · cases hs
      · cases hs
        obtain ⟨L', e', h1, h2⟩ := hk s { s.obj p with status := .dead, sync := false } rfl rfl rfl rfl rfl
        exact ⟨L', e', h1, fun hi => nomatch hi⟩
    · cases hs
  | gc marked =>
    simp only [Rep.Proc.step] at hs
    split at hs
    · unfold sweep at hs
      split at hs
      · rename_i hc
        cases hs
        have hL := h.q.empty_iff.mp hc
        exact ⟨L, e, h.same (fun p hp => by rw [hL] at hp; cases hp) rfl rfl (fun _ => rfl) (fun _ => rfl)
          (fun _ => rfl), fun hi => nomatch hi⟩
      · rename_i hc
        rcases ha with ha | ⟨p, hp, hm, hn⟩
        · exact absurd ha hc
        · have hf : firstMarked s marked (s.ids.length + 1) s.chain = some (some p) := by
            rw [hp, firstMarked, if_pos hm]
          rw [hf] at hs
          cases hs
          have hq := h.q
          rw [hp] at hq
          have hpl : p ∈ L := by
            cases L with
            | nil => have := hq.empty_iff.mpr rfl; cases this
            | cons a l => have : some p = some a := hq.link.1; cases this; simp
          refine ⟨L, e, h.same ?_ (nx_setObj_same _ _ _ hn.symm) hp.symm (fun _ => rfl) (fun _ => rfl)
            (fun _ => rfl), fun hi => nomatch hi⟩
          intro q hql
          show q ∈ s.ids.filter marked
          have hLp : L = [p] := by
            cases L with
            | nil => cases hpl
            | cons a l =>
              have ha : some p = some a := hq.link.1
              cases ha
              have hl := hq.link.2
              have : nx s p = none := hn
              rw [this] at hl
              cases l with
              | nil => rfl
              | cons b l => have := hl.1; cases this
          rw [hLp, List.mem_singleton] at hql
          subst hql
          exact List.mem_filter.mpr ⟨h.sub _ hpl, hm⟩
    · cases hs

theorem InvQ.run {s s' : St} {ops : List Op} (hr : AllowedRun s ops s') : InvS s → (∃ L e, InvQ s L e) →
    ∃ L e, InvQ s' L e := by
  induction hr with
  | nil => exact fun _ h => h
  | cons ha hs _ ih =>
    intro hS ⟨L, e, h⟩
    obtain ⟨L', e', h', _⟩ := h.step hS ha hs
    exact ih (hS.step ha hs) ⟨L', e', h'⟩

end Rep.Proc
