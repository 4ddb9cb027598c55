/-
Queue operations preserve the queue representation.
-/
import Verif.Heap.SortLemmas

namespace Rep.Lists

/-- The value of a queue's tail slot for the cells `as`. -/
def tailOf (as : List Nat) : V := match as.getLast? with | some a => .cell a | none => .nil

theorem tailOf_append (as : List Nat) (a : Nat) : tailOf (as ++ [a]) = .cell a := by
  simp [tailOf]

theorem rplaca_rw {h : Heap} {o : Nat} {v : V} :
    (rplaca h (.cell o) v).1 = setCar h o v := by
  rfl

theorem enqueue_spec {h : Heap} {q : Nat} {xs : List V} (x : V) (hq : IsQueue h q xs) :
    IsQueue (enqueue h q x) q (xs ++ [x]) := by
  obtain ⟨as, hs, hm, hn, hlt, ht⟩ := hq
  have he := cons_extends h x .nil
  have haslt : ∀ a ∈ as, a < h.next := hs.lt
  have hqn : q ≠ h.next := by omega
  set h1 := (cons h x .nil).1 with hh1
  have hc1 : h1.car h.next = x := by simp [hh1, cons]
  have hd1 : h1.cdr h.next = .nil := by simp [hh1, cons]
  have hn1 : h1.next = h.next + 1 := rfl
  have cdrq : h1.cdr q = h.cdr q := (he.2 q hlt).2
  have carq : h1.car q = h.car q := (he.2 q hlt).1
  have hlist : list h [x] = (h1, .cell h.next) := rfl
  unfold enqueue
  rw [hlist]
  simp only
  rw [cdrq, carq]
  rcases List.eq_nil_or_concat as with rfl | ⟨ds, o, rfl⟩
  · have hcq : h.cdr q = .nil := hs
    rw [if_pos hcq, rplacd_rw, rplaca_rw (h := setCdr h1 q _)]
    refine ⟨[h.next], ?_, ?_, ?_, ?_, ?_⟩
    · have : (setCar (setCdr h1 q (.cell h.next)) q (.cell h.next)).cdr q = .cell h.next := by simp [setCar, setCdr]
      rw [this]
      refine ⟨rfl, by simp [setCar, setCdr, hn1], ?_⟩
      have : (setCar (setCdr h1 q (.cell h.next)) q (.cell h.next)).cdr h.next = .nil := by
        simp [setCar, setCdr, Function.update_of_ne hqn.symm, hd1]
      exact this
    · have : xs = [] := by rw [← hm]; rfl
      subst this
      simp [setCar, setCdr, Function.update_of_ne hqn.symm, hc1]
    · simp [hqn]
    · simp [setCar, setCdr, hn1]; omega
    · simp [setCar, setCdr]
  · rw [List.concat_eq_append] at *
    have hcq : h.cdr q ≠ .nil := by
      rw [ne_eq, hs.eq_nil]; simp
    have hcarq : h.car q = .cell o := by rw [ht]; simp
    have holt : o < h.next := haslt o (by simp)
    have hqo : q ≠ o := by
      rintro rfl; simp at hn
    have hon : o ≠ h.next := by omega
    rw [if_neg hcq, hcarq, rplacd_rw, rplaca_rw (h := setCdr h1 o _)]
    have hnd : (ds ++ [o]).Nodup := (List.nodup_cons.1 hn).2
    refine ⟨(ds ++ [o]) ++ [h.next], ?_, ?_, ?_, ?_, ?_⟩
    · have e1 : (setCar (setCdr h1 o (.cell h.next)) q (.cell h.next)).cdr q = h.cdr q := by
        simp only [setCar]; rw [setCdr_ne hqo, cdrq]
      rw [e1]
      refine Spine.append_iff.2 ⟨.cell h.next, ?_, rfl, by simp [setCar, setCdr, hn1], ?_⟩
      · have := OutOk.link (.cell h.next) (hs.extends he) hnd
        exact this.congr (le_refl _) fun _ _ => rfl
      · change (setCdr h1 o (.cell h.next)).cdr h.next = .nil
        rw [setCdr_ne hon.symm, hd1]
    · rw [List.map_append, List.map_singleton]
      have e2 : (setCar (setCdr h1 o (.cell h.next)) q (.cell h.next)).car h.next = x := by
        simp [setCar, setCdr, Function.update_of_ne hqn.symm, hc1]
      rw [e2, ← hm]
      congr 1
      apply List.map_congr_left
      intro a ha
      have haq : a ≠ q := by
        rintro rfl; exact (List.nodup_cons.1 hn).1 ha
      simp only [setCar, setCdr, Function.update_of_ne haq]
      exact (he.2 a (haslt a ha)).1
    · rw [← List.cons_append, List.nodup_append]
      refine ⟨hn, by simp, ?_⟩
      intro a ha b hb
      have : b = h.next := by simpa using hb
      subst this
      rcases List.mem_cons.1 ha with rfl | ha
      · exact hqn
      · have := haslt a ha; omega
    · simp [setCar, setCdr, hn1]; omega
    · rw [List.getLast?_append]; simp [setCar, setCdr]

theorem dequeue_empty {h : Heap} {q : Nat} (hq : IsQueue h q []) : dequeue h q = none := by
  obtain ⟨as, hs, hm, _⟩ := hq
  have : as = [] := by simpa using hm
  subst this
  have : h.cdr q = .nil := hs
  simp [dequeue, this]

theorem dequeue_spec {h : Heap} {q : Nat} {x : V} {xs : List V} (hq : IsQueue h q (x :: xs)) :
    ∃ h', dequeue h q = some (h', x) ∧ IsQueue h' q xs := by
  obtain ⟨as, hs, hm, hn, hlt, ht⟩ := hq
  match as, hm with
  | [], hm => simp at hm
  | a :: as, hm =>
    simp only [List.map_cons, List.cons.injEq] at hm
    obtain ⟨hx, hm⟩ := hm
    obtain ⟨hca, hla, hs⟩ := hs
    have hqa : q ≠ a := by rintro rfl; simp at hn
    unfold dequeue
    simp only [hca, car, cdr, rplacd_rw]
    rw [if_neg (by simp), hx]
    rcases List.eq_nil_or_concat as with rfl | ⟨ds, o, rfl⟩
    · have : h.car q = .cell a := by rw [ht]; rfl
      rw [if_neg (by simp [this]), rplaca_rw (h := setCdr h q _)]
      refine ⟨_, rfl, [], ?_, ?_, by simp, hlt, ?_⟩
      · simp [Spine, setCar, setCdr]
      · simpa using hm
      · simp [setCar]
    · rw [List.concat_eq_append] at *
      have hcq : h.car q = .cell o := by
        rw [ht, ← List.cons_append, List.getLast?_append]; simp
      have hao : o ≠ a := by
        rintro rfl
        simp at hn
      rw [if_pos (by simp [hcq, hao])]
      refine ⟨_, rfl, ds ++ [o], ?_, hm, ?_, hlt, ?_⟩
      · rw [setCdr_self]
        refine hs.only (setCdr_only (as := [q]) (by simp)) ?_
        intro b hb hbq
        have : b = q := by simpa using hbq
        subst this
        exact (List.nodup_cons.1 hn).1 (by simp at hb ⊢; tauto)
      · exact hn.sublist (List.Sublist.cons_cons q (List.sublist_cons_self a _))
      · simp [setCdr, hcq]

/-- The cell at the end of a queue's chain, which is the queue's own cell if it is empty. -/
theorem deleteFromQueue_loop_spec {q : Nat} (x : V) :
    ∀ (as : List Nat) (h : Heap) (ps : List Nat) (ptr : Nat),
      Spine h (.cell q) (q :: (ps ++ as)) .nil → (q :: (ps ++ as)).Nodup →
      (q :: ps).getLast? = some ptr →
      ∃ h', deleteFromQueue.loop h q x (.cell ptr) = some h' ∧
        IsQueue h' q (ps.map h.car ++ (as.map h.car).filter (fun v => v ≠ x)) := by
  intro as
  induction as with
  | nil =>
    intro h ps ptr hs hn hp
    rw [List.append_nil] at *
    have hptr : h.cdr ptr = .nil := by
      obtain ⟨ys, hy⟩ := List.getLast?_eq_some_iff.1 hp
      rw [hy] at hs
      obtain ⟨u, _, h2⟩ := Spine.append_iff.1 hs
      exact h2.2.2
    rw [deleteFromQueue.loop.eq_def]
    simp only [cdr, hptr, if_true]
    obtain ⟨_, hlt, hs⟩ := hs
    have key : ∀ v, v = tailOf ps → IsQueue (setCar h q v) q (ps.map h.car) := by
      intro v hv
      refine ⟨ps, ?_, ?_, hn, hlt, ?_⟩
      · exact hs.congr (le_refl _) fun _ _ => rfl
      · apply List.map_congr_left
        intro a ha
        have : a ≠ q := by rintro rfl; exact (List.nodup_cons.1 hn).1 ha
        simp [setCar, Function.update_of_ne this]
      · simp only [setCar, Function.update_self]; exact hv
    simp only [rplaca_rw, List.map_nil, List.filter_nil, List.append_nil]
    by_cases hc : h.cdr q = .nil
    · rw [if_pos hc]
      refine ⟨_, rfl, key _ ?_⟩
      have : ps = [] := hs.eq_nil.1 hc
      subst this; rfl
    · rw [if_neg hc]
      refine ⟨_, rfl, key _ ?_⟩
      have hps : ps ≠ [] := fun h => hc (hs.eq_nil.2 h)
      obtain ⟨ds, o, rfl⟩ := (List.eq_nil_or_concat ps).resolve_left hps
      rw [List.concat_eq_append] at *
      rw [tailOf_append]
      rw [← List.cons_append, List.getLast?_append] at hp
      simp at hp
      rw [hp]
  | cons a as ih =>
    intro h ps ptr hs hn hp
    have hs' := hs
    obtain ⟨ys, hy⟩ := List.getLast?_eq_some_iff.1 hp
    rw [← List.cons_append, Spine.append_iff] at hs'
    obtain ⟨u, hs1, hu, hla, hs2⟩ := hs'
    subst hu
    have hptr : h.cdr ptr = .cell a := by
      rw [hy] at hs1
      obtain ⟨u, _, h2⟩ := Spine.append_iff.1 hs1
      exact h2.2.2
    have hpm : ptr ∈ q :: ps := by rw [hy]; simp
    rw [deleteFromQueue.loop.eq_def]
    simp only [cdr, hptr, car, rplacd_rw]
    rw [if_neg (by simp)]
    by_cases hx : h.car a = x
    · rw [if_pos hx]
      have hsub : (q :: (ps ++ as)).Sublist (q :: (ps ++ a :: as)) :=
        ((List.sublist_cons_self a as).append_left ps).cons_cons q
      have hnq : (q :: ps).Nodup := by
        rw [← List.cons_append] at hn; exact (List.nodup_append.1 hn).1
      obtain ⟨h', e, r⟩ := ih (setCdr h ptr (h.cdr a)) ps ptr (by
          rw [← List.cons_append, Spine.append_iff]
          refine ⟨h.cdr a, ?_, ?_⟩
          · rw [hy] at hs1 hnq ⊢
            exact OutOk.link _ hs1 hnq
          · refine hs2.only (setCdr_only (as := [ptr]) (by simp)) ?_
            intro b hb hbp
            have : b = ptr := by simpa using hbp
            subst this
            rw [← List.cons_append] at hn
            exact (List.nodup_append.1 hn).2.2 b hpm b (by simp [hb]) rfl)
        (hn.sublist hsub) hp
      refine ⟨h', e, ?_⟩
      rw [List.map_cons, List.filter_cons]
      simp only [hx, ne_eq, not_true_eq_false, decide_false, Bool.false_eq_true, if_false]
      exact r
    · rw [if_neg hx]
      obtain ⟨h', e, r⟩ := ih h (ps ++ [a]) a (by rw [List.append_assoc]; exact hs)
        (by rw [List.append_assoc]; exact hn)
        (by rw [← List.cons_append, List.getLast?_append]; simp)
      refine ⟨h', e, ?_⟩
      rw [List.map_cons, List.filter_cons]
      simp only [hx, ne_eq, not_false_eq_true, decide_true, if_true]
      rw [List.map_append, List.append_assoc] at r
      exact r

theorem deleteFromQueue_spec {h : Heap} {q : Nat} {xs : List V} (x : V) (hq : IsQueue h q xs) :
    ∃ h', deleteFromQueue h q x = some h' ∧ IsQueue h' q (xs.filter (fun v => v ≠ x)) := by
  obtain ⟨as, hs, hm, hn, hlt, ht⟩ := hq
  obtain ⟨h', e, r⟩ := deleteFromQueue_loop_spec x as h [] q ⟨rfl, hlt, hs⟩ hn rfl
  refine ⟨h', e, ?_⟩
  rw [hm] at r
  exact r

end Rep.Lists
