import Verif.Threads.Sched
import Mathlib.Data.List.Basic
import Mathlib.Tactic.ByContra
import Mathlib.Tactic.Tauto

/-
Doubly linked lists: what the updates of the links do to the list they represent.
-/

namespace Rep.Threads

/-- The links of the members of `l`, between `b` and `e`. -/
def Seg (nx pr : Tid → Option Tid) : Option Tid → List Tid → Option Tid → Prop
  | _, [], _ => True
  | b, t :: l, e => pr t = b ∧ nx t = l.head?.or e ∧ Seg nx pr (some t) l e

/-- Update at an optional place. -/
def upd (f : Tid → Option Tid) (q : Option Tid) (v : Option Tid) : Tid → Option Tid :=
  q.elim f fun x u => if u = x then v else f u

theorem upd_none (f : Tid → Option Tid) (v) : upd f none v = f := rfl
theorem upd_self (f : Tid → Option Tid) (x) (v) : upd f (some x) v x = v := by simp [upd]
theorem upd_ne (f : Tid → Option Tid) (q v u) (h : q ≠ some u) : upd f q v u = f u := by
  cases q with
  | none => rfl
  | some x =>
    have : ¬ u = x := fun e => h (by rw [e])
    simp [upd, this]

theorem Seg.congr {nx pr nx' pr' : Tid → Option Tid} : ∀ {b l e}, Seg nx pr b l e →
    (∀ t ∈ l, nx' t = nx t ∧ pr' t = pr t) → Seg nx' pr' b l e
  | _, [], _, _, _ => trivial
  | _, t :: l, _, h, hc => by
    obtain ⟨h1, h2, h3⟩ := h
    obtain ⟨c1, c2⟩ := hc t (by simp)
    exact ⟨by rw [c2, h1], by rw [c1, h2], h3.congr fun u hu => hc u (by simp [hu])⟩

theorem seg_append (nx pr : Tid → Option Tid) : ∀ (l₁ l₂ : List Tid) b e,
    Seg nx pr b (l₁ ++ l₂) e ↔
      Seg nx pr b l₁ (l₂.head?.or e) ∧ Seg nx pr (l₁.getLast?.or b) l₂ e
  | [], l₂, b, e => by simp [Seg]
  | t :: l₁, l₂, b, e => by
    have ih := seg_append nx pr l₁ l₂ (some t) e
    have e1 : (l₁ ++ l₂).head?.or e = l₁.head?.or (l₂.head?.or e) := by
      cases l₁ <;> simp
    have e2 : (t :: l₁).getLast?.or b = l₁.getLast?.or (some t) := by
      cases l₁ with
      | nil => simp
      | cons a l => simp [List.getLast?_cons]
    simp only [List.cons_append, Seg, ih, e1, e2]
    tauto

/-- The successor of the last member is changed. -/
theorem Seg.setLast {nx pr : Tid → Option Tid} {b l e} (e' : Option Tid) (h : Seg nx pr b l e)
    (nd : l.Nodup) : Seg (upd nx l.getLast? e') pr b l e' := by
  rcases List.eq_nil_or_concat l with rfl | ⟨l', x, rfl⟩
  · trivial
  · rw [List.concat_eq_append] at *
    rw [seg_append] at h ⊢
    obtain ⟨h1, h2, h3, -⟩ := h
    have nx' : x ∉ l' := by
      intro hx
      exact (List.nodup_append.1 nd).2.2 x hx x (by simp) rfl
    refine ⟨?_, h2, ?_, trivial⟩
    · refine Seg.congr (h1 : Seg nx pr b l' (some x)) fun u hu => ⟨upd_ne _ _ _ _ ?_, rfl⟩
      simp only [List.getLast?_append, List.getLast?_singleton]
      intro hc
      have : x = u := by simpa using hc
      exact nx' (this ▸ hu)
    · simp [upd]

/-- The predecessor of the first member is changed. -/
theorem Seg.setFirst {nx pr : Tid → Option Tid} {b l e} (b' : Option Tid) (h : Seg nx pr b l e)
    (nd : l.Nodup) : Seg nx (upd pr l.head? b') b' l e := by
  cases l with
  | nil => trivial
  | cons t l =>
    obtain ⟨-, h2, h3⟩ := h
    refine ⟨upd_self _ _ _, h2, h3.congr fun u hu => ⟨rfl, upd_ne _ _ _ _ ?_⟩⟩
    intro hc
    have : t = u := by simpa using hc
    exact (List.nodup_cons.1 nd).1 (this ▸ hu)

/-- A queue: its head, its tail and the links. -/
structure Links (nx pr : Tid → Option Tid) (l : List Tid) (hd tl : Option Tid) : Prop where
  head : hd = l.head?
  tail : tl = l.getLast?
  seg : Seg nx pr none l none

theorem Links.congr {nx pr nx' pr' : Tid → Option Tid} {l hd tl} (h : Links nx pr l hd tl)
    (hc : ∀ t ∈ l, nx' t = nx t ∧ pr' t = pr t) : Links nx' pr' l hd tl :=
  ⟨h.head, h.tail, h.seg.congr hc⟩

theorem head_append (l₁ l₂ : List Tid) : (l₁ ++ l₂).head? = l₁.head?.or l₂.head? := by
  cases l₁ <;> simp

theorem last_append (l₁ l₂ : List Tid) : (l₁ ++ l₂).getLast? = l₂.getLast?.or l₁.getLast? := by
  simp

theorem split_of_mem {t : Tid} {l : List Tid} (h : t ∈ l) (nd : l.Nodup) :
    ∃ l₁ l₂, l = l₁ ++ t :: l₂ ∧ t ∉ l₁ ∧ t ∉ l₂ ∧ l.erase t = l₁ ++ l₂ := by
  obtain ⟨l₁, l₂, rfl⟩ := List.append_of_mem h
  have h1 : t ∉ l₁ := fun hx => (List.nodup_append.1 nd).2.2 t hx t (by simp) rfl
  have h2 : t ∉ l₂ := (List.nodup_cons.1 (List.nodup_append.1 nd).2.1).1
  refine ⟨l₁, l₂, rfl, h1, h2, ?_⟩
  rw [List.erase_append_right _ h1]
  simp

/-- A member of a queue: its links. -/
theorem Links.mid {nx pr : Tid → Option Tid} {l₁ t l₂ hd tl}
    (h : Links nx pr (l₁ ++ t :: l₂) hd tl) :
    pr t = l₁.getLast? ∧ nx t = l₂.head? ∧ Seg nx pr none l₁ (some t) ∧
      Seg nx pr (some t) l₂ none := by
  have := (seg_append nx pr l₁ (t :: l₂) none none).1 h.seg
  obtain ⟨h1, h2, h3, h4⟩ := this
  exact ⟨by simpa using h2, by simpa using h3, by simpa using h1, h4⟩

/-- `unlink_thread`, as far as the links are concerned -/
theorem Links.unlink {nx pr : Tid → Option Tid} {l₁ t l₂ hd tl}
    (h : Links nx pr (l₁ ++ t :: l₂) hd tl) (nd : (l₁ ++ t :: l₂).Nodup) :
    Links (upd (upd nx (pr t) (nx t)) (some t) none) (upd (upd pr (nx t) (pr t)) (some t) none)
      (l₁ ++ l₂) (if hd = some t then nx t else hd) (if tl = some t then pr t else tl) := by
  obtain ⟨m1, m2, m3, m4⟩ := h.mid
  have hh := h.head
  have ht := h.tail
  have nd1 : l₁.Nodup := (List.nodup_append.1 nd).1
  have ndt := (List.nodup_append.1 nd).2.1
  have nd2 : l₂.Nodup := (List.nodup_cons.1 ndt).2
  have t2 : t ∉ l₂ := (List.nodup_cons.1 ndt).1
  have t1 : t ∉ l₁ := fun hx => (List.nodup_append.1 nd).2.2 t hx t (by simp) rfl
  have dis : ∀ u ∈ l₁, u ∉ l₂ := fun u hu hv =>
    (List.nodup_append.1 nd).2.2 u hu u (by simp [hv]) rfl
  rw [m1, m2]
  refine ⟨?_, ?_, ?_⟩
  · rw [hh, head_append, head_append]
    cases l₁ with
    | nil => simp
    | cons a l =>
      have : a ≠ t := fun e => t1 (by simp [e])
      simp [this]
  · rw [ht, last_append, last_append]
    rcases List.eq_nil_or_concat l₂ with rfl | ⟨l, x, rfl⟩
    · simp
    · have : x ≠ t := fun e => t2 (by simp [e])
      simp [List.getLast?_cons, this]
  · rw [seg_append]
    refine ⟨?_, ?_⟩
    · refine Seg.congr (m3.setLast l₂.head? nd1) ?_ |> fun h => by simpa using h
      intro u hu
      have ut : some t ≠ some u := by
        intro e; cases e; exact t1 hu
      refine ⟨upd_ne _ _ _ _ ut, ?_⟩
      rw [upd_ne _ _ _ _ ut, upd_ne]
      intro e
      exact dis u hu (List.mem_of_mem_head? (by rw [e]; rfl))
    · refine Seg.congr (m4.setFirst l₁.getLast? nd2) ?_ |> fun h => by simpa using h
      intro u hu
      have ut : some t ≠ some u := by
        intro e; cases e; exact t2 hu
      refine ⟨?_, upd_ne _ _ _ _ ut⟩
      rw [upd_ne _ _ _ _ ut, upd_ne]
      intro e
      exact dis u (List.mem_of_getLast? e) hu

/-- a thread at the end of a queue -/
theorem Links.addTail {nx pr : Tid → Option Tid} {l hd tl} {t : Tid} (h : Links nx pr l hd tl)
    (nd : l.Nodup) (ht : t ∉ l) (hn : nx t = none) :
    Links (upd nx tl (some t)) (upd pr (some t) tl) (l ++ [t])
      (if hd = none then some t else hd) (some t) := by
  refine ⟨?_, by simp, ?_⟩
  · rw [h.head, head_append]
    cases l <;> simp
  · rw [seg_append]
    refine ⟨?_, ?_⟩
    · rw [h.tail]
      refine (h.seg.setLast (some t) nd).congr fun u hu => ⟨rfl, upd_ne _ _ _ _ ?_⟩
      intro e; cases e; exact ht hu
    · refine ⟨by rw [upd_self, h.tail]; simp, ?_, trivial⟩
      rw [upd_ne, hn]
      · rfl
      · rw [h.tail]
        intro e
        exact ht (List.mem_of_getLast? e)

/-- a thread before a member of a queue -/
theorem Links.addBefore {nx pr : Tid → Option Tid} {l₁ l₂ hd tl} {t q : Tid}
    (h : Links nx pr (l₁ ++ q :: l₂) hd tl) (nd : (l₁ ++ q :: l₂).Nodup)
    (ht : t ∉ l₁ ++ q :: l₂) :
    Links (upd (upd nx (pr q) (some t)) (some t) (some q))
      (upd (upd pr (some t) (pr q)) (some q) (some t)) (l₁ ++ t :: q :: l₂)
      (if pr q = none then some t else hd) tl := by
  obtain ⟨m1, m2, m3, m4⟩ := h.mid
  have nd1 : l₁.Nodup := (List.nodup_append.1 nd).1
  have ndt := (List.nodup_append.1 nd).2.1
  have nd2 : l₂.Nodup := (List.nodup_cons.1 ndt).2
  have q2 : q ∉ l₂ := (List.nodup_cons.1 ndt).1
  have q1 : q ∉ l₁ := fun hx => (List.nodup_append.1 nd).2.2 q hx q (by simp) rfl
  have t1 : t ∉ l₁ := fun hx => ht (by simp [hx])
  have t2 : t ∉ l₂ := fun hx => ht (by simp [hx])
  have tq : t ≠ q := fun e => ht (by simp [e])
  have dis : ∀ u ∈ l₁, u ∉ l₂ := fun u hu hv =>
    (List.nodup_append.1 nd).2.2 u hu u (by simp [hv]) rfl
  refine ⟨?_, ?_, ?_⟩
  · rw [m1, h.head, head_append, head_append]
    rcases List.eq_nil_or_concat l₁ with rfl | ⟨l, x, rfl⟩
    · simp
    · simp [List.head?_append]
  · rw [h.tail]
    simp [List.getLast?_cons]
  · rw [seg_append]
    refine ⟨?_, ?_, ?_, ?_⟩
    · rw [m1]
      refine Seg.congr (m3.setLast (some t) nd1) ?_ |> fun h => by simpa using h
      intro u hu
      have ut : some t ≠ some u := by intro e; cases e; exact t1 hu
      have uq : some q ≠ some u := by intro e; cases e; exact q1 hu
      exact ⟨upd_ne _ _ _ _ ut, by rw [upd_ne _ _ _ _ uq, upd_ne _ _ _ _ ut]⟩
    · rw [upd_ne _ _ _ _ (by simpa using tq.symm), upd_self, m1]; simp
    · rw [upd_self]; simp
    · refine ⟨upd_self _ _ _, ?_, ?_⟩
      · rw [upd_ne _ _ _ _ (by simpa using tq), upd_ne, m2]
        · simp
        · rw [m1]; intro e; exact q1 (List.mem_of_getLast? e)
      · refine m4.congr fun u hu => ?_
        have ut : some t ≠ some u := by intro e; cases e; exact t2 hu
        have uq : some q ≠ some u := by intro e; cases e; exact q2 hu
        refine ⟨?_, by rw [upd_ne _ _ _ _ uq, upd_ne _ _ _ _ ut]⟩
        rw [upd_ne _ _ _ _ ut, upd_ne]
        rw [m1]; intro e; exact dis u (List.mem_of_getLast? e) hu

/-- A queue read from its head. -/
theorem walk_seg (p : P) : ∀ (l : List Tid) (b : Option Tid) (k : Nat),
    Seg p.next p.pred b l none → l.length ≤ k → p.walk k l.head? = l
  | [], _, k, _, _ => by cases k <;> rfl
  | t :: l, b, k, h, hk => by
    cases k with
    | zero => simp at hk
    | succ k =>
      obtain ⟨-, h2, h3⟩ := h
      have := walk_seg p l (some t) k h3 (by simpa using hk)
      simp only [List.head?_cons, P.walk, h2, Option.or_none, this]

/-- A queue read from its tail. -/
theorem walkBack_seg (p : P) (e : Option Tid) : ∀ (k : Nat) (l : List Tid) ,
    Seg p.next p.pred none l e → l.length ≤ k → p.walkBack k l.getLast? = l.reverse
  | k, l, h, hk => by
    induction k generalizing l e with
    | zero =>
      have : l = [] := List.length_eq_zero_iff.1 (by omega)
      subst this; rfl
    | succ k ih =>
      rcases List.eq_nil_or_concat l with rfl | ⟨l', x, rfl⟩
      · rfl
      · rw [List.concat_eq_append] at *
        have h' := (seg_append _ _ l' [x] none e).1 h
        obtain ⟨h1, h2, -, -⟩ := h'
        have := ih _ l' h1 (by simp at hk; omega)
        simp [P.walkBack, h2, this]

end Rep.Threads
