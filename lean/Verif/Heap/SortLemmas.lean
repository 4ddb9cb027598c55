/-
`sort` refines a functional merge sort on the list's cells.
-/
import Verif.Heap.Lemmas
import Mathlib.Data.List.Basic

namespace Rep.Lists

/-- The merge loop followed by the code after it (sort.jl:57-75). -/
def sort.finish (r : Heap × V × V × V × V) : Option (Heap × V) :=
  match r with
  | (h, lst, mid, outHead, out) =>
      if lst ≠ .nil ∨ mid ≠ .nil then
        let r := if lst ≠ .nil then lst else mid
        if out ≠ .nil then some ((rplacd h out r).1, outHead)
        else some (h, r)
      else some (h, outHead)

/-- The cells built so far: `out` is the last of them. -/
def OutOk (h : Heap) (outHead out : V) (os : List Nat) : Prop :=
  (os = [] ∧ outHead = .nil ∧ out = .nil) ∨
    ∃ ps o w, os = ps ++ [o] ∧ out = .cell o ∧ Spine h outHead os w

theorem rplacd_rw {h : Heap} {o : Nat} {v : V} :
    (rplacd h (.cell o) v).1 = setCdr h o v := by
  rfl

theorem setCdr_ne {h : Heap} {a b : Nat} {v : V} (hb : b ≠ a) : (setCdr h a v).cdr b = h.cdr b := by
  simp [setCdr, Function.update_of_ne hb]

theorem setCdr_self {h : Heap} {a : Nat} {v : V} : (setCdr h a v).cdr a = v := by
  simp [setCdr]

theorem setCdr_only {h : Heap} {a : Nat} {v : V} {as : List Nat} (ha : a ∈ as) :
    OnlyCdrsOf as h (setCdr h a v) :=
  ⟨rfl, rfl, fun b hb => setCdr_ne (by rintro rfl; exact hb ha)⟩

theorem OnlyCdrsOf.refl (as : List Nat) (h : Heap) : OnlyCdrsOf as h h := ⟨rfl, rfl, fun _ _ => rfl⟩

theorem OnlyCdrsOf.mono {as bs : List Nat} {h h' : Heap} (o : OnlyCdrsOf as h h') (hs : ∀ a ∈ as, a ∈ bs) :
    OnlyCdrsOf bs h h' :=
  ⟨o.1, o.2.1, fun a ha => o.2.2 a fun hm => ha (hs a hm)⟩

theorem OnlyCdrsOf.trans' {as : List Nat} {h1 h2 h3 : Heap} (a : OnlyCdrsOf as h1 h2)
    (b : OnlyCdrsOf as h2 h3) : OnlyCdrsOf as h1 h3 :=
  (a.trans b).mono fun x hx => by simpa using hx

theorem Spine.only {h h' : Heap} {v w : V} {as bs : List Nat} (hs : Spine h v as w) (o : OnlyCdrsOf bs h h')
    (hd : ∀ a ∈ as, a ∉ bs) : Spine h' v as w :=
  hs.congr o.1.ge fun a ha => o.2.2 a (hd a ha)

/-- Ending a chain of cells with `v`. -/
theorem OutOk.link {h : Heap} {outHead : V} {ps : List Nat} {o : Nat} {w : V} (v : V)
    (hs : Spine h outHead (ps ++ [o]) w) (hn : (ps ++ [o]).Nodup) :
    Spine (setCdr h o v) outHead (ps ++ [o]) v := by
  have := (write_end hs hn v).1
  rw [locEnd_append] at this
  exact this

theorem merge_loop_nil {pred : V → V → Bool} {h : Heap} {lst mid outHead out : V}
    (hn : lst = .nil ∨ mid = .nil) :
    sort.merge pred h lst mid outHead out = some (h, lst, mid, outHead, out) := by
  rw [sort.merge.eq_def]
  cases lst <;> cases mid <;> simp_all

theorem merge_loop_cell {pred : V → V → Bool} {h : Heap} {a b : Nat} {outHead out : V} :
    sort.merge pred h (.cell a) (.cell b) outHead out =
      if pred (h.car b) (h.car a) then
        (if out ≠ .nil then sort.merge pred (rplacd h out (.cell b)).1 (.cell a) (h.cdr b) outHead (.cell b)
         else sort.merge pred h (.cell a) (h.cdr b) (.cell b) (.cell b))
      else
        (if out ≠ .nil then sort.merge pred (rplacd h out (.cell a)).1 (h.cdr a) (.cell b) outHead (.cell a)
         else sort.merge pred h (h.cdr a) (.cell b) (.cell a) (.cell a)) := by
  rw [sort.merge.eq_def]
  by_cases hp : pred (h.car b) (h.car a) = true <;> simp [car, cdr, hp]

theorem Spine.eq_nil {h : Heap} {v : V} {as : List Nat} (hs : Spine h v as .nil) : v = .nil ↔ as = [] := by
  cases as with
  | nil => simpa using (show v = .nil from hs)
  | cons a as => obtain ⟨rfl, _⟩ := hs; simp

/-- Appending what is left. -/
theorem finish_spec {h : Heap} {xs os : List Nat} {v outHead out : V} (all : List Nat)
    (hx : Spine h v xs .nil) (ho : OutOk h outHead out os)
    (hn : (os ++ xs).Nodup) (hall : ∀ a ∈ os ++ xs, a ∈ all) :
    ∃ h' r, (if out ≠ .nil then some ((rplacd h out v).1, outHead) else some (h, v)) = some (h', r) ∧
      Spine h' r (os ++ xs) .nil ∧ OnlyCdrsOf all h h' := by
  rcases ho with ⟨rfl, rfl, rfl⟩ | ⟨ps, o, w, rfl, rfl, hs⟩
  · exact ⟨h, v, by simp, hx, OnlyCdrsOf.refl _ _⟩
  · refine ⟨setCdr h o v, outHead, ?_, ?_, setCdr_only (hall o (by simp))⟩
    · rw [rplacd_rw]; simp
    · refine Spine.append_iff.2 ⟨v, OutOk.link v hs (List.nodup_append.1 hn).1, ?_⟩
      refine hx.only (setCdr_only (as := [o]) (by simp)) ?_
      intro a ha hao
      have : a = o := by simpa using hao
      subst this
      exact (List.nodup_append.1 hn).2.2 a (by simp) a ha rfl

/-- Adding one cell to the cells built so far. -/
theorem OutOk.push {h : Heap} {outHead out : V} {os : List Nat} {m : Nat} (ho : OutOk h outHead out os)
    (hm : m < h.next) (hn : (os ++ [m]).Nodup) :
    ∃ h' outHead', OutOk h' outHead' (.cell m) (os ++ [m]) ∧ OnlyCdrsOf os h h' ∧
      (if out ≠ .nil then ((rplacd h out (.cell m)).1, outHead) else (h, .cell m)) = (h', outHead') := by
  rcases ho with ⟨rfl, rfl, rfl⟩ | ⟨ps, o, w, rfl, rfl, hs⟩
  · exact ⟨h, .cell m, Or.inr ⟨[], m, h.cdr m, rfl, rfl, rfl, hm, rfl⟩, OnlyCdrsOf.refl _ _, by simp⟩
  · refine ⟨setCdr h o (.cell m), outHead, Or.inr ⟨ps ++ [o], m, (setCdr h o (.cell m)).cdr m, rfl, rfl, ?_⟩,
      setCdr_only (by simp), ?_⟩
    · exact Spine.append_iff.2 ⟨.cell m, OutOk.link _ hs (List.nodup_append.1 hn).1, rfl, hm, rfl⟩
    · rw [rplacd_rw]; simp

theorem sort_merge_spec (pred : V → V → Bool) (all : List Nat) :
    ∀ (n : Nat) (h : Heap) (xs ys os : List Nat) (lst mid outHead out : V),
      xs.length + ys.length = n → (xs ≠ [] ∨ ys ≠ []) →
      Spine h lst xs .nil → Spine h mid ys .nil → OutOk h outHead out os →
      (os ++ (xs ++ ys)).Nodup →
      (∀ a ∈ os ++ (xs ++ ys), a ∈ all) →
      ∃ h' r, (sort.merge pred h lst mid outHead out >>= sort.finish) = some (h', r) ∧
        Spine h' r (os ++ List.merge xs ys (fun a b => !pred (h.car b) (h.car a))) .nil ∧
        OnlyCdrsOf all h h' := by
  intro n
  induction n with
  | zero =>
    intro h xs ys os lst mid outHead out hlen hne
    have hx0 : xs = [] := List.eq_nil_of_length_eq_zero (by omega)
    have hy0 : ys = [] := List.eq_nil_of_length_eq_zero (by omega)
    rcases hne with h | h <;> contradiction
  | succ n ih =>
    intro h xs ys os lst mid outHead out hlen hne hx hy ho hn hall
    cases xs with
    | nil =>
      have hx : lst = .nil := hx
      subst hx
      have hm : mid ≠ .nil := by
        rw [ne_eq, hy.eq_nil]; simpa using hne
      rw [merge_loop_nil (Or.inl rfl)]
      simp only [List.nil_append, List.nil_merge] at *
      obtain ⟨h', r, e, r1, r2⟩ := finish_spec all hy ho hn hall
      refine ⟨h', r, ?_, r1, r2⟩
      rw [← e]
      simp [sort.finish, hm]
    | cons a xs =>
    cases ys with
    | nil =>
      have hy : mid = .nil := hy
      subst hy
      have hm : lst ≠ .nil := by
        rw [ne_eq, hx.eq_nil]; simp
      rw [merge_loop_nil (Or.inr rfl)]
      simp only [List.append_nil, List.merge_right] at *
      obtain ⟨h', r, e, r1, r2⟩ := finish_spec all hx ho hn hall
      refine ⟨h', r, ?_, r1, r2⟩
      rw [← e]
      simp [sort.finish, hm]
    | cons b ys =>
      obtain ⟨rfl, hla, hx⟩ := hx
      obtain ⟨rfl, hlb, hy⟩ := hy
      have hdis : ∀ x ∈ os, x ∉ a :: xs ∧ x ∉ b :: ys := by
        intro x hxm
        have := (List.nodup_append.1 hn).2.2 x hxm
        exact ⟨fun hm => this x (List.mem_append_left _ hm) rfl, fun hm => this x (List.mem_append_right _ hm) rfl⟩
      rw [merge_loop_cell]
      by_cases hp : pred (h.car b) (h.car a) = true
      · rw [if_pos hp]
        have hperm : ((os ++ [b]) ++ ((a :: xs) ++ ys)).Perm (os ++ ((a :: xs) ++ (b :: ys))) := by
          rw [List.append_assoc]
          refine List.Perm.append_left os ?_
          exact (List.perm_middle (l₁ := a :: xs)).symm
        obtain ⟨h1, oh1, o1, k1, e1⟩ := ho.push hlb
          ((hperm.nodup_iff.2 hn).sublist (List.sublist_append_left _ _))
        have hnb : b ∉ os := fun hm => (hdis b hm).2 (by simp)
        have hya : Spine h1 (h.cdr b) ys .nil := hy.only k1 fun x hx hxo => (hdis x hxo).2 (by simp [hx])
        have hxa : Spine h1 (.cell a) (a :: xs) .nil :=
          Spine.only (h := h) ⟨rfl, hla, hx⟩ k1 fun x hx hxo => (hdis x hxo).1 hx
        obtain ⟨h', r, e, r1, r2⟩ := ih h1 (a :: xs) ys (os ++ [b]) (.cell a) (h.cdr b) oh1 (.cell b)
          (by simp at hlen ⊢; omega) (Or.inl (by simp)) hxa hya o1 (hperm.nodup_iff.2 hn)
          (fun x hx => hall x (hperm.mem_iff.1 hx))
        refine ⟨h', r, ?_, ?_, (k1.mono fun x hx => hall x (List.mem_append_left _ hx)).trans' r2⟩
        · by_cases hout : out = .nil
          · subst hout
            simp only [ne_eq, not_true_eq_false, if_false, Prod.mk.injEq] at e1 ⊢
            obtain ⟨rfl, rfl⟩ := e1
            exact e
          · simp only [ne_eq, hout, not_false_eq_true, if_true, Prod.mk.injEq] at e1 ⊢
            rw [e1.1, e1.2]; exact e
        · rw [k1.2.1] at r1
          rw [List.cons_merge_cons_neg _ _ _ (by simp [hp])]
          rw [List.append_assoc] at r1
          exact r1
      · rw [if_neg hp]
        have hperm : ((os ++ [a]) ++ (xs ++ (b :: ys))).Perm (os ++ ((a :: xs) ++ (b :: ys))) := by
          rw [List.append_assoc]; exact List.Perm.refl _
        obtain ⟨h1, oh1, o1, k1, e1⟩ := ho.push hla
          ((hperm.nodup_iff.2 hn).sublist (List.sublist_append_left _ _))
        have hnb : a ∉ os := fun hm => (hdis a hm).1 (by simp)
        have hxa : Spine h1 (h.cdr a) xs .nil := hx.only k1 fun x hx hxo => (hdis x hxo).1 (by simp [hx])
        have hya : Spine h1 (.cell b) (b :: ys) .nil :=
          Spine.only (h := h) ⟨rfl, hlb, hy⟩ k1 fun x hx hxo => (hdis x hxo).2 hx
        obtain ⟨h', r, e, r1, r2⟩ := ih h1 xs (b :: ys) (os ++ [a]) (h.cdr a) (.cell b) oh1 (.cell a)
          (by simp at hlen ⊢; omega) (Or.inr (by simp)) hxa hya o1 (hperm.nodup_iff.2 hn)
          (fun x hx => hall x (hperm.mem_iff.1 hx))
        refine ⟨h', r, ?_, ?_, (k1.mono fun x hx => hall x (List.mem_append_left _ hx)).trans' r2⟩
        · by_cases hout : out = .nil
          · subst hout
            simp only [ne_eq, not_true_eq_false, if_false, Prod.mk.injEq] at e1 ⊢
            obtain ⟨rfl, rfl⟩ := e1
            exact e
          · simp only [ne_eq, hout, not_false_eq_true, if_true, Prod.mk.injEq] at e1 ⊢
            rw [e1.1, e1.2]; exact e
        · rw [k1.2.1] at r1
          rw [List.cons_merge_cons_pos _ _ _ (by simp [hp])]
          rw [List.append_assoc] at r1
          exact r1

theorem merge_sublist_left {α : Type} (le : α → α → Bool) : ∀ xs ys : List α, xs.Sublist (List.merge xs ys le)
  | [], ys => by simp
  | x :: xs, [] => by simp
  | x :: xs, y :: ys => by
    by_cases h : le x y = true
    · rw [List.cons_merge_cons_pos _ _ _ h]; exact (merge_sublist_left le xs (y :: ys)).cons_cons x
    · rw [List.cons_merge_cons_neg _ _ _ h]; exact (merge_sublist_left le (x :: xs) ys).cons y

theorem merge_sublist_right {α : Type} (le : α → α → Bool) : ∀ xs ys : List α, ys.Sublist (List.merge xs ys le)
  | [], ys => by simp
  | x :: xs, [] => by simp
  | x :: xs, y :: ys => by
    by_cases h : le x y = true
    · rw [List.cons_merge_cons_pos _ _ _ h]; exact (merge_sublist_right le xs (y :: ys)).cons x
    · rw [List.cons_merge_cons_neg _ _ _ h]; exact (merge_sublist_right le (x :: xs) ys).cons_cons y

/-- An element of the left list stays before an element of the right list that is not smaller. -/
theorem merge_cross {α : Type} (le : α → α → Bool) (trans : ∀ a b c, le a b → le b c → le a c) :
    ∀ xs ys : List α, xs.Pairwise (le · ·) →
      ∀ a ∈ xs, ∀ b ∈ ys, le a b → [a, b].Sublist (List.merge xs ys le)
  | [], ys, _, a, ha, b, hb, hab => by simp at ha
  | x :: xs, [], _, a, ha, b, hb, hab => by simp at hb
  | x :: xs, y :: ys, hp, a, ha, b, hb, hab => by
    rw [List.pairwise_cons] at hp
    by_cases h : le x y = true
    · rw [List.cons_merge_cons_pos _ _ _ h]
      rcases List.mem_cons.1 ha with rfl | ha
      · refine List.Sublist.cons_cons _ (List.singleton_sublist.2 ?_)
        exact List.mem_merge.2 (Or.inr hb)
      · exact (merge_cross le trans xs (y :: ys) hp.2 a ha b hb hab).cons x
    · rw [List.cons_merge_cons_neg _ _ _ h]
      rcases List.mem_cons.1 hb with rfl | hb
      · exfalso
        rcases List.mem_cons.1 ha with rfl | ha
        · exact h hab
        · exact h (trans _ _ _ (hp.1 a ha) hab)
      · exact (merge_cross le trans (x :: xs) ys (List.pairwise_cons.2 hp) a ha b hb hab).cons y

/-- Elements of a two-element sublist of an append. -/
theorem pair_sublist_append {α : Type} {a b : α} {xs ys : List α} (h : [a, b].Sublist (xs ++ ys)) :
    [a, b].Sublist xs ∨ [a, b].Sublist ys ∨ (a ∈ xs ∧ b ∈ ys) := by
  obtain ⟨l1, l2, e, h1, h2⟩ := List.sublist_append_iff.1 h
  match l1, l2, e with
  | [], l2, e => simp only [List.nil_append] at e; subst e; exact Or.inr (Or.inl h2)
  | [c], l2, e =>
    simp only [List.singleton_append, List.cons.injEq] at e
    obtain ⟨rfl, rfl⟩ := e
    exact Or.inr (Or.inr ⟨h1.subset (by simp), h2.subset (by simp)⟩)
  | c :: d :: l1, l2, e =>
    simp only [List.cons_append, List.cons.injEq] at e
    obtain ⟨rfl, rfl, e⟩ := e
    have : l1 = [] := by cases l1 with | nil => rfl | cons x l => simp at e
    subst this
    exact Or.inl h1

theorem sort_eq_finish {pred : V → V → Bool} {h : Heap} {lst : V} {n : Nat} (hl : length h lst = some n)
    (hn : ¬ n < 2) :
    sort pred h lst = (do
      let mid := nthcdr.loop h (n / 2 - 1) lst
      let r1 ← sort pred (rplacd h mid .nil).1 lst
      let r2 ← sort pred r1.1 (cdr h mid)
      sort.merge pred r2.1 r1.2 r2.2 .nil .nil >>= sort.finish) := by
  rw [sort.eq_def, hl]
  simp only [Option.bind_eq_bind, Option.bind_some, if_neg hn]
  rfl

theorem sort_spec (pred : V → V → Bool)
    (trans : ∀ a b c, pred b a = false → pred c b = false → pred c a = false)
    (asym : ∀ a b, pred a b = true → pred b a = false) :
    ∀ (n : Nat) (h : Heap) (as : List Nat) (lst : V), as.length = n →
      Spine h lst as .nil → as.Nodup →
      ∃ h' r bs, sort pred h lst = some (h', r) ∧ Spine h' r bs .nil ∧ OnlyCdrsOf as h h' ∧ bs.Perm as ∧
        bs.Pairwise (fun a b => pred (h.car b) (h.car a) = false) ∧
        (∀ a b, [a, b].Sublist as → pred (h.car b) (h.car a) = false → [a, b].Sublist bs) := by
  intro n
  induction n using Nat.strong_induction_on with
  | _ n ih =>
  intro h as lst hlen hs hn
  have hnilA : IsAtom .nil := fun a => by simp
  have hl : length h lst = some n := by
    have := length_loop_spec hnilA as 0 lst hs
    rw [Nat.zero_add, hlen] at this
    exact this
  by_cases hn2 : n < 2
  · refine ⟨h, lst, as, ?_, hs, OnlyCdrsOf.refl _ _, List.Perm.refl _, ?_, fun a b h _ => h⟩
    · rw [sort.eq_def, hl]; simp [hn2]
    · match as, hlen with
      | [], _ => simp
      | [a], _ => simp
      | a :: b :: as, hlen => simp at hlen; omega
  · obtain ⟨ps, o, ys, has, hpl⟩ : ∃ ps o ys, as = ps ++ o :: ys ∧ ps.length = n / 2 - 1 := by
      refine ⟨as.take (n / 2 - 1), as[n / 2 - 1]'(by omega), as.drop (n / 2 - 1 + 1), ?_, by simp; omega⟩
      rw [← List.drop_eq_getElem_cons, List.take_append_drop]
    have hxs : (ps ++ [o]).length = n / 2 := by simp; omega
    have hys : ys.length = n - n / 2 := by
      have := congrArg List.length has
      simp at this; omega
    have has' : as = (ps ++ [o]) ++ ys := by rw [has]; simp
    subst has'
    have hmid : nthcdr.loop h (n / 2 - 1) lst = .cell o := by
      rw [nthcdr_loop_spec hnilA _ _ lst hs, List.append_assoc, List.drop_append, List.drop_of_length_le (by omega)]
      simp [hpl, startOf]
    obtain ⟨u, hs1, hs2⟩ := Spine.append_iff.1 hs
    have hou : h.cdr o = u := by
      obtain ⟨_, _, hh⟩ := Spine.append_iff.1 hs1
      exact hh.2.2
    subst hou
    rw [sort_eq_finish hl hn2, hmid]
    simp only [cdr, rplacd_rw]
    have hnx : (ps ++ [o]).Nodup := (List.nodup_append.1 hn).1
    have hny : ys.Nodup := (List.nodup_append.1 hn).2.1
    have hdis : ∀ x ∈ ps ++ [o], x ∉ ys := fun x hx hy => (List.nodup_append.1 hn).2.2 x hx x hy rfl
    have k0 : OnlyCdrsOf (ps ++ [o]) h (setCdr h o .nil) := setCdr_only (by simp)
    obtain ⟨h1, r1, bs1, e1, s1, k1, p1, q1, t1⟩ := ih (n / 2) (by omega) (setCdr h o .nil) (ps ++ [o]) lst hxs
      (OutOk.link .nil hs1 hnx) hnx
    have k01 := k0.trans' k1
    obtain ⟨h2, r2, bs2, e2, s2, k2, p2, q2, t2⟩ := ih (n - n / 2) (by omega) h1 ys (h.cdr o) hys
      (hs2.only k01 fun a ha hx => hdis a hx ha) hny
    have k012 := k01.trans k2
    have s1' : Spine h2 r1 bs1 .nil := s1.only k2 fun a ha hy => hdis a (p1.mem_iff.1 ha) hy
    have hpm : (bs1 ++ bs2).Perm (ps ++ [o] ++ ys) := p1.append p2
    obtain ⟨h3, r3, e3, s3, k3⟩ := sort_merge_spec pred (ps ++ [o] ++ ys) _ h2 bs1 bs2 [] r1 r2 .nil .nil rfl
      (Or.inl (by
        intro hb
        have := p1.length_eq
        rw [hb] at this
        simp at this))
      s1' s2 (Or.inl ⟨rfl, rfl, rfl⟩) (hpm.nodup_iff.2 hn)
      (fun a ha => hpm.mem_iff.1 ha)
    have hc1 : (setCdr h o .nil).car = h.car := rfl
    have hc2 : h1.car = h.car := k01.2.1
    have hc3 : h2.car = h.car := k012.2.1
    rw [hc1] at q1 t1
    rw [hc2] at q2 t2
    rw [hc3, List.nil_append] at s3
    set le : Nat → Nat → Bool := fun a b => !pred (h.car b) (h.car a) with hle
    have ltrans : ∀ a b c, le a b → le b c → le a c := by
      intro a b c hab hbc
      simp only [hle, Bool.not_eq_true'] at *
      exact trans _ _ _ hab hbc
    have q1' : bs1.Pairwise (le · ·) := q1.imp fun h => by simpa [hle] using h
    refine ⟨h3, r3, _, ?_, s3, k012.trans' k3, List.Perm.trans (List.merge_perm_append _) hpm, ?_, ?_⟩
    · simp only [Option.bind_eq_bind, e1, e2, Option.bind_some]
      exact e3
    · have := List.pairwise_merge (le := le) ltrans (fun a b => by
        simp only [hle]
        cases hab : pred (h.car b) (h.car a) with
        | false => simp
        | true => simp [asym _ _ hab]) bs1 bs2 q1' (q2.imp fun h => by simpa [hle] using h)
      exact this.imp fun h => by simpa [hle] using h
    · intro a b hsub hpab
      rcases pair_sublist_append hsub with hx | hy | ⟨ha, hb⟩
      · exact (t1 a b hx hpab).trans (merge_sublist_left _ _ _)
      · exact (t2 a b hy hpab).trans (merge_sublist_right _ _ _)
      · exact merge_cross le ltrans bs1 bs2 q1' a (p1.mem_iff.2 ha) b (p2.mem_iff.2 hb) (by simpa [hle] using hpab)

end Rep.Lists
