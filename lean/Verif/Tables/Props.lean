/-
Property C11: hash tables are finite maps.
-/
import Verif.Tables.Model
import Mathlib.Data.List.Perm.Basic
import Mathlib.Data.List.Pairwise
import Mathlib.Data.List.Induction

namespace Rep.Tables

variable {K V : Type}

/-! ### Specification -/

inductive Op (K V : Type) where
  | set (key : K) (value : V)
  | unset (key : K)

/-- The value bound to a key after a history (oldest operation first): that of the
last `set` for an equivalent key, unless an `unset` came later. -/
def bindingOf (eqv : K → K → Bool) (k : K) (ops : List (Op K V)) : Option V :=
  ops.foldl (fun cur op => match op with
    | .set k' v => if eqv k k' then some v else cur
    | .unset k' => if eqv k k' then none else cur) none

/-- The comparison is an equivalence relation, and equivalent keys have the same
hash. -/
structure Compatible (hash : K → Nat) (eqv : K → K → Bool) : Prop where
  refl : ∀ a, eqv a a = true
  symm : ∀ a b, eqv a b = true → eqv b a = true
  trans : ∀ a b c, eqv a b = true → eqv b c = true → eqv a c = true
  hash : ∀ a b, eqv a b = true → hash a = hash b

/-- The code's effect of a history. -/
def run (hash : K → Nat) (eqv : K → K → Bool) (t : Table K V) (ops : List (Op K V)) : Table K V :=
  ops.foldl (fun t op => match op with
    | .set k v => set hash eqv t k v
    | .unset k => (unset hash eqv t k).1) t

/-! ### Proofs -/

/-- The nodes of the table. -/
def nodes (t : Table K V) : List (Node K V) := t.buckets.flatten

structure WF (hash : K → Nat) (eqv : K → K → Bool) (t : Table K V) : Prop where
  place : ∀ i chain, t.buckets[i]? = some chain → ∀ n ∈ chain, n.hash = hash n.key ∧ n.hash % t.buckets.length = i
  distinct : (nodes t).Pairwise fun a b => eqv a.key b.key = false
  count : t.totalNodes = (nodes t).length

theorem flatten_split {α : Type} (bs : List (List α)) (i : Nat) (p q : List α) (x : List α)
    (h : bs[i]? = some (p ++ x ++ q)) :
    ∃ a b, bs.flatten = a ++ x ++ b ∧ ∀ y, (bs.set i (p ++ y ++ q)).flatten = a ++ y ++ b := by
  have hi := (List.getElem?_eq_some_iff.mp h).1
  have hv := (List.getElem?_eq_some_iff.mp h).2
  refine ⟨(bs.take i).flatten ++ p, q ++ (bs.drop (i + 1)).flatten, ?_, ?_⟩
  · conv_lhs => rw [← List.take_append_drop i bs, List.drop_eq_getElem_cons hi, hv]
    simp
  · intro y
    rw [List.set_eq_take_append_cons_drop, if_pos hi]
    simp

theorem modify_eq_set {α : Type} (f : α → α) (l : List α) (i : Nat) (x : α) (h : l[i]? = some x) :
    l.modify i f = l.set i (f x) := by
  rw [List.modify_eq_set_getElem?, h]; rfl

section
variable {hash : K → Nat} {eqv : K → K → Bool}

/-- Where `lookup` finds something, it is a node of the table with an equivalent key. -/
theorem lookup_some {t : Table K V} {key : K} {i j : Nat} (h : lookup hash eqv t key = some (i, j)) :
    ∃ p n q, t.buckets[i]? = some (p ++ [n] ++ q) ∧ p.length = j ∧ eqv key n.key = true ∧ n.hash = hash key ∧
      i = hash key % t.buckets.length ∧ nodeAt t (i, j) = some n := by
  unfold lookup at h
  split at h
  · simp at h
  · rename_i h0
    simp only [Option.map_eq_some_iff, Prod.mk.injEq] at h
    obtain ⟨j', hj, rfl, rfl⟩ := h
    rw [List.findIdx?_eq_some_iff_getElem] at hj
    obtain ⟨hlt, hn, _⟩ := hj
    simp only [Bool.and_eq_true, beq_iff_eq] at hn
    have hb : bin t (hash key) < t.buckets.length := Nat.mod_lt _ (by omega)
    have hg : t.buckets[bin t (hash key)]? = some t.buckets[bin t (hash key)] := List.getElem?_eq_getElem hb
    have hchain : (t.buckets[bin t (hash key)]?).getD [] = t.buckets[bin t (hash key)] := by rw [hg]; rfl
    refine ⟨((t.buckets[bin t (hash key)]?).getD []).take j', ((t.buckets[bin t (hash key)]?).getD [])[j'],
      ((t.buckets[bin t (hash key)]?).getD []).drop (j' + 1), ?_, ?_, hn.2, hn.1, rfl, ?_⟩
    · have e : ∀ (l : List (Node K V)) (h : j' < l.length), l.take j' ++ [l[j']] ++ l.drop (j' + 1) = l := by
        intro l h
        rw [List.append_assoc, List.singleton_append, ← List.drop_eq_getElem_cons h, List.take_append_drop]
      rw [e _ hlt, hchain]; exact hg
    · rw [List.length_take]; omega
    · simp only [nodeAt]
      exact List.getElem?_eq_getElem hlt

theorem mem_nodes {t : Table K V} {n : Node K V} (h : n ∈ nodes t) :
    ∃ (i : Nat) (chain : List (Node K V)), t.buckets[i]? = some chain ∧ n ∈ chain := by
  rw [nodes, List.mem_flatten] at h
  obtain ⟨chain, hc, hn⟩ := h
  obtain ⟨i, hi⟩ := List.mem_iff_getElem?.mp hc
  exact ⟨i, chain, hi, hn⟩

/-- Where `lookup` finds nothing, no node has an equivalent key. -/
theorem lookup_none (hc : Compatible hash eqv) {t : Table K V} (hw : WF hash eqv t) {key : K}
    (h : lookup hash eqv t key = none) : ∀ n ∈ nodes t, eqv key n.key = false := by
  intro n hn
  obtain ⟨i, chain, hi, hm⟩ := mem_nodes hn
  obtain ⟨h1, h2⟩ := hw.place i chain hi n hm
  by_contra hne
  have he : eqv key n.key = true := by simpa using hne
  have hh := hc.hash _ _ he
  have hlen : i < t.buckets.length := (List.getElem?_eq_some_iff.mp hi).1
  unfold lookup at h
  rw [if_neg (by omega)] at h
  simp only [Option.map_eq_none_iff, List.findIdx?_eq_none_iff] at h
  have hb : bin t (hash key) = i := by rw [bin, hh, ← h1, h2]
  rw [hb, hi] at h
  have := h n (by simpa using hm)
  simp [he, h1, hh] at this

theorem flatten_push (bs : List (List (Node K V))) (i : Nat) (n : Node K V) (hi : i < bs.length) :
    (push bs i n).flatten.Perm (n :: bs.flatten) ∧ (push bs i n).length = bs.length := by
  obtain ⟨a, b, e1, e2⟩ := flatten_split bs i [] bs[i] [] (by simpa using List.getElem?_eq_getElem hi)
  refine ⟨?_, by simp [push]⟩
  have hg : (bs[i]?).getD [] = bs[i] := by rw [List.getElem?_eq_getElem hi]; rfl
  rw [push, hg]
  have := e2 [n]
  simp only [List.nil_append, List.singleton_append, List.append_nil] at this e1
  rw [this, e1]
  simp only [List.append_assoc, List.singleton_append]
  exact List.perm_middle

theorem place_push {bs : List (List (Node K V))} {n : Node K V} (m : Nat) (hm : m = bs.length)
    (h : ∀ i chain, bs[i]? = some chain → ∀ x ∈ chain, x.hash = hash x.key ∧ x.hash % m = i)
    (hn : n.hash = hash n.key) :
    ∀ i chain, (push bs (n.hash % m) n)[i]? = some chain → ∀ x ∈ chain, x.hash = hash x.key ∧ x.hash % m = i := by
  intro i chain hc x hx
  rw [push, List.getElem?_set] at hc
  split at hc
  · rename_i heq
    subst heq
    split at hc
    · rename_i hlt
      simp only [Option.some.injEq] at hc
      subst hc
      rcases List.mem_cons.mp hx with rfl | hx
      · exact ⟨hn, rfl⟩
      · rw [List.getElem?_eq_getElem hlt] at hx
        exact h _ _ (List.getElem?_eq_getElem hlt) x hx
    · simp at hc
  · exact h i chain hc x hx

theorem grow_spec {t : Table K V} (hp : ∀ n ∈ nodes t, n.hash = hash n.key) :
    (nodes (grow t)).Perm (nodes t) ∧ (grow t).totalNodes = t.totalNodes ∧ 0 < (grow t).buckets.length ∧
      ∀ i chain, (grow t).buckets[i]? = some chain → ∀ n ∈ chain, n.hash = hash n.key ∧
        n.hash % (grow t).buckets.length = i := by
  obtain ⟨m, hm⟩ : ∃ m, (if t.buckets.length = 0 then 31 else (t.buckets.length + 1) * 2 - 1) = m := ⟨_, rfl⟩
  have hm0 : 0 < m := by rw [← hm]; split <;> omega
  have key : ∀ (l : List (Node K V)) (bs : List (List (Node K V))), bs.length = m →
      (∀ n ∈ l, n.hash = hash n.key) →
      (∀ i chain, bs[i]? = some chain → ∀ n ∈ chain, n.hash = hash n.key ∧ n.hash % m = i) →
      (l.foldl (fun bs n => push bs (n.hash % m) n) bs).flatten.Perm (l ++ bs.flatten) ∧
      (l.foldl (fun bs n => push bs (n.hash % m) n) bs).length = m ∧
      (∀ i chain, (l.foldl (fun bs n => push bs (n.hash % m) n) bs)[i]? = some chain →
        ∀ n ∈ chain, n.hash = hash n.key ∧ n.hash % m = i) := by
    intro l
    induction l with
    | nil => intro bs hl _ h; exact ⟨by simp, hl, h⟩
    | cons n l ih =>
      intro bs hl hn h
      rw [List.foldl_cons]
      obtain ⟨q1, q2⟩ := flatten_push bs (n.hash % m) n (by rw [hl]; exact Nat.mod_lt _ hm0)
      obtain ⟨r1, r2, r3⟩ := ih (push bs (n.hash % m) n) (by rw [q2, hl]) (fun x hx => hn x (by simp [hx]))
        (place_push m hl.symm h (hn n (by simp)))
      refine ⟨r1.trans ?_, r2, r3⟩
      exact (q1.append_left l).trans List.perm_middle
  obtain ⟨r1, r2, r3⟩ := key (nodes t) (List.replicate m []) (by simp) hp (by
    intro i chain h n hn
    rw [List.getElem?_replicate] at h
    split at h
    · simp at h; subst h; simp at hn
    · simp at h)
  have hfl : (List.replicate m ([] : List (Node K V))).flatten = [] := by simp
  rw [hfl, List.append_nil] at r1
  have hg : (grow t).buckets = (nodes t).foldl (fun bs n => push bs (n.hash % m) n) (List.replicate m []) := by
    simp only [grow, hm, nodes]
  refine ⟨?_, rfl, ?_, ?_⟩
  · rw [nodes, hg]; exact r1
  · rw [hg, r2]; exact hm0
  · rw [hg, r2]; exact r3

theorem distinct_perm (hc : Compatible hash eqv) {a b : List (Node K V)} (h : a.Perm b)
    (hb : b.Pairwise fun x y => eqv x.key y.key = false) : a.Pairwise fun x y => eqv x.key y.key = false := by
  refine (h.symm.pairwise_iff ?_).mp hb
  intro x y hxy
  by_contra hne
  have := hc.symm _ _ (by simpa using hne)
  rw [hxy] at this; simp at this

/-- `table-set` on a key that is not bound adds one node. -/
theorem set_absent (hc : Compatible hash eqv) {t : Table K V} (hw : WF hash eqv t) {key : K} (value : V)
    (h : lookup hash eqv t key = none) :
    WF hash eqv (set hash eqv t key value) ∧
      (nodes (set hash eqv t key value)).Perm (⟨key, value, hash key⟩ :: nodes t) := by
  have hnone := lookup_none hc hw h
  have hp : ∀ n ∈ nodes t, n.hash = hash n.key := by
    intro n hn
    obtain ⟨i, chain, hi, hm⟩ := mem_nodes hn
    exact (hw.place i chain hi n hm).1
  -- the table after the growth step
  obtain ⟨t1, ht1, hperm, hcount, hlen, hplace⟩ : ∃ t1 : Table K V,
      (if t.totalNodes + 1 ≥ 2 * t.buckets.length then grow { t with totalNodes := t.totalNodes + 1 }
        else { t with totalNodes := t.totalNodes + 1 }) = t1 ∧ (nodes t1).Perm (nodes t) ∧
      t1.totalNodes = t.totalNodes + 1 ∧ 0 < t1.buckets.length ∧
      ∀ i chain, t1.buckets[i]? = some chain → ∀ n ∈ chain, n.hash = hash n.key ∧ n.hash % t1.buckets.length = i := by
    refine ⟨_, rfl, ?_⟩
    split
    · obtain ⟨q1, q2, q3, q4⟩ := grow_spec (hash := hash) (t := { t with totalNodes := t.totalNodes + 1 }) hp
      exact ⟨q1, q2, q3, q4⟩
    · rename_i hlt
      exact ⟨List.Perm.refl _, rfl, by simp; omega, hw.place⟩
  have hset : set hash eqv t key value =
      { t1 with buckets := push t1.buckets (bin t1 (hash key)) ⟨key, value, hash key⟩ } := by
    simp only [set, h, ht1]
  obtain ⟨q1, q2⟩ := flatten_push t1.buckets (bin t1 (hash key)) ⟨key, value, hash key⟩ (Nat.mod_lt _ hlen)
  have hP : (nodes (set hash eqv t key value)).Perm (⟨key, value, hash key⟩ :: nodes t) := by
    rw [hset, nodes]
    exact q1.trans (List.Perm.cons _ hperm)
  refine ⟨⟨?_, ?_, ?_⟩, hP⟩
  · rw [hset]
    simp only [q2]
    exact place_push (n := ⟨key, value, hash key⟩) _ rfl hplace rfl
  · refine distinct_perm hc hP ?_
    rw [List.pairwise_cons]
    exact ⟨fun n hn => hnone n hn, hw.distinct⟩
  · rw [hP.length_eq, List.length_cons, ← hw.count, hset]; exact hcount

/-- `table-set` on a bound key changes the value of its node only. -/
theorem set_present {t : Table K V} (hw : WF hash eqv t) {key : K} (value : V) {i j : Nat}
    (h : lookup hash eqv t key = some (i, j)) :
    WF hash eqv (set hash eqv t key value) ∧ ∃ a n b, nodes t = a ++ [n] ++ b ∧ eqv key n.key = true ∧
      nodes (set hash eqv t key value) = a ++ [{ n with value := value }] ++ b := by
  obtain ⟨p, n, q, hi, hj, he, hh, hix, _⟩ := lookup_some h
  obtain ⟨a, b, e1, e2⟩ := flatten_split t.buckets i p q [n] hi
  have hset : set hash eqv t key value =
      { t with buckets := t.buckets.set i (p ++ [{ n with value := value }] ++ q) } := by
    simp only [set, h]
    rw [modify_eq_set _ _ _ _ hi]
    congr 2
    rw [modify_eq_set _ _ _ n (by subst hj; simp)]
    subst hj
    simp
  have hN : nodes (set hash eqv t key value) = a ++ [{ n with value := value }] ++ b := by
    rw [hset, nodes]; exact e2 _
  refine ⟨⟨?_, ?_, ?_⟩, a, n, b, e1, he, hN⟩
  · rw [hset]
    simp only [List.length_set]
    intro i' chain hc x hx
    rw [List.getElem?_set] at hc
    split at hc
    · rename_i heq
      subst heq
      split at hc
      · simp only [Option.some.injEq] at hc
        subst hc
        have hpl := hw.place i _ hi
        simp only [List.mem_append, List.mem_singleton] at hx hpl
        rcases hx with (hx | hx) | hx
        · exact hpl x (.inl (.inl hx))
        · subst hx
          exact hpl n (.inl (.inr rfl))
        · exact hpl x (.inr hx)
      · simp at hc
    · exact hw.place i' chain hc x hx
  · have hd := hw.distinct
    rw [hN]
    rw [nodes, e1] at hd
    simp only [List.pairwise_append, List.pairwise_cons, List.mem_append, List.mem_singleton,
      List.Pairwise.nil, List.append_assoc, List.mem_cons, List.not_mem_nil] at hd ⊢
    obtain ⟨d1, ⟨d2, d3, d4⟩, d5⟩ := hd
    refine ⟨d1, ⟨by simp, d3, ?_⟩, ?_⟩
    · intro x hx y hy
      simp only [or_false] at hx
      subst hx
      exact d4 n (by simp) y hy
    · intro x hx y hy
      rcases hy with (rfl | hy) | hy
      · exact d5 x hx n (by simp)
      · exact absurd hy (by simp)
      · exact d5 x hx y (by simp [hy])
  · rw [hN]
    have := hw.count
    rw [nodes, e1] at this
    rw [hset]
    simpa using this

/-- `table-unset` on a key that is not bound does nothing. -/
theorem unset_absent {t : Table K V} {key : K} (h : lookup hash eqv t key = none) :
    unset hash eqv t key = (t, false) := by simp [unset, h]

/-- `table-unset` on a bound key removes its node only. -/
theorem unset_present {t : Table K V} (hw : WF hash eqv t) {key : K} {i j : Nat}
    (h : lookup hash eqv t key = some (i, j)) :
    WF hash eqv (unset hash eqv t key).1 ∧ (unset hash eqv t key).2 = true ∧
      ∃ a n b, nodes t = a ++ [n] ++ b ∧ eqv key n.key = true ∧ nodes (unset hash eqv t key).1 = a ++ b := by
  obtain ⟨p, n, q, hi, hj, he, hh, hix, hat⟩ := lookup_some h
  obtain ⟨a, b, e1, e2⟩ := flatten_split t.buckets i p q [n] hi
  have hset : unset hash eqv t key =
      ({ buckets := t.buckets.set i (p ++ [] ++ q), totalNodes := t.totalNodes - 1 }, true) := by
    simp only [unset, h, hat]
    rw [if_pos (by rw [bin, hh]; exact hix.symm), modify_eq_set _ _ _ _ hi]
    congr 3
    subst hj
    rw [List.append_assoc, List.eraseIdx_append_of_length_le (Nat.le_refl _)]
    simp
  have hN : nodes (unset hash eqv t key).1 = a ++ b := by
    rw [hset, nodes]; simpa using e2 []
  refine ⟨⟨?_, ?_, ?_⟩, by rw [hset], a, n, b, e1, he, hN⟩
  · rw [hset]
    simp only [List.length_set]
    intro i' chain hc x hx
    rw [List.getElem?_set] at hc
    split at hc
    · rename_i heq
      subst heq
      split at hc
      · simp only [Option.some.injEq] at hc
        subst hc
        have hpl := hw.place i _ hi
        simp only [List.mem_append, List.mem_singleton, List.append_nil] at hx hpl
        rcases hx with hx | hx
        · exact hpl x (.inl (.inl hx))
        · exact hpl x (.inr hx)
      · simp at hc
    · exact hw.place i' chain hc x hx
  · have hd := hw.distinct
    rw [hN]
    rw [nodes, e1, List.append_assoc] at hd
    exact hd.sublist (List.Sublist.append_left (List.sublist_append_right _ _) _)
  · rw [hN]
    have := hw.count
    rw [nodes, e1] at this
    rw [hset]
    simp at this ⊢
    omega

theorem bindingOf_concat (k : K) (ops : List (Op K V)) (op : Op K V) :
    bindingOf eqv k (ops ++ [op]) = (match op with
      | .set k' v => if eqv k k' then some v else bindingOf eqv k ops
      | .unset k' => if eqv k k' then none else bindingOf eqv k ops) := by
  simp only [bindingOf, List.foldl_append, List.foldl_cons, List.foldl_nil]

/-- The table represents the history. -/
structure Inv (hash : K → Nat) (eqv : K → K → Bool) (t : Table K V) (ops : List (Op K V)) : Prop where
  wf : WF hash eqv t
  binding : ∀ k v, bindingOf eqv k ops = some v ↔ ∃ n ∈ nodes t, eqv k n.key = true ∧ n.value = v

theorem eqv_congr (hc : Compatible hash eqv) {a b : K} (h : eqv a b = true) (k : K) : eqv k a = eqv k b := by
  rw [Bool.eq_iff_iff]
  exact ⟨fun x => hc.trans _ _ _ x h, fun x => hc.trans _ _ _ x (hc.symm _ _ h)⟩

theorem inv_set (hc : Compatible hash eqv) {t : Table K V} {ops : List (Op K V)} (hI : Inv hash eqv t ops)
    (key : K) (value : V) : Inv hash eqv (set hash eqv t key value) (ops ++ [.set key value]) := by
  cases h : lookup hash eqv t key with
  | none =>
    obtain ⟨hw, hP⟩ := set_absent hc hI.wf value h
    refine ⟨hw, fun k v => ?_⟩
    rw [bindingOf_concat]
    simp only [hP.mem_iff, List.mem_cons]
    by_cases hk : eqv k key = true
    · simp only [if_pos hk, Option.some.injEq]
      constructor
      · rintro rfl; exact ⟨_, .inl rfl, hk, rfl⟩
      · rintro ⟨n, rfl | hn, he, hv⟩
        · exact hv
        · have := lookup_none hc hI.wf h n hn
          have h2 := hc.trans _ _ _ (hc.symm _ _ hk) he
          rw [this] at h2; simp at h2
    · rw [if_neg hk, hI.binding]
      constructor
      · rintro ⟨n, hn, h1, h2⟩; exact ⟨n, .inr hn, h1, h2⟩
      · rintro ⟨n, rfl | hn, h1, h2⟩
        · exact absurd h1 hk
        · exact ⟨n, hn, h1, h2⟩
  | some ij =>
    obtain ⟨i, j⟩ := ij
    obtain ⟨hw, a, n, b, e1, he, e2⟩ := set_present hI.wf value h
    refine ⟨hw, fun k v => ?_⟩
    rw [bindingOf_concat, e2]
    have hd := hI.wf.distinct
    rw [e1] at hd
    simp only [List.pairwise_append, List.pairwise_cons, List.mem_append, List.mem_singleton,
      List.append_assoc, List.Pairwise.nil, List.mem_cons, List.not_mem_nil, or_false] at hd
    simp only [List.mem_append, List.mem_singleton]
    by_cases hk : eqv k key = true
    · simp only [if_pos hk, Option.some.injEq]
      have hkn := hc.trans _ _ _ hk he
      constructor
      · rintro rfl; exact ⟨_, .inl (.inr rfl), hkn, rfl⟩
      · rintro ⟨m, (hm | rfl) | hm, h1, h2⟩
        · have := hd.2.2 m hm n (.inl rfl)
          rw [hc.trans _ _ _ (hc.symm _ _ h1) hkn] at this; simp at this
        · exact h2
        · have := hd.2.1.2.2 n rfl m hm
          rw [hc.trans _ _ _ (hc.symm _ _ hkn) h1] at this; simp at this
    · rw [if_neg hk, hI.binding, e1]
      simp only [List.mem_append, List.mem_singleton]
      have hkn : ¬ eqv k n.key = true := by rw [← eqv_congr hc he k]; exact hk
      constructor
      · rintro ⟨m, (hm | rfl) | hm, h1, h2⟩
        · exact ⟨m, .inl (.inl hm), h1, h2⟩
        · exact absurd h1 hkn
        · exact ⟨m, .inr hm, h1, h2⟩
      · rintro ⟨m, (hm | rfl) | hm, h1, h2⟩
        · exact ⟨m, .inl (.inl hm), h1, h2⟩
        · exact absurd h1 hkn
        · exact ⟨m, .inr hm, h1, h2⟩

theorem inv_unset (hc : Compatible hash eqv) {t : Table K V} {ops : List (Op K V)} (hI : Inv hash eqv t ops)
    (key : K) : Inv hash eqv (unset hash eqv t key).1 (ops ++ [.unset key]) := by
  cases h : lookup hash eqv t key with
  | none =>
    rw [unset_absent h]
    refine ⟨hI.wf, fun k v => ?_⟩
    rw [bindingOf_concat]
    simp only
    by_cases hk : eqv k key = true
    · rw [if_pos hk]
      constructor
      · simp
      · rintro ⟨n, hn, he, hv⟩
        have := lookup_none hc hI.wf h n hn
        rw [hc.trans _ _ _ (hc.symm _ _ hk) he] at this; simp at this
    · rw [if_neg hk, hI.binding]
  | some ij =>
    obtain ⟨i, j⟩ := ij
    obtain ⟨hw, _, a, n, b, e1, he, e2⟩ := unset_present hI.wf h
    refine ⟨hw, fun k v => ?_⟩
    rw [bindingOf_concat, e2]
    have hd := hI.wf.distinct
    rw [e1] at hd
    simp only [List.pairwise_append, List.pairwise_cons, List.mem_append, List.mem_singleton,
      List.append_assoc, List.Pairwise.nil, List.mem_cons, List.not_mem_nil, or_false] at hd
    simp only [List.mem_append]
    by_cases hk : eqv k key = true
    · rw [if_pos hk]
      have hkn := hc.trans _ _ _ hk he
      constructor
      · simp
      · rintro ⟨m, hm | hm, h1, h2⟩
        · have := hd.2.2 m hm n (.inl rfl)
          rw [hc.trans _ _ _ (hc.symm _ _ h1) hkn] at this; simp at this
        · have := hd.2.1.2.2 n rfl m hm
          rw [hc.trans _ _ _ (hc.symm _ _ hkn) h1] at this; simp at this
    · rw [if_neg hk, hI.binding, e1]
      simp only [List.mem_append, List.mem_singleton]
      have hkn : ¬ eqv k n.key = true := by rw [← eqv_congr hc he k]; exact hk
      constructor
      · rintro ⟨m, (hm | rfl) | hm, h1, h2⟩
        · exact ⟨m, .inl hm, h1, h2⟩
        · exact absurd h1 hkn
        · exact ⟨m, .inr hm, h1, h2⟩
      · rintro ⟨m, hm | hm, h1, h2⟩
        · exact ⟨m, .inl (.inl hm), h1, h2⟩
        · exact ⟨m, .inr hm, h1, h2⟩

theorem inv_run (hc : Compatible hash eqv) (ops : List (Op K V)) :
    Inv hash eqv (run hash eqv make ops) ops := by
  induction ops using List.reverseRecOn with
  | nil =>
    refine ⟨⟨?_, ?_, ?_⟩, ?_⟩
    · intro i chain h; simp [run, make] at h
    · simp [run, make, nodes]
    · simp [run, make, nodes]
    · intro k v; simp [bindingOf, run, make, nodes]
  | append_singleton ops op ih =>
    have e : run hash eqv make (ops ++ [op]) = (match op with
        | .set k v => set hash eqv (run hash eqv make ops) k v
        | .unset k => (unset hash eqv (run hash eqv make ops) k).1) := by
      simp only [run, List.foldl_append, List.foldl_cons, List.foldl_nil]
    rw [e]
    cases op with
    | set k v => exact inv_set hc ih k v
    | unset k => exact inv_unset hc ih k

theorem inv_ref (hc : Compatible hash eqv) {t : Table K V} {ops : List (Op K V)} (hI : Inv hash eqv t ops) (k : K) :
    ref hash eqv t k = bindingOf eqv k ops ∧ boundp hash eqv t k = (bindingOf eqv k ops).isSome := by
  cases h : lookup hash eqv t k with
  | none =>
    have : bindingOf eqv k ops = none := by
      rw [Option.eq_none_iff_forall_not_mem]
      intro v hv
      obtain ⟨n, hn, he, _⟩ := (hI.binding k v).mp hv
      have := lookup_none hc hI.wf h n hn
      rw [he] at this; simp at this
    simp [ref, boundp, h, this]
  | some ij =>
    obtain ⟨i, j⟩ := ij
    obtain ⟨p, n, q, hi, hj, he, hh, hix, hat⟩ := lookup_some h
    have hn : n ∈ nodes t := by
      rw [nodes, List.mem_flatten]
      exact ⟨_, List.mem_of_getElem? hi, by simp⟩
    have := (hI.binding k n.value).mpr ⟨n, hn, he, rfl⟩
    simp [ref, boundp, h, hat, this]

/-- **C11**: after any history of `table-set` and `table-unset` on a new table,
`table-ref` returns the value last set for the key and not unset since, and
`table-bound-p` tells whether there is one. -/
theorem C11_ref (hash : K → Nat) (eqv : K → K → Bool) (hc : Compatible hash eqv) (ops : List (Op K V)) (k : K) :
    ref hash eqv (run hash eqv make ops) k = bindingOf eqv k ops ∧
      boundp hash eqv (run hash eqv make ops) k = (bindingOf eqv k ops).isSome :=
  inv_ref hc (inv_run hc ops) k

/-- **C11**: `table-walk` visits each binding exactly once (one key of each class of
equivalent keys), and `table-size` is the number of bindings. -/
theorem C11_walk_size (hash : K → Nat) (eqv : K → K → Bool) (hc : Compatible hash eqv) (ops : List (Op K V)) :
    let w := walk (run hash eqv make ops)
    w.Pairwise (fun a b => eqv a.1 b.1 = false) ∧
      (∀ kv ∈ w, bindingOf eqv kv.1 ops = some kv.2) ∧
      (∀ k v, bindingOf eqv k ops = some v → ∃ k', eqv k k' = true ∧ (k', v) ∈ w) ∧
      size (run hash eqv make ops) = w.length := by
  have hI := inv_run hc ops
  have hwalk : ∀ t : Table K V, walk t = (nodes t).map fun n => (n.key, n.value) := by
    intro t; simp [walk, nodes, List.flatMap, List.map_flatten]
  simp only [hwalk]
  refine ⟨?_, ?_, ?_, ?_⟩
  · rw [List.pairwise_map]; exact hI.wf.distinct
  · intro kv hkv
    obtain ⟨n, hn, rfl⟩ := List.mem_map.mp hkv
    exact (hI.binding _ _).mpr ⟨n, hn, hc.refl _, rfl⟩
  · intro k v h
    obtain ⟨n, hn, he, hv⟩ := (hI.binding _ _).mp h
    exact ⟨n.key, he, List.mem_map.mpr ⟨n, hn, by rw [hv]⟩⟩
  · rw [size, hI.wf.count]; simp

/-- **C11**: `table-unset` returns true exactly when the key was bound. -/
theorem C11_unset_result (hash : K → Nat) (eqv : K → K → Bool) (hc : Compatible hash eqv) (ops : List (Op K V)) (k : K) :
    (unset hash eqv (run hash eqv make ops) k).2 = (bindingOf eqv k ops).isSome := by
  have hI := inv_run hc ops
  rw [← (inv_ref hc hI k).2, boundp]
  cases h : lookup hash eqv (run hash eqv make ops) k with
  | none => rw [unset_absent h]; rfl
  | some ij =>
    obtain ⟨i, j⟩ := ij
    rw [(unset_present hI.wf h).2.1]; rfl

end

/-- Numbers compared modulo 10 with the last digit as hash are compatible; after
setting 3, 14, 13 and unsetting 24, key 23 is bound to the value of 13. -/
example : Compatible (fun n : Nat => n % 10) (fun a b => a % 10 == b % 10) :=
  ⟨by simp, by simp; intros; omega, by simp; intros; omega, by simp⟩

example : ref (fun n : Nat => n % 10) (fun a b => a % 10 == b % 10)
    (run (fun n : Nat => n % 10) (fun a b => a % 10 == b % 10) make
      [.set 3 "a", .set 14 "b", .set 13 "c", .unset 24]) 23 = some "c" := by decide +kernel

end Rep.Tables
