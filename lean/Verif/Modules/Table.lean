import Verif.Modules.Spec

/-
The hash table of a structure behaves like a map.
-/

namespace Rep.Mods

/-- Every node is in its chain, chains have no duplicates, and no symbol has two nodes. -/
structure TabOK (g : St) (b : List (List Nid)) : Prop where
  loc : ∀ k n, n ∈ b.getD k [] → ∃ v, symOf g n = some v ∧ structHash v b.length = k
  nd : ∀ k, (b.getD k []).Nodup
  inj : ∀ n n', n ∈ b.flatten → n' ∈ b.flatten → symOf g n = symOf g n' → n = n'

theorem mem_flatten_getD {b : List (List Nid)} {n : Nid} :
    n ∈ b.flatten ↔ ∃ k, n ∈ b.getD k [] := by
  rw [List.mem_flatten]
  constructor
  · rintro ⟨l, hl, hn⟩
    obtain ⟨k, hk, rfl⟩ := List.mem_iff_getElem.1 hl
    exact ⟨k, by simpa [List.getD_eq_getElem?_getD, List.getElem?_eq_getElem hk] using hn⟩
  · rintro ⟨k, hn⟩
    by_cases hk : k < b.length
    · refine ⟨b[k], List.getElem_mem hk, ?_⟩
      simpa [List.getD_eq_getElem?_getD, List.getElem?_eq_getElem hk] using hn
    · rw [List.getD_eq_getElem?_getD, List.getElem?_eq_none (by omega)] at hn
      simp at hn

theorem chainFind_some {g : St} {v : Nat} {l : List Nid} {n : Nid} (h : chainFind g v l = some n) :
    n ∈ l ∧ symOf g n = some v := by
  induction l with
  | nil => simp [chainFind] at h
  | cons a l ih =>
    simp only [chainFind] at h
    split at h
    · rename_i hs
      cases h
      exact ⟨List.mem_cons_self .., hs⟩
    · exact ⟨List.mem_cons_of_mem _ (ih h).1, (ih h).2⟩

theorem chainFind_none {g : St} {v : Nat} {l : List Nid} (h : chainFind g v l = none) :
    ∀ n ∈ l, symOf g n ≠ some v := by
  induction l with
  | nil => simp
  | cons a l ih =>
    simp only [chainFind] at h
    split at h
    · cases h
    · rename_i hs
      intro n hn
      rcases List.mem_cons.1 hn with rfl | hn
      · exact hs
      · exact ih h n hn

theorem lookupM_iff {g : St} {m : Mod} (ht : TabOK g m.buckets) {v : Nat} {n : Nid} :
    lookupM g m v = some n ↔ n ∈ m.buckets.flatten ∧ symOf g n = some v := by
  unfold lookupM
  split
  · rename_i h0
    have : m.buckets = [] := List.length_eq_zero_iff.1 h0
    simp [this]
  · constructor
    · intro h
      exact ⟨mem_flatten_getD.2 ⟨_, (chainFind_some h).1⟩, (chainFind_some h).2⟩
    · rintro ⟨h1, h2⟩
      obtain ⟨k, hk⟩ := mem_flatten_getD.1 h1
      obtain ⟨v', hv', hh⟩ := ht.loc k n hk
      rw [h2] at hv'
      cases hv'
      rw [hh]
      cases hc : chainFind g v (m.buckets.getD k []) with
      | none => exact absurd h2 (chainFind_none hc n hk)
      | some n' =>
        have := chainFind_some hc
        rw [ht.inj n' n (mem_flatten_getD.2 ⟨_, this.1⟩) h1 (by rw [this.2, h2])]

theorem lookupM_none {g : St} {m : Mod} (ht : TabOK g m.buckets) {v : Nat} :
    lookupM g m v = none ↔ ∀ n ∈ m.buckets.flatten, symOf g n ≠ some v := by
  constructor
  · intro h n hn hs
    rw [(lookupM_iff ht).2 ⟨hn, hs⟩] at h
    cases h
  · intro h
    cases hl : lookupM g m v with
    | none => rfl
    | some n => exact absurd ((lookupM_iff ht).1 hl).2 (h n ((lookupM_iff ht).1 hl).1)

theorem getD_set {b : List (List Nid)} {k j : Nat} {l : List Nid} (hk : k < b.length) :
    (b.set k l).getD j [] = if j = k then l else b.getD j [] := by
  simp only [List.getD_eq_getElem?_getD, List.getElem?_set]
  by_cases h : k = j
  · subst h; simp [hk]
  · simp [h, Ne.symm h]

theorem mem_push {b : List (List Nid)} {k : Nat} {n x : Nid} (hk : k < b.length) :
    x ∈ (push b k n).flatten ↔ x = n ∨ x ∈ b.flatten := by
  rw [mem_flatten_getD, mem_flatten_getD]
  unfold push
  constructor
  · rintro ⟨j, hj⟩
    rw [getD_set hk] at hj
    split at hj
    · rcases List.mem_cons.1 hj with h | h
      · exact .inl h
      · exact .inr ⟨k, h⟩
    · exact .inr ⟨j, hj⟩
  · rintro (rfl | ⟨j, hj⟩)
    · exact ⟨k, by rw [getD_set hk]; simp⟩
    · refine ⟨j, ?_⟩
      rw [getD_set hk]
      split
      · rename_i h; subst h; exact List.mem_cons_of_mem _ hj
      · exact hj

theorem length_push (b : List (List Nid)) (k : Nat) (n : Nid) : (push b k n).length = b.length := by
  simp [push]

theorem structHash_lt (v : Nat) {n : Nat} (h : n ≠ 0) : structHash v n < n :=
  Nat.mod_lt _ (by omega)

theorem TabOK.push {g : St} {b : List (List Nid)} (ht : TabOK g b) (h0 : b.length ≠ 0) {v : Nat}
    {n : Nid} (hs : symOf g n = some v) (hf : ∀ x ∈ b.flatten, symOf g x ≠ some v) :
    TabOK g (push b (structHash v b.length) n) := by
  have hk := structHash_lt v h0
  have hn : n ∉ b.flatten := fun h => hf n h hs
  refine ⟨?_, ?_, ?_⟩
  · intro k x hx
    unfold Mods.push at hx
    rw [getD_set hk] at hx
    rw [length_push]
    split at hx
    · rename_i h
      subst h
      rcases List.mem_cons.1 hx with rfl | hx
      · exact ⟨v, hs, rfl⟩
      · exact ht.loc _ x hx
    · exact ht.loc _ x hx
  · intro k
    unfold Mods.push
    rw [getD_set hk]
    split
    · refine List.nodup_cons.2 ⟨fun h => hn (mem_flatten_getD.2 ⟨_, h⟩), ht.nd _⟩
    · exact ht.nd k
  · intro x y hx hy hxy
    rcases (mem_push hk).1 hx with e | hx'
    · rcases (mem_push hk).1 hy with e' | hy'
      · rw [e, e']
      · exact absurd (by rw [← hxy, e, hs]) (hf y hy')
    · rcases (mem_push hk).1 hy with e' | hy'
      · exact absurd (by rw [hxy, e', hs]) (hf x hx')
      · exact ht.inj x y hx' hy' hxy

theorem moveAll_ok {g : St} {total : Nat} (h0 : total ≠ 0) :
    ∀ (l : List Nid) (b : List (List Nid)), TabOK g b → b.length = total → l.Nodup →
      (∀ n ∈ l, ∃ v, symOf g n = some v) →
      (∀ n ∈ l, ∀ n' ∈ l, symOf g n = symOf g n' → n = n') →
      (∀ n ∈ l, ∀ n' ∈ b.flatten, symOf g n ≠ symOf g n') →
      TabOK g (moveAll g total l b) ∧ (moveAll g total l b).length = total ∧
        ∀ x, x ∈ (moveAll g total l b).flatten ↔ x ∈ l ∨ x ∈ b.flatten := by
  intro l
  induction l with
  | nil => intro b ht hl _ _ _ _; exact ⟨ht, hl, by simp [moveAll]⟩
  | cons n l ih =>
    intro b ht hl hnd hsym hinj hdis
    obtain ⟨v, hv⟩ := hsym n (List.mem_cons_self ..)
    have hnl := List.nodup_cons.1 hnd
    have hk : structHash v total < b.length := by rw [hl]; exact structHash_lt v h0
    have ht' : TabOK g (push b (structHash v total) n) := by
      have := ht.push (by rw [hl]; exact h0) hv
        (fun x hx hsx => hdis n (List.mem_cons_self ..) x hx (by rw [hv, hsx]))
      rwa [hl] at this
    have := ih (push b (structHash v total) n) ht' (by rw [length_push, hl]) hnl.2
      (fun x hx => hsym x (List.mem_cons_of_mem _ hx))
      (fun x hx y hy => hinj x (List.mem_cons_of_mem _ hx) y (List.mem_cons_of_mem _ hy))
      (by
        intro x hx y hy hxy
        rcases (mem_push hk).1 hy with rfl | hy
        · exact hnl.1 (hinj x (List.mem_cons_of_mem _ hx) y (List.mem_cons_self ..) hxy ▸ hx)
        · exact hdis x (List.mem_cons_of_mem _ hx) y hy hxy)
    have hm : moveAll g total (n :: l) b = moveAll g total l (push b (structHash v total) n) := by
      simp [moveAll, hv]
    rw [hm]
    refine ⟨this.1, this.2.1, fun x => ?_⟩
    rw [this.2.2 x, mem_push hk, List.mem_cons]
    constructor
    · rintro (h | h | h)
      · exact .inl (.inr h)
      · exact .inl (.inl h)
      · exact .inr h
    · rintro ((h | h) | h)
      · exact .inr (.inl h)
      · exact .inl h
      · exact .inr (.inr h)

theorem getD_replicate (n k : Nat) : (List.replicate n ([] : List Nid)).getD k [] = [] := by
  rw [List.getD_eq_getElem?_getD, List.getElem?_replicate]
  split <;> rfl

theorem flatten_replicate (n : Nat) : (List.replicate n ([] : List Nid)).flatten = [] := by
  simp

theorem tabOK_replicate (g : St) (n : Nat) : TabOK g (List.replicate n []) := by
  refine ⟨?_, ?_, ?_⟩
  · intro k x hx; rw [getD_replicate] at hx; simp at hx
  · intro k; rw [getD_replicate]; exact List.nodup_nil
  · intro x y hx; rw [flatten_replicate] at hx; simp at hx

theorem TabOK.nodup {g : St} {b : List (List Nid)} (ht : TabOK g b) : b.flatten.Nodup := by
  unfold List.Nodup
  rw [List.pairwise_flatten]
  constructor
  · intro l hl
    obtain ⟨k, hk, rfl⟩ := List.mem_iff_getElem.1 hl
    have := ht.nd k
    rwa [List.getD_eq_getElem?_getD, List.getElem?_eq_getElem hk] at this
  · rw [List.pairwise_iff_getElem]
    intro i j hi hj hij x hx y hy e
    subst e
    have h1 : x ∈ b.getD i [] := by
      rw [List.getD_eq_getElem?_getD, List.getElem?_eq_getElem hi]; exact hx
    have h2 : x ∈ b.getD j [] := by
      rw [List.getD_eq_getElem?_getD, List.getElem?_eq_getElem hj]; exact hy
    obtain ⟨v, hv, e1⟩ := ht.loc i x h1
    obtain ⟨w, hw, e2⟩ := ht.loc j x h2
    rw [hv] at hw
    cases hw
    omega

theorem grow_ok {g : St} {m : Mod} (ht : TabOK g m.buckets) :
    TabOK g (grow g m) ∧ (grow g m).length ≠ 0 ∧
      ∀ x, x ∈ (grow g m).flatten ↔ x ∈ m.buckets.flatten := by
  have key : ∀ b : List (List Nid), TabOK g b → b.length ≠ 0 →
      (∀ x, x ∈ b.flatten ↔ x ∈ m.buckets.flatten) →
      ∀ r, r = (if m.count > b.length * 2 then
        moveAll g (b.length * 2) b.flatten (List.replicate (b.length * 2) []) else b) →
      TabOK g r ∧ r.length ≠ 0 ∧ ∀ x, x ∈ r.flatten ↔ x ∈ m.buckets.flatten := by
    intro b hb h0 hm r hr
    split at hr
    · have := moveAll_ok (g := g) (total := b.length * 2) (by omega) b.flatten
        (List.replicate (b.length * 2) []) (tabOK_replicate g _) (by simp) hb.nodup
        (by
          intro n hn
          obtain ⟨k, hk⟩ := mem_flatten_getD.1 hn
          obtain ⟨v, hv, _⟩ := hb.loc k n hk
          exact ⟨v, hv⟩)
        (fun n hn n' hn' => hb.inj n n' hn hn')
        (by intro n _ n' hn'; simp at hn')
      subst hr
      refine ⟨this.1, by omega, fun x => ?_⟩
      rw [this.2.2 x]
      simp only [flatten_replicate, List.not_mem_nil, or_false]
      exact hm x
    · subst hr
      exact ⟨hb, h0, hm⟩
  by_cases h0 : m.buckets.length = 0
  · refine key (List.replicate 8 []) (tabOK_replicate g 8) (by simp) ?_ _ (by simp [grow, h0])
    intro x
    have : m.buckets = [] := List.length_eq_zero_iff.1 h0
    rw [this, flatten_replicate]; simp
  · exact key m.buckets ht h0 (fun _ => Iff.rfl) _ (by simp [grow, h0])

/-- Only the symbols of the nodes matter. -/
theorem TabOK.congr {g g' : St} {b : List (List Nid)} (ht : TabOK g b)
    (h : ∀ n ∈ b.flatten, symOf g' n = symOf g n) : TabOK g' b := by
  refine ⟨?_, ht.nd, ?_⟩
  · intro k n hn
    rw [h n (mem_flatten_getD.2 ⟨k, hn⟩)]
    exact ht.loc k n hn
  · intro n n' hn hn' e
    rw [h n hn, h n' hn'] at e
    exact ht.inj n n' hn hn' e

theorem getD_erase {b : List (List Nid)} {k j : Nat} {n : Nid} (hk : k < b.length) :
    (b.set k ((b.getD k []).erase n)).getD j [] =
      if j = k then (b.getD k []).erase n else b.getD j [] := getD_set hk

theorem TabOK.mem_erase {g : St} {b : List (List Nid)} (ht : TabOK g b) (h0 : b.length ≠ 0) {v : Nat}
    {n : Nid} (hs : symOf g n = some v) (x : Nid) :
    x ∈ (b.set (structHash v b.length) ((b.getD (structHash v b.length) []).erase n)).flatten ↔
      x ∈ b.flatten ∧ x ≠ n := by
  have hk := structHash_lt v h0
  rw [mem_flatten_getD, mem_flatten_getD]
  constructor
  · rintro ⟨j, hj⟩
    rw [getD_erase hk] at hj
    split at hj
    · have := (ht.nd (structHash v b.length)).mem_erase_iff.1 hj
      exact ⟨⟨_, this.2⟩, this.1⟩
    · rename_i hjk
      refine ⟨⟨j, hj⟩, ?_⟩
      rintro rfl
      obtain ⟨w, hw, e⟩ := ht.loc j x hj
      rw [hs] at hw
      cases hw
      exact hjk e.symm
  · rintro ⟨⟨j, hj⟩, hne⟩
    refine ⟨j, ?_⟩
    rw [getD_erase hk]
    split
    · rename_i e; subst e
      exact (ht.nd _).mem_erase_iff.2 ⟨hne, hj⟩
    · exact hj

theorem TabOK.erase {g : St} {b : List (List Nid)} (ht : TabOK g b) (h0 : b.length ≠ 0) {v : Nat}
    {n : Nid} (hs : symOf g n = some v) :
    TabOK g (b.set (structHash v b.length) ((b.getD (structHash v b.length) []).erase n)) := by
  have hk := structHash_lt v h0
  refine ⟨?_, ?_, ?_⟩
  · intro k x hx
    rw [getD_erase hk] at hx
    rw [List.length_set]
    split at hx
    · rename_i e; subst e
      exact ht.loc _ x (List.mem_of_mem_erase hx)
    · exact ht.loc k x hx
  · intro k
    rw [getD_erase hk]
    split
    · exact (ht.nd _).erase n
    · exact ht.nd k
  · intro x y hx hy e
    exact ht.inj x y ((ht.mem_erase h0 hs x).1 hx).1 ((ht.mem_erase h0 hs y).1 hy).1 e

end Rep.Mods
