/-
Proofs about the collector.
-/
import Verif.Gc.Spec

namespace Rep.Gc

theorem Reach.mono {mem : List Cell} {r s : List Val} (h : ∀ v ∈ r, v ∈ s) {a : Nat} (ha : Reach mem r a) :
    Reach mem s a := by
  induction ha with
  | root h' => exact .root (h _ h')
  | step _ hc hk ih => exact .step ih hc hk

/-- Reachability from roots that are themselves reachable. -/
theorem Reach.trans {mem : List Cell} {r s : List Val} (h : ∀ a, Val.ref a ∈ r → Reach mem s a) {a : Nat}
    (ha : Reach mem r a) : Reach mem s a := by
  induction ha with
  | root h' => exact h _ h'
  | step _ hc hk ih => exact .step ih hc hk

def Markable (mem : List Cell) (a : Nat) : Prop := ∃ c, mem[a]? = some c ∧ ¬ Permanent c

/-- The result of `visit`, in terms of `kids`. -/
theorem visit_spec {c : Cell} (hs : Sound c) :
    (Permanent c ∧ kids c = [] ∧ ∃ l, visit c = some (false, l)) ∨
    (¬ Permanent c ∧ ∃ l, visit c = some (true, l) ∧ (∀ v ∈ l, v ∈ kids c) ∧
      (∀ v ∈ kids c, v ∈ l ∨ v = .ref nil)) := by
  cases c with
  | cons car cdr =>
    right
    refine ⟨by simp [Permanent], _, rfl, ?_, ?_⟩
    · intro v hv
      split at hv <;> simp_all [kids]
    · intro v hv
      simp only [kids, List.mem_cons, List.not_mem_nil, or_false] at hv
      split
      · rename_i hn; rcases hv with rfl | rfl
        · left; simp
        · right; exact hn
      · left; simpa using hv
  | string st =>
    cases st
    · right; exact ⟨by simp [Permanent], [], rfl, by simp, by simp [kids]⟩
    · left; exact ⟨trivial, rfl, [], rfl⟩
  | number => right; exact ⟨by simp [Permanent], [], rfl, by simp, by simp [kids]⟩
  | subr => left; exact ⟨trivial, rfl, [], rfl⟩
  | funarg n e s f =>
    right
    cases f with
    | int z => exact absurd hs (by simp [Sound])
    | null => exact ⟨by simp [Permanent], _, rfl, by simp [kids], by simp [kids]⟩
    | ref a => exact ⟨by simp [Permanent], _, rfl, by intro v hv; exact hv, by intro v hv; exact Or.inl hv⟩
  | fields vs => right; exact ⟨by simp [Permanent], _, rfl, by intro v hv; exact hv, by intro v hv; exact Or.inl hv⟩
  | table w ns h c g =>
    right; exact ⟨by simp [Permanent], _, rfl, by intro v hv; exact hv, by intro v hv; exact Or.inl hv⟩
  | guardian x y => right; exact ⟨by simp [Permanent], _, rfl, by intro v hv; exact hv, by intro v hv; exact Or.inl hv⟩
  | weakRef v => right; exact ⟨by simp [Permanent], [], rfl, by simp, by simp [kids]⟩
  | free => exact absurd hs (by simp [Sound])

/-- What marking does. -/
structure Marks (mem : List Cell) (m : Nat → Bool) (todo : List Val) (m' : Nat → Bool) : Prop where
  mono : ∀ a, m a = true → m' a = true
  sound : ∀ a, m' a = true → m a = true ∨ Reach mem todo a
  todo : ∀ a, Val.ref a ∈ todo → Markable mem a → m' a = true
  closed : ∀ a, m' a = true → m a = false → Markable mem a ∧
    ∀ c b, mem[a]? = some c → Val.ref b ∈ kids c → Markable mem b → m' b = true ∨ b = nil

theorem mark_spec (mem : List Cell) (m : Nat → Bool) (todo : List Val)
    (h : ∀ a, Reach mem todo a → m a = false → ∃ c, mem[a]? = some c ∧ Sound c) :
    ∃ m', mark mem m todo = some m' ∧ Marks mem m todo m' := by
  fun_induction mark mem m todo with
  | case1 m => exact ⟨m, rfl, fun _ h => h, fun _ h => Or.inl h, by simp, fun a h1 h2 => by simp [h1] at h2⟩
  | case2 m rest ih =>
    obtain ⟨m', e, p⟩ := ih (fun a ha => h a (ha.mono (fun v hv => by simp [hv])))
    exact ⟨m', e, p.mono, fun a ha => (p.sound a ha).imp id (fun r => r.mono (fun v hv => by simp [hv])),
      fun a ha => p.todo a (by simpa using ha), p.closed⟩
  | case3 m n rest ih =>
    obtain ⟨m', e, p⟩ := ih (fun a ha => h a (ha.mono (fun v hv => by simp [hv])))
    exact ⟨m', e, p.mono, fun a ha => (p.sound a ha).imp id (fun r => r.mono (fun v hv => by simp [hv])),
      fun a ha => p.todo a (by simpa using ha), p.closed⟩
  | case4 m a rest hm ih =>
    obtain ⟨m', e, p⟩ := ih (fun a ha => h a (ha.mono (fun v hv => by simp [hv])))
    refine ⟨m', e, p.mono, fun a ha => (p.sound a ha).imp id (fun r => r.mono (fun v hv => by simp [hv])), ?_, p.closed⟩
    intro b hb hmk
    rcases List.mem_cons.mp hb with hb | hb
    · cases hb; exact p.mono a hm
    · exact p.todo b hb hmk
  | case5 m a rest hm hc =>
    obtain ⟨c, e, _⟩ := h a (.root (by simp)) (by simpa using hm)
    rw [hc] at e; cases e
  | case6 m a rest hm c hc hv =>
    obtain ⟨c', e, hs⟩ := h a (.root (by simp)) (by simpa using hm)
    rw [hc] at e; cases e
    rcases visit_spec hs with ⟨_, _, l, hl⟩ | ⟨_, l, hl, _⟩ <;> rw [hv] at hl <;> cases hl
  | case7 m a rest hm c hc l hv ih =>
    obtain ⟨m', e, p⟩ := ih (fun a ha => h a (ha.mono (fun v hv => by simp [hv])))
    refine ⟨m', e, p.mono, fun a ha => (p.sound a ha).imp id (fun r => r.mono (fun v hv => by simp [hv])), ?_, p.closed⟩
    intro b hb hmk
    rcases List.mem_cons.mp hb with hb | hb
    · cases hb
      obtain ⟨c', e', hs⟩ := h a (.root (by simp)) (by simpa using hm)
      rw [hc] at e'; cases e'
      obtain ⟨c', e', hp⟩ := hmk
      rw [hc] at e'; cases e'
      rcases visit_spec hs with ⟨hp', _⟩ | ⟨_, l', hl, _⟩
      · exact absurd hp' hp
      · rw [hv] at hl; cases hl
    · exact p.todo b hb hmk
  | case8 m a rest hm c hc kids' hv ih =>
    obtain ⟨c', e', hs⟩ := h a (.root (by simp)) (by simpa using hm)
    rw [hc] at e'; cases e'
    rcases visit_spec hs with ⟨hp', _, l, hl⟩ | ⟨hp, l, hl, hsub, hsup⟩
    · rw [hv] at hl; cases hl
    rw [hv] at hl; cases hl
    have hreach : ∀ b, Reach mem (kids' ++ rest) b → Reach mem (.ref a :: rest) b := by
      intro b hb
      refine hb.trans fun x hx => ?_
      rcases List.mem_append.mp hx with hx | hx
      · exact .step (.root (by simp)) hc (hsub _ hx)
      · exact .root (by simp [hx])
    obtain ⟨m', e, p⟩ := ih (fun b hb hmb => h b (hreach b hb) (by
      by_cases hba : b = a
      · subst hba; simp at hmb
      · rwa [Function.update_of_ne hba] at hmb))
    have hma : m' a = true := p.mono a (by simp)
    refine ⟨m', e, ?_, ?_, ?_, ?_⟩
    · intro b hb
      refine p.mono b ?_
      by_cases hba : b = a
      · subst hba; simp
      · rwa [Function.update_of_ne hba]
    · intro b hb
      rcases p.sound b hb with hb' | hb'
      · by_cases hba : b = a
        · subst hba; exact Or.inr (.root (by simp))
        · left; rwa [Function.update_of_ne hba] at hb'
      · exact Or.inr (hreach b hb')
    · intro b hb hmk
      rcases List.mem_cons.mp hb with hb | hb
      · cases hb; exact hma
      · exact p.todo b (by simp [hb]) hmk
    · intro b hb hmb
      by_cases hba : b = a
      · subst hba
        refine ⟨⟨c, hc, hp⟩, ?_⟩
        intro c' x hc' hx hmk
        rw [hc] at hc'; cases hc'
        rcases hsup _ hx with hx | hx
        · exact Or.inl (p.todo x (by simp [hx]) hmk)
        · right; cases hx; rfl
      · exact p.closed b hb (by rwa [Function.update_of_ne hba])

/-- A value whose mark bit is set. -/
def markedV (m : Nat → Bool) : Val → Bool
  | .ref a => m a
  | _ => false

theorem scanGuardian_spec (m : Nat → Bool) : ∀ (acc inacc ch : List Val), (∀ v ∈ acc, ∃ a, v = .ref a) →
    scanGuardian m acc inacc ch =
      some (acc.filter (markedV m), (acc.filter fun v => !markedV m v).reverse ++ inacc,
        (acc.filter fun v => !markedV m v).reverse ++ ch)
  | [], inacc, ch, _ => by simp [scanGuardian]
  | v :: acc, inacc, ch, h => by
    obtain ⟨a, rfl⟩ := h v (by simp)
    have hr : ∀ v ∈ acc, ∃ a, v = Val.ref a := fun v hv => h v (by simp [hv])
    unfold scanGuardian
    cases hm : m a with
    | true =>
      rw [if_pos rfl, scanGuardian_spec m acc inacc ch hr]
      simp [markedV, hm]
    | false =>
      rw [if_neg (by simp), scanGuardian_spec m acc _ _ hr]
      simp [markedV, hm]

theorem scanGuardians_spec (m : Nat → Bool) : ∀ (gs : List Nat) (mem : List Cell) (ch : List Val), gs.Nodup →
    (∀ g ∈ gs, ∃ acc inacc, mem[g]? = some (.guardian acc inacc) ∧ ∀ v ∈ acc, ∃ a, v = .ref a) →
    ∃ mem1 changed, scanGuardians m gs mem ch = some (mem1, changed) ∧
      (∀ a, a ∉ gs → mem1[a]? = mem[a]?) ∧
      (∀ g acc inacc, g ∈ gs → mem[g]? = some (.guardian acc inacc) →
        mem1[g]? = some (.guardian (acc.filter (markedV m)) ((acc.filter fun v => !markedV m v).reverse ++ inacc))) ∧
      (∀ v, v ∈ changed ↔ v ∈ ch ∨ ∃ g ∈ gs, v ∈ accessibleOf mem g ∧ markedV m v = false)
  | [], mem, ch, _, _ => ⟨mem, ch, rfl, by simp, by simp, by simp⟩
  | g :: gs, mem, ch, hnd, h => by
    obtain ⟨acc, inacc, hg, hr⟩ := h g (by simp)
    have hnd' := List.nodup_cons.mp hnd
    have hglt := (List.getElem?_eq_some_iff.mp hg).1
    have hset : ∀ x, x ≠ g → ∀ c, (mem.set g c)[x]? = mem[x]? := by
      intro x hx c; rw [List.getElem?_set_ne (Ne.symm hx)]
    obtain ⟨mem1, changed, e, h1, h2, h3⟩ := scanGuardians_spec m gs
      (mem.set g (.guardian (acc.filter (markedV m)) ((acc.filter fun v => !markedV m v).reverse ++ inacc)))
      ((acc.filter fun v => !markedV m v).reverse ++ ch) hnd'.2 (by
        intro x hx
        obtain ⟨ac, ia, hx1, hx2⟩ := h x (by simp [hx])
        have : x ≠ g := by rintro rfl; exact hnd'.1 hx
        exact ⟨ac, ia, by rw [hset x this]; exact hx1, hx2⟩)
    refine ⟨mem1, changed, ?_, ?_, ?_, ?_⟩
    · unfold scanGuardians
      rw [hg]
      simp only
      rw [scanGuardian_spec m acc inacc ch hr]
      exact e
    · intro a ha
      simp only [List.mem_cons, not_or] at ha
      rw [h1 a ha.2, hset a ha.1]
    · intro x ac ia hx hxm
      by_cases hxg : x = g
      · subst hxg
        rw [hg] at hxm; cases hxm
        rw [h1 x hnd'.1, List.getElem?_set_self hglt]
      · have : x ∈ gs := by simpa [hxg] using hx
        exact h2 x ac ia this (by rw [hset x hxg]; exact hxm)
    · intro v
      rw [h3]
      have hacc : ∀ x ∈ gs, accessibleOf (mem.set g (.guardian (acc.filter (markedV m))
          ((acc.filter fun v => !markedV m v).reverse ++ inacc))) x = accessibleOf mem x := by
        intro x hx
        have : x ≠ g := by rintro rfl; exact hnd'.1 hx
        unfold accessibleOf; rw [hset x this]
      have hg' : accessibleOf mem g = acc := by unfold accessibleOf; rw [hg]
      constructor
      · rintro (hv | ⟨x, hx, hv, hm⟩)
        · rcases List.mem_append.mp hv with hv | hv
          · simp only [List.mem_reverse, List.mem_filter] at hv
            exact Or.inr ⟨g, by simp, by rw [hg']; exact hv.1, by simpa using hv.2⟩
          · exact Or.inl hv
        · rw [hacc x hx] at hv
          exact Or.inr ⟨x, by simp [hx], hv, hm⟩
      · rintro (hv | ⟨x, hx, hv, hm⟩)
        · left; simp [hv]
        · rcases List.mem_cons.mp hx with rfl | hx
          · left; rw [hg'] at hv; simp [hv, hm]
          · right; exact ⟨x, hx, by rw [hacc x hx]; exact hv, hm⟩

/-- A cell after the scan of the weak references. -/
def weakened (m : Nat → Bool) (ws : List Nat) (a : Nat) (c : Option Cell) : Option Cell :=
  match c with
  | some (.weakRef (.ref b)) =>
      if a ∈ ws ∧ m a = true ∧ m b = false then some (.weakRef (.ref nil)) else c
  | _ => c

theorem scanWeakRefs_spec (m : Nat → Bool) : ∀ (ws : List Nat) (mem : List Cell) (kept : List Nat), ws.Nodup →
    (∀ r ∈ ws, ∃ v, mem[r]? = some (.weakRef v) ∧ v ≠ .null) →
    ∃ mem2, scanWeakRefs m ws mem kept = some (mem2, (ws.filter m).reverse ++ kept) ∧
      ∀ a : Nat, mem2[a]? = weakened m ws a mem[a]?
  | [], mem, kept, _, _ => by
    refine ⟨mem, rfl, fun a => ?_⟩
    unfold weakened
    split
    · rename_i h; simp [h]
    · rfl
  | r :: ws, mem, kept, hnd, h => by
    have hnd' := List.nodup_cons.mp hnd
    obtain ⟨v, hr, hv⟩ := h r (by simp)
    have hlt := (List.getElem?_eq_some_iff.mp hr).1
    have hws : ∀ r' ∈ ws, ∃ v, mem[r']? = some (.weakRef v) ∧ v ≠ .null := fun r' hr' => h r' (by simp [hr'])
    unfold scanWeakRefs
    cases hm : m r with
    | false =>
      obtain ⟨mem2, e, h1⟩ := scanWeakRefs_spec m ws mem kept hnd'.2 hws
      refine ⟨mem2, by simpa [hm] using e, fun a => ?_⟩
      rw [h1 a]
      unfold weakened
      split
      · rename_i b hb
        by_cases har : a = r
        · subst har; simp [hm]
        · simp [har]
      · rfl
    | true =>
      simp only [if_true, hr]
      have same : ∀ (h0 : ∀ b, v = .ref b → m b = true),
          ∃ mem2, scanWeakRefs m ws mem (r :: kept) = some (mem2, ((r :: ws).filter m).reverse ++ kept) ∧
          ∀ a : Nat, mem2[a]? = weakened m (r :: ws) a mem[a]? := by
        intro h0
        obtain ⟨mem2, e, h1⟩ := scanWeakRefs_spec m ws mem (r :: kept) hnd'.2 hws
        refine ⟨mem2, by simpa [hm] using e, fun a => ?_⟩
        rw [h1 a]
        unfold weakened
        split
        · rename_i b hb
          by_cases har : a = r
          · subst har
            rw [hr] at hb; cases hb
            simp [h0 b rfl]
          · simp [har]
        · rfl
      cases v with
      | null => exact absurd rfl hv
      | int z => exact same (by intro b hb; cases hb)
      | ref b =>
        simp only
        cases hmb : m b with
        | true => exact same (by intro b' hb'; cases hb'; exact hmb)
        | false =>
          obtain ⟨mem2, e, h1⟩ := scanWeakRefs_spec m ws (mem.set r (.weakRef (.ref nil))) (r :: kept) hnd'.2 (by
            intro r' hr'
            have : r ≠ r' := by rintro rfl; exact hnd'.1 hr'
            rw [List.getElem?_set_ne this]
            exact hws r' hr')
          refine ⟨mem2, by simpa [hm] using e, fun a => ?_⟩
          rw [h1 a]
          by_cases har : a = r
          · subst har
            rw [List.getElem?_set_self hlt, hr]
            simp [weakened, hm, hmb]
          · rw [List.getElem?_set_ne (Ne.symm har)]
            unfold weakened
            split
            · simp [har]
            · rfl

theorem Chain.congr {mem mem' : List Cell} {v : Val} {l : List Nat} (h : Chain mem v l)
    (he : ∀ a ∈ l, mem'[a]? = mem[a]?) : Chain mem' v l := by
  induction h with
  | nil => exact .nil
  | cons hc _ ih => exact .cons (by rw [he _ (by simp)]; exact hc) (ih fun a ha => he a (by simp [ha]))

theorem sweepCons_spec (m : Nat → Bool) : ∀ (ss : List Nat) (mem : List Cell) (free : Val) (used : Nat) (l : List Nat),
    ss.Nodup → (∀ a ∈ ss, ∃ car cdr, mem[a]? = some (.cons car cdr)) → Chain mem free l → (∀ a ∈ ss, a ∉ l) →
    ∃ mem3 free', sweepCons m ss mem free used = (mem3, free', used + (ss.filter m).length) ∧
      Chain mem3 free' ((ss.filter fun a => !m a).reverse ++ l) ∧
      (∀ a, (a ∉ ss ∨ m a = true) → mem3[a]? = mem[a]?) ∧
      (∀ a ∈ ss, ∃ car cdr, mem3[a]? = some (.cons car cdr))
  | [], mem, free, used, l, _, _, hch, _ => ⟨mem, free, rfl, by simpa using hch, by simp, by simp⟩
  | a :: ss, mem, free, used, l, hnd, hc, hch, hd => by
    have hnd' := List.nodup_cons.mp hnd
    obtain ⟨car, cdr, ha⟩ := hc a (by simp)
    have hlt := (List.getElem?_eq_some_iff.mp ha).1
    unfold sweepCons
    cases hm : m a with
    | true =>
      obtain ⟨mem3, free', e, h1, h2, h3⟩ := sweepCons_spec m ss mem free (used + 1) l hnd'.2
        (fun x hx => hc x (by simp [hx])) hch (fun x hx => hd x (by simp [hx]))
      refine ⟨mem3, free', ?_, ?_, ?_, ?_⟩
      · rw [if_pos rfl, e]
        simp only [List.filter_cons, hm, if_true, List.length_cons]
        congr 2; omega
      · simpa [List.filter_cons, hm] using h1
      · intro x hx
        refine h2 x ?_
        rcases hx with hx | hx
        · left; exact fun h => hx (by simp [h])
        · exact Or.inr hx
      · intro x hx
        rcases List.mem_cons.mp hx with rfl | hx
        · exact ⟨car, cdr, by rw [h2 x (Or.inr hm)]; exact ha⟩
        · exact h3 x hx
    | false =>
      rw [if_neg (by simp), ha]
      simp only
      have hset : ∀ x, x ≠ a → (mem.set a (.cons car free))[x]? = mem[x]? := fun x hx =>
        List.getElem?_set_ne (Ne.symm hx)
      obtain ⟨mem3, free', e, h1, h2, h3⟩ := sweepCons_spec m ss (mem.set a (.cons car free)) (.ref a) used (a :: l) hnd'.2
        (fun x hx => by
          have : x ≠ a := by rintro rfl; exact hnd'.1 hx
          rw [hset x this]; exact hc x (by simp [hx]))
        (.cons (List.getElem?_set_self hlt) (hch.congr fun x hx => hset x (by rintro rfl; exact hd x (by simp) hx)))
        (fun x hx => by
          simp only [List.mem_cons, not_or]
          exact ⟨by rintro rfl; exact hnd'.1 hx, hd x (by simp [hx])⟩)
      refine ⟨mem3, free', ?_, ?_, ?_, ?_⟩
      · rw [e]; simp [List.filter_cons, hm]
      · simpa [List.filter_cons, hm] using h1
      · intro x hx
        have hxa : x ≠ a := by
          rintro rfl
          rcases hx with hx | hx
          · exact hx (by simp)
          · simp [hm] at hx
        rw [h2 x (hx.imp (fun h h' => h (by simp [h'])) id), hset x hxa]
      · intro x hx
        rcases List.mem_cons.mp hx with rfl | hx
        · rw [h2 x (Or.inl hnd'.1), List.getElem?_set_self hlt]; exact ⟨_, _, rfl⟩
        · exact h3 x hx

end Rep.Gc
