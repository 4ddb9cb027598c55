import Verif.Regex.Spec

/-
The shape of compiled code, and what the primitives of the code generator do to it.
-/

namespace Rep.Regex

abbrev Mem := Nat → Option Node

/-- There is a node with this opcode at `a`. -/
def Op (m : Mem) (a : Nat) (op : Opc) : Prop := ∃ nd, m a = some nd ∧ nd.op = op

/-- The node at `a` points to `k`. -/
def Link (m : Mem) (a k : Nat) : Prop :=
  ∃ nd, m a = some nd ∧ nd.off ≠ 0 ∧ (if nd.op = .back then nd.off + k = a else a + nd.off = k)

/-- The node at `a` points nowhere yet. -/
def Tail (m : Mem) (a : Nat) : Prop := ∃ nd, m a = some nd ∧ nd.off = 0 ∧ nd.op ≠ .back

theorem Link.next {m : Mem} {a k : Nat} {nd : Node} (h : Link m a k) (ha : m a = some nd) : nd.next a = some k := by
  obtain ⟨nd', h1, h2, h3⟩ := h
  rw [ha] at h1
  cases h1
  unfold Node.next
  rw [if_neg h2]
  split at h3
  · rename_i hb
    rw [if_pos hb]
    congr 1
    omega
  · rename_i hb
    rw [if_neg hb, h3]

theorem Tail.next {m : Mem} {a : Nat} {nd : Node} (h : Tail m a) (ha : m a = some nd) : nd.next a = none := by
  obtain ⟨nd', h1, h2, _⟩ := h
  rw [ha] at h1
  cases h1
  simp [Node.next, h2]

/-- The opcode of a repeated simple atom. -/
def repOp : Mult → Bool → Opc
  | .plus, true => .plus
  | .plus, false => .ngplus
  | _, true => .star
  | _, false => .ngstar

mutual
/-- The code of a piece or a branch is at the addresses `p … q - 1`, and the node at `l` is the
one that is to point to what comes next. -/
def Frag (m : Mem) : Re → Nat → Nat → Nat → Prop
  | .eps, p, q, l => Op m p .nothing ∧ l = p ∧ q = p + 3
  | .one o, p, q, l => Op m p (.one o) ∧ l = p ∧ q = p + 3 + (Opc.one o).operand
  | .grp n r, p, q, l =>
    Op m p (.opn n) ∧ Link m p (p + 3) ∧ AFrag m r (p + 3) l ∧ Op m l (.close n) ∧ q = l + 3
  | .rep mu g r, p, q, l =>
    if mu ≠ .opt ∧ r.simple = true then
      Op m p (repOp mu g) ∧ Frag m r (p + 3) q (p + 3) ∧ l = p
    else
      match mu, g with
      | .star, true => Op m p .branch ∧ ∃ b lx, Frag m r (p + 3) b lx ∧ Link m lx b ∧ Op m b .back ∧ Link m b p ∧
          Link m p (b + 3) ∧ Op m (b + 3) .branch ∧ Link m (b + 3) (b + 6) ∧ Op m (b + 6) .nothing ∧
          l = b + 6 ∧ q = b + 9
      | .star, false => Op m p .branch ∧ Op m (p + 3) .nothing ∧ Op m (p + 6) .branch ∧
          ∃ b lx, Frag m r (p + 9) b lx ∧ Link m lx b ∧ Op m b .back ∧ Link m b p ∧ Link m p (p + 6) ∧
          Link m (p + 3) q ∧ l = p + 6 ∧ q = b + 3
      | .plus, true => ∃ b lx, Frag m r p b lx ∧ Link m lx b ∧ Op m b .branch ∧ Op m (b + 3) .back ∧
          Link m (b + 3) p ∧ Link m b (b + 6) ∧ Op m (b + 6) .branch ∧ Link m (b + 6) (b + 9) ∧
          Op m (b + 9) .nothing ∧ l = b + 9 ∧ q = b + 12
      | .plus, false => ∃ b lx, Frag m r p b lx ∧ Link m lx b ∧ Op m b .branch ∧ Op m (b + 3) .nothing ∧
          Link m b (b + 6) ∧ Op m (b + 6) .branch ∧ Op m (b + 9) .back ∧ Link m (b + 9) p ∧
          Link m (b + 3) q ∧ l = b + 6 ∧ q = b + 12
      | .opt, true => Op m p .branch ∧ ∃ b lx, Frag m r (p + 3) b lx ∧ Link m lx (b + 3) ∧ Link m p b ∧
          Op m b .branch ∧ Link m b (b + 3) ∧ Op m (b + 3) .nothing ∧ l = b + 3 ∧ q = b + 6
      | .opt, false => False
  | .seq a b, p, q, l =>
    if b = .eps then Frag m a p q l
    else ∃ q1 l1, Frag m a p q1 l1 ∧ Link m l1 q1 ∧ Frag m b q1 q l
  | .alt _ _, _, _, _ => False
  | .last _, _, _, _ => False

/-- The code of alternatives is at `p … q - 1`, and `q` is the node that follows. -/
def AFrag (m : Mem) : Re → Nat → Nat → Prop
  | .alt a b, p, q => Op m p .branch ∧ ∃ q1 l1, Link m p q1 ∧ Frag m a (p + 3) q1 l1 ∧ Link m l1 q ∧ AFrag m b q1 q
  | .last a, p, q => Op m p .branch ∧ ∃ l1, Link m p q ∧ Frag m a (p + 3) q l1 ∧ Link m l1 q
  | _, _, _ => False
end

/-- The same before the ends of the branches are connected; `L` is the last `BRANCH` node. -/
def Pre (m : Mem) : Re → Nat → Nat → Nat → Prop
  | .alt a b, p, q, L => Op m p .branch ∧ ∃ q1 l1, Link m p q1 ∧ Frag m a (p + 3) q1 l1 ∧ Tail m l1 ∧ Pre m b q1 q L
  | .last a, p, q, L => Op m p .branch ∧ L = p ∧ ∃ l1, Frag m a (p + 3) q l1 ∧ Tail m l1
  | _, _, _, _ => False

theorem bounds (m : Mem) (r : Re) :
    (∀ p q l, Frag m r p q l → p ≤ l ∧ l + 3 ≤ q) ∧ (∀ p q, AFrag m r p q → p + 6 ≤ q) := by
  induction r with
  | eps => exact ⟨fun p q l ⟨_, h1, h2⟩ => by omega, fun p q h => nomatch h⟩
  | one o => exact ⟨fun p q l ⟨_, h1, h2⟩ => by omega, fun p q h => nomatch h⟩
  | grp n r ih =>
    refine ⟨fun p q l ⟨_, _, h1, _, h2⟩ => ?_, fun p q h => nomatch h⟩
    have := ih.2 _ _ h1
    omega
  | rep mu g r ih =>
    refine ⟨fun p q l h => ?_, fun p q h => nomatch h⟩
    unfold Frag at h
    split at h
    · have := ih.1 _ _ _ h.2.1
      omega
    · cases mu <;> cases g <;> simp only at h
      · obtain ⟨_, _, _, b, lx, h1, _, _, _, _, _, h2, h3⟩ := h
        have := ih.1 _ _ _ h1
        omega
      · obtain ⟨_, b, lx, h1, _, _, _, _, _, _, _, h2, h3⟩ := h
        have := ih.1 _ _ _ h1
        omega
      · obtain ⟨b, lx, h1, _, _, _, _, _, _, _, _, h2, h3⟩ := h
        have := ih.1 _ _ _ h1
        omega
      · obtain ⟨b, lx, h1, _, _, _, _, _, _, _, _, h2, h3⟩ := h
        have := ih.1 _ _ _ h1
        omega
      · obtain ⟨_, b, lx, h1, _, _, _, _, _, h2, h3⟩ := h
        have := ih.1 _ _ _ h1
        omega
  | seq a b iha ihb =>
    refine ⟨fun p q l h => ?_, fun p q h => nomatch h⟩
    unfold Frag at h
    split at h
    · exact iha.1 _ _ _ h
    · obtain ⟨q1, l1, h1, _, h2⟩ := h
      have := iha.1 _ _ _ h1
      have := ihb.1 _ _ _ h2
      omega
  | alt a b iha ihb =>
    refine ⟨(fun p q l h => nomatch h), fun p q h => ?_⟩
    obtain ⟨_, q1, l1, _, h1, _, h2⟩ := h
    have := iha.1 _ _ _ h1
    have := ihb.2 _ _ h2
    omega
  | last a ih =>
    refine ⟨(fun p q l h => nomatch h), fun p q h => ?_⟩
    obtain ⟨_, l1, _, h1, _⟩ := h
    have := ih.1 _ _ _ h1
    omega

theorem Frag.le {m : Mem} {r : Re} {p q l : Nat} (h : Frag m r p q l) : p ≤ l ∧ l + 3 ≤ q := (bounds m r).1 p q l h
theorem AFrag.le {m : Mem} {r : Re} {p q : Nat} (h : AFrag m r p q) : p + 6 ≤ q := (bounds m r).2 p q h

/-- All nodes and links of `m` from `base` on are in `m'`, `d` further on. -/
structure Moved (m m' : Mem) (base d : Nat) : Prop where
  op : ∀ {a o}, base ≤ a → Op m a o → Op m' (a + d) o
  link : ∀ {a k}, base ≤ a → base ≤ k → Link m a k → Link m' (a + d) (k + d)

theorem Op.at {m : Mem} {a a' : Nat} {o : Opc} (h : Op m a o) (e : a = a') : Op m a' o := e ▸ h
theorem Link.at {m : Mem} {a a' k k' : Nat} (h : Link m a k) (e : a = a') (e' : k = k') : Link m a' k' := e ▸ e' ▸ h
theorem Frag.at {m : Mem} {r : Re} {p q l p' q' l' : Nat} (h : Frag m r p q l) (e1 : p = p') (e2 : q = q')
    (e3 : l = l') : Frag m r p' q' l' := e1 ▸ e2 ▸ e3 ▸ h
theorem AFrag.at {m : Mem} {r : Re} {p q p' q' : Nat} (h : AFrag m r p q) (e1 : p = p') (e2 : q = q') :
    AFrag m r p' q' := e1 ▸ e2 ▸ h

theorem moved {m m' : Mem} {base d : Nat} (hm : Moved m m' base d) (r : Re) :
    (∀ p q l, base ≤ p → Frag m r p q l → Frag m' r (p + d) (q + d) (l + d)) ∧
    (∀ p q, base ≤ p → AFrag m r p q → AFrag m' r (p + d) (q + d)) := by
  have op : ∀ {a a' o}, base ≤ a → Op m a o → a + d = a' → Op m' a' o := fun h1 h2 e => (hm.op h1 h2).at e
  have link : ∀ {a k a' k'}, base ≤ a → base ≤ k → Link m a k → a + d = a' → k + d = k' → Link m' a' k' :=
    fun h1 h2 h3 e e' => (hm.link h1 h2 h3).at e e'
  induction r with
  | eps =>
    exact ⟨fun p q l hp ⟨h0, h1, h2⟩ => ⟨op hp h0 rfl, by omega, by omega⟩, fun p q _ h => nomatch h⟩
  | one o =>
    exact ⟨fun p q l hp ⟨h0, h1, h2⟩ => ⟨op hp h0 rfl, by omega, by omega⟩, fun p q _ h => nomatch h⟩
  | grp n r ih =>
    refine ⟨fun p q l hp ⟨h0, h1, h2, h3, h4⟩ => ?_, fun p q _ h => nomatch h⟩
    have := h2.le
    exact ⟨op hp h0 rfl, link hp (by omega) h1 rfl (by omega), (ih.2 _ _ (by omega) h2).at (by omega) rfl,
      op (by omega) h3 rfl, by omega⟩
  | rep mu g r ih =>
    refine ⟨fun p q l hp h => ?_, fun p q _ h => nomatch h⟩
    unfold Frag at h ⊢
    split at h
    · rename_i hs
      rw [if_pos hs]
      exact ⟨op hp h.1 rfl, (ih.1 _ _ _ (by omega) h.2.1).at (by omega) rfl (by omega), by omega⟩
    · rename_i hs
      rw [if_neg hs]
      cases mu <;> cases g <;> simp only at h ⊢
      · obtain ⟨h0, h1, h2, b, lx, h3, h4, h5, h6, h7, h8, rfl, rfl⟩ := h
        have := h3.le
        exact ⟨op hp h0 rfl, op (by omega) h1 (by omega), op (by omega) h2 (by omega), b + d, lx + d,
          (ih.1 _ _ _ (by omega) h3).at (by omega) rfl rfl, link (by omega) (by omega) h4 rfl rfl,
          op (by omega) h5 rfl, link (by omega) (by omega) h6 rfl rfl, link (by omega) (by omega) h7 rfl (by omega),
          link (by omega) (by omega) h8 (by omega) rfl, by omega, by omega⟩
      · obtain ⟨h0, b, lx, h3, h4, h5, h6, h7, h8, h9, h10, rfl, rfl⟩ := h
        have := h3.le
        exact ⟨op hp h0 rfl, b + d, lx + d,
          (ih.1 _ _ _ (by omega) h3).at (by omega) rfl rfl, link (by omega) (by omega) h4 rfl rfl,
          op (by omega) h5 rfl, link (by omega) (by omega) h6 rfl rfl, link (by omega) (by omega) h7 rfl (by omega),
          op (by omega) h8 (by omega), link (by omega) (by omega) h9 (by omega) (by omega),
          op (by omega) h10 (by omega), by omega, by omega⟩
      · obtain ⟨b, lx, h3, h4, h5, h6, h7, h8, h9, h10, h11, rfl, rfl⟩ := h
        have := h3.le
        exact ⟨b + d, lx + d,
          (ih.1 _ _ _ (by omega) h3).at (by omega) rfl rfl, link (by omega) (by omega) h4 rfl rfl,
          op (by omega) h5 rfl, op (by omega) h6 (by omega), link (by omega) (by omega) h7 rfl (by omega),
          op (by omega) h8 (by omega), op (by omega) h9 (by omega), link (by omega) (by omega) h10 (by omega) (by omega),
          link (by omega) (by omega) h11 (by omega) rfl, by omega, by omega⟩
      · obtain ⟨b, lx, h3, h4, h5, h6, h7, h8, h9, h10, h11, rfl, rfl⟩ := h
        have := h3.le
        exact ⟨b + d, lx + d,
          (ih.1 _ _ _ (by omega) h3).at (by omega) rfl rfl, link (by omega) (by omega) h4 rfl rfl,
          op (by omega) h5 rfl, op (by omega) h6 (by omega), link (by omega) (by omega) h7 (by omega) rfl,
          link (by omega) (by omega) h8 rfl (by omega), op (by omega) h9 (by omega),
          link (by omega) (by omega) h10 (by omega) (by omega), op (by omega) h11 (by omega), by omega, by omega⟩
      · obtain ⟨h0, b, lx, h3, h4, h5, h6, h7, h8, rfl, rfl⟩ := h
        have := h3.le
        exact ⟨op hp h0 rfl, b + d, lx + d,
          (ih.1 _ _ _ (by omega) h3).at (by omega) rfl rfl, link (by omega) (by omega) h4 rfl (by omega),
          link (by omega) (by omega) h5 rfl rfl, op (by omega) h6 rfl, link (by omega) (by omega) h7 rfl (by omega),
          op (by omega) h8 (by omega), by omega, by omega⟩
  | seq a b iha ihb =>
    refine ⟨fun p q l hp h => ?_, fun p q _ h => nomatch h⟩
    unfold Frag at h ⊢
    split at h
    · rename_i he
      rw [if_pos he]
      exact iha.1 _ _ _ hp h
    · rename_i he
      rw [if_neg he]
      obtain ⟨q1, l1, h1, h2, h3⟩ := h
      have := h1.le
      exact ⟨q1 + d, l1 + d, iha.1 _ _ _ hp h1, link (by omega) (by omega) h2 rfl rfl, ihb.1 _ _ _ (by omega) h3⟩
  | alt a b iha ihb =>
    refine ⟨(fun p q l _ h => nomatch h), fun p q hp h => ?_⟩
    obtain ⟨h0, q1, l1, h1, h2, h3, h4⟩ := h
    have := h2.le
    have := h4.le
    exact ⟨op hp h0 rfl, q1 + d, l1 + d, link hp (by omega) h1 rfl rfl,
      (iha.1 _ _ _ (by omega) h2).at (by omega) rfl rfl, link (by omega) (by omega) h3 rfl rfl,
      ihb.2 _ _ (by omega) h4⟩
  | last a ih =>
    refine ⟨(fun p q l _ h => nomatch h), fun p q hp h => ?_⟩
    obtain ⟨h0, l1, h1, h2, h3⟩ := h
    have := h2.le
    exact ⟨op hp h0 rfl, l1 + d, link hp (by omega) h1 rfl rfl,
      (ih.1 _ _ _ (by omega) h2).at (by omega) rfl rfl, link (by omega) (by omega) h3 rfl rfl⟩

/-- Nodes and links stay. -/
structure Grow (m m' : Mem) : Prop where
  op : ∀ {a o}, Op m a o → Op m' a o
  link : ∀ {a k}, Link m a k → Link m' a k

theorem Grow.moved {m m' : Mem} (h : Grow m m') : Moved m m' 0 0 := ⟨fun _ h1 => h.op h1, fun _ _ h1 => h.link h1⟩
theorem Grow.refl (m : Mem) : Grow m m := ⟨id, id⟩
theorem Grow.trans {m m' m'' : Mem} (h : Grow m m') (h' : Grow m' m'') : Grow m m'' :=
  ⟨fun x => h'.op (h.op x), fun x => h'.link (h.link x)⟩
theorem Frag.grow {m m' : Mem} {r : Re} {p q l : Nat} (h : Frag m r p q l) (hg : Grow m m') : Frag m' r p q l :=
  (Rep.Regex.moved hg.moved r).1 p q l (Nat.zero_le _) h
theorem AFrag.grow {m m' : Mem} {r : Re} {p q : Nat} (h : AFrag m r p q) (hg : Grow m m') : AFrag m' r p q :=
  (Rep.Regex.moved hg.moved r).2 p q (Nat.zero_le _) h

/-! ### Chains -/

inductive Walk (m : Mem) : Nat → Nat → Prop
  | refl {p} : Walk m p p
  | step {p k l} : Link m p k → p < k → Walk m k l → Walk m p l

theorem Walk.trans {m : Mem} {a b c : Nat} (h : Walk m a b) (h' : Walk m b c) : Walk m a c := by
  induction h with
  | refl => exact h'
  | step h1 h2 _ ih => exact .step h1 h2 (ih h')

theorem Walk.le {m : Mem} {a b : Nat} (h : Walk m a b) : a ≤ b := by
  induction h with
  | refl => exact Nat.le_refl _
  | step _ h2 _ ih => omega

theorem Walk.one {m : Mem} {a b : Nat} (h : Link m a b) (hl : a < b) : Walk m a b := .step h hl .refl

theorem Walk.grow {m m' : Mem} (hg : Grow m m') {a b : Nat} (h : Walk m a b) : Walk m' a b := by
  induction h with
  | refl => exact .refl
  | step h1 h2 _ ih => exact .step (hg.link h1) h2 ih

theorem walks (m : Mem) (r : Re) :
    (∀ p q l, Frag m r p q l → Walk m p l) ∧ (∀ p q, AFrag m r p q → Walk m p q) := by
  induction r with
  | eps => exact ⟨fun p q l ⟨_, h1, _⟩ => h1 ▸ .refl, fun p q h => nomatch h⟩
  | one o => exact ⟨fun p q l ⟨_, h1, _⟩ => h1 ▸ .refl, fun p q h => nomatch h⟩
  | grp n r ih =>
    exact ⟨fun p q l ⟨_, h0, h1, _, _⟩ => .step h0 (by omega) (ih.2 _ _ h1), fun p q h => nomatch h⟩
  | rep mu g r ih =>
    refine ⟨fun p q l h => ?_, fun p q h => nomatch h⟩
    unfold Frag at h
    split at h
    · rw [h.2.2]; exact .refl
    · cases mu <;> cases g <;> simp only at h
      · obtain ⟨_, _, _, b, lx, h1, _, _, _, h4, _, rfl, _⟩ := h
        exact .one h4 (by omega)
      · obtain ⟨_, b, lx, h1, _, _, _, h4, _, h5, _, rfl, _⟩ := h
        have := h1.le
        exact .step h4 (by omega) (.one h5 (by omega))
      · obtain ⟨b, lx, h1, h2, _, _, h4, _, _, _, _, rfl, _⟩ := h
        have := h1.le
        exact (ih.1 _ _ _ h1).trans (.step h2 (by omega) (.one h4 (by omega)))
      · obtain ⟨b, lx, h1, h2, _, _, _, h4, _, h5, _, rfl, _⟩ := h
        have := h1.le
        exact (ih.1 _ _ _ h1).trans (.step h2 (by omega) (.step h4 (by omega) (.one h5 (by omega))))
      · obtain ⟨_, b, lx, h1, _, h4, _, h5, _, rfl, _⟩ := h
        have := h1.le
        exact .step h4 (by omega) (.one h5 (by omega))
  | seq a b iha ihb =>
    refine ⟨fun p q l h => ?_, fun p q h => nomatch h⟩
    unfold Frag at h
    split at h
    · exact iha.1 _ _ _ h
    · obtain ⟨q1, l1, h1, h2, h3⟩ := h
      have := h1.le
      exact (iha.1 _ _ _ h1).trans (.step h2 (by omega) (ihb.1 _ _ _ h3))
  | alt a b iha ihb =>
    refine ⟨(fun p q l h => nomatch h), fun p q h => ?_⟩
    obtain ⟨_, q1, l1, h0, h1, _, h2⟩ := h
    have := h1.le
    exact .step h0 (by omega) (ihb.2 _ _ h2)
  | last a ih =>
    refine ⟨(fun p q l h => nomatch h), fun p q h => ?_⟩
    obtain ⟨_, l1, h0, h1, _⟩ := h
    have := h1.le
    exact .one h0 (by omega)

theorem Frag.walk {m : Mem} {r : Re} {p q l : Nat} (h : Frag m r p q l) : Walk m p l := (walks m r).1 p q l h

theorem lastOf_walk {m : Mem} {p l : Nat} (h : Walk m p l) (ht : ∃ nd, m l = some nd ∧ nd.off = 0) :
    ∀ f, l - p < f → lastOf m f p = some l := by
  induction h with
  | refl =>
    intro f hf
    cases f with
    | zero => omega
    | succ f =>
      obtain ⟨nd, h1, h2⟩ := ht
      simp [lastOf, h1, Node.next, h2]
  | step h1 h2 h3 ih =>
    intro f hf
    cases f with
    | zero => omega
    | succ f =>
      obtain ⟨nd, e, _⟩ := id h1
      have := h3.le
      simp only [lastOf, e, h1.next e]
      exact ih ht f (by omega)

/-! ### The primitives -/

/-- Nothing is stored behind the end. -/
def Fresh (e : Em) : Prop := ∀ a, e.code ≤ a → e.mem a = none

theorem regnode_new (op : Opc) (e : Em) : Op (regnode op e).mem e.code op ∧
    (op ≠ .back → Tail (regnode op e).mem e.code) ∧ (regnode op e).mem e.code = some ⟨op, 0⟩ := by
  refine ⟨⟨⟨op, 0⟩, by simp [regnode], rfl⟩, fun h => ⟨⟨op, 0⟩, by simp [regnode], rfl, h⟩, by simp [regnode]⟩

theorem regnode_old (op : Opc) (e : Em) {a : Nat} (h : a ≠ e.code) : (regnode op e).mem a = e.mem a := by
  simp [regnode, h]

theorem regnode_grow (op : Opc) {e : Em} (hf : Fresh e) : Grow e.mem (regnode op e).mem := by
  have key : ∀ a nd, e.mem a = some nd → (regnode op e).mem a = some nd := by
    intro a nd h
    rw [regnode_old op e, h]
    rintro rfl
    rw [hf _ (Nat.le_refl _)] at h
    cases h
  exact ⟨fun ⟨nd, h1, h2⟩ => ⟨nd, key _ _ h1, h2⟩, fun ⟨nd, h1, h2⟩ => ⟨nd, key _ _ h1, h2⟩⟩

theorem regnode_fresh (op : Opc) {e : Em} (hf : Fresh e) : Fresh (regnode op e) := by
  intro a ha
  simp only [regnode] at ha
  rw [regnode_old op e (by omega)]
  exact hf a (by omega)

theorem Tail.node {e : Em} {op : Opc} (hf : Fresh e) {a : Nat} (h : Tail e.mem a) : Tail (regnode op e).mem a := by
  obtain ⟨nd, h1, h2⟩ := h
  refine ⟨nd, ?_, h2⟩
  rw [regnode_old op e, h1]
  rintro rfl
  rw [hf _ (Nat.le_refl _)] at h1
  cases h1

theorem Tail.lt {e : Em} (hf : Fresh e) {a : Nat} (h : Tail e.mem a) : a < e.code := by
  obtain ⟨nd, h1, _⟩ := h
  apply Nat.lt_of_not_le
  intro hle
  rw [hf a hle] at h1
  cases h1

theorem reginsert_moved (op : Opc) (p : Nat) (e : Em) : Moved e.mem (reginsert op p e).mem p 3 := by
  have key : ∀ a nd, p ≤ a → e.mem a = some nd → (reginsert op p e).mem (a + 3) = some nd := by
    intro a nd hp h
    simp only [reginsert]
    rw [if_neg (by omega), if_neg (by omega), if_neg (by omega)]
    simpa using h
  refine ⟨fun hp ⟨nd, h1, h2⟩ => ⟨nd, key _ _ hp h1, h2⟩, ?_⟩
  rintro a k hp hk ⟨nd, h1, h2, h3⟩
  refine ⟨nd, key _ _ hp h1, h2, ?_⟩
  split at h3
  · rename_i hb; rw [if_pos hb]; omega
  · rename_i hb; rw [if_neg hb]; omega

theorem reginsert_tail {op : Opc} {p : Nat} {e : Em} {a : Nat} (hp : p ≤ a) (h : Tail e.mem a) :
    Tail (reginsert op p e).mem (a + 3) := by
  obtain ⟨nd, h1, h2⟩ := h
  refine ⟨nd, ?_, h2⟩
  simp only [reginsert]
  rw [if_neg (by omega), if_neg (by omega), if_neg (by omega)]
  simpa using h1

theorem reginsert_new (op : Opc) (p : Nat) (e : Em) : (reginsert op p e).mem p = some ⟨op, 0⟩ := by
  simp [reginsert]

theorem reginsert_op (op : Opc) (p : Nat) (e : Em) : Op (reginsert op p e).mem p op :=
  ⟨_, reginsert_new op p e, rfl⟩

theorem reginsert_tailNew {op : Opc} (p : Nat) (e : Em) (h : op ≠ .back) : Tail (reginsert op p e).mem p :=
  ⟨_, reginsert_new op p e, rfl, h⟩

theorem reginsert_old (op : Opc) {p : Nat} (e : Em) {a : Nat} (h : a < p) : (reginsert op p e).mem a = e.mem a := by
  simp [reginsert, h]

theorem reginsert_fresh (op : Opc) {p : Nat} {e : Em} (hf : Fresh e) (hp : p ≤ e.code) : Fresh (reginsert op p e) := by
  intro a ha
  simp only [reginsert] at ha ⊢
  rw [if_neg (by omega), if_neg (by omega), if_neg (by omega)]
  exact hf _ (by omega)

/-- What `regtail` does to a chain that ends at `l`. -/
structure Tied (e e' : Em) (l v : Nat) : Prop where
  code : e'.code = e.code
  link : Link e'.mem l v
  old : ∀ a, a ≠ l → e'.mem a = e.mem a
  grow : Grow e.mem e'.mem
  fresh : Fresh e'

theorem Tied.tail {e e' : Em} {l v a : Nat} (h : Tied e e' l v) (ha : a ≠ l) (ht : Tail e.mem a) : Tail e'.mem a := by
  obtain ⟨nd, h1, h2⟩ := ht
  exact ⟨nd, by rw [h.old a ha, h1], h2⟩

/-- Storing an offset. -/
theorem store_ok {e : Em} {l v : Nat} {nd : Node} (hf : Fresh e) (hn : e.mem l = some nd) (h0 : nd.off = 0)
    (hv : offset nd.op l v ≠ 0)
    (hl : if nd.op = .back then offset nd.op l v + v = l else l + offset nd.op l v = v) :
    Tied e { e with mem := fun a => if a = l then some { nd with off := offset nd.op l v } else e.mem a } l v := by
  refine ⟨rfl, ⟨{ nd with off := offset nd.op l v }, by simp, hv, hl⟩, fun a ha => by simp [ha], ⟨?_, ?_⟩, ?_⟩
  · rintro a o ⟨nd', h1, h2⟩
    by_cases ha : a = l
    · subst ha
      rw [hn] at h1
      cases h1
      exact ⟨{ nd with off := offset nd.op a v }, by simp, h2⟩
    · exact ⟨nd', by simp [ha, h1], h2⟩
  · rintro a k ⟨nd', h1, h2, h3⟩
    by_cases ha : a = l
    · subst ha
      rw [hn] at h1
      cases h1
      exact absurd h0 h2
    · exact ⟨nd', by simp [ha, h1], h2, h3⟩
  · intro a ha
    have : a ≠ l := by
      rintro rfl
      rw [hf _ ha] at hn
      cases hn
    simp only [this, if_false]
    exact hf a ha

theorem regtail_ok {e : Em} {p l v : Nat} (hf : Fresh e) (hw : Walk e.mem p l) (ht : Tail e.mem l)
    (hv : l < v) (hv' : v < 65536) : ∃ e', regtail p v e = some e' ∧ Tied e e' l v := by
  have hlt := ht.lt hf
  obtain ⟨nd, h1, h2, h3⟩ := ht
  unfold regtail
  rw [lastOf_walk hw ⟨nd, h1, h2⟩ _ (by omega)]
  simp only [h1]
  have ho : offset nd.op l v = v - l := by
    unfold offset
    rw [if_neg h3]
    omega
  exact ⟨_, rfl, store_ok hf h1 h2 (by omega) (by rw [if_neg h3]; omega)⟩

/-- The link of a `BACK` node. -/
theorem regtail_back {e : Em} {p l v : Nat} (hf : Fresh e) (hw : Walk e.mem p l) (hl : e.mem l = some ⟨.back, 0⟩)
    (hv : v < l) (hv' : l < 65536) : ∃ e', regtail p v e = some e' ∧ Tied e e' l v := by
  have hlt : l < e.code := by
    apply Nat.lt_of_not_le
    intro hle
    rw [hf l hle] at hl
    cases hl
  unfold regtail
  rw [lastOf_walk hw ⟨_, hl, rfl⟩ _ (by omega)]
  simp only [hl]
  have ho : offset .back l v = l - v := by
    unfold offset
    rw [if_pos rfl]
    omega
  exact ⟨_, rfl, store_ok hf hl rfl (by simp only [ho]; omega) (by simp only [ho, if_true]; omega)⟩

theorem regoptail_eq {e : Em} {p v : Nat} (h : Op e.mem p .branch) : regoptail p v e = regtail (p + 3) v e := by
  obtain ⟨nd, h1, h2⟩ := h
  simp [regoptail, h1, h2]

end Rep.Regex
