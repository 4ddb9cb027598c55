import Verif.Regex.Emit

namespace Rep.Regex

/-! ### Trees the parser makes -/

inductive Lv
  | piece
  | branch
  | alts

/-- Strings are not empty and have no NUL. -/
def One.ok : One → Bool
  | .lit s => !s.isEmpty && s.all (· != 0)
  | _ => true

def Re.isRep : Re → Bool
  | .rep _ _ _ => true
  | _ => false

/-- Pieces, branches, alternatives; the operand of `*` and `+` has a width. -/
def Re.wf : Lv → Re → Bool
  | .piece, .one o => o.ok
  | .piece, .grp _ r => r.wf .alts
  | .piece, .rep m _ r => r.wf .piece && (m == .opt || r.hasWidth) && !r.isRep
  | .branch, .eps => true
  | .branch, .seq a b => a.wf .piece && b.wf .branch
  | .alts, .alt a b => a.wf .branch && b.wf .alts
  | .alts, .last a => a.wf .branch
  | _, _ => false

/-! ### Alternatives -/

theorem Pre.le {m : Mem} {r : Re} {p q L : Nat} (h : Pre m r p q L) : p ≤ L ∧ L + 6 ≤ q := by
  induction r generalizing p with
  | alt a b _ ih =>
    obtain ⟨_, q1, l1, _, h1, _, h2⟩ := h
    have := h1.le
    have := ih h2
    omega
  | last a _ =>
    obtain ⟨_, rfl, l1, h1, _⟩ := h
    have := h1.le
    omega
  | _ => exact nomatch h

theorem Pre.map {m m' : Mem} {r : Re} {p q L : Nat} (h : Pre m r p q L) (hg : Grow m m')
    (ht : ∀ a, p ≤ a → a ≠ L → Tail m a → Tail m' a) : Pre m' r p q L := by
  induction r generalizing p with
  | alt a b _ ih =>
    obtain ⟨h0, q1, l1, h1, h2, h3, h4⟩ := h
    have := h2.le
    have := h4.le
    exact ⟨hg.op h0, q1, l1, hg.link h1, h2.grow hg, ht l1 (by omega) (by omega) h3,
      ih h4 fun a ha => ht a (by omega)⟩
  | last a _ =>
    obtain ⟨h0, rfl, l1, h1, h2⟩ := h
    have := h1.le
    exact ⟨hg.op h0, rfl, l1, h1.grow hg, ht l1 (by omega) (by omega) h2⟩
  | _ => exact nomatch h

theorem Pre.op {m : Mem} {r : Re} {p q L : Nat} (h : Pre m r p q L) : Op m p .branch := by
  cases r <;> first | exact h.1 | exact nomatch h

/-- At the node that closes the alternatives the loop ends. -/
theorem optails_end {e : Em} {q v f : Nat} (ht : Tail e.mem q) (ho : ¬ Op e.mem q .branch) :
    optails v (f + 1) q e = some e := by
  obtain ⟨nd, h1, h2, h3⟩ := ht
  have : nd.op ≠ .branch := fun h => ho ⟨nd, h1, h⟩
  simp [optails, regoptail, h1, this, Node.next, h2]

theorem optails_step {e e1 : Em} {p k v f : Nat} (h : regoptail p v e = some e1) (hl : Link e1.mem p k) :
    optails v (f + 1) p e = optails v f k e1 := by
  obtain ⟨nd, h1, h2⟩ := id hl
  simp only [optails, h, h1, hl.next h1]

theorem optails_ok {r : Re} {q L : Nat} (hq : q < 65536) :
    ∀ {p e}, Fresh e → Pre e.mem r p q L → Link e.mem L q → Tail e.mem q → ¬ Op e.mem q .branch →
    ∀ f, q - p + 1 < f → ∃ e', optails q f p e = some e' ∧ e'.code = e.code ∧ Fresh e' ∧ AFrag e'.mem r p q ∧
      Grow e.mem e'.mem ∧ (∀ a, a < p ∨ q ≤ a → e'.mem a = e.mem a) := by
  induction r with
  | alt a b _ ih =>
    intro p e hf hp hL hE hE' f hlt
    obtain ⟨f, rfl⟩ : ∃ k, f = k + 1 := ⟨f - 1, by omega⟩
    obtain ⟨h0, q1, l1, h1, h2, h3, h4⟩ := hp
    have b1 := h2.le
    have b2 := h4.le
    obtain ⟨e1, k1, T⟩ := regtail_ok hf h2.walk h3 (show l1 < q by omega) hq
    rw [optails_step (by rw [regoptail_eq h0]; exact k1) (T.grow.link h1)]
    have hE1 : ¬ Op e1.mem q .branch := by
      rintro ⟨nd, x1, x2⟩
      exact hE' ⟨nd, by rw [← T.old q (by omega)]; exact x1, x2⟩
    obtain ⟨e2, k2, c2, f2, A2, g2, o2⟩ := ih T.fresh
      (h4.map T.grow fun a ha _ hta => T.tail (by omega) hta) (T.grow.link hL) (T.tail (by omega) hE) hE1 f (by omega)
    refine ⟨e2, k2, by rw [c2, T.code], f2, ?_, T.grow.trans g2, ?_⟩
    · have G := T.grow.trans g2
      exact ⟨G.op h0, q1, l1, G.link h1, h2.grow G, g2.link T.link, A2⟩
    · intro a ha
      rw [o2 a (by omega), T.old a (by omega)]
  | last a _ =>
    intro p e hf hp hL hE hE' f hlt
    obtain ⟨f, rfl⟩ : ∃ k, f = k + 2 := ⟨f - 2, by omega⟩
    obtain ⟨h0, rfl, l1, h2, h3⟩ := hp
    have b1 := h2.le
    obtain ⟨e1, k1, T⟩ := regtail_ok hf h2.walk h3 (show l1 < q by omega) hq
    rw [optails_step (by rw [regoptail_eq h0]; exact k1) (T.grow.link hL)]
    have hE1 : ¬ Op e1.mem q .branch := by
      rintro ⟨nd, x1, x2⟩
      exact hE' ⟨nd, by rw [← T.old q (by omega)]; exact x1, x2⟩
    refine ⟨e1, optails_end (T.tail (by omega) hE) hE1, T.code, T.fresh, ?_, T.grow, fun a ha => T.old a (by omega)⟩
    exact ⟨T.grow.op h0, l1, T.grow.link hL, h2.grow T.grow, T.link⟩
  | _ => exact (fun _ h => nomatch h)

theorem close_ok {op : Opc} {r : Re} {ret p L : Nat} {e : Em} (hf : Fresh e) (hp : Pre e.mem r p e.code L)
    (hw : Walk e.mem ret L) (ht : Tail e.mem L) (hop : op ≠ .branch ∧ op ≠ .back ∧ op.operand = 0)
    (hr : ret = p ∨ (ret + 3 = p ∧ Link e.mem ret p ∧ ¬ Op e.mem ret .branch)) (hb : e.code + 3 < 65536) :
    ∃ e', close op ret e = some e' ∧ e'.code = e.code + 3 ∧ Fresh e' ∧ AFrag e'.mem r p e.code ∧
      Op e'.mem e.code op ∧ Tail e'.mem e.code ∧ Grow e.mem e'.mem ∧ (∀ a, a < p → e'.mem a = e.mem a) := by
  have hle := hp.le
  have g1 := regnode_grow op hf
  have f1 := regnode_fresh op hf
  have n1 := regnode_new op e
  have old1 : ∀ a, a ≠ e.code → (regnode op e).mem a = e.mem a := fun a h => regnode_old _ _ h
  have t1 := ht.node (op := op) hf
  have c1 : (regnode op e).code = e.code + 3 := regnode_code0 e hop.2.2
  have p1 : Pre (regnode op e).mem r p e.code L := hp.map g1 fun a _ _ h => h.node hf
  unfold close
  generalize regnode op e = e1 at *
  obtain ⟨e2, q2, T2⟩ := regtail_ok f1 (hw.grow g1) t1 (show L < e.code by omega) (by omega)
  rw [q2, Option.bind_some]
  have p2 : Pre e2.mem r p e.code L := p1.map T2.grow fun a _ ha h => T2.tail ha h
  have E2 : Tail e2.mem e.code := T2.tail (by omega) (n1.2.1 hop.2.1)
  have nb2 : ¬ Op e2.mem e.code .branch := by
    rintro ⟨nd, x1, x2⟩
    rw [T2.old _ (by omega), n1.2.2] at x1
    cases x1
    exact hop.1 x2
  have c2 : e2.code = e.code + 3 := by rw [T2.code, c1]
  have fin : ∀ f, e.code - p + 1 < f → ∃ e', optails e.code f p e2 = some e' ∧ e'.code = e2.code ∧ Fresh e' ∧
      AFrag e'.mem r p e.code ∧ Grow e2.mem e'.mem ∧ (∀ a, a < p ∨ e.code ≤ a → e'.mem a = e2.mem a) :=
    optails_ok (by omega) T2.fresh p2 T2.link E2 nb2
  have wrap : ∀ e', (e'.code = e2.code ∧ Fresh e' ∧
      AFrag e'.mem r p e.code ∧ Grow e2.mem e'.mem ∧ (∀ a, a < p ∨ e.code ≤ a → e'.mem a = e2.mem a)) →
      e'.code = e.code + 3 ∧ Fresh e' ∧ AFrag e'.mem r p e.code ∧
      Op e'.mem e.code op ∧ Tail e'.mem e.code ∧ Grow e.mem e'.mem ∧ (∀ a, a < p → e'.mem a = e.mem a) := by
    rintro e' ⟨h1, h2, h3, h4, h5⟩
    refine ⟨by omega, h2, h3, h4.op (T2.grow.op n1.1), ?_, g1.trans (T2.grow.trans h4), ?_⟩
    · obtain ⟨nd, x1, x2⟩ := E2
      exact ⟨nd, by rw [h5 _ (.inr (Nat.le_refl _))]; exact x1, x2⟩
    · intro a ha
      rw [h5 a (.inl ha), T2.old a (by omega), old1 a (by omega)]
  rcases hr with rfl | ⟨hr1, hr2, hr3⟩
  · obtain ⟨e', k, h⟩ := fin (e2.code + 1) (by omega)
    exact ⟨e', k, wrap e' h⟩
  · have hne : regoptail ret e.code e2 = some e2 := by
      obtain ⟨nd, x1, _⟩ := id hr2
      have : e2.mem ret = some nd := by rw [T2.old _ (by omega), old1 _ (by omega), x1]
      have hb' : nd.op ≠ .branch := fun h => hr3 ⟨nd, x1, h⟩
      simp [regoptail, this, hb']
    rw [optails_step hne (T2.grow.link (g1.link hr2))]
    obtain ⟨e', k, h⟩ := fin e2.code (by omega)
    exact ⟨e', k, wrap e' h⟩

/-! ### Everything -/

/-- A piece or branch `r` was emitted between `e` and `e'`. -/
structure Done (r : Re) (sz : Nat) (e e' : Em) (l : Nat) : Prop where
  code : e'.code = e.code + sz
  fresh : Fresh e'
  frag : Frag e'.mem r e.code e'.code l
  tail : Tail e'.mem l
  below : ∀ a, a < e.code → e'.mem a = e.mem a

theorem below_grow {e e' : Em} (hf : Fresh e) (h : ∀ a, a < e.code → e'.mem a = e.mem a) : Grow e.mem e'.mem := by
  have key : ∀ a nd, e.mem a = some nd → e'.mem a = some nd := by
    intro a nd ha
    rw [h a, ha]
    apply Nat.lt_of_not_le
    intro hle
    rw [hf a hle] at ha
    cases ha
  exact ⟨fun ⟨nd, h1, h2⟩ => ⟨nd, key _ _ h1, h2⟩, fun ⟨nd, h1, h2⟩ => ⟨nd, key _ _ h1, h2⟩⟩

theorem below_tail {e e' : Em} (hf : Fresh e) (h : ∀ a, a < e.code → e'.mem a = e.mem a) {a : Nat}
    (ht : Tail e.mem a) : Tail e'.mem a := by
  have := ht.lt hf
  obtain ⟨nd, h1, h2⟩ := ht
  exact ⟨nd, by rw [h a this, h1], h2⟩

theorem Done.grow {r : Re} {sz l : Nat} {e e' : Em} (hf : Fresh e) (h : Done r sz e e' l) : Grow e.mem e'.mem :=
  below_grow hf h.below

/-- A branch was emitted behind the chain that ends at `lc`. -/
structure Chained (r : Re) (sz : Nat) (e e' : Em) (lc l : Nat) : Prop where
  code : e'.code = e.code + sz
  fresh : Fresh e'
  frag : Frag e'.mem r e.code e'.code l
  tail : Tail e'.mem l
  link : Link e'.mem lc e.code
  grow : Grow e.mem e'.mem
  below : ∀ a, a < e.code → a ≠ lc → e'.mem a = e.mem a

/-- Alternatives were emitted. -/
structure Alts (r : Re) (e e' : Em) (ret L : Nat) : Prop where
  code : e'.code = e.code + size false r
  fresh : Fresh e'
  pre : Pre e'.mem r e.code e'.code L
  walk : Walk e'.mem ret L
  tail : Tail e'.mem L

theorem emit_one {o : One} {e : Em} (hf : Fresh e) :
    Done (.one o) (size false (.one o)) e (regnode (.one o) e) e.code := by
  have n := regnode_new (.one o) e
  refine ⟨by simp only [regnode, size]; omega, regnode_fresh _ hf, ⟨n.1, rfl, rfl⟩, n.2.1 (by simp), fun a ha => regnode_old _ _ (by omega)⟩

theorem emit_nothing {e : Em} (hf : Fresh e) : Done .eps (size true .eps) e (regnode .nothing e) e.code := by
  have n := regnode_new .nothing e
  refine ⟨rfl, regnode_fresh _ hf, ⟨n.1, rfl, rfl⟩, n.2.1 (by simp), fun a ha => regnode_old _ _ (by omega)⟩

theorem emits (nc : Bool) (r : Re) : r.good nc = true →
    (r.wf .piece = true → ∀ e, Fresh e → e.code + size false r < 65530 →
      ∃ e' l, emitPiece r e = some (e.code, e') ∧ Done r (size false r) e e' l) ∧
    (r.wf .branch = true → ∀ e, Fresh e → e.code + size true r < 65530 →
      ∃ e' l, emitSeq none r e = some e' ∧ Done r (size true r) e e' l) ∧
    (r.wf .branch = true → r ≠ .eps → ∀ e c lc, Fresh e → e.code + size false r < 65530 →
      Walk e.mem c lc → Tail e.mem lc →
      ∃ e' l, emitSeq (some c) r e = some e' ∧ Chained r (size false r) e e' lc l) ∧
    (r.wf .alts = true → ∀ e, Fresh e → e.code + size false r < 65530 →
      (∃ e' L, emitAlts none r e = some (e.code, e') ∧ Alts r e e' e.code L ∧
        ∀ a, a < e.code → e'.mem a = e.mem a) ∧
      (∀ c L0, Walk e.mem c L0 → Tail e.mem L0 →
        ∃ e' L, emitAlts (some c) r e = some (c, e') ∧ Alts r e e' c L ∧ Link e'.mem L0 e.code ∧
          Grow e.mem e'.mem ∧ ∀ a, a < e.code → a ≠ L0 → e'.mem a = e.mem a)) := by
  induction r with
  | eps =>
    intro _
    refine ⟨(fun h => nomatch h), fun _ e hf _ => ⟨_, _, rfl, emit_nothing hf⟩, fun _ h => absurd rfl h, (fun h => nomatch h)⟩
  | one o =>
    intro _
    exact ⟨fun _ e hf _ => ⟨_, _, rfl, emit_one hf⟩, (fun h => nomatch h), (fun h => nomatch h), (fun h => nomatch h)⟩
  | grp n r ih =>
    intro hg
    refine ⟨fun hw e hf hb => ?_, (fun h => nomatch h), (fun h => nomatch h), (fun h => nomatch h)⟩
    have hsz : size false (.grp n r) = 6 + size false r := rfl
    obtain ⟨_, _, _, hA⟩ := ih hg
    have g1 := regnode_grow (.opn n) hf
    have f1 := regnode_fresh (.opn n) hf
    have n1 := regnode_new (.opn n) e
    have old1 : ∀ a, a ≠ e.code → (regnode (.opn n) e).mem a = e.mem a := fun a h => regnode_old _ _ h
    have c1 : (regnode (.opn n) e).code = e.code + 3 := regnode_code0 e rfl
    simp only [emitPiece]
    generalize regnode (.opn n) e = e1 at *
    obtain ⟨e2, L, q2, A2, l2, G2, b2⟩ := (hA hw e1 f1 (by omega)).2 e.code e.code .refl (n1.2.1 (by simp))
    rw [q2, Option.bind_some]
    have hb2 := A2.pre.le
    have no : ¬ Op e2.mem e.code .branch := by
      obtain ⟨nd, x1, x2⟩ := G2.op n1.1
      rintro ⟨nd', y1, y2⟩
      rw [x1] at y1
      cases y1
      rw [x2] at y2
      cases y2
    obtain ⟨e3, q3, c3, f3, F3, o3, t3, G3, b3⟩ := close_ok (op := .close n) A2.fresh A2.pre A2.walk A2.tail
      ⟨by simp, by simp, rfl⟩ (.inr ⟨c1.symm, l2, no⟩) (by rw [A2.code]; omega)
    refine ⟨e3, e2.code, by rw [q3]; rfl, ?_, f3, ?_, t3, ?_⟩
    · rw [c3, A2.code, c1, hsz]
      omega
    · refine ⟨G3.op (G2.op n1.1), ?_, ?_, o3, c3⟩
      · exact (G3.link l2).at rfl c1
      · exact F3.at c1 rfl
    · intro a ha
      rw [b3 a (by omega), b2 a (by omega) (by omega), old1 a (by omega)]
  | rep m g r ih =>
    intro hg
    refine ⟨fun hw e hf hb => ?_, (fun h => nomatch h), (fun h => nomatch h), (fun h => nomatch h)⟩
    have hsz : size false (.rep m g r) = size false r + sizeRep m g r.simple := rfl
    simp only [Re.wf, Bool.and_eq_true] at hw
    have hpiece : ∃ e' l, emitPiece r e = some (e.code, e') ∧ Done r (size false r) e e' l := by
      by_cases hs : r.simple = true
      · obtain ⟨o, rfl⟩ := simple_one hs
        exact ⟨_, _, rfl, emit_one hf⟩
      · refine (ih ?_).1 hw.1.1 e hf (by omega)
        simp only [Re.good, Bool.and_eq_true] at hg
        rw [if_neg (by simp [hs])] at hg
        exact hg.2
    obtain ⟨e1, l1, q1, D1⟩ := hpiece
    have hmg : m ≠ .opt ∨ g = true := by
      simp only [Re.good, Bool.and_eq_true] at hg
      simpa using hg.1
    obtain ⟨e2, l2, q2, R2⟩ := rep_ok hmg D1.fresh D1.frag D1.tail (by rw [D1.code]; omega)
    refine ⟨e2, l2, by simp only [emitPiece, q1, Option.bind_some, q2, Option.map_some], ?_, R2.fresh, R2.frag, R2.tail, ?_⟩
    · rw [R2.code, D1.code, hsz]
      omega
    · intro a ha
      rw [R2.below a ha, D1.below a ha]
  | seq a b iha ihb =>
    intro hg
    simp only [Re.good, Bool.and_eq_true] at hg
    have ha := (iha hg.1).1
    have hb := (ihb hg.2).2.2.1
    refine ⟨(fun h => nomatch h), fun hw e hf hsz => ?_, fun hw _ e c lc hf hsz hwk htl => ?_, (fun h => nomatch h)⟩
    · simp only [Re.wf, Bool.and_eq_true] at hw
      have hs : size true (.seq a b) = size false a + size false b := rfl
      obtain ⟨e1, l1, q1, D1⟩ := ha hw.1 e hf (by omega)
      have G1 := D1.grow hf
      simp only [emitSeq, q1, Option.bind_some]
      have hle := D1.frag.le
      by_cases he : b = .eps
      · subst he
        refine ⟨e1, l1, rfl, ⟨D1.code, D1.fresh, ?_, D1.tail, D1.below⟩⟩
        unfold Frag
        rw [if_pos rfl]
        exact D1.frag
      · obtain ⟨e2, l2, q2, D2⟩ := hb hw.2 he e1 e.code l1 D1.fresh (by rw [D1.code]; omega) D1.frag.walk D1.tail
        refine ⟨e2, l2, q2, ⟨by rw [D2.code, D1.code, hs]; omega, D2.fresh, ?_, D2.tail, ?_⟩⟩
        · unfold Frag
          rw [if_neg he]
          exact ⟨e1.code, l1, D1.frag.grow D2.grow, D2.link, D2.frag⟩
        · intro x hx
          rw [D2.below x (by omega) (by omega), D1.below x hx]
    · simp only [Re.wf, Bool.and_eq_true] at hw
      have hs : size false (.seq a b) = size false a + size false b := rfl
      obtain ⟨e1, l1, q1, D1⟩ := ha hw.1 e hf (by omega)
      have G1 := D1.grow hf
      have hlt := htl.lt hf
      have hle := D1.frag.le
      simp only [emitSeq, q1, Option.bind_some]
      obtain ⟨e2, q2, T2⟩ := regtail_ok D1.fresh (hwk.grow G1) (below_tail hf D1.below htl) hlt (by omega)
      rw [q2, Option.bind_some]
      have F2 := D1.frag.grow T2.grow
      have t2 := T2.tail (show l1 ≠ lc by omega) D1.tail
      by_cases he : b = .eps
      · subst he
        refine ⟨e2, l1, rfl, ⟨by rw [T2.code]; exact D1.code, T2.fresh, ?_, t2, T2.link, G1.trans T2.grow, ?_⟩⟩
        · unfold Frag
          rw [if_pos rfl, T2.code]
          exact F2
        · intro x hx hx'
          rw [T2.old x hx', D1.below x hx]
      · obtain ⟨e3, l3, q3, D3⟩ := hb hw.2 he e2 e.code l1 T2.fresh (by rw [T2.code, D1.code]; omega) F2.walk t2
        have hc := T2.code
        refine ⟨e3, l3, q3, ⟨by rw [D3.code, T2.code, D1.code, hs]; omega, D3.fresh, ?_, D3.tail, D3.grow.link T2.link,
          G1.trans (T2.grow.trans D3.grow), ?_⟩⟩
        · unfold Frag
          rw [if_neg he]
          exact ⟨e2.code, l1, (F2.grow D3.grow).at rfl hc.symm rfl, D3.link, D3.frag⟩
        · intro x hx hx'
          rw [D3.below x (by omega) (by omega), T2.old x hx', D1.below x hx]
  | alt a b iha ihb =>
    intro hg
    simp only [Re.good, Bool.and_eq_true] at hg
    have ha := (iha hg.1.1).2.1
    have hb := (ihb hg.2).2.2.2
    refine ⟨(fun h => nomatch h), (fun h => nomatch h), (fun h => nomatch h), fun hw e hf hsz => ?_⟩
    simp only [Re.wf, Bool.and_eq_true] at hw
    have hs : size false (.alt a b) = 3 + size true a + size false b := rfl
    have g1 := regnode_grow .branch hf
    have f1 := regnode_fresh .branch hf
    have n1 := regnode_new .branch e
    have old1 : ∀ a, a ≠ e.code → (regnode .branch e).mem a = e.mem a := fun a h => regnode_old _ _ h
    have c1 : (regnode .branch e).code = e.code + 3 := regnode_code0 e rfl
    have tn : ∀ {a}, Tail e.mem a → Tail (regnode .branch e).mem a := fun h => h.node hf
    simp only [emitAlts]
    generalize regnode .branch e = e1 at *
    obtain ⟨e2, l2, q2, D2⟩ := ha hw.1 e1 f1 (by omega)
    rw [q2, Option.bind_some]
    have G2 := D2.grow f1
    have hle := D2.frag.le
    have tb2 : Tail e2.mem e.code := below_tail f1 D2.below (n1.2.1 (by simp))
    have c2 := D2.code
    constructor
    · obtain ⟨e3, L, q3, A3, k3, G3, b3⟩ := (hb hw.2 e2 D2.fresh (by omega)).2 e.code e.code .refl tb2
      refine ⟨e3, L, q3, ⟨by rw [A3.code]; omega, A3.fresh, ?_, A3.walk, A3.tail⟩, ?_⟩
      · refine ⟨G3.op (G2.op n1.1), e2.code, l2, k3, (D2.frag.grow G3).at c1 rfl rfl, ?_, A3.pre⟩
        obtain ⟨nd, x1, x2⟩ := D2.tail
        exact ⟨nd, by rw [b3 _ (by omega) (by omega), x1], x2⟩
      · intro x hx
        rw [b3 x (by omega) (by omega), D2.below x (by omega), old1 x (by omega)]
    · intro c L0 hwk htl
      have hlt := htl.lt hf
      have G12 := g1.trans G2
      obtain ⟨e3, q3, T3⟩ := regtail_ok D2.fresh (hwk.grow G12) (below_tail f1 D2.below (tn htl)) hlt (by omega)
      simp only [Option.bind_some, q3]
      have hc3 := T3.code
      have w3 : Walk e3.mem c e.code := (hwk.grow (G12.trans T3.grow)).trans (.one T3.link hlt)
      obtain ⟨e4, L, q4, A4, k4, G4, b4⟩ := (hb hw.2 e3 T3.fresh (by omega)).2 c e.code w3 (T3.tail (by omega) tb2)
      refine ⟨e4, L, q4, ⟨by rw [A4.code]; omega, A4.fresh, ?_, A4.walk, A4.tail⟩, G4.link T3.link,
        G12.trans (T3.grow.trans G4), ?_⟩
      · refine ⟨G4.op (T3.grow.op (G2.op n1.1)), e3.code, l2, k4, (D2.frag.grow (T3.grow.trans G4)).at c1 hc3.symm rfl,
          ?_, A4.pre⟩
        obtain ⟨nd, x1, x2⟩ := T3.tail (show l2 ≠ L0 by omega) D2.tail
        exact ⟨nd, by rw [b4 _ (by omega) (by omega), x1], x2⟩
      · intro x hx hx'
        rw [b4 x (by omega) (by omega), T3.old x hx', D2.below x (by omega), old1 x (by omega)]
  | last a iha =>
    intro hg
    have ha := (iha hg).2.1
    refine ⟨(fun h => nomatch h), (fun h => nomatch h), (fun h => nomatch h), fun hw e hf hsz => ?_⟩
    have hs : size false (.last a) = 3 + size true a := rfl
    have g1 := regnode_grow .branch hf
    have f1 := regnode_fresh .branch hf
    have n1 := regnode_new .branch e
    have old1 : ∀ a, a ≠ e.code → (regnode .branch e).mem a = e.mem a := fun a h => regnode_old _ _ h
    have c1 : (regnode .branch e).code = e.code + 3 := regnode_code0 e rfl
    have tn : ∀ {a}, Tail e.mem a → Tail (regnode .branch e).mem a := fun h => h.node hf
    simp only [emitAlts]
    generalize regnode .branch e = e1 at *
    obtain ⟨e2, l2, q2, D2⟩ := ha hw e1 f1 (by omega)
    rw [q2, Option.bind_some]
    have G2 := D2.grow f1
    have hle := D2.frag.le
    have tb2 : Tail e2.mem e.code := below_tail f1 D2.below (n1.2.1 (by simp))
    have c2 := D2.code
    constructor
    · refine ⟨e2, e.code, rfl, ⟨by omega, D2.fresh, ?_, .refl, tb2⟩, ?_⟩
      · exact ⟨G2.op n1.1, rfl, l2, D2.frag.at c1 rfl rfl, D2.tail⟩
      · intro x hx
        rw [D2.below x (by omega), old1 x (by omega)]
    · intro c L0 hwk htl
      have hlt := htl.lt hf
      have G12 := g1.trans G2
      obtain ⟨e3, q3, T3⟩ := regtail_ok D2.fresh (hwk.grow G12) (below_tail f1 D2.below (tn htl)) hlt (by omega)
      simp only [Option.bind_some, q3]
      have hc3 := T3.code
      refine ⟨e3, e.code, rfl, ⟨by omega, T3.fresh, ?_, (hwk.grow (G12.trans T3.grow)).trans (.one T3.link hlt),
        T3.tail (by omega) tb2⟩, T3.link, G12.trans T3.grow, ?_⟩
      · exact ⟨T3.grow.op (G2.op n1.1), rfl, l2, (D2.frag.grow T3.grow).at c1 hc3.symm rfl, T3.tail (by omega) D2.tail⟩
      · intro x hx hx'
        rw [T3.old x hx', D2.below x (by omega), old1 x (by omega)]

/-- The whole program: the alternatives, then `END`. -/
theorem emit_ok {nc : Bool} {r : Re} (hw : r.wf .alts = true) (hg : r.good nc = true)
    (hs : 1 + size false r + 3 < 32767) :
    ∃ e q, emit r = some e ∧ AFrag e.mem r 1 q ∧ e.mem q = some ⟨.fin, 0⟩ ∧ q < e.code := by
  have hf : Fresh ⟨fun _ => none, 1⟩ := fun _ _ => rfl
  obtain ⟨e1, L, q1, A1, _⟩ := ((emits nc r hg).2.2.2 hw ⟨fun _ => none, 1⟩ hf (by show 1 + _ < _; omega)).1
  have hc : e1.code = 1 + size false r := A1.code
  obtain ⟨e2, q2, c2, f2, F2, o2, t2, _⟩ := close_ok (op := .fin) A1.fresh A1.pre A1.walk A1.tail
    ⟨by simp, by simp, rfl⟩ (.inl rfl) (by omega)
  have hq : e2.mem e1.code = some ⟨.fin, 0⟩ := by
    obtain ⟨nd, a1, a2⟩ := o2
    obtain ⟨nd', b1, b2, _⟩ := t2
    rw [a1] at b1
    cases b1
    cases nd
    simp only at a2 b2
    rw [a1, a2, b2]
  refine ⟨e2, e1.code, ?_, F2, hq, by omega⟩
  unfold emit
  rw [q1, Option.bind_some]
  exact q2

end Rep.Regex
