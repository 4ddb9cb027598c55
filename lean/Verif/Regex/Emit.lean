import Verif.Regex.Frag

/-
The code generator makes code of the right shape.
-/

namespace Rep.Regex

theorem reginsert_code (op : Opc) (p : Nat) (e : Em) : (reginsert op p e).code = e.code + 3 := rfl
theorem regnode_code0 {op : Opc} (e : Em) (h : op.operand = 0) : (regnode op e).code = e.code + 3 := by
  simp [regnode, h]

theorem ins_frag {e : Em} {r : Re} {p q l : Nat} (op : Opc) (h : Frag e.mem r p q l) :
    Frag (reginsert op p e).mem r (p + 3) (q + 3) (l + 3) :=
  (moved (reginsert_moved op p e) r).1 _ _ _ (Nat.le_refl _) h

theorem simple_one {r : Re} (h : r.simple = true) : ∃ o, r = .one o := by
  cases r <;> simp_all [Re.simple]

/-- What the code for a repetition operator leaves behind. -/
structure RepOk (m : Mult) (g : Bool) (r : Re) (p : Nat) (e e' : Em) (l : Nat) : Prop where
  code : e'.code = e.code + sizeRep m g r.simple
  fresh : Fresh e'
  frag : Frag e'.mem (.rep m g r) p e'.code l
  tail : Tail e'.mem l
  below : ∀ a, a < p → e'.mem a = e.mem a

theorem rep_simple {m : Mult} {g : Bool} {r : Re} {p lx : Nat} {e : Em} (hm : m ≠ .opt) (hs : r.simple = true)
    (hf : Fresh e) (hF : Frag e.mem r p e.code lx) :
    ∃ e' l, emitRep m g r.simple p e = some e' ∧ RepOk m g r p e e' l := by
  have hle := hF.le
  have hlx : lx = p := by
    obtain ⟨o, rfl⟩ := simple_one hs
    exact hF.2.1
  subst hlx
  have key : ∀ op, op = repOp m g → op ≠ .back → sizeRep m g true = 3 →
      RepOk m g r lx e (reginsert op lx e) lx := by
    intro op hop hb hsz
    refine ⟨by rw [hs, hsz]; rfl, reginsert_fresh op hf (by omega), ?_, reginsert_tailNew _ _ hb,
      fun a ha => reginsert_old op e ha⟩
    unfold Frag
    rw [if_pos ⟨hm, hs⟩]
    exact ⟨hop ▸ reginsert_op _ _ _, ins_frag op hF, rfl⟩
  rw [hs]
  cases m <;> cases g <;> first
    | exact absurd rfl hm
    | exact ⟨_, lx, rfl, key _ rfl (by simp) rfl⟩

theorem rep_star {r : Re} {p lx : Nat} {e : Em} (hs : r.simple = false)
    (hf : Fresh e) (hF : Frag e.mem r p e.code lx) (ht : Tail e.mem lx) (hb : e.code + 12 < 65536) :
    ∃ e' l, emitRep .star true r.simple p e = some e' ∧ RepOk .star true r p e e' l := by
  have hle := hF.le
  rw [hs]
  simp only [emitRep]
  -- the BRANCH in front
  have f1 : Fresh (reginsert .branch p e) := reginsert_fresh _ hf (by omega)
  have F1 := ins_frag .branch hF
  have t1 : Tail (reginsert .branch p e).mem (lx + 3) := reginsert_tail hle.1 ht
  have tp1 : Tail (reginsert .branch p e).mem p := reginsert_tailNew _ _ (by simp)
  have o1 := reginsert_op .branch p e
  have b1 : ∀ a, a < p → (reginsert .branch p e).mem a = e.mem a := fun a ha => reginsert_old _ _ ha
  have c1 : (reginsert .branch p e).code = e.code + 3 := rfl
  generalize reginsert .branch p e = e1 at *
  -- BACK
  have g2 := regnode_grow .back f1
  have f2 := regnode_fresh .back f1
  have n2 := regnode_new .back e1
  have old2 : ∀ a, a ≠ e1.code → (regnode .back e1).mem a = e1.mem a := fun a h => regnode_old _ _ h
  have tt2 := t1.node (op := .back) f1
  have tp2 := tp1.node (op := .back) f1
  have c2 : (regnode .back e1).code = e1.code + 3 := regnode_code0 e1 rfl
  have F2 := F1.grow g2
  have o2 := g2.op o1
  generalize regnode .back e1 = e2 at *
  rw [regoptail_eq o2]
  obtain ⟨e3, q3, T3⟩ := regtail_ok f2 F2.walk tt2 (show lx + 3 < e1.code by omega) (by omega)
  rw [q3, Option.bind_some, regoptail_eq (T3.grow.op o2)]
  have w3 : Walk e3.mem (p + 3) e1.code := (F2.walk.grow T3.grow).trans (.one T3.link (by omega))
  have nb3 : e3.mem e1.code = some ⟨.back, 0⟩ := by rw [T3.old _ (by omega)]; exact n2.2.2
  obtain ⟨e4, q4, T4⟩ := regtail_back T3.fresh w3 nb3 (show p < e1.code by omega) (by omega)
  rw [q4, Option.bind_some]
  have c4 : e4.code = e1.code + 3 := by rw [T4.code, T3.code, c2]
  have tp4 : Tail e4.mem p := T4.tail (by omega) (T3.tail (by omega) tp2)
  -- BRANCH
  have g5 := regnode_grow .branch T4.fresh
  have f5 := regnode_fresh .branch T4.fresh
  have n5 := regnode_new .branch e4
  have old5 : ∀ a, a ≠ e4.code → (regnode .branch e4).mem a = e4.mem a := fun a h => regnode_old _ _ h
  have tp5 := tp4.node (op := .branch) T4.fresh
  have c5 : (regnode .branch e4).code = e4.code + 3 := regnode_code0 e4 rfl
  generalize regnode .branch e4 = e5 at *
  obtain ⟨e6, q6, T6⟩ := regtail_ok f5 .refl tp5 (show p < e4.code by omega) (by omega)
  rw [q6, Option.bind_some]
  have tb6 := T6.tail (show e4.code ≠ p by omega) (n5.2.1 (by simp))
  have c6 : e6.code = e4.code + 3 := by rw [T6.code, c5]
  -- NOTHING
  have g7 := regnode_grow .nothing T6.fresh
  have f7 := regnode_fresh .nothing T6.fresh
  have n7 := regnode_new .nothing e6
  have old7 : ∀ a, a ≠ e6.code → (regnode .nothing e6).mem a = e6.mem a := fun a h => regnode_old _ _ h
  have tb7 := tb6.node (op := .nothing) T6.fresh
  have c7 : (regnode .nothing e6).code = e6.code + 3 := regnode_code0 e6 rfl
  generalize regnode .nothing e6 = e7 at *
  obtain ⟨e8, q8, T8⟩ := regtail_ok f7 (.one (g7.link T6.link) (by omega)) tb7 (show e4.code < e6.code by omega) (by omega)
  refine ⟨e8, e6.code, q8, ?_, T8.fresh, ?_, T8.tail (by omega) (n7.2.1 (by simp)), ?_⟩
  · rw [T8.code, hs]
    show _ = e.code + 12
    omega
  · have G28 : Grow e2.mem e8.mem := T3.grow.trans (T4.grow.trans (g5.trans (T6.grow.trans (g7.trans T8.grow))))
    have G68 : Grow e6.mem e8.mem := g7.trans T8.grow
    unfold Frag
    rw [if_neg (by simp [hs])]
    refine ⟨G28.op o2, e1.code, lx + 3, (F2.grow G28).at rfl (by omega) rfl,
      (T4.grow.trans (g5.trans (T6.grow.trans G68))).link T3.link, G28.op n2.1,
      (g5.trans (T6.grow.trans G68)).link T4.link, (G68.link T6.link).at rfl (by omega),
      ((T6.grow.trans G68).op n5.1).at (by omega), T8.link.at (by omega) (by omega), (T8.grow.op n7.1).at (by omega),
      by omega, ?_⟩
    rw [T8.code]
    omega
  · intro a ha
    rw [T8.old a (by omega), old7 a (by omega), T6.old a (by omega), old5 a (by omega), T4.old a (by omega),
      T3.old a (by omega), old2 a (by omega), b1 a ha]

theorem rep_ngstar {r : Re} {p lx : Nat} {e : Em} (hs : r.simple = false)
    (hf : Fresh e) (hF : Frag e.mem r p e.code lx) (ht : Tail e.mem lx) (hb : e.code + 12 < 65536) :
    ∃ e' l, emitRep .star false r.simple p e = some e' ∧ RepOk .star false r p e e' l := by
  have hle := hF.le
  rw [hs]
  simp only [emitRep]
  have f1 : Fresh (reginsert .branch p e) := reginsert_fresh _ hf (by omega)
  have F1 := ins_frag .branch hF
  have t1 : Tail (reginsert .branch p e).mem (lx + 3) := reginsert_tail hle.1 ht
  have tp1 : Tail (reginsert .branch p e).mem p := reginsert_tailNew _ _ (by simp)
  have o1 := reginsert_op .branch p e
  have b1 : ∀ a, a < p → (reginsert .branch p e).mem a = e.mem a := fun a ha => reginsert_old _ _ ha
  have c1 : (reginsert .branch p e).code = e.code + 3 := rfl
  generalize reginsert .branch p e = e1 at *
  have m2 := reginsert_moved .nothing p e1
  have f2 : Fresh (reginsert .nothing p e1) := reginsert_fresh _ f1 (by omega)
  have F2 := (moved m2 r).1 _ _ _ (by omega) F1
  have t2 : Tail (reginsert .nothing p e1).mem (lx + 3 + 3) := reginsert_tail (by omega) t1
  have tp2 : Tail (reginsert .nothing p e1).mem (p + 3) := reginsert_tail (by omega) tp1
  have o2 : Op (reginsert .nothing p e1).mem (p + 3) .branch := m2.op (Nat.le_refl _) o1
  have tn2 : Tail (reginsert .nothing p e1).mem p := reginsert_tailNew _ _ (by simp)
  have on2 := reginsert_op .nothing p e1
  have b2 : ∀ a, a < p → (reginsert .nothing p e1).mem a = e1.mem a := fun a ha => reginsert_old _ _ ha
  have c2 : (reginsert .nothing p e1).code = e1.code + 3 := rfl
  generalize reginsert .nothing p e1 = e2 at *
  have m3 := reginsert_moved .branch p e2
  have f3 : Fresh (reginsert .branch p e2) := reginsert_fresh _ f2 (by omega)
  have F3 := (moved m3 r).1 _ _ _ (by omega) F2
  have t3 : Tail (reginsert .branch p e2).mem (lx + 3 + 3 + 3) := reginsert_tail (by omega) t2
  have tp3 : Tail (reginsert .branch p e2).mem (p + 3 + 3) := reginsert_tail (by omega) tp2
  have o3 : Op (reginsert .branch p e2).mem (p + 3 + 3) .branch := m3.op (by omega) o2
  have tn3 : Tail (reginsert .branch p e2).mem (p + 3) := reginsert_tail (by omega) tn2
  have on3 : Op (reginsert .branch p e2).mem (p + 3) .nothing := m3.op (by omega) on2
  have tb3 : Tail (reginsert .branch p e2).mem p := reginsert_tailNew _ _ (by simp)
  have ob3 := reginsert_op .branch p e2
  have b3 : ∀ a, a < p → (reginsert .branch p e2).mem a = e2.mem a := fun a ha => reginsert_old _ _ ha
  have c3 : (reginsert .branch p e2).code = e2.code + 3 := rfl
  generalize reginsert .branch p e2 = e3 at *
  replace F3 : Frag e3.mem r (p + 9) e3.code (lx + 9) := F3.at (by omega) (by omega) (by omega)
  replace t3 : Tail e3.mem (lx + 9) := t3
  replace tp3 : Tail e3.mem (p + 6) := tp3
  replace o3 : Op e3.mem (p + 6) .branch := o3
  -- BACK
  have g4 := regnode_grow .back f3
  have f4 := regnode_fresh .back f3
  have n4 := regnode_new .back e3
  have old4 : ∀ a, a ≠ e3.code → (regnode .back e3).mem a = e3.mem a := fun a h => regnode_old _ _ h
  have t4 := t3.node (op := .back) f3
  have tp4 := tp3.node (op := .back) f3
  have tn4 := tn3.node (op := .back) f3
  have tb4 := tb3.node (op := .back) f3
  have c4 : (regnode .back e3).code = e3.code + 3 := regnode_code0 e3 rfl
  have F4 := F3.grow g4
  generalize regnode .back e3 = e4 at *
  obtain ⟨e5, q5, T5⟩ := regtail_ok f4 F4.walk t4 (show lx + 9 < e3.code by omega) (by omega)
  rw [q5, Option.bind_some]
  have w5 : Walk e5.mem (p + 9) e3.code := (F4.walk.grow T5.grow).trans (.one T5.link (by omega))
  have nb5 : e5.mem e3.code = some ⟨.back, 0⟩ := by rw [T5.old _ (by omega)]; exact n4.2.2
  obtain ⟨e6, q6, T6⟩ := regtail_back T5.fresh w5 nb5 (show p < e3.code by omega) (by omega)
  rw [q6, Option.bind_some]
  have tb6 : Tail e6.mem p := T6.tail (by omega) (T5.tail (by omega) tb4)
  obtain ⟨e7, q7, T7⟩ := regtail_ok T6.fresh .refl tb6 (show p < p + 6 by omega) (by omega)
  rw [q7, Option.bind_some]
  have tn7 : Tail e7.mem (p + 3) := T7.tail (by omega) (T6.tail (by omega) (T5.tail (by omega) tn4))
  have c7 : e7.code = e3.code + 3 := by rw [T7.code, T6.code, T5.code, c4]
  obtain ⟨e8, q8, T8⟩ := regtail_ok T7.fresh .refl tn7 (show p + 3 < e7.code by omega) (by omega)
  refine ⟨e8, p + 6, q8, ?_, T8.fresh, ?_,
    T8.tail (by omega) (T7.tail (by omega) (T6.tail (by omega) (T5.tail (by omega) tp4))), ?_⟩
  · rw [T8.code, hs]
    show _ = e.code + 12
    omega
  · have G48 : Grow e4.mem e8.mem := T5.grow.trans (T6.grow.trans (T7.grow.trans T8.grow))
    have G38 := g4.trans G48
    unfold Frag
    rw [if_neg (by simp [hs])]
    refine ⟨G38.op ob3, G38.op on3, G38.op o3, e3.code, lx + 9, F4.grow G48,
      (T6.grow.trans (T7.grow.trans T8.grow)).link T5.link, G48.op n4.1, (T7.grow.trans T8.grow).link T6.link,
      T8.grow.link T7.link, T8.link.at rfl T8.code.symm, rfl, ?_⟩
    rw [T8.code]
    omega
  · intro a ha
    rw [T8.old a (by omega), T7.old a (by omega), T6.old a (by omega), T5.old a (by omega), old4 a (by omega),
      b3 a ha, b2 a ha, b1 a ha]

theorem rep_plus {r : Re} {p lx : Nat} {e : Em} (hs : r.simple = false)
    (hf : Fresh e) (hF : Frag e.mem r p e.code lx) (ht : Tail e.mem lx) (hb : e.code + 12 < 65536) :
    ∃ e' l, emitRep .plus true r.simple p e = some e' ∧ RepOk .plus true r p e e' l := by
  have hle := hF.le
  rw [hs]
  simp only [emitRep]
  have g1 := regnode_grow .branch hf
  have f1 := regnode_fresh .branch hf
  have n1 := regnode_new .branch e
  have old1 : ∀ a, a ≠ e.code → (regnode .branch e).mem a = e.mem a := fun a h => regnode_old _ _ h
  have t1 := ht.node (op := .branch) hf
  have c1 : (regnode .branch e).code = e.code + 3 := regnode_code0 e rfl
  have F1 := hF.grow g1
  generalize regnode .branch e = e1 at *
  obtain ⟨e2, q2, T2⟩ := regtail_ok f1 F1.walk t1 (show lx < e.code by omega) (by omega)
  rw [q2, Option.bind_some]
  have tb2 := T2.tail (show e.code ≠ lx by omega) (n1.2.1 (by simp))
  have c2 : e2.code = e.code + 3 := by rw [T2.code, c1]
  -- BACK
  have g3 := regnode_grow .back T2.fresh
  have f3 := regnode_fresh .back T2.fresh
  have n3 := regnode_new .back e2
  have old3 : ∀ a, a ≠ e2.code → (regnode .back e2).mem a = e2.mem a := fun a h => regnode_old _ _ h
  have tb3 := tb2.node (op := .back) T2.fresh
  have c3 : (regnode .back e2).code = e2.code + 3 := regnode_code0 e2 rfl
  generalize regnode .back e2 = e3 at *
  obtain ⟨e4, q4, T4⟩ := regtail_back f3 .refl n3.2.2 (show p < e2.code by omega) (by omega)
  rw [q4, Option.bind_some]
  have tb4 := T4.tail (by omega) tb3
  have c4 : e4.code = e.code + 6 := by rw [T4.code, c3, c2]
  -- BRANCH
  have g5 := regnode_grow .branch T4.fresh
  have f5 := regnode_fresh .branch T4.fresh
  have n5 := regnode_new .branch e4
  have old5 : ∀ a, a ≠ e4.code → (regnode .branch e4).mem a = e4.mem a := fun a h => regnode_old _ _ h
  have tb5 := tb4.node (op := .branch) T4.fresh
  have c5 : (regnode .branch e4).code = e4.code + 3 := regnode_code0 e4 rfl
  generalize regnode .branch e4 = e5 at *
  obtain ⟨e6, q6, T6⟩ := regtail_ok f5 .refl tb5 (show e.code < e4.code by omega) (by omega)
  rw [q6, Option.bind_some]
  have tc6 := T6.tail (show e4.code ≠ e.code by omega) (n5.2.1 (by simp))
  have c6 : e6.code = e.code + 9 := by rw [T6.code, c5, c4]
  -- NOTHING
  have g7 := regnode_grow .nothing T6.fresh
  have f7 := regnode_fresh .nothing T6.fresh
  have n7 := regnode_new .nothing e6
  have old7 : ∀ a, a ≠ e6.code → (regnode .nothing e6).mem a = e6.mem a := fun a h => regnode_old _ _ h
  have tc7 := tc6.node (op := .nothing) T6.fresh
  have c7 : (regnode .nothing e6).code = e6.code + 3 := regnode_code0 e6 rfl
  generalize regnode .nothing e6 = e7 at *
  have G27 : Grow e2.mem e7.mem := g3.trans (T4.grow.trans (g5.trans (T6.grow.trans g7)))
  have w7 : Walk e7.mem p e4.code :=
    ((F1.grow (T2.grow.trans G27)).walk).trans (.step (G27.link T2.link) (by omega) (.one (g7.link T6.link) (by omega)))
  obtain ⟨e8, q8, T8⟩ := regtail_ok f7 w7 tc7 (show e4.code < e6.code by omega) (by omega)
  refine ⟨e8, e6.code, q8, ?_, T8.fresh, ?_, T8.tail (by omega) (n7.2.1 (by simp)), ?_⟩
  · rw [T8.code, hs]
    show _ = e.code + 12
    omega
  · have G28 := G27.trans T8.grow
    have G18 := T2.grow.trans G28
    have G68 := g7.trans T8.grow
    unfold Frag
    rw [if_neg (by simp [hs])]
    refine ⟨e.code, lx, F1.grow G18, G28.link T2.link, G18.op n1.1,
      ((T4.grow.trans (g5.trans (T6.grow.trans G68))).op n3.1).at (by omega),
      ((g5.trans (T6.grow.trans G68)).link T4.link).at (by omega) rfl, (G68.link T6.link).at rfl (by omega),
      ((T6.grow.trans G68).op n5.1).at (by omega), T8.link.at (by omega) (by omega), (T8.grow.op n7.1).at (by omega),
      by omega, ?_⟩
    rw [T8.code]
    omega
  · intro a ha
    rw [T8.old a (by omega), old7 a (by omega), T6.old a (by omega), old5 a (by omega), T4.old a (by omega),
      old3 a (by omega), T2.old a (by omega), old1 a (by omega)]

theorem rep_ngplus {r : Re} {p lx : Nat} {e : Em} (hs : r.simple = false)
    (hf : Fresh e) (hF : Frag e.mem r p e.code lx) (ht : Tail e.mem lx) (hb : e.code + 12 < 65536) :
    ∃ e' l, emitRep .plus false r.simple p e = some e' ∧ RepOk .plus false r p e e' l := by
  have hle := hF.le
  rw [hs]
  simp only [emitRep]
  have g1 := regnode_grow .branch hf
  have f1 := regnode_fresh .branch hf
  have n1 := regnode_new .branch e
  have old1 : ∀ a, a ≠ e.code → (regnode .branch e).mem a = e.mem a := fun a h => regnode_old _ _ h
  have t1 := ht.node (op := .branch) hf
  have c1 : (regnode .branch e).code = e.code + 3 := regnode_code0 e rfl
  have F1 := hF.grow g1
  generalize regnode .branch e = e1 at *
  obtain ⟨e2, q2, T2⟩ := regtail_ok f1 F1.walk t1 (show lx < e.code by omega) (by omega)
  rw [q2, Option.bind_some]
  have tb2 := T2.tail (show e.code ≠ lx by omega) (n1.2.1 (by simp))
  have c2 : e2.code = e.code + 3 := by rw [T2.code, c1]
  -- NOTHING
  have g3 := regnode_grow .nothing T2.fresh
  have f3 := regnode_fresh .nothing T2.fresh
  have n3 := regnode_new .nothing e2
  have old3 : ∀ a, a ≠ e2.code → (regnode .nothing e2).mem a = e2.mem a := fun a h => regnode_old _ _ h
  have tb3 := tb2.node (op := .nothing) T2.fresh
  have tn3 := n3.2.1 (by simp)
  have c3 : (regnode .nothing e2).code = e2.code + 3 := regnode_code0 e2 rfl
  generalize regnode .nothing e2 = e3 at *
  -- BRANCH
  have g4 := regnode_grow .branch f3
  have f4 := regnode_fresh .branch f3
  have n4 := regnode_new .branch e3
  have old4 : ∀ a, a ≠ e3.code → (regnode .branch e3).mem a = e3.mem a := fun a h => regnode_old _ _ h
  have tb4 := tb3.node (op := .branch) f3
  have tn4 := tn3.node (op := .branch) f3
  have tc4 := n4.2.1 (by simp)
  have c4 : (regnode .branch e3).code = e3.code + 3 := regnode_code0 e3 rfl
  generalize regnode .branch e3 = e4 at *
  -- BACK
  have g5 := regnode_grow .back f4
  have f5 := regnode_fresh .back f4
  have n5 := regnode_new .back e4
  have old5 : ∀ a, a ≠ e4.code → (regnode .back e4).mem a = e4.mem a := fun a h => regnode_old _ _ h
  have tb5 := tb4.node (op := .back) f4
  have tn5 := tn4.node (op := .back) f4
  have tc5 := tc4.node (op := .back) f4
  have c5 : (regnode .back e4).code = e4.code + 3 := regnode_code0 e4 rfl
  generalize regnode .back e4 = e5 at *
  obtain ⟨e6, q6, T6⟩ := regtail_back f5 .refl n5.2.2 (show p < e4.code by omega) (by omega)
  rw [q6, Option.bind_some]
  obtain ⟨e7, q7, T7⟩ := regtail_ok T6.fresh .refl (T6.tail (by omega) tb5) (show e.code < e3.code by omega) (by omega)
  rw [q7, Option.bind_some]
  have c7 : e7.code = e.code + 12 := by rw [T7.code, T6.code]; omega
  obtain ⟨e8, q8, T8⟩ := regtail_ok T7.fresh .refl (T7.tail (by omega) (T6.tail (by omega) tn5))
    (show e2.code < e7.code by omega) (by omega)
  refine ⟨e8, e3.code, q8, ?_, T8.fresh, ?_, T8.tail (by omega) (T7.tail (by omega) (T6.tail (by omega) tc5)), ?_⟩
  · rw [T8.code, hs]
    show _ = e.code + 12
    omega
  · have G68 := T7.grow.trans T8.grow
    have G58 := T6.grow.trans G68
    have G48 := g5.trans G58
    have G38 := g4.trans G48
    have G28 := g3.trans G38
    have G18 := T2.grow.trans G28
    unfold Frag
    rw [if_neg (by simp [hs])]
    refine ⟨e.code, lx, F1.grow G18, G28.link T2.link, G18.op n1.1, (G38.op n3.1).at (by omega),
      (T8.grow.link T7.link).at rfl (by omega), (G48.op n4.1).at (by omega), (G58.op n5.1).at (by omega),
      (G68.link T6.link).at (by omega) rfl, T8.link.at (by omega) T8.code.symm, by omega, ?_⟩
    rw [T8.code]
    omega
  · intro a ha
    rw [T8.old a (by omega), T7.old a (by omega), T6.old a (by omega), old5 a (by omega), old4 a (by omega),
      old3 a (by omega), T2.old a (by omega), old1 a (by omega)]

theorem rep_opt {r : Re} {p lx : Nat} {e : Em}
    (hf : Fresh e) (hF : Frag e.mem r p e.code lx) (ht : Tail e.mem lx) (hb : e.code + 9 < 65536) :
    ∃ e' l, emitRep .opt true r.simple p e = some e' ∧ RepOk .opt true r p e e' l := by
  have hle := hF.le
  have hr : emitRep .opt true r.simple p e = emitRep .opt true false p e := by cases r.simple <;> rfl
  rw [hr]
  simp only [emitRep]
  have f1 : Fresh (reginsert .branch p e) := reginsert_fresh _ hf (by omega)
  have F1 := ins_frag .branch hF
  have t1 : Tail (reginsert .branch p e).mem (lx + 3) := reginsert_tail hle.1 ht
  have tp1 : Tail (reginsert .branch p e).mem p := reginsert_tailNew _ _ (by simp)
  have o1 := reginsert_op .branch p e
  have b1 : ∀ a, a < p → (reginsert .branch p e).mem a = e.mem a := fun a ha => reginsert_old _ _ ha
  have c1 : (reginsert .branch p e).code = e.code + 3 := rfl
  generalize reginsert .branch p e = e1 at *
  have g2 := regnode_grow .branch f1
  have f2 := regnode_fresh .branch f1
  have n2 := regnode_new .branch e1
  have old2 : ∀ a, a ≠ e1.code → (regnode .branch e1).mem a = e1.mem a := fun a h => regnode_old _ _ h
  have t2 := t1.node (op := .branch) f1
  have tp2 := tp1.node (op := .branch) f1
  have c2 : (regnode .branch e1).code = e1.code + 3 := regnode_code0 e1 rfl
  generalize regnode .branch e1 = e2 at *
  obtain ⟨e3, q3, T3⟩ := regtail_ok f2 .refl tp2 (show p < e1.code by omega) (by omega)
  rw [q3, Option.bind_some]
  have t3 := T3.tail (by omega) t2
  have tb3 := T3.tail (show e1.code ≠ p by omega) (n2.2.1 (by simp))
  have c3 : e3.code = e1.code + 3 := by rw [T3.code, c2]
  have g4 := regnode_grow .nothing T3.fresh
  have f4 := regnode_fresh .nothing T3.fresh
  have n4 := regnode_new .nothing e3
  have old4 : ∀ a, a ≠ e3.code → (regnode .nothing e3).mem a = e3.mem a := fun a h => regnode_old _ _ h
  have t4 := t3.node (op := .nothing) T3.fresh
  have tb4 := tb3.node (op := .nothing) T3.fresh
  have c4 : (regnode .nothing e3).code = e3.code + 3 := regnode_code0 e3 rfl
  generalize regnode .nothing e3 = e4 at *
  obtain ⟨e5, q5, T5⟩ := regtail_ok f4 (.one (g4.link T3.link) (by omega)) tb4 (show e1.code < e3.code by omega) (by omega)
  rw [q5, Option.bind_some]
  have G15 : Grow e1.mem e5.mem := g2.trans (T3.grow.trans (g4.trans T5.grow))
  rw [regoptail_eq (G15.op o1)]
  obtain ⟨e6, q6, T6⟩ := regtail_ok T5.fresh ((F1.grow G15).walk) (T5.tail (by omega) t4)
    (show lx + 3 < e3.code by omega) (by omega)
  refine ⟨e6, e3.code, q6, ?_, T6.fresh, ?_, T6.tail (by omega) (T5.tail (by omega) (n4.2.1 (by simp))), ?_⟩
  · rw [T6.code, T5.code]
    show _ = e.code + 9
    omega
  · have G46 := T5.grow.trans T6.grow
    have G36 := g4.trans G46
    have G26 := T3.grow.trans G36
    have G16 := g2.trans G26
    unfold Frag
    rw [if_neg (by simp)]
    refine ⟨G16.op o1, e1.code, lx + 3, (F1.grow G16).at rfl (by omega) rfl, T6.link.at rfl (by omega),
      G36.link T3.link, G26.op n2.1, (T6.grow.link T5.link).at rfl (by omega), (G46.op n4.1).at (by omega),
      by omega, ?_⟩
    rw [T6.code, T5.code]
    omega
  · intro a ha
    rw [T6.old a (by omega), T5.old a (by omega), old4 a (by omega), T3.old a (by omega), old2 a (by omega), b1 a ha]

theorem rep_ok {m : Mult} {g : Bool} {r : Re} {p lx : Nat} {e : Em} (hm : m ≠ .opt ∨ g = true)
    (hf : Fresh e) (hF : Frag e.mem r p e.code lx) (ht : Tail e.mem lx)
    (hb : e.code + sizeRep m g r.simple < 65536) :
    ∃ e' l, emitRep m g r.simple p e = some e' ∧ RepOk m g r p e e' l := by
  by_cases ho : m = .opt
  · subst ho
    obtain rfl : g = true := by simpa using hm
    exact rep_opt hf hF ht hb
  · cases hs : r.simple with
    | true =>
      have := rep_simple (g := g) ho hs hf hF
      rwa [hs] at this
    | false =>
      rw [← hs]
      rw [hs] at hb
      cases m <;> cases g
      · exact rep_ngstar hs hf hF ht hb
      · exact rep_star hs hf hF ht hb
      · exact rep_ngplus hs hf hF ht hb
      · exact rep_plus hs hf hF ht hb
      · exact absurd rfl ho
      · exact absurd rfl ho

end Rep.Regex
