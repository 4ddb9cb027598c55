import Verif.Compile.Sim4

/-
Functions that are compiled inline, calls, and named `let`.
-/

namespace Rep.Compile

variable {U : Setup}

/-! ### The head of a function that is compiled inline -/

/-- The code before the label. -/
def inlinePre (c : Ctx) (ps : List Name) (s : CSt) : List I :=
  if ps = [] then [] else .initBind :: (bindAll ps.reverse c.lex s.cell).1

theorem inlineHead_code (c : Ctx) (nm : Option Name) (ps : List Name) (s : CSt) :
    (inlineHead c nm ps 0 s).1 = inlinePre c ps s ++ [.label s.lab] := by
  unfold inlineHead inlinePre
  split <;> simp

theorem inlineHead_lex (c : Ctx) (nm : Option Name) (ps : List Name) (e l : Nat) (s : CSt) :
    (inlineHead c nm ps e s).2.1.lex = (pents ps s.cell l).map Ent.lex ++ c.lex := by
  unfold inlineHead
  split
  · rename_i h
    subst h
    simp [pents]
  · exact bindAll_plex ps c.lex s.cell l

theorem inlineHead_recs (c : Ctx) (nm : Option Name) (ps : List Name) (e : Nat) (s : CSt) :
    (inlineHead c nm ps e s).2.1.recs = ⟨nm, ps, depth c.recs, c.sp,
      (inlineHead c nm ps e s).2.1.bp, s.lab, true⟩ :: c.recs := by
  unfold inlineHead
  split <;> rfl

theorem inlineHead_sp (c : Ctx) (nm : Option Name) (ps : List Name) (e : Nat) (s : CSt) :
    (inlineHead c nm ps e s).2.1.sp = c.sp := by
  unfold inlineHead
  split <;> rfl

theorem inlineHead_bp (c : Ctx) (nm : Option Name) (ps : List Name) (e : Nat) (s : CSt) :
    (inlineHead c nm ps e s).2.1.bp = if ps = [] then c.bp else c.bp + 1 := by
  unfold inlineHead
  split <;> rfl

/-- The frames of bindings of the body. -/
def inlineFrames (ps : List Name) (fp : List Ent) (fs : List (List Ent)) : List (List Ent) :=
  if ps = [] then fs else fp :: fs

theorem inlineFrames_flatten {ps : List Name} {n l : Nat} {fs : List (List Ent)} :
    (inlineFrames ps (pents ps n l) fs).flatten = pents ps n l ++ fs.flatten := by
  unfold inlineFrames
  split
  · rename_i h
    subst h
    rfl
  · rfl

theorem inlineFrames_suffix (ps : List Name) (fp : List Ent) (fs : List (List Ent)) :
    ∃ g, inlineFrames ps fp fs = g ++ fs := by
  unfold inlineFrames
  split
  · exact ⟨[], rfl⟩
  · exact ⟨[fp], rfl⟩

/-- The parameters are bound to the arguments on the stack. -/
theorem inline_bind {fr : Fr} {c : Ctx} {ps : List Name} {s : CSt} {fs : List (List Ent)} {w : World}
    {S : SSt} {env bst : List Nat} {slots : Nat → Option TVal} {st : TSt} {stk : List TVal}
    {pc : Nat} {Q : Out → Prop} {vs : List SVal} {vs' : List TVal}
    (hF : FR U fr fs w S env bst slots) (hw : WOk U w S st) (hvs : LRel (VR U w) vs vs')
    (hlen : vs.length = ps.length) (hlex : c.lex = (fs.flatten ++ fr.Eb).map Ent.lex)
    (hc : CodeAt fr.C pc (inlinePre c ps s))
    (hk : ∀ w' env' bst' slots' st',
      FR U fr (inlineFrames ps (pents ps s.cell w.n) fs) w' { S with σ := S.σ ++ vs } env' bst'
        slots' → WOk U w' { S with σ := S.σ ++ vs } st' →
      Ext fr.m w.n w S w' { S with σ := S.σ ++ vs } →
      GoesTo U.P U.table Q (U.mk' fr (pc + (inlinePre c ps s).length) stk env' bst' slots' st')) :
    GoesTo U.P U.table Q (U.mk' fr pc (vs'.reverse ++ stk) env bst slots st) := by
  obtain ⟨w1, a1, a2, a3, a4, a5, a6, a7⟩ := alloc_params hw vs
  have hF1 : FR U fr fs w1 { S with σ := S.σ ++ vs } env bst slots := by
    refine hF.move a5 (fun e _ h => by rw [a2]; exact h) ?_
    intro e he' _
    refine List.getElem?_append_left ?_
    rw [← hw.n]
    exact hF.lt e (List.mem_append_left _ he')
  by_cases hps : ps = []
  · subst hps
    have hv0 : vs' = [] := by
      have := hvs.length
      rw [hlen] at this
      exact List.length_eq_zero_iff.1 this.symm
    subst hv0
    have := hk w1 env bst slots st (by simpa [inlineFrames] using hF1) a6 (a7 fr.m hF.m)
    simpa [inlinePre] using this
  · have hpre : inlinePre c ps s = .initBind :: (bindAll ps.reverse c.lex s.cell).1 := by
      simp [inlinePre, hps]
    have hfr : ∀ fp, inlineFrames ps fp fs = fp :: fs := by
      intro fp; simp [inlineFrames, hps]
    rw [hpre] at hc hk
    rw [hfr] at hk
    refine GoesTo.step (step_initBind hc) ?_
    have hmem : ∀ e ∈ (pents ps s.cell w.n).reverse, w.n ≤ e.loc ∧ e.loc < w.n + ps.length :=
      fun e he => (pents_mem (List.mem_reverse.1 he)).2
    have hnd : ((pents ps s.cell w.n).reverse.map (·.loc)).Nodup := by
      rw [List.map_reverse, pents_loc]
      exact ((List.reverse_perm _).nodup_iff).2 List.nodup_range'
    refine bind_many hF1.push a6 ?_ hnd
      (pents_vals hw.n (hvs.mono fun _ _ h => VR.mono h a5) hlen).reverse hc.tail ?_ ?_
    · intro e he
      obtain ⟨q1, q2⟩ := hmem e he
      refine ⟨by rw [a1, hlen]; exact q2, Nat.le_trans hF.m q1, ?_, ?_, ?_⟩
      · rw [a2]; exact j_new hw q1
      · rw [a4 _ q1, pents_fk _ _ _ e (List.mem_reverse.1 he)]
      · intro e' he'
        have := hF.lt e' (List.mem_append_left _ (by simpa using he'))
        omega
    · have := bindAll_params (U := U) (own := fs.flatten) (Eb := fr.Eb) ps s.cell w.n
      rw [← hlex] at this
      simpa using this
    · intro w2 env2 bst2 slots2 st2 q1 q2 q3 q4 q5 q6 q7
      have := hk w2 env2 bst2 slots2 st2 (by simpa using q1) q2 ⟨a5.trans q3, ?_, ?_, ?_⟩
      · simp only [List.length_cons] at this
        rw [show pc + 1 + (bindAll ps.reverse c.lex s.cell).1.length =
          pc + ((bindAll ps.reverse c.lex s.cell).1.length + 1) by omega]
        exact this
      · intro l hl
        rw [q7 l (fun e he => by have := (hmem e he).1; omega), a2]
      · intro l _
        rw [q5, a3]
      · exact (a7 fr.m hF.m).σ

/-- The bindings of the parameters are removed. -/
theorem inline_end {fr : Fr} {ps : List Name} {fp : List Ent} {fs : List (List Ent)} {w : World}
    {S : SSt} {stk : List TVal} {pc : Nat} {Q : Out → Prop} {v : SVal} {S1 : SSt}
    (hc : CodeAt fr.C pc (inlineTail ps))
    (hk : EndK U fr w S fs (pc + (inlineTail ps).length) stk Q v S1) :
    EndK U fr w S (inlineFrames ps fp fs) pc stk Q v S1 := by
  by_cases hps : ps = []
  · subst hps
    simpa [inlineTail, inlineFrames] using hk
  · have ht : inlineTail ps = [.unbind] := by simp [inlineTail, hps]
    have hfr : inlineFrames ps fp fs = fp :: fs := by simp [inlineFrames, hps]
    rw [ht] at hc hk
    rw [hfr]
    intro w1 env1 bst1 slots1 st1 v1 p1 p2 p3 p4
    obtain ⟨env2, bst2, q1, q2⟩ := step_unbind' (st := st1) p1 (v1 :: stk) hc
    refine GoesTo.step q1 ?_
    exact hk w1 env2 bst2 slots1 st1 v1 q2 p2 p3 p4

/-! ### The rest of a call, after the function -/

theorem call_rest {n : Nat} (hA : SimArgs U n) (hP : SimApp U n) {fr : Fr} {c : Ctx} {as : Exps}
    {s : CSt} {k : List I} {s' : CSt} {sc : Scope} {X : List Name} {ρ : Env} {fs : List (List Ent)}
    {w : World} {S : SSt} {env bst : List Nat} {slots : Nat → Option TVal} {st : TSt}
    {stk : List TVal} {pc : Nat} {r : SRes SVal} {Q : Out → Prop} {v : SVal} {v' : TVal} {k' : List I}
    (h : cArgs { c with sp := c.sp + 1 } as s = some (k, s')) (hfin : Fin U s')
    (hs : Stat U { c with sp := c.sp + 1 } false sc s X [] (fun x => mentionsA x as) (fun _ => false))
    (hg : goodA sc as = true) (hc : CodeAt fr.C pc (k ++ (.call as.length :: k')))
    (hh : Here (U := U) fr c sc X ρ fs w S env bst slots st) (hv : VR U w v v')
    (he : (match evalArgs U.P n ρ S as with
      | some (.ok vs s) => apply U.P n v vs s
      | some (.err e s) => some (.err e s)
      | none => none) = some r)
    (hok : ∀ v S1, r = .ok v S1 → EndK U fr w S fs (pc + k.length + 1) stk Q v S1)
    (herr : EndE (U := U) Q r) :
    GoesTo U.P U.table Q (U.mk' fr pc (v' :: stk) env bst slots st) := by
  cases hvs : evalArgs U.P n ρ S as with
  | none => simp [hvs] at he
  | some r1 =>
    rw [hvs] at he
    refine hA (r := r1) h hfin hs hg hc.left (hh.next hh.fr hh.w rfl rfl) hvs ?_ ?_
    · intro vs S1 hr1 w1 env1 bst1 slots1 st1 vs1 p1 p2 p3 p4
      subst hr1
      simp only at he
      have hlen := evalArgs_length hvs
      have hcr : CodeAt fr.C (pc + k.length) (.call vs.length :: k') := by
        rw [hlen]; exact hc.right
      exact hP p1 p2 (hv.mono p4.le) p3 hcr he
        (fun v2 S2 hr2 => (hok v2 S2 hr2).later p4 hh.fr.m) herr
    · intro e S1 hr1
      subst hr1
      simp only [Option.some.injEq] at he
      exact herr e S1 he.symm

theorem bindPs_eq {ps : List Name} {vs : List SVal} {ρ : Env} {S : SSt}
    (h : vs.length = ps.length) : bindPs ps vs ρ S =
      some ((ps.zip (List.range' S.σ.length ps.length)).reverse ++ ρ,
        { S with σ := S.σ ++ vs }) := by
  unfold bindPs
  rw [if_neg (by omega), List.take_of_length_le (by omega)]

/-- A call of a variable. -/
theorem sim_call_var {n : Nat} (hE : ∀ m, m < n → SimE U m)
    {fr : Fr} {c : Ctx} {rf : Bool} {x : Name} {as : Exps} {s : CSt} {k : List I} {s' : CSt}
    {sc : Scope} {X : List Name} {av : List Tgt} {ρ : Env} {fs : List (List Ent)} {w : World}
    {S : SSt} {env bst : List Nat} {slots : Nat → Option TVal} {st : TSt} {stk : List TVal}
    {pc : Nat} {r : SRes SVal} {Q : Out → Prop}
    (h : cExp c rf (.call (.var x) as) s = some (k, s')) (hfin : Fin U s')
    (hs : Stat U c rf sc s X av (fun y => mentions y (.call (.var x) as))
      (fun y => tailB y (.call (.var x) as)))
    (hg : good sc (.call (.var x) as) = true)
    (hc : CodeAt fr.C pc k) (hh : Here (U := U) fr c sc X ρ fs w S env bst slots st)
    (ha : Avs U fr r stk Q w S av ρ fs)
    (he : eval U.P (n + 1) ρ S (.call (.var x) as) = some r)
    (hok : ∀ v S1, r = .ok v S1 → EndK U fr w S fs (pc + k.length) stk Q v S1)
    (herr : EndE (U := U) Q r) : GoesTo U.P U.table Q (U.mk' fr pc stk env bst slots st) := by
  have hA : SimArgs U n := simArgs hE
  have hP : SimApp U n := simApp hE
  simp only [good, Bool.and_eq_true, arity] at hg
  obtain ⟨⟨har, _⟩, hga⟩ := hg
  have hmx : mentions x (.call (.var x) as) = true := by simp [mentions]
  have hm : ∀ y, mentions y (.call (.var x) as) = false → mentionsA y as = false := by
    intro y hy
    simp only [mentions, Bool.or_eq_false_iff] at hy
    exact hy.2
  have ht : ∀ y, tailB y (.call (.var x) as) = true → mentionsA y as = false := by
    intro y hy
    simpa [tailB] using hy
  simp only [eval] at he
  cases n with
  | zero => simp [eval] at he
  | succ n =>
  simp only [eval] at he
  simp only [cExp] at h
  cases hin : inlinable c s x rf with
  | some r0 =>
    -- a jump
    rw [hin] at h
    simp only [Option.bind_eq_bind, Option.bind_eq_some_iff] at h
    obtain ⟨⟨k1, s1⟩, h1, h⟩ := h
    have hin' := hin
    unfold inlinable at hin'
    cases hfl : findLambda c.recs x with
    | none => rw [hfl] at hin'; simp at hin'
    | some r1 =>
      rw [hfl] at hin'
      simp only [Option.ite_none_right_eq_some, Bool.and_eq_true, Bool.or_eq_true,
        beq_iff_eq, Option.some.injEq] at hin'
      obtain ⟨⟨hi, hd⟩, rfl⟩ := hin'
      obtain ⟨t, htm, htx, htr⟩ : ∃ t ∈ av, t.x = x ∧ t.r = r1 := by
        rcases hs.recs x r1 hfl hd (hi.imp id fun h => h.1) with h | h
        · rw [hmx] at h; exact absurd h (by simp)
        · exact h
      have harx := hs.ar t htm
      rw [htx] at harx
      rw [harx, htr] at har
      have hal : as.length = r1.args.length := by simpa using har
      rw [if_neg (by omega)] at h
      simp only [Option.some.injEq, Prod.mk.injEq] at h
      obtain ⟨rfl, rfl⟩ := h
      obtain ⟨o, hD, hT, hO⟩ := ha.get htm
      have hfun : getVar ρ S x = .ok (.fn t.clo) S := by
        have := hD.frz
        rw [htx] at this
        rcases this with ⟨l, h1, h2⟩ | ⟨h1, h2⟩
        · simp [getVar, h1, (hh.w.F l _ h2).2]
        · simp [getVar, h1, hh.w.gf x _ h2]
      rw [hfun] at he
      simp only at he
      rw [hal, Nat.sub_self] at hc hok hfin
      have gt := (tailCall_grow c r1 0 s1).later
      cases hvs : evalArgs U.P (n + 1) ρ S as with
      | none => simp [hvs] at he
      | some r2 =>
        rw [hvs] at he
        refine hA (r := r2) h1 (hfin.before gt)
          (hs.sub hs.sok rfl (fun x hx => .inl hx) hs.inSc hm ht) hga hc.left hh hvs ?_ ?_
        · intro vs S1 hr2 w1 env1 bst1 slots1 st1 vs1 p1 p2 p3 p4
          subst hr2
          simp only at he
          have hlen : vs.length = t.r.args.length := by
            rw [evalArgs_length hvs, hal, htr]
          simp only [apply] at he
          rw [bindPs_eq (by rw [hT.ps]; exact hlen)] at he
          subst htr
          exact jump (hE n (Nat.lt_succ_self n)) hh.ok (hT.later p4 hh.fr.m)
            (hO.later p4 hh.fr.m) ⟨hD.frz.mono p4.le, hD.fs⟩ hh.sco.lex hs.sok.nodup hh.sco.bp
            (hs.sp t htm) p1 p2 p3 hlen hfin hc.right he herr
        · intro e S1 hr2
          subst hr2
          simp only [Option.some.injEq] at he
          exact herr e S1 he.symm
  | none =>
    rw [hin] at h
    simp only [Option.bind_eq_bind, Option.bind_eq_some_iff] at h
    obtain ⟨⟨k1, s1⟩, h1, h⟩ := h
    simp only [Option.some.injEq, Prod.mk.injEq] at h
    obtain ⟨rfl, rfl⟩ := h
    have hxX : x ∉ X := by
      intro hx
      rcases hs.hid x hx with h | ⟨t, htm, htx, hti⟩
      · rw [hmx] at h; exact absurd h (by simp)
      · obtain ⟨f1, f2⟩ := hs.found t htm hti
        rw [htx] at f1
        unfold inlinable at hin
        rw [f1] at hin
        simp [hti, f2] at hin
    rw [varref_code] at hc hok
    have hc' : CodeAt fr.C pc (refI c x :: (k1 ++ [.call as.length])) := by
      simpa using hc
    have hsv : SOk U.Gf { c with sp := c.sp + 1 } sc (varref c x s).2 :=
      hs.sok.next rfl rfl (varref_later c x s).cell
        (varref_tag (sc := sc) x hs.sok.cells hs.sok.tags).1
    rcases step_var hh.ok hh.sco hh.fr hh.w hxX hc' stk with ⟨v, v', e1, e2, e3⟩ | ⟨e1, e2⟩
    · refine GoesTo.step e3 ?_
      rw [e1] at he
      refine call_rest (c := c) hA hP h1 (hfin.before (noteCall_later c s1))
        (hs.sub hsv rfl (fun x hx => .inl hx) hs.inSc hm ht) hga hc'.tail hh e2 he ?_ herr
      intro v2 S2 hr2
      have := hok v2 S2 hr2
      simp only [List.length_append, List.length_cons, List.length_nil] at this
      rw [show pc + 1 + k1.length + 1 = pc + (0 + 1 + k1.length + (0 + 1)) by omega]
      exact this
    · rw [e1] at he
      simp only [Option.some.injEq] at he
      exact GoesTo.err e2 (herr _ _ he.symm w st hh.w)

/-- A call of something else. -/
theorem sim_call_other {n : Nat} (hE : ∀ m, m < n + 1 → SimE U m) {f : Exp} (hf : Other f)
    {fr : Fr} {c : Ctx} {rf : Bool} {as : Exps} {s : CSt} {k : List I} {s' : CSt}
    {sc : Scope} {X : List Name} {av : List Tgt} {ρ : Env} {fs : List (List Ent)} {w : World}
    {S : SSt} {env bst : List Nat} {slots : Nat → Option TVal} {st : TSt} {stk : List TVal}
    {pc : Nat} {r : SRes SVal} {Q : Out → Prop}
    (h : cExp c rf (.call f as) s = some (k, s')) (hfin : Fin U s')
    (hs : Stat U c rf sc s X av (fun y => mentions y (.call f as)) (fun y => tailB y (.call f as)))
    (hg : good sc (.call f as) = true)
    (hc : CodeAt fr.C pc k) (hh : Here (U := U) fr c sc X ρ fs w S env bst slots st)
    (he : eval U.P (n + 1) ρ S (.call f as) = some r)
    (hok : ∀ v S1, r = .ok v S1 → EndK U fr w S fs (pc + k.length) stk Q v S1)
    (herr : EndE (U := U) Q r) : GoesTo U.P U.table Q (U.mk' fr pc stk env bst slots st) := by
  have hA : SimArgs U n := simArgs fun m hm => hE m (Nat.lt_succ_of_lt hm)
  have hP : SimApp U n := simApp fun m hm => hE m (Nat.lt_succ_of_lt hm)
  have hE : SimE U n := hE n (Nat.lt_succ_self n)
  simp only [good, Bool.and_eq_true] at hg
  have hm : ∀ y, mentions y (.call f as) = false → mentions y f = false ∧ mentionsA y as = false := by
    intro y hy
    simpa only [mentions, Bool.or_eq_false_iff] using hy
  have ht : ∀ y, tailB y (.call f as) = true → mentions y f = false ∧ mentionsA y as = false := by
    intro y hy
    cases f with
    | var x => exact absurd rfl (hf.2 x)
    | _ => simpa [tailB] using hy
  rw [cExp_call_other hf] at h
  simp only [Option.bind_eq_bind, Option.bind_eq_some_iff] at h
  obtain ⟨⟨k1, s1⟩, h1, ⟨k2, s2⟩, h2, h⟩ := h
  simp only [Option.some.injEq, Prod.mk.injEq] at h
  obtain ⟨rfl, rfl⟩ := h
  have hf2 := hfin.before (noteCall_later c s2)
  have hs1 : SOk U.Gf { c with sp := c.sp + 1 } sc s1 := hs.sok.exp h1 hg.1.2 rfl rfl
  simp only [eval] at he
  rw [List.append_assoc] at hc
  cases hv : eval U.P n ρ S f with
  | none => simp [hv] at he
  | some r1 =>
    rw [hv] at he
    refine hE (av := []) (r := r1) h1 (hf2.before (cArgs_grow _ as s1 h2).later)
      (hs.sub hs.sok rfl (fun x hx => .inl hx) hs.inSc (fun y hy => (hm y hy).1)
        (fun y hy => (ht y hy).1)) hg.1.2 hc.left hh trivial hv ?_ ?_
    · intro v S1 hr1 w1 env1 bst1 slots1 st1 v1 p1 p2 p3 p4
      subst hr1
      simp only at he
      refine call_rest (c := c) hA hP h2 hf2
        (hs.sub hs1 rfl (fun x hx => .inl hx) hs.inSc (fun y hy => (hm y hy).2)
          (fun y hy => (ht y hy).2)) hg.2 hc.right (hh.next p1 p2 rfl rfl) p3 he ?_ herr
      intro v2 S2 hr2
      have := (hok v2 S2 hr2).later p4 hh.fr.m
      simp only [List.length_append, List.length_cons, List.length_nil] at this
      rw [show pc + k1.length + k2.length + 1 = pc + (k1.length + k2.length + (0 + 1)) by omega]
      exact this
    · intro e S1 hr1
      subst hr1
      simp only [Option.some.injEq] at he
      exact herr e S1 he.symm

/-! ### Lambda expressions called directly -/

theorem sim_inl {n : Nat} (hE : ∀ m, m < n + 1 → SimE U m)
    {fr : Fr} {c : Ctx} {rf : Bool} {ps : List Name} {b : Exp} {as : Exps} {s : CSt} {k : List I}
    {s' : CSt} {sc : Scope} {X : List Name} {av : List Tgt} {ρ : Env} {fs : List (List Ent)}
    {w : World} {S : SSt} {env bst : List Nat} {slots : Nat → Option TVal} {st : TSt}
    {stk : List TVal} {pc : Nat} {r : SRes SVal} {Q : Out → Prop}
    (h : cExp c rf (.inl ps b as) s = some (k, s')) (hfin : Fin U s')
    (hs : Stat U c rf sc s X av (fun y => mentions y (.inl ps b as))
      (fun y => tailB y (.inl ps b as)))
    (hg : good sc (.inl ps b as) = true)
    (hc : CodeAt fr.C pc k) (hh : Here (U := U) fr c sc X ρ fs w S env bst slots st)
    (ha : Avs U fr r stk Q w S av ρ fs)
    (he : eval U.P (n + 1) ρ S (.inl ps b as) = some r)
    (hok : ∀ v S1, r = .ok v S1 → EndK U fr w S fs (pc + k.length) stk Q v S1)
    (herr : EndE (U := U) Q r) : GoesTo U.P U.table Q (U.mk' fr pc stk env bst slots st) := by
  have hA : SimArgs U n := simArgs fun m hm => hE m (Nat.lt_succ_of_lt hm)
  have hE : SimE U n := hE n (Nat.lt_succ_self n)
  simp only [good, Bool.and_eq_true, beq_iff_eq] at hg
  obtain ⟨⟨⟨hal, hf⟩, hga⟩, hgb⟩ := hg
  have hfs := fresh_spec hf
  have hfv := fresh_vars hf
  simp only [cExp, Option.bind_eq_bind, Option.bind_eq_some_iff] at h
  obtain ⟨⟨k1, s1⟩, h1, h⟩ := h
  rw [if_neg (by omega)] at h
  simp only [Option.bind_eq_some_iff] at h
  obtain ⟨⟨k2, s2⟩, h2, h⟩ := h
  simp only [Option.some.injEq, Prod.mk.injEq] at h
  obtain ⟨rfl, rfl⟩ := h
  rw [hal, Nat.sub_self] at h2 hc hok
  have hm : ∀ y, mentions y (.inl ps b as) = false → mentionsA y as = false ∧ mentions y b = false := by
    intro y hy
    simpa only [mentions, Bool.or_eq_false_iff] using hy
  have ht : ∀ y, tailB y (.inl ps b as) = true → mentionsA y as = false ∧ tailB y b = true := by
    intro y hy
    simpa [tailB] using hy
  have hs1 : SOk U.Gf c sc s1 := hs.sok.args h1 hga rfl rfl
  have hs2 := inlineHead_sok (nm := none) (n := 0) hs1 hf (fun x hx => absurd hx (by simp))
  have gh := (inlineHead_grow c none ps 0 s1).later
  have gb := (cExp_grow _ rf b _ h2).later
  have hrecs := inlineHead_recs c none ps 0 s1
  rw [inlineHead_code] at hc hok
  simp only [List.append_assoc, List.cons_append, List.nil_append] at hc
  simp only [eval] at he
  cases hvs : evalArgs U.P n ρ S as with
  | none => simp [hvs] at he
  | some r1 =>
    rw [hvs] at he
    refine hA (r := r1) h1 (hfin.before (gh.trans gb))
      (hs.sub hs.sok rfl (fun x hx => .inl hx) hs.inSc (fun y hy => (hm y hy).1)
        (fun y hy => (ht y hy).1)) hga hc.left hh hvs ?_ ?_
    · intro vs S1 hr1 w1 env1 bst1 slots1 st1 vs1 p1 p2 p3 p4
      subst hr1
      simp only at he
      have hlen : vs.length = ps.length := by rw [evalArgs_length hvs, hal]
      rw [bindPs_eq hlen] at he
      simp only at he
      rw [← p2.n] at he
      refine inline_bind p1 p2 p3 hlen hh.sco.lex hc.right.left ?_
      intro w2 env2 bst2 slots2 st2 q1 q2 q3
      have hx : Ext fr.m w.n w S w2 { S1 with σ := S1.σ ++ vs } := p4.trans q3 p4.le.n hh.fr.m
      have hcl : CodeAt fr.C (pc + k1.length + (inlinePre c ps s1).length)
          (.label s1.lab :: (k2 ++ inlineTail ps)) := hc.right.right
      refine GoesTo.step (step_label hcl) ?_
      obtain ⟨g, hgf⟩ := inlineFrames_suffix ps (pents ps s1.cell w1.n) fs
      refine hE (r := r) h2 hfin
        (hs.tail hs2 (fun h => h) ?_ ?_ (inlineHead_sp _ _ _ _ _) hfv.2 (fun y hy => (hm y hy).2)
          (fun y hy => (ht y hy).2)) hgb hcl.tail.left ⟨hh.ok, ⟨?_, ?_, ?_, ?_⟩, q1, q2⟩
        ?_ he ?_ herr
      · intro y
        rw [hrecs]
        exact find_cons (by simp)
      · rw [hrecs]; rfl
      · rw [inlineHead_lex c none ps 0 w1.n, inlineFrames_flatten, hh.sco.lex]
        simp
      · rw [inlineFrames_flatten, List.append_assoc]
        exact coh_params hh.sco.coh hfs.1
      · intro e he' hk'
        rw [inlineFrames_flatten, List.append_assoc, List.mem_append] at he'
        rcases he' with he' | he'
        · exact pents_fk _ _ _ e he'
        · refine hh.sco.kind e he' ?_
          rw [hfv.2] at hk'
          · exact hk'
          · refine hs.sok.names (e.name, e.cell) ?_
            rw [hh.sco.lex]
            exact List.mem_map_of_mem he'
      · rw [inlineHead_bp]
        unfold inlineFrames
        split
        · exact hh.sco.bp
        · rw [List.length_cons, hh.sco.bp]
      · rw [hgf]
        refine (ha.later hx hh.fr.m).ext (fun t htm => look_params (fun hp => ?_)) g
        have := hs.ar t htm
        rw [hfs.2 _ hp] at this
        exact absurd this (by simp)
      · intro v S2 hr2
        refine inline_end hcl.tail.right ?_
        have := (hok v S2 hr2).later hx hh.fr.m
        simp only [List.length_append, List.length_cons, List.length_nil] at this
        rw [show pc + k1.length + (inlinePre c ps s1).length + 1 + k2.length + (inlineTail ps).length =
          pc + (k1.length + ((inlinePre c ps s1).length + (0 + 1)) + k2.length +
            (inlineTail ps).length) by omega]
        exact this
    · intro e S1 hr1
      subst hr1
      simp only [Option.some.injEq] at he
      exact herr e S1 he.symm

/-! ### Named `let` -/

theorem fresh_of {sc : Scope} {xs : List Name} (h1 : xs.Nodup) (h2 : ∀ x ∈ xs, look x sc = none) :
    fresh sc xs = true := by
  induction xs with
  | nil => rfl
  | cons x xs ih =>
    have h1' := List.nodup_cons.1 h1
    simp only [fresh, Bool.and_eq_true]
    refine ⟨⟨by simp [h2 x (.head _)], by simpa using h1'.1⟩,
      ih h1'.2 (fun y hy => h2 y (.tail _ hy))⟩

theorem findLambda_mem {rs : List Rec} {x : Name} {r : Rec} (h : findLambda rs x = some r) :
    r ∈ rs ∧ r.name = some x := by
  unfold findLambda at h
  exact ⟨List.mem_of_find?_eq_some h, by simpa using List.find?_some h⟩

theorem SOk.fname {Gf : Name → Option Clo} {c : Ctx} {sc : Scope} {s s' : CSt} {x : Name} {m : Nat}
    (h : SOk Gf c sc s) (hx : look x sc = none) (hc : s.cell ≤ s'.cell) (ht : TagsOk s') :
    SOk Gf c ((x, some m) :: sc) s' := by
  refine h.ext (new := []) (h.cells.mono hc) ht rfl (by simp) (by simp) ?_ (fun r hr => .inl hr)
    (Nat.le_refl _)
  intro y hy
  rw [look, if_neg]
  intro hxy
  subst hxy
  exact hy hx

theorem SOk.fbind {Gf : Name → Option Clo} {c : Ctx} {sc : Scope} {s s' : CSt} {x : Name} {m bp : Nat}
    (h : SOk Gf c sc s) (hx : look x sc = none) (hc : s'.cell = s.cell + 1) (ht : TagsOk s') :
    SOk Gf ⟨(x, s.cell) :: c.lex, c.recs, c.sp, bp⟩ ((x, some m) :: sc) s' := by
  refine h.ext (new := [(x, s.cell)]) ?_ ht rfl (by simp) ?_ ?_ (fun r hr => .inl hr)
    (Nat.le_refl _)
  · rw [hc]; exact h.cells.cons x
  · intro y hy
    simp only [List.map_cons, List.map_nil, List.mem_singleton] at hy
    subst hy
    exact ⟨hx, by simp [look]⟩
  · intro y hy
    rw [look, if_neg]
    intro hxy
    subst hxy
    exact hy hx

theorem sim_named {n : Nat} (hE : ∀ m, m < n + 1 → SimE U m)
    {fr : Fr} {c : Ctx} {rf : Bool} {x : Name} {ps : List Name} {b : Exp} {as : Exps} {s : CSt}
    {k : List I} {s' : CSt} {sc : Scope} {X : List Name} {av : List Tgt} {ρ : Env}
    {fs : List (List Ent)} {w : World} {S : SSt} {env bst : List Nat} {slots : Nat → Option TVal}
    {st : TSt} {stk : List TVal} {pc : Nat} {r : SRes SVal} {Q : Out → Prop}
    (h : cExp c rf (.named x ps b as) s = some (k, s')) (hfin : Fin U s')
    (hs : Stat U c rf sc s X av (fun y => mentions y (.named x ps b as))
      (fun y => tailB y (.named x ps b as)))
    (hg : good sc (.named x ps b as) = true)
    (hc : CodeAt fr.C pc k) (hh : Here (U := U) fr c sc X ρ fs w S env bst slots st)
    (ha : Avs U fr r stk Q w S av ρ fs)
    (he : eval U.P (n + 1) ρ S (.named x ps b as) = some r)
    (hok : ∀ v S1, r = .ok v S1 → EndK U fr w S fs (pc + k.length) stk Q v S1)
    (herr : EndE (U := U) Q r) : GoesTo U.P U.table Q (U.mk' fr pc stk env bst slots st) := by
  have hA : SimArgs U n := simArgs fun m hm => hE m (Nat.lt_succ_of_lt hm)
  have hP : SimApp U n := simApp fun m hm => hE m (Nat.lt_succ_of_lt hm)
  simp only [good, Bool.and_eq_true, beq_iff_eq, Bool.not_eq_true'] at hg
  obtain ⟨⟨⟨⟨hal, hf⟩, hga⟩, hxa⟩, hgb⟩ := hg
  have hfs := fresh_spec hf
  have hxsc : look x sc = none := hfs.2 x (.head _)
  have hxps : x ∉ ps := (List.nodup_cons.1 hfs.1).1
  have hne : ∀ y, look y sc ≠ none → x ≠ y := fun y hy h => hy (by rw [← h]; exact hxsc)
  have hlx : ∀ y, look y sc ≠ none → look y ((x, some ps.length) :: sc) = look y sc := by
    intro y hy
    rw [look, if_neg (hne y hy)]
  have hf1 : fresh ((x, some ps.length) :: sc) ps = true := by
    refine fresh_of (List.nodup_cons.1 hfs.1).2 (fun y hy => ?_)
    rw [look, if_neg (fun h => hxps (by rw [h]; exact hy))]
    exact hfs.2 y (.tail _ hy)
  have hfv := fresh_vars hf1
  have hlxx : look x ((x, some ps.length) :: sc) = some (some ps.length) := by simp [look]
  have hlb : ∀ y, look y sc ≠ none →
      look y (vars ps ++ (x, some ps.length) :: sc) = look y sc := by
    intro y hy
    rw [hfv.2 y (by rw [hlx y hy]; exact hy), hlx y hy]
  have hxX : x ∉ X := fun h => hs.inSc x h hxsc
  -- whether the function is compiled inline
  simp only [cExp, Option.bind_eq_bind, Option.bind_eq_some_iff] at h
  obtain ⟨⟨k1, s1⟩, h1, h⟩ := h
  have hsc0 : SOk U.Gf ⟨(x, s.cell) :: c.lex, c.recs, c.sp, c.bp + 1⟩ ((x, some ps.length) :: sc)
      { s with cell := s.cell + 1 } :=
    hs.sok.fbind hxsc rfl (tagsOk_of hs.sok.tags rfl rfl (Nat.le_succ _))
  have hsc1 := hsc0.lam (code := (lambdaHead ⟨(x, s.cell) :: c.lex, c.recs, c.sp, c.bp + 1⟩ (some x) ps
      { s with cell := s.cell + 1 }).1 ++ k1 ++ [.ret]) h1 hf1 hgb (fun y hy => by
        simp only [Option.some.injEq] at hy
        rw [← hy, hlxx]; simp)
  have gh := (lambdaHead_grow ⟨(x, s.cell) :: c.lex, c.recs, c.sp, c.bp + 1⟩ (some x) ps
    { s with cell := s.cell + 1 }).later
  have gh' : s.cell ≤ _ := Nat.le_trans (Nat.le_succ _) gh.cell
  have gb := (cExp_grow _ true b _ h1).later
  have t0 := cExp_tag _ true b _ h1 hgb (bindAll_cells (hs.sok.cells.cons x))
    (tagsOk_of hs.sok.tags rfl rfl gh')
  have hdec : s1.notTail.contains s.cell = !tailB x b :=
    named_tag hs.sok.tags hf (t0.congr (by intro y t; rw [Bool.and_true]))
  generalize hs1 : (enclose ⟨(x, s.cell) :: c.lex, c.recs, c.sp, c.bp + 1⟩
    ((lambdaHead ⟨(x, s.cell) :: c.lex, c.recs, c.sp, c.bp + 1⟩ (some x) ps
      { s with cell := s.cell + 1 }).1 ++ k1 ++ [.ret]) s1).2 = s1' at h hsc1
  have hnt : s1'.notTail = s1.notTail := by rw [← hs1]; rfl
  have hce : s1'.cell = s1.cell := by rw [← hs1]; rfl
  have gb' : s.cell ≤ s1'.cell := by rw [hce]; exact Nat.le_trans gh' gb.cell
  have hm : ∀ y, mentions y (.named x ps b as) = false →
      mentionsA y as = false ∧ mentions y b = false := by
    intro y hy
    simpa only [mentions, Bool.or_eq_false_iff] using hy
  have ht : ∀ y, tailB y (.named x ps b as) = true → mentionsA y as = false := by
    intro y hy
    simp only [tailB, Bool.and_eq_true, Bool.not_eq_true'] at hy
    exact hy.1
  simp only [eval] at he
  have hwn := hh.w.n
  have hkind : ∀ e ∈ fs.flatten ++ fr.Eb, look e.name ((x, some ps.length) :: sc) = some none →
      e.fk = false := by
    intro e he' hk'
    refine hh.sco.kind e he' ?_
    rw [hlx] at hk'
    · exact hk'
    · refine hs.sok.names (e.name, e.cell) ?_
      rw [hh.sco.lex]
      exact List.mem_map_of_mem he'
  split at h
  · -- a function
    rename_i hcont
    have htb : tailB x b = false := by
      rw [hnt, hdec] at hcont
      simpa using hcont
    have hin : inlinable ⟨(x, s.cell) :: c.lex, c.recs, c.sp, c.bp + 1⟩ s1' x rf = none := by
      have : findLambda c.recs x = none := by
        cases hfl : findLambda c.recs x with
        | none => rfl
        | some r1 =>
          obtain ⟨q1, q2⟩ := findLambda_mem hfl
          exact absurd hxsc (hs.sok.recN r1 q1 x q2)
      simp [inlinable, this]
    rw [hin] at h
    simp only [Option.bind_eq_some_iff] at h
    obtain ⟨⟨k2, s2⟩, h2, h⟩ := h
    simp only [Option.some.injEq, Prod.mk.injEq] at h
    obtain ⟨rfl, rfl⟩ := h
    have hXb : ∀ y ∈ X, mentions y b = false := by
      intro y hy
      rcases hs.hid y hy with hy | ⟨t, ht', rfl, hi⟩
      · exact (hm y hy).2
      · have := hs.tl t ht' hi
        simp only [tailB, htb, Bool.and_eq_true] at this
        simpa using this.2
    have hXsc : ∀ y ∈ X, look y ((x, some ps.length) :: sc) ≠ none := by
      intro y hy
      rw [hlx y (hs.inSc y hy)]
      exact hs.inSc y hy
    have hf2 := hfin.before (noteCall_later ⟨(x, s.cell) :: c.lex, c.recs, c.sp, c.bp + 1⟩ s2)
    have hfv1 : Fin U s1' := hf2.before ((varref_later _ x s1').trans (cArgs_grow _ as _ h2).later)
    rw [varref_code] at hc hok
    have hcode : CodeAt fr.C pc (.initBind :: .push .nil :: .lexBind x ((x, s.cell) :: c.lex) ::
        .enclose s1.fns.length :: .lexSet x ((x, s.cell) :: c.lex) ::
        refI ⟨(x, s.cell) :: c.lex, c.recs, c.sp, c.bp + 1⟩ x ::
        (k2 ++ (.call as.length :: [.unbind]))) := by
      simpa [enclose] using hc
    refine GoesTo.step (step_initBind hcode) ?_
    refine GoesTo.step (step_push hcode.tail) ?_
    refine bind_one (v := .atom .nil) hh.fr.push hh.w (.atom _) true (by simpa using hh.sco.lex)
      hcode.tail.tail ?_
    intro w1 env1 bst1 slots1 st1 p1 p2 p3 p4 p5 p6 p7
    have hc3 := hcode.tail.tail.tail
    refine GoesTo.step (step_enclose hc3) ?_
    -- the function
    let clo : Clo := ⟨ps, b, (x, w.n) :: ρ⟩
    let w2 : World := ⟨w1.n, w1.j, fun l => if l = w.n then some clo else w1.F l, w1.K⟩
    have hFn : w1.F w.n = none := by rw [p5]; exact F_new hh.w (Nat.le_refl _)
    have hle2 : w1.Le w2 := by
      refine ⟨Nat.le_refl _, fun _ _ h => h, ?_, fun _ _ => rfl⟩
      intro l c' hl
      show (if l = w.n then some clo else w1.F l) = some c'
      rw [if_neg]
      · exact hl
      · intro hll
        rw [hll, hFn] at hl
        exact absurd hl (by simp)
    have hsco : Sco fr ⟨(x, s.cell) :: c.lex, c.recs, c.sp, c.bp + 1⟩ ((x, some ps.length) :: sc) X
        ((x, w.n) :: ρ) ([⟨x, s.cell, w.n, true⟩] :: fs) := by
      refine ⟨?_, ?_, ?_, ?_⟩
      · simp [hh.sco.lex, Ent.lex]
      · exact hh.sco.coh.cons ⟨x, s.cell, w.n, true⟩
      · intro e he' hk'
        simp only [List.flatten_cons, List.cons_append, List.nil_append, List.mem_cons] at he'
        rcases he' with rfl | he'
        · simp [look] at hk'
        · exact hkind e he' hk'
      · simp [hh.sco.bp]
    have hF2 : FR U fr ([⟨x, s.cell, w.n, true⟩] :: fs) w2 { S with σ := S.σ ++ [.atom .nil] } env1
        bst1 slots1 := p1.move hle2 (fun _ _ h => h) (fun _ _ _ => rfl)
    have hv : VR U w2 (.fn clo) (.fn ⟨s1.fns.length, env1⟩) := by
      refine .fn (make_clo (X := X) h1 (by rw [hs1]; exact hfv1) hsc0 hf1 hgb hsco hF2 hXb hXsc ?_)
      intro y hy
      simp only [Option.some.injEq] at hy
      subst hy
      exact ⟨.inl ⟨w.n, by simp [look], if_pos rfl⟩, hlxx, hxX⟩
    have hK : w1.K w.n = true := p1.fk ⟨x, s.cell, w.n, true⟩ (.head _)
    have hset : (S.σ ++ [Val.atom .nil]).set w.n (.fn clo) = S.σ ++ [.fn clo] := by
      rw [hwn, List.set_append_right _ _ (Nat.le_refl _)]
      simp
    have hvs : varset ⟨(x, s.cell) :: c.lex, c.recs, c.sp, c.bp + 1⟩ x =
        .lexSet x ((x, s.cell) :: c.lex) := by
      simp [varset, look]
    have hc4 := hc3.tail
    rw [← hvs] at hc4
    obtain ⟨slots2, st2, q1, q2, q3, q4⟩ := step_set_ent (w' := w2) (e := ⟨x, s.cell, w.n, true⟩)
      (E1 := []) (E2 := fs.flatten ++ fr.Eb) hh.ok hsco.lex p1 p2 (by simp) rfl
      (by simp) hle2 rfl rfl (by
        intro l c' hl
        by_cases hll : l = w.n
        · subst hll
          have : some clo = some c' := by rw [← hl]; exact (if_pos rfl).symm
          simp only [Option.some.injEq] at this
          subst this
          refine ⟨hK, ?_⟩
          show (List.set _ w.n _)[w.n]? = _
          rw [hset, hwn]
          simp
        · have hl' : w1.F l = some c' := by rw [← hl]; exact (if_neg hll).symm
          have := p2.F l c' hl'
          refine ⟨this.1, ?_⟩
          show (List.set _ w.n _)[l]? = _
          rw [List.getElem?_set_ne (fun h => hll h.symm)]
          exact this.2) hv hc4 stk
    refine GoesTo.step q1 ?_
    simp only [hset] at q2 q3 q4
    have hx2 : Ext fr.m w.n w S w2 { S with σ := S.σ ++ [.fn clo] } := by
      refine ⟨p7.le.trans hle2, p7.j, ?_, ?_⟩
      · intro l hl
        show (if l = w.n then some clo else w1.F l) = w.F l
        rw [if_neg (by omega), p5]
      · intro l hl _
        exact List.getElem?_append_left (by rw [← hwn]; exact Nat.lt_of_lt_of_le hl hh.fr.m)
    have hh2 : Here (U := U) fr ⟨(x, s.cell) :: c.lex, c.recs, c.sp, c.bp + 1⟩
        ((x, some ps.length) :: sc) X ((x, w.n) :: ρ) ([⟨x, s.cell, w.n, true⟩] :: fs) w2
        { S with σ := S.σ ++ [.fn clo] } env1 bst1 slots2 st2 := ⟨hh.ok, hsco, q2, q3⟩
    have hgv : getVar ((x, w.n) :: ρ) { S with σ := S.σ ++ [.fn clo] } x =
        .ok (.fn clo) { S with σ := S.σ ++ [.fn clo] } := by
      simp [getVar, look, hwn]
    rcases step_var hh2.ok hh2.sco hh2.fr hh2.w hxX hc4.tail stk with ⟨v, v', e1, e2, e3⟩ | ⟨e1, e2⟩
    · refine GoesTo.step e3 ?_
      rw [hgv] at e1
      simp only [SRes.ok.injEq, and_true] at e1
      subst e1
      rw [← hwn] at he
      have hsv : SOk U.Gf ⟨(x, s.cell) :: c.lex, c.recs, c.sp + 1, c.bp + 1⟩
          ((x, some ps.length) :: sc)
          (varref ⟨(x, s.cell) :: c.lex, c.recs, c.sp, c.bp + 1⟩ x s1').2 :=
        hsc1.next rfl rfl (varref_later _ x s1').cell
          (varref_tag (c := ⟨(x, s.cell) :: c.lex, c.recs, c.sp, c.bp + 1⟩)
            (sc := (x, some ps.length) :: sc) x hsc1.cells hsc1.tags).1
      refine call_rest (c := ⟨(x, s.cell) :: c.lex, c.recs, c.sp, c.bp + 1⟩) hA hP h2 hf2
        (hs.sub hsv rfl (fun x hx => .inl hx) hXsc (fun y hy => (hm y hy).1) ht) hga
        hc4.tail.tail hh2 e2 he ?_ herr
      intro v2 S2 hr2 w3 env3 bst3 slots3 st3 v3 r1 r2 r3 r4
      have hcu : CodeAt fr.C (pc + 1 + 1 + 1 + 1 + 1 + 1 + k2.length + 1) [.unbind] :=
        hc4.tail.tail.right.tail
      obtain ⟨env4, bst4, u1, u2⟩ := step_unbind' (st := st3) r1 (v3 :: stk) hcu
      refine GoesTo.step u1 ?_
      have := (hok v2 S2 hr2).later hx2 hh.fr.m
      simp only [List.length_append, List.length_cons, List.length_nil, enclose] at this
      rw [show pc + 1 + 1 + 1 + 1 + 1 + 1 + k2.length + 1 + 1 = pc + (0 + 1 + 1 + 1 + (0 + 1) +
        (0 + 1) + (0 + 1) + k2.length + (0 + 1 + 1)) by omega]
      exact this w3 env4 bst4 slots3 st3 v3 u2 r2 r3 r4
    · rw [hgv] at e1
      exact absurd e1 (by simp)
  · -- compiled inline
    rename_i hcont
    have htb : tailB x b = true := by
      rw [hnt, hdec] at hcont
      simpa using hcont
    simp only [Option.bind_eq_some_iff] at h
    obtain ⟨⟨k2, s2⟩, h2, h⟩ := h
    rw [if_neg (by omega)] at h
    simp only [Option.bind_eq_some_iff] at h
    obtain ⟨⟨k3, s3⟩, h3, h⟩ := h
    simp only [Option.some.injEq, Prod.mk.injEq] at h
    obtain ⟨rfl, rfl⟩ := h
    rw [hal, Nat.sub_self] at h3 hc hok
    have hXsc : ∀ y ∈ x :: X, look y ((x, some ps.length) :: sc) ≠ none := by
      intro y hy
      rcases List.mem_cons.1 hy with rfl | hy
      · rw [hlxx]; simp
      · rw [hlx y (hs.inSc y hy)]
        exact hs.inSc y hy
    have htr : TagsOk (reload s s1') := tagsOk_of hs.sok.tags rfl rfl gb'
    have hso1 : SOk U.Gf c ((x, some ps.length) :: sc) (reload s s1') := hs.sok.fname hxsc gb' htr
    have hso2 : SOk U.Gf c ((x, some ps.length) :: sc) s2 := hso1.args h2 hga rfl rfl
    have hso3 := inlineHead_sok (nm := some x) (n := 0) hso2 hf1 (fun y hy => by
      simp only [Option.some.injEq] at hy
      rw [← hy, hlxx]; simp)
    have gi := (inlineHead_grow c (some x) ps 0 s2).later
    have g3 := (cExp_grow _ rf b _ h3).later
    rw [inlineHead_code] at hc hok
    simp only [List.append_assoc, List.cons_append, List.nil_append] at hc
    -- the binding of the function, which only the interpreter makes
    let clo : Clo := ⟨ps, b, (x, w.n) :: ρ⟩
    obtain ⟨hw1, hle1⟩ := hh.w.alloc [.fn clo] (fun l => if l = w.n then some clo else w.F l)
      (fun l => if l < w.n then w.K l else true) (fun l hl => if_neg (by omega))
      (fun l hl => if_pos hl) (by
        intro l c' hl hn
        by_cases hll : l = w.n
        · subst hll
          have : some clo = some c' := by rw [← hl]; exact (if_pos rfl).symm
          simp only [Option.some.injEq] at this
          subst this
          exact ⟨if_neg (Nat.lt_irrefl _), by rw [hwn]; simp⟩
        · have hl' : w.F l = some c' := by rw [← hl]; exact (if_neg hll).symm
          rw [F_new hh.w hn] at hl'
          exact absurd hl' (by simp))
    generalize hw1d : World.mk (w.n + [(Val.fn clo : SVal)].length) w.j
      (fun l => if l = w.n then some clo else w.F l) (fun l => if l < w.n then w.K l else true) = w1
      at hw1 hle1
    have hj1 : w1.j = w.j := by rw [← hw1d]
    have hF1x : w1.F w.n = some clo := by rw [← hw1d]; exact if_pos rfl
    have hF1 : FR U fr fs w1 { S with σ := S.σ ++ [.fn clo] } env bst slots := by
      refine hh.fr.move hle1 (fun e _ h => by rw [hj1]; exact h) ?_
      intro e he' _
      refine List.getElem?_append_left ?_
      rw [← hwn]
      exact hh.fr.lt e (List.mem_append_left _ he')
    have hx1 : Ext fr.m w.n w S w1 { S with σ := S.σ ++ [.fn clo] } := by
      refine ⟨hle1, fun l _ => by rw [hj1], ?_, ?_⟩
      · intro l hl
        rw [← hw1d]
        exact if_neg (by omega)
      · intro l hl _
        exact List.getElem?_append_left (by rw [← hwn]; exact Nat.lt_of_lt_of_le hl hh.fr.m)
    have hcoh1 : Coh (x :: X) ((x, w.n) :: ρ) (fs.flatten ++ fr.Eb) := by
      intro y hy
      simp only [List.mem_cons, not_or] at hy
      rw [look, if_neg (fun h => hy.1 h.symm)]
      exact hh.sco.coh y hy.2
    have hh1 : Here (U := U) fr c ((x, some ps.length) :: sc) (x :: X) ((x, w.n) :: ρ) fs w1
        { S with σ := S.σ ++ [.fn clo] } env bst slots st :=
      ⟨hh.ok, ⟨hh.sco.lex, hcoh1, hkind, hh.sco.bp⟩, hF1, hw1⟩
    rw [← hwn] at he
    cases hvs : evalArgs U.P n ((x, w.n) :: ρ) { S with σ := S.σ ++ [.fn clo] } as with
    | none => simp only [clo] at hvs; simp [hvs] at he
    | some r1 =>
      simp only [clo] at hvs
      rw [hvs] at he
      refine hA (r := r1) h2 (hfin.before (gi.trans g3))
        (hs.sub hso1 rfl ?_ hXsc (fun y hy => (hm y hy).1) ht) hga hc.left hh1 hvs ?_ ?_
      · intro y hy
        rcases List.mem_cons.1 hy with rfl | hy
        · exact .inr hxa
        · exact .inl hy
      · intro vs S1 hr1 w2 env2 bst2 slots2 st2 vs2 p1 p2 p3 p4
        subst hr1
        simp only at he
        have hlen : vs.length = ps.length := by rw [evalArgs_length hvs, hal]
        cases n with
        | zero => simp [apply] at he
        | succ n =>
        simp only [apply] at he
        rw [bindPs_eq hlen] at he
        simp only at he
        rw [← p2.n] at he
        refine inline_bind p1 p2 p3 hlen hh.sco.lex hc.right.left ?_
        intro w3 env3 bst3 slots3 st3 q1 q2 q3
        have hx3' : Ext fr.m w1.n w1 { S with σ := S.σ ++ [.fn clo] } w3
            { S1 with σ := S1.σ ++ vs } := p4.trans q3 p4.le.n hF1.m
        have hx3 : Ext fr.m w.n w S w3 { S1 with σ := S1.σ ++ vs } :=
          hx1.trans hx3' hle1.n hh.fr.m
        have hcl : CodeAt fr.C (pc + k2.length + (inlinePre c ps s2).length)
            (.label s2.lab :: (k3 ++ inlineTail ps)) := hc.right.right
        have hrecs := inlineHead_recs c (some x) ps 0 s2
        have hfind : ∀ y, x ≠ y → findLambda (inlineHead c (some x) ps 0 s2).2.1.recs y =
            findLambda c.recs y := by
          intro y hy
          rw [hrecs]
          exact find_cons (by simpa using hy)
        have hfx : findLambda (inlineHead c (some x) ps 0 s2).2.1.recs x =
            some ⟨some x, ps, depth c.recs, c.sp, (inlineHead c (some x) ps 0 s2).2.1.bp, s2.lab,
              true⟩ := by
          rw [hrecs]
          simp [findLambda]
        have hdep : depth (inlineHead c (some x) ps 0 s2).2.1.recs = depth c.recs := by
          rw [hrecs]; rfl
        let t : Tgt := ⟨⟨some x, ps, depth c.recs, c.sp, (inlineHead c (some x) ps 0 s2).2.1.bp,
          s2.lab, true⟩, x, clo, (inlineHead c (some x) ps 0 s2).2.1, rf,
          vars ps ++ (x, some ps.length) :: sc, x :: X, (inlineHead c (some x) ps 0 s2).2.2, s3, k3,
          pc + k2.length + (inlinePre c ps s2).length, s2.cell, fs⟩
        have hfrm : ∀ fp, t.frames fp = inlineFrames ps fp fs := by
          intro fp
          simp [Tgt.frames, inlineFrames, t]
        have hxb : look x (vars ps ++ (x, some ps.length) :: sc) = some (some ps.length) := by
          rw [hfv.2 x (by rw [hlxx]; simp), hlxx]
        have hstat : Stat U t.cb t.rf t.sc t.s0 t.X (t :: av) (fun y => mentions y t.clo.body)
            (fun y => tailB y t.clo.body) := by
          refine ⟨hso3, ?_, ?_, ?_, ?_, ?_, ?_, ?_⟩
          · intro y hy
            rcases List.mem_cons.1 hy with rfl | hy
            · exact .inr ⟨t, .head _, rfl, rfl⟩
            · rcases hs.hid y hy with h | ⟨t', ht', h⟩
              · exact .inl (hm y h).2
              · exact .inr ⟨t', .tail _ ht', h⟩
          · intro t' ht' hi
            rcases List.mem_cons.1 ht' with rfl | ht'
            · exact htb
            · have := hs.tl t' ht' hi
              simp only [tailB, htb, Bool.and_eq_true] at this
              exact this.2
          · intro y hy
            rcases List.mem_cons.1 hy with hy | hy
            · show look y (vars ps ++ (x, some ps.length) :: sc) ≠ none
              rw [hy, hxb]; simp
            · show look y (vars ps ++ (x, some ps.length) :: sc) ≠ none
              rw [hlb y (hs.inSc y hy)]
              exact hs.inSc y hy
          · intro y r0 hfy hd hi
            by_cases hxy : x = y
            · subst hxy
              have : t.r = r0 := by
                have := hfx.symm.trans hfy
                simpa using this
              exact .inr ⟨t, .head _, rfl, this⟩
            · rcases hs.recs y r0 ((hfind y hxy).symm.trans hfy) (hd.trans hdep) hi with
                h | ⟨t', ht', h⟩
              · exact .inl (hm y h).2
              · exact .inr ⟨t', .tail _ ht', h⟩
          · intro t' ht' hi
            rcases List.mem_cons.1 ht' with rfl | ht'
            · exact ⟨hfx, hdep.symm⟩
            · obtain ⟨a1, a2⟩ := hs.found t' ht' hi
              refine ⟨?_, a2.trans hdep.symm⟩
              have hn : look t'.x sc ≠ none := by rw [hs.ar t' ht']; simp
              exact (hfind t'.x (hne _ hn)).trans a1
          · intro t' ht'
            rcases List.mem_cons.1 ht' with rfl | ht'
            · exact (inlineHead_sp _ _ _ _ _).symm
            · exact (hs.sp t' ht').trans (inlineHead_sp _ _ _ _ _).symm
          · intro t' ht'
            rcases List.mem_cons.1 ht' with rfl | ht'
            · exact hxb
            · show look t'.x (vars ps ++ (x, some ps.length) :: sc) = _
              rw [hlb t'.x (by rw [hs.ar t' ht']; simp)]
              exact hs.ar t' ht'
        have hT : TInv U fr r stk Q w3 { S1 with σ := S1.σ ++ vs } t av := by
          refine ⟨h3, hfin, hgb, ?_, hstat, rfl, (List.nodup_cons.1 hfs.1).2, ?_, ?_, ?_, hcoh1, ?_,
            ?_, rfl, ?_, ?_⟩
          · exact CodeAt.left (a := .label s2.lab :: k3) hcl
          · intro p hp
            exact vars_look hp
          · intro p hp hpX
            rcases List.mem_cons.1 hpX with rfl | hpX
            · exact hxps hp
            · exact hs.inSc p hpX (hfs.2 p (.tail _ hp))
          · show (inlineHead c (some x) ps 0 s2).2.1.lex = _
            rw [inlineHead_lex c (some x) ps 0 0, hh.sco.lex]
            simp [Tgt.params, t]
          · intro e he' hk'
            refine hkind e he' ?_
            have hn := hs.sok.names (e.name, e.cell) (by
              rw [hh.sco.lex]
              exact List.mem_map_of_mem he')
            rw [hlx _ hn]
            rw [← hlb _ hn]
            exact hk'
          · intro fp
            rw [hfrm]
            show _ = (inlineHead c (some x) ps 0 s2).2.1.bp + 1
            rw [inlineHead_bp]
            unfold inlineFrames
            split
            · exact hh.sco.bp
            · rw [List.length_cons, hh.sco.bp]
          · exact .inl ⟨w.n, by simp [t, clo, look], hx3'.le.F w.n clo hF1x⟩
          · intro v S2 hr2 fp _
            rw [hfrm]
            refine inline_end hcl.tail.right ?_
            have := (hok v S2 hr2).later hx3 hh.fr.m
            simp only [List.length_append, List.length_cons, List.length_nil] at this
            rw [show pc + k2.length + (inlinePre c ps s2).length + 1 + k3.length +
              (inlineTail ps).length = pc + (k2.length + ((inlinePre c ps s2).length + (0 + 1)) +
                k3.length + (inlineTail ps).length) by omega]
            exact this
        have hO : Avs U fr r stk Q w3 { S1 with σ := S1.σ ++ vs } av t.clo.env t.fsb := by
          refine (ha.later hx3 hh.fr.m).ext (fun t' ht' => ?_) []
          show look t'.x ((x, w.n) :: ρ) = _
          rw [look, if_neg (hne _ (by rw [hs.ar t' ht']; simp))]
        refine body_run (t := t) (l := w2.n) (hE n (by omega)) hh.ok hT hO ?_ q2 he herr rfl
        rw [hfrm]
        exact q1
      · intro e S1 hr1
        subst hr1
        simp only [Option.some.injEq] at he
        exact herr e S1 he.symm

end Rep.Compile
