import Verif.Compile.Sim5

/-
Every form: the code of a form does what the interpreter does.
-/

namespace Rep.Compile

variable {U : Setup}

theorem Ext.refl' {fr : Fr} {w : World} {S : SSt} : Ext fr.m w.n w S w S := Ext.refl _ _ _ _

theorem look_of_mem {α : Type} {l : List (Name × α)} (h : (l.map (·.1)).Nodup) {x : Name} {a : α}
    (hm : (x, a) ∈ l) : look x l = some a := by
  induction l with
  | nil => simp at hm
  | cons e l ih =>
    obtain ⟨y, b⟩ := e
    simp only [List.map_cons, List.nodup_cons] at h
    rcases List.mem_cons.1 hm with he | hm
    · simp only [Prod.mk.injEq] at he
      simp [look, he.1, he.2]
    · rw [look, if_neg]
      · exact ih h.2 hm
      · intro hxy
        exact h.1 (by rw [hxy]; exact List.mem_map_of_mem (f := (·.1)) hm)

theorem sim_letrec {n : Nat} (hE : ∀ m, m < n + 1 → SimE U m)
    {fr : Fr} {c : Ctx} {rf : Bool} {bs : Binds} {b : Exp} {s : CSt}
    {k : List I} {s' : CSt} {sc : Scope} {X : List Name} {av : List Tgt} {ρ : Env}
    {fs : List (List Ent)} {w : World} {S : SSt} {env bst : List Nat} {slots : Nat → Option TVal}
    {st : TSt} {stk : List TVal} {pc : Nat} {r : SRes SVal} {Q : Out → Prop}
    (h : cExp c rf (.letrec bs b) s = some (k, s')) (hfin : Fin U s')
    (hs : Stat U c rf sc s X av (fun y => mentions y (.letrec bs b))
      (fun y => tailB y (.letrec bs b)))
    (hg : good sc (.letrec bs b) = true)
    (hc : CodeAt fr.C pc k) (hh : Here (U := U) fr c sc X ρ fs w S env bst slots st)
    (ha : Avs U fr r stk Q w S av ρ fs)
    (he : eval U.P (n + 1) ρ S (.letrec bs b) = some r)
    (hok : ∀ v S1, r = .ok v S1 → EndK U fr w S fs (pc + k.length) stk Q v S1)
    (herr : EndE (U := U) Q r) : GoesTo U.P U.table Q (U.mk' fr pc stk env bst slots st) := by
  have hS : SimSets U n := simSets fun m hm => hE m (Nat.lt_succ_of_lt hm)
  simp only [good, Bool.and_eq_true] at hg
  obtain ⟨⟨hf, hgs⟩, hgb⟩ := hg
  have hfs := fresh_spec hf
  simp only [cExp] at h
  split at h
  · exact absurd h (by simp)
  simp only [Option.bind_eq_bind, Option.bind_eq_some_iff] at h
  obtain ⟨⟨k1, s1⟩, h1, ⟨k2, s2⟩, h2, h⟩ := h
  simp only [Option.some.injEq, Prod.mk.injEq] at h
  obtain ⟨rfl, rfl⟩ := h
  have hnm : bs.names = bs.scope.map (·.1) := (Binds.scope_names bs).symm
  have hlex : (bindNils bs.names c.lex s.cell).2.1 =
      (lents bs.scope s.cell w.n).reverse.map Ent.lex ++ c.lex := by
    rw [hnm]; exact lents_lex _ _ _ _
  have hlb : ∀ y, look y sc ≠ none → look y (bs.scope ++ sc) = look y sc := by
    intro y hy
    rw [look_append, look_none.2 (by
      rw [← hnm]
      exact fun hm => hy (hfs.2 y hm))]
    rfl
  have hlents : ∀ e ∈ (lents bs.scope s.cell w.n).reverse, e.name ∈ bs.names := by
    intro e he'
    obtain ⟨m, q, _⟩ := lents_kind (List.mem_reverse.1 he')
    rw [hnm]
    exact List.mem_map_of_mem q
  have hsnd : (bs.scope.map (·.1)).Nodup := by rw [← hnm]; exact hfs.1
  have hlk : ∀ y m, (y, m) ∈ bs.scope → look y (bs.scope ++ sc) = some m := by
    intro y m hy
    rw [look_append, look_of_mem hsnd hy]
    rfl
  have hl := bindNils_spec bs.names c.lex s.cell
  have hnames : (lents bs.scope s.cell w.n).map (·.name) = bs.names := by
    rw [hnm]
    have : ∀ (l : Scope) (a b : Nat), (lents l a b).map (·.name) = l.map (·.1) := by
      intro l
      induction l with
      | nil => intro a b; rfl
      | cons e l ih =>
        intro a b
        obtain ⟨y, m⟩ := e
        simp [lents, ih]
    exact this _ _ _
  have hnl : ((lents bs.scope s.cell w.n).reverse.map Ent.lex).map (·.1) = bs.names.reverse := by
    rw [← hnames, List.map_map, List.map_reverse]
    rfl
  have hsok : SOk U.Gf ⟨(bindNils bs.names c.lex s.cell).2.1, c.recs, c.sp, c.bp + 1⟩ (bs.scope ++ sc)
      { s with cell := (bindNils bs.names c.lex s.cell).2.2 } := by
    refine hs.sok.ext (new := (lents bs.scope s.cell w.n).reverse.map Ent.lex) ?_ ?_ hlex ?_ ?_ hlb
      (fun r hr => .inl hr) (Nat.le_refl _)
    · show CellsOk (bindNils bs.names c.lex s.cell).2.1 _
      rw [bindNils_lex]
      exact bindAll_cells hs.sok.cells
    · exact tagsOk_of hs.sok.tags rfl rfl hl.1
    · rw [hnl]
      exact ((List.reverse_perm _).nodup_iff).2 hfs.1
    · rw [hnl]
      intro y hy
      have hy := List.mem_reverse.1 hy
      refine ⟨hfs.2 y hy, ?_⟩
      rw [hnm] at hy
      obtain ⟨⟨y', m⟩, q1, rfl⟩ := List.mem_map.1 hy
      rw [hlk _ m q1]
      simp
  have hcode : CodeAt fr.C pc (.initBind :: ((bindNils bs.names c.lex s.cell).1 ++
      (k1 ++ (k2 ++ [.unbind])))) := by
    simpa using hc
  refine GoesTo.step (step_initBind hcode) ?_
  have hcl := hcode.tail.left
  rw [hnm] at hcl
  refine nils_run hh.fr.push hh.w (by simpa using hh.sco.lex) hcl ?_
  rw [← hnm]
  intro w1 env1 bst1 slots1 st1 p1 p2 p3 p4
  simp only [eval] at he
  rw [bindPs_eq (by simp)] at he
  simp only at he
  rw [← hh.w.n] at he
  have hsrc : (bs.names.zip (List.range' w.n bs.names.length)).reverse =
      (lents bs.scope s.cell w.n).reverse.map Ent.src := by
    rw [List.map_reverse, lents_src, hnm, List.length_map]
  rw [hsrc] at he
  refine hS (c := ⟨(bindNils bs.names c.lex s.cell).2.1, c.recs, c.sp, c.bp + 1⟩) h1 h2 hfin
    (hs.tail hsok (fun h => h) (fun _ => rfl) rfl rfl hlb ?_ ?_) hgs hgb hcode.tail.right
    ⟨hh.ok, ⟨?_, ?_, ?_, ?_⟩, p1, p2⟩ (ha.ext ?_ []) p4 hh.fr.m ?_ hfs.1 he ?_ herr
  · intro y hy
    simpa only [mentions] using hy
  · intro y hy
    simpa only [tailB] using hy
  · show (bindNils bs.names c.lex s.cell).2.1 = _
    rw [hlex, hh.sco.lex]
    simp
  · intro y hy
    simp only [List.append_nil, List.flatten_cons, List.append_assoc, List.map_append]
    rw [look_append, look_append]
    rw [hh.sco.coh y hy, List.map_append]
  · intro e he' hk'
    simp only [List.append_nil, List.flatten_cons, List.append_assoc, List.mem_append] at he'
    rcases he' with he' | he'
    · obtain ⟨m, q1, q2⟩ := lents_kind (List.mem_reverse.1 he')
      rw [hlk _ m q1] at hk'
      simp only [Option.some.injEq] at hk'
      rw [q2, hk']; rfl
    · refine hh.sco.kind e (List.mem_append.2 he') ?_
      rw [hlb] at hk'
      · exact hk'
      · refine hs.sok.names (e.name, e.cell) ?_
        rw [hh.sco.lex]
        exact List.mem_map_of_mem (List.mem_append.2 he')
  · simp [hh.sco.bp]
  · intro t htm
    rw [look_append, look_none.2]
    · rfl
    · intro hm
      rw [List.map_map] at hm
      obtain ⟨e, q1, q2⟩ := List.mem_map.1 hm
      have := hfs.2 _ (hlents e q1)
      have q2' : e.name = t.x := q2
      rw [q2', hs.ar t htm] at this
      exact absurd this (by simp)
  · intro y m hy
    refine ⟨hlk y m hy, ?_, ?_⟩
    · intro hyX
      refine hs.inSc y hyX (hfs.2 y ?_)
      rw [hnm]
      exact List.mem_map_of_mem hy
    · intro hm
      obtain ⟨e, q1, q2, q3, q4⟩ := lents_mem (n := s.cell) (l := w.n) hy
      refine ⟨e, by simpa using q1, q2, ?_, ?_, q4⟩
      · rw [q3]
        cases m with
        | none => exact absurd rfl hm
        | some _ => rfl
      · rw [p3]
        exact F_new hh.w q4
  · intro v S1 hr
    have := hok v S1 hr
    simp only [List.length_append, List.length_cons, List.length_nil] at this
    rw [show pc + 1 + (bindNils bs.names c.lex s.cell).1.length + k1.length + k2.length + 1 =
      pc + ((bindNils bs.names c.lex s.cell).1.length + 1 + k1.length + k2.length + (0 + 1)) by omega]
    exact this

/-- **The code of a form does what the interpreter does.** -/
theorem simE (n : Nat) : SimE U n := by
  induction n using Nat.strongRecOn with
  | _ n hE =>
  cases n with
  | zero =>
    intro fr c rf e s k s' sc X av ρ fs w S env bst slots st stk pc r Q _ _ _ _ _ _ _ he
    simp [eval] at he
  | succ n =>
  intro fr c rf e s k s' sc X av ρ fs w S env bst slots st stk pc r Q h hfin hs hg hc hh ha he hok herr
  have hEn : SimE U n := hE n (Nat.lt_succ_self n)
  cases e with
  | quote a =>
    simp only [cExp, Option.some.injEq, Prod.mk.injEq] at h
    obtain ⟨rfl, rfl⟩ := h
    simp only [eval, Option.some.injEq] at he
    refine GoesTo.step (step_push hc) ?_
    exact hok _ _ he.symm w env bst slots st _ hh.fr hh.w (.atom a) Ext.refl'
  | var x =>
    simp only [cExp, Option.some.injEq] at h
    have hk : k = (varref c x s).1 := by rw [h]
    rw [varref_code] at hk
    subst hk
    simp only [eval, Option.some.injEq] at he
    have hxX : x ∉ X := by
      intro hx
      rcases hs.hid x hx with hm | ⟨t, htm, htx, hti⟩
      · simp [mentions] at hm
      · have := hs.tl t htm hti
        rw [htx] at this
        simp [tailB] at this
    rcases step_var hh.ok hh.sco hh.fr hh.w hxX hc stk with ⟨v, v', e1, e2, e3⟩ | ⟨e1, e2⟩
    · refine GoesTo.step e3 ?_
      rw [e1] at he
      exact hok _ _ he.symm w env bst slots st _ hh.fr hh.w e2 Ext.refl'
    · rw [e1] at he
      exact GoesTo.err e2 (herr _ _ he.symm w st hh.w)
  | set x e =>
    simp only [cExp, Option.bind_eq_bind, Option.bind_eq_some_iff] at h
    obtain ⟨⟨k1, s1⟩, h1, h⟩ := h
    simp only [Option.some.injEq, Prod.mk.injEq] at h
    obtain ⟨rfl, rfl⟩ := h
    simp only [good, Bool.and_eq_true] at hg
    simp only [eval] at he
    have hxX : x ∉ X := by
      intro hx
      rcases hs.hid x hx with hm | ⟨t, htm, htx, hti⟩
      · simp [mentions] at hm
      · have := hs.tl t htm hti
        rw [htx] at this
        simp [tailB] at this
    cases hv : eval U.P n ρ S e with
    | none => simp [hv] at he
    | some r1 =>
      rw [hv] at he
      refine hEn (av := []) (r := r1) h1 (hfin.before (noteModified_later c x s1))
        (hs.sub hs.sok rfl (fun x hx => .inl hx) hs.inSc ?_ ?_) hg.2 hc.left hh trivial hv ?_ ?_
      · intro y hy
        simp only [mentions, Bool.or_eq_false_iff] at hy
        exact hy.2
      · intro y hy
        simp [tailB, mentions] at hy
        exact hy.2
      · intro v S1 hr1 w1 env1 bst1 slots1 st1 v1 p1 p2 p3 p4
        subst hr1
        simp only [Option.some.injEq] at he
        have hc2 : CodeAt fr.C (pc + k1.length) [.dup, varset c x] := hc.right
        refine GoesTo.step (step_dup hc2) ?_
        obtain ⟨slots2, st2, q1, q2, q3, q4⟩ := step_set hh.ok hh.sco hs.sok p1 p2 hxX hg.1 p3
          hc2.tail (v1 :: stk)
        refine GoesTo.step q1 ?_
        have := (hok _ _ he.symm).later p4 hh.fr.m
        simp only [List.length_append, List.length_cons, List.length_nil] at this
        exact this w1 env1 bst1 slots2 st2 v1 q2 q3 p3 q4
      · intro e' S1 hr1
        subst hr1
        simp only [Option.some.injEq] at he
        exact herr e' S1 he.symm
  | seq a b =>
    simp only [cExp, Option.bind_eq_bind, Option.bind_eq_some_iff] at h
    obtain ⟨⟨k1, s1⟩, h1, ⟨k2, s2⟩, h2, h⟩ := h
    simp only [Option.some.injEq, Prod.mk.injEq] at h
    obtain ⟨rfl, rfl⟩ := h
    simp only [good, Bool.and_eq_true] at hg
    simp only [eval] at he
    have hm : ∀ y, mentions y (.seq a b) = false → mentions y a = false ∧ mentions y b = false := by
      intro y hy
      simpa only [mentions, Bool.or_eq_false_iff] using hy
    have ht : ∀ y, tailB y (.seq a b) = true → mentions y a = false ∧ tailB y b = true := by
      intro y hy
      simpa [tailB] using hy
    cases hv : eval U.P n ρ S a with
    | none => simp [hv] at he
    | some r1 =>
      rw [hv] at he
      refine hEn (av := []) (r := r1) h1 (hfin.before (cExp_grow c rf b s1 h2).later)
        (hs.sub hs.sok rfl (fun x hx => .inl hx) hs.inSc (fun y hy => (hm y hy).1)
          (fun y hy => (ht y hy).1)) hg.1 hc.left hh trivial hv ?_ ?_
      · intro v S1 hr1 w1 env1 bst1 slots1 st1 v1 p1 p2 p3 p4
        subst hr1
        simp only at he
        have hc2 : CodeAt fr.C (pc + k1.length) (.pop :: k2) := hc.right
        refine GoesTo.step (step_pop hc2) ?_
        refine hEn (r := r) h2 hfin (hs.tail (hs.sok.exp h1 hg.1 rfl rfl) (fun h => h) (fun _ => rfl)
          rfl rfl (fun _ _ => rfl) (fun y hy => (hm y hy).2) (fun y hy => (ht y hy).2)) hg.2 hc2.tail
          (hh.next p1 p2 rfl rfl) (ha.later p4 hh.fr.m) he ?_ herr
        intro v2 S2 hr2
        have := (hok v2 S2 hr2).later p4 hh.fr.m
        simp only [List.length_append, List.length_cons] at this
        rw [show pc + k1.length + 1 + k2.length = pc + (k1.length + (k2.length + 1)) by omega]
        exact this
      · intro e' S1 hr1
        subst hr1
        simp only [Option.some.injEq] at he
        exact herr e' S1 he.symm
  | cond cs =>
    have hC : SimCls U n := simCls fun m hm => hE m (Nat.lt_succ_of_lt hm)
    simp only [cExp, Option.bind_eq_bind, Option.bind_eq_some_iff] at h
    obtain ⟨⟨k1, need, s1⟩, h1, h⟩ := h
    simp only [Option.some.injEq, Prod.mk.injEq] at h
    obtain ⟨rfl, rfl⟩ := h
    simp only [good] at hg
    simp only [eval] at he
    have hcl : CodeAt fr.C (pc + k1.length + (if need then 1 else 0)) [.label s.lab] := by
      have := hc.right
      cases need
      · simpa using this
      · simpa [Nat.add_assoc] using this
    refine hC (r := r) h1 hfin (hs.tail (hs.sok.lab _) (fun h => h) (fun _ => rfl) rfl rfl
      (fun _ _ => rfl) ?_ ?_) hg hc.left hcl rfl hh ha he ?_ herr
    · intro y hy
      simpa only [mentions] using hy
    · intro y hy
      simpa only [tailB] using hy
    · intro v S1 hr w1 env1 bst1 slots1 st1 v1 p1 p2 p3 p4
      refine GoesTo.step (step_label hcl) ?_
      have := hok v S1 hr w1 env1 bst1 slots1 st1 v1 p1 p2 p3 p4
      cases need
      · simpa [Nat.add_assoc] using this
      · simpa [Nat.add_assoc] using this
  | «while» q b =>
    simp only [cExp, Option.bind_eq_bind, Option.bind_eq_some_iff] at h
    obtain ⟨⟨kb, s1⟩, h1, ⟨kq, s2⟩, h2, h⟩ := h
    simp only [Option.some.injEq, Prod.mk.injEq] at h
    obtain ⟨rfl, rfl⟩ := h
    simp only [good, Bool.and_eq_true] at hg
    have hm : ∀ y, mentions y (.while q b) = false → mentions y b = false ∧ mentions y q = false := by
      intro y hy
      simpa only [mentions, Bool.or_eq_false_iff] using hy
    have ht : ∀ y, tailB y (.while q b) = true → mentions y b = false ∧ mentions y q = false := by
      intro y hy
      simpa [tailB, mentions] using hy
    have hcw : CodeAt fr.C pc (.jmp (s.lab + 1) :: .label s.lab :: (kb ++
        (.pop :: .label (s.lab + 1) :: (kq ++ [.jpt s.lab])))) := by
      simpa using hc
    have hcl : CodeAt fr.C (pc + 1 + 1 + kb.length) (.pop :: .label (s.lab + 1) :: (kq ++
        [.jpt s.lab])) := hcw.tail.tail.right
    refine GoesTo.step (step_jmp hh.ok hcw hcl.tail) ?_
    have hsl : SOk U.Gf c sc { s with lab := s.lab + 2 } := hs.sok.lab _
    refine sim_while (n := n + 1) hE h1 h2 hfin
      (hs.sub hsl rfl (fun x hx => .inl hx) hs.inSc (fun y hy => (hm y hy).1)
          (fun y hy => (ht y hy).1))
      (hs.sub (hsl.exp h1 hg.2 rfl rfl) rfl (fun x hx => .inl hx) hs.inSc (fun y hy => (hm y hy).2)
          (fun y hy => (ht y hy).2)) hg.2 hg.1 hcw.tail hh he ?_ herr
    intro v S1 hr
    have := hok v S1 hr
    simp only [List.length_append, List.length_cons, List.length_nil] at this
    rw [show pc + 1 + 1 + kb.length + 1 + 1 + kq.length + 1 =
      pc + (kb.length + 1 + 1 + (0 + 1 + 1) + kq.length + (0 + 1)) by omega]
    exact this
  | lam ps b =>
    simp only [cExp, Option.bind_eq_bind, Option.bind_eq_some_iff] at h
    obtain ⟨⟨k1, s1⟩, h1, h⟩ := h
    simp only [Option.some.injEq] at h
    have hk : k = [.enclose s1.fns.length] := by
      have := congrArg Prod.fst h
      simpa [enclose] using this.symm
    have hs' := congrArg Prod.snd h
    simp only at hs'
    subst hk
    simp only [good, Bool.and_eq_true] at hg
    simp only [eval, Option.some.injEq] at he
    refine GoesTo.step (step_enclose hc) ?_
    refine hok _ _ he.symm w env bst slots st _ hh.fr hh.w (.fn ?_) Ext.refl'
    refine make_clo (X := X) h1 (by rw [hs']; exact hfin) hs.sok hg.1 hg.2 hh.sco hh.fr ?_ hs.inSc
      (fun x hx => absurd hx (by simp))
    intro y hy
    rcases hs.hid y hy with hm | ⟨t, htm, htx, hti⟩
    · simpa only [mentions] using hm
    · have := hs.tl t htm hti
      rw [htx] at this
      simpa [tailB, mentions] using this
  | call f as =>
    by_cases ho : Other f
    · exact sim_call_other hE ho h hfin hs hg hc hh he hok herr
    · cases f with
      | var x =>
        exact sim_call_var (fun m hm => hE m (Nat.lt_succ_of_lt hm)) h hfin hs hg hc hh ha he hok herr
      | lam ps b => simp [cExp] at h
      | _ =>
        exfalso
        exact ho ⟨(fun _ _ h => nomatch h), (fun _ h => nomatch h)⟩
  | inl ps b as => exact sim_inl hE h hfin hs hg hc hh ha he hok herr
  | lets bs b =>
    have hL : SimLets U n := simLets fun m hm => hE m (Nat.lt_succ_of_lt hm)
    simp only [cExp, Option.bind_eq_bind, Option.bind_eq_some_iff] at h
    obtain ⟨⟨k1, lex, s1⟩, h1, ⟨k2, s2⟩, h2, h⟩ := h
    simp only [Option.some.injEq, Prod.mk.injEq] at h
    obtain ⟨rfl, rfl⟩ := h
    simp only [good, Bool.and_eq_true] at hg
    simp only [eval] at he
    have hc2 : CodeAt fr.C pc (.initBind :: (k1 ++ (k2 ++ [.unbind]))) := by simpa using hc
    refine GoesTo.step (step_initBind hc2) ?_
    refine hL (r := r) h1 h2 hfin (hs.tail (hs.sok.next rfl rfl (Nat.le_refl _) hs.sok.tags)
      (fun h => h) (fun _ => rfl) rfl rfl (fun _ _ => rfl) ?_ ?_) hg.1 hg.2 hc2.tail
      ⟨hh.ok, ⟨?_, ?_, ?_, ?_⟩, hh.fr.push, hh.w⟩ ha he ?_ herr
    · intro y hy
      simpa only [mentions] using hy
    · intro y hy
      simpa only [tailB] using hy
    · simpa using hh.sco.lex
    · simpa using hh.sco.coh
    · simpa using hh.sco.kind
    · simp [hh.sco.bp]
    · intro v S1 hr
      have := hok v S1 hr
      simp only [List.length_append, List.length_cons, List.length_nil] at this
      rw [show pc + 1 + k1.length + k2.length + 1 =
        pc + (k1.length + 1 + k2.length + (0 + 1)) by omega]
      exact this
  | letrec bs b => exact sim_letrec hE h hfin hs hg hc hh ha he hok herr
  | named x ps b as => exact sim_named hE h hfin hs hg hc hh ha he hok herr

end Rep.Compile
