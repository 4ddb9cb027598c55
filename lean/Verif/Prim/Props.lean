import Verif.Prim.Sim
import Mathlib.Tactic.ByContra
import Mathlib.Data.List.Induction

/-
C94: compiled calls of built-in functions.
-/

namespace Rep.Prim

open Rep.Number (Num Res)

/-! ## Constant folding -/

theorem foldArgs_open {W : World} {fs : List Form} {vs : List Val} (h : foldArgs W fs = .ok (some vs)) :
    fs.any Form.open = false := by
  induction fs generalizing vs with
  | nil => rfl
  | cons f fs ih =>
    simp only [foldArgs] at h
    obtain ⟨x, h1, h⟩ := bind_ok h
    cases x with
    | none => cases h
    | some v =>
      obtain ⟨y, h2, h⟩ := bind_ok h
      cases y with
      | none => cases h
      | some ws =>
        have : f.open = false := by
          cases f <;> first | rfl | (simp [fold] at h1)
        simp [this, ih h2]

mutual
/-- Constants that the compiler computes are the values. -/
theorem fold_eval (W : World) : ∀ (f : Form) (v : Val), f.Good → fold W f = .ok (some v) →
    ∀ tr, eval W f tr = .ok v tr
  | .const w, v, _, h, tr => by
    simp only [fold, C.ok.injEq, Option.some.injEq] at h
    rw [h]
    rfl
  | .var x, v, _, h, tr => by simp [fold] at h
  | .app f args, v, _, h, tr => by simp [fold] at h
  | .apply args, v, _, h, tr => by simp [fold] at h
  | .call b args, v, hg, h, tr => by
    simp only [fold] at h
    split at h
    · obtain ⟨x, h1, h⟩ := bind_ok h
      cases x with
      | none => cases h
      | some vs =>
        have hb : b ≠ .smatch := fun hb => by
          have := hg.2.2.2.2.2 hb
          rw [foldArgs_open h1] at this
          cases this
        simp only [eval, foldArgs_eval W args vs hg.1 h1 tr, Out.bind, prim_out hb]
        dsimp only at h
        cases hp : pure W b vs with
        | ok w =>
          rw [hp] at h
          simp only [C.ok.injEq, Option.some.injEq] at h
          rw [h]
          rfl
        | _ => rw [hp] at h; cases h
    · cases h

theorem foldArgs_eval (W : World) : ∀ (fs : List Form) (vs : List Val), GoodAll fs →
    foldArgs W fs = .ok (some vs) → ∀ tr, evalArgs W fs tr = .ok vs tr
  | [], vs, _, h, tr => by
    simp only [foldArgs, C.ok.injEq, Option.some.injEq] at h
    rw [← h]
    rfl
  | f :: fs, vs, hg, h, tr => by
    simp only [foldArgs] at h
    obtain ⟨x, h1, h⟩ := bind_ok h
    cases x with
    | none => cases h
    | some v =>
      obtain ⟨y, h2, h⟩ := bind_ok h
      cases y with
      | none => cases h
      | some ws =>
        cases h
        simp [evalArgs, fold_eval W f v hg.1 h1 tr, foldArgs_eval W fs ws hg.2 h2 tr, Out.bind]
end

/-! ## The other handlers -/

theorem same_refl {α : Type} (r : Res α) : Same r r := fun _ => rfl

theorem two {vs : List Val} (h : vs.length = 2) : vs = [arg vs 0, arg vs 1] := by
  match vs, h with
  | [a, b], _ => rfl

theorem rel_pure {W : World} {b : B} {o : Op2} {op : Int → Bool} (h : b.rel = some (o, op))
    (vs : List Val) : pure W b vs = comparison W op vs := by
  cases b <;> simp only [B.rel, Option.some.injEq, Prod.mk.injEq, reduceCtorEq] at h <;>
    (obtain ⟨-, rfl⟩ := h; rfl)

theorem sim_relation {sh : Prop} {W : World} {b : B} {o : Op2} {op : Int → Bool}
    (hb : b.rel = some (o, op)) {fs : List Form} {cs : List (C Code)} {code : Code} {tr : Trace}
    (hs : Sims sh W fs cs tr) (hcl : cs.length = fs.length)
    (hn : ∀ vs t, evalArgs W fs tr = .ok vs t → ∀ x y, .num (.fix x) ∈ vs → .num (.fix y) ∈ vs →
      -(2 ^ 31) ≤ x - y ∧ x - y < 2 ^ 31)
    (hc : relation b cs o = .ok code) (st : List Val) :
    Agree sh (· :: st) ((evalArgs W fs tr).bind fun vs tr => out (comparison W op vs) tr)
      (exec W code st tr) := by
  unfold relation at hc
  split at hc
  · cases hc
  · split at hc
    · rename_i h2
      refine sim_args2 hs (by omega) hcl hc (fun vs t hv => ?_) st
      have hl := evalArgs_length W hv
      have hv2 := two (vs := vs) (by omega)
      rw [exec2_rel W hb]
      · rw [← hv2]
        exact same_refl _
      · intro x y hx hy
        refine hn vs t hv x y ?_ ?_
        · rw [hv2, ← hx]
          exact List.mem_cons_self
        · rw [hv2, ← hy]
          exact List.mem_cons_of_mem _ List.mem_cons_self
    · have := sim_calling (sh := sh) (W := W) (F := .ok (.prim b) tr) (tr := tr) (st := st) hcl
        (fun c hc' => by cases hc'; rfl) (fun v t hv => by cases hv; exact hs) hc
      have hb' : b ≠ .smatch := by rintro rfl; cases hb
      simp only [Out.bind, applyFun, prim_out hb', rel_pure hb] at this
      exact this

theorem nthInsn_spec (W : World) {n : Nat} {o : Op1} (h : nthInsn n = some o) (v : Val) :
    exec1 W o v = .ok (car (drop n v)) := by
  match n, h with
  | 0, h =>
    cases h
    rw [drop_zero]
    rfl
  | 1, h =>
    cases h
    rw [car_cdr_drop, drop_zero]
    cases v <;> first | rfl | (rename_i x y; cases y <;> rfl)
  | n + 2, h =>
    simp only [nthInsn] at h
    split at h
    · cases h
      rfl
    · cases h

theorem nthcdrInsn_none {n : Nat} (h : nthcdrInsn n = some none) : n = 0 := by
  unfold nthcdrInsn at h
  split at h <;> first | rfl | cases h

theorem literal_spec {fs : List Form} {n : Nat} (h : literal fs = some n) :
    ∃ gs, fs = .const (.num (.fix n)) :: gs := by
  unfold literal at h
  split at h
  · rename_i m gs
    split at h
    · rename_i hm
      simp only [Option.some.injEq] at h
      refine ⟨gs, ?_⟩
      rw [← h, Int.toNat_of_nonneg hm]
    · cases h
  · cases h

theorem nthWith_nat (f : Val → Val) (n : Nat) {l : Val} (h : listp l = true) :
    nthWith f (.num (.fix n)) l = .ok (f (drop n l)) := by
  unfold nthWith
  simp [h]

/-- An index that is written in the form. -/
theorem sim_literal {sh : Prop} {W : World} {n : Nat} {gs : List Form} {cs : List (C Code)}
    {c : Code} {tr : Trace} (hs : Sims sh W (.const (.num (.fix n)) :: gs) cs tr)
    (hl : gs.length ≤ 1) (hcl : cs.length = gs.length + 1) (hc : argCode cs 1 = .ok c)
    (st : List Val) :
    Agree sh (fun vs => arg vs 1 :: st) (evalArgs W (.const (.num (.fix n)) :: gs) tr)
        (exec W c st tr) ∧
      ∀ vs t, evalArgs W (.const (.num (.fix n)) :: gs) tr = .ok vs t → arg vs 0 = .num (.fix n) := by
  match gs, cs, hs, hl, hcl, hc with
  | [], [c'], hs, _, _, hc =>
    cases hc
    exact ⟨rfl, fun vs t h => by cases h; rfl⟩
  | [g], [c', d'], hs, _, _, hc =>
    simp only [argCode, List.getD_cons_zero, List.getD_cons_succ] at hc
    have := (hs.2 _ tr rfl).1 c hc st
    simp only [evalArgs, eval, Out.bind]
    constructor
    · have h3 := agree_bind (K := fun w t => Out.ok [.num (.fix n), w] t) (K' := fun st t => Out.ok st t)
        (h := fun vs => arg vs 1 :: st) this fun w t _ => rfl
      revert h3
      cases exec W c st tr <;> cases eval W g tr <;> exact id
    · intro vs t h
      cases hg : eval W g tr with
      | ok v u => rw [hg] at h; cases h; rfl
      | _ => rw [hg] at h; cases h

theorem cons_chain (W : World) (l : Val) (ms st : List Val) (tr : Trace) :
    exec W (List.replicate ms.length (.op2 .cons)) (l :: (ms.reverse ++ st)) tr =
      .ok (ms.foldr Val.cons l :: st) tr := by
  induction ms using List.reverseRecOn generalizing l with
  | nil => rfl
  | append_singleton ms m ih =>
    rw [List.length_append, List.length_singleton, List.replicate_succ]
    simp only [List.reverse_append, List.reverse_cons, List.reverse_nil, List.nil_append,
      List.cons_append, exec, step, exec2, out, Out.bind, List.foldr_append, List.foldr_cons,
      List.foldr_nil]
    exact ih _

theorem elems_foldr (ms : List Val) (l : Val) : elems (ms.foldr Val.cons l) = ms ++ elems l := by
  induction ms with
  | nil => rfl
  | cons m ms ih => simp [elems, ih]

theorem sim_apply {sh : Prop} {W : World} {fs : List Form} {cs : List (C Code)} {code : Code}
    {tr : Trace} (hs : Sims sh W fs cs tr) (hl : 2 ≤ fs.length) (hcl : cs.length = fs.length)
    (hp : ∀ vs t, evalArgs W fs tr = .ok vs t → listp (vs.getLast?.getD .nil) = true)
    (hc : applyCode cs = .ok code) (st : List Val) :
    Agree sh (· :: st) ((evalArgs W fs tr).bind fun vs tr => applyArgs W vs tr)
      (exec W code st tr) := by
  match fs, cs, hs, hl, hcl, hc, hp with
  | f :: gs, c :: cs, hs, hl, hcl, hc, hp =>
    unfold applyCode at hc
    obtain ⟨d, h1, hc⟩ := bind_ok hc
    obtain ⟨ds, h2, hc⟩ := bind_ok hc
    cases hc
    simp only [argCode, List.getD_cons_zero] at h1
    simp only [List.drop_succ_cons, List.drop_zero] at h2
    have hal := all_length h2
    simp only [List.length_cons] at hl hcl
    have he : (evalArgs W (f :: gs) tr).bind (fun vs tr => applyArgs W vs tr) =
        (eval W f tr).bind fun v t => (evalArgs W gs t).bind fun vs t => applyArgs W (v :: vs) t := by
      simp only [evalArgs]
      cases eval W f tr with
      | ok v t =>
        simp only [Out.bind]
        cases evalArgs W gs t <;> rfl
      | _ => rfl
    rw [he, List.append_assoc, List.append_assoc, exec_append]
    refine agree_bind (hs.1 d h1 st) fun v t hv => ?_
    rw [exec_append]
    refine agree_bind (sim_args (hs.2 v t hv) h2 (v :: st)) fun vs u hvs => ?_
    have hvl := evalArgs_length W hvs
    have hlast := hp (v :: vs) u (by simp [evalArgs, hv, hvs, Out.bind])
    have hne : vs ≠ [] := by
      rintro rfl
      simp only [List.length_nil] at hvl
      omega
    obtain ⟨ms, l, rfl⟩ : ∃ ms l, vs = ms ++ [l] :=
      ⟨vs.dropLast, vs.getLast hne, (List.dropLast_concat_getLast hne).symm⟩
    have hms : ds.length - 1 = ms.length := by
      simp only [List.length_append, List.length_singleton] at hvl
      omega
    rw [← List.cons_append, List.getLast?_concat, Option.getD_some] at hlast
    rw [exec_append, hms]
    simp only [List.reverse_append, List.reverse_cons, List.reverse_nil, List.nil_append,
      List.cons_append]
    rw [cons_chain]
    simp only [Out.bind]
    rw [exec_one]
    apply agree_of_eq
    have ha : applyArgs W (v :: (ms ++ [l])) u = applyFun W v (ms ++ elems l) u := by
      unfold applyArgs
      simp only [← List.cons_append, List.getLast?_concat, Option.getD_some, hlast,
        List.dropLast_concat]
      simp
    rw [ha]
    simp only [step]
    rw [elems_foldr]

/-! ## The theorem -/

theorem op1_pure (W : World) {b : B} {o : Op1} (h : b.op1 = some o) {vs : List Val}
    (hl : b.lisp = true → vs.length = 1) : Same (pure W b vs) (exec1 W o (arg vs 0)) := by
  rw [exec1_op1 W h]
  cases b <;> simp only [B.op1, Option.some.injEq, reduceCtorEq] at h <;>
    first
      | exact same_refl _
      | (have := hl rfl
         match vs, this with
         | [a], _ => exact same_refl _)

mutual
theorem sim (sh : Prop) (W : World) : ∀ (f : Form), f.Good → (sh → f.Short) → ∀ tr, f.Plain W tr →
    ∀ code, compile W f = .ok code → ∀ st, Agree sh (· :: st) (eval W f tr) (exec W code st tr)
  | .const v, _, _, tr, _, code, hc, st => by
    cases hc
    rfl
  | .var x, _, _, tr, _, code, hc, st => by
    cases hc
    rw [exec_one]
    simp only [eval, step]
    cases W.look x tr with
    | some v => rfl
    | none => exact .inr ⟨_, _, rfl, List.prefix_refl _, fun _ => ⟨rfl, rfl⟩⟩
  | .app f args, hg, hsh, tr, hp, code, hc, st => by
    simp only [eval]
    exact sim_calling each_length (fun c h => sim sh W f hg.1 (fun h => (hsh h).1) tr hp.1 c h st)
      (fun v t hv => simEach sh W args hg.2 (fun h => (hsh h).2) t (hp.2 v t hv)) hc
  | .apply args, hg, hsh, tr, hp, code, hc, st => by
    simp only [eval]
    exact sim_apply (simEach sh W args hg.1 hsh tr hp.1) hg.2 each_length hp.2 hc st
  | .call b args, hg, hsh, tr, hp, code, hc, st => by
    simp only [compile] at hc
    obtain ⟨x, h1, hc⟩ := bind_ok hc
    cases x with
    | some v =>
      cases hc
      rw [fold_eval W _ v hg h1]
      rfl
    | none =>
      dsimp only at hc
      have hs := simEach sh W args hg.1 (fun h => (hsh h).1) tr hp.1
      have hlen : (compileEach W args).length = args.length := each_length
      simp only [eval]
      obtain ⟨-, hu, hlisp, h2, hlog, -⟩ := hg
      -- one operand
      have one : ∀ o, b.op1 = some o → args1 (compileEach W args) o = .ok code →
          Agree sh (· :: st) ((evalArgs W args tr).bind fun vs tr => prim W b vs tr)
            (exec W code st tr) := fun o ho hc => by
        have hb : b ≠ .smatch := by rintro rfl; cases ho
        simp only [prim_out hb]
        refine sim_args1 hs ?_ hc (fun vs t hv => op1_pure W ho fun hl => ?_) st
        · by_cases hl : b.lisp = true
          · have := hlisp hl
            omega
          · refine hu ?_
            cases b <;> first | rfl | (cases ho; done) | (exact absurd rfl hl)
        · rw [evalArgs_length W hv]
          exact hlisp hl
      -- numbers
      have many : ∀ o, b.op2 = some o → binary (compileEach W args) o = .ok code →
          Agree sh (· :: st) ((evalArgs W args tr).bind fun vs tr => prim W b vs tr)
            (exec W code st tr) := fun o ho hc => by
        refine sim_binary ho hs hlen (fun h => (hsh h).2 ?_) hc st
        cases b <;> first | rfl | cases ho
      -- relations
      have near : b.relation = true → ∀ vs t, evalArgs W args tr = .ok vs t → ∀ x y,
          .num (.fix x) ∈ vs → .num (.fix y) ∈ vs → -(2 ^ 31) ≤ x - y ∧ x - y < 2 ^ 31 :=
        fun hr vs t hv x y hx hy => by
          by_contra hn
          exact hp.2 vs t hv (.inl ⟨hr, x, y, hx, hy, hn⟩)
      have rel : ∀ o op, b.rel = some (o, op) → relation b (compileEach W args) o = .ok code →
          Agree sh (· :: st) ((evalArgs W args tr).bind fun vs tr => prim W b vs tr)
            (exec W code st tr) := fun o op ho hc => by
        have hb : b ≠ .smatch := by rintro rfl; cases ho
        simp only [prim_out hb, rel_pure ho]
        refine sim_relation ho hs hlen (near ?_) hc st
        cases b <;> first | rfl | cases ho
      cases hb : b <;> subst hb <;> simp only [handler] at hc
      · exact many _ rfl hc
      · split at hc
        · rename_i h1
          simp only [prim_out (b := .sub) (fun h => nomatch h)]
          refine sim_args1 hs (by omega) hc (fun vs t hv => ?_) st
          have hvl := evalArgs_length W hv
          rw [hlen] at h1
          match vs, hvl.trans h1 with
          | [a], _ =>
            rw [exec1_neg]
            cases a <;> exact fun _ => rfl
        · exact many _ rfl hc
      · exact many _ rfl hc
      · exact many _ rfl hc
      · exact many _ rfl hc
      · exact many _ rfl hc
      · exact many _ rfl hc
      · exact many _ rfl hc
      · exact many _ rfl hc
      · exact rel _ _ rfl hc
      · obtain ⟨c, h3, hc⟩ := bind_ok hc
        cases hc
        have h4 := sim_relation (b := .eq) rfl hs hlen (near rfl) h3 st
        have h5 := sim_one (o := .not) (k := fun v => .ok (ofBool (v == .nil))) h4 fun v t _ =>
          same_refl _
        simp only [prim_out (b := .ne) (fun h => nomatch h), pure, notV, out_bind]
        revert h5
        cases evalArgs W args tr <;> exact id
      · exact rel _ _ rfl hc
      · exact rel _ _ rfl hc
      · exact rel _ _ rfl hc
      · exact rel _ _ rfl hc
      · exact one _ rfl hc
      · exact one _ rfl hc
      · exact one _ rfl hc
      · exact one _ rfl hc
      · exact one _ rfl hc
      · exact one _ rfl hc
      · exact one _ rfl hc
      · exact one _ rfl hc
      · exact one _ rfl hc
      · exact one _ rfl hc
      · exact one _ rfl hc
      · exact one _ rfl hc
      · exact one _ rfl hc
      · exact one _ rfl hc
      · exact one _ rfl hc
      · exact one _ rfl hc
      · simp only [prim_out (b := .cons) (fun h => nomatch h)]
        exact sim_args2 hs (h2 (.inl rfl)) hlen hc (fun vs t _ => same_refl _) st
      · simp only [prim_out (b := .nth) (fun h => nomatch h)]
        unfold nthCode at hc
        split at hc
        · rename_i o ho
          obtain ⟨c, h3, hc⟩ := bind_ok hc
          cases hc
          obtain ⟨n, hn, ho⟩ := Option.bind_eq_some_iff.1 ho
          obtain ⟨gs, rfl⟩ := literal_spec hn
          have hl2 := h2 (.inr (.inl rfl))
          simp only [List.length_cons] at hl2
          obtain ⟨h4, h5⟩ := sim_literal hs (by omega) (by simpa using hlen) h3 st
          rw [exec_append]
          refine agree_bind h4 fun vs t hv => ?_
          rw [exec_one]
          apply agree_of_eq
          have hlist : listp (arg vs 1) = true := by
            by_contra hx
            exact hp.2 vs t hv (.inr (.inl ⟨.inl rfl, by simpa using hx⟩))
          simp only [step, pure]
          rw [nthInsn_spec W ho, h5 vs t hv, nthWith_nat _ _ hlist]
          rfl
        · exact sim_args2 hs (h2 (.inr (.inl rfl))) hlen hc (fun vs t _ => same_refl _) st
      · simp only [prim_out (b := .nthcdr) (fun h => nomatch h)]
        unfold nthcdrCode at hc
        split at hc
        · rename_i o ho
          obtain ⟨c, h3, hc⟩ := bind_ok hc
          cases hc
          obtain ⟨n, hn, ho⟩ := Option.bind_eq_some_iff.1 ho
          obtain ⟨gs, rfl⟩ := literal_spec hn
          have hl2 := h2 (.inr (.inr rfl))
          simp only [List.length_cons] at hl2
          obtain ⟨h4, h5⟩ := sim_literal hs (by omega) (by simpa using hlen) h3 st
          rw [exec_append]
          refine agree_bind h4 fun vs t hv => ?_
          rw [exec_one]
          apply agree_of_eq
          have hlist : listp (arg vs 1) = true := by
            by_contra hx
            exact hp.2 vs t hv (.inr (.inl ⟨.inr rfl, by simpa using hx⟩))
          have hlist' : listp (cdr (arg vs 1)) = true := by
            by_contra hx
            exact hp.2 vs t hv (.inr (.inr ⟨rfl, by simpa using hx⟩))
          simp only [step, pure]
          rw [h5 vs t hv, nthWith_nat _ _ hlist]
          have : exec1 W o (arg vs 1) = .ok (drop n (arg vs 1)) := by
            match n, ho with
            | 1, ho =>
              cases ho
              revert hlist
              cases arg vs 1 with
              | cons x y => intro _; cases y <;> rfl
              | _ => intro hlist; first | rfl | cases hlist
            | 2, ho =>
              cases ho
              revert hlist hlist'
              cases arg vs 1 with
              | cons x y => cases y <;> intro hlist hlist' <;> first | (rename_i z w; cases w <;> rfl) | rfl | cases hlist'
              | _ => intro hlist hlist'; first | rfl | cases hlist
          rw [this]
          rfl
        · rename_i ho
          obtain ⟨n, hn, ho'⟩ := Option.bind_eq_some_iff.1 ho
          obtain ⟨gs, rfl⟩ := literal_spec hn
          have hl2 := h2 (.inr (.inr rfl))
          simp only [List.length_cons] at hl2
          obtain ⟨h4, h5⟩ := sim_literal hs (by omega) (by simpa using hlen) hc st
          have h6 := agree_bind (K := fun vs t => out (pure W .nthcdr vs) t)
            (K' := fun st t => Out.ok st t) (h := (· :: st)) h4 fun vs t hv => by
              have hlist : listp (arg vs 1) = true := by
                by_contra hx
                exact hp.2 vs t hv (.inr (.inl ⟨.inr rfl, by simpa using hx⟩))
              have hn0 := nthcdrInsn_none ho'
              subst hn0
              simp only [pure]
              rw [h5 vs t hv, nthWith_nat _ _ hlist, drop_zero]
              rfl
          revert h6
          cases exec W code st tr <;> exact id
        · exact sim_args2 hs (h2 (.inr (.inr rfl))) hlen hc (fun vs t _ => same_refl _) st
      · have hl1 := hlog rfl
        match args, hl1, hs, hc, hlen with
        | [f], _, hs, hc, hlen =>
          simp only [prim_out (b := .log) (fun h => nomatch h)]
          refine sim_args1 (o := .log) hs (by simp) hc (fun vs t hv => ?_) st
          have hvl := evalArgs_length W hv
          match vs, hvl with
          | [a], _ => exact fun _ => rfl
      · have := sim_calling (sh := sh) (W := W) (F := .ok (.prim .smatch) tr) (tr := tr) (st := st)
          hlen (fun c hc' => by cases hc'; rfl) (fun v t hv => by cases hv; exact hs) hc
        exact this

theorem simEach (sh : Prop) (W : World) : ∀ (fs : List Form), GoodAll fs → (sh → ShortAll fs) →
    ∀ tr, PlainAll W fs tr → Sims sh W fs (compileEach W fs) tr
  | [], _, _, _, _ => trivial
  | f :: fs, hg, hsh, tr, hp =>
    ⟨fun code hc st => sim sh W f hg.1 (fun h => (hsh h).1) tr hp.1 code hc st,
      fun v t hv => simEach sh W fs hg.2 (fun h => (hsh h).2) t (hp.2 v t hv)⟩
end

/-- C94: when the interpreter returns a value, compiled code leaves that value on the stack, above what
was there, and the same functions have been called with the same arguments. -/
theorem C94_values_partial (W : World) (f : Form) (hg : f.Good) (tr : Trace) (hp : f.Plain W tr)
    (code : Code) (hc : compile W f = .ok code) (v : Val) (tr' : Trace)
    (he : eval W f tr = .ok v tr') (st : List Val) : exec W code st tr = .ok (v :: st) tr' := by
  have := sim False W f hg (fun h => h.elim) tr hp code hc st
  rw [he] at this
  exact this

/-- C94: when the interpreter ends with an error or a throw, compiled code does not return a value, and
has called nothing that the interpreter has not called. -/
theorem C94_exits_partial (W : World) (f : Form) (hg : f.Good) (tr : Trace) (hp : f.Plain W tr)
    (code : Code) (hc : compile W f = .ok code) (e : Err) (tr' : Trace)
    (he : eval W f tr = .err e tr') (st : List Val) :
    exec W code st tr = .ub ∨ ∃ e' tr'', exec W code st tr = .err e' tr'' ∧ tr'' <+: tr' := by
  have := sim False W f hg (fun h => h.elim) tr hp code hc st
  rw [he] at this
  rcases this with h | ⟨e', t, h, h2, -⟩
  · exact .inl h.1
  · exact .inr ⟨e', t, h, h2⟩

/-- C94: with at most two arguments to functions of numbers, it is the same error or throw, after the
same calls. -/
theorem C94_same_exits_partial (W : World) (f : Form) (hg : f.Good) (hs : f.Short) (tr : Trace)
    (hp : f.Plain W tr) (code : Code) (hc : compile W f = .ok code) (e : Err) (tr' : Trace)
    (he : eval W f tr = .err e tr') (st : List Val) : exec W code st tr = .err e tr' := by
  have := sim True W f hg (fun _ => hs) tr hp code hc st
  rw [he] at this
  rcases this with h | ⟨e', t, h, -, h3⟩
  · exact absurd trivial h.2
  · obtain ⟨rfl, rfl⟩ := h3 trivial
    exact h

/-! ## Cases that meet the hypotheses -/

def int (n : Int) : Val := .num (.fix n)

/-- Function 0 throws, the others return their number and how many calls there have been; variable 0 is
0, 1 is 2 ^ 32, 2 is 5, 3 is the list (1 2 3), others are void. -/
def W0 : World where
  ext i _ tr := if i = 0 then .error 7 else .ok (int (i + tr.length))
  look x _ := match x with
    | 0 => some (int 0)
    | 1 => some (int (2 ^ 32))
    | 2 => some (int 5)
    | 3 => some (.cons (int 1) (.cons (int 2) (.cons (int 3) .nil)))
    | _ => none
  cmp a b := if a = b then 0 else 1
  lg _ _ := .ok (int 1)
  smatch a b := .ok (ofBool (a == b))

def ff (i : Nat) (args : List Form) : Form := .app (.const (.ext i)) args

/-- `(+ (f) (* x (g)) 4)` -/
def sumForm : Form := .call .add [ff 1 [], .call .mul [.var 2, ff 2 []], .const (int 4)]

def sumCode : Code :=
  [.push (.ext 1), .call 0, .ref 2, .push (.ext 2), .call 0, .op2 .mul, .op2 .add, .push (int 4),
    .op2 .add]

example : compile W0 sumForm = .ok sumCode := by decide +kernel

example : eval W0 sumForm [] = .ok (int 20) [.call 1 [], .call 2 []] := by decide +kernel

example : sumForm.Good ∧ sumForm.Plain W0 [] := by
  refine ⟨by simp [sumForm, ff, Form.Good, GoodAll, B.unary, B.lisp], ?_⟩
  simp [sumForm, ff, Form.Plain, PlainAll, Odd, B.relation]

/-- `(nth 1 (cons (f) (cons (throw) l)))` -/
def throwForm : Form := .call .nth [.const (int 1), .call .cons [ff 1 [], .call .cons [ff 0 [], .var 3]]]

example : eval W0 throwForm [] = .err (.thrown 7) [.call 1 [], .call 0 []] := by decide +kernel

example : (match compile W0 throwForm with | .ok _ => true | _ => false) = true := by decide +kernel

example : throwForm.Good ∧ throwForm.Short ∧ throwForm.Plain W0 [] := by
  refine ⟨by simp [throwForm, ff, Form.Good, GoodAll, B.unary, B.lisp],
    by simp [throwForm, ff, Form.Short, ShortAll, B.nary], ?_⟩
  simp [throwForm, ff, Form.Plain, PlainAll, Odd, B.relation, evalArgs, eval, Out.bind, applyFun, W0]

/-- Constants are computed by the compiler: `(< (+ 1 2) x)`. -/
example : compile W0 (.call .lt [.call .add [.const (int 1), .const (int 2)], .var 2]) =
    .ok [.push (int 3), .ref 2, .op2 .lt] := by decide +kernel

/-! ## Compiled code that does something else -/

/-- What compiled code does. -/
def run (W : World) (f : Form) : C (Out (List Val)) :=
  match compile W f with
  | .ok code => .ok (exec W code [] [])
  | .error => .error
  | .crash => .crash

/-- `(< x y)` with 0 and 2 ^ 32: the interpreter says no, compiled code says yes.  `rep_value_cmp` of
fixnums is their difference cut to an `int`. -/
theorem C94_far_violated :
    eval W0 (.call .lt [.var 0, .var 1]) [] = .ok .nil [] ∧
    run W0 (.call .lt [.var 0, .var 1]) = .ok (.ok [.t] []) := by decide +kernel

/-- `(nth 0 5)` and `(nthcdr 1 5)` are errors, nil when compiled; `(nthcdr 2 '(a . b))` is b, nil when
compiled. -/
theorem C94_nth_violated :
    eval W0 (.call .nth [.const (int 0), .var 2]) [] = .err .badArg [] ∧
    run W0 (.call .nth [.const (int 0), .var 2]) = .ok (.ok [.nil] []) ∧
    eval W0 (.call .nthcdr [.const (int 1), .var 2]) [] = .err .badArg [] ∧
    run W0 (.call .nthcdr [.const (int 1), .var 2]) = .ok (.ok [.nil] []) ∧
    eval W0 (.call .nthcdr [.const (int 2), .call .cons [.var 0, .var 2]]) [] = .ok (int 5) [] ∧
    run W0 (.call .nthcdr [.const (int 2), .call .cons [.var 0, .var 2]]) = .ok (.ok [.nil] []) := by
  decide +kernel

/-- `(car x (f))`: surplus arguments are not evaluated by compiled code. -/
theorem C94_surplus_violated :
    eval W0 (.call .car [.var 3, ff 1 []]) [] = .ok (int 1) [.call 1 []] ∧
    run W0 (.call .car [.var 3, ff 1 []]) = .ok (.ok [int 1] []) := by decide +kernel

/-- `(cadr)` isn't accepted by the compiler. -/
example : eval W0 (.call .cadr []) [] = .err .missing [] ∧ run W0 (.call .cadr []) = .error := by
  decide +kernel

/-- `(+ x)` is x, and isn't accepted by the compiler. -/
theorem C94_one_argument_violated :
    eval W0 (.call .add [.var 2]) [] = .ok (int 5) [] ∧
    run W0 (.call .add [.var 2]) = .error := by decide +kernel

/-- `(+ 1 x (f))` where x is a list: the interpreter calls f first, compiled code does not. -/
theorem C94_late_argument_violated :
    eval W0 (.call .add [.const (int 1), .var 3, ff 1 []]) [] = .err .badArg [.call 1 []] ∧
    run W0 (.call .add [.const (int 1), .var 3, ff 1 []]) = .ok (.err .badArg []) := by decide +kernel

/-- `(f (throw) (/ 1 0))` throws, and isn't accepted by the compiler. -/
theorem C94_fold_violated :
    eval W0 (ff 1 [ff 0 [], .call .div [.const (int 1), .const (int 0)]]) [] =
      .err (.thrown 7) [.call 0 []] ∧
    run W0 (ff 1 [ff 0 [], .call .div [.const (int 1), .const (int 0)]]) = .error := by
  decide +kernel

/-- `(/ 1 0 5)`: undefined behaviour in the interpreter, and in the compiler. -/
theorem C94_divide_violated :
    eval W0 (.call .div [.const (int 1), .const (int 0), .const (int 5)]) [] = .ub ∧
    run W0 (.call .div [.const (int 1), .const (int 0), .const (int 5)]) = .crash := by decide +kernel

/-- `(apply f 5)` is an error, a call without arguments when compiled; `(apply f)` where f is not a list
is an error, and compiled code takes an argument from below its stack. -/
theorem C94_apply_violated :
    eval W0 (.apply [.const (.ext 1), .var 2]) [] = .err .badArg [] ∧
    run W0 (.apply [.const (.ext 1), .var 2]) = .ok (.ok [int 1] [.call 1 []]) ∧
    eval W0 (.apply [.const (.ext 1)]) [] = .err .badArg [] ∧
    run W0 (.apply [.const (.ext 1)]) = .ok .ub := by decide +kernel

/-- `(log)` and `(log x y z)`: no code. -/
theorem C94_log_violated :
    eval W0 (.call .log [.var 2, .var 2, .var 2]) [] = .ok (int 1) [] ∧
    run W0 (.call .log [.var 2, .var 2, .var 2]) = .ok (.ok [] []) := by decide +kernel

/-- A constant `string-match` does not set the match data when compiled. -/
theorem C94_match_violated :
    eval W0 (.call .smatch [.const (.sym 1), .const (.sym 1)]) [] =
      .ok .t [.matched (.sym 1) (.sym 1)] ∧
    run W0 (.call .smatch [.const (.sym 1), .const (.sym 1)]) = .ok (.ok [.t] []) := by
  decide +kernel

/-- `(/= 1 2 1)` is true, compiled or not, though two of the numbers are the same. -/
theorem C94_unequal_violated :
    eval W0 (.call .ne [.const (int 1), .const (int 2), .const (int 1)]) [] = .ok .t [] ∧
    run W0 (.call .ne [.const (int 1), .const (int 2), .const (int 1)]) = .ok (.ok [.t] []) := by
  decide +kernel

end Rep.Prim
