import Verif.Environ.Spec

/-
C93: the environment of processes.
-/

namespace Rep.Environ

open Rep.Regex (quote stringMatch Outcome NoNul looking_quote)

theorem quote_append (a b : Str) : quote (a ++ b) = quote a ++ quote b := by
  induction a with
  | nil => rfl
  | cons c a ih =>
    simp only [List.cons_append, quote]
    split <;> simp [ih]

theorem pattern_eq (name : Str) : pattern name = quote (name ++ [61]) := by
  rw [quote_append]
  rfl

/-- The string has this name. -/
def Has (name s : Str) : Prop := (name ++ [61]) <+: s

theorem parts_of {name s : Str} (hn : 61 ∉ name) :
    Has name s ↔ ∃ v, parts s = some (name, v) := by
  unfold Has parts
  constructor
  · rintro ⟨v, rfl⟩
    refine ⟨v, ?_⟩
    rw [if_pos (by simp)]
    have h1 : (name ++ [61] ++ v).takeWhile (· ≠ 61) = name := by
      induction name with
      | nil => simp
      | cons c name ih =>
        simp only [List.mem_cons, not_or] at hn
        simpa [Ne.symm hn.1] using ih hn.2
    have h2 : (name ++ [61] ++ v).dropWhile (· ≠ 61) = 61 :: v := by
      clear h1
      induction name with
      | nil => simp
      | cons c name ih =>
        simp only [List.mem_cons, not_or] at hn
        simpa [Ne.symm hn.1] using ih hn.2
    rw [h1, h2]
    rfl
  · rintro ⟨v, h⟩
    split at h
    · rename_i hm
      simp only [Option.some.injEq, Prod.mk.injEq] at h
      have hd : ∃ t, s.dropWhile (· ≠ 61) = 61 :: t := by
        clear h
        induction s with
        | nil => simp at hm
        | cons c s ih =>
          by_cases hc : c = 61
          · exact ⟨s, by simp [hc]⟩
          · simp only [List.mem_cons] at hm
            obtain ⟨t, ht⟩ := ih (hm.resolve_left (Ne.symm hc))
            exact ⟨t, by simpa [hc] using ht⟩
      obtain ⟨t, ht⟩ := hd
      have hs : s = s.takeWhile (· ≠ 61) ++ s.dropWhile (· ≠ 61) :=
        List.takeWhile_append_dropWhile.symm
      rw [h.1, ht] at hs
      exact ⟨t, by simp [hs]⟩
    · cases h

theorem parts_drop {name s : Str} (hn : 61 ∉ name) (h : Has name s) :
    parts s = some (name, s.drop (name.length + 1)) := by
  obtain ⟨v, hv⟩ := (parts_of hn).1 h
  obtain ⟨t, ht⟩ := h
  have : s.drop (name.length + 1) = t := by
    rw [← ht, show name.length + 1 = (name ++ [61]).length by simp, List.drop_left]
  rw [hv, this]
  unfold parts at hv
  split at hv
  · simp only [Option.some.injEq, Prod.mk.injEq] at hv
    have h2 : (name ++ [61] ++ t).dropWhile (· ≠ 61) = 61 :: t := by
      clear hv this ht
      induction name with
      | nil => simp
      | cons c name ih =>
        simp only [List.mem_cons, not_or] at hn
        simpa [Ne.symm hn.1] using ih hn.2
    rw [← ht, h2] at hv
    rw [← hv.2]
    rfl
  · cases hv

/-- What `string-looking-at` tells about one string. -/
theorem looking_has {name s : Str} (hn : Ok name) (hs : NoNul s) :
    ∃ F, ∀ depth fuel, 0 < depth → F ≤ fuel →
      (looking depth fuel (pattern name) s = some none ∧ ¬ Has name s) ∨
      (looking depth fuel (pattern name) s = some (some (name.length + 1)) ∧ Has name s) := by
  obtain ⟨F, h⟩ := looking_quote (s := name ++ [61]) (str := s) (fun c hc => by
    rcases List.mem_append.1 hc with hc | hc
    · exact hn.2.1 c hc
    · rw [List.mem_singleton.1 hc]
      decide) hs (by
    have := hn.2.2
    simp only [List.length_append, List.length_singleton]
    omega)
  refine ⟨F, fun depth fuel hd hf => ?_⟩
  rcases h depth fuel hd hf with ⟨e, hp⟩ | ⟨st, en, e, hp, h0⟩
  · left
    exact ⟨by simp [looking, pattern_eq, e], hp⟩
  · right
    exact ⟨by simp [looking, pattern_eq, e, h0], hp⟩

theorem value_nil (name : Str) : value name [] = none := rfl

theorem value_has {name s : Str} {env : List Str} (hn : 61 ∉ name) (h : Has name s) :
    value name (s :: env) = some (s.drop (name.length + 1)) := by
  unfold value
  rw [List.filterMap_cons_some (parts_drop hn h)]
  simp

theorem value_not {name s : Str} {env : List Str} (hn : 61 ∉ name) (h : ¬ Has name s) :
    value name (s :: env) = value name env := by
  unfold value
  cases hp : parts s with
  | none => rw [List.filterMap_cons_none hp]
  | some p =>
    obtain ⟨m, v⟩ := p
    rw [List.filterMap_cons_some hp, List.find?_cons_of_neg]
    simp only [beq_iff_eq]
    intro hm
    subst hm
    exact h ((parts_of hn).2 ⟨v, hp⟩)

theorem has_new {name n v : Str} (hn : 61 ∉ name) (hm : 61 ∉ n) :
    Has name (n ++ 61 :: v) ↔ n = name := by
  constructor
  · intro h
    obtain ⟨x, hx⟩ := (parts_of hn).1 h
    obtain ⟨y, hy⟩ := (parts_of (s := n ++ 61 :: v) hm).1 ⟨v, by simp⟩
    rw [hx] at hy
    simp only [Option.some.injEq, Prod.mk.injEq] at hy
    exact hy.1.symm
  · rintro rfl
    exact ⟨v, by simp⟩

theorem has_unique {a b s : Str} (ha : 61 ∉ a) (hb : 61 ∉ b) (h : Has a s) (h' : Has b s) : a = b := by
  obtain ⟨x, hx⟩ := (parts_of ha).1 h
  obtain ⟨y, hy⟩ := (parts_of hb).1 h'
  rw [hx] at hy
  simp only [Option.some.injEq, Prod.mk.injEq] at hy
  exact hy.1

theorem value_new {name n v : Str} {env : List Str} (hn : 61 ∉ name) (hm : 61 ∉ n) :
    value name ((n ++ 61 :: v) :: env) = if n = name then some v else value name env := by
  by_cases h : n = name
  · rw [if_pos h, value_has hn ((has_new hn hm).2 h)]
    subst h
    rw [show n ++ 61 :: v = (n ++ [61]) ++ v by simp, show n.length + 1 = (n ++ [61]).length by simp,
      List.drop_left]
  · rw [if_neg h, value_not hn (fun hh => h ((has_new hn hm).1 hh))]

/-- **C93** `getenv` returns the value of the name in `process-environment`. -/
theorem C93_getenv_partial (name : Str) (hn : Ok name) (env : List Str) (he : ∀ s ∈ env, NoNul s) :
    ∃ F, ∀ depth fuel, 0 < depth → F ≤ fuel → getenv depth fuel name env = some (value name env) := by
  induction env with
  | nil => exact ⟨0, fun _ _ _ _ => rfl⟩
  | cons s env ih =>
    obtain ⟨F1, h1⟩ := looking_has hn (he s List.mem_cons_self)
    obtain ⟨F2, h2⟩ := ih fun t ht => he t (List.mem_cons_of_mem _ ht)
    refine ⟨max F1 F2, fun depth fuel hd hf => ?_⟩
    have h2 := h2 depth fuel hd (by omega)
    unfold getenv at h2 ⊢
    rcases h1 depth fuel hd (by omega) with ⟨e, hh⟩ | ⟨e, hh⟩
    · rw [value_not hn.1 hh, ← h2]
      simp [getLoop, e]
    · rw [value_has hn.1 hh]
      simp [getLoop, e]

/-- What an operation does, without regard to how patterns are matched. -/
def setTo (n v : Str) : List Str → List Str × Bool
  | [] => ([], false)
  | s :: rest =>
    if (name_has n s) then ((n ++ 61 :: v) :: rest, true)
    else (s :: (setTo n v rest).1, (setTo n v rest).2)
where
  name_has (n s : Str) : Bool := (n ++ [61]).isPrefixOf s

theorem has_iff {n s : Str} : setTo.name_has n s = true ↔ Has n s := by
  simp [setTo.name_has, Has]

def Op.to (env : List Str) : Op → List Str
  | .set n v => if (setTo n v env).2 then (setTo n v env).1 else (n ++ 61 :: v) :: env
  | .unset n => env.filter fun s => !setTo.name_has n s

theorem setLoop_to {n v : Str} (hn : Ok n) (env : List Str) (he : ∀ s ∈ env, NoNul s) :
    ∃ F, ∀ depth fuel, 0 < depth → F ≤ fuel →
      setLoop depth fuel (pattern n) (n ++ 61 :: v) env = some (setTo n v env) := by
  induction env with
  | nil => exact ⟨0, fun _ _ _ _ => rfl⟩
  | cons s env ih =>
    obtain ⟨F1, h1⟩ := looking_has hn (he s List.mem_cons_self)
    obtain ⟨F2, h2⟩ := ih fun t ht => he t (List.mem_cons_of_mem _ ht)
    refine ⟨max F1 F2, fun depth fuel hd hf => ?_⟩
    have h2 := h2 depth fuel hd (by omega)
    rcases h1 depth fuel hd (by omega) with ⟨e, hh⟩ | ⟨e, hh⟩
    · simp [setLoop, e, h2, setTo, mt has_iff.1 hh]
    · simp [setLoop, e, setTo, has_iff.2 hh]

theorem run_to {o : Op} (ho : o.Ok) (env : List Str) (he : ∀ s ∈ env, NoNul s) :
    ∃ F, ∀ depth fuel, 0 < depth → F ≤ fuel → o.run depth fuel env = some (o.to env) := by
  cases o with
  | set n v =>
    obtain ⟨F, h⟩ := setLoop_to (v := v) ho.1 env he
    refine ⟨F, fun depth fuel hd hf => ?_⟩
    simp [Op.run, setenv, h depth fuel hd hf, Op.to]
  | unset n =>
    simp only [Op.run, Op.to]
    induction env with
    | nil => exact ⟨0, fun _ _ _ _ => rfl⟩
    | cons s env ih =>
      obtain ⟨F1, h1⟩ := looking_has ho (he s List.mem_cons_self)
      obtain ⟨F2, h2⟩ := ih fun t ht => he t (List.mem_cons_of_mem _ ht)
      refine ⟨max F1 F2, fun depth fuel hd hf => ?_⟩
      have h2 := h2 depth fuel hd (by omega)
      rcases h1 depth fuel hd (by omega) with ⟨e, hh⟩ | ⟨e, hh⟩
      · simp [unsetenv, e, h2, mt has_iff.1 hh]
      · simp [unsetenv, e, h2, has_iff.2 hh]

theorem new_nul {n v : Str} (hn : NoNul n) (hv : NoNul v) : NoNul (n ++ 61 :: v) := fun c hc => by
  rcases List.mem_append.1 hc with hc | hc
  · exact hn c hc
  · rcases List.mem_cons.1 hc with rfl | hc
    · decide
    · exact hv c hc

theorem setTo_nul {n v : Str} {env : List Str} (hn : NoNul n) (hv : NoNul v)
    (he : ∀ s ∈ env, NoNul s) : ∀ s ∈ (setTo n v env).1, NoNul s := by
  induction env with
  | nil => intro s hs; cases hs
  | cons t env ih =>
    intro s hs
    simp only [setTo] at hs
    split at hs
    · rcases List.mem_cons.1 hs with rfl | hs
      · exact new_nul hn hv
      · exact he s (List.mem_cons_of_mem _ hs)
    · rcases List.mem_cons.1 hs with rfl | hs
      · exact he s List.mem_cons_self
      · exact ih (fun u hu => he u (List.mem_cons_of_mem _ hu)) s hs

theorem to_nul {o : Op} (ho : o.Ok) {env : List Str} (he : ∀ s ∈ env, NoNul s) :
    ∀ s ∈ o.to env, NoNul s := by
  intro s hs
  cases o with
  | set n v =>
    simp only [Op.to] at hs
    split at hs
    · exact setTo_nul ho.1.2.1 ho.2 he s hs
    · rcases List.mem_cons.1 hs with rfl | hs
      · exact new_nul ho.1.2.1 ho.2
      · exact he s hs
  | unset n => exact he s (List.mem_filter.1 hs).1

theorem setTo_value {name n v : Str} (hn : 61 ∉ name) (hm : 61 ∉ n) (env : List Str) :
    (setTo n v env).2 = true → value name (setTo n v env).1 =
      if n = name then some v else value name env := by
  induction env with
  | nil => intro h; cases h
  | cons s env ih =>
    intro h
    simp only [setTo] at h ⊢
    split at h
    · rename_i hh
      rw [if_pos hh, value_new hn hm]
      split
      · rfl
      · rename_i hne
        rw [value_not hn]
        intro hs
        exact hne (has_unique hm hn (has_iff.1 hh) hs)
    · rename_i hh
      rw [if_neg hh]
      have ih := ih h
      by_cases hs : Has name s
      · rw [value_has hn hs, value_has hn hs, if_neg]
        rintro rfl
        exact hh (has_iff.2 hs)
      · rw [value_not hn hs, value_not hn hs, ih]

theorem to_value {name : Str} (hn : 61 ∉ name) {o : Op} (ho : o.Ok) (env : List Str) (os : List Op) :
    after name (value name env) (o :: os) = after name (value name (o.to env)) os := by
  cases o with
  | set n v =>
    simp only [after, Op.to]
    by_cases h : (setTo n v env).2 = true
    · rw [if_pos h, setTo_value hn ho.1.1 env h]
    · rw [if_neg h, value_new hn ho.1.1]
  | unset n =>
    simp only [after, Op.to]
    congr 1
    induction env with
    | nil => simp [value_nil]
    | cons s env ih =>
      by_cases hs : Has n s
      · rw [List.filter_cons_of_neg (by simp [has_iff.2 hs]), ← ih]
        split
        · rfl
        · rename_i hne
          rw [value_not hn]
          intro h
          exact hne (has_unique ho.1 hn hs h)
      · rw [List.filter_cons_of_pos (by simp [mt has_iff.1 hs])]
        by_cases h : Has name s
        · rw [value_has hn h, value_has hn h, if_neg]
          rintro rfl
          exact hs h
        · rw [value_not hn h, value_not hn h, ih]

/-- **C93** After any history of `setenv` and `unsetenv`, `getenv` returns for each name the value
that was last set, nil if it was removed since, or the value that it had before.  (Partial: names
have no `=`; see below.) -/
theorem C93_environment_partial (env : List Str) (he : ∀ s ∈ env, NoNul s) (os : List Op)
    (ho : ∀ o ∈ os, o.Ok) :
    ∃ env' F, (∀ depth fuel, 0 < depth → F ≤ fuel → runAll depth fuel env os = some env') ∧
      ∀ name, Ok name → ∃ G, ∀ depth fuel, 0 < depth → G ≤ fuel →
        getenv depth fuel name env' = some (after name (value name env) os) := by
  induction os generalizing env with
  | nil =>
    exact ⟨env, 0, fun _ _ _ _ => rfl, fun name hn => C93_getenv_partial name hn env he⟩
  | cons o os ih =>
    have h1 := ho o List.mem_cons_self
    obtain ⟨F1, e1⟩ := run_to h1 env he
    obtain ⟨env', F2, e2, e3⟩ := ih (o.to env) (to_nul h1 he) fun p hp => ho p (List.mem_cons_of_mem _ hp)
    refine ⟨env', max F1 F2, fun depth fuel hd hf => ?_, fun name hn => ?_⟩
    · simp [runAll, e1 depth fuel hd (by omega), e2 depth fuel hd (by omega)]
    · rw [to_value hn.1 h1]
      exact e3 name hn

/-- **C93** A subprocess gets the environment that `getenv` sees.  (Partial: unless it is empty.) -/
theorem C93_subprocess_partial (environ env : List Str) (h : env ≠ []) (name : Str) :
    value name (child environ env) = value name env := by
  rw [child, if_neg h]

theorem initial_eq (environ : List Str) : initial environ = environ.reverse := by
  unfold initial
  have : ∀ acc, environ.foldl (fun env s => s :: env) acc = environ.reverse ++ acc := by
    induction environ with
    | nil => intro acc; rfl
    | cons s l ih => intro acc; simp [ih]
  simp [this]

theorem value_append {name : Str} (hn : 61 ∉ name) (a b : List Str) :
    value name (a ++ b) = (value name a).or (value name b) := by
  induction a with
  | nil => simp [value_nil]
  | cons s a ih =>
    rw [List.cons_append]
    by_cases h : Has name s
    · rw [value_has hn h, value_has hn h]
      rfl
    · rw [value_not hn h, value_not hn h, ih]

theorem value_none {name : Str} (hn : 61 ∉ name) {env : List Str} :
    value name env = none ↔ ∀ s ∈ env, ¬ Has name s := by
  induction env with
  | nil => simp [value_nil]
  | cons s env ih =>
    by_cases h : Has name s
    · rw [value_has hn h]
      simp [h]
    · rw [value_not hn h, ih]
      simp [h]

/-- **C93** At the start `getenv` returns what the environment of the process has.  (Partial: if
it has each name once.) -/
theorem C93_start_partial (environ : List Str) (name : Str) (hn : 61 ∉ name)
    (hd : environ.Pairwise fun s t => ∀ p q, parts s = some p → parts t = some q → p.1 ≠ q.1) :
    value name (initial environ) = value name environ := by
  rw [initial_eq]
  induction environ with
  | nil => rfl
  | cons s l ih =>
    rw [List.pairwise_cons] at hd
    rw [List.reverse_cons, value_append hn, ih hd.2]
    by_cases h : Has name s
    · have : value name l = none := (value_none hn).2 fun t ht h' => by
        obtain ⟨x, hx⟩ := (parts_of hn).1 h
        obtain ⟨y, hy⟩ := (parts_of hn).1 h'
        exact hd.1 t ht _ _ hx hy rfl
      rw [this, value_has hn h, value_has hn h]
      rfl
    · rw [value_not hn h, value_not hn h, value_nil]
      cases value name l <;> rfl

/-! Cases: `A=1`, `B=2`. -/

def two : List Str := [[65, 61, 49], [66, 61, 50]]

/-- The hypotheses hold, and a name with special characters of patterns is a name like others. -/
example : (∀ s ∈ two, NoNul s) ∧ Ok [65, 43] ∧ (Op.set [65, 43] [61, 51]).Ok ∧
    after [65, 43] (value [65, 43] two) [.set [65, 43] [61, 51], .unset [65]] = some [61, 51] ∧
    after [65] (value [65] two) [.set [65, 43] [61, 51], .unset [65]] = none ∧
    after [66] (value [66] two) [.set [65, 43] [61, 51], .unset [65]] = some [50] ∧
    runAll 2048 1000 two [.set [65, 43] [61, 51], .unset [65]] =
      some [[65, 43, 61, 61, 51], [66, 61, 50]] := by
  refine ⟨?_, ⟨by decide, ?_, by decide⟩, ⟨⟨by decide, ?_, by decide⟩, ?_⟩, by decide, by decide, by decide, by decide +kernel⟩
  · show ∀ s ∈ two, ∀ c ∈ s, c ≠ 0
    decide
  all_goals (intro c; revert c; decide)

/-- **C93 (violated)** A name with `=`: setting `A=B` to `C` sets `A` to `B=C`. -/
theorem C93_name_with_equals_violated :
    runAll 2048 1000 two [.set [65, 61, 66] [67]] = some ([65, 61, 66, 61, 67] :: two) ∧
      getenv 2048 1000 [65] ([65, 61, 66, 61, 67] :: two) = some (some [66, 61, 67]) := by
  decide +kernel

/-- **C93 (violated)** When all variables have been removed, a subprocess gets the environment that this
process was started with. -/
theorem C93_empty_environment_violated :
    runAll 2048 1000 (initial two) [.unset [65], .unset [66]] = some [] ∧
      value [65] (child two []) = some [49] := by
  decide +kernel

/-- **C93 (violated)** If a name is twice in the environment, `getenv` returns the other value than
the C library. -/
theorem C93_duplicates_violated :
    getenv 2048 1000 [65] (initial [[65, 61, 49], [65, 61, 50]]) = some (some [50]) ∧
      value [65] [[65, 61, 49], [65, 61, 50]] = some [49] := by
  decide +kernel

end Rep.Environ
