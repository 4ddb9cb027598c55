/-
Loading libraries of modules: a module is made.
-/
import Verif.Load.Modules

namespace Rep.Load

variable {lib : String → Option File} {thunk : Nat → List Cmd} {N : List String}

theorem ModuleFile.inj {x y : String} {o o' : List String} {f : File}
    (h : ModuleFile N x o f) (h' : ModuleFile N y o' f) : x = y ∧ o = o' := by
  obtain ⟨b, hb, -⟩ := h.forms
  obtain ⟨b', hb', -⟩ := h'.forms
  rw [hb] at hb'
  injection hb' with h1
  injection h1 with h2 h3
  exact ⟨Option.some.inj h2, h3⟩

/-- Two modules of the library have different files. -/
theorem file_ne (hL : ModuleLib N lib) {x y : String} (hx : x ∈ N) (hy : y ∈ N) {f : File}
    (hf : lib (structureFile x) = some f) (hne : y ≠ x) : structureFile x ≠ structureFile y := by
  intro h
  obtain ⟨o, ho⟩ := hL x hx f hf
  obtain ⟨o', ho'⟩ := hL y hy f (h ▸ hf)
  exact hne (ho.inj ho').1.symm

theorem about_begin (hL : ModuleLib N lib) {x y : String} (hx : x ∈ N) (hy : y ∈ N) {f : File}
    (hf : lib (structureFile x) = some f) (hne : y ≠ x) : ¬ About y (.begin (structureFile x)) := by
  simp [About, file_ne hL hx hy hf hne]

theorem about_start {x y : String} (hne : y ≠ x) : ¬ About y (.start x) := by
  simp [About, Ne.symm hne]
theorem about_done {x y : String} (hne : y ≠ x) : ¬ About y (.done x) := by
  simp [About, Ne.symm hne]
theorem about_failed {x y : String} (hne : y ≠ x) : ¬ About y (.failed x) := by
  simp [About, Ne.symm hne]

/-- The state when the structure of a module has been made. -/
def started (st : St) (x : String) : St :=
  ((st.note (.begin (structureFile x))).newStruct (some x)).noteName .start (some x)

theorem started_log (st : St) (x : String) :
    (started st x).log = st.log ++ [.begin (structureFile x)] ++ [.start x] := rfl

theorem started_get (st : St) (x y : String) :
    (started st x).get y = if y = x then some st.structs.length else st.get y := by
  unfold started
  rw [noteName_get, get_newStruct]
  by_cases h : y = x
  · subst h; simp
  · simp [h, Ne.symm h]

theorem started_inv (hL : ModuleLib N lib) {x : String} (hx : x ∈ N) {f : File}
    (hf : lib (structureFile x) = some f) {st : St} (hi : Inv lib N st) (hn : st.get x = none) :
    Inv lib N (started st x) := by
  refine ⟨?_, ?_, ?_, ?_⟩
  · simp [started, noteName_structs]
  · intro y hy
    have h0 := hi.counts y hy
    rw [started_get, started_log]
    simp only [begins, fails, List.count_append] at h0 ⊢
    by_cases h : y = x
    · subst h
      rw [hn] at h0
      simp at h0 ⊢
      omega
    · have h1 := file_ne hL hx hy hf h
      rw [if_neg h]
      simp [List.count_singleton, h1]
      omega
  · intro y hy hg
    rw [started_get] at hg
    rw [started_log]
    by_cases h : y = x
    · subst h
      exact .inr ⟨_, [], rfl, by simp, by simp, by simp⟩
    · rw [if_neg h] at hg
      exact ((hi.made y hy hg).snoc (about_begin hL hx hy hf h)).snoc (about_start h)
  · rw [started_log]
    exact (hi.order.snoc fun m _ h => by cases h).snoc fun m _ h => by cases h

theorem body_inv {x : String} {f : File} {opens : List String}
    (hf : lib (structureFile x) = some f) (hm : ModuleFile N x opens f) {st s1 : St}
    (hL : ModuleLib N lib) (hx : x ∈ N)
    (hi : Inv lib N st) (hs : Inv lib N s1)
    (he : Ext N st.structs.length (started st x) s1) (ho : ∀ y ∈ opens, s1.get y ≠ none) :
    Inv lib N (s1.note (.body x)) := by
  refine ⟨hs.some, fun y hy => ?_, fun y hy h => (hs.made y hy h).snoc (by simp [About]), ?_⟩
  · have h0 := hs.counts y hy
    show begins (s1.log ++ _) y = fails (s1.log ++ _) y + if (s1.get y).isSome then 1 else 0
    simp only [begins, fails, List.count_append, List.count_singleton] at h0 ⊢
    simp
    omega
  · refine hs.order.snoc fun m hm0 hxm => ?_
    injection hxm with hxm
    subst hxm
    intro f' opens' hf' hm'
    rw [hf] at hf'
    cases hf'
    obtain ⟨-, rfl⟩ := hm.inj hm'
    obtain ⟨e1, hl, hc, hd⟩ := he.log
    rw [started_log] at hl
    refine ⟨st.log ++ [.begin (structureFile x)], e1, by rw [hl]; simp, ?_, ?_⟩
    · intro hin
      have := hc x hx _ hin (.inl rfl)
      rw [started_get, if_pos rfl] at this
      cases this
    · intro y hy hne
      have hyN := hm.opens y hy
      by_cases hg : (started st x).get y = none
      · refine .inl ?_
        rw [hl]
        exact List.mem_append_right _ (hd y hyN hg (ho y hy))
      · rw [started_get, if_neg hne] at hg
        rcases hi.made y hyN hg with h | h
        · refine .inl ?_
          rw [hl]
          simp [h]
        · exact .inr (h.snoc (about_begin hL hx hyN hf hne))

theorem body_ext {cur : Nat} {x : String} {s : St} : Ext N cur s (s.note (.body x)) :=
  .note _ fun _ _ => by simp [About]

/-- The module is complete. -/
theorem done_does (hL : ModuleLib N lib) {x : String} (hx : x ∈ N) {f : File}
    (hf : lib (structureFile x) = some f) {st s2 : St} {cur : Nat} (hi : Inv lib N st)
    (hn : st.get x = none) (hs : Inv lib N s2) (he : Ext N st.structs.length (started st x) s2) :
    Inv lib N (s2.note (.done x)) ∧ Ext N cur st (s2.note (.done x)) ∧ s2.get x ≠ none := by
  have hb : s2.get x ≠ none := he.keep x hx (by rw [started_get, if_pos rfl]; simp)
  refine ⟨⟨hs.some, fun y hy => ?_, fun y hy h => ?_, hs.order.snoc fun m _ h => nomatch h⟩, ?_, hb⟩
  · have h0 := hs.counts y hy
    show begins (s2.log ++ _) y = fails (s2.log ++ _) y + if (s2.get y).isSome then 1 else 0
    simp only [begins, fails, List.count_append, List.count_singleton] at h0 ⊢
    simp
    omega
  · by_cases hyx : y = x
    · subst hyx; exact .inl (by simp)
    · exact (hs.made y hy h).snoc (about_done hyx)
  · obtain ⟨e1, hl, hc, hd⟩ := he.log
    refine ⟨⟨[.begin (structureFile x), .start x] ++ e1 ++ [.done x], ?_, ?_, ?_⟩, ?_, ?_, ?_, ?_⟩
    · rw [note_log, hl, started_log]; simp
    · intro y hy e hin hab
      by_cases hyx : y = x
      · rw [hyx]; exact hn
      · simp only [List.mem_append, List.mem_cons, List.not_mem_nil, or_false] at hin
        rcases hin with ((rfl | rfl) | hin) | rfl
        · exact absurd hab (about_begin hL hx hy hf hyx)
        · exact absurd hab (about_start hyx)
        · have := hc y hy e hin hab
          rwa [started_get, if_neg hyx] at this
        · exact absurd hab (about_done hyx)
    · intro y hy h1 h2
      by_cases hyx : y = x
      · subst hyx; simp
      · have := hd y hy (by rw [started_get, if_neg hyx]; exact h1) h2
        simp [this]
    · intro y hy h1
      refine he.keep y hy ?_
      rw [started_get]
      by_cases hyx : y = x
      · simp [hyx]
      · rwa [if_neg hyx]
    · exact fun h => he.afters h
    · have := he.length
      simp [started, noteName_structs] at this
      simp; omega
    · intro i h0 _ hl2
      show s2.imports i = _
      have hlen : i < (started st x).structs.length := by
        simp [started, noteName_structs]; omega
      rw [he.frame i h0 (by omega) hlen, started, noteName_imports,
        newStruct_imports _ _ (by simpa using hl2)]
      rfl

/-- The module could not be made. -/
theorem failed_does (hL : ModuleLib N lib) {x : String} (hx : x ∈ N) {f : File}
    (hf : lib (structureFile x) = some f) {st s2 : St} {cur : Nat} (hi : Inv lib N st)
    (hn : st.get x = none) (hs : Inv lib N s2) (he : Ext N st.structs.length (started st x) s2) :
    Inv lib N ((s2.unname (some x)).note (.failed x)) ∧
    Ext N cur st ((s2.unname (some x)).note (.failed x)) := by
  have hb : s2.get x ≠ none := he.keep x hx (by rw [started_get, if_pos rfl]; simp)
  have hg : ∀ y, ((s2.unname (some x)).note (.failed x)).get y = if y = x then none else s2.get y := by
    intro y
    rw [note_get, get_unname]
    by_cases h : y = x
    · subst h; simp
    · simp [h, Ne.symm h]
  refine ⟨⟨hs.some, fun y hy => ?_, fun y hy h => ?_, ?_⟩, ?_⟩
  · have h0 := hs.counts y hy
    rw [hg, note_log, unname_log]
    simp only [begins, fails, List.count_append, List.count_singleton] at h0 ⊢
    by_cases hyx : y = x
    · subst hyx
      have : (s2.get y).isSome = true := Option.isSome_iff_ne_none.2 hb
      rw [this] at h0
      simp at h0 ⊢
      omega
    · rw [if_neg hyx]
      simp [Ne.symm hyx]
      omega
  · rw [hg] at h
    by_cases hyx : y = x
    · rw [if_pos hyx] at h; exact absurd rfl h
    · rw [if_neg hyx] at h
      rw [note_log, unname_log]
      exact (hs.made y hy h).snoc (about_failed hyx)
  · rw [note_log, unname_log]
    exact hs.order.snoc fun m _ h => nomatch h
  · obtain ⟨e1, hl, hc, hd⟩ := he.log
    refine ⟨⟨[.begin (structureFile x), .start x] ++ e1 ++ [.failed x], ?_, ?_, ?_⟩, ?_, ?_, ?_, ?_⟩
    · rw [note_log, unname_log, hl, started_log]; simp
    · intro y hy e hin hab
      by_cases hyx : y = x
      · rw [hyx]; exact hn
      · simp only [List.mem_append, List.mem_cons, List.not_mem_nil, or_false] at hin
        rcases hin with ((rfl | rfl) | hin) | rfl
        · exact absurd hab (about_begin hL hx hy hf hyx)
        · exact absurd hab (about_start hyx)
        · have := hc y hy e hin hab
          rwa [started_get, if_neg hyx] at this
        · exact absurd hab (about_failed hyx)
    · intro y hy h1 h2
      rw [hg] at h2
      by_cases hyx : y = x
      · rw [if_pos hyx] at h2; exact absurd rfl h2
      · rw [if_neg hyx] at h2
        have := hd y hy (by rw [started_get, if_neg hyx]; exact h1) h2
        simp [this]
    · intro y hy h1
      rw [hg]
      have hyx : y ≠ x := fun h => h1 (h ▸ hn)
      rw [if_neg hyx]
      refine he.keep y hy ?_
      rwa [started_get, if_neg hyx]
    · exact fun h => by
        have := he.afters h
        simpa using this
    · have := he.length
      simp [started, noteName_structs] at this
      simp; omega
    · intro i h0 _ hl2
      have hlen : i < (started st x).structs.length := by
        simp [started, noteName_structs]; omega
      show (s2.unname (some x)).imports i = _
      rw [unname_imports, he.frame i h0 (by omega) hlen, started, noteName_imports,
        newStruct_imports _ _ (by simpa using hl2)]
      rfl

/-- Making a module. -/
theorem module_does (hL : ModuleLib N lib) {n : Nat} (ih : Does lib thunk N n) {x : String}
    (hx : x ∈ N) {f : File} (hf : lib (structureFile x) = some f) {opens : List String}
    {body : List Cmd} (hm : ModuleFile N x opens f) (hb : tidyL N body = true) {st : St}
    {r : Val × St} {cur : Nat}
    (h : doDefine (run lib thunk n) (some x) opens body
      (st.note (.begin (structureFile x))) = some r)
    (hi : Inv lib N st) (ha : st.afters = []) (hn : st.get x = none) :
    Inv lib N r.2 ∧ Ext N cur st r.2 ∧ ∀ i, r.1 = .struct i → r.2.get x ≠ none := by
  have a0 := started_inv hL hx hf hi hn
  obtain ⟨r1, h1, h⟩ := Option.bind_eq_some_iff.1 h
  change run lib thunk n (.opens opens st.structs.length) (started st x) = some r1 at h1
  obtain ⟨a1, b1, c1⟩ := ih _ _ _ h1 a0 ha hm.opens
  have hlen : (started st x).structs.length = st.structs.length + 1 := by
    simp [started, noteName_structs]
  have hnew : (started st x).imports st.structs.length = [] := by
    rw [started, noteName_imports]; exact newStruct_imports_new (st.note _) _
  have c1 := c1 (by have := hi.some; omega) (by omega) (fun y _ hy => by rw [hnew] at hy; cases hy)
  obtain ⟨v1, s1⟩ := r1
  cases hv : v1 with
  | null =>
    simp only [hv] at h
    cases h
    obtain ⟨p, q⟩ := failed_does (cur := cur) hL hx hf hi hn a1 b1
    exact ⟨p, q, fun i h => nomatch h⟩
  | _ =>
    simp only [hv] at h
    have c1 := (c1 (by simp [hv])).2
    have a2 := body_inv hf hm hL hx hi a1 b1 c1
    have b2 := b1.trans (body_ext (cur := st.structs.length) (x := x)) (.inl rfl)
    obtain ⟨r2, h2, rfl⟩ := Option.map_eq_some_iff.1 h
    obtain ⟨a3, b3, -⟩ := ih _ _ _ h2 a2 (b2.afters ha) hb
    have b3 := b2.trans b3 (.inl rfl)
    obtain ⟨v2, s2⟩ := r2
    cases v2 with
    | null =>
      obtain ⟨p, q⟩ := failed_does (cur := cur) hL hx hf hi hn a3 b3
      exact ⟨p, q, fun i h => nomatch h⟩
    | _ =>
      obtain ⟨p, q, t⟩ := done_does (cur := cur) hL hx hf hi hn a3 b3
      exact ⟨p, q, fun _ _ => t⟩

end Rep.Load
