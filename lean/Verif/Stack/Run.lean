import Verif.Stack.File
import Verif.Stack.Spec

/-
Execution stays within the heights.
-/

namespace Rep.Stack

open Rep.Compile

/-- An activation fits sizes; `d` is the number of values that it is waiting for. -/
structure Fit (L : Nat → H) (y : Sizes) (d : Nat) (a : Act) : Prop where
  whole : Ty L y.v (y.b + 1) (some (0, 1)) a.code none
  rest : Ty L y.v (y.b + 1) (some (a.stk.length + d, a.bst.length)) (a.code.drop a.pc) none
  v : a.stk.length + d ≤ y.v
  b : a.bst.length ≤ y.b + 1
  s : ∀ n, a.slots n ≠ none → n < slots a.code

theorem Ty.head {L : Nat → H} {M N : Nat} {a b : Option H} {i : I} {k : List I}
    (h : Ty L M N a (i :: k) b) : ∃ o, tr0 L a i = some o ∧ okH M N o = true ∧ Ty L M N o k b := by
  obtain ⟨o, h, l⟩ := h
  simp only [trs, tr] at h
  cases h0 : tr0 L a i with
  | none => simp [h0] at h
  | some o' =>
    rw [h0] at h
    simp only at h
    split at h
    · rename_i o2 h2
      split at h2
      · rename_i hok
        simp only [Option.some.injEq] at h2
        subst h2
        exact ⟨o', rfl, hok, o, h, l⟩
      · simp at h2
    · simp at h

theorem Ty.split {L : Nat → H} {M N : Nat} {a b : Option H} {k k' : List I}
    (h : Ty L M N a (k ++ k') b) : ∃ o, Ty L M N o k' b := by
  obtain ⟨o, h, l⟩ := h
  rw [trs_append] at h
  split at h
  · rename_i o' _
    exact ⟨o', o, h, l⟩
  · simp at h

theorem Ty.le_left {L : Nat → H} {M N : Nat} {a a' b : Option H} {k : List I} (h : Ty L M N a k b)
    (ha : Le a' a) : Ty L M N a' k b := by
  obtain ⟨o, h, l⟩ := h
  obtain ⟨o', h', l'⟩ := trs_mono ha h
  exact ⟨o', h', l'.trans l⟩

/-- The instruction that is next. -/
theorem Fit.head {L : Nat → H} {y : Sizes} {a : Act} {d : Nat} (h : Fit L y d a) {i : I}
    (hi : a.code[a.pc]? = some i) : ∃ o, tr0 L (some (a.stk.length + d, a.bst.length)) i = some o ∧
      okH y.v (y.b + 1) o = true ∧ Ty L y.v (y.b + 1) o (a.code.drop (a.pc + 1)) none := by
  obtain ⟨hlt, rfl⟩ := List.getElem?_eq_some_iff.1 hi
  have hr := h.rest
  rw [List.drop_eq_getElem_cons hlt] at hr
  exact hr.head

/-- There is one. -/
theorem Fit.inside {L : Nat → H} {y : Sizes} {a : Act} (h : Fit L y 0 a) : a.pc < a.code.length := by
  rcases Nat.lt_or_ge a.pc a.code.length with hlt | hge
  · exact hlt
  · exfalso
    have hr := h.rest
    rw [List.drop_eq_nil_of_le hge] at hr
    obtain ⟨o, h1, h2⟩ := hr
    simp only [trs, Option.some.injEq] at h1
    subst h1
    rcases h2 with h2 | h2 <;> simp at h2

/-- The next instruction is reached. -/
theorem Fit.next {L : Nat → H} {y : Sizes} {a a' : Act} {d d' : Nat} (h : Fit L y d a)
    (hc : a'.code = a.code) (hpc : a'.pc = a.pc + 1)
    (hok : okH y.v (y.b + 1) (some (a'.stk.length + d', a'.bst.length)) = true)
    (ht : Ty L y.v (y.b + 1) (some (a'.stk.length + d', a'.bst.length)) (a.code.drop (a.pc + 1)) none)
    (hs : ∀ n, a'.slots n ≠ none → n < slots a.code) : Fit L y d' a' := by
  simp only [okH, decide_eq_true_eq] at hok
  exact ⟨by rw [hc]; exact h.whole, by rw [hc, hpc]; exact ht, hok.1, hok.2, by rw [hc]; exact hs⟩

/-- A label is reached. -/
theorem Fit.goto {L : Nat → H} {y : Sizes} {a : Act} {d l p : Nat} {stk : List TVal}
    (h : Fit L y d a) (hf : a.code.findIdx? (· == .label l) = some p)
    (hl : L l = (stk.length, a.bst.length)) :
    Fit L y 0 { a with pc := p, stk := stk } := by
  obtain ⟨hlt, he, _⟩ := List.findIdx?_eq_some_iff_getElem.1 hf
  have he' : a.code[p] = .label l := by simpa using he
  have hw := h.whole
  rw [← List.take_append_drop p a.code] at hw
  obtain ⟨o, ho⟩ := hw.split
  rw [List.drop_eq_getElem_cons hlt, he'] at ho
  obtain ⟨o', h1, h2, h3⟩ := ho.head
  have e : o' = some (stk.length, a.bst.length) := by
    rcases o with _ | ⟨x, z⟩
    · simp only [tr0, Option.some.injEq] at h1
      rw [← h1, hl]
    · simp only [tr0] at h1
      split at h1
      · rename_i e
        simp only [Option.some.injEq] at h1
        rw [← h1, ← e, hl]
      · simp at h1
  subst e
  have hok := h2
  simp only [okH, decide_eq_true_eq] at hok
  refine ⟨h.whole, ?_, hok.1, hok.2, h.s⟩
  show Ty L y.v (y.b + 1) (some (stk.length + 0, a.bst.length)) (a.code.drop p) none
  rw [List.drop_eq_getElem_cons hlt, he']
  exact .cons (by simp [tr0, hl]) h2 h3

theorem foldl_max_le (l : List Nat) (a n : Nat) (h : n ≤ a ∨ n ∈ l) : n ≤ l.foldl max a := by
  induction l generalizing a with
  | nil => simpa using h
  | cons x l ih =>
    simp only [List.foldl_cons]
    apply ih
    simp only [List.mem_cons] at h
    rcases h with h | h | h
    · left; omega
    · left; omega
    · exact .inr h

theorem slot_lt {k : List I} {p n : Nat} (h : k[p]? = some (.slotSet n)) : n < slots k := by
  have hm := List.mem_of_getElem? h
  have := foldl_max_le (k.map slotOf) 0 (n + 1) (.inr (List.mem_map.2 ⟨_, hm, rfl⟩))
  exact this

/-- An instruction after which the next one is executed. -/
theorem Fit.go {L : Nat → H} {y : Sizes} {a a' : Act} {d : Nat} (h : Fit L y 0 a) {i : I}
    (hi : a.code[a.pc]? = some i) (hc : a'.code = a.code) (hpc : a'.pc = a.pc + 1)
    (he : ∀ o, tr0 L (some (a.stk.length, a.bst.length)) i = some o →
      o = some (a'.stk.length + d, a'.bst.length))
    (hs : ∀ n, a'.slots n ≠ none → n < slots a.code) : Fit L y d a' := by
  obtain ⟨o, h1, h2, h3⟩ := h.head hi
  have := he o h1
  subst this
  exact h.next hc hpc h2 h3 hs

theorem Fit.jump {L : Nat → H} {y : Sizes} {a : Act} (h : Fit L y 0 a) {i : I} {l p : Nat}
    {stk : List TVal} (hi : a.code[a.pc]? = some i)
    (hf : a.code.findIdx? (· == .label l) = some p)
    (he : ∀ o, tr0 L (some (a.stk.length, a.bst.length)) i = some o →
      L l = (stk.length, a.bst.length)) :
    Fit L y 0 { a with pc := p, stk := stk } := by
  obtain ⟨o, h1, _, _⟩ := h.head hi
  exact h.goto hf (he o h1)

theorem goto_next {m m' : MSt} {stk : List TVal} {l : Nat} (h : goto m stk l = .next m') :
    ∃ p, m.act.code.findIdx? (· == .label l) = some p ∧
      m' = { m with act := { m.act with pc := p, stk := stk } } := by
  unfold Compile.goto at h
  split at h
  · rename_i p hp
    simp only [Out.next.injEq] at h
    exact ⟨p, hp, h.symm⟩
  · cases h

/-- What one instruction does to the running activation and to those that wait. -/
theorem step_shape {P : Prims} {T : List (List I)} {m m' : MSt} (h : step P T m = .next m') :
    (∃ a', m' = ⟨a', m.ks, m'.st⟩ ∧ a'.code = m.act.code ∧
      ∀ (L : Nat → H) (y : Sizes), Fit L y 0 m.act → Fit L y 0 a') ∨
    (∃ k code env args, code ∈ T ∧ m' = ⟨enter code env args, k :: m.ks, m'.st⟩ ∧
      k.code = m.act.code ∧ ∀ (L : Nat → H) (y : Sizes), Fit L y 0 m.act → Fit L y 1 k) ∨
    (∃ k ks v, m.ks = k :: ks ∧ m' = ⟨{ k with stk := v :: k.stk }, ks, m'.st⟩) := by
  unfold step at h
  cases hi : m.act.code[m.act.pc]? with
  | none => simp [hi] at h
  | some i =>
    simp only [hi] at h
    have jmp : ∀ {stk : List TVal} {l : Nat}, goto m stk l = .next m' →
        (∀ L o, tr0 L (some (m.act.stk.length, m.act.bst.length)) i = some o →
          L l = (stk.length, m.act.bst.length)) →
        ∃ a', m' = ⟨a', m.ks, m'.st⟩ ∧ a'.code = m.act.code ∧
          ∀ (L : Nat → H) (y : Sizes), Fit L y 0 m.act → Fit L y 0 a' := by
      intro stk l hg he
      obtain ⟨p, hp, rfl⟩ := goto_next hg
      exact ⟨_, rfl, rfl, fun L y hf => hf.jump hi hp (he L)⟩
    cases i with
    | push k =>
      simp only [Out.next.injEq] at h
      subst h
      refine .inl ⟨_, rfl, rfl, fun L y hf => hf.go hi rfl rfl ?_ hf.s⟩
      intro o ho
      simp only [tr0, Option.some.injEq] at ho
      exact ho.symm
    | pop =>
      cases hs : m.act.stk with
      | nil => simp [hs] at h
      | cons v stk =>
        simp only [hs, Out.next.injEq] at h
        subst h
        refine .inl ⟨_, rfl, rfl, fun L y hf => hf.go hi rfl rfl ?_ hf.s⟩
        intro o ho
        simp only [hs, List.length_cons, tr0, Option.some.injEq] at ho
        exact ho.symm
    | popAll =>
      simp only [Out.next.injEq] at h
      subst h
      refine .inl ⟨_, rfl, rfl, fun L y hf => hf.go hi rfl rfl ?_ hf.s⟩
      intro o ho
      simp only [tr0, Option.some.injEq] at ho
      exact ho.symm
    | dup =>
      cases hs : m.act.stk with
      | nil => simp [hs] at h
      | cons v stk =>
        simp only [hs, Out.next.injEq] at h
        subst h
        refine .inl ⟨_, rfl, rfl, fun L y hf => hf.go hi rfl rfl ?_ hf.s⟩
        intro o ho
        simp only [hs, List.length_cons, tr0, Option.some.injEq] at ho
        exact ho.symm
    | refg x =>
      simp only at h
      split at h
      · simp only [Out.next.injEq] at h
        subst h
        refine .inl ⟨_, rfl, rfl, fun L y hf => hf.go hi rfl rfl ?_ hf.s⟩
        intro o ho
        simp only [tr0, Option.some.injEq] at ho
        exact ho.symm
      · cases h
    | setg x =>
      cases hs : m.act.stk with
      | nil => simp [hs] at h
      | cons v stk =>
        simp only [hs, Out.next.injEq] at h
        subst h
        refine .inl ⟨_, rfl, rfl, fun L y hf => hf.go hi rfl rfl ?_ hf.s⟩
        intro o ho
        simp only [hs, List.length_cons, tr0, Option.some.injEq] at ho
        exact ho.symm
    | bind =>
      cases hs : m.act.stk with
      | nil => simp [hs] at h
      | cons v stk =>
        simp only [hs] at h
        cases hb : m.act.bst with
        | nil => simp [hb] at h
        | cons b bst =>
          simp only [hb, Out.next.injEq] at h
          subst h
          refine .inl ⟨_, rfl, rfl, fun L y hf => hf.go hi rfl rfl ?_ hf.s⟩
          intro o ho
          simp only [hs, hb, List.length_cons, tr0, Option.some.injEq] at ho
          exact ho.symm
    | refn n =>
      simp only at h
      split at h
      · split at h
        · simp only [Out.next.injEq] at h
          subst h
          refine .inl ⟨_, rfl, rfl, fun L y hf => hf.go hi rfl rfl ?_ hf.s⟩
          intro o ho
          simp only [tr0, Option.some.injEq] at ho
          exact ho.symm
        · cases h
      · cases h
    | setn n =>
      cases hs : m.act.stk with
      | nil => simp [hs] at h
      | cons v stk =>
        simp only [hs] at h
        split at h
        · simp only [Out.next.injEq] at h
          subst h
          refine .inl ⟨_, rfl, rfl, fun L y hf => hf.go hi rfl rfl ?_ hf.s⟩
          intro o ho
          simp only [hs, List.length_cons, tr0, Option.some.injEq] at ho
          exact ho.symm
        · cases h
    | slotRef n =>
      simp only at h
      split at h
      · simp only [Out.next.injEq] at h
        subst h
        refine .inl ⟨_, rfl, rfl, fun L y hf => hf.go hi rfl rfl ?_ hf.s⟩
        intro o ho
        simp only [tr0, Option.some.injEq] at ho
        exact ho.symm
      · cases h
    | slotSet n =>
      cases hs : m.act.stk with
      | nil => simp [hs] at h
      | cons v stk =>
        simp only [hs, Out.next.injEq] at h
        subst h
        refine .inl ⟨_, rfl, rfl, fun L y hf => hf.go hi rfl rfl ?_ ?_⟩
        · intro o ho
          simp only [hs, List.length_cons, tr0, Option.some.injEq] at ho
          exact ho.symm
        · intro j hj
          by_cases hjn : j = n
          · subst hjn; exact slot_lt hi
          · simp only [hjn, if_false] at hj
            exact hf.s j hj
    | initBind =>
      simp only [Out.next.injEq] at h
      subst h
      refine .inl ⟨_, rfl, rfl, fun L y hf => hf.go hi rfl rfl ?_ hf.s⟩
      intro o ho
      simp only [tr0, Option.some.injEq] at ho
      exact ho.symm
    | unbind =>
      simp only at h
      cases hb : m.act.bst with
      | nil => simp [hb] at h
      | cons b bst =>
        simp only [hb, Out.next.injEq] at h
        subst h
        refine .inl ⟨_, rfl, rfl, fun L y hf => hf.go hi rfl rfl ?_ hf.s⟩
        intro o ho
        simp only [hb, List.length_cons, tr0, Option.some.injEq] at ho
        exact ho.symm
    | unbindall =>
      simp only at h
      cases hb : m.act.bst.reverse with
      | nil => simp [hb] at h
      | cons b bst =>
        simp only [hb, Out.next.injEq] at h
        subst h
        refine .inl ⟨_, rfl, rfl, fun L y hf => hf.go hi rfl rfl ?_ hf.s⟩
        intro o ho
        have hb' : m.act.bst.length = bst.length + 1 := by
          have := congrArg List.length hb
          simpa using this
        rw [hb'] at ho
        simp only [tr0, Option.some.injEq] at ho
        exact ho.symm
    | unbindall0 =>
      simp only [Out.next.injEq] at h
      subst h
      refine .inl ⟨_, rfl, rfl, fun L y hf => hf.go hi rfl rfl ?_ hf.s⟩
      intro o ho
      simp only [tr0, Option.some.injEq] at ho
      exact ho.symm
    | jmp l =>
      refine .inl (jmp h fun L o ho => ?_)
      simp only [tr0] at ho
      split at ho
      · assumption
      · cases ho
    | jn l =>
      cases hs : m.act.stk with
      | nil => simp [hs] at h
      | cons v stk =>
        simp only [hs] at h
        split at h
        · refine .inl (jmp h fun L o ho => ?_)
          simp only [hs, List.length_cons, tr0] at ho
          split at ho
          · assumption
          · cases ho
        · simp only [Out.next.injEq] at h
          subst h
          refine .inl ⟨_, rfl, rfl, fun L y hf => hf.go hi rfl rfl ?_ hf.s⟩
          intro o ho
          simp only [hs, List.length_cons, tr0] at ho
          split at ho
          · simp only [Option.some.injEq] at ho
            exact ho.symm
          · cases ho
    | jpt l =>
      cases hs : m.act.stk with
      | nil => simp [hs] at h
      | cons v stk =>
        simp only [hs] at h
        split at h
        · simp only [Out.next.injEq] at h
          subst h
          refine .inl ⟨_, rfl, rfl, fun L y hf => hf.go hi rfl rfl ?_ hf.s⟩
          intro o ho
          simp only [hs, List.length_cons, tr0] at ho
          split at ho
          · simp only [Option.some.injEq] at ho
            exact ho.symm
          · cases ho
        · refine .inl (jmp h fun L o ho => ?_)
          simp only [hs, List.length_cons, tr0] at ho
          split at ho
          · assumption
          · cases ho
    | jnp l =>
      cases hs : m.act.stk with
      | nil => simp [hs] at h
      | cons v stk =>
        simp only [hs] at h
        split at h
        · refine .inl (jmp h fun L o ho => ?_)
          simp only [hs, List.length_cons, tr0] at ho
          split at ho
          · assumption
          · cases ho
        · simp only [Out.next.injEq] at h
          subst h
          refine .inl ⟨_, rfl, rfl, fun L y hf => hf.go hi rfl rfl ?_ hf.s⟩
          intro o ho
          simp only [hs, List.length_cons, tr0] at ho
          split at ho
          · simp only [Option.some.injEq] at ho
            exact ho.symm
          · cases ho
    | jtp l =>
      cases hs : m.act.stk with
      | nil => simp [hs] at h
      | cons v stk =>
        simp only [hs] at h
        split at h
        · simp only [Out.next.injEq] at h
          subst h
          refine .inl ⟨_, rfl, rfl, fun L y hf => hf.go hi rfl rfl ?_ hf.s⟩
          intro o ho
          simp only [hs, List.length_cons, tr0] at ho
          split at ho
          · simp only [Option.some.injEq] at ho
            exact ho.symm
          · cases ho
        · refine .inl (jmp h fun L o ho => ?_)
          simp only [hs, List.length_cons, tr0] at ho
          split at ho
          · assumption
          · cases ho
    | label l =>
      simp only [Out.next.injEq] at h
      subst h
      refine .inl ⟨_, rfl, rfl, fun L y hf => hf.go hi rfl rfl ?_ hf.s⟩
      intro o ho
      simp only [tr0] at ho
      split at ho
      · simp only [Option.some.injEq] at ho
        exact ho.symm
      · cases ho
    | call n =>
      simp only at h
      cases hs : m.act.stk.drop n with
      | nil => simp [hs] at h
      | cons f stk' =>
        have hlen : m.act.stk.length - n = stk'.length + 1 := by
          have := congrArg List.length hs
          simpa using this
        simp only [hs] at h
        cases f with
        | atom _ => simp at h
        | pair _ _ => simp at h
        | prim p =>
          simp only at h
          split at h
          · simp only [Out.next.injEq] at h
            subst h
            refine .inl ⟨_, rfl, rfl, fun L y hf => hf.go hi rfl rfl ?_ hf.s⟩
            intro o ho
            simp only [tr0] at ho
            split at ho
            · simp only [Option.some.injEq, hlen] at ho
              exact ho.symm
            · cases ho
          · cases h
        | fn f =>
          simp only at h
          split at h
          · rename_i code hcode
            simp only [Out.next.injEq] at h
            subst h
            refine .inr (.inl ⟨_, code, _, _, List.mem_of_getElem? hcode, rfl, rfl,
              fun L y hf => hf.go hi rfl rfl ?_ hf.s⟩)
            intro o ho
            simp only [tr0] at ho
            split at ho
            · simp only [Option.some.injEq, hlen] at ho
              exact ho.symm
            · cases ho
          · cases h
    | reqArg =>
      simp only at h
      split at h
      · simp only [Out.next.injEq] at h
        subst h
        refine .inl ⟨_, rfl, rfl, fun L y hf => hf.go hi rfl rfl ?_ hf.s⟩
        intro o ho
        simp only [tr0, Option.some.injEq] at ho
        exact ho.symm
      · cases h
    | enclose n =>
      simp only [Out.next.injEq] at h
      subst h
      refine .inl ⟨_, rfl, rfl, fun L y hf => hf.go hi rfl rfl ?_ hf.s⟩
      intro o ho
      simp only [tr0, Option.some.injEq] at ho
      exact ho.symm
    | ret =>
      cases hs : m.act.stk with
      | nil => simp [hs] at h
      | cons v stk =>
        simp only [hs] at h
        cases hk : m.ks with
        | nil => simp [hk] at h
        | cons k ks =>
          simp only [hk, Out.next.injEq] at h
          subst h
          exact .inr (.inr ⟨k, ks, v, rfl, rfl⟩)
    | lexRef _ _ => simp at h
    | lexSet _ _ => simp at h
    | lexBind _ _ => simp at h

/-- An activation fits all the sizes that are declared for its code, and there are some. -/
structure Ok (codes : List (List I × Sizes)) (L : Nat → H) (d : Nat) (a : Act) : Prop where
  some : ∃ y, (a.code, y) ∈ codes
  all : ∀ y, (a.code, y) ∈ codes → Fit L y d a

structure Inv (codes : List (List I × Sizes)) (L : Nat → H) (m : MSt) : Prop where
  act : Ok codes L 0 m.act
  ks : ∀ k ∈ m.ks, Ok codes L 1 k

/-- The code that can be entered. -/
structure Codes (codes : List (List I × Sizes)) (L : Nat → H) (T : List (List I)) : Prop where
  ty : ∀ k y, (k, y) ∈ codes → Ty L y.v (y.b + 1) (some (0, 1)) k none
  table : ∀ k ∈ T, ∃ y, (k, y) ∈ codes

theorem enter_ok {codes : List (List I × Sizes)} {L : Nat → H} {T : List (List I)}
    (hc : Codes codes L T) {k : List I} (hk : ∃ y, (k, y) ∈ codes) (env : List Nat)
    (args : List TVal) : Ok codes L 0 (enter k env args) :=
  ⟨hk, fun y hy => ⟨hc.ty k y hy, hc.ty k y hy, Nat.zero_le _, Nat.succ_le_succ (Nat.zero_le _),
    fun _ h => absurd rfl h⟩⟩

theorem step_inv {codes : List (List I × Sizes)} {L : Nat → H} {P : Prims} {T : List (List I)}
    (hc : Codes codes L T) {m m' : MSt} (hm : Inv codes L m) (h : step P T m = .next m') :
    Inv codes L m' := by
  rcases step_shape h with ⟨a', e, ec, hf⟩ | ⟨k, code, env, args, hT, e, ec, hf⟩ | ⟨k, ks, v, ek, e⟩
  · rw [e]
    exact ⟨⟨by rw [ec]; exact hm.act.some, fun y hy => hf L y (hm.act.all y (by rw [← ec]; exact hy))⟩,
      hm.ks⟩
  · rw [e]
    refine ⟨enter_ok hc (hc.table code hT) env args, fun k' hk' => ?_⟩
    rcases List.mem_cons.1 hk' with rfl | hk'
    · exact ⟨by rw [ec]; exact hm.act.some,
        fun y hy => hf L y (hm.act.all y (by rw [← ec]; exact hy))⟩
    · exact hm.ks k' hk'
  · rw [e]
    have hk := hm.ks k (by rw [ek]; exact List.mem_cons_self)
    refine ⟨⟨hk.some, fun y hy => ?_⟩, fun k' hk' => hm.ks k' (by rw [ek]; exact List.mem_cons_of_mem _ hk')⟩
    obtain ⟨h1, h2, h3, h4, h5⟩ := hk.all y hy
    exact ⟨h1, h2, h3, h4, h5⟩

theorem reach_inv {codes : List (List I × Sizes)} {L : Nat → H} {P : Prims} {T : List (List I)}
    (hc : Codes codes L T) {m0 m : MSt} (h0 : Inv codes L m0) (h : Reach P T m0 m) :
    Inv codes L m := by
  induction h with
  | start => exact h0
  | step _ hs ih => exact step_inv hc ih hs

end Rep.Stack
