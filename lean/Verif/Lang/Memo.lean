/-
Property C39: `memoize` (lisp/rep/util/memoize.jl).
-/
import Verif.Tables.Props

namespace Rep.Memo

open Rep.Tables

variable {K W : Type}

/-- The body of a function that is pure but for calls of its own memoized version (as in
`(define fib (memoize (lambda (n) … (fib (- n 1)) …)))`): a value, or a call and what is
done with its value.  Values are `none`, which stands for nil, or not nil. -/
inductive Body (K W : Type) where
  | ret (v : Option W)
  | ask (k : K) (next : Option W → Body K W)

/-! ### Model -/

/-- The cache, and the argument lists with which the function has been called (oldest first). -/
structure State (K W : Type) where
  cache : Table K (Option W)
  calls : List K

/-- Run a body, given what a call of the memoized function does. -/
def runBody (call : K → State K W → Option (Option W × State K W)) : Body K W → State K W → Option (Option W × State K W)
  | .ret v, s => some (v, s)
  | .ask k next, s => (call k s).bind fun r => runBody call (next r.1) r.2

/-- lisp/rep/util/memoize.jl:44-46, the function that `memoize` returns:
`(or (table-ref cache args) (table-set cache args (apply f args)))`.  The first argument
bounds the depth of recursion; `none` is a recursion that is deeper. -/
def memo (hash : K → Nat) (eqv : K → K → Bool) (f : K → Body K W) : Nat → K → State K W → Option (Option W × State K W)
  | 0, _, _ => none
  | n + 1, k, s =>
      match (ref hash eqv s.cache k).getD none with
      | some w => some (some w, s)
      | none =>
          (runBody (memo hash eqv f n) (f k) { s with calls := s.calls ++ [k] }).map fun r =>
            (r.1, { r.2 with cache := set hash eqv r.2.cache k r.1 })

/-- A sequence of calls. -/
def memoAll (hash : K → Nat) (eqv : K → K → Bool) (f : K → Body K W) (n : Nat) : List K → State K W → Option (List (Option W) × State K W)
  | [], s => some ([], s)
  | k :: ks, s => (memo hash eqv f n k s).bind fun r => (memoAll hash eqv f n ks r.2).map fun q => (r.1 :: q.1, q.2)

/-- lisp/rep/util/memoize.jl:42 a new cache -/
def start : State K W := ⟨make, []⟩

/-! ### Specification -/

/-- The value of a body when calls have the values `g`. -/
def Body.value (g : K → Option W) : Body K W → Option W
  | .ret v => v
  | .ask k next => Body.value g (next (g k))

/-- The calls that a body makes. -/
def Body.asks (g : K → Option W) : Body K W → List K
  | .ret _ => []
  | .ask k next => k :: Body.asks g (next (g k))

/-- `g` is the function that `f` computes without a cache: its values are those of the
bodies, the recursion ends, and equal arguments have the same value. -/
structure Computes (eqv : K → K → Bool) (f : K → Body K W) (g : K → Option W) (depth : K → Nat) : Prop where
  value : ∀ k, (f k).value g = g k
  ends : ∀ k, ∀ j ∈ (f k).asks g, depth j < depth k
  pure : ∀ a b, eqv a b = true → g a = g b ∧ depth a = depth b

/-! ### Proofs -/

variable {hash : K → Nat} {eqv : K → K → Bool}

def countOf (eqv : K → K → Bool) (k : K) (calls : List K) : Nat := calls.countP fun j => eqv k j

/-- `P` holds of the keys whose calls have not returned yet. -/
structure Good (hash : K → Nat) (eqv : K → K → Bool) (g : K → Option W) (P : K → Prop) (s : State K W) : Prop where
  inv : ∃ ops, Inv hash eqv s.cache ops
  right : ∀ k v, ref hash eqv s.cache k = some v → v = g k
  once : ∀ k, g k ≠ none → countOf eqv k s.calls ≤ 1
  known : ∀ k, g k ≠ none → 1 ≤ countOf eqv k s.calls → ref hash eqv s.cache k = some (g k) ∨ P k

theorem ref_set (hc : Compatible hash eqv) {t : Table K (Option W)} (h : ∃ ops, Inv hash eqv t ops) (k j : K) (v : Option W) :
    ref hash eqv (set hash eqv t k v) j = if eqv j k then some v else ref hash eqv t j := by
  obtain ⟨ops, h⟩ := h
  rw [(inv_ref hc (inv_set hc h k v) j).1, bindingOf_concat, (inv_ref hc h j).1]

theorem memo_good (hc : Compatible hash eqv) {f : K → Body K W} {g : K → Option W} {depth : K → Nat} (hf : Computes eqv f g depth) :
    ∀ (n : Nat) (k : K), depth k < n → ∀ (P : K → Prop), (∀ j, P j → depth k < depth j) → ∀ s, Good hash eqv g P s →
      ∃ s', memo hash eqv f n k s = some (g k, s') ∧ Good hash eqv g P s' := by
  intro n
  induction n with
  | zero => intro k h; omega
  | succ n ih =>
    intro k hk P hP s hs
    unfold memo
    cases hr : (ref hash eqv s.cache k).getD none with
    | some w =>
      have : ref hash eqv s.cache k = some (some w) := by
        cases h : ref hash eqv s.cache k with
        | none => rw [h] at hr; simp at hr
        | some v => rw [h] at hr; simp at hr; rw [hr]
      exact ⟨s, by rw [← hs.right k _ this], hs⟩
    | none =>
      -- the body
      have body : ∀ (b : Body K W), (∀ j ∈ b.asks g, depth j < depth k) → ∀ s, Good hash eqv g (fun j => P j ∨ eqv j k = true) s →
          ∃ s', runBody (memo hash eqv f n) b s = some (b.value g, s') ∧ Good hash eqv g (fun j => P j ∨ eqv j k = true) s' := by
        intro b
        induction b with
        | ret v => intro _ s hs; exact ⟨s, rfl, hs⟩
        | ask j next ihb =>
          intro hj s hs
          have hd : depth j < depth k := hj j (by simp [Body.asks])
          obtain ⟨s', h1, h2⟩ := ih j (by omega) (fun j => P j ∨ eqv j k = true) (by
            rintro i (hi | hi)
            · have := hP i hi; omega
            · rw [(hf.pure _ _ hi).2]; exact hd) s hs
          obtain ⟨s'', h3, h4⟩ := ihb (g j) (fun i hi => hj i (by simp [Body.asks, hi])) s' h2
          exact ⟨s'', by simp only [runBody, h1, Option.bind_some]; exact h3, h4⟩
      have hs1 : Good hash eqv g (fun j => P j ∨ eqv j k = true) { s with calls := s.calls ++ [k] } := by
        refine ⟨hs.inv, hs.right, ?_, ?_⟩
        · intro j hj
          simp only [countOf, List.countP_append, List.countP_cons, List.countP_nil, Nat.zero_add]
          by_cases he : eqv j k = true
          · -- it was never called before
            have h0 : countOf eqv j s.calls = 0 := by
              rcases Nat.eq_zero_or_pos (countOf eqv j s.calls) with h | h
              · exact h
              exfalso
              rcases hs.known j hj h with h | h
              · have hkj : ref hash eqv s.cache k = ref hash eqv s.cache j := by
                  obtain ⟨ops, hi⟩ := hs.inv
                  rw [(inv_ref hc hi k).1, (inv_ref hc hi j).1]
                  unfold bindingOf
                  congr 1
                  funext cur op
                  have hcong : ∀ i, eqv k i = eqv j i := fun i => by
                    rw [Bool.eq_iff_iff]
                    exact ⟨fun h => hc.trans _ _ _ he h, fun h => hc.trans _ _ _ (hc.symm _ _ he) h⟩
                  cases op <;> simp only [hcong]
                rw [hkj, h] at hr
                exact hj hr
              · have := hP j h
                rw [(hf.pure _ _ he).2] at this
                omega
            have h0' : List.countP (fun i => eqv j i) s.calls = 0 := h0
            rw [h0', if_pos he]; exact Nat.le_refl _
          · rw [if_neg he]; exact hs.once j hj
        · intro j hj h1
          by_cases he : eqv j k = true
          · exact Or.inr (Or.inr he)
          · simp only [countOf, List.countP_append, List.countP_cons, List.countP_nil, Nat.zero_add, if_neg he] at h1
            rcases hs.known j hj h1 with h | h
            · exact Or.inl h
            · exact Or.inr (Or.inl h)
      obtain ⟨s', h1, h2⟩ := body (f k) (hf.ends k) _ hs1
      rw [hf.value] at h1
      refine ⟨{ s' with cache := set hash eqv s'.cache k (g k) }, by simp only [h1, Option.map_some], ?_⟩
      obtain ⟨ops, hi⟩ := h2.inv
      refine ⟨⟨_, inv_set hc hi k (g k)⟩, ?_, h2.once, ?_⟩
      · intro j v hv
        rw [ref_set hc h2.inv] at hv
        split at hv
        · rename_i he
          cases hv
          exact (hf.pure _ _ he).1.symm
        · exact h2.right j v hv
      · intro j hj hc1
        rw [ref_set hc h2.inv]
        by_cases he : eqv j k = true
        · rw [if_pos he, (hf.pure _ _ he).1]; exact Or.inl rfl
        · rw [if_neg he]
          rcases h2.known j hj hc1 with h | h | h
          · exact Or.inl h
          · exact Or.inr h
          · exact absurd h he

theorem memoAll_good (hc : Compatible hash eqv) {f : K → Body K W} {g : K → Option W} {depth : K → Nat} (hf : Computes eqv f g depth)
    (n : Nat) : ∀ (ks : List K), (∀ k ∈ ks, depth k < n) → ∀ s, Good hash eqv g (fun _ => False) s →
      ∃ s', memoAll hash eqv f n ks s = some (ks.map g, s') ∧ Good hash eqv g (fun _ => False) s' := by
  intro ks
  induction ks with
  | nil => intro _ s hs; exact ⟨s, rfl, hs⟩
  | cons k ks ih =>
    intro hk s hs
    obtain ⟨s1, h1, h2⟩ := memo_good hc hf n k (hk k (by simp)) (fun _ => False) (fun _ h => h.elim) s hs
    obtain ⟨s2, h3, h4⟩ := ih (fun j hj => hk j (by simp [hj])) s1 h2
    exact ⟨s2, by simp only [memoAll, h1, Option.bind_some, h3, Option.map_some, List.map_cons], h4⟩

/-- **C39**: for any sequence of calls of the memoized function, also when the function
calls its memoized version, the values are those of the function without a cache. -/
theorem C39_values (hc : Compatible hash eqv) (f : K → Body K W) (g : K → Option W) (depth : K → Nat) (hf : Computes eqv f g depth)
    (ks : List K) : ∃ n s', memoAll hash eqv f n ks start = some (ks.map g, s') := by
  obtain ⟨n, hn⟩ : ∃ n, ∀ k ∈ ks, depth k < n := by
    induction ks with
    | nil => exact ⟨0, by simp⟩
    | cons k ks ih =>
      obtain ⟨n, hn⟩ := ih
      refine ⟨n + depth k + 1, ?_⟩
      intro j hj
      rcases List.mem_cons.mp hj with rfl | hj
      · omega
      · have := hn j hj; omega
  obtain ⟨s', h, _⟩ := memoAll_good hc hf n ks hn start ⟨⟨[], inv_run hc []⟩, by
      intro k v h; simp [start, ref, lookup, make] at h, by simp [start, countOf], by simp [start, countOf]⟩
  exact ⟨n, s', h⟩

/-- **C39** (partial): and the function is called at most once for each argument list on
which its value is not nil (equal lists count as one), whenever the bound on the depth lets
the calls return. -/
theorem C39_once_partial (hc : Compatible hash eqv) (f : K → Body K W) (g : K → Option W) (depth : K → Nat) (hf : Computes eqv f g depth)
    (ks : List K) (n : Nat) (hn : ∀ k ∈ ks, depth k < n) :
    ∃ s', memoAll hash eqv f n ks start = some (ks.map g, s') ∧
      ∀ k, g k ≠ none → (s'.calls.countP fun j => eqv k j) ≤ 1 := by
  obtain ⟨s', h, hg⟩ := memoAll_good hc hf n ks hn start ⟨⟨[], inv_run hc []⟩, by
      intro k v h; simp [start, ref, lookup, make] at h, by simp [start, countOf], by simp [start, countOf]⟩
  exact ⟨s', h, hg.once⟩

/-- C39 is false of a function that returns nil: it is called again each time. -/
theorem C39_violated : ∀ (m : Nat), ∃ s', memoAll (fun n : Nat => n) (fun a b => a == b) (fun _ => (.ret none : Body Nat Nat)) 1
    (List.replicate m 5) start = some (List.replicate m none, s') ∧ s'.calls = List.replicate m 5 := by
  intro m
  have hc : Compatible (fun n : Nat => n) (fun a b : Nat => a == b) :=
    ⟨by simp, by simp, by simp, by simp⟩
  have key : ∀ (m : Nat) (s : State Nat Nat), (∃ ops, Inv (fun n : Nat => n) (fun a b : Nat => a == b) s.cache ops) →
      (ref (fun n : Nat => n) (fun a b : Nat => a == b) s.cache 5).getD none = none →
      ∃ s', memoAll (fun n : Nat => n) (fun a b => a == b) (fun _ => (.ret none : Body Nat Nat)) 1
        (List.replicate m 5) s = some (List.replicate m none, s') ∧ s'.calls = s.calls ++ List.replicate m 5 := by
    intro m
    induction m with
    | zero => intro s _ _; exact ⟨s, rfl, by simp⟩
    | succ m ih =>
      intro s hi hr
      let s1 : State Nat Nat := ⟨set (fun n : Nat => n) (fun a b : Nat => a == b) s.cache 5 none, s.calls ++ [5]⟩
      have e1 : memo (fun n : Nat => n) (fun a b => a == b) (fun _ => (.ret none : Body Nat Nat)) 1 5 s = some (none, s1) := by
        simp only [memo, hr, runBody, Option.map_some, s1]
      obtain ⟨s', h1, h2⟩ := ih s1 (by obtain ⟨ops, hi⟩ := hi; exact ⟨_, inv_set hc hi 5 none⟩) (by
        simp only [s1]; rw [ref_set hc hi]; simp)
      refine ⟨s', ?_, ?_⟩
      · simp only [List.replicate_succ, memoAll, e1, Option.bind_some, h1, Option.map_some]
      · rw [h2]; simp [s1, List.replicate_succ]
  obtain ⟨s', h1, h2⟩ := key m start ⟨[], inv_run hc []⟩ (by simp [start, ref, lookup, make])
  exact ⟨s', h1, by rw [h2]; simp [start]⟩

/-! The Fibonacci function meets the hypotheses. -/

def fib : Nat → Nat
  | 0 => 0
  | 1 => 1
  | n + 2 => fib (n + 1) + fib n

def fibBody : Nat → Body Nat Nat
  | 0 => .ret (some 0)
  | 1 => .ret (some 1)
  | n + 2 => .ask (n + 1) fun a => .ask n fun b => .ret (some (a.getD 0 + b.getD 0))

example : Computes (fun a b : Nat => a == b) fibBody (fun n => some (fib n)) (fun n => n) := by
  refine ⟨?_, ?_, by simp⟩
  · intro k; match k with | 0 => rfl | 1 => rfl | n + 2 => rfl
  · intro k; match k with | 0 => simp [fibBody, Body.asks] | 1 => simp [fibBody, Body.asks] | n + 2 => simp [fibBody, Body.asks]

end Rep.Memo
