/-
Property C73: obarrays are sets of symbols in which each name occurs once.
-/
import Verif.Symtab.Spec
import Mathlib.Data.List.Perm.Subperm
import Mathlib.Data.List.Nodup
import Mathlib.Tactic.Tauto

namespace Rep.Symtab

open Rep.Symtab.Spec

/-! ### Chains -/

/-- A chain of symbols. -/
def IsChain (next : Nat → Link) : Link → List Nat → Prop
  | l, [] => l = .last
  | l, s :: ss => l = .sym s ∧ IsChain next (next s) ss

theorem chain_congr {next next' : Nat → Link} : ∀ {l : List Nat} {k : Link}, (∀ x ∈ l, next' x = next x) → IsChain next k l → IsChain next' k l := by
  intro l
  induction l with
  | nil => intro k _ h; exact h
  | cons s l ih =>
    intro k hc h
    refine ⟨h.1, ?_⟩
    rw [hc s (by simp)]
    exact ih (fun x hx => hc x (by simp [hx])) h.2

theorem findLoop_eq {st : St} {name : List UInt8} : ∀ (l : List Nat) (n : Nat) (k : Link), l.length ≤ n → IsChain st.next k l →
    findLoop st name n k = match l.find? (fun s => cstr (st.name s) = cstr name) with | some s => .sym s | none => .nil := by
  intro l
  induction l with
  | nil => intro n k _ h; rw [h]; cases n <;> rfl
  | cons s l ih =>
    intro n k hn h
    obtain ⟨rfl, h⟩ := h
    cases n with
    | zero => simp at hn
    | succ n =>
      rw [findLoop, List.find?_cons]
      by_cases he : cstr (st.name s) = cstr name
      · rw [if_pos he.symm]; simp [he]
      · rw [if_neg (fun h => he h.symm)]; simp only [he, decide_false]
        exact ih n _ (by simpa using hn) h

/-- What the obarrays consist of. -/
structure R (st : St) (a : Abs) (ch : Nat → Nat → List Nat) : Prop where
  size : ∀ ob, 0 < st.size ob
  count : a.count = st.count
  name : a.name = st.name
  keyword : a.keyword = st.keyword
  counter : a.counter = st.counter
  chain : ∀ ob i, IsChain st.next (st.bucket ob i) (ch ob i)
  place : ∀ ob i, ∀ s ∈ ch ob i, s < st.count ∧ i = index st ob (st.name s)
  nodup : ∀ ob i, (ch ob i).Nodup
  disj : ∀ ob ob' i i' s, s ∈ ch ob i → s ∈ ch ob' i' → ob = ob' ∧ i = i'
  free : ∀ s, (∀ ob i, s ∉ ch ob i) → st.next s = .null
  names : ∀ ob i, ∀ s ∈ ch ob i, ∀ s' ∈ ch ob i, cstr (st.name s) = cstr (st.name s') → s = s'
  mem : ∀ ob s, s ∈ a.content ob ↔ ∃ i, s ∈ ch ob i

theorem R.next_ne {st : St} {a : Abs} {ch : Nat → Nat → List Nat} (h : R st a ch) {ob i s : Nat} (hs : s ∈ ch ob i) : st.next s ≠ .null := by
  have : ∀ (l : List Nat) (k : Link), IsChain st.next k l → s ∈ l → st.next s ≠ .null := by
    intro l
    induction l with
    | nil => intro k _ h; cases h
    | cons x l ih =>
      intro k hc hm
      rcases List.mem_cons.mp hm with rfl | hm
      · cases l with
        | nil => rw [hc.2]; exact fun h => nomatch h
        | cons y l => rw [hc.2.1]; exact fun h => nomatch h
      · exact ih _ hc.2 hm
  exact this _ _ (h.chain ob i) hs

theorem hash_cstr {s s' : List UInt8} (h : cstr s = cstr s') : hash s = hash s' := by unfold hash; rw [h]

theorem length_le {l : List Nat} {n : Nat} (hn : l.Nodup) (hb : ∀ s ∈ l, s < n) : l.length ≤ n := by
  have := (List.Nodup.subperm hn (l₂ := List.range n) fun s hs => List.mem_range.mpr (hb s hs)).length_le
  rwa [List.length_range] at this

theorem R.find_eq {st : St} {a : Abs} {ch : Nat → Nat → List Nat} (h : R st a ch) (name : List UInt8) (ob : Nat) :
    findSymbol st name ob = match a.lookup name ob with | some s => .sym s | none => .nil := by
  unfold findSymbol
  rw [if_neg (by have := h.size ob; omega)]
  let l := ch ob (index st ob name)
  have hl : l.length ≤ st.count := length_le (h.nodup _ _) (fun s hs => (h.place _ _ s hs).1)
  rw [findLoop_eq l _ _ hl (h.chain _ _)]
  have key : l.find? (fun s => cstr (st.name s) = cstr name) = a.lookup name ob := by
    unfold Abs.lookup
    rw [h.name]
    cases h1 : l.find? (fun s => cstr (st.name s) = cstr name) with
    | none =>
      symm
      rw [List.find?_eq_none] at h1 ⊢
      intro s hs
      rw [h.mem] at hs
      obtain ⟨i, hs⟩ := hs
      have hp := (h.place ob i s hs).2
      intro he
      simp only [decide_eq_true_eq] at he
      have : index st ob (st.name s) = index st ob name := by unfold index; rw [hash_cstr he]
      rw [hp, this] at hs
      exact h1 s hs (by simpa using he)
    | some s =>
      have hs := List.mem_of_find?_eq_some h1
      have he := List.find?_some h1
      simp only [decide_eq_true_eq] at he
      cases h2 : (a.content ob).find? (fun s => cstr (st.name s) = cstr name) with
      | none =>
        rw [List.find?_eq_none] at h2
        exact absurd (by simpa using he) (h2 s ((h.mem ob s).mpr ⟨_, hs⟩))
      | some s' =>
        have hs' := List.mem_of_find?_eq_some h2
        have he' := List.find?_some h2
        simp only [decide_eq_true_eq] at he'
        obtain ⟨i, hi⟩ := (h.mem ob s').mp hs'
        have hp := (h.place ob i s' hi).2
        have : index st ob (st.name s') = index st ob name := by unfold index; rw [hash_cstr he']
        rw [hp, this] at hi
        rw [h.names _ _ s hs s' hi (by rw [he, he'])]
  rw [key]

theorem R.make {st : St} {a : Abs} {ch : Nat → Nat → List Nat} (h : R st a ch) (name : List UInt8) : R (makeSymbol st name).1 (a.make name) ch := by
  have hne : ∀ ob i, ∀ s ∈ ch ob i, s ≠ st.count := by intro ob i s hs he; have := (h.place ob i s hs).1; omega
  refine ⟨h.size, by show a.count + 1 = st.count + 1; rw [h.count], ?_, ?_, h.counter, ?_, ?_, h.nodup, h.disj, ?_, ?_, h.mem⟩
  · show (fun i => if i = a.count then name else a.name i) = fun i => if i = st.count then name else st.name i
    rw [h.count, h.name]
  · show (fun i => if i = a.count then false else a.keyword i) = fun i => if i = st.count then false else st.keyword i
    rw [h.count, h.keyword]
  · intro ob i
    exact chain_congr (fun x hx => if_neg (hne ob i x hx)) (h.chain ob i)
  · intro ob i s hs
    refine ⟨Nat.lt_succ_of_lt (h.place ob i s hs).1, ?_⟩
    show i = index _ ob (if s = st.count then name else st.name s)
    rw [if_neg (hne ob i s hs)]
    exact (h.place ob i s hs).2
  · intro s hs
    show (if s = st.count then Link.null else st.next s) = _
    split
    · rfl
    · exact h.free s hs
  · intro ob i s hs s' hs' he
    have : ∀ s ∈ ch ob i, (makeSymbol st name).1.name s = st.name s := fun s hs => if_neg (hne ob i s hs)
    rw [this s hs, this s' hs'] at he
    exact h.names ob i s hs s' hs' he

/-- A symbol that is nowhere is put into an obarray which has no other symbol with its name. -/
theorem R.add {st : St} {a : Abs} {ch : Nat → Nat → List Nat} (h : R st a ch) {s ob : Nat} (hs : s < st.count) (hfree : ∀ ob', s ∉ a.content ob')
    (hnew : ∀ x ∈ a.content ob, cstr (st.name x) = cstr (st.name s) → x = s) : ∃ ch', R (internSymbol st s ob).1 (a.add s ob) ch' ∧ (internSymbol st s ob).2 = .sym s := by
  have hf : ∀ ob i, s ∉ ch ob i := fun ob i hm => hfree ob ((h.mem ob s).mpr ⟨i, hm⟩)
  have hnull := h.free s hf
  have e1 : internSymbol st s ob = ((st.setNext s (st.bucket ob (index st ob (st.name s)))).setBucket ob (index st ob (st.name s)) (.sym s), .sym s) := by
    unfold internSymbol
    rw [if_neg (by simp [hnull]), if_neg (by have := h.size ob; omega)]
  rw [e1]
  generalize hj : index st ob (st.name s) = j
  refine ⟨fun o i => if o = ob ∧ i = j then s :: ch o i else ch o i, ?_, rfl⟩
  refine ⟨h.size, h.count, h.name, h.keyword, h.counter, ?_, ?_, ?_, ?_, ?_, ?_, ?_⟩
  · intro o i
    have hc : IsChain (fun x => if x = s then st.bucket ob j else st.next x) (st.bucket o i) (ch o i) :=
      chain_congr (fun x hx => if_neg (by rintro rfl; exact hf o i hx)) (h.chain o i)
    by_cases hoi : o = ob ∧ i = j
    · simp only [if_pos hoi]
      refine ⟨if_pos hoi, ?_⟩
      show IsChain _ (if s = s then st.bucket ob j else _) _
      rw [if_pos rfl]
      obtain ⟨rfl, rfl⟩ := hoi
      exact hc
    · simp only [if_neg hoi]
      show IsChain _ (if o = ob ∧ i = j then _ else st.bucket o i) _
      rw [if_neg hoi]
      exact hc
  · intro o i x hx
    by_cases hoi : o = ob ∧ i = j
    · rw [if_pos hoi] at hx
      rcases List.mem_cons.mp hx with rfl | hx
      · exact ⟨hs, by rw [hoi.1, hoi.2]; exact hj.symm⟩
      · exact h.place o i x hx
    · rw [if_neg hoi] at hx
      exact h.place o i x hx
  · intro o i
    split
    · exact List.nodup_cons.mpr ⟨hf o i, h.nodup o i⟩
    · exact h.nodup o i
  · intro o o' i i' x hx hx'
    split at hx <;> split at hx'
    · rename_i h1 h2; exact ⟨by rw [h1.1, h2.1], by rw [h1.2, h2.2]⟩
    · rcases List.mem_cons.mp hx with rfl | hx
      · exact absurd hx' (hf _ _)
      · exact h.disj _ _ _ _ x hx hx'
    · rcases List.mem_cons.mp hx' with rfl | hx'
      · exact absurd hx (hf _ _)
      · exact h.disj _ _ _ _ x hx hx'
    · exact h.disj _ _ _ _ x hx hx'
  · intro x hx
    have hne : x ≠ s := by
      rintro rfl
      exact hx ob j (by simp)
    show (if x = s then _ else st.next x) = _
    rw [if_neg hne]
    refine h.free x fun o i hm => ?_
    refine hx o i ?_
    show x ∈ if o = ob ∧ i = j then s :: ch o i else ch o i
    split
    · exact List.mem_cons_of_mem _ hm
    · exact hm
  · intro o i x hx y hy he
    by_cases hoi : o = ob ∧ i = j
    · simp only [if_pos hoi, List.mem_cons] at hx hy
      obtain ⟨rfl, rfl⟩ := hoi
      rcases hx with hx | hx <;> rcases hy with hy | hy
      · rw [hx, hy]
      · rw [hx]; rw [hx] at he; exact (hnew y ((h.mem _ _).mpr ⟨_, hy⟩) he.symm).symm
      · rw [hy]; rw [hy] at he; exact hnew x ((h.mem _ _).mpr ⟨_, hx⟩) he
      · exact h.names _ _ x hx y hy he
    · rw [if_neg hoi] at hx hy
      exact h.names _ _ x hx y hy he
  · intro o x
    show x ∈ (if o = ob then s :: a.content o else a.content o) ↔ _
    by_cases ho : o = ob
    · subst ho
      rw [if_pos rfl, List.mem_cons, h.mem]
      constructor
      · rintro (rfl | ⟨i, hi⟩)
        · exact ⟨j, by simp⟩
        · refine ⟨i, ?_⟩
          show x ∈ if _ then _ else _
          split
          · exact List.mem_cons_of_mem _ hi
          · exact hi
      · rintro ⟨i, hi⟩
        simp only at hi
        split at hi
        · rcases List.mem_cons.mp hi with rfl | hi
          · exact Or.inl rfl
          · exact Or.inr ⟨i, hi⟩
        · exact Or.inr ⟨i, hi⟩
    · rw [if_neg ho, h.mem]
      simp [ho]

theorem R.intern {st : St} {a : Abs} {ch : Nat → Nat → List Nat} (h : R st a ch) (name : List UInt8) (ob : Nat) :
    ∃ ch', R (intern st name ob).1 (a.intern name ob).1 ch' ∧ (intern st name ob).2 = .sym (a.intern name ob).2 := by
  unfold Symtab.intern Abs.intern
  rw [h.find_eq]
  cases hl : a.lookup name ob with
  | some s => exact ⟨ch, h, rfl⟩
  | none =>
    simp only
    have h1 := h.make name
    have hfree : ∀ ob', st.count ∉ (a.make name).content ob' := by
      intro ob' hm
      obtain ⟨i, hi⟩ := (h.mem ob' _).mp hm
      have := (h.place _ _ _ hi).1
      omega
    obtain ⟨ch', h2, h3⟩ := h1.add (s := st.count) (ob := ob) (Nat.lt_succ_self _) hfree (by
      intro x hx he
      exfalso
      unfold Abs.lookup at hl
      rw [List.find?_eq_none] at hl
      refine hl x hx ?_
      have hxne : x ≠ st.count := by rintro rfl; exact hfree _ hx
      have e1 : (makeSymbol st name).1.name x = st.name x := if_neg hxne
      have e2 : (makeSymbol st name).1.name st.count = name := if_pos rfl
      rw [e1, e2] at he
      rw [h.name]; simpa using he)
    rw [h.count]
    exact ⟨ch', h2, h3⟩

theorem uninternLoop_eq {s ob i : Nat} : ∀ (l : List Nat) (n : Nat) (k : Link) (st : St) (acc : List Nat), l.length ≤ n → IsChain st.next k l → IsChain st.next (st.bucket ob i) acc →
    l.Nodup → (∀ x ∈ l, x ∉ acc) → ∃ st', uninternLoop s ob i n k st = some st' ∧ IsChain st'.next (st'.bucket ob i) ((l.filter (· ≠ s)).reverse ++ acc) ∧
      (∀ x, x ∉ l → st'.next x = st.next x) ∧ (∀ o j, ¬ (o = ob ∧ j = i) → st'.bucket o j = st.bucket o j) ∧
      st'.count = st.count ∧ st'.name = st.name ∧ st'.keyword = st.keyword ∧ st'.counter = st.counter ∧ st'.size = st.size := by
  intro l
  induction l with
  | nil => intro n k st acc _ h ha _ _; rw [h]; exact ⟨st, by cases n <;> rfl, by simpa using ha, fun _ _ => rfl, fun _ _ _ => rfl, rfl, rfl, rfl, rfl, rfl⟩
  | cons x l ih =>
    intro n k st acc hn h ha hnd hdis
    obtain ⟨rfl, h⟩ := h
    obtain ⟨hx, hnd⟩ := List.nodup_cons.mp hnd
    cases n with
    | zero => simp at hn
    | succ n =>
      simp only [List.length_cons] at hn
      rw [uninternLoop]
      by_cases hxs : x = s
      · rw [if_pos hxs]
        obtain ⟨st', h1, h2, h3, h4⟩ := ih n _ st acc (by omega) h ha hnd (fun y hy => hdis y (by simp [hy]))
        refine ⟨st', h1, ?_, fun y hy => h3 y (by simp at hy; exact hy.2), h4⟩
        rw [List.filter_cons_of_neg (by simp [hxs])]
        exact h2
      · rw [if_neg hxs]
        obtain ⟨st', h1, h2, h3, h4, h5⟩ := ih n (st.next x) ((st.setNext x (st.bucket ob i)).setBucket ob i (.sym x)) (x :: acc) (by omega)
          (chain_congr (fun y hy => if_neg (by rintro rfl; exact hx hy)) h)
          (by
            refine ⟨if_pos ⟨rfl, rfl⟩, ?_⟩
            show IsChain _ (if x = x then st.bucket ob i else _) acc
            rw [if_pos rfl]
            exact chain_congr (fun y hy => if_neg (by rintro rfl; exact hdis y (by simp) hy)) ha)
          hnd (by
            intro y hy hm
            rcases List.mem_cons.mp hm with rfl | hm
            · exact hx hy
            · exact hdis y (by simp [hy]) hm)
        refine ⟨st', h1, ?_, ?_, ?_, h5⟩
        · rw [List.filter_cons_of_pos (by simp [hxs]), List.reverse_cons, List.append_assoc]
          exact h2
        · intro y hy
          simp only [List.mem_cons, not_or] at hy
          rw [h3 y hy.2]
          exact if_neg hy.1
        · intro o j hoj
          rw [h4 o j hoj]
          exact if_neg hoj

theorem R.unintern {st : St} {a : Abs} {ch : Nat → Nat → List Nat} (h : R st a ch) {s ob : Nat} (hok : ∀ ob', s ∈ a.content ob' → ob' = ob) :
    ∃ ch', R (unintern st s ob).1 (a.remove s ob) ch' ∧ (unintern st s ob).2 = .sym s := by
  generalize hj : index st ob (st.name s) = j
  have hmem : ∀ o i, s ∈ ch o i → o = ob ∧ i = j := by
    intro o i hm
    have h1 := hok o ((h.mem o s).mpr ⟨i, hm⟩)
    subst h1
    exact ⟨rfl, by rw [(h.place _ _ s hm).2, hj]⟩
  obtain ⟨st', h1, h2, h3, h4, h5, h6, h7, h8, h9⟩ := uninternLoop_eq (s := s) (ob := ob) (i := j) (ch ob j) st.count (st.bucket ob j) (st.setBucket ob j .last) []
    (length_le (h.nodup _ _) fun x hx => (h.place _ _ x hx).1) (h.chain ob j) (show (if ob = ob ∧ j = j then _ else _) = Link.last from if_pos ⟨rfl, rfl⟩) (h.nodup _ _) (by simp)
  have e1 : Symtab.unintern st s ob = (st'.setNext s .null, .sym s) := by
    unfold Symtab.unintern
    rw [if_neg (by have := h.size ob; omega)]
    simp only [hj, h1]
  rw [e1]
  rw [List.append_nil] at h2
  refine ⟨fun o i => if o = ob ∧ i = j then ((ch ob j).filter (· ≠ s)).reverse else ch o i, ?_, rfl⟩
  have hsub : ∀ o i x, x ∈ (if o = ob ∧ i = j then ((ch ob j).filter (· ≠ s)).reverse else ch o i) ↔ x ∈ ch o i ∧ x ≠ s := by
    intro o i x
    by_cases hoi : o = ob ∧ i = j
    · rw [if_pos hoi]
      obtain ⟨rfl, rfl⟩ := hoi
      rw [List.mem_reverse, List.mem_filter]
      simp
    · rw [if_neg hoi]
      refine ⟨fun hm => ⟨hm, ?_⟩, fun hm => hm.1⟩
      rintro rfl
      exact hoi (hmem o i hm)
  refine ⟨?_, ?_, ?_, ?_, ?_, ?_, ?_, ?_, ?_, ?_, ?_, ?_⟩
  · intro o; show 0 < st'.size o; rw [h9]; exact h.size o
  · show a.count = st'.count; rw [h5]; exact h.count
  · show a.name = st'.name; rw [h6]; exact h.name
  · show a.keyword = st'.keyword; rw [h7]; exact h.keyword
  · show a.counter = st'.counter; rw [h8]; exact h.counter
  · intro o i
    by_cases hoi : o = ob ∧ i = j
    · simp only [if_pos hoi]
      obtain ⟨rfl, rfl⟩ := hoi
      refine chain_congr (next := st'.next) (fun x hx => if_neg ?_) h2
      rintro rfl
      rw [List.mem_reverse, List.mem_filter] at hx
      simp at hx
    · simp only [if_neg hoi]
      have e2 : (st'.setNext s .null).bucket o i = st.bucket o i := (h4 o i hoi).trans (if_neg hoi)
      rw [e2]
      refine chain_congr (next := st.next) ?_ (h.chain o i)
      intro x hx
      have hxs : x ≠ s := by rintro rfl; exact hoi (hmem o i hx)
      have : (st'.setNext s .null).next x = st'.next x := if_neg hxs
      rw [this]
      refine h3 x fun hx' => hoi ?_
      exact h.disj _ _ _ _ x hx hx'
  · intro o i x hx
    have hx := ((hsub o i x).mp hx).1
    have := h.place o i x hx
    refine ⟨by show x < st'.count; rw [h5]; exact this.1, ?_⟩
    show i = (hash (st'.name x)).toNat % st'.size o
    rw [h6, h9]; exact this.2
  · intro o i
    split
    · exact List.nodup_reverse.mpr ((h.nodup _ _).filter _)
    · exact h.nodup o i
  · intro o o' i i' x hx hx'
    exact h.disj _ _ _ _ x ((hsub o i x).mp hx).1 ((hsub o' i' x).mp hx').1
  · intro x hx
    by_cases hxs : x = s
    · exact if_pos hxs
    · have : (st'.setNext s .null).next x = st'.next x := if_neg hxs
      have hx' : ∀ o i, x ∉ ch o i := fun o i hm => hx o i ((hsub o i x).mpr ⟨hm, hxs⟩)
      rw [this, h3 x (hx' _ _)]
      exact h.free x hx'
  · intro o i x hx y hy he
    have he : cstr (st'.name x) = cstr (st'.name y) := he
    rw [h6] at he
    exact h.names o i x ((hsub o i x).mp hx).1 y ((hsub o i y).mp hy).1 he
  · intro o x
    show x ∈ (if o = ob then (a.content o).filter (· ≠ s) else a.content o) ↔ ∃ i, x ∈ (if o = ob ∧ i = j then ((ch ob j).filter (· ≠ s)).reverse else ch o i)
    simp only [hsub]
    by_cases ho : o = ob
    · subst ho
      rw [if_pos rfl, List.mem_filter, h.mem]
      simp
    · rw [if_neg ho, h.mem]
      constructor
      · rintro ⟨i, hi⟩
        refine ⟨i, hi, ?_⟩
        rintro rfl
        exact ho (hmem o i hi).1
      · rintro ⟨i, hi, _⟩; exact ⟨i, hi⟩

theorem R.step {st : St} {a : Abs} {ch : Nat → Nat → List Nat} (h : R st a ch) {op : Op} (hok : Ok a op) :
    ∃ b ch', Does a op b (step st op).2 ∧ R (step st op).1 b ch' := by
  cases op with
  | makeSymbol name =>
    refine ⟨_, ch, ?_, h.make name⟩
    have := Does.makeSymbol a name
    rw [h.count] at this; exact this
  | gensym =>
    have h1 : R { st with counter := st.counter + 1 } { a with counter := a.counter + 1 } ch :=
      ⟨h.size, h.count, h.name, h.keyword, by show a.counter + 1 = st.counter + 1; rw [h.counter], h.chain, h.place, h.nodup, h.disj, h.free, h.names, h.mem⟩
    refine ⟨_, ch, ?_, h1.make (gensymName (st.counter + 1))⟩
    have := Does.gensym a
    rw [h.counter] at this
    rw [h.counter]
    have e1 : (Symtab.step st .gensym).2 = .sym a.count := by rw [h.count]; rfl
    rw [e1]; exact this
  | find name ob =>
    refine ⟨a, ch, ?_, h⟩
    show Does a _ a (findSymbol st name ob)
    rw [h.find_eq]
    cases hl : a.lookup name ob with
    | none => exact .notFound a name ob hl
    | some s => exact .found a name ob s hl
  | intern name ob =>
    obtain ⟨ch', h1, h2⟩ := h.intern name ob
    refine ⟨_, ch', ?_, h1⟩
    show Does a _ _ (Symtab.intern st name ob).2
    rw [h2]; exact .intern a name ob
  | internSymbol s ob =>
    obtain ⟨h1, h2⟩ := hok
    by_cases hin : ∃ ob', s ∈ a.content ob'
    · obtain ⟨ob', hin⟩ := hin
      obtain ⟨i, hi⟩ := (h.mem ob' s).mp hin
      have e1 : internSymbol st s ob = (st, .error) := by unfold internSymbol; rw [if_pos (h.next_ne hi)]
      refine ⟨a, ch, ?_, ?_⟩
      · show Does a _ a (internSymbol st s ob).2
        rw [e1]; exact .already a s ob ob' hin
      · show R (internSymbol st s ob).1 a ch
        rw [e1]; exact h
    · have hfree : ∀ ob', s ∉ a.content ob' := fun ob' hm => hin ⟨ob', hm⟩
      obtain ⟨ch', h3, h4⟩ := h.add (ob := ob) (by rw [← h.count]; exact h1) hfree (by rw [← h.name]; exact h2)
      refine ⟨_, ch', ?_, h3⟩
      show Does a _ _ (internSymbol st s ob).2
      rw [h4]; exact .internSymbol a s ob hfree
  | unintern s ob =>
    obtain ⟨ch', h1, h2⟩ := h.unintern hok.2
    refine ⟨_, ch', ?_, h1⟩
    show Does a _ _ (Symtab.unintern st s ob).2
    rw [h2]; exact .unintern a s ob
  | makeKeyword s =>
    cases hk : st.keyword s with
    | true =>
      have e1 : makeKeyword st s = (st, .error) := by unfold makeKeyword; rw [if_pos hk]
      refine ⟨a, ch, ?_, ?_⟩
      · show Does a _ a (makeKeyword st s).2
        rw [e1]; exact .notKeyword a s (by rw [h.keyword]; exact hk)
      · show R (makeKeyword st s).1 a ch
        rw [e1]; exact h
    | false =>
      obtain ⟨ch', h1, h2⟩ := h.intern (35 :: 58 :: st.name s) 1
      have hd := Does.keyword a s (by rw [h.keyword]; exact hk)
      rw [h.name] at hd
      have e1 : makeKeyword st s = ({ (Symtab.intern st (35 :: 58 :: st.name s) 1).1 with
          keyword := fun i => if i = (a.intern (35 :: 58 :: st.name s) 1).2 then true else (Symtab.intern st (35 :: 58 :: st.name s) 1).1.keyword i }, .sym (a.intern (35 :: 58 :: st.name s) 1).2) := by
        unfold makeKeyword
        rw [if_neg (by simp [hk])]
        cases hi : Symtab.intern st (35 :: 58 :: st.name s) 1 with
        | mk st1 r =>
          rw [hi] at h2
          simp only at h2
          subst h2
          rfl
      refine ⟨_, ch', (by show Does a _ _ (makeKeyword st s).2; rw [e1]; exact hd), ?_⟩
      · show R (makeKeyword st s).1 _ ch'
        rw [e1]
        exact ⟨h1.size, h1.count, h1.name, by show _ = fun i => _; rw [← h1.keyword], h1.counter, h1.chain, h1.place, h1.nodup, h1.disj, h1.free, h1.names, h1.mem⟩
  | keywordp s =>
    refine ⟨a, ch, ?_, h⟩
    show Does a _ a (.bool (st.keyword s))
    rw [← h.keyword]; exact .keywordp a s

theorem R.start {size : Nat → Nat} (hs : ∀ ob, 0 < size ob) : R { size := size } {} (fun _ _ => []) :=
  ⟨hs, rfl, rfl, rfl, rfl, fun _ _ => rfl, by simp, by simp, by simp, by intro s _; rfl, by simp, by simp⟩

theorem R.run : ∀ (ops : List Op) {st : St} {a : Abs} {ch : Nat → Nat → List Nat}, R st a ch → Allowed a ops → ∃ b, Runs a ops b (run st ops).2 := by
  intro ops
  induction ops with
  | nil => intro st a ch _ _; exact ⟨a, .nil a⟩
  | cons op ops ih =>
    intro st a ch h ha
    cases ha with
    | cons hok hall =>
      obtain ⟨b, ch', hd, h1⟩ := h.step hok
      obtain ⟨c, hr⟩ := ih h1 (hall b _ hd)
      exact ⟨c, .cons hd hr⟩

/-! ### C73 -/

/-- Full statement: for every history, the functions do what they are said to.  It fails for `unintern` with another obarray than the symbol is in
(`C73_unintern_violated`) and for `intern-symbol` of a second symbol with a name (`C73_twice_violated`).  For all other histories, whatever the sizes
of the obarrays and however the names collide, they return what the manual says, for sets of symbols. -/
theorem C73_partial {size : Nat → Nat} (hs : ∀ ob, 0 < size ob) (ops : List Op) (h : Allowed {} ops) : ∃ a, Runs {} ops a (run { size := size } ops).2 :=
  (R.start hs).run ops h

/-! ### What follows for programs -/

/-- What is always so. -/
structure Good (a : Abs) : Prop where
  bound : ∀ ob, ∀ s ∈ a.content ob, s < a.count
  uniq : ∀ ob, ∀ s ∈ a.content ob, ∀ s' ∈ a.content ob, cstr (a.name s) = cstr (a.name s') → s = s'

theorem Good.make {a : Abs} (h : Good a) (name : List UInt8) : Good (a.make name) where
  bound := fun ob s hs => Nat.lt_succ_of_lt (h.bound ob s hs)
  uniq := by
    intro ob s hs s' hs' he
    have h1 : ∀ s ∈ a.content ob, (a.make name).name s = a.name s := fun s hs => if_neg (Nat.ne_of_lt (h.bound ob s hs))
    rw [h1 s hs, h1 s' hs'] at he
    exact h.uniq ob s hs s' hs' he

theorem Good.add {a : Abs} (h : Good a) {s ob : Nat} (hs : s < a.count) (hn : ∀ x ∈ a.content ob, cstr (a.name x) = cstr (a.name s) → x = s) : Good (a.add s ob) := by
  constructor
  · intro o x hx
    have hx : x ∈ if o = ob then s :: a.content o else a.content o := hx
    split at hx
    · rcases List.mem_cons.mp hx with rfl | hx
      · exact hs
      · exact h.bound o x hx
    · exact h.bound o x hx
  · intro o x hx0 y hy0 he
    have hx : x ∈ if o = ob then s :: a.content o else a.content o := hx0
    have hy : y ∈ if o = ob then s :: a.content o else a.content o := hy0
    by_cases ho : o = ob
    · rw [if_pos ho] at hx hy
      subst ho
      rcases List.mem_cons.mp hx with e | hx <;> rcases List.mem_cons.mp hy with e' | hy
      · rw [e, e']
      · rw [e]; rw [e] at he; exact (hn y hy he.symm).symm
      · rw [e']; rw [e'] at he; exact hn x hx he
      · exact h.uniq o x hx y hy he
    · rw [if_neg ho] at hx hy
      exact h.uniq o x hx y hy he

/-- `intern` gives a symbol of the obarray with that name. -/
theorem Good.intern {a : Abs} (h : Good a) (name : List UInt8) (ob : Nat) : Good (a.intern name ob).1 ∧ (a.intern name ob).2 ∈ (a.intern name ob).1.content ob ∧
    cstr ((a.intern name ob).1.name (a.intern name ob).2) = cstr name ∧ (∀ o, ∀ x ∈ a.content o, x ∈ (a.intern name ob).1.content o) ∧
    (∀ x, x < a.count → (a.intern name ob).1.name x = a.name x) := by
  unfold Abs.intern
  cases hl : a.lookup name ob with
  | some s =>
    refine ⟨h, List.mem_of_find?_eq_some hl, ?_, fun o x hx => hx, fun x _ => rfl⟩
    have := List.find?_some hl
    simpa using this
  | none =>
    refine ⟨(h.make name).add (Nat.lt_succ_self _) ?_, ?_, ?_, ?_, fun x hx => if_neg (by omega)⟩
    · intro x hx he
      exfalso
      have hx : x ∈ a.content ob := hx
      unfold Abs.lookup at hl
      rw [List.find?_eq_none] at hl
      have e1 : (a.make name).name x = a.name x := if_neg (Nat.ne_of_lt (h.bound ob x hx))
      have e2 : (a.make name).name a.count = name := if_pos rfl
      rw [e1, e2] at he
      exact hl x hx (by simpa using he)
    · show a.count ∈ if ob = ob then a.count :: a.content ob else _
      rw [if_pos rfl]; simp
    · show cstr (if a.count = a.count then name else _) = _
      rw [if_pos rfl]
    · intro o x hx
      show x ∈ if o = ob then a.count :: a.content o else a.content o
      split
      · exact List.mem_cons_of_mem _ hx
      · exact hx

theorem Good.step {a b : Abs} (h : Good a) {op : Op} {r : Res} (hok : Ok a op) (hd : Does a op b r) : Good b := by
  cases hd with
  | makeSymbol name => exact h.make name
  | gensym => exact Good.make (a := { a with counter := a.counter + 1 }) ⟨h.bound, h.uniq⟩ _
  | found => exact h
  | notFound => exact h
  | intern name ob => exact (h.intern name ob).1
  | already => exact h
  | internSymbol s ob hf => exact h.add hok.1 hok.2
  | unintern s ob =>
    have hsub : ∀ o, ∀ x ∈ (a.remove s ob).content o, x ∈ a.content o := by
      intro o x hx
      have hx : x ∈ if o = ob then (a.content o).filter (· ≠ s) else a.content o := hx
      split at hx
      · exact (List.mem_filter.mp hx).1
      · exact hx
    exact ⟨fun o x hx => h.bound o x (hsub o x hx), fun o x hx y hy he => h.uniq o x (hsub o x hx) y (hsub o y hy) he⟩
  | keyword s hk => have := (h.intern (35 :: 58 :: a.name s) 1).1; exact ⟨this.bound, this.uniq⟩
  | notKeyword => exact h
  | keywordp => exact h

/-- A symbol stays in its obarray, and keeps its name, until it is uninterned. -/
theorem stays {a b : Abs} (h : Good a) {op : Op} {r : Res} (hd : Does a op b r) {s ob : Nat} (hs : s ∈ a.content ob) (hne : op ≠ .unintern s ob) :
    s ∈ b.content ob ∧ b.name s = a.name s := by
  have hb := h.bound ob s hs
  cases hd with
  | makeSymbol name => exact ⟨hs, if_neg (by omega)⟩
  | gensym => exact ⟨hs, if_neg (Nat.ne_of_lt hb)⟩
  | found => exact ⟨hs, rfl⟩
  | notFound => exact ⟨hs, rfl⟩
  | intern name ob' => have := h.intern name ob'; exact ⟨this.2.2.2.1 ob s hs, this.2.2.2.2 s hb⟩
  | already => exact ⟨hs, rfl⟩
  | internSymbol x ob' hf =>
    refine ⟨?_, rfl⟩
    show s ∈ if ob = ob' then x :: a.content ob else a.content ob
    split
    · exact List.mem_cons_of_mem _ hs
    · exact hs
  | unintern x ob' =>
    refine ⟨?_, rfl⟩
    show s ∈ if ob = ob' then (a.content ob).filter (· ≠ x) else a.content ob
    split
    · rename_i ho
      subst ho
      rw [List.mem_filter]
      refine ⟨hs, ?_⟩
      simp only [ne_eq, decide_eq_true_eq]
      rintro rfl
      exact hne rfl
    · exact hs
  | keyword x hk => have := h.intern (35 :: 58 :: a.name x) 1; exact ⟨this.2.2.2.1 ob s hs, this.2.2.2.2 s hb⟩
  | notKeyword => exact ⟨hs, rfl⟩
  | keywordp => exact ⟨hs, rfl⟩

theorem stays_all : ∀ (ops : List Op) {a b : Abs} {rs : List Res}, Good a → Allowed a ops → Runs a ops b rs → ∀ {s ob : Nat}, s ∈ a.content ob → (.unintern s ob) ∉ ops →
    Good b ∧ s ∈ b.content ob ∧ b.name s = a.name s := by
  intro ops
  induction ops with
  | nil => intro a b rs h _ hr s ob hs _; cases hr; exact ⟨h, hs, rfl⟩
  | cons op ops ih =>
    intro a c rs h ha hr s ob hs hn
    cases ha with
    | cons hok hall =>
      cases hr with
      | cons hd hr =>
        simp only [List.mem_cons, not_or] at hn
        obtain ⟨h1, h2⟩ := stays h hd hs (fun h => hn.1 h.symm)
        obtain ⟨h3, h4, h5⟩ := ih (h.step hok hd) (hall _ _ hd) hr h1 hn.2
        exact ⟨h3, h4, by rw [h5, h2]⟩

theorem good_all : ∀ (ops : List Op) {a b : Abs} {rs : List Res}, Good a → Allowed a ops → Runs a ops b rs → Good b := by
  intro ops
  induction ops with
  | nil => intro a b rs h _ hr; cases hr; exact h
  | cons op ops ih =>
    intro a c rs h ha hr
    cases ha with
    | cons hok hall =>
      cases hr with
      | cons hd hr => exact ih (h.step hok hd) (hall _ _ hd) hr

theorem runs_append : ∀ (p q : List Op) {a c : Abs} {rs : List Res}, Runs a (p ++ q) c rs → ∃ b r1 r2, Runs a p b r1 ∧ Runs b q c r2 ∧ rs = r1 ++ r2 ∧ r1.length = p.length := by
  intro p q
  induction p with
  | nil => intro a c rs h; exact ⟨a, [], rs, .nil a, h, rfl, rfl⟩
  | cons op p ih =>
    intro a c rs h
    cases h with
    | cons hd hr =>
      obtain ⟨b, r1, r2, h1, h2, rfl, h3⟩ := ih hr
      exact ⟨b, _ :: r1, r2, .cons hd h1, h2, rfl, by simp [h3]⟩

theorem allowed_append : ∀ (p q : List Op) {a b : Abs} {rs : List Res}, Allowed a (p ++ q) → Runs a p b rs → Allowed b q := by
  intro p q
  induction p with
  | nil => intro a b rs h hr; cases hr; exact h
  | cons op p ih =>
    intro a b rs h hr
    cases h with
    | cons hok hall =>
      cases hr with
      | cons hd hr => exact ih (hall _ _ hd) hr

theorem allowed_front : ∀ (p q : List Op) {a : Abs}, Allowed a (p ++ q) → Allowed a p := by
  intro p q
  induction p with
  | nil => intro a _; exact .nil a
  | cons op p ih =>
    intro a h
    cases h with
    | cons hok hall => exact .cons hok fun b r hd => ih (hall b r hd)

/-- Two interned names give the same symbol exactly if they are the same (up to a zero byte), whatever happens in between, if the symbol
is not uninterned. -/
theorem C73_same {size : Nat → Nat} (hs : ∀ ob, 0 < size ob) (ops₁ ops₂ : List Op) (n n' : List UInt8) (ob : Nat)
    (ha : Allowed {} (ops₁ ++ .intern n ob :: (ops₂ ++ [.intern n' ob]))) :
    ∃ rs₁ s rs₂ s', (run { size := size } (ops₁ ++ .intern n ob :: (ops₂ ++ [.intern n' ob]))).2 = rs₁ ++ .sym s :: (rs₂ ++ [.sym s']) ∧ rs₁.length = ops₁.length ∧
      rs₂.length = ops₂.length ∧ ((.unintern s ob) ∉ ops₂ → (s = s' ↔ cstr n = cstr n')) := by
  obtain ⟨e, hr⟩ := C73_partial hs _ ha
  have g0 : Good {} := ⟨by simp, by simp⟩
  obtain ⟨b, rs₁, r2, h1, h2, hrs, hl⟩ := runs_append _ _ hr
  have ab := allowed_append _ _ ha h1
  have gb := good_all _ g0 (allowed_front _ _ ha) h1
  cases h2 with
  | cons hd h2 =>
    cases ab with
    | cons hok hall =>
      have ac := hall _ _ hd
      cases hd with
      | intern =>
        obtain ⟨g1, m1, n1, _, _⟩ := gb.intern n ob
        obtain ⟨d, rs₂, r4, h3, h4, hrs2, hl2⟩ := runs_append _ _ h2
        have gd := good_all _ g1 (allowed_front _ _ ac) h3
        cases h4 with
        | cons hd4 h4 =>
          cases h4
          cases hd4 with
          | intern =>
            obtain ⟨g2, m2, n2, k2, k3⟩ := gd.intern n' ob
            refine ⟨rs₁, (b.intern n ob).2, rs₂, (d.intern n' ob).2, by rw [hrs, hrs2], hl, hl2, fun hn => ?_⟩
            obtain ⟨_, m3, n3⟩ := stays_all _ g1 (allowed_front _ _ ac) h3 m1 hn
            have m4 := k2 ob _ m3
            have n4 := k3 _ (gd.bound ob _ m3)
            constructor
            · intro he
              rw [← n1, ← n2, ← n3, ← n4, he]
            · intro he
              refine g2.uniq ob _ m4 _ m2 ?_
              rw [n4, n3, n1, n2, he]

/-- The value of digits. -/
def value (l : List UInt8) : Nat := l.foldl (fun v c => v * 10 + (c.toNat - 48)) 0

theorem value_append (l m : List UInt8) (h : m.length = 1) : value (l ++ m) = value l * 10 + value m := by
  match m, h with
  | [c], _ => simp [value]

theorem value_digits (n : Nat) : value ((NumText.natDigits 10 n).map fun c => UInt8.ofNat c.toNat) = n := by
  have hd : ∀ d, d < 10 → value [UInt8.ofNat (NumText.digitChar d).toNat] = d := by decide
  induction n using Nat.strongRecOn with
  | ind n ih =>
    unfold NumText.natDigits
    split
    · rw [List.map_append, value_append _ _ (by simp), ih (n / 10) (Nat.div_lt_self (by omega) (by omega))]
      rw [List.map_cons, List.map_nil, hd _ (Nat.mod_lt _ (by omega))]
      omega
    · rw [List.map_cons, List.map_nil, hd n (by omega)]

theorem value_pad (k : Nat) (l : List UInt8) : value (List.replicate k 48 ++ l) = value l := by
  induction k with
  | zero => rfl
  | succ k ih =>
    rw [List.replicate_succ, List.cons_append]
    show List.foldl _ (0 * 10 + ((48 : UInt8).toNat - 48)) _ = _
    exact ih

/-- The names that `gensym` gives are all different. -/
theorem C73_gensym {n m : Nat} (h : gensymName n = gensymName m) : n = m := by
  unfold gensymName at h
  injection h with _ h
  have := congrArg value h
  unfold pad4 at this
  rwa [value_pad, value_pad, value_digits, value_digits] at this

/-! ### Cases -/

/-- src/symbols.c:51-52: the sizes of the two obarrays -/
def sizes (ob : Nat) : Nat := if ob = 1 then 127 else 509

/-- The bytes of a name. -/
def bytes (s : String) : List UInt8 := s.toList.map fun c => UInt8.ofNat c.toNat

theorem Does.det {a b b' : Abs} {op : Op} {r r' : Res} (h : Does a op b r) (h' : Does a op b' r') : b' = b ∧ r' = r := by
  cases h <;> cases h' <;> first | exact ⟨rfl, rfl⟩ | simp_all

theorem allowed_step {a b : Abs} {op : Op} {r : Res} {ops : List Op} (hok : Ok a op) (hd : Does a op b r) (h : Allowed b ops) : Allowed a (op :: ops) :=
  .cons hok fun b' r' hd' => by rw [(Does.det hd hd').1]; exact h

/-- Names that collide, a symbol that is uninterned and interned again, keywords. -/
def history : List Op := [.intern (bytes "#:a") 1, .intern (bytes "#:gy") 1, .intern (bytes "#:a") 1, .unintern 0 1, .find (bytes "#:a") 1, .find (bytes "#:gy") 1, .internSymbol 0 1,
  .internSymbol 0 1, .intern (bytes "a") 0, .makeKeyword 2, .keywordp 0]

theorem history_allowed : Allowed {} history := by
  refine allowed_step trivial (.intern ..) ?_
  refine allowed_step trivial (.intern ..) ?_
  refine allowed_step trivial (.intern ..) ?_
  refine allowed_step ⟨by decide +kernel, fun ob' hm => ?_⟩ (.unintern ..) ?_
  · by_contra hne
    simp [Abs.intern, Abs.lookup, Abs.add, Abs.make, hne, bytes, cstr] at hm
  refine allowed_step trivial (.notFound _ _ _ (by decide +kernel)) ?_
  refine allowed_step trivial (.found _ _ _ 1 (by decide +kernel)) ?_
  refine allowed_step ⟨by decide +kernel, by decide +kernel⟩ (.internSymbol _ _ _ fun ob' hm => ?_) ?_
  · by_cases hne : ob' = 1
    · subst hne; revert hm; decide +kernel
    · simp [Abs.intern, Abs.lookup, Abs.add, Abs.make, Abs.remove, hne, bytes, cstr] at hm
  refine allowed_step ⟨by decide +kernel, by decide +kernel⟩ (.already _ _ _ 1 (by decide +kernel)) ?_
  refine allowed_step trivial (.intern ..) ?_
  refine allowed_step (by decide +kernel : (_ : Nat) < _) (.keyword _ _ (by decide +kernel)) ?_
  exact allowed_step (by decide +kernel : (_ : Nat) < _) (.keywordp _ _) (.nil _)

theorem sizes_pos : ∀ ob, 0 < sizes ob := by intro ob; unfold sizes; split <;> omega

example : (run { size := sizes } history).2 = [.sym 0, .sym 1, .sym 0, .sym 0, .nil, .sym 1, .sym 0, .error, .sym 2, .sym 0, .bool true] ∧ ∃ b, Runs {} history b (run { size := sizes } history).2 :=
  ⟨by decide +kernel, C73_partial sizes_pos _ history_allowed⟩

/-- Two of these names are in one chain. -/
example : (hash (bytes "#:a")).toNat % 127 = (hash (bytes "#:gy")).toNat % 127 := by decide +kernel

/-- A symbol that is uninterned from an obarray it is not in (the default one, when it is a keyword) cuts the chain it is in: the symbols
behind it are lost, and looking for them follows a null pointer; interned again, it makes the chain a circle, and looking for a name never ends. -/
theorem C73_unintern_violated :
    (run { size := sizes } [.intern (bytes "#:a") 1, .intern (bytes "#:gy") 1, .unintern 1 0, .find (bytes "#:a") 1]).2 = [.sym 0, .sym 1, .sym 1, .crash] ∧
    (run { size := sizes } [.intern (bytes "#:a") 1, .intern (bytes "#:gy") 1, .unintern 1 0, .internSymbol 1 1, .find (bytes "#:a") 1]).2 = [.sym 0, .sym 1, .sym 1, .sym 1, .hang] := by
  decide +kernel

/-- `intern-symbol` accepts a second symbol with the same name; it hides the first, until a symbol of that chain is uninterned. -/
theorem C73_twice_violated :
    (run { size := sizes } [.intern (bytes "#:a") 1, .makeSymbol (bytes "#:a"), .internSymbol 1 1, .find (bytes "#:a") 1, .intern (bytes "#:gy") 1, .unintern 2 1, .find (bytes "#:a") 1]).2
      = [.sym 0, .sym 1, .sym 1, .sym 1, .sym 2, .sym 2, .sym 0] := by decide +kernel

/-- Names that differ only after a zero byte are one symbol. -/
theorem C73_nul_violated : (run { size := sizes } [.intern [97, 0, 98] 0, .intern [97] 0]).2 = [.sym 0, .sym 0] := by decide +kernel

/-- The obarray `[]` makes `intern-symbol` and `unintern` fail without an error. -/
theorem C73_empty_violated : (run { size := fun _ => 0 } [.makeSymbol [97], .internSymbol 0 2, .unintern 0 2]).2 = [.sym 0, .null, .null] := by decide +kernel

end Rep.Symtab
