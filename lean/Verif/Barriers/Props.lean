/-
C28 and C46.
-/
import Verif.Barriers.Model
import Mathlib.Tactic.ByContra
import Mathlib.Tactic.Tauto

namespace Rep.Barriers

/-! ### The search -/

def Sorted (l : List Barrier) : Prop := l.Pairwise fun a b => b.point < a.point

theorem scan_true {p : Barrier} : ∀ (l : List Barrier) (i f : Nat), (scan p l i f).1 = true ↔ ∃ d ∈ l, d.point = p.point := by
  intro l
  induction l with
  | nil => intro i f; simp [scan]
  | cons d ds ih =>
    intro i f
    rw [scan]
    by_cases h1 : d.point = p.point
    · rw [if_pos h1]; simp [h1]
    · rw [if_neg h1]
      split <;> simp [ih, h1]

/-- Every index that is skipped is that of a newer barrier. -/
theorem scan_first {p : Barrier} {all : List Barrier} (hs : Sorted all) : ∀ (l : List Barrier) (i f : Nat), all.drop i = l →
    (∀ d ∈ all.take f, p.point < d.point) → ∀ d ∈ all.take (scan p l i f).2, p.point < d.point := by
  intro l
  induction l with
  | nil => intro i f _ h; exact h
  | cons d ds ih =>
    intro i f hd h
    rw [scan]
    have hds : all.drop (i + 1) = ds := by
      rw [← List.drop_drop, hd]; rfl
    by_cases h1 : d.point = p.point
    · rw [if_pos h1]; exact h
    · rw [if_neg h1]
      split
      · rename_i hgt
        refine ih (i + 1) (i + 1) hds ?_
        have hall : all = all.take i ++ d :: ds := by rw [← hd, List.take_append_drop]
        have hlen : (all.take i).length = i := by
          rw [List.length_take]
          have : i < all.length := by
            by_contra hc
            rw [List.drop_eq_nil_of_le (by omega)] at hd
            cases hd
          omega
        have htk : all.take (i + 1) = all.take i ++ [d] := by
          conv_lhs => rw [hall]
          rw [List.take_append, hlen, List.take_of_length_le (by rw [hlen]; omega)]
          simp
        intro x hx
        rw [htk, List.mem_append, List.mem_singleton] at hx
        rcases hx with hx | rfl
        · unfold Sorted at hs
          rw [hall, List.pairwise_append] at hs
          have := hs.2.2 x hx d (by simp)
          omega
        · exact hgt
      · exact ih (i + 1) f hds h

/-- What `common_ancestor` finds: the innermost barrier at a position of the history, not
further out than the first closed one. -/
theorem ancestor_spec {dest : List Barrier} (hd : Sorted dest) : ∀ (cur : List Barrier) (f : Nat), Sorted cur →
    (∀ p ∈ cur, ∀ d ∈ dest.take f, p.point < d.point) →
    ancestor dest cur f = (trace cur).find? fun p => decide (∃ d ∈ dest, d.point = p.point) := by
  intro cur
  induction cur with
  | nil => intro f _ _; rfl
  | cons p ps ih =>
    intro f hc hf
    have hfound : (scan p (dest.drop f) f f).1 = true ↔ ∃ d ∈ dest, d.point = p.point := by
      rw [scan_true]
      constructor
      · rintro ⟨d, h1, h2⟩; exact ⟨d, List.mem_of_mem_drop h1, h2⟩
      · rintro ⟨d, h1, h2⟩
        refine ⟨d, ?_, h2⟩
        rw [← List.take_append_drop f dest, List.mem_append] at h1
        rcases h1 with h1 | h1
        · have := hf p (by simp) d h1; omega
        · exact h1
    rw [ancestor, trace]
    by_cases h : ∃ d ∈ dest, d.point = p.point
    · rw [if_pos (hfound.2 h)]
      split <;> rw [List.find?_cons_of_pos (by simpa using h)]
    · rw [if_neg (fun hc => h (hfound.1 hc))]
      split
      · rw [List.find?_cons_of_neg (by simpa using h)]; rfl
      · rw [List.find?_cons_of_neg (by simpa using h)]
        have hc' := List.pairwise_cons.1 hc
        apply ih _ hc'.2
        intro q hq d hd'
        have := scan_first hd _ f f rfl (hf p (by simp)) d hd'
        have := hc'.1 q hq
        omega

theorem trace_open {l m : List Barrier} (h : ∀ b ∈ l, b.closed = false) : trace (l ++ m) = l ++ trace m := by
  induction l with
  | nil => rfl
  | cons b bs ih =>
    rw [List.cons_append, trace, if_neg (by simp [h b (by simp)]), ih (fun x hx => h x (by simp [hx]))]
    rfl

theorem trace_sub (l : List Barrier) : ∀ b ∈ trace l, b ∈ l := by
  induction l with
  | nil => intro b h; exact h
  | cons x xs ih =>
    intro b h
    rw [trace] at h
    split at h
    · rw [List.mem_singleton] at h; simp [h]
    · rw [List.mem_cons] at h
      rcases h with rfl | h
      · simp
      · simp [ih b h]

theorem trace_sublist (l : List Barrier) : (trace l).Sublist l := by
  induction l with
  | nil => exact List.Sublist.refl _
  | cons x xs ih =>
    rw [trace]
    split
    · exact List.Sublist.cons_cons _ (List.nil_sublist _)
    · exact ih.cons_cons _

theorem root_mem {l : List Barrier} {r : Barrier} (h : root l = some r) : r ∈ l ∧ r.closed = true :=
  ⟨List.mem_of_find?_eq_some h, by simpa using List.find?_some h⟩

theorem root_open {l m : List Barrier} (h : ∀ b ∈ l, b.closed = false) : root (l ++ m) = root m := by
  unfold root
  rw [List.find?_append, List.find?_eq_none.2 (by intro x hx; simp [h x hx])]
  rfl

/-- The barriers of the trace, and the rest of the chain. -/
theorem trace_root {l : List Barrier} {r : Barrier} (h : root l = some r) : ∃ a t, l = a ++ r :: t ∧ trace l = a ++ [r] ∧ ∀ b ∈ a, b.closed = false := by
  induction l with
  | nil => cases h
  | cons x xs ih =>
    unfold root at h
    by_cases hx : x.closed = true
    · rw [List.find?_cons_of_pos hx] at h
      cases h
      exact ⟨[], xs, rfl, by rw [trace, if_pos hx]; rfl, by simp⟩
    · rw [List.find?_cons_of_neg hx] at h
      obtain ⟨a, t, h1, h2, h3⟩ := ih h
      refine ⟨x :: a, t, by rw [h1]; rfl, by rw [trace, if_neg hx, h2]; rfl, ?_⟩
      intro b hb
      rw [List.mem_cons] at hb
      rcases hb with rfl | hb
      · simpa using hx
      · exact h3 b hb

theorem sorted_unique {l : List Barrier} (h : Sorted l) {a b : Barrier} (ha : a ∈ l) (hb : b ∈ l) (hp : a.point = b.point) : a = b := by
  induction l with
  | nil => cases ha
  | cons x xs ih =>
    have hc := List.pairwise_cons.1 h
    rw [List.mem_cons] at ha hb
    rcases ha with rfl | ha <;> rcases hb with rfl | hb
    · rfl
    · have := hc.1 b hb; omega
    · have := hc.1 a ha; omega
    · exact ih hc.2 ha hb

/-! ### The tree of barriers -/

/-- A barrier has the same barriers outside of it in both chains. -/
def Tree (X Y : List Barrier) : Prop :=
  ∀ a b t, X = a ++ b :: t → ∀ a' b' t', Y = a' ++ b' :: t' → b.id = b'.id → b = b' ∧ t = t'

theorem Tree.symm {X Y : List Barrier} (h : Tree X Y) : Tree Y X := by
  intro a b t h1 a' b' t' h2 hid
  obtain ⟨e1, e2⟩ := h a' b' t' h2 a b t h1 hid.symm
  exact ⟨e1.symm, e2.symm⟩

theorem Tree.suffix {X Y p : List Barrier} (h : Tree (p ++ X) Y) : Tree X Y := by
  intro a b t h1 a' b' t' h2 hid
  exact h (p ++ a) b t (by rw [h1, List.append_assoc]) a' b' t' h2 hid

/-- The barriers only in the first chain, those only in the second, and the common ones. -/
theorem split {X Y : List Barrier} (h : Tree X Y) (hX : Sorted X) :
    ∃ outs ins common, X = outs ++ common ∧ Y = ins ++ common ∧ (∀ b ∈ outs, b ∉ Y) ∧ (∀ b ∈ ins, b ∉ X) := by
  induction X with
  | nil => exact ⟨[], Y, [], rfl, by simp, by simp, by simp⟩
  | cons x xs ih =>
    by_cases hx : x ∈ Y
    · obtain ⟨s, t, rfl⟩ := List.append_of_mem hx
      obtain ⟨-, rfl⟩ := h [] x xs rfl s x t rfl rfl
      -- take the first occurrence
      refine ⟨[], s, x :: xs, rfl, rfl, by simp, ?_⟩
      intro b hb hbX
      obtain ⟨u, v, huv⟩ := List.append_of_mem hbX
      obtain ⟨s1, s2, rfl⟩ := List.append_of_mem hb
      have := (h u b v huv s1 b (s2 ++ x :: xs) (by simp) rfl).2
      -- the tail is longer than the whole
      have hl := congrArg List.length this
      have hl2 := congrArg List.length huv
      simp at hl hl2
      omega
    · obtain ⟨outs, ins, common, h1, h2, h3, h4⟩ := ih (Tree.suffix (p := [x]) h) (List.pairwise_cons.1 hX).2
      refine ⟨x :: outs, ins, common, by rw [h1]; rfl, h2, ?_, ?_⟩
      · intro b hb
        rw [List.mem_cons] at hb
        rcases hb with rfl | hb
        · exact hx
        · exact h3 b hb
      · intro b hb hc
        rw [List.mem_cons] at hc
        rcases hc with rfl | hc
        · exact hx (by rw [h2]; simp [hb])
        · exact h4 b hb hc

/-! ### Reachable states -/

/-- All chains that are held. -/
def St.chains (st : St) : List (List Barrier) := st.chain :: st.conts.map (·.chain)

structure Inv (st : St) : Prop where
  sorted : ∀ X ∈ st.chains, Sorted X
  tree : ∀ X ∈ st.chains, ∀ Y ∈ st.chains, Tree X Y
  fresh : ∀ X ∈ st.chains, ∀ b ∈ X, b.id < st.next
  rooted : ∀ c ∈ st.conts, ∃ r, root c.chain = some r ∧ r.id ∈ st.targeted ∧ (c.valid = true ↔ r ∈ st.chain)

theorem inv_init : Inv {} := by
  refine ⟨?_, ?_, ?_, ?_⟩
  · intro X hX; simp [St.chains] at hX; subst hX; exact List.Pairwise.nil
  · intro X hX Y hY; simp [St.chains] at hX hY; subst hX hY; intro a b t h; simp at h
  · intro X hX b hb; simp [St.chains] at hX; subst hX; cases hb
  · intro c hc; cases hc

theorem inv_enter {st : St} (h : Inv st) (p : Nat) (c : Bool) : Inv (enter st p c) := by
  unfold enter
  split
  · rename_i hp
    have hch : ∀ X ∈ st.chains, X = st.chain ∨ ∃ c ∈ st.conts, X = c.chain := by
      intro X hX; unfold St.chains at hX
      simp only [List.mem_cons, List.mem_map] at hX
      rcases hX with h | ⟨c, h1, h2⟩
      · exact Or.inl h
      · exact Or.inr ⟨c, h1, h2.symm⟩
    have hcur : st.chain ∈ st.chains := by simp [St.chains]
    have hmem : ∀ X ∈ ({ st with chain := ⟨st.next, p, c⟩ :: st.chain, next := st.next + 1, log := st.log ++ [(true, st.next)] } : St).chains,
        X = ⟨st.next, p, c⟩ :: st.chain ∨ X ∈ st.chains := by
      intro X hX
      simp only [St.chains, List.mem_cons] at hX ⊢
      tauto
    have key : ∀ Y ∈ st.chains, Tree (⟨st.next, p, c⟩ :: st.chain) Y := by
      intro Y hY a b t h1 a' b' t' h2 hid
      have hb' := h.fresh Y hY b' (by rw [h2]; simp)
      cases a with
      | nil =>
        simp only [List.nil_append, List.cons.injEq] at h1
        rw [← h1.1] at hid
        simp only at hid
        omega
      | cons x xs =>
        simp only [List.cons_append, List.cons.injEq] at h1
        exact h.tree _ hcur _ hY xs b t h1.2 a' b' t' h2 hid
    refine ⟨?_, ?_, ?_, ?_⟩
    · intro X hX
      rcases hmem X hX with rfl | hX
      · refine List.pairwise_cons.2 ⟨?_, h.sorted _ hcur⟩
        intro b hb
        dsimp only
        cases hl : st.chain with
        | nil => rw [hl] at hb; cases hb
        | cons y ys =>
          rw [hl] at hp hb
          simp only [List.head?_cons, Option.all_some, decide_eq_true_eq] at hp
          rw [List.mem_cons] at hb
          rcases hb with rfl | hb
          · exact hp
          · have := h.sorted _ hcur
            rw [hl] at this
            have := (List.pairwise_cons.1 this).1 b hb
            omega
      · exact h.sorted X hX
    · intro X hX Y hY
      rcases hmem X hX with rfl | hX <;> rcases hmem Y hY with rfl | hY
      · intro a b t h1 a' b' t' h2 hid
        cases a' with
        | cons x xs =>
          simp only [List.cons_append, List.cons.injEq] at h2
          exact key _ hcur a b t h1 xs b' t' h2.2 hid
        | nil =>
          cases a with
          | nil =>
            rw [h1] at h2
            simp only [List.nil_append, List.cons.injEq] at h2
            exact h2
          | cons x xs =>
            simp only [List.cons_append, List.cons.injEq] at h1
            simp only [List.nil_append, List.cons.injEq] at h2
            have := h.fresh _ hcur b (by rw [h1.2]; simp)
            rw [hid, ← h2.1] at this
            simp only at this
            omega
      · exact key Y hY
      · exact (key X hX).symm
      · exact h.tree X hX Y hY
    · intro X hX b hb
      rcases hmem X hX with rfl | hX
      · rw [List.mem_cons] at hb
        rcases hb with rfl | hb
        · exact Nat.lt_succ_self _
        · exact Nat.lt_succ_of_lt (h.fresh _ hcur b hb)
      · exact Nat.lt_succ_of_lt (h.fresh X hX b hb)
    · intro k hk
      obtain ⟨r, h1, h2, h3⟩ := h.rooted k hk
      refine ⟨r, h1, h2, ?_⟩
      rw [h3]
      constructor
      · intro hr; exact List.mem_cons_of_mem _ hr
      · intro hr
        simp only [List.mem_cons] at hr
        rcases hr with rfl | hr
        · have := h.fresh k.chain (by simp only [St.chains, List.mem_cons, List.mem_map]; exact Or.inr ⟨k, hk, rfl⟩) _ (root_mem h1).1
          simp only at this
          omega
        · exact hr
  · exact h

theorem inv_exit {st : St} (h : Inv st) : Inv (exit st) := by
  unfold exit
  split
  · exact h
  · rename_i b bs hb
    -- the chains are old ones, or the rest of the present one
    have hcur : b :: bs ∈ st.chains := by simp [St.chains, hb]
    let conts' := if b.closed ∧ b.id ∈ st.targeted then
            st.conts.map fun c => if (root c.chain).map (·.point) = some b.point then { c with valid := false } else c
          else st.conts
    have hconts : conts'.map (·.chain) = st.conts.map (·.chain) := by
      show (if _ then _ else _ : List Cont).map _ = _
      split
      · rw [List.map_map]
        apply List.map_congr_left
        intro c _
        dsimp only [Function.comp]
        split <;> rfl
      · rfl
    have hmem : ∀ X ∈ bs :: conts'.map (·.chain), X = bs ∨ X ∈ st.chains := by
      intro X hX
      rw [hconts, List.mem_cons] at hX
      rcases hX with h | h
      · exact Or.inl h
      · exact Or.inr (by unfold St.chains; exact List.mem_cons_of_mem _ h)
    have hsuf : ∀ Y ∈ st.chains, Tree bs Y := fun Y hY => Tree.suffix (p := [b]) (h.tree _ hcur Y hY)
    refine ⟨?_, ?_, ?_, ?_⟩
    · intro X hX
      rcases hmem X hX with rfl | hX
      · exact (List.pairwise_cons.1 (h.sorted _ hcur)).2
      · exact h.sorted X hX
    · intro X hX Y hY
      rcases hmem X hX with h1 | h1 <;> rcases hmem Y hY with h2 | h2
      · rw [h1, h2]; exact (Tree.suffix (p := [b]) (hsuf _ hcur).symm)
      · rw [h1]; exact hsuf Y h2
      · rw [h2]; exact (hsuf X h1).symm
      · exact h.tree X h1 Y h2
    · intro X hX c hc
      rcases hmem X hX with rfl | hX
      · exact h.fresh _ hcur c (by simp [hc])
      · exact h.fresh X hX c hc
    · intro c hc
      change c ∈ conts' at hc
      have hsorted := h.sorted _ hcur
      have hnot : b ∉ bs := by
        intro hm
        have := (List.pairwise_cons.1 hsorted).1 b hm
        omega
      by_cases hcl : b.closed ∧ b.id ∈ st.targeted
      · have e : conts' = st.conts.map fun c => if (root c.chain).map (·.point) = some b.point then { c with valid := false } else c := if_pos hcl
        rw [e] at hc
        obtain ⟨k, hk, rfl⟩ := List.mem_map.1 hc
        obtain ⟨r, h1, h2, h3⟩ := h.rooted k hk
        rw [hb] at h3
        by_cases hp : r.point = b.point
        · rw [if_pos (by rw [h1]; simp [hp])]
          refine ⟨r, h1, h2, ?_⟩
          simp only [Bool.false_eq_true, false_iff]
          intro hm
          have := (List.pairwise_cons.1 hsorted).1 r hm
          omega
        · rw [if_neg (by rw [h1]; simpa using hp)]
          refine ⟨r, h1, h2, ?_⟩
          rw [h3, List.mem_cons]
          constructor
          · rintro (rfl | hm)
            · exact absurd rfl hp
            · exact hm
          · exact Or.inr
      · have e : conts' = st.conts := if_neg hcl
        rw [e] at hc
        obtain ⟨r, h1, h2, h3⟩ := h.rooted c hc
        refine ⟨r, h1, h2, ?_⟩
        rw [h3, hb, List.mem_cons]
        constructor
        · rintro (rfl | hm)
          · exact absurd ⟨(root_mem h1).2, h2⟩ hcl
          · exact hm
        · exact Or.inr

theorem inv_capture {st : St} (h : Inv st) : Inv (capture st) := by
  unfold capture
  cases hr : root st.chain with
  | none => exact h
  | some r =>
    rw [Option.elim_some]
    have hmem : ∀ X ∈ ({ st with conts := st.conts ++ [⟨st.chain, true⟩], targeted := r.id :: st.targeted } : St).chains, X ∈ st.chains := by
      intro X hX
      simp only [St.chains, List.map_append, List.map_cons, List.map_nil, List.mem_cons, List.mem_append, List.not_mem_nil, or_false] at hX ⊢
      tauto
    refine ⟨fun X hX => h.sorted X (hmem X hX), fun X hX Y hY => h.tree X (hmem X hX) Y (hmem Y hY), fun X hX => h.fresh X (hmem X hX), ?_⟩
    intro c hc
    simp only [List.mem_append, List.mem_singleton] at hc
    rcases hc with hc | rfl
    · obtain ⟨r', h1, h2, h3⟩ := h.rooted c hc
      exact ⟨r', h1, List.mem_cons_of_mem _ h2, h3⟩
    · exact ⟨r, hr, by simp, by simp [(root_mem hr).1]⟩

/-! ### C28 -/

/-- No barrier of the present stack is at the position of another barrier of the
continuation. -/
def Apart (st : St) (k : Nat) : Prop :=
  ∀ c, st.conts[k]? = some c → c.valid = true → ∀ b ∈ st.chain, ∀ b' ∈ c.chain, b.point = b'.point → b = b'

/-- Control passes outwards through `outs` and inwards through `ins`. -/
def passes (outs ins : List Barrier) : List (Bool × Nat) := outs.map (fun b => (false, b.id)) ++ ins.reverse.map fun b => (true, b.id)

theorem takeWhile_prop {α : Type} {p : α → Bool} {l : List α} {x : α} (h : x ∈ l.takeWhile p) : p x = true := by
  induction l with
  | nil => cases h
  | cons y ys ih =>
    rw [List.takeWhile_cons] at h
    split at h
    · rw [List.mem_cons] at h
      rcases h with rfl | h
      · assumption
      · exact ih h
    · cases h

theorem takeWhile_points {l : List Barrier} {a : Barrier} {m : List Barrier} (h : Sorted (l ++ a :: m)) :
    (l ++ a :: m).takeWhile (fun b => b.point ≠ a.point) = l := by
  rw [List.takeWhile_append_of_pos]
  · rw [List.takeWhile_cons_of_neg (by simp), List.append_nil]
  · intro b hb
    unfold Sorted at h
    rw [List.pairwise_append] at h
    have := h.2.2 b hb a (by simp)
    simp
    omega

theorem invoke_spec {st : St} (h : Inv st) {k : Nat} {c : Cont} (hc : st.conts[k]? = some c) (hap : Apart st k) :
    ∃ outs ins common, st.chain = outs ++ common ∧ c.chain = ins ++ common ∧ (∀ b ∈ outs, b ∉ c.chain) ∧ (∀ b ∈ ins, b ∉ st.chain) ∧
      invoke st k = if (outs ++ ins).any (·.closed) then .refused else .ok { st with chain := c.chain, log := st.log ++ passes outs ins } := by
  have hcm : c ∈ st.conts := List.mem_of_getElem? hc
  have hX : st.chain ∈ st.chains := by simp [St.chains]
  have hY : c.chain ∈ st.chains := by simp only [St.chains, List.mem_cons, List.mem_map]; exact Or.inr ⟨c, hcm, rfl⟩
  obtain ⟨outs, ins, common, h1, h2, h3, h4⟩ := split (h.tree _ hX _ hY) (h.sorted _ hX)
  obtain ⟨r, r1, r2, r3⟩ := h.rooted c hcm
  refine ⟨outs, ins, common, h1, h2, h3, h4, ?_⟩
  obtain ⟨rm, rc⟩ := root_mem r1
  unfold invoke
  rw [hc]
  dsimp only
  by_cases hv : c.valid = false
  · rw [if_pos hv]
    have hr : r ∉ st.chain := fun hm => by have := r3.2 hm; rw [hv] at this; cases this
    rw [if_pos]
    rw [List.any_eq_true]
    refine ⟨r, ?_, rc⟩
    rw [h2, List.mem_append] at rm
    rcases rm with rm | rm
    · simp [rm]
    · exact absurd (by rw [h1]; simp [rm]) hr
  · rw [if_neg hv, r1]
    dsimp only
    have hv' : c.valid = true := by simpa using hv
    have hrm := r3.1 hv'
    rw [if_pos hrm, ancestor_spec ((h.sorted _ hY).sublist (trace_sublist _)) st.chain 0 (h.sorted _ hX) (by simp)]
    have hins : ∀ b ∈ ins, b.closed = false := by
      intro b hb
      by_contra hcl
      have hcl : b.closed = true := by simpa using hcl
      -- the first closed one is among these, and not in the present chain
      have : r ∈ ins := by
        have h5 : (ins.find? (·.closed)).isSome := by rw [List.find?_isSome]; exact ⟨b, hb, hcl⟩
        obtain ⟨r', hr'⟩ := Option.isSome_iff_exists.1 h5
        have : root c.chain = some r' := by unfold root; rw [h2, List.find?_append, hr']; rfl
        rw [r1] at this
        cases this
        exact List.mem_of_find?_eq_some hr'
      exact h4 r this hrm
    have hmatch : ∀ p ∈ st.chain, (∃ d ∈ trace c.chain, d.point = p.point) → p ∈ trace c.chain := by
      rintro p hp ⟨d, hd, hpt⟩
      have := hap c hc hv' p hp d (trace_sub _ d hd) hpt.symm
      rw [this]; exact hd
    by_cases hany : (outs ++ ins).any (·.closed)
    · rw [if_pos hany]
      have hco : ∃ b ∈ outs, b.closed = true := by
        rw [List.any_eq_true] at hany
        obtain ⟨b, hb, hbc⟩ := hany
        rw [List.mem_append] at hb
        rcases hb with hb | hb
        · exact ⟨b, hb, hbc⟩
        · rw [hins b hb] at hbc; cases hbc
      have hsub : ∀ p ∈ trace st.chain, p ∈ outs := by
        rw [h1]
        clear hap hmatch h3 h4 hany h1
        induction outs with
        | nil => obtain ⟨b, hb, _⟩ := hco; cases hb
        | cons x xs ih =>
          intro p hp
          rw [List.cons_append, trace] at hp
          split at hp
          · rw [List.mem_singleton] at hp; simp [hp]
          · rename_i hx
            rw [List.mem_cons] at hp
            rcases hp with rfl | hp
            · simp
            · refine List.mem_cons_of_mem _ (ih ?_ p hp)
              obtain ⟨b, hb, hbc⟩ := hco
              rw [List.mem_cons] at hb
              rcases hb with rfl | hb
              · exact absurd hbc hx
              · exact ⟨b, hb, hbc⟩
      rw [List.find?_eq_none.2]
      · rfl
      · intro p hp
        simp only [decide_eq_true_eq]
        intro hd
        exact h3 p (hsub p hp) (trace_sub _ p (hmatch p (trace_sub _ p hp) hd))
    · rw [if_neg hany]
      have houts : ∀ b ∈ outs, b.closed = false := by
        intro b hb
        by_contra hcl
        exact hany (List.any_eq_true.2 ⟨b, by simp [hb], by simpa using hcl⟩)
      have hrcom : r ∈ common := by
        rw [h1, List.mem_append] at hrm
        rcases hrm with hrm | hrm
        · exact absurd rm (h3 r hrm)
        · exact hrm
      obtain ⟨a, t, rfl⟩ : ∃ a t, common = a :: t := by
        cases common with
        | nil => cases hrcom
        | cons a t => exact ⟨a, t, rfl⟩
      have hatr : a ∈ trace c.chain := by
        rw [h2, trace_open hins, trace]
        split <;> simp
      have hfind : (trace st.chain).find? (fun p => decide (∃ d ∈ trace c.chain, d.point = p.point)) = some a := by
        rw [h1, trace_open houts, List.find?_append, List.find?_eq_none.2, Option.none_or, trace]
        · split <;> rw [List.find?_cons_of_pos (by simp only [decide_eq_true_eq]; exact ⟨a, hatr, rfl⟩)]
        · intro p hp
          simp only [decide_eq_true_eq]
          intro hd
          exact h3 p hp (trace_sub _ p (hmatch p (by rw [h1]; simp [hp]) hd))
      rw [hfind, Option.elim_some]
      -- the new chain
      obtain ⟨u, v, e1, e2, e3⟩ := trace_root r1
      have htail : (st.chain.dropWhile fun b => b.id ≠ r.id).drop 1 = v := by
        obtain ⟨r', w, hdw⟩ : ∃ r' w, (st.chain.dropWhile fun b => b.id ≠ r.id) = r' :: w := by
          cases hl : st.chain.dropWhile fun b => b.id ≠ r.id with
          | nil =>
            have hsp : st.chain = st.chain.takeWhile fun b => b.id ≠ r.id := by
              conv_lhs => rw [← List.takeWhile_append_dropWhile (p := fun b : Barrier => decide (b.id ≠ r.id)) (l := st.chain), hl, List.append_nil]
            rw [hsp] at hrm
            have := takeWhile_prop hrm
            simp at this
          | cons r' w => exact ⟨r', w, rfl⟩
        have hid : r'.id = r.id := by
          have := List.head?_dropWhile_not (fun b : Barrier => decide (b.id ≠ r.id)) st.chain
          rw [hdw] at this
          simpa using this
        have hsp : st.chain = (st.chain.takeWhile fun b => b.id ≠ r.id) ++ r' :: w := by rw [← hdw, List.takeWhile_append_dropWhile]
        rw [hdw, List.drop_one, List.tail_cons]
        exact (h.tree _ hX _ hY _ r' w hsp u r v e1 hid).2
      have hdest : (trace c.chain).takeWhile (fun b => b.point ≠ a.point) = ins := by
        have hs : Sorted (trace c.chain) := (h.sorted _ hY).sublist (trace_sublist _)
        rw [h2, trace_open hins, trace] at hs ⊢
        split
        · rename_i ha; rw [if_pos ha] at hs; exact takeWhile_points hs
        · rename_i ha; rw [if_neg ha] at hs; exact takeWhile_points hs
      have hcur : st.chain.takeWhile (fun b => b.point ≠ a.point) = outs := by
        have hs := h.sorted _ hX
        rw [h1] at hs ⊢
        exact takeWhile_points hs
      unfold jump
      rw [htail, hdest, hcur, e2]
      have : u ++ [r] ++ v = c.chain := by rw [e1]; simp
      rw [this, List.append_assoc]
      rfl

theorem inv_jump {st : St} (h : Inv st) {c : Cont} (hc : c ∈ st.conts) {outs ins common : List Barrier} (h1 : st.chain = outs ++ common) (h2 : c.chain = ins ++ common)
    (ho : ∀ b ∈ outs ++ ins, b.closed = false) (l : List (Bool × Nat)) : Inv { st with chain := c.chain, log := l } := by
  have hY : c.chain ∈ st.chains := by simp only [St.chains, List.mem_cons, List.mem_map]; exact Or.inr ⟨c, hc, rfl⟩
  have hmem : ∀ X ∈ ({ st with chain := c.chain, log := l } : St).chains, X ∈ st.chains := by
    intro X hX
    simp only [St.chains, List.mem_cons] at hX
    rcases hX with rfl | hX
    · exact hY
    · unfold St.chains; exact List.mem_cons_of_mem _ hX
  refine ⟨fun X hX => h.sorted X (hmem X hX), fun X hX Y hY => h.tree X (hmem X hX) Y (hmem Y hY), fun X hX => h.fresh X (hmem X hX), ?_⟩
  intro d hd
  obtain ⟨r, r1, r2, r3⟩ := h.rooted d hd
  refine ⟨r, r1, r2, ?_⟩
  rw [r3]
  have rc := (root_mem r1).2
  show r ∈ st.chain ↔ r ∈ c.chain
  rw [h1, h2, List.mem_append, List.mem_append]
  constructor
  · rintro (hr | hr)
    · rw [ho r (by simp [hr])] at rc; cases rc
    · exact Or.inr hr
  · rintro (hr | hr)
    · rw [ho r (by simp [hr])] at rc; cases rc
    · exact Or.inr hr

/-- The positions are apart whenever a continuation is invoked. -/
def ApartRun : St → List Ev → Prop
  | _, [] => True
  | st, e :: es => (∀ k, e = .invoke k → Apart st k) ∧ ∀ st', step st e = some st' → ApartRun st' es

theorem inv_step {st : St} (h : Inv st) (e : Ev) (hap : ∀ k, e = .invoke k → Apart st k) : ∃ st', step st e = some st' ∧ Inv st' := by
  cases e with
  | enter p c => exact ⟨_, rfl, inv_enter h p c⟩
  | exit => exact ⟨_, rfl, inv_exit h⟩
  | capture => exact ⟨_, rfl, inv_capture h⟩
  | invoke k =>
    cases hc : st.conts[k]? with
    | none =>
      refine ⟨st, ?_, h⟩
      have : invoke st k = .refused := by unfold invoke; rw [hc]
      show (invoke st k).after st = _
      rw [this]
      rfl
    | some c =>
      obtain ⟨outs, ins, common, h1, h2, h3, h4, h5⟩ := invoke_spec h hc (hap k rfl)
      by_cases hany : (outs ++ ins).any (·.closed)
      · rw [if_pos hany] at h5
        refine ⟨st, ?_, h⟩
        show (invoke st k).after st = _
        rw [h5]
        rfl
      · rw [if_neg hany] at h5
        refine ⟨_, by show (invoke st k).after st = _; rw [h5]; rfl, inv_jump h (List.mem_of_getElem? hc) h1 h2 ?_ _⟩
        intro b hb
        by_contra hcl
        exact hany (List.any_eq_true.2 ⟨b, hb, by simpa using hcl⟩)

theorem inv_run : ∀ (es : List Ev) (st : St), Inv st → ApartRun st es → ∃ st', run st es = some st' ∧ Inv st' := by
  intro es
  induction es with
  | nil => intro st h _; exact ⟨st, rfl, h⟩
  | cons e es ih =>
    rintro st h ⟨ha, hr⟩
    obtain ⟨s1, h1, h2⟩ := inv_step h e ha
    obtain ⟨s2, h3, h4⟩ := ih s1 h2 (hr s1 h1)
    exact ⟨s2, by rw [run, h1, Option.bind_some, h3], h4⟩

/-- C28, in part.  The barriers of the present stack and those at the time of call/cc have a
common outer part.  If one of the others is closed, then the continuation is refused.
Otherwise control leaves the others of the present stack, innermost first, enters those of
the continuation, outermost first, and the barriers are those at the time of call/cc.
Missing are histories in which a barrier is at the position of another one that only exists
in the continuation's copy of the stack. -/
theorem C28_partial {es : List Ev} {st : St} (hes : ApartRun {} es) (hr : run {} es = some st) {k : Nat} {c : Cont} (hc : st.conts[k]? = some c) (hap : Apart st k) :
    ∃ outs ins common, st.chain = outs ++ common ∧ c.chain = ins ++ common ∧ (∀ b ∈ outs, b ∉ c.chain) ∧ (∀ b ∈ ins, b ∉ st.chain) ∧
      invoke st k = if (outs ++ ins).any (·.closed) then .refused else .ok { st with chain := c.chain, log := st.log ++ passes outs ins } := by
  obtain ⟨s', h1, h2⟩ := inv_run es {} inv_init hes
  rw [hr] at h1
  cases h1
  exact invoke_spec h2 hc hap

/-- C28, in part: memory that is no longer a barrier is never used as one. -/
theorem C28_defined_partial {es : List Ev} (hes : ApartRun {} es) : ∃ st, run {} es = some st := by
  obtain ⟨s', h1, _⟩ := inv_run es {} inv_init hes
  exact ⟨s', h1⟩

/-- C28.  `continuation-callable-p` tells whether invoking the continuation would work. -/
theorem C28_callable (st : St) (k : Nat) : callable st k = some true ↔ ∃ st', invoke st k = .ok st' := by
  unfold callable invoke
  cases st.conts[k]? with
  | none => simp
  | some c =>
    dsimp only
    by_cases hv : c.valid = false
    · simp [hv]
    · rw [if_neg hv, if_neg hv]
      cases root c.chain with
      | none => simp
      | some r =>
        dsimp only
        by_cases hr : r ∈ st.chain
        · rw [if_pos hr, if_pos hr]
          cases ancestor (trace c.chain) st.chain 0 <;> simp
        · rw [if_neg hr, if_neg hr]; simp

/-- C28 fails: an open barrier is left, and a closed barrier is made at the same position; a
continuation from inside the open barrier can be invoked from inside the closed one. -/
theorem C28_crossing_violated :
    ∃ st st', run {} [.enter 1 true, .enter 2 false, .capture, .exit, .enter 2 true] = some st ∧ st.chain.map (·.closed) = [true, true] ∧
      invoke st 0 = .ok st' ∧ st'.chain.map (·.closed) = [false, true] ∧ st'.log = st.log := by
  exact ⟨_, _, rfl, by decide, rfl, by decide, by decide⟩

/-- C28 fails: the functions of the two barriers at the same position are not called. -/
theorem C28_functions_violated :
    ∃ st st', run {} [.enter 1 true, .enter 2 false, .capture, .exit, .enter 2 false] = some st ∧
      invoke st 0 = .ok st' ∧ st.chain.map (·.id) = [2, 0] ∧ st'.chain.map (·.id) = [1, 0] ∧ st'.log = st.log := by
  exact ⟨_, _, rfl, rfl, by decide, by decide, by decide⟩

/-! ### C46: dynamic-wind -/

/-- Follow the passages through a barrier: inside (true) or outside; `none` if control goes
inwards when it is inside, or outwards when it is outside. -/
def walk (s : Bool) : List Bool → Option Bool
  | [] => some s
  | b :: bs => if b = s then none else walk b bs

/-- The passages through a barrier. -/
def St.through (st : St) (id : Nat) : List Bool := (st.log.filter fun p => p.2 = id).map Prod.fst

theorem walk_append (s : Bool) (l m : List Bool) : walk s (l ++ m) = (walk s l).bind fun s => walk s m := by
  induction l generalizing s with
  | nil => rfl
  | cons b bs ih =>
    rw [List.cons_append, walk, walk]
    split
    · rfl
    · exact ih b

/-- Control is where the passages tell. -/
def Wound (st : St) : Prop := ∀ id, walk false (st.through id) = some (decide (id ∈ st.chain.map (·.id)))

theorem filter_ids {l : List Barrier} (hn : (l.map (·.id)).Nodup) (v : Bool) (id : Nat) :
    ((l.map fun b => (v, b.id)).filter fun p => p.2 = id).map Prod.fst = if id ∈ l.map (·.id) then [v] else [] := by
  induction l with
  | nil => rfl
  | cons b bs ih =>
    rw [List.map_cons, List.nodup_cons] at hn
    rw [List.map_cons]
    by_cases hb : b.id = id
    · rw [List.filter_cons_of_pos (by simpa using hb), List.map_cons, ih hn.2, if_neg (by rw [← hb]; exact hn.1), if_pos (by simp [hb])]
    · rw [List.filter_cons_of_neg (by simpa using hb), ih hn.2]
      simp [Ne.symm hb]

theorem tree_nodup {X : List Barrier} (h : Tree X X) : (X.map (·.id)).Nodup := by
  have : ∀ p Y, X = p ++ Y → (Y.map (·.id)).Nodup := by
    intro p Y
    induction Y generalizing p with
    | nil => intro _; exact List.nodup_nil
    | cons y ys ih =>
      intro hX
      rw [List.map_cons, List.nodup_cons]
      refine ⟨?_, ih (p ++ [y]) (by simp [hX])⟩
      intro hm
      obtain ⟨z, hz, hid⟩ := List.mem_map.1 hm
      obtain ⟨u, v, rfl⟩ := List.append_of_mem hz
      have := (h p y (u ++ z :: v) hX (p ++ y :: u) z v (by simp [hX]) hid.symm).2
      have hl := congrArg List.length this
      simp at hl
      omega
  exact this [] X rfl

theorem wound_step {st st' : St} (h : Inv st) (hw : Wound st) {e : Ev} (hap : ∀ k, e = .invoke k → Apart st k) (hs : step st e = some st') : Wound st' := by
  have hX : st.chain ∈ st.chains := by simp [St.chains]
  cases e with
  | enter p c =>
    cases hs
    unfold enter
    split
    · intro id
      have hnew : st.next ∉ st.chain.map (·.id) := by
        intro hm
        obtain ⟨b, hb, hid⟩ := List.mem_map.1 hm
        have := h.fresh _ hX b hb
        omega
      have := hw id
      unfold St.through at this ⊢
      dsimp only
      rw [List.filter_append, List.map_append, walk_append, this, Option.bind_some]
      by_cases hid : st.next = id
      · rw [List.filter_cons_of_pos (by simpa using hid)]
        subst hid
        simp only [hnew, decide_false]
        simp [walk]
      · rw [List.filter_cons_of_neg (by simpa using hid)]
        simp [walk, Ne.symm hid]
    · exact hw
  | exit =>
    cases hs
    unfold exit
    split
    · exact hw
    · rename_i b bs hb
      intro id
      have hn := tree_nodup (h.tree _ hX _ hX)
      rw [hb, List.map_cons, List.nodup_cons] at hn
      have := hw id
      unfold St.through at this ⊢
      dsimp only
      rw [List.filter_append, List.map_append, walk_append, this, Option.bind_some, hb]
      by_cases hid : b.id = id
      · rw [List.filter_cons_of_pos (by simpa using hid)]
        subst hid
        simp only [hn.1]
        simp [walk]
      · rw [List.filter_cons_of_neg (by simpa using hid)]
        simp [walk, Ne.symm hid]
  | capture =>
    cases hs
    unfold capture
    cases root st.chain <;> exact hw
  | invoke k =>
    cases hc : st.conts[k]? with
    | none =>
      have : invoke st k = .refused := by unfold invoke; rw [hc]
      change (invoke st k).after st = some st' at hs
      rw [this] at hs
      cases hs
      exact hw
    | some c =>
      obtain ⟨outs, ins, common, h1, h2, h3, h4, h5⟩ := invoke_spec h hc (hap k rfl)
      change (invoke st k).after st = some st' at hs
      rw [h5] at hs
      by_cases hany : (outs ++ ins).any (·.closed)
      · rw [if_pos hany] at hs; cases hs; exact hw
      · rw [if_neg hany] at hs
        cases hs
        intro id
        have hY : c.chain ∈ st.chains := by simp only [St.chains, List.mem_cons, List.mem_map]; exact Or.inr ⟨c, List.mem_of_getElem? hc, rfl⟩
        have hn1 := tree_nodup (h.tree _ hX _ hX)
        have hn2 := tree_nodup (h.tree _ hY _ hY)
        rw [h1, List.map_append, List.nodup_append] at hn1
        rw [h2, List.map_append, List.nodup_append] at hn2
        have hnr : (ins.reverse.map (·.id)).Nodup := by rw [List.map_reverse]; exact (List.reverse_perm _).nodup_iff.2 hn2.1
        -- a number in both belongs to a common barrier
        have hdisj : ∀ j ∈ outs.map (·.id), j ∉ ins.map (·.id) := by
          intro j hj hj'
          obtain ⟨b, hb, rfl⟩ := List.mem_map.1 hj
          obtain ⟨b', hb', hid⟩ := List.mem_map.1 hj'
          obtain ⟨u, v, rfl⟩ := List.append_of_mem hb
          obtain ⟨u', v', rfl⟩ := List.append_of_mem hb'
          have := (h.tree _ hX _ hY u b (v ++ common) (by rw [h1]; simp) u' b' (v' ++ common) (by rw [h2]; simp) hid.symm).1
          subst this
          exact h4 b hb' (by rw [h1]; simp)
        have := hw id
        unfold St.through at this ⊢
        unfold passes
        dsimp only
        rw [List.filter_append, List.map_append, List.filter_append, List.map_append, filter_ids hn1.1, filter_ids hnr, walk_append, this, Option.bind_some, h1, h2, walk_append]
        have hmr : id ∈ ins.reverse.map (·.id) ↔ id ∈ ins.map (·.id) := by rw [List.map_reverse, List.mem_reverse]
        simp only [hmr, List.map_append, List.mem_append]
        by_cases ho : id ∈ outs.map (·.id)
        · have h6 := hdisj id ho
          have h7 : id ∉ common.map (·.id) := fun hm => hn1.2.2 id ho id hm rfl
          simp only [ho, h6, h7]
          simp [walk]
        · by_cases hi : id ∈ ins.map (·.id)
          · have h7 : id ∉ common.map (·.id) := fun hm => hn2.2.2 id hi id hm rfl
            simp only [ho, hi, h7]
            simp [walk]
          · simp only [ho, hi]
            simp [walk]

theorem wound_run : ∀ (es : List Ev) (st st' : St), Inv st → Wound st → ApartRun st es → run st es = some st' → Wound st' := by
  intro es
  induction es with
  | nil => intro st st' _ hw _ hr; cases hr; exact hw
  | cons e es ih =>
    rintro st st' h hw ⟨ha, hrest⟩ hr
    obtain ⟨s1, h1, h2⟩ := inv_step h e ha
    rw [run, h1, Option.bind_some] at hr
    exact ih s1 st' h2 (wound_step h hw ha h1) (hrest s1 h1) hr

/-- C46, in part.  Control passes a barrier inwards and outwards in turn, starting inwards,
and it has last passed inwards if and only if it is inside.  For a barrier of `dynamic-wind`
these passages are the calls of BEFORE and AFTER.  Missing: as for C28. -/
theorem C46_partial {es : List Ev} {st : St} (hes : ApartRun {} es) (hr : run {} es = some st) (id : Nat) :
    walk false (st.through id) = some (decide (id ∈ st.chain.map (·.id))) :=
  wound_run es {} st inv_init (fun _ => rfl) hes hr id

/-- C46 fails: BEFORE is not called although control comes inside. -/
theorem C46_violated :
    ∃ st, run {} [.enter 1 true, .enter 2 false, .capture, .exit, .enter 2 false, .invoke 0] = some st ∧
      1 ∈ st.chain.map (·.id) ∧ st.through 1 = [true, false] := by
  exact ⟨_, rfl, by decide, by decide⟩

/-! ### The hypotheses can be met -/

/-- Two open barriers, two others at other positions, and two jumps. -/
def sample : List Ev :=
  [.enter 1 true, .enter 2 false, .enter 3 false, .enter 4 false, .capture, .exit, .exit, .enter 5 false, .enter 6 false, .capture, .invoke 0, .invoke 1]

def apartB (st : St) (k : Nat) : Bool :=
  st.conts[k]?.all fun c => st.chain.all fun b => c.chain.all fun b' => !(b.point == b'.point) || (b == b')

theorem apart_of {st : St} {k : Nat} (h : apartB st k = true) : Apart st k := by
  intro c hc _ b hb b' hb' hp
  unfold apartB at h
  rw [hc, Option.all_some, List.all_eq_true] at h
  have := h b hb
  rw [List.all_eq_true] at this
  have := this b' hb'
  simp only [hp, beq_self_eq_true, Bool.not_true, Bool.false_or, beq_iff_eq] at this
  exact this

def apartRunB : St → List Ev → Bool
  | _, [] => true
  | st, e :: es => (match e with | .invoke k => apartB st k | _ => true) && (step st e).all fun st => apartRunB st es

theorem apartRun_of : ∀ (es : List Ev) (st : St), apartRunB st es = true → ApartRun st es := by
  intro es
  induction es with
  | nil => intro _ _; trivial
  | cons e es ih =>
    intro st h
    simp only [apartRunB, Bool.and_eq_true] at h
    refine ⟨?_, ?_⟩
    · rintro k rfl; exact apart_of h.1
    · intro st' hs
      rw [hs, Option.all_some] at h
      exact ih st' h.2

example : ApartRun {} sample := apartRun_of _ _ (by decide)
example : (run {} sample).map (fun st => (st.chain.map (·.id), st.log.drop 8)) =
    some ([5, 4, 1, 0], [(false, 5), (false, 4), (true, 2), (true, 3), (false, 3), (false, 2), (true, 4), (true, 5)]) := by decide

/-- A closed barrier is not crossed. -/
example : ∃ st, run {} [.enter 1 true, .enter 2 false, .capture, .enter 3 true] = some st ∧ Apart st 0 ∧ invoke st 0 = .refused :=
  ⟨_, rfl, apart_of (by decide), rfl⟩

end Rep.Barriers
