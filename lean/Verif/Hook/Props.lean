/-
Property C75: `call-hook` calls the functions of a hook in order, once each, while the hook is changed.
-/
import Verif.Hook.Model
import Mathlib.Data.List.Perm.Subperm
import Mathlib.Data.List.Nodup
import Mathlib.Data.List.TakeWhile
import Mathlib.Tactic.Tauto

namespace Rep.Hook

/-! ### Lists of cells -/

/-- A list of cells. -/
def Chain (cdr : Nat → Option Nat) : Option Nat → List Nat → Prop
  | l, [] => l = none
  | l, c :: cs => l = some c ∧ Chain cdr (cdr c) cs

theorem chain_congr {cdr cdr' : Nat → Option Nat} : ∀ {l : List Nat} {k : Option Nat}, (∀ x ∈ l, cdr' x = cdr x) → Chain cdr k l → Chain cdr' k l := by
  intro l
  induction l with
  | nil => intro k _ h; exact h
  | cons c l ih =>
    intro k hc h
    refine ⟨h.1, ?_⟩
    rw [hc c List.mem_cons_self]
    exact ih (fun x hx => hc x (List.mem_cons_of_mem _ hx)) h.2

theorem chain_unique {cdr : Nat → Option Nat} : ∀ {l m : List Nat} {k : Option Nat}, Chain cdr k l → Chain cdr k m → l = m := by
  intro l
  induction l with
  | nil =>
    intro m k h h'
    cases m with
    | nil => rfl
    | cons c m => have e1 : k = none := h; rw [e1] at h'; exact nomatch h'.1
  | cons c l ih =>
    intro m k h h'
    cases m with
    | nil => have e1 : k = none := h'; rw [e1] at h; exact nomatch h.1
    | cons d m =>
      have : c = d := by have := h.1.symm.trans h'.1; cases this; rfl
      subst this
      rw [ih h.2 h'.2]

theorem cellsFrom_eq {cdr : Nat → Option Nat} : ∀ {l : List Nat} {k : Option Nat} {n : Nat}, Chain cdr k l → l.length ≤ n → cellsFrom cdr n k = l := by
  intro l
  induction l with
  | nil => intro k n h _; have e : k = none := h; subst e; unfold cellsFrom; rfl
  | cons c l ih =>
    intro k n h hn
    obtain ⟨rfl, h2⟩ := h
    cases n with
    | zero => simp at hn
    | succ n => unfold cellsFrom; rw [ih h2 (by simp at hn; exact hn)]

theorem chain_split {cdr : Nat → Option Nat} : ∀ {A B : List Nat} {k : Option Nat}, Chain cdr k (A ++ B) → Chain cdr B.head? B ∧
    ∀ (C : List Nat), Chain cdr B.head? C → Chain cdr k (A ++ C) := by
  intro A B
  induction A with
  | nil =>
    intro k h
    cases B with
    | nil => have e : k = none := h; subst e; exact ⟨rfl, fun C hC => hC⟩
    | cons b B => have e := h.1; subst e; exact ⟨h, fun C hC => hC⟩
  | cons a A ih =>
    intro k h
    obtain ⟨h1, h2⟩ := ih h.2
    exact ⟨h1, fun C hC => ⟨h.1, h2 C hC⟩⟩

theorem length_le {l : List Nat} {n : Nat} (hn : l.Nodup) (hb : ∀ s ∈ l, s < n) : l.length ≤ n := by
  have := (List.Nodup.subperm hn (l₂ := List.range n) fun s hs => List.mem_range.mpr (hb s hs)).length_le
  rwa [List.length_range] at this

/-! ### Taking out -/

/-- The loop of `delete`, where `A` are the cells that were kept and `l` those that come. -/
theorem deleteLoop_eq (p : Nat → Bool) : ∀ (l : List Nat) (A : List Nat) (k : Nat) (cur : Option Nat) (st : St), l.length ≤ k → (A ++ l).Nodup → Chain st.cdr st.hook (A ++ l) →
    Chain st.cdr cur l → (∀ a ∈ A, p (st.car a) = false) →
    ∃ st', deleteLoop p k A.getLast? cur st = st' ∧ Chain st'.cdr st'.hook (A ++ l.filter fun c => !p (st.car c)) ∧ (∀ x, (x ∉ A ++ l ∨ p (st.car x) = true) → st'.cdr x = st.cdr x) ∧
      st'.car = st.car ∧ st'.count = st.count ∧ st'.walkers = st.walkers ∧ st'.ids = st.ids := by
  intro l
  induction l with
  | nil =>
    intro A k cur st _ _ hch hcur _
    have e : cur = none := hcur
    subst e
    refine ⟨st, ?_, by simpa using hch, fun _ _ => rfl, rfl, rfl, rfl, rfl⟩
    unfold deleteLoop; rfl
  | cons c l ih =>
    intro A k cur st hk hn hch hcur hA
    obtain ⟨rfl, hcur⟩ := hcur
    cases k with
    | zero => simp at hk
    | succ k =>
      have hk : l.length ≤ k := by simpa using hk
      unfold deleteLoop
      cases hp : p (st.car c) with
      | true =>
        simp only [if_true]
        -- the link before `c` is set to what follows it
        have hnA : ∀ a ∈ A, a ≠ c := by
          rintro a ha rfl
          have := List.nodup_append.mp hn
          exact this.2.2 _ ha _ List.mem_cons_self rfl
        have hcl : c ∉ l := by
          have := (List.nodup_append.mp hn).2.1
          exact (List.nodup_cons.mp this).1
        have hn' : (A ++ l).Nodup := by
          refine hn.sublist ?_
          exact List.Sublist.append (List.Sublist.refl A) (List.sublist_cons_self c l)
        have hset : Chain (st.setLink A.getLast? (st.cdr c)).cdr (st.setLink A.getLast? (st.cdr c)).hook (A ++ l) ∧
            (∀ x, x ∉ A → (st.setLink A.getLast? (st.cdr c)).cdr x = st.cdr x) ∧ (st.setLink A.getLast? (st.cdr c)).car = st.car ∧ (st.setLink A.getLast? (st.cdr c)).count = st.count ∧
            (st.setLink A.getLast? (st.cdr c)).walkers = st.walkers ∧ (st.setLink A.getLast? (st.cdr c)).ids = st.ids := by
          rcases List.eq_nil_or_concat A with rfl | ⟨B, b, rfl⟩
          · refine ⟨?_, fun _ _ => rfl, rfl, rfl, rfl, rfl⟩
            simpa [St.setLink] using hcur
          · have e : (B ++ [b]).getLast? = some b := by simp
            rw [List.concat_eq_append] at *
            rw [e]
            refine ⟨?_, ?_, rfl, rfl, rfl, rfl⟩
            · show Chain (fun x => if x = b then st.cdr c else st.cdr x) st.hook _
              have hbB : ∀ x ∈ B, x ≠ b := by
                rintro x hx rfl
                have h1 := (List.nodup_append.mp hn).1
                have := (List.nodup_append.mp h1).2.2 x hx x (by simp)
                exact this rfl
              have hbl : ∀ x ∈ l, x ≠ b := by
                rintro x hx rfl
                have := (List.nodup_append.mp hn).2.2 x (by simp) x (List.mem_cons_of_mem _ hx)
                exact this rfl
              rw [List.append_assoc] at hch ⊢
              have hB := chain_split hch
              have hch' : Chain (fun x => if x = b then st.cdr c else st.cdr x) st.hook (B ++ ([b] ++ (c :: l))) ∨ True := .inr trivial
              -- rebuild the chain cell by cell
              have key : ∀ (B : List Nat) (k : Option Nat), (∀ x ∈ B, x ≠ b) → Chain st.cdr k (B ++ ([b] ++ c :: l)) → Chain (fun x => if x = b then st.cdr c else st.cdr x) k (B ++ ([b] ++ l)) := by
                intro B
                induction B with
                | nil =>
                  intro k _ h
                  refine ⟨h.1, ?_⟩
                  simp only [if_true]
                  exact chain_congr (fun x hx => if_neg (hbl x hx)) hcur
                | cons x B ih =>
                  intro k hB h
                  refine ⟨h.1, ?_⟩
                  simp only [if_neg (hB x List.mem_cons_self)]
                  exact ih _ (fun y hy => hB y (List.mem_cons_of_mem _ hy)) h.2
              exact key B _ hbB hch
            · intro x hx
              show (if x = b then _ else _) = _
              rw [if_neg]
              rintro rfl
              exact hx (by simp)
        obtain ⟨s1, s2, s3, s4, s5, s6⟩ := hset
        have hcur' : Chain (st.setLink A.getLast? (st.cdr c)).cdr (st.cdr c) l := by
          refine chain_congr (fun x hx => s2 x ?_) hcur
          intro hxA
          exact (List.nodup_append.mp hn').2.2 x hxA x hx rfl
        obtain ⟨st', e, h1, h2, h3, h4, h5, h6⟩ := ih A k (st.cdr c) (st.setLink A.getLast? (st.cdr c)) hk hn' s1 hcur' (by rw [s3]; exact hA)
        refine ⟨st', e, ?_, ?_, h3.trans s3, h4.trans s4, h5.trans s5, h6.trans s6⟩
        · rw [s3] at h1
          rw [List.filter_cons_of_neg (by simp [hp])]
          exact h1
        · intro x hx
          have hxA : x ∉ A := by
            rcases hx with hx | hx
            · exact fun h => hx (List.mem_append_left _ h)
            · intro h; rw [hA x h] at hx; cases hx
          rw [h2 x ?_, s2 x hxA]
          rw [s3]
          rcases hx with hx | hx
          · left; intro h; exact hx (by rcases List.mem_append.mp h with h | h <;> simp [h])
          · exact .inr hx
      | false =>
        simp only [Bool.false_eq_true, if_false]
        have := ih (A ++ [c]) k (st.cdr c) st hk (by simpa using hn) (by simpa using hch) hcur (by
          intro a ha
          rcases List.mem_append.mp ha with ha | ha
          · exact hA a ha
          · simp only [List.mem_singleton] at ha; rw [ha]; exact hp)
        have e : (A ++ [c]).getLast? = some c := by simp
        rw [e] at this
        obtain ⟨st', e, h1, h2, h3⟩ := this
        refine ⟨st', e, ?_, ?_, h3⟩
        · rw [List.filter_cons_of_pos (by simp [hp])]
          simpa using h1
        · intro x hx
          exact h2 x (by simpa using hx)

/-- The loop of `nconc`. -/
theorem nconcLoop_eq (new : Nat) : ∀ (l : List Nat) (A : List Nat) (k : Nat) (cur : Option Nat) (st : St), l.length ≤ k → (A ++ l).Nodup → new ∉ A ++ l → st.cdr new = none →
    Chain st.cdr st.hook (A ++ l) → Chain st.cdr cur l →
    ∃ st', nconcLoop new k A.getLast? cur st = st' ∧ Chain st'.cdr st'.hook (A ++ l ++ [new]) ∧ (∀ x, some x ≠ (A ++ l).getLast? → st'.cdr x = st.cdr x) ∧
      st'.car = st.car ∧ st'.count = st.count ∧ st'.walkers = st.walkers ∧ st'.ids = st.ids := by
  intro l
  induction l with
  | nil =>
    intro A k cur st _ hn hnew hcd hch hcur
    have e : cur = none := hcur
    subst e
    have e1 : nconcLoop new k A.getLast? none st = st.setLink A.getLast? (some new) := by unfold nconcLoop; rfl
    refine ⟨_, e1, ?_⟩
    simp only [List.append_nil] at *
    rcases List.eq_nil_or_concat A with rfl | ⟨B, b, rfl⟩
    · exact ⟨⟨rfl, hcd⟩, fun _ _ => rfl, rfl, rfl, rfl, rfl⟩
    · rw [List.concat_eq_append] at *
      have e : (B ++ [b]).getLast? = some b := by simp
      rw [e]
      have hnb : new ≠ b := by rintro rfl; exact hnew (by simp)
      refine ⟨?_, ?_, rfl, rfl, rfl, rfl⟩
      · show Chain (fun x => if x = b then some new else st.cdr x) st.hook _
        have hbB : ∀ x ∈ B, x ≠ b := by
          rintro x hx rfl
          exact (List.nodup_append.mp hn).2.2 _ hx _ (by simp) rfl
        have key : ∀ (B : List Nat) (k : Option Nat), (∀ x ∈ B, x ≠ b) → Chain st.cdr k (B ++ [b]) → Chain (fun x => if x = b then some new else st.cdr x) k (B ++ [b] ++ [new]) := by
          intro B
          induction B with
          | nil =>
            intro k _ h
            refine ⟨h.1, ?_, ?_⟩
            · simp
            · show (if new = b then _ else _) = _; rw [if_neg hnb]; exact hcd
          | cons x B ih =>
            intro k hB h
            refine ⟨h.1, ?_⟩
            simp only [if_neg (hB x List.mem_cons_self)]
            exact ih _ (fun y hy => hB y (List.mem_cons_of_mem _ hy)) h.2
        exact key B _ hbB hch
      · intro x hx
        show (if x = b then _ else _) = _
        rw [if_neg]
        rintro rfl
        exact hx rfl
  | cons c l ih =>
    intro A k cur st hk hn hnew hcd hch hcur
    obtain ⟨rfl, hcur⟩ := hcur
    cases k with
    | zero => simp at hk
    | succ k =>
      unfold nconcLoop
      have := ih (A ++ [c]) k (st.cdr c) st (by simpa using hk) (by simpa using hn) (by simpa using hnew) hcd (by simpa using hch) hcur
      have e : (A ++ [c]).getLast? = some c := by simp
      rw [e] at this
      obtain ⟨st', e, h1, h2, h3⟩ := this
      exact ⟨st', e, by simpa using h1, fun x hx => h2 x (by simpa using hx), h3⟩

/-! ### What is always so -/

/-- A call of `call-hook` in progress: `D` are cells that were taken out and are still ahead, `S` the rest of the hook. -/
structure WalkOk (st : St) (L : List Nat) (w : Walker) : Prop where
  path : ∃ D S, Chain st.cdr (some w.cur) (D ++ S) ∧ S <:+ L ∧ (∀ d ∈ D, d ∉ L) ∧ (∀ d ∈ D, d < st.count) ∧ (w.called ++ (D ++ S)).Sublist (w.orig ++ w.added) ∧
    ∀ c ∈ w.orig, c ∈ L → c ∈ w.called ++ (D ++ S)
  nodup : (w.orig ++ w.added).Nodup
  bound : ∀ c ∈ w.orig ++ w.added, c < st.count
  results : w.called.length = w.results.length ∧ ∀ r ∈ w.results, stops w.kind r = false

/-- The list of cells is a list, and calls are in order. -/
structure Inv (st : St) (L : List Nat) : Prop where
  chain : Chain st.cdr st.hook L
  nodup : L.Nodup
  bound : ∀ c ∈ L, c < st.count
  walkers : ∀ w ∈ st.walkers, WalkOk st L w
  ids : ∀ w ∈ st.walkers, w.id < st.ids
  uniq : ∀ w ∈ st.walkers, ∀ w' ∈ st.walkers, w.id = w'.id → w = w'

theorem Inv.cells {st : St} {L : List Nat} (h : Inv st L) : Hook.cells st = L := cellsFrom_eq h.chain (length_le h.nodup h.bound)

/-- What a finished call of `call-hook` has done. -/
structure OutOk (o : Out) : Prop where
  calls : ∃ rest, (o.called ++ rest).Sublist (o.orig ++ o.added) ∧ (∀ c ∈ o.orig, c ∈ o.left → c ∈ o.called ++ rest) ∧ (rest = [] ∨ ∃ r, o.results.getLast? = some r ∧ stops o.kind r = true)
  nodup : (o.orig ++ o.added).Nodup
  results : o.called.length = o.results.length ∧ (∀ r ∈ o.results.dropLast, stops o.kind r = false) ∧ o.result = o.results.getLast?.getD .nil

theorem suffix_chain {cdr : Nat → Option Nat} {k : Option Nat} {L S : List Nat} (h : Chain cdr k L) (hs : S <:+ L) : Chain cdr S.head? S := by
  obtain ⟨A, rfl⟩ := hs
  exact (chain_split h).1

theorem Inv.remove {st : St} {L : List Nat} (h : Inv st L) (p : Nat → Bool) : Inv (Hook.remove st p) (L.filter fun c => !p (st.car c)) ∧ (Hook.remove st p).car = st.car ∧
    (Hook.remove st p).walkers = st.walkers := by
  obtain ⟨st', e, h1, h2, h3, h4, h5, h6⟩ := deleteLoop_eq p L [] st.count st.hook st (length_le h.nodup h.bound) (by simpa using h.nodup) h.chain h.chain (by simp)
  have e : Hook.remove st p = st' := e
  rw [e]
  simp only [List.nil_append] at h1 h2
  refine ⟨⟨h1, h.nodup.filter _, ?_, ?_, ?_, ?_⟩, h3, h5⟩
  · intro c hc; rw [h4]; exact h.bound c (List.mem_filter.mp hc).1
  · rw [h5]
    intro w hw
    have wk := h.walkers w hw
    refine ⟨?_, wk.nodup, fun c hc => by rw [h4]; exact wk.bound c hc, wk.results⟩
    obtain ⟨D, S, hc, hs, hD, hDb, hsub, hin⟩ := wk.path
    have hSL : ∀ x ∈ S, x ∈ L := fun x hx => hs.subset hx
    -- the cells at the beginning of `S` that are taken out stay ahead
    have hfs : (S.filter fun c => !p (st.car c)) <:+ (L.filter fun c => !p (st.car c)) := by
      obtain ⟨A, rfl⟩ := hs
      rw [List.filter_append]; exact List.suffix_append _ _
    have hsplit : S.takeWhile (fun c => p (st.car c)) ++ S.dropWhile (fun c => p (st.car c)) = S := List.takeWhile_append_dropWhile
    have hfd : (S.dropWhile fun c => p (st.car c)).filter (fun c => !p (st.car c)) = S.filter fun c => !p (st.car c) := by
      conv_rhs => rw [← hsplit]
      rw [List.filter_append]
      have : (S.takeWhile fun c => p (st.car c)).filter (fun c => !p (st.car c)) = [] := by
        rw [List.filter_eq_nil_iff]
        intro x hx
        have := List.mem_takeWhile_imp hx
        simpa using this
      rw [this]; rfl
    have hchS' := suffix_chain h1 hfs
    have htw : ∀ x ∈ S.takeWhile (fun c => p (st.car c)), st'.cdr x = st.cdr x := fun x hx => h2 x (.inr (by simpa using List.mem_takeWhile_imp hx))
    refine ⟨D ++ S.takeWhile (fun c => p (st.car c)), S.filter fun c => !p (st.car c), ?_, hfs, ?_, ?_, ?_, ?_⟩
    · have hc' : Chain st.cdr (some w.cur) ((D ++ S.takeWhile (fun c => p (st.car c))) ++ S.dropWhile (fun c => p (st.car c))) := by rw [List.append_assoc, hsplit]; exact hc
      -- copy the part before the first cell that is kept
      have key : ∀ (A B C : List Nat) (k : Option Nat), (∀ x ∈ A, st'.cdr x = st.cdr x) → Chain st.cdr k (A ++ B) → (∀ k', Chain st.cdr k' B → Chain st'.cdr k' C) → Chain st'.cdr k (A ++ C) := by
        intro A
        induction A with
        | nil => intro B C k _ hch hBC; exact hBC k hch
        | cons a A ih =>
          intro B C k hA hch hBC
          refine ⟨hch.1, ?_⟩
          rw [hA a List.mem_cons_self]
          exact ih B C _ (fun x hx => hA x (List.mem_cons_of_mem _ hx)) hch.2 hBC
      refine key _ (S.dropWhile fun c => p (st.car c)) _ _ ?_ hc' ?_
      · intro x hx
        rcases List.mem_append.mp hx with hx | hx
        · exact h2 x (.inl (hD x hx))
        · exact htw x hx
      · intro k' hk'
        rw [← hfd] at hchS' ⊢
        cases hdw : S.dropWhile (fun c => p (st.car c)) with
        | nil => rw [hdw] at hk'; exact hk'
        | cons b B =>
          rw [hdw] at hk' hchS'
          have hb : p (st.car b) = false := by
            have := List.head?_dropWhile_not (fun c => p (st.car c)) S
            rw [hdw] at this
            simpa using this
          rw [List.filter_cons_of_pos (by simp [hb])] at hchS' ⊢
          rw [hk'.1]; exact hchS'
    · intro d hd hm
      rcases List.mem_append.mp hd with hd | hd
      · exact hD d hd (List.mem_filter.mp hm).1
      · have := (List.mem_filter.mp hm).2
        have h' := List.mem_takeWhile_imp hd
        simp [h'] at this
    · intro d hd
      rw [h4]
      rcases List.mem_append.mp hd with hd | hd
      · exact hDb d hd
      · exact h.bound d (hSL d (List.takeWhile_subset _ hd))
    · refine List.Sublist.trans ?_ hsub
      refine List.Sublist.append (List.Sublist.refl _) ?_
      rw [List.append_assoc]
      refine List.Sublist.append (List.Sublist.refl _) ?_
      conv_rhs => rw [← hsplit]
      rw [← hfd]
      exact List.Sublist.append (List.Sublist.refl _) List.filter_sublist
    · intro c hco hcL
      obtain ⟨hcL, hcp⟩ := List.mem_filter.mp hcL
      have := hin c hco hcL
      simp only [List.mem_append] at this ⊢
      rcases this with h | h | h
      · exact .inl h
      · exact .inr (.inl (.inl h))
      · exact .inr (.inr (List.mem_filter.mpr ⟨h, hcp⟩))
  · rw [h5, h6]; exact h.ids
  · rw [h5]; exact h.uniq

theorem Inv.addFront {st : St} {L : List Nat} (h : Inv st L) (f : Nat) : Inv (Hook.add st f false) (st.count :: L) := by
  have hfresh : ∀ x, x < st.count → (Hook.add st f false).cdr x = st.cdr x := fun x hx => if_neg (Nat.ne_of_lt hx)
  refine ⟨⟨rfl, ?_⟩, ?_, ?_, ?_, h.ids, h.uniq⟩
  · show Chain _ (if st.count = st.count then st.hook else _) L
    rw [if_pos rfl]
    exact chain_congr (fun x hx => hfresh x (h.bound x hx)) h.chain
  · exact List.nodup_cons.mpr ⟨fun hm => Nat.lt_irrefl _ (h.bound _ hm), h.nodup⟩
  · intro c hc
    show c < st.count + 1
    rcases List.mem_cons.mp hc with rfl | hc
    · omega
    · have := h.bound c hc; omega
  · intro w hw
    have wk := h.walkers w hw
    refine ⟨?_, wk.nodup, fun c hc => Nat.lt_succ_of_lt (wk.bound c hc), wk.results⟩
    obtain ⟨D, S, hc, hs, hD, hDb, hsub, hin⟩ := wk.path
    refine ⟨D, S, ?_, hs.trans (List.suffix_cons _ _), ?_, fun d hd => Nat.lt_succ_of_lt (hDb d hd), hsub, ?_⟩
    · refine chain_congr (fun x hx => hfresh x ?_) hc
      rcases List.mem_append.mp hx with hx | hx
      · exact hDb x hx
      · exact h.bound x (hs.subset hx)
    · intro d hd hm
      rcases List.mem_cons.mp hm with rfl | hm
      · exact Nat.lt_irrefl _ (hDb _ hd)
      · exact hD d hd hm
    · intro c hco hcL
      rcases List.mem_cons.mp hcL with rfl | hcL
      · exact absurd (wk.bound _ (List.mem_append_left _ hco)) (Nat.lt_irrefl _)
      · exact hin c hco hcL

theorem Inv.addEnd {st : St} {L : List Nat} (h : Inv st L) (f : Nat) : Inv (Hook.step st (.add f true)).1 (L ++ [st.count]) := by
  have hne : ∀ x, x < st.count → (st.cons f none).cdr x = st.cdr x := fun x hx => if_neg (Nat.ne_of_lt hx)
  have hch : Chain (st.cons f none).cdr (st.cons f none).hook L := chain_congr (fun x hx => hne x (h.bound x hx)) h.chain
  have hnew : st.count ∉ L := fun hm => Nat.lt_irrefl _ (h.bound _ hm)
  obtain ⟨st', e, h1, h2, h3, h4, h5, h6⟩ := nconcLoop_eq st.count L [] st.count st.hook (st.cons f none) (length_le h.nodup h.bound) (by simpa using h.nodup) (by simpa using hnew) (if_pos rfl)
    (by simpa using hch) hch
  simp only [List.nil_append] at h1 h2
  have e' : Hook.add st f true = st' := e
  have est : (Hook.step st (.add f true)).1 = { st' with walkers := st'.walkers.map fun w => { w with added := w.added ++ [st.count] } } := by
    have e2 : (Hook.step st (.add f true)).1 = { Hook.add st f true with walkers := (Hook.add st f true).walkers.map fun w => { w with added := w.added ++ [st.count] } } := rfl
    rw [e2, e']
  rw [est]
  have hcnt : st'.count = st.count + 1 := h4
  have hwk : st'.walkers = st.walkers := h5
  have hids : st'.ids = st.ids := h6
  refine ⟨h1, ?_, ?_, ?_, ?_, ?_⟩
  · rw [List.nodup_append]
    refine ⟨h.nodup, by simp, ?_⟩
    intro a ha b hb
    simp only [List.mem_singleton] at hb
    rw [hb]; exact Nat.ne_of_lt (h.bound a ha)
  · intro c hc
    show c < st'.count
    rw [hcnt]
    rcases List.mem_append.mp hc with hc | hc
    · have := h.bound c hc; omega
    · simp only [List.mem_singleton] at hc; omega
  · intro w' hw'
    obtain ⟨w, hw, rfl⟩ := List.mem_map.mp hw'
    rw [hwk] at hw
    have wk := h.walkers w hw
    have hbound : ∀ c ∈ w.orig ++ (w.added ++ [st.count]), c < st.count + 1 := by
      intro c hc
      rw [← List.append_assoc] at hc
      rcases List.mem_append.mp hc with hc | hc
      · exact Nat.lt_succ_of_lt (wk.bound c hc)
      · simp only [List.mem_singleton] at hc; omega
    refine ⟨?_, ?_, fun c hc => by show c < st'.count; rw [hcnt]; exact hbound c hc, wk.results⟩
    · obtain ⟨D, S, hc, hs, hD, hDb, hsub, hin⟩ := wk.path
      have hb : ∀ x ∈ D ++ S, x < st.count := by
        intro x hx
        rcases List.mem_append.mp hx with hx | hx
        · exact hDb x hx
        · exact h.bound x (hs.subset hx)
      have hDn : ∀ d ∈ D, d ∉ L ++ [st.count] := by
        intro d hd hm
        rcases List.mem_append.mp hm with hm | hm
        · exact hD d hd hm
        · simp only [List.mem_singleton] at hm; rw [hm] at hd; exact Nat.lt_irrefl _ (hDb _ hd)
      have hDb' : ∀ d ∈ D, d < st'.count := fun d hd => by rw [hcnt]; exact Nat.lt_succ_of_lt (hDb d hd)
      rcases List.eq_nil_or_concat S with rfl | ⟨T, t, rfl⟩
      · refine ⟨D, [], ?_, List.nil_suffix, hDn, hDb', ?_, ?_⟩
        · simp only [List.append_nil] at hc ⊢
          refine chain_congr (fun x hx => ?_) hc
          have hxL : x ∉ L := hD x hx
          show st'.cdr x = _
          rw [h2 x ?_, hne x (hDb x hx)]
          intro he
          exact hxL (List.mem_of_getLast? he.symm)
        · show (w.called ++ (D ++ [])).Sublist (w.orig ++ (w.added ++ [st.count]))
          rw [← List.append_assoc w.orig]
          exact hsub.trans (List.sublist_append_left _ _)
        · intro c hco hcL
          rcases List.mem_append.mp hcL with hcL | hcL
          · exact hin c hco hcL
          · simp only [List.mem_singleton] at hcL
            rw [hcL] at hco
            exact absurd (wk.bound _ (List.mem_append_left _ hco)) (Nat.lt_irrefl _)
      · rw [List.concat_eq_append] at *
        have hlast : L.getLast? = some t := by
          obtain ⟨A, rfl⟩ := hs
          rw [← List.append_assoc]; simp
        have hs' : (T ++ [t]) ++ [st.count] <:+ L ++ [st.count] := by
          obtain ⟨A, rfl⟩ := hs
          exact ⟨A, by simp⟩
        refine ⟨D, (T ++ [t]) ++ [st.count], ?_, hs', hDn, hDb', ?_, ?_⟩
        · -- follow the old path to the last cell
          have hSch := suffix_chain h1 hs'
          have key : ∀ (D : List Nat) (k : Option Nat), (∀ x ∈ D, st'.cdr x = st.cdr x) → Chain st.cdr k (D ++ (T ++ [t])) → Chain st'.cdr k (D ++ (T ++ [t] ++ [st.count])) := by
            intro D
            induction D with
            | nil =>
              intro k _ hk
              cases hTt : T ++ [t] with
              | nil => simp at hTt
              | cons b B =>
                rw [hTt] at hk hSch
                have hk : Chain st.cdr k (b :: B) := hk
                rw [hk.1]
                exact hSch
            | cons x D ih =>
              intro k hD hk
              refine ⟨hk.1, ?_⟩
              rw [hD x List.mem_cons_self]
              exact ih _ (fun y hy => hD y (List.mem_cons_of_mem _ hy)) hk.2
          refine key D _ (fun x hx => ?_) hc
          rw [h2 x ?_, hne x (hDb x hx)]
          rw [hlast]
          intro he
          cases he
          exact hD _ hx (hs.subset (by simp))
        · show (w.called ++ (D ++ (T ++ [t] ++ [st.count]))).Sublist (w.orig ++ (w.added ++ [st.count]))
          have := hsub.append (List.Sublist.refl [st.count])
          simpa [List.append_assoc] using this
        · intro c hco hcL
          rcases List.mem_append.mp hcL with hcL | hcL
          · have := hin c hco hcL
            simp only [List.mem_append] at this ⊢
            tauto
          · simp only [List.mem_singleton] at hcL
            rw [hcL] at hco
            exact absurd (wk.bound _ (List.mem_append_left _ hco)) (Nat.lt_irrefl _)
    · show (w.orig ++ (w.added ++ [st.count])).Nodup
      rw [← List.append_assoc, List.nodup_append]
      refine ⟨wk.nodup, by simp, ?_⟩
      intro a ha b hb
      simp only [List.mem_singleton] at hb
      rw [hb]; exact Nat.ne_of_lt (wk.bound a ha)
  · intro w' hw'
    obtain ⟨w, hw, rfl⟩ := List.mem_map.mp hw'
    rw [hwk] at hw
    show w.id < st'.ids
    rw [hids]; exact h.ids w hw
  · intro w1 hw1 w2 hw2 he
    obtain ⟨v1, hv1, rfl⟩ := List.mem_map.mp hw1
    obtain ⟨v2, hv2, rfl⟩ := List.mem_map.mp hw2
    rw [hwk] at hv1 hv2
    rw [h.uniq v1 hv1 v2 hv2 he]

theorem Inv.finish {st : St} {L : List Nat} (h : Inv st L) {w : Walker} (hw : w ∈ st.walkers) {res : Res} (hs : st.cdr w.cur = none ∨ stops w.kind res = true) : OutOk (Hook.finish st w res) := by
  have wk := h.walkers w hw
  obtain ⟨D, S, hc, hsf, hD, hDb, hsub, hin⟩ := wk.path
  cases hDS : D ++ S with
  | nil => rw [hDS] at hc; cases hc
  | cons x P =>
    rw [hDS] at hc hsub hin
    obtain ⟨hx, hP⟩ := hc
    cases hx
    refine ⟨⟨P, ?_, ?_, ?_⟩, wk.nodup, ?_, ?_, ?_⟩
    · show (w.called ++ [w.cur] ++ P).Sublist _
      rw [List.append_assoc]; exact hsub
    · intro c hco hcL
      have hcL : c ∈ Hook.cells st := hcL
      rw [h.cells] at hcL
      show c ∈ w.called ++ [w.cur] ++ P
      rw [List.append_assoc]; exact hin c hco hcL
    · rcases hs with hs | hs
      · left
        rw [hs] at hP
        cases P with
        | nil => rfl
        | cons y P => exact nomatch hP.1
      · right; exact ⟨res, by simp [Hook.finish], hs⟩
    · show (w.called ++ [w.cur]).length = (w.results ++ [res]).length
      simp [wk.results.1]
    · intro r hr
      have hr : r ∈ (w.results ++ [res]).dropLast := hr
      rw [List.dropLast_concat] at hr
      exact wk.results.2 r hr
    · simp [Hook.finish]

theorem Inv.step {st : St} {L : List Nat} (h : Inv st L) (e : Event) : (∃ L', Inv (Hook.step st e).1 L') ∧ ∀ o, (Hook.step st e).2 = some o → OutOk o := by
  cases e with
  | add f atEnd =>
    refine ⟨?_, fun o ho => nomatch ho⟩
    cases atEnd with
    | true => exact ⟨_, h.addEnd f⟩
    | false => exact ⟨_, h.addFront f⟩
  | remove p => exact ⟨⟨_, (h.remove p).1⟩, fun o ho => nomatch ho⟩
  | call kind =>
    cases hh : st.hook with
    | none =>
      have e1 : Hook.step st (.call kind) = ({ st with ids := st.ids + 1 }, some ⟨st.ids, kind, .nil, [], [], [], [], []⟩) := by simp only [Hook.step, hh]
      rw [e1]
      refine ⟨⟨L, h.chain, h.nodup, h.bound, fun w hw => ?_, fun w hw => Nat.lt_succ_of_lt (h.ids w hw), h.uniq⟩, ?_⟩
      · have wk := h.walkers w hw
        exact ⟨wk.path, wk.nodup, wk.bound, wk.results⟩
      · intro o ho
        cases ho
        exact ⟨⟨[], by simp, by simp, .inl rfl⟩, by simp, by simp⟩
    | some c =>
      have e1 : Hook.step st (.call kind) = ({ st with ids := st.ids + 1, walkers := { id := st.ids, kind := kind, cur := c, orig := Hook.cells st } :: st.walkers }, none) := by simp only [Hook.step, hh]
      rw [e1]
      refine ⟨⟨L, h.chain, h.nodup, h.bound, ?_, ?_, ?_⟩, fun o ho => nomatch ho⟩
      · intro w hw
        rcases List.mem_cons.mp hw with rfl | hw
        · rw [h.cells]
          refine ⟨⟨[], L, ?_, List.suffix_refl L, by simp, by simp, by simp, by simp⟩, by simpa using h.nodup, by simpa using h.bound, by simp⟩
          show Chain st.cdr (some c) L
          rw [← hh]; exact h.chain
        · have wk := h.walkers w hw
          exact ⟨wk.path, wk.nodup, wk.bound, wk.results⟩
      · intro w hw
        show w.id < st.ids + 1
        rcases List.mem_cons.mp hw with rfl | hw
        · exact Nat.lt_succ_self _
        · exact Nat.lt_succ_of_lt (h.ids w hw)
      · intro w hw w' hw' he
        rcases List.mem_cons.mp hw with rfl | hw <;> rcases List.mem_cons.mp hw' with rfl | hw'
        · rfl
        · have := h.ids w' hw'; rw [← he] at this; exact absurd this (Nat.lt_irrefl _)
        · have := h.ids w hw; rw [he] at this; exact absurd this (Nat.lt_irrefl _)
        · exact h.uniq w hw w' hw' he
  | ret id res =>
    have hsub : ∀ st' : St, st'.cdr = st.cdr → st'.hook = st.hook → st'.count = st.count → st'.ids = st.ids → (∀ w ∈ st'.walkers, w ∈ st.walkers) → Inv st' L := by
      intro st' e1 e2 e3 e4 e5
      refine ⟨by rw [e1, e2]; exact h.chain, h.nodup, by rw [e3]; exact h.bound, ?_, by rw [e4]; exact fun w hw => h.ids w (e5 w hw), fun w hw w' hw' he => h.uniq w (e5 w hw) w' (e5 w' hw') he⟩
      intro w hw
      have wk := h.walkers w (e5 w hw)
      exact ⟨by rw [e1, e3]; exact wk.path, wk.nodup, by rw [e3]; exact wk.bound, wk.results⟩
    cases hf : st.walkers.find? (fun w => decide (w.id = id)) with
    | none =>
      have e1 : Hook.step st (.ret id res) = (st, none) := by simp only [Hook.step, hf]
      rw [e1]; exact ⟨⟨L, h⟩, fun o ho => nomatch ho⟩
    | some w =>
      have hw := List.mem_of_find?_eq_some hf
      have hid : w.id = id := by simpa using List.find?_some hf
      have hend : (st.cdr w.cur = none ∨ stops w.kind res = true) → Hook.step st (.ret id res) = ({ st with walkers := st.walkers.filter (·.id ≠ id) }, some (Hook.finish st w res)) →
          (∃ L', Inv (Hook.step st (.ret id res)).1 L') ∧ ∀ o, (Hook.step st (.ret id res)).2 = some o → OutOk o := by
        intro hs e1
        rw [e1]
        refine ⟨⟨L, hsub _ rfl rfl rfl rfl fun x hx => (List.mem_filter.mp hx).1⟩, ?_⟩
        intro o ho
        cases ho
        exact h.finish hw hs
      cases hc : st.cdr w.cur with
      | none => exact hend (.inl hc) (by simp only [Hook.step, hf, hc])
      | some c =>
        cases hst : stops w.kind res with
        | true => exact hend (.inr hst) (by simp only [Hook.step, hf, hc, hst, if_true])
        | false =>
          have e1 : Hook.step st (.ret id res) = ({ st with walkers := st.walkers.map fun x => if x.id = id then { x with cur := c, called := x.called ++ [x.cur], results := x.results ++ [res] } else x }, none) := by
            simp only [Hook.step, hf, hc, hst, Bool.false_eq_true, if_false]
          rw [e1]
          refine ⟨⟨L, h.chain, h.nodup, h.bound, ?_, ?_, ?_⟩, fun o ho => nomatch ho⟩
          · intro w' hw'
            obtain ⟨v, hv, rfl⟩ := List.mem_map.mp hw'
            have wk := h.walkers v hv
            by_cases hvi : v.id = id
            · rw [if_pos hvi]
              have := h.uniq v hv w hw (by rw [hvi, hid])
              subst this
              refine ⟨?_, wk.nodup, wk.bound, ?_, ?_⟩
              · obtain ⟨D, S, hch, hsf, hD, hDb, hsb, hin⟩ := wk.path
                cases D with
                | nil =>
                  cases S with
                  | nil => cases hch
                  | cons s S =>
                    obtain ⟨hx, hP⟩ := hch
                    cases hx
                    refine ⟨[], S, ?_, (List.suffix_cons _ _).trans hsf, by simp, by simp, ?_, ?_⟩
                    · rw [hc] at hP; exact hP
                    · simpa using hsb
                    · intro x hx1 hx2; simpa using hin x hx1 hx2
                | cons d D =>
                  obtain ⟨hx, hP⟩ := hch
                  cases hx
                  refine ⟨D, S, ?_, hsf, fun d hd => hD d (List.mem_cons_of_mem _ hd), fun d hd => hDb d (List.mem_cons_of_mem _ hd), ?_, ?_⟩
                  · rw [hc] at hP; exact hP
                  · simpa using hsb
                  · intro x hx1 hx2; simpa using hin x hx1 hx2
              · simp [wk.results.1]
              · intro r hr
                rcases List.mem_append.mp hr with hr | hr
                · exact wk.results.2 r hr
                · simp only [List.mem_singleton] at hr; rw [hr]; exact hst
            · rw [if_neg hvi]; exact ⟨wk.path, wk.nodup, wk.bound, wk.results⟩
          · intro w' hw'
            obtain ⟨v, hv, rfl⟩ := List.mem_map.mp hw'
            have := h.ids v hv
            show (if _ then _ else _ : Walker).id < _
            split <;> exact this
          · intro w1 hw1 w2 hw2 he
            obtain ⟨v1, hv1, rfl⟩ := List.mem_map.mp hw1
            obtain ⟨v2, hv2, rfl⟩ := List.mem_map.mp hw2
            have hid' : ∀ v : Walker, (if v.id = id then { v with cur := c, called := v.called ++ [v.cur], results := v.results ++ [res] } else v : Walker).id = v.id := by
              intro v; split <;> rfl
            rw [hid', hid'] at he
            rw [h.uniq v1 hv1 v2 hv2 he]

theorem Inv.start : Inv {} [] := ⟨rfl, List.nodup_nil, by simp, by simp, by simp, by simp⟩

theorem Inv.run : ∀ (es : List Event) {st : St} {L : List Nat}, Inv st L → (∃ L', Inv (Hook.run st es).1 L') ∧ ∀ o, some o ∈ (Hook.run st es).2 → OutOk o := by
  intro es
  induction es with
  | nil => intro st L h; exact ⟨⟨L, h⟩, by simp [Hook.run]⟩
  | cons e es ih =>
    intro st L h
    obtain ⟨⟨L1, h1⟩, ho⟩ := h.step e
    obtain ⟨h2, ho2⟩ := ih h1
    refine ⟨h2, ?_⟩
    intro o hm
    rcases List.mem_cons.mp hm with hm | hm
    · exact ho o hm.symm
    · exact ho2 o hm

/-- However the hook is changed meanwhile, by the functions themselves or by others, and however calls are nested: the functions are called in the
order of the hook, those added at the end last, each once; every one that was in the hook at the beginning and is at the end has been called, unless
the result of a function ended the call. -/
theorem C75_calls (es : List Event) (o : Out) (ho : some o ∈ (run {} es).2) :
    ∃ rest, (o.called ++ rest).Sublist (o.orig ++ o.added) ∧ (o.orig ++ o.added).Nodup ∧ (∀ c ∈ o.orig, c ∈ o.left → c ∈ o.called ++ rest) ∧
      (rest = [] ∨ ∃ r, o.results.getLast? = some r ∧ stops o.kind r = true) := by
  obtain ⟨⟨rest, h1, h2, h3⟩, h4, _⟩ := (Inv.start.run es).2 o ho
  exact ⟨rest, h1, h4, h2, h3⟩

/-- The value is that of the last function that was called; a function is called only if those before it did not end the call. -/
theorem C75_value (es : List Event) (o : Out) (ho : some o ∈ (run {} es).2) :
    o.called.length = o.results.length ∧ (∀ r ∈ o.results.dropLast, r ≠ .error ∧ (o.kind = .and → r ≠ .nil) ∧ (o.kind = .or → r ≠ .true)) ∧ o.result = o.results.getLast?.getD .nil := by
  obtain ⟨_, _, h1, h2, h3⟩ := (Inv.start.run es).2 o ho
  refine ⟨h1, ?_, h3⟩
  intro r hr
  have := h2 r hr
  revert this
  cases r <;> cases o.kind <;> simp [stops]

/-! ### Removing -/

/-- No function that is running is removed from the hook. -/
def Safe (st : St) : List Event → Prop
  | [] => True
  | e :: es => (match e with | .remove p => ∀ w ∈ st.walkers, p (st.car w.cur) = false | _ => True) ∧ Safe (step st e).1 es

/-- Calls that are at a cell of the hook. -/
structure Present (st : St) (L : List Nat) : Prop where
  inv : Inv st L
  cur : ∀ w ∈ st.walkers, w.cur ∈ L

theorem next_mem {cdr : Nat → Option Nat} : ∀ {L : List Nat} {k : Option Nat} {x c : Nat}, Chain cdr k L → x ∈ L → cdr x = some c → c ∈ L := by
  intro L
  induction L with
  | nil => intro k x c _ hx; cases hx
  | cons a L ih =>
    intro k x c h hx hc
    rcases List.mem_cons.mp hx with rfl | hx
    · have h2 := h.2
      cases L with
      | nil => have e : cdr x = none := h2; rw [e] at hc; cases hc
      | cons b L => rw [h2.1] at hc; cases hc; simp
    · exact List.mem_cons_of_mem _ (ih h.2 hx hc)

theorem Present.step {st : St} {L : List Nat} (h : Present st L) (e : Event) (hs : match e with | .remove p => ∀ w ∈ st.walkers, p (st.car w.cur) = false | _ => True) :
    ∃ L', Present (Hook.step st e).1 L' := by
  cases e with
  | add f atEnd =>
    cases atEnd with
    | true =>
      refine ⟨_, h.inv.addEnd f, ?_⟩
      intro w' hw'
      have e' : (Hook.step st (.add f true)).1.walkers = (Hook.add st f true).walkers.map fun w => { w with added := w.added ++ [st.count] } := by
        rfl
      rw [e'] at hw'
      obtain ⟨w, hw, rfl⟩ := List.mem_map.mp hw'
      have hwk : (Hook.add st f true).walkers = st.walkers := by
        have hb : ∀ (k : Nat) (a b : Option Nat) (s : St), (nconcLoop st.count k a b s).walkers = s.walkers := by
          intro k
          induction k with
          | zero =>
            intro a b s
            cases b with
            | none => unfold nconcLoop St.setLink; cases a <;> rfl
            | some b => unfold nconcLoop; rfl
          | succ k ih =>
            intro a b s
            cases b with
            | none => unfold nconcLoop St.setLink; cases a <;> rfl
            | some b => unfold nconcLoop; exact ih _ _ _
        exact hb _ _ _ _
      rw [hwk] at hw
      exact List.mem_append_left _ (h.cur w hw)
    | false => exact ⟨_, h.inv.addFront f, fun w hw => List.mem_cons_of_mem _ (h.cur w hw)⟩
  | remove p =>
    obtain ⟨h1, h2, h3⟩ := h.inv.remove p
    refine ⟨_, h1, ?_⟩
    intro w hw
    have hw : w ∈ (Hook.remove st p).walkers := hw
    rw [h3] at hw
    exact List.mem_filter.mpr ⟨h.cur w hw, by simp [hs w hw]⟩
  | call kind =>
    have hinv := h.inv.step (.call kind)
    cases hh : st.hook with
    | none =>
      have e1 : (Hook.step st (.call kind)).1 = { st with ids := st.ids + 1 } := by simp only [Hook.step, hh]
      obtain ⟨⟨L', hi⟩, _⟩ := hinv
      rw [e1] at hi ⊢
      have : L' = L := chain_unique hi.chain h.inv.chain
      subst this
      exact ⟨_, hi, h.cur⟩
    | some c =>
      have e1 : (Hook.step st (.call kind)).1 = { st with ids := st.ids + 1, walkers := { id := st.ids, kind := kind, cur := c, orig := Hook.cells st } :: st.walkers } := by simp only [Hook.step, hh]
      obtain ⟨⟨L', hi⟩, _⟩ := hinv
      rw [e1] at hi ⊢
      have : L' = L := chain_unique hi.chain h.inv.chain
      subst this
      refine ⟨_, hi, ?_⟩
      intro w hw
      rcases List.mem_cons.mp hw with rfl | hw
      · have := h.inv.chain
        rw [hh] at this
        cases L' with
        | nil => cases this
        | cons a L' => cases this.1; exact List.mem_cons_self
      · exact h.cur w hw
  | ret id res =>
    obtain ⟨⟨L', hi⟩, _⟩ := h.inv.step (.ret id res)
    have hsame : (Hook.step st (.ret id res)).1.cdr = st.cdr ∧ (Hook.step st (.ret id res)).1.hook = st.hook := by
      simp only [Hook.step]
      split
      · exact ⟨rfl, rfl⟩
      · split
        · split <;> exact ⟨rfl, rfl⟩
        · exact ⟨rfl, rfl⟩
    have : L' = L := by
      have := hi.chain
      rw [hsame.1, hsame.2] at this
      exact chain_unique this h.inv.chain
    subst this
    refine ⟨_, hi, ?_⟩
    intro w' hw'
    simp only [Hook.step] at hw'
    cases hf : st.walkers.find? (fun w => decide (w.id = id)) with
    | none => rw [hf] at hw'; exact h.cur w' hw'
    | some w =>
      rw [hf] at hw'
      simp only at hw'
      have hw := List.mem_of_find?_eq_some hf
      cases hc : st.cdr w.cur with
      | none => rw [hc] at hw'; exact h.cur w' (List.mem_filter.mp hw').1
      | some c =>
        rw [hc] at hw'
        simp only at hw'
        split at hw'
        · exact h.cur w' (List.mem_filter.mp hw').1
        · obtain ⟨v, hv, rfl⟩ := List.mem_map.mp hw'
          split
          · exact next_mem h.inv.chain (h.cur w hw) hc
          · exact h.cur v hv

/-- If no function is removed from the hook while it is running, every function that is called is in the hook. -/
theorem C75_present_partial : ∀ (es : List Event), Safe {} es → ∀ w ∈ (run {} es).1.walkers, w.cur ∈ cells (run {} es).1 := by
  have key : ∀ (es : List Event) (st : St) (L : List Nat), Present st L → Safe st es → ∃ L', Present (run st es).1 L' := by
    intro es
    induction es with
    | nil => intro st L h _; exact ⟨L, h⟩
    | cons e es ih =>
      intro st L h hs
      obtain ⟨L1, h1⟩ := h.step e hs.1
      exact ih _ L1 h1 hs.2
  intro es hs w hw
  obtain ⟨L, h⟩ := key es {} [] ⟨Inv.start, by simp⟩ hs
  rw [h.inv.cells]
  exact h.cur w hw

/-- A function that removes itself and then another one: that one is called although it is not in the hook any more. -/
theorem C75_removed_violated :
    ((run {} [.add 3 false, .add 2 false, .add 1 false, .call .nil, .remove (· == 1), .remove (· == 2), .ret 0 .nil]).1.walkers.map fun w => w.cur) = [1] ∧
    (run {} [.add 3 false, .add 2 false, .add 1 false, .call .nil, .remove (· == 1), .remove (· == 2), .ret 0 .nil]).1.car 1 = 2 ∧
    cells (run {} [.add 3 false, .add 2 false, .add 1 false, .call .nil, .remove (· == 1), .remove (· == 2), .ret 0 .nil]).1 = [0] := by decide

/-- Three functions, of which the first removes itself and adds another one at the end, and calls the hook itself. -/
example : (run {} [.add 3 false, .add 2 false, .add 1 false, .call .and, .remove (· == 1), .call .or, .add 4 true, .ret 1 .nil, .ret 1 .true, .ret 0 .true, .ret 0 .true, .ret 0 .true, .ret 0 .nil]).2.filterMap id
    = [⟨1, .or, .true, [1, 0], [1, 0], [.nil, .true], [3], [1, 0, 3]⟩, ⟨0, .and, .nil, [2, 1, 0], [2, 1, 0, 3], [.true, .true, .true, .nil], [3], [1, 0, 3]⟩] := by decide

/-- `Safe` is met. -/
example : Safe {} [.add 2 false, .add 1 false, .call .nil, .remove (· == 2), .ret 0 .nil] := by
  refine ⟨trivial, trivial, trivial, ?_, trivial, trivial⟩
  decide

end Rep.Hook
