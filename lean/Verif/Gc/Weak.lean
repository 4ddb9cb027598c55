/-
Weak hash tables (src/tables.c) on the collector's heap, and property C12.

The buckets of a table are not modelled here (C11 shows that they hold a map): a table
is the list of its nodes.  The compare function is a parameter; it neither allocates
nor collects.
-/
import Verif.Gc.Props

namespace Rep.Gc

/-! ### Model -/

/-- src/tables.c:312 `table-ref`, with src/tables.c:291 `lookup`. -/
def tableRef (cmp : Val → Val → Bool) (h : Heap) (t : Nat) (k : Val) : Option Val :=
  match h.mem[t]? with
  | some (.table _ nodes _ _ _) => (nodes.find? fun n => cmp k n.1).map Prod.snd
  | _ => none

/-- The node that `lookup` finds gets the value. -/
def setNode (cmp : Val → Val → Bool) (k v : Val) : List (Val × Val) → List (Val × Val)
  | [] => []
  | n :: rest => if cmp k n.1 then (n.1, v) :: rest else n :: setNode cmp k v rest

/-- src/tables.c:341 `table-set`: a new node's key is registered with the guardian. -/
def tableSet (cmp : Val → Val → Bool) (h : Heap) (t : Nat) (k v : Val) : Option Heap :=
  match h.mem[t]? with
  | some (.table weak nodes hf cf g) =>
      if nodes.any fun n => cmp k n.1 then some (write h t (.table weak (setNode cmp k v nodes) hf cf g))
      else
        let h1 := write h t (.table weak ((k, v) :: nodes) hf cf g)
        if weak then
          match g with
          | .ref g => guardianPush h1 g k
          | _ => none
        else some h1
  | _ => none

/-- src/tables.c:415 `table-unset`. -/
def tableUnset (cmp : Val → Val → Bool) (h : Heap) (t : Nat) (k : Val) : Option Heap :=
  match h.mem[t]? with
  | some (.table weak nodes hf cf g) => some (write h t (.table weak (nodes.eraseP fun n => cmp k n.1) hf cf g))
  | _ => none

/-- src/tables.c:244 `make-table` with a true third argument. -/
def makeWeakTable (h : Heap) (hf cf : Val) : Heap × Nat :=
  let (h1, g) := makeGuardian h
  makeObject h1 (.table true [] hf cf (.ref g))

/-- src/tables.c:514 `tables-after-gc`, for one table: the keys found unreachable are
unset, one after the other. -/
def afterGc (cmp : Val → Val → Bool) (h : Heap) (t g : Nat) : Option Heap :=
  match guardianPop h g with
  | none => none
  | some (h', v) =>
      if v = .ref nil then some h'
      else
        match tableUnset cmp h' t v with
        | none => none
        | some h'' => afterGc cmp h'' t g
partial_fixpoint

/-! ### Specification -/

/-- The comparison by `eq`. -/
def eqCmp (x y : Val) : Bool := x == y

/-- A map. -/
abbrev Map := Val → Option Val

/-- Keys that are found unreachable by a collection lose their entry. -/
noncomputable def retain (h : Heap) (roots : List Val) (m : Map) : Map :=
  open Classical in fun k => if (∃ a, k = .ref a ∧ ¬ (a = nil ∨ Reach h.mem roots a)) then none else m k

/-- The key is an object other than a subr or a constant string of the C program. -/
def GoodKey (h : Heap) (k : Val) : Prop := ∃ a c, k = .ref a ∧ h.mem[a]? = some c ∧ ¬ Permanent c

/-- A history of the weak table `t`, whose guardian is `g`, with the map it should be.
The table stays reachable.  The program may do anything else in between, except that
only the table uses its guardian, and the hook runs directly after a collection. -/
inductive TableHistory (cmp : Val → Val → Bool) (t g : Nat) : Heap × List Val → Map → Prop
  | made {h : Heap} {roots : List Val} {hf cf : Val} : Reachable (h, roots) → Has h roots hf → Has h roots cf →
      (makeGuardian h).2 = g → (makeWeakTable h hf cf).2 = t →
      TableHistory cmp t g ((makeWeakTable h hf cf).1, .ref t :: .ref g :: roots) fun _ => none
  | set {h h' : Heap} {roots : List Val} {k v : Val} {m : Map} : TableHistory cmp t g (h, roots) m → Reach h.mem roots t →
      Has h roots k → GoodKey h k → Has h roots v → tableSet cmp h t k v = some h' →
      TableHistory cmp t g (h', roots) fun k' => if cmp k' k then some v else m k'
  | unset {h h' : Heap} {roots : List Val} {k : Val} {m : Map} : TableHistory cmp t g (h, roots) m → Reach h.mem roots t →
      tableUnset cmp h t k = some h' → TableHistory cmp t g (h', roots) fun k' => if cmp k' k then none else m k'
  | gc {h h' h'' : Heap} {roots : List Val} {m : Map} : TableHistory cmp t g (h, roots) m → Reach h.mem roots t →
      collect h roots = some h' → afterGc cmp h' t g = some h'' → TableHistory cmp t g (h'', roots) (retain h roots m)
  | other {s s' : Heap × List Val} {e : Event} {m : Map} : TableHistory cmp t g s m → Reach s.1.mem s.2 t →
      Step s e s' → e ≠ .collect → (∀ v, e ≠ .push g v) → (∀ v, e ≠ .pop g v) → e ≠ .write t →
      TableHistory cmp t g s' m

/-! ### Proofs -/

variable {h h' : Heap} {roots : List Val} {free : List Nat} {t g : Nat}

theorem find_setNode (k v k' : Val) (nodes : List (Val × Val)) (hin : nodes.any (fun n => eqCmp k n.1) = true) :
    ((setNode eqCmp k v nodes).find? fun n => eqCmp k' n.1).map Prod.snd =
      if eqCmp k' k then some v else (nodes.find? fun n => eqCmp k' n.1).map Prod.snd := by
  induction nodes with
  | nil => simp at hin
  | cons n rest ih =>
    unfold setNode
    by_cases h1 : eqCmp k n.1 = true
    · have e : k = n.1 := by simpa [eqCmp] using h1
      rw [if_pos h1]
      by_cases h2 : eqCmp k' k = true
      · have h3 : eqCmp k' n.1 = true := e ▸ h2
        simp [h2, h3]
      · have h3 : eqCmp k' n.1 = false := by rw [← e]; simpa using h2
        simp [h2, h3]
    · rw [if_neg h1]
      have hin' : rest.any (fun n => eqCmp k n.1) = true := by simpa [h1] using hin
      by_cases h2 : eqCmp k' n.1 = true
      · have : ¬ eqCmp k' k = true := by
          intro h3
          have e1 : k' = k := by simpa [eqCmp] using h3
          exact h1 (e1 ▸ h2)
        simp [h2, this]
      · simp only [List.find?_cons, h2]
        exact ih hin'

theorem keys_setNode (k v : Val) (nodes : List (Val × Val)) :
    (setNode eqCmp k v nodes).map Prod.fst = nodes.map Prod.fst := by
  induction nodes with
  | nil => rfl
  | cons n rest ih =>
    unfold setNode
    split <;> simp [ih]

theorem values_setNode (k v : Val) (nodes : List (Val × Val)) : ∀ n ∈ setNode eqCmp k v nodes, n.2 = v ∨ n ∈ nodes := by
  induction nodes with
  | nil => simp [setNode]
  | cons n rest ih =>
    intro x hx
    unfold setNode at hx
    split at hx
    · rcases List.mem_cons.mp hx with rfl | hx
      · exact Or.inl rfl
      · exact Or.inr (List.mem_cons_of_mem _ hx)
    · rcases List.mem_cons.mp hx with rfl | hx
      · exact Or.inr (by simp)
      · exact (ih x hx).imp id (List.mem_cons_of_mem _)

theorem find_filter (p : Val → Bool) (k : Val) (nodes : List (Val × Val)) :
    ((nodes.filter fun n => p n.1).find? fun n => eqCmp k n.1).map Prod.snd =
      if p k then (nodes.find? fun n => eqCmp k n.1).map Prod.snd else none := by
  induction nodes with
  | nil => simp
  | cons n rest ih =>
    by_cases h2 : k = n.1
    · subst h2
      by_cases h1 : p n.1 = true
      · simp [h1, eqCmp]
      · simp only [List.filter_cons, h1, Bool.false_eq_true, if_false] at ih ⊢
        exact ih
    · have h3 : eqCmp k n.1 = false := by simpa [eqCmp] using h2
      by_cases h1 : p n.1 = true
      · simp only [List.filter_cons, h1, if_true, List.find?_cons, h3]
        exact ih
      · simp only [List.filter_cons, h1, Bool.false_eq_true, if_false, List.find?_cons, h3]
        exact ih

theorem erase_eq_filter (k : Val) (nodes : List (Val × Val)) (hnd : (nodes.map Prod.fst).Nodup) :
    (nodes.eraseP fun n => eqCmp k n.1) = nodes.filter fun n => !eqCmp k n.1 := by
  induction nodes with
  | nil => rfl
  | cons n rest ih =>
    simp only [List.map_cons, List.nodup_cons] at hnd
    by_cases h1 : eqCmp k n.1 = true
    · have e : k = n.1 := by simpa [eqCmp] using h1
      simp only [List.eraseP_cons, h1, if_true, cond_true, List.filter_cons, Bool.not_true, Bool.false_eq_true, if_false]
      symm
      rw [List.filter_eq_self]
      intro x hx
      have : k ≠ x.1 := by rintro e2; exact hnd.1 (by rw [← e, e2]; exact List.mem_map_of_mem hx)
      simpa [eqCmp] using this
    · simp only [Bool.not_eq_true] at h1
      simp only [List.eraseP_cons, h1, cond_false, List.filter_cons, Bool.not_false, if_true, ih hnd.2]

/-- The invariant of a weak table compared by `eq`. -/
structure TableInv (t g : Nat) (h : Heap) (m : Map) : Prop where
  cells : ∃ nodes hf cf acc, h.mem[t]? = some (.table true nodes hf cf (.ref g)) ∧ h.mem[g]? = some (.guardian acc []) ∧
    (nodes.map Prod.fst).Nodup ∧ (∀ n ∈ nodes, n.1 ∈ acc) ∧ (∀ n ∈ nodes, GoodKey h n.1) ∧
    ∀ k, (nodes.find? fun n => eqCmp k n.1).map Prod.snd = m k

theorem g_reach {nodes : List (Val × Val)} {hf cf : Val} {mem : List Cell} (ht : Reach mem roots t)
    (htc : mem[t]? = some (.table true nodes hf cf (.ref g))) : Reach mem roots g :=
  .step ht htc (by simp [kids])

theorem has_kid {c : Cell} {x : Val} {mem : List Cell} (hmem : mem = h.mem) (ht : Reach mem roots t)
    (htc : mem[t]? = some c) (hx : x ∈ kids c) : x ≠ .null → Has h roots x := by
  subst hmem
  cases x with
  | null => exact fun hn => absurd rfl hn
  | int n => exact fun _ => Or.inl ⟨n, rfl⟩
  | ref b => exact fun _ => Or.inr ⟨b, rfl, Or.inr (.step ht htc hx)⟩

theorem reach_mono {mem mem' : List Cell} (hm : ∀ (a : Nat) c, Reach mem roots a → mem[a]? = some c →
    ∃ c', mem'[a]? = some c' ∧ ∀ v ∈ kids c, v ∈ kids c') {a : Nat} (ha : Reach mem roots a) : Reach mem' roots a := by
  induction ha with
  | root hr => exact .root hr
  | step hp hc hk ih =>
    obtain ⟨c', e, hs⟩ := hm _ _ hp hc
    exact .step ih e (hs _ hk)

/-- A change of an object does not make the object itself unreachable. -/
theorem reach_self {mem : List Cell} {c : Cell} {a : Nat} (ha : Reach mem roots a) :
    Reach (mem.set t c) roots a ∨ Reach (mem.set t c) roots t := by
  induction ha with
  | root hr => exact Or.inl (.root hr)
  | @step p b c0 hp hc hk ih =>
    rcases ih with ih | ih
    · by_cases e : t = p
      · subst e; exact Or.inr ih
      · exact Or.inl (.step ih (by rw [List.getElem?_set_ne e]; exact hc) hk)
    · exact Or.inr ih

theorem reach_write {c : Cell} (ht : Reach h.mem roots t) : Reach (write h t c).mem roots t :=
  (reach_self ht).elim id id

/-- Unsetting a key. -/
theorem unset_step {nodes : List (Val × Val)} {hf cf : Val} (hr : Reachable (h, roots)) (ht : Reach h.mem roots t)
    (htc : h.mem[t]? = some (.table true nodes hf cf (.ref g))) (k : Val) :
    ∃ h', tableUnset eqCmp h t k = some h' ∧ Step (h, roots) (.write t) (h', roots) ∧ Reach h'.mem roots t ∧
      h' = write h t (.table true (nodes.eraseP fun n => eqCmp k n.1) hf cf (.ref g)) := by
  obtain ⟨free, inv⟩ := inv_reachable hr
  refine ⟨_, by unfold tableUnset; rw [htc], ?_, reach_write ht, rfl⟩
  refine .write ht ?_ ⟨_, htc, ⟨trivial, trivial⟩, by simp [Permanent]⟩ ⟨trivial, trivial⟩ ?_
  · rintro rfl
    have := inv.nilCell
    change h.mem[nil]? = _ at this
    rw [htc] at this; cases this
  · intro v hv
    refine has_kid rfl ht htc ?_
    simp only [kids, List.mem_append, List.mem_flatMap] at hv ⊢
    rcases hv with ⟨n, hn, hv⟩ | hv
    · exact Or.inl ⟨n, List.mem_of_mem_eraseP hn, hv⟩
    · exact Or.inr hv

theorem filter_keys_nodup {p : Val × Val → Bool} {nodes : List (Val × Val)} (hnd : (nodes.map Prod.fst).Nodup) :
    ((nodes.filter p).map Prod.fst).Nodup := hnd.sublist (List.filter_sublist.map _)

/-- The hook removes exactly the keys that were found unreachable. -/
theorem drain_spec {hf cf : Val} {acc : List Val} : ∀ (inacc : List Val) (nodes : List (Val × Val)) (h : Heap) (roots1 : List Val),
    Reachable (h, roots1) → Reach h.mem roots1 t → (∀ v ∈ roots, v ∈ roots1) → (nodes.map Prod.fst).Nodup →
    h.mem[t]? = some (.table true nodes hf cf (.ref g)) → h.mem[g]? = some (.guardian acc inacc) → .ref nil ∉ inacc →
    ∃ h', afterGc eqCmp h t g = some h' ∧ Reachable (h', roots) ∧
      h'.mem[t]? = some (.table true (nodes.filter fun n => !inacc.contains n.1) hf cf (.ref g)) ∧
      h'.mem[g]? = some (.guardian acc []) ∧ ∀ a, a ≠ t → a ≠ g → h'.mem[a]? = h.mem[a]? := by
  intro inacc
  induction inacc with
  | nil =>
    intro nodes h roots1 hr ht hsub hnd htc hgc _
    refine ⟨h, ?_, ?_, ?_, hgc, fun _ _ _ => rfl⟩
    · rw [afterGc.eq_def]
      simp [guardianPop, hgc]
    · refine .step hr (.roots ?_)
      intro v hv hn
      cases v with
      | null => exact absurd rfl hn
      | int n => exact Or.inl ⟨n, rfl⟩
      | ref b => exact Or.inr ⟨b, rfl, Or.inr (.root (hsub _ hv))⟩
    · have : (nodes.filter fun n => !([] : List Val).contains n.1) = nodes := by simp
      rw [this]; exact htc
  | cons v rest ih =>
    intro nodes h roots1 hr ht hsub hnd htc hgc hn
    have hvn : v ≠ .ref nil := by rintro rfl; exact hn (by simp)
    have htg : t ≠ g := by rintro rfl; rw [htc] at hgc; cases hgc
    have hg := g_reach ht htc
    have e1 : guardianPop h g = some (write h g (.guardian acc rest), v) := by
      unfold guardianPop; rw [hgc]; rfl
    have s1 : Reachable (write h g (.guardian acc rest), v :: roots1) := .step hr (.pop hg e1)
    have htc1 : (write h g (.guardian acc rest)).mem[t]? = some (.table true nodes hf cf (.ref g)) := by
      show (h.mem.set g _)[t]? = _
      rw [List.getElem?_set_ne (Ne.symm htg)]; exact htc
    have ht1 : Reach (write h g (.guardian acc rest)).mem (v :: roots1) t := by
      have hm : ∀ a, Reach h.mem roots1 a → Reach (write h g (.guardian acc rest)).mem (v :: roots1) a := by
        intro a ha
        induction ha with
        | root hr => exact .root (List.mem_cons_of_mem _ hr)
        | @step p b c hp hc hk ih =>
          by_cases e : p = g
          · subst e
            rw [hgc] at hc; cases hc
            rcases List.mem_cons.mp hk with hk | hk
            · exact .root (by simp [hk])
            · refine .step ih (c := .guardian acc rest) ?_ hk
              exact List.getElem?_set_self (List.getElem?_eq_some_iff.mp hgc).1
          · refine .step ih (c := c) ?_ hk
            show (h.mem.set g _)[p]? = _
            rw [List.getElem?_set_ne (Ne.symm e)]; exact hc
      exact hm t ht
    obtain ⟨h2, e2, s2, ht2, hh2⟩ := unset_step s1 ht1 htc1 v
    have hgl : g < h.mem.length := (List.getElem?_eq_some_iff.mp hgc).1
    have htl : t < h.mem.length := (List.getElem?_eq_some_iff.mp htc).1
    have htc2 : h2.mem[t]? = some (.table true (nodes.filter fun n => !eqCmp v n.1) hf cf (.ref g)) := by
      rw [hh2, ← erase_eq_filter v nodes hnd]
      exact List.getElem?_set_self (by simpa [write] using htl)
    have hgc2 : h2.mem[g]? = some (.guardian acc rest) := by
      rw [hh2]
      show ((h.mem.set g _).set t _)[g]? = _
      rw [List.getElem?_set_ne htg]
      exact List.getElem?_set_self hgl
    obtain ⟨h3, e3, s3, htc3, hgc3, hoth⟩ := ih _ h2 _ (.step s1 s2) ht2 (fun v hv => List.mem_cons_of_mem _ (hsub v hv))
      (filter_keys_nodup hnd) htc2 hgc2 (fun h => hn (List.mem_cons_of_mem _ h))
    refine ⟨h3, ?_, s3, ?_, hgc3, ?_⟩
    · rw [afterGc.eq_def]
      simp only [e1, hvn, if_false, e2, e3]
    · rw [htc3, List.filter_filter]
      congr 2
      refine List.filter_congr ?_
      intro n _
      have : eqCmp v n.1 = (n.1 == v) := by unfold eqCmp; exact Bool.eq_iff_iff.mpr (by simp only [beq_iff_eq]; exact eq_comm)
      rw [this, List.contains_cons]
      cases n.1 == v <;> simp
    · intro a h1 h2'
      rw [hoth a h1 h2', hh2]
      show ((h.mem.set g _).set t _)[a]? = _
      rw [List.getElem?_set_ne (Ne.symm h1), List.getElem?_set_ne (Ne.symm h2')]

theorem goodKey_keep {k : Val} (hk : GoodKey h k) (hkeep : ∀ (a : Nat) c, k = .ref a → h.mem[a]? = some c → ¬ Permanent c →
    ∃ c', h'.mem[a]? = some c' ∧ ¬ Permanent c') : GoodKey h' k := by
  obtain ⟨a, c, e, hc, hp⟩ := hk
  obtain ⟨c', hc', hp'⟩ := hkeep a c e hc hp
  exact ⟨a, c', e, hc', hp'⟩

/-- Steps other than collections do not change whether an object is a subr or a
constant string. -/
theorem step_permanent {s s' : Heap × List Val} {e : Event} (hst : Step s e s') (inv : Inv s.1 s.2 free) {a : Nat} {c : Cell}
    (ha : InUse s.1 free a) (h1 : e ≠ .collect) (hc : s.1.mem[a]? = some c) (hp : ¬ Permanent c) :
    ∃ c', s'.1.mem[a]? = some c' ∧ ¬ Permanent c' := by
  have hlt : a < s.1.mem.length := (List.getElem?_eq_some_iff.mp hc).1
  by_cases h2 : ∃ v, e = .push a v
  · obtain ⟨v, rfl⟩ := h2
    cases hst with
    | push _ _ e =>
      unfold guardianPush at e
      split at e
      · cases e; exact ⟨_, List.getElem?_set_self hlt, by simp [Permanent]⟩
      · cases e
  by_cases h3 : ∃ v, e = .pop a v
  · obtain ⟨v, rfl⟩ := h3
    cases hst with
    | pop _ e =>
      unfold guardianPop at e
      split at e
      · cases e; exact ⟨_, List.getElem?_set_self hlt, by simp [Permanent]⟩
      · cases e; exact ⟨_, hc, hp⟩
      · cases e
  by_cases h4 : e = .write a
  · subst h4
    cases hst with
    | write _ _ hc0 _ _ =>
      obtain ⟨c0, hc0, _, hpp⟩ := hc0
      change _ = some c at hc
      rw [hc0] at hc; cases hc
      exact ⟨_, List.getElem?_set_self hlt, fun h => hp (hpp.mp h)⟩
    | rplac _ _ _ _ => exact ⟨_, List.getElem?_set_self hlt, by simp [Permanent]⟩
    | setWeak _ _ _ => exact ⟨_, List.getElem?_set_self hlt, by simp [Permanent]⟩
  refine ⟨c, ?_, hp⟩
  rw [step_keeps hst inv ha h1 (fun v hv => h2 ⟨v, hv⟩) (fun v hv => h3 ⟨v, hv⟩) h4, hc]

theorem key_inUse {nodes : List (Val × Val)} {acc : List Val} (inv : Inv h roots free)
    (hgc : h.mem[g]? = some (.guardian acc [])) (hacc : ∀ n ∈ nodes, n.1 ∈ acc) {n : Val × Val} (hn : n ∈ nodes) {a : Nat}
    (e : n.1 = .ref a) : InUse h free a := by
  obtain ⟨b, e', hb⟩ := inv.held hgc _ (hacc n hn)
  rw [e] at e'; cases e'; exact hb

theorem table_inv {s : Heap × List Val} {m : Map} (hh : TableHistory eqCmp t g s m) : Reachable s ∧ TableInv t g s.1 m := by
  induction hh with
  | @made h roots hf cf hr h1 h2 eg et =>
    have s1 : Reachable ((makeGuardian h).1, .ref (makeGuardian h).2 :: roots) := .step hr .guardian
    have hlen : (makeGuardian h).1.mem.length = h.mem.length + 1 := by simp [makeGuardian]
    have s2 : Reachable ((makeWeakTable h hf cf).1, .ref (makeWeakTable h hf cf).2 :: .ref (makeGuardian h).2 :: roots) := by
      refine .step s1 (.object ⟨trivial, trivial⟩ ?_)
      have lift : ∀ v, Has h roots v → Has (makeGuardian h).1 (.ref (makeGuardian h).2 :: roots) v := by
        rintro v (⟨n, rfl⟩ | ⟨a, rfl, rfl | ha⟩)
        · exact Or.inl ⟨n, rfl⟩
        · exact Or.inr ⟨_, rfl, Or.inl rfl⟩
        · refine Or.inr ⟨a, rfl, Or.inr ?_⟩
          have : Reach (makeGuardian h).1.mem roots a := reach_mono (fun a c _ hc =>
            ⟨c, by show (h.mem ++ _)[a]? = _; rw [List.getElem?_append_left (List.getElem?_eq_some_iff.mp hc).1]; exact hc,
              fun _ h => h⟩) ha
          exact this.mono fun _ hv => List.mem_cons_of_mem _ hv
      intro v hv _
      simp only [kids, List.flatMap_nil, List.nil_append, List.mem_cons, List.not_mem_nil, or_false] at hv
      rcases hv with rfl | rfl | rfl
      · exact lift _ h1
      · exact lift _ h2
      · exact Or.inr ⟨_, rfl, Or.inr (.root (List.mem_cons_self ..))⟩
    subst eg et
    refine ⟨s2, ⟨[], hf, cf, [], ?_, ?_, by simp, by simp, by simp, by simp⟩⟩
    · show ((makeGuardian h).1.mem ++ _)[(makeGuardian h).1.mem.length]? = _
      simp [makeGuardian]
    · show ((makeGuardian h).1.mem ++ _)[h.mem.length]? = _
      rw [List.getElem?_append_left (by omega)]
      show (h.mem ++ _)[h.mem.length]? = _
      simp
  | @set h h' roots k v m _ ht hk hgk hv e ih =>
    obtain ⟨hr, ⟨nodes, hf, cf, acc, htc, hgc, hnd, hacc, hgood, hm⟩⟩ := ih
    obtain ⟨free, inv⟩ := inv_reachable hr
    have htn : t ≠ nil := by
      rintro rfl
      have := inv.nilCell
      change h.mem[nil]? = _ at this
      change h.mem[nil]? = _ at htc
      rw [htc] at this; cases this
    have htg : t ≠ g := by rintro rfl; rw [htc] at hgc; cases hgc
    have htl : t < h.mem.length := (List.getElem?_eq_some_iff.mp htc).1
    have hgl : g < h.mem.length := (List.getElem?_eq_some_iff.mp hgc).1
    change h.mem[t]? = _ at htc
    change h.mem[g]? = _ at hgc
    have goodw : ∀ c, ¬ Permanent c → ∀ k, GoodKey h k → GoodKey (write h t c) k := by
      intro c hc k hk
      refine goodKey_keep hk fun a c0 _ hc0 hp0 => ?_
      by_cases ea : t = a
      · subst ea; exact ⟨c, List.getElem?_set_self htl, hc⟩
      · exact ⟨c0, by show (h.mem.set t c)[a]? = _; rw [List.getElem?_set_ne ea]; exact hc0, hp0⟩
    unfold tableSet at e
    simp only [htc] at e
    by_cases hin : (nodes.any fun n => eqCmp k n.1) = true
    · rw [if_pos hin] at e
      cases e
      constructor
      · refine .step hr (.write ht htn ⟨_, htc, ⟨trivial, trivial⟩, by simp [Permanent]⟩ ⟨trivial, trivial⟩ ?_)
        intro x hx hxn
        simp only [kids, List.mem_append, List.mem_flatMap] at hx
        rcases hx with ⟨n, hn, hx⟩ | hx
        · simp only [if_true, List.mem_singleton] at hx
          rcases values_setNode k v nodes n hn with e | hn
          · rw [hx, e]; exact hv
          · exact has_kid rfl ht htc (by simp only [kids, List.mem_append, List.mem_flatMap]; exact Or.inl ⟨n, hn, by simp [hx]⟩) hxn
        · exact has_kid rfl ht htc (by simp only [kids, List.mem_append]; exact Or.inr hx) hxn
      · refine ⟨_, hf, cf, acc, List.getElem?_set_self htl, ?_, ?_, ?_, ?_, ?_⟩
        · show (h.mem.set t _)[g]? = _
          rw [List.getElem?_set_ne htg]; exact hgc
        · rw [keys_setNode]; exact hnd
        · intro n hn
          have : n.1 ∈ (setNode eqCmp k v nodes).map Prod.fst := List.mem_map_of_mem hn
          rw [keys_setNode] at this
          obtain ⟨n', hn', e⟩ := List.mem_map.mp this
          rw [← e]; exact hacc n' hn'
        · intro n hn
          have : n.1 ∈ (setNode eqCmp k v nodes).map Prod.fst := List.mem_map_of_mem hn
          rw [keys_setNode] at this
          obtain ⟨n', hn', e⟩ := List.mem_map.mp this
          rw [← e]
          exact goodw _ (by simp [Permanent]) _ (hgood n' hn')
        · intro k'
          rw [find_setNode k v k' nodes hin, hm k']
    · rw [if_neg hin] at e
      simp only [if_true] at e
      have s1 : Step (h, roots) (.write t) (write h t (.table true ((k, v) :: nodes) hf cf (.ref g)), roots) := by
        refine .write ht htn ⟨_, htc, ⟨trivial, trivial⟩, by simp [Permanent]⟩ ⟨trivial, trivial⟩ ?_
        intro x hx hxn
        simp only [kids, List.mem_append, List.mem_flatMap, List.mem_cons] at hx
        rcases hx with ⟨n, rfl | hn, hx⟩ | hx
        · simp only [if_true, List.mem_singleton] at hx
          rw [hx]; exact hv
        · exact has_kid rfl ht htc (by simp only [kids, List.mem_append, List.mem_flatMap]; exact Or.inl ⟨n, hn, hx⟩) hxn
        · exact has_kid rfl ht htc (by simp only [kids, List.mem_append, List.mem_cons]; exact Or.inr hx) hxn
      obtain ⟨a, ca, rfl, hca, hpa⟩ := hgk
      have hmono : ∀ b, Reach h.mem roots b → Reach (write h t (.table true ((.ref a, v) :: nodes) hf cf (.ref g))).mem roots b := by
        intro b hb
        refine reach_mono (fun p c _ hc => ?_) hb
        by_cases ep : t = p
        · subst ep
          rw [htc] at hc; cases hc
          refine ⟨_, List.getElem?_set_self htl, ?_⟩
          intro x hx
          simp only [kids, List.mem_append, List.mem_flatMap, List.mem_cons] at hx ⊢
          rcases hx with ⟨n, hn, hx⟩ | hx
          · exact Or.inl ⟨n, Or.inr hn, hx⟩
          · exact Or.inr hx
        · exact ⟨c, by show (h.mem.set t _)[p]? = _; rw [List.getElem?_set_ne ep]; exact hc, fun _ h => h⟩
      have s2 : Step (write h t (.table true ((.ref a, v) :: nodes) hf cf (.ref g)), roots) (.push g (.ref a)) (h', roots) := by
        refine .push (hmono g (g_reach ht htc)) ?_ e
        rcases hk with ⟨n, hn⟩ | ⟨b, hb, hb'⟩
        · cases hn
        · cases hb
          exact Or.inr ⟨a, rfl, hb'.imp id (hmono a)⟩
      have hgc1 : (write h t (.table true ((.ref a, v) :: nodes) hf cf (.ref g))).mem[g]? = some (.guardian acc []) := by
        show (h.mem.set t _)[g]? = _
        rw [List.getElem?_set_ne htg]; exact hgc
      unfold guardianPush at e
      rw [hgc1] at e
      cases e
      refine ⟨.step (.step hr s1) s2, ⟨(.ref a, v) :: nodes, hf, cf, .ref a :: acc, ?_, ?_, ?_, ?_, ?_, ?_⟩⟩
      · show ((h.mem.set t _).set g _)[t]? = _
        rw [List.getElem?_set_ne (Ne.symm htg)]
        exact List.getElem?_set_self htl
      · exact List.getElem?_set_self (by simpa [write] using hgl)
      · simp only [List.map_cons, List.nodup_cons]
        refine ⟨?_, hnd⟩
        intro hmem
        obtain ⟨n, hn, en⟩ := List.mem_map.mp hmem
        exact hin (List.any_eq_true.mpr ⟨n, hn, by simp [eqCmp, en]⟩)
      · intro n hn
        rcases List.mem_cons.mp hn with rfl | hn
        · simp
        · exact List.mem_cons_of_mem _ (hacc n hn)
      · intro n hn
        have hg0 : GoodKey h n.1 := by
          rcases List.mem_cons.mp hn with rfl | hn
          · exact ⟨a, ca, rfl, hca, hpa⟩
          · exact hgood n hn
        refine goodKey_keep (goodw (.table true ((.ref a, v) :: nodes) hf cf (.ref g)) (by simp [Permanent]) _ hg0) fun b c _ hc hp => ?_
        by_cases eb : g = b
        · subst eb
          exact ⟨_, List.getElem?_set_self (by simpa [write] using hgl), by simp [Permanent]⟩
        · refine ⟨c, ?_, hp⟩
          show ((h.mem.set t _).set g _)[b]? = _
          rw [List.getElem?_set_ne eb]; exact hc
      · intro k'
        rw [List.find?_cons]
        by_cases e : eqCmp k' (.ref a) = true
        · simp [e]
        · simp only [e]
          exact hm k'
  | @unset h h' roots k m _ ht e ih =>
    obtain ⟨hr, ⟨nodes, hf, cf, acc, htc, hgc, hnd, hacc, hgood, hm⟩⟩ := ih
    have htg : t ≠ g := by rintro rfl; rw [htc] at hgc; cases hgc
    have htl : t < h.mem.length := (List.getElem?_eq_some_iff.mp htc).1
    obtain ⟨h2, e2, s2, _, hh2⟩ := unset_step hr ht htc k
    rw [e] at e2; cases e2
    refine ⟨.step hr s2, ⟨nodes.filter fun n => !eqCmp k n.1, hf, cf, acc, ?_, ?_, ?_, ?_, ?_, ?_⟩⟩
    · rw [hh2, erase_eq_filter k nodes hnd]; exact List.getElem?_set_self htl
    · rw [hh2]
      show (h.mem.set t _)[g]? = _
      rw [List.getElem?_set_ne htg]; exact hgc
    · exact filter_keys_nodup hnd
    · exact fun n hn => hacc n (List.mem_filter.mp hn).1
    · intro n hn
      refine goodKey_keep (hgood n (List.mem_filter.mp hn).1) fun a c0 _ hc0 hp0 => ?_
      rw [hh2]
      by_cases ea : t = a
      · subst ea; exact ⟨_, List.getElem?_set_self htl, by simp [Permanent]⟩
      · exact ⟨c0, by show (h.mem.set t _)[a]? = _; rw [List.getElem?_set_ne ea]; exact hc0, hp0⟩
    · intro k'
      rw [find_filter (fun x => !eqCmp k x) k' nodes, hm k']
      have : eqCmp k k' = eqCmp k' k := by unfold eqCmp; exact Bool.eq_iff_iff.mpr (by simp only [beq_iff_eq]; exact eq_comm)
      simp only [this]
      cases eqCmp k' k <;> simp
  | @gc h h1 h2 roots m _ ht ec ea ih =>
    obtain ⟨hr, ⟨nodes, hf, cf, acc, htc, hgc, hnd, hacc, hgood, hm⟩⟩ := ih
    obtain ⟨free, inv⟩ := inv_reachable hr
    obtain ⟨h1', m1, m2, e, col⟩ := collect_spec inv
    rw [ec] at e; cases e
    change h.mem[t]? = _ at htc
    change h.mem[g]? = _ at hgc
    have s1 : Reachable (h1, roots) := .step hr (.collect ec)
    have mark2 : ∀ a c, Reach h.mem roots a → h.mem[a]? = some c → ¬ Permanent c → m2 a = true := fun a c ha hc hp =>
      (col.liveMarks a).mpr (Or.inr ⟨ha.mono fun v hv => List.mem_append_left _ hv, c, hc, hp⟩)
    have mt := mark2 t _ ht htc (by simp [Permanent])
    have mg := mark2 g _ (g_reach ht htc) hgc (by simp [Permanent])
    have htc1 := col.mem_other t _ htc (by simp [Special]) (by simp [Permanent])
    rw [mt] at htc1
    simp only [if_true] at htc1
    have hgc1 := col.mem_guardian g _ _ hgc
    rw [mg] at hgc1
    simp only [if_true, List.append_nil] at hgc1
    have ht1 : Reach h1.mem roots t := by
      refine reach_mono (fun a c ha hc => ?_) ht
      have hk : m2 a = true ∨ Permanent c := by
        by_cases hp : Permanent c
        · exact Or.inr hp
        · exact Or.inl (mark2 a c ha hc hp)
      obtain ⟨c', e1, _, hrel⟩ := kept_cell col hc hk
      refine ⟨c', e1, ?_⟩
      rcases hrel with rfl | ⟨x, y, new, rfl, rfl, _⟩ | ⟨v, rfl, _⟩
      · exact fun _ h => h
      · intro w hw; exact List.mem_append_right _ hw
      · simp [kids]
    have hnil : Val.ref nil ∉ (acc.filter fun v => !markedV m1 v).reverse := by
      intro hm
      simp only [List.mem_reverse, List.mem_filter] at hm
      have := (col.reachMarks nil).mpr (Or.inl rfl)
      simp [markedV, this] at hm
    obtain ⟨h3, e3, s3, htc3, hgc3, hoth⟩ := drain_spec (roots := roots) _ nodes h1 roots s1 ht1 (fun _ h => h) hnd htc1 hgc1 hnil
    rw [ea] at e3; cases e3
    have hkeys : ∀ n ∈ nodes, ((acc.filter fun v => !markedV m1 v).reverse.contains n.1) = !markedV m1 n.1 := by
      intro n hn
      rw [Bool.eq_iff_iff, List.contains_iff_mem]
      simp only [List.mem_reverse, List.mem_filter]
      exact ⟨fun h => h.2, fun h => ⟨hacc n hn, h⟩⟩
    refine ⟨s3, ⟨_, hf, cf, _, htc3, hgc3, filter_keys_nodup hnd, ?_, ?_, ?_⟩⟩
    · intro n hn
      obtain ⟨hn, hc⟩ := List.mem_filter.mp hn
      rw [hkeys n hn] at hc
      exact List.mem_filter.mpr ⟨hacc n hn, by simpa using hc⟩
    · intro n hn
      obtain ⟨hn, hc⟩ := List.mem_filter.mp hn
      rw [hkeys n hn] at hc
      refine goodKey_keep (hgood n hn) fun a c en hca hp => ?_
      rw [en] at hc
      have hma : m2 a = true := by
        have : m1 a = true := by simpa [markedV] using hc
        rcases (col.reachMarks a).mp this with rfl | ⟨h1, _⟩
        · exact (col.liveMarks nil).mpr (Or.inl rfl)
        · exact mark2 a c h1 hca hp
      by_cases e1 : a = t
      · subst e1; exact ⟨_, htc3, by simp [Permanent]⟩
      by_cases e2 : a = g
      · subst e2; exact ⟨_, hgc3, by simp [Permanent]⟩
      rw [hoth a e1 e2]
      obtain ⟨c', e1, _, hrel⟩ := kept_cell col hca (Or.inl hma)
      refine ⟨c', e1, ?_⟩
      rcases hrel with rfl | ⟨x, y, new, rfl, rfl, _⟩ | ⟨v, rfl, rfl⟩
      · exact hp
      · simp [Permanent]
      · simp [Permanent]
    · intro k
      rw [find_filter (fun x => !(acc.filter fun v => !markedV m1 v).reverse.contains x) k nodes]
      have hmk := hm k
      cases hf' : nodes.find? (fun n => eqCmp k n.1) with
      | none =>
        rw [hf'] at hmk
        have : m k = none := by rw [← hmk]; rfl
        simp [retain, this]
      | some n =>
        have hn := List.mem_of_find?_eq_some hf'
        have en : k = n.1 := by have := List.find?_some hf'; simpa [eqCmp] using this
        rw [hf'] at hmk
        have hc : (acc.filter fun v => !markedV m1 v).reverse.contains k = !markedV m1 k := en ▸ hkeys n hn
        have hmk' : m k = some n.2 := hmk.symm
        obtain ⟨a, c, ea, hca, hp⟩ := hgood n hn
        rw [← en] at ea
        simp only [hc, Bool.not_not, retain, hmk', Option.map_some]
        subst ea
        have hiff : markedV m1 (.ref a) = true ↔ (a = nil ∨ Reach h.mem roots a) := by
          refine (col.reachMarks a).trans ⟨fun h => h.imp id And.left, fun h => h.imp id fun h => ⟨h, c, hca, hp⟩⟩
        by_cases hra : a = nil ∨ Reach h.mem roots a
        · rw [if_pos (hiff.mpr hra), if_neg]
          rintro ⟨b, eb, hb⟩
          cases eb; exact hb hra
        · rw [if_neg (fun h => hra (hiff.mp h)), if_pos]
          exact ⟨a, rfl, hra⟩
  | @other s s' e m _ ht hst h1 h2 h3 h4 ih =>
    obtain ⟨hr, ⟨nodes, hf, cf, acc, htc, hgc, hnd, hacc, hgood, hm⟩⟩ := ih
    obtain ⟨free, inv⟩ := inv_reachable hr
    refine ⟨.step hr hst, ⟨nodes, hf, cf, acc, ?_, ?_, hnd, hacc, ?_, hm⟩⟩
    · rw [step_keeps hst inv (inv.reach ht) h1 ?_ ?_ h4]; exact htc
      · rintro v rfl
        cases hst with
        | push _ _ e => simp only [] at htc; simp [guardianPush, htc] at e
      · rintro v rfl
        cases hst with
        | pop _ e => simp only [] at htc; simp [guardianPop, htc] at e
    · rw [step_keeps hst inv (inv.reach (g_reach ht htc)) h1 h2 h3 ?_]; exact hgc
      rintro rfl
      cases hst with
      | write _ _ hc0 _ _ =>
        obtain ⟨c0, hc0, hp0, _⟩ := hc0
        rw [hgc] at hc0; cases hc0; exact hp0.2
      | rplac _ hc0 _ _ => rw [hgc] at hc0; cases hc0
      | setWeak _ hc0 _ => rw [hgc] at hc0; cases hc0
    · intro n hn
      refine goodKey_keep (hgood n hn) fun a c en hc hp => ?_
      exact step_permanent hst inv (key_inUse inv hgc hacc hn en) h1 hc hp

/-- **C12** (partial: for tables compared by `eq`, and keys that are objects other than
subrs and constant strings): in every history, the table holds exactly the entries put
in and not removed since, except that a collection removes those whose key it finds
unreachable. -/
theorem C12_eq_partial {s : Heap × List Val} {m : Map} (hh : TableHistory eqCmp t g s m) (k : Val) :
    tableRef eqCmp s.1 t k = m k := by
  obtain ⟨_, ⟨nodes, hf, cf, acc, htc, _, _, _, _, hm⟩⟩ := table_inv hh
  unfold tableRef
  rw [htc]
  exact hm k

/-- **C12**: a collection, and then the hook, always succeed. -/
theorem C12_gc_succeeds {m : Map} (hh : TableHistory eqCmp t g (h, roots) m) (ht : Reach h.mem roots t) :
    ∃ h1 h2, collect h roots = some h1 ∧ afterGc eqCmp h1 t g = some h2 := by
  obtain ⟨hr, ⟨nodes, hf, cf, acc, htc, hgc, hnd, _, _, _⟩⟩ := table_inv hh
  obtain ⟨free, inv⟩ := inv_reachable hr
  obtain ⟨h1, m1, m2, e, col⟩ := collect_spec inv
  change h.mem[t]? = _ at htc
  change h.mem[g]? = _ at hgc
  have mark2 : ∀ a c, Reach h.mem roots a → h.mem[a]? = some c → ¬ Permanent c → m2 a = true := fun a c ha hc hp =>
    (col.liveMarks a).mpr (Or.inr ⟨ha.mono fun v hv => List.mem_append_left _ hv, c, hc, hp⟩)
  have htc1 := col.mem_other t _ htc (by simp [Special]) (by simp [Permanent])
  rw [mark2 t _ ht htc (by simp [Permanent])] at htc1
  simp only [if_true] at htc1
  have hgc1 := col.mem_guardian g _ _ hgc
  rw [mark2 g _ (g_reach ht htc) hgc (by simp [Permanent])] at hgc1
  simp only [if_true, List.append_nil] at hgc1
  have hnil : Val.ref nil ∉ (acc.filter fun v => !markedV m1 v).reverse := by
    intro hm
    simp only [List.mem_reverse, List.mem_filter] at hm
    have := (col.reachMarks nil).mpr (Or.inl rfl)
    simp [markedV, this] at hm
  have ht1 : Reach h1.mem roots t := by
    refine reach_mono (fun a c ha hc => ?_) ht
    have hk : m2 a = true ∨ Permanent c := by
      by_cases hp : Permanent c
      · exact Or.inr hp
      · exact Or.inl (mark2 a c ha hc hp)
    obtain ⟨c', e1, _, hrel⟩ := kept_cell col hc hk
    refine ⟨c', e1, ?_⟩
    rcases hrel with rfl | ⟨x, y, new, rfl, rfl, _⟩ | ⟨v, rfl, _⟩
    · exact fun _ h => h
    · intro w hw; exact List.mem_append_right _ hw
    · simp [kids]
  obtain ⟨h2, e2, _⟩ := drain_spec (roots := roots) _ nodes h1 roots (.step hr (.collect e)) ht1 (fun _ h => h) hnd htc1 hgc1 hnil
  exact ⟨h1, h2, e, e2⟩

/-- The `equal` predicate on two strings with the same contents, at 3 and 4. -/
def sameStrings (x y : Val) : Bool := (x == .ref 3 || x == .ref 4) && (y == .ref 3 || y == .ref 4)

/-- The heap of the counterexample: a table 2 with guardian 1; the equal strings 3
and 4. -/
def equalHeap (nodes : List (Val × Val)) (acc : List Val) : Heap :=
  { start with
    mem := [.fields [.ref nil, .ref nil], .guardian acc [], .table true nodes (.ref nil) (.ref nil) (.ref 1),
      .string false, .string false]
    guardians := [1] }

theorem equal_history : TableHistory sameStrings 2 1
    (equalHeap [(.ref 4, .int 2)] [.ref 4, .ref 3], [.ref 4, .ref 3, .ref 2, .ref 1])
    fun k => if sameStrings k (.ref 4) then some (.int 2) else
      if sameStrings k (.ref 3) then none else if sameStrings k (.ref 3) then some (.int 1) else none := by
  have hn : Has start [] (.ref nil) := Or.inr ⟨nil, rfl, Or.inl rfl⟩
  have s0 := TableHistory.made (cmp := sameStrings) (t := 2) (g := 1) .start hn hn rfl rfl
  have hr : ∀ (mem : List Cell) (r : List Val) a, Val.ref a ∈ r → Reach mem r a := fun _ _ _ h => .root h
  have s1 := TableHistory.other s0 (hr _ _ _ (by simp)) (.object (c := .string false) ⟨trivial, trivial⟩ (by simp [kids]))
    (by simp) (by simp) (by simp) (by simp)
  have s2 := TableHistory.other s1 (hr _ _ _ (by simp)) (.object (c := .string false) ⟨trivial, trivial⟩ (by simp [kids]))
    (by simp) (by simp) (by simp) (by simp)
  have e2 : (makeObject (makeObject (makeWeakTable start (.ref nil) (.ref nil)).1 (.string false)).1 (.string false)) =
      (equalHeap [] [], 4) := rfl
  have e1 : (makeObject (makeWeakTable start (.ref nil) (.ref nil)).1 (.string false)).2 = 3 := rfl
  rw [e2, e1] at s2
  have s3 := TableHistory.set (k := .ref 3) (v := .int 1) (h' := equalHeap [(.ref 3, .int 1)] [.ref 3]) s2 (hr _ _ _ (by simp))
    (Or.inr ⟨3, rfl, Or.inr (hr _ _ _ (by simp))⟩) ⟨3, _, rfl, rfl, by simp [Permanent]⟩ (Or.inl ⟨1, rfl⟩) rfl
  have s4 := TableHistory.unset (k := .ref 3) (h' := equalHeap [] [.ref 3]) s3 (hr _ _ _ (by simp)) rfl
  exact TableHistory.set (k := .ref 4) (v := .int 2) s4 (hr _ _ _ (by simp))
    (Or.inr ⟨4, rfl, Or.inr (hr _ _ _ (by simp))⟩) ⟨4, _, rfl, rfl, by simp [Permanent]⟩ (Or.inl ⟨2, rfl⟩) rfl

theorem equal_reachable : Reachable (equalHeap [(.ref 4, .int 2)] [.ref 4, .ref 3], [.ref 4, .ref 2]) := by
  have hr : ∀ (mem : List Cell) (r : List Val) a, Val.ref a ∈ r → Reach mem r a := fun _ _ _ h => .root h
  have hn : ∀ h r, Has h r (.ref nil) := fun _ _ => Or.inr ⟨nil, rfl, Or.inl rfl⟩
  have s1 : Reachable (_, [.ref 1]) := Reachable.step .start .guardian
  have s2 : Reachable (_, [.ref 2, .ref 1]) := Reachable.step s1
    (.object (c := .table true [] (.ref nil) (.ref nil) (.ref 1)) ⟨trivial, trivial⟩ (by
      intro v hv _
      simp only [kids, List.flatMap_nil, List.nil_append, List.mem_cons, List.not_mem_nil, or_false] at hv
      rcases hv with rfl | rfl | rfl
      · exact hn _ _
      · exact hn _ _
      · exact Or.inr ⟨1, rfl, Or.inr (hr _ _ _ (by simp))⟩))
  have s3 : Reachable (_, [.ref 3, .ref 2, .ref 1]) := Reachable.step s2
    (.object (c := .string false) ⟨trivial, trivial⟩ (by simp [kids]))
  have s4 : Reachable (equalHeap [] [], [.ref 4, .ref 3, .ref 2, .ref 1]) := Reachable.step s3
    (.object (c := .string false) ⟨trivial, trivial⟩ (by simp [kids]))
  have s5 : Reachable (equalHeap [] [.ref 3], [.ref 4, .ref 3, .ref 2, .ref 1]) := .step s4
    (.push (g := 1) (b := 3) (hr _ _ _ (by simp)) (Or.inr ⟨3, rfl, Or.inr (hr _ _ _ (by simp))⟩) rfl)
  have s6 : Reachable (equalHeap [(.ref 4, .int 2)] [.ref 3], [.ref 4, .ref 3, .ref 2, .ref 1]) := .step s5
    (.write (a := 2) (c := .table true [(.ref 4, .int 2)] (.ref nil) (.ref nil) (.ref 1)) (hr _ _ _ (by simp)) (by decide)
      ⟨_, rfl, ⟨trivial, trivial⟩, by simp [Permanent]⟩ ⟨trivial, trivial⟩ (by
        intro v hv _
        simp [kids] at hv
        rcases hv with rfl | rfl | rfl
        · exact Or.inl ⟨2, rfl⟩
        · exact hn _ _
        · exact Or.inr ⟨1, rfl, Or.inr (hr _ _ _ (by simp))⟩))
  have s7 : Reachable (equalHeap [(.ref 4, .int 2)] [.ref 4, .ref 3], [.ref 4, .ref 3, .ref 2, .ref 1]) := .step s6
    (.push (g := 1) (b := 4) (hr _ _ _ (by simp)) (Or.inr ⟨4, rfl, Or.inr (hr _ _ _ (by simp))⟩) rfl)
  exact .step s7 (.roots (by
    intro v hv _
    simp only [List.mem_cons, List.not_mem_nil, or_false] at hv
    rcases hv with rfl | rfl
    · exact Or.inr ⟨4, rfl, Or.inr (hr _ _ _ (by simp))⟩
    · exact Or.inr ⟨2, rfl, Or.inr (hr _ _ _ (by simp))⟩))

/-- **C12 is false of the code for weak tables compared by `equal`**: the entry of a
string that is still reachable is removed when an equal string, whose entry had been
removed by the program before, dies. -/
theorem C12_equal_violated : ∃ h0 h1 h2 roots m, TableHistory sameStrings 2 1 (h0, roots) m ∧ Reach h0.mem roots 4 ∧
    m (.ref 4) = some (.int 2) ∧ tableRef sameStrings h0 2 (.ref 4) = some (.int 2) ∧
    collect h0 roots = some h1 ∧ afterGc sameStrings h1 2 1 = some h2 ∧ Reach h2.mem roots 4 ∧
    tableRef sameStrings h2 2 (.ref 4) = none := by
  have hr : ∀ (mem : List Cell) (r : List Val) a, Val.ref a ∈ r → Reach mem r a := fun _ _ _ h => .root h
  have hh := TableHistory.other equal_history (hr _ _ _ (by simp)) (.roots (roots' := [.ref 4, .ref 2]) (by
    intro v hv _
    simp only [List.mem_cons, List.not_mem_nil, or_false] at hv
    rcases hv with rfl | rfl
    · exact Or.inr ⟨4, rfl, Or.inr (hr _ _ _ (by simp))⟩
    · exact Or.inr ⟨2, rfl, Or.inr (hr _ _ _ (by simp))⟩)) (by simp) (by simp) (by simp) (by simp)
  obtain ⟨free, inv⟩ := inv_reachable equal_reachable
  obtain ⟨h1, m1, m2, e, col⟩ := collect_spec inv
  have only : ∀ a, Reach (equalHeap [(.ref 4, .int 2)] [.ref 4, .ref 3]).mem [.ref 4, .ref 2] a → a ≠ 3 := by
    intro a ha
    induction ha with
    | root hm => rintro rfl; simp at hm
    | @step a b c _ hc hk ih =>
      rintro rfl
      rcases a with _ | _ | _ | _ | _ | a <;> simp [equalHeap] at hc <;> subst hc <;> simp [kids] at hk
  have live : ∀ a c, Val.ref a ∈ [Val.ref 4, .ref 2] ++ [.ref 1] →
      (equalHeap [(.ref 4, .int 2)] [.ref 4, .ref 3]).mem[a]? = some c → ¬ Permanent c → m2 a = true := by
    intro a c ha hc hp
    refine (col.liveMarks a).mpr (Or.inr ⟨?_, c, hc, hp⟩)
    rcases List.mem_append.mp ha with ha | ha
    · exact .root (List.mem_append_left _ ha)
    · have : a = 1 := by simpa using ha
      subst this
      exact .step (a := 2) (.root (by simp)) rfl (by simp [kids])
  have m13 : m1 3 = false := by
    cases hm : m1 3 with
    | false => rfl
    | true =>
      rcases (col.reachMarks 3).mp hm with h0 | ⟨h0, _⟩
      · simp [nil] at h0
      · exact absurd rfl (only 3 h0)
  have m14 : m1 4 = true := (col.reachMarks 4).mpr (Or.inr ⟨.root (by simp), _, rfl, by simp [Permanent]⟩)
  have ht := col.mem_other 2 _ rfl (by simp [Special]) (by simp [Permanent])
  rw [live 2 _ (by simp) rfl (by simp [Permanent])] at ht
  have hg := col.mem_guardian 1 _ _ rfl
  rw [live 1 _ (by simp) rfl (by simp [Permanent])] at hg
  simp [markedV, m13, m14] at hg ht
  have hlen1 : 1 < h1.mem.length := (List.getElem?_eq_some_iff.mp hg).1
  have hlen2 : 2 < h1.mem.length := (List.getElem?_eq_some_iff.mp ht).1
  refine ⟨_, h1, write (write h1 1 (.guardian [.ref 4] [])) 2 (.table true [] (.ref nil) (.ref nil) (.ref 1)), _, _, hh,
    .root (by simp), by simp [sameStrings], by simp [tableRef, equalHeap, sameStrings], e, ?_, .root (by simp), ?_⟩
  · have p1 : guardianPop h1 1 = some (write h1 1 (.guardian [.ref 4] []), .ref 3) := by
      simp [guardianPop, hg, write]
    have u1 : tableUnset sameStrings (write h1 1 (.guardian [.ref 4] [])) 2 (.ref 3) =
        some (write (write h1 1 (.guardian [.ref 4] [])) 2 (.table true [] (.ref nil) (.ref nil) (.ref 1))) := by
      simp [tableUnset, write, ht, sameStrings]
    have p2 : guardianPop (write (write h1 1 (.guardian [.ref 4] [])) 2 (.table true [] (.ref nil) (.ref nil) (.ref 1))) 1 =
        some (write (write h1 1 (.guardian [.ref 4] [])) 2 (.table true [] (.ref nil) (.ref nil) (.ref 1)), .ref nil) := by
      simp [guardianPop, write, hlen1]
    rw [afterGc.eq_def, p1]
    simp only [show (Val.ref 3 : Val) ≠ .ref nil by decide, if_false, u1]
    rw [afterGc.eq_def, p2]
    simp
  · simp [tableRef, write, hlen2]

/-- **C12 is false of the code for fixnum keys**: after `(table-set t 1 v)` the next
collection is undefined (see `C31_fixnum_violated`). -/
theorem C12_fixnum_violated (h' : Heap) (hs : tableSet eqCmp (equalHeap [] []) 2 (.int 1) (.int 2) = some h')
    (roots : List Val) (hm : ∃ m, mark h'.mem h'.marked roots = some m) : collect h' roots = none := by
  have : h' = equalHeap [(.int 1, .int 2)] [.int 1] := by
    simp [tableSet, equalHeap, write, guardianPush] at hs
    exact hs.symm
  subst this
  exact C31_fixnum_violated _ 1 [] [] roots hm rfl rfl

/-- A weak `eq` table with an entry whose key is then dropped: a collection removes it. -/
example : ∃ h h1 h2 roots m, TableHistory eqCmp 2 1 (h, roots) m ∧ tableRef eqCmp h 2 (.ref 3) = some (.int 1) ∧
    collect h roots = some h1 ∧ afterGc eqCmp h1 2 1 = some h2 ∧ tableRef eqCmp h2 2 (.ref 3) = none := by
  have hn : Has start [] (.ref nil) := Or.inr ⟨nil, rfl, Or.inl rfl⟩
  have s0 := TableHistory.made (cmp := eqCmp) (t := 2) (g := 1) .start hn hn rfl rfl
  have hr : ∀ (mem : List Cell) (r : List Val) a, Val.ref a ∈ r → Reach mem r a := fun _ _ _ h => .root h
  have s1 := TableHistory.other s0 (hr _ _ _ (by simp)) (.object (c := .string false) ⟨trivial, trivial⟩ (by simp [kids]))
    (by simp) (by simp) (by simp) (by simp)
  have s2 := TableHistory.other s1 (hr _ _ _ (by simp)) (.object (c := .string false) ⟨trivial, trivial⟩ (by simp [kids]))
    (by simp) (by simp) (by simp) (by simp)
  have e2 : (makeObject (makeObject (makeWeakTable start (.ref nil) (.ref nil)).1 (.string false)).1 (.string false)) =
      (equalHeap [] [], 4) := rfl
  have e1 : (makeObject (makeWeakTable start (.ref nil) (.ref nil)).1 (.string false)).2 = 3 := rfl
  rw [e2, e1] at s2
  have s3 := TableHistory.set (k := .ref 3) (v := .int 1) (h' := equalHeap [(.ref 3, .int 1)] [.ref 3]) s2 (hr _ _ _ (by simp))
    (Or.inr ⟨3, rfl, Or.inr (hr _ _ _ (by simp))⟩) ⟨3, _, rfl, rfl, by simp [Permanent]⟩ (Or.inl ⟨1, rfl⟩) rfl
  have s4 := TableHistory.other s3 (hr _ _ _ (by simp)) (.roots (roots' := [.ref 2]) (by
    intro v hv _
    simp only [List.mem_cons, List.not_mem_nil, or_false] at hv
    subst hv
    exact Or.inr ⟨2, rfl, Or.inr (hr _ _ _ (by simp))⟩)) (by simp) (by simp) (by simp) (by simp)
  obtain ⟨h1, h2, c1, c2⟩ := C12_gc_succeeds s4 (hr _ _ _ (by simp))
  refine ⟨_, h1, h2, _, _, s4, rfl, c1, c2, ?_⟩
  rw [C12_eq_partial (TableHistory.gc s4 (hr _ _ _ (by simp)) c1 c2)]
  unfold retain
  rw [if_pos]
  refine ⟨3, rfl, ?_⟩
  have only : ∀ a, Reach (equalHeap [(.ref 3, .int 1)] [.ref 3]).mem [.ref 2] a → a ≠ 3 := by
    intro a ha
    induction ha with
    | root hm => rintro rfl; simp at hm
    | @step a b c _ hc hk ih =>
      rintro rfl
      rcases a with _ | _ | _ | _ | _ | a <;> simp [equalHeap] at hc <;> subst hc <;> simp [kids] at hk
  rintro (h | h)
  · simp [nil] at h
  · exact only 3 h rfl

end Rep.Gc
