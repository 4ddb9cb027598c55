/-
The effect of a collection, and the invariant after it.
-/
import Verif.Gc.Lemmas

namespace Rep.Gc

/-- The object of a weak reference after a collection with the marks `m`. -/
def clear (m : Nat → Bool) : Val → Val
  | .ref b => if m b then .ref b else .ref nil
  | v => v

/-- Conses, guardians and weak references. -/
def Special : Cell → Prop
  | .cons _ _ => True
  | .guardian _ _ => True
  | .weakRef _ => True
  | _ => False

/-- The effect of a collection in terms of the two sets of marks. -/
structure Collected (h : Heap) (roots : List Val) (m1 m2 : Nat → Bool) (h' : Heap) : Prop where
  reachMarks : ∀ a, m1 a = true ↔ a = nil ∨ (Reach h.mem roots a ∧ Markable h.mem a)
  liveMarks : ∀ a, m2 a = true ↔ a = nil ∨ (Live h roots a ∧ Markable h.mem a)
  mem_cons : ∀ (a : Nat) car cdr, h.mem[a]? = some (.cons car cdr) → m2 a = true → h'.mem[a]? = some (.cons car cdr)
  mem_free : ∀ (a : Nat) car cdr, h.mem[a]? = some (.cons car cdr) → ∃ car cdr, h'.mem[a]? = some (.cons car cdr)
  mem_guardian : ∀ (a : Nat) acc inacc, h.mem[a]? = some (.guardian acc inacc) →
    h'.mem[a]? = some (if m2 a then
      .guardian (acc.filter (markedV m1)) ((acc.filter fun v => !markedV m1 v).reverse ++ inacc) else .free)
  mem_weak : ∀ (a : Nat) v, h.mem[a]? = some (.weakRef v) →
    h'.mem[a]? = some (if m2 a then .weakRef (clear m2 v) else .free)
  mem_perm : ∀ (a : Nat) c, h.mem[a]? = some c → Permanent c → h'.mem[a]? = some c
  mem_other : ∀ (a : Nat) c, h.mem[a]? = some c → ¬ Special c → ¬ Permanent c →
    h'.mem[a]? = some (if m2 a then c else .free)
  mem_none : ∀ (a : Nat), h.mem[a]? = none → h'.mem[a]? = none
  marked : h'.marked = fun a => a == nil
  slots : h'.slots = h.slots
  chain : Chain h'.mem h'.consFree (h.slots.filter fun a => !m2 a).reverse
  used : h'.usedCons = (h.slots.filter m2).length
  guardians : h'.guardians = (h.guardians.filter m2).reverse
  weakRefs : h'.weakRefs = (h.weakRefs.filter m2).reverse

variable {h : Heap} {roots : List Val} {free : List Nat}

theorem accessibleOf_mem {g : Nat} {v : Val} (hg : g ∈ h.guardians) (hv : v ∈ accessibleOf h.mem g) : v ∈ guarded h := by
  unfold guarded; exact List.mem_flatMap.mpr ⟨g, hg, hv⟩

theorem markable_of_kid {mem : List Cell} {a b : Nat} {c : Cell} (hc : mem[a]? = some c) (hb : Val.ref b ∈ kids c) :
    Markable mem a := by
  refine ⟨c, hc, fun hp => ?_⟩
  cases c <;> simp_all [Permanent, kids]

theorem nil_kids (inv : Inv h roots free) {c : Cell} {b : Nat} (hc : h.mem[nil]? = some c) (hb : Val.ref b ∈ kids c) : b = nil := by
  rw [inv.nilCell] at hc; cases hc
  simpa [kids] using hb

theorem Inv.live (inv : Inv h roots free) (a : Nat) (ha : Live h roots a) : InUse h free a := by
  unfold Live at ha
  induction ha with
  | root hv =>
    rcases List.mem_append.mp hv with hv | hv
    · exact inv.roots _ hv
    · obtain ⟨a, e, ha⟩ := inv.registered _ hv
      cases e; exact ha
  | step _ hc hk ih => exact inv.kids _ _ _ ih hc hk

theorem Inv.liveSound (inv : Inv h roots free) (a : Nat) (ha : Live h roots a) : ∃ c, h.mem[a]? = some c ∧ Sound c := by
  obtain ⟨c, h1, h2, _⟩ := inv.live a ha; exact ⟨c, h1, h2⟩

theorem nil_markable (inv : Inv h roots free) : Markable h.mem nil := ⟨_, inv.nilCell, by simp [Permanent]⟩

/-- `scanGuardians` leaves kinds and adds only guarded objects to what a cell refers to. -/
structure Scanned (h : Heap) (mem1 : List Cell) : Prop where
  cell : ∀ (a : Nat), mem1[a]? = h.mem[a]? ∨ ∃ acc inacc acc' inacc', h.mem[a]? = some (.guardian acc inacc) ∧
    mem1[a]? = some (.guardian acc' inacc') ∧ (∀ v ∈ inacc, v ∈ inacc') ∧ (∀ v ∈ inacc', v ∈ inacc ∨ v ∈ guarded h)

theorem Scanned.markable {mem1 : List Cell} (s : Scanned h mem1) {a : Nat} : Markable mem1 a ↔ Markable h.mem a := by
  rcases s.cell a with e | ⟨acc, inacc, acc', inacc', e1, e2, _⟩
  · unfold Markable; rw [e]
  · unfold Markable; rw [e1, e2]; simp [Permanent]

theorem Scanned.kids_up {mem1 : List Cell} (s : Scanned h mem1) {a : Nat} {c : Cell} (hc : h.mem[a]? = some c) :
    ∃ c1, mem1[a]? = some c1 ∧ ∀ v ∈ kids c, v ∈ kids c1 := by
  rcases s.cell a with e | ⟨acc, inacc, acc', inacc', e1, e2, h1, _⟩
  · exact ⟨c, by rw [e]; exact hc, fun v hv => hv⟩
  · rw [e1] at hc; cases hc
    exact ⟨_, e2, h1⟩

theorem Scanned.kids_down {mem1 : List Cell} (s : Scanned h mem1) {a : Nat} {c1 : Cell} (hc : mem1[a]? = some c1) :
    ∃ c, h.mem[a]? = some c ∧ ∀ v ∈ kids c1, v ∈ kids c ∨ v ∈ guarded h := by
  rcases s.cell a with e | ⟨acc, inacc, acc', inacc', e1, e2, _, h2⟩
  · exact ⟨c1, by rw [← e]; exact hc, fun v hv => Or.inl hv⟩
  · rw [e2] at hc; cases hc
    exact ⟨_, e1, h2⟩

theorem Scanned.sound {mem1 : List Cell} (s : Scanned h mem1) {a : Nat} (hc : ∃ c, h.mem[a]? = some c ∧ Sound c) :
    ∃ c, mem1[a]? = some c ∧ Sound c := by
  rcases s.cell a with e | ⟨acc, inacc, acc', inacc', e1, e2, _⟩
  · rw [e]; exact hc
  · exact ⟨_, e2, trivial⟩

theorem Scanned.reach {mem1 : List Cell} (s : Scanned h mem1) {todo : List Val} (ht : ∀ v ∈ todo, v ∈ guarded h) {a : Nat}
    (ha : Reach mem1 todo a) : Live h roots a := by
  induction ha with
  | root hv => exact .root (List.mem_append_right _ (ht _ hv))
  | step _ hc hk ih =>
    obtain ⟨c, e, hk'⟩ := s.kids_down hc
    rcases hk' _ hk with hk | hk
    · exact .step ih e hk
    · exact .root (List.mem_append_right _ hk)

theorem collect_spec (inv : Inv h roots free) : ∃ h' m1 m2, collect h roots = some h' ∧ Collected h roots m1 m2 h' := by
  -- marking from the roots
  obtain ⟨m1, e1, p1⟩ := mark_spec h.mem h.marked roots (fun a ha _ => inv.liveSound a (ha.mono (by
    intro v hv; exact List.mem_append_left _ hv)))
  have hnil0 : h.marked nil = true := by rw [inv.marks]; rfl
  have h0 : ∀ a, h.marked a = true → a = nil := by intro a ha; rw [inv.marks] at ha; simpa using ha
  have h0' : ∀ a, a ≠ nil → h.marked a = false := by intro a ha; rw [inv.marks]; simpa using ha
  have hnil1 : m1 nil = true := p1.mono nil hnil0
  -- the guardians
  obtain ⟨mem1, changed, e2, g1, g2, g3⟩ := scanGuardians_spec m1 h.guardians h.mem [] inv.guardiansNodup (by
    intro g hg
    obtain ⟨acc, inacc, hga⟩ := (inv.guardians g).mp hg
    refine ⟨acc, inacc, hga, fun v hv => ?_⟩
    obtain ⟨a, e, _⟩ := inv.registered v (accessibleOf_mem hg (by unfold accessibleOf; rw [hga]; exact hv))
    exact ⟨a, e⟩)
  have hs : Scanned h mem1 := by
    constructor
    intro a
    by_cases ha : a ∈ h.guardians
    · obtain ⟨acc, inacc, hga⟩ := (inv.guardians a).mp ha
      refine Or.inr ⟨acc, inacc, _, _, hga, g2 a acc inacc ha hga, ?_, ?_⟩
      · intro v hv; simp [hv]
      · intro v hv
        rcases List.mem_append.mp hv with hv | hv
        · right
          refine accessibleOf_mem ha ?_
          unfold accessibleOf; rw [hga]
          simp only [List.mem_reverse, List.mem_filter] at hv
          exact hv.1
        · exact Or.inl hv
    · exact Or.inl (g1 a ha)
  have hch : ∀ v ∈ changed, v ∈ guarded h := by
    intro v hv
    rcases (g3 v).mp hv with hv | ⟨g, hg, hv, _⟩
    · simp at hv
    · exact accessibleOf_mem hg hv
  -- marking the objects that changed
  obtain ⟨m2, e3, p2⟩ := mark_spec mem1 m1 changed (fun a ha _ => hs.sound (inv.liveSound a (hs.reach hch ha)))
  have hnil2 : m2 nil = true := p2.mono nil hnil1
  -- the marks
  have c1 : ∀ a, m1 a = true ↔ a = nil ∨ (Reach h.mem roots a ∧ Markable h.mem a) := by
    intro a
    constructor
    · intro ha
      by_cases hn : a = nil
      · exact Or.inl hn
      · right
        refine ⟨?_, (p1.closed a ha (h0' a hn)).1⟩
        rcases p1.sound a ha with h | h
        · exact absurd (h0 a h) hn
        · exact h
    · rintro (rfl | ⟨hr, hm⟩)
      · exact hnil1
      · induction hr with
        | root hv => exact p1.todo _ hv hm
        | @step x b c hx hc hk ih =>
          have hxm := ih (markable_of_kid hc hk)
          by_cases hn : x = nil
          · subst hn; rw [nil_kids inv hc hk]; exact hnil1
          · rcases (p1.closed x hxm (h0' x hn)).2 c b hc hk hm with h | rfl
            · exact h
            · exact hnil1
  have c2 : ∀ a, m2 a = true ↔ a = nil ∨ (Live h roots a ∧ Markable h.mem a) := by
    intro a
    constructor
    · intro ha
      cases hm1 : m1 a with
      | true =>
        rcases (c1 a).mp hm1 with h | ⟨h1, h2⟩
        · exact Or.inl h
        · exact Or.inr ⟨h1.mono (fun v hv => List.mem_append_left _ hv), h2⟩
      | false =>
        right
        refine ⟨?_, hs.markable.mp (p2.closed a ha hm1).1⟩
        rcases p2.sound a ha with h | h
        · simp [hm1] at h
        · exact hs.reach hch h
    · rintro (rfl | ⟨hr, hm⟩)
      · exact hnil2
      · unfold Live at hr
        induction hr with
        | @root b hv =>
          rcases List.mem_append.mp hv with hv | hv
          · exact p2.mono _ (p1.todo _ hv hm)
          · cases hb : m1 b with
            | true => exact p2.mono _ hb
            | false =>
              refine p2.todo _ ?_ (hs.markable.mpr hm)
              obtain ⟨g, hg, hv⟩ := List.mem_flatMap.mp hv
              exact (g3 _).mpr (Or.inr ⟨g, hg, hv, hb⟩)
        | @step x b c hx hc hk ih =>
          have hxm := ih (markable_of_kid hc hk)
          by_cases hn : x = nil
          · subst hn; rw [nil_kids inv hc hk]; exact hnil2
          · cases hx1 : m1 x with
            | true =>
              rcases (p1.closed x hx1 (h0' x hn)).2 c b hc hk hm with h | rfl
              · exact p2.mono _ h
              · exact hnil2
            | false =>
              obtain ⟨cc, hcc, hkk⟩ := hs.kids_up hc
              rcases (p2.closed x hxm hx1).2 cc b hcc (hkk _ hk) (hs.markable.mpr hm) with h | rfl
              · exact h
              · exact hnil2
  -- weak references
  have hweak1 : ∀ (r : Nat) v, mem1[r]? = some (Cell.weakRef v) ↔ h.mem[r]? = some (Cell.weakRef v) := by
    intro r v
    rcases hs.cell r with e | ⟨acc, inacc, acc', inacc', e1, e2, _⟩
    · rw [e]
    · rw [e1, e2]; simp
  obtain ⟨mem2, e4, w1⟩ := scanWeakRefs_spec m2 h.weakRefs mem1 [] inv.weakNodup (by
    intro r hr
    obtain ⟨v, hv⟩ := (inv.weakRefs r).mp hr
    refine ⟨v, (hweak1 r v).mpr hv, ?_⟩
    rcases inv.weakTargets r v hv with ⟨n, rfl⟩ | ⟨a, rfl, _⟩ <;> simp)
  have w2 : ∀ a : Nat, (∀ v, h.mem[a]? ≠ some (.weakRef v)) → mem2[a]? = mem1[a]? := by
    intro a ha
    rw [w1 a]; unfold weakened
    split
    · rename_i b hb; exact absurd ((hweak1 a _).mp hb) (ha _)
    · rfl
  have w3 : ∀ a : Nat, (∀ acc inacc, h.mem[a]? ≠ some (.guardian acc inacc)) → mem1[a]? = h.mem[a]? := by
    intro a ha
    rcases hs.cell a with e | ⟨acc, inacc, _, _, e1, _⟩
    · exact e
    · exact absurd e1 (ha _ _)
  -- sweeping
  have hslots : ∀ a ∈ h.slots, ∃ car cdr, mem2[a]? = some (.cons car cdr) := by
    intro a ha
    obtain ⟨car, cdr, hc⟩ := (inv.slots a).mp ha
    refine ⟨car, cdr, ?_⟩
    rw [w2 a (by intro v; rw [hc]; simp), w3 a (by intro x y; rw [hc]; simp), hc]
  obtain ⟨mem3, free', e5, s1, s2, s3⟩ := sweepCons_spec m2 h.slots mem2 .null 0 [] inv.slotsNodup hslots .nil (by simp)
  refine ⟨⟨mem3.mapIdx (sweepCell m2), fun a => a == nil, h.slots, free', 0 + (h.slots.filter m2).length,
    (h.guardians.filter m2).reverse, (h.weakRefs.filter m2).reverse ++ []⟩, m1, m2, by
    unfold collect
    rw [e1]; simp only
    rw [e2]; simp only
    rw [e3]; simp only
    rw [e4]; simp only
    rw [e5], ?_⟩
  have hmem : ∀ a : Nat, (mem3.mapIdx (sweepCell m2))[a]? = (mem3[a]?).map (sweepCell m2 a) := by
    intro a; exact List.getElem?_mapIdx
  have hnc : ∀ a : Nat, (∀ car cdr, h.mem[a]? ≠ some (.cons car cdr)) → mem3[a]? = mem2[a]? := by
    intro a ha
    refine s2 a (Or.inl fun hs' => ?_)
    obtain ⟨car, cdr, hc⟩ := (inv.slots a).mp hs'
    exact ha _ _ hc
  constructor
  · exact c1
  · exact c2
  · intro a car cdr hc hm
    rw [hmem, s2 a (Or.inr hm), w2 a (by intro v; rw [hc]; simp), w3 a (by intro x y; rw [hc]; simp), hc]; rfl
  · intro a car cdr hc
    obtain ⟨car', cdr', hc'⟩ := s3 a ((inv.slots a).mpr ⟨car, cdr, hc⟩)
    refine ⟨car', cdr', ?_⟩
    rw [hmem, hc']; rfl
  · intro a acc inacc hc
    have hg := (inv.guardians a).mpr ⟨acc, inacc, hc⟩
    rw [hmem, hnc a (by intro x y; rw [hc]; simp), w2 a (by intro v; rw [hc]; simp), g2 a acc inacc hg hc]
    simp only [Option.map_some, sweepCell, Option.some.injEq]
    have : a ≠ nil := by rintro rfl; rw [inv.nilCell] at hc; cases hc
    simp [this]
  · intro a v hc
    have hw := (inv.weakRefs a).mpr ⟨v, hc⟩
    have : a ≠ nil := by rintro rfl; rw [inv.nilCell] at hc; cases hc
    rw [hmem, hnc a (by intro x y; rw [hc]; simp), w1 a, (hweak1 a v).mpr hc]
    cases v with
    | null => simp [weakened, sweepCell, clear, this]
    | int n => simp [weakened, sweepCell, clear, this]
    | ref b =>
      unfold weakened clear
      cases hma : m2 a <;> cases hmb : m2 b <;> simp [hw, sweepCell, hma, hmb, this]
  · intro a c hc hp
    have n1 : ∀ car cdr, c ≠ .cons car cdr := by rintro _ _ rfl; simp [Permanent] at hp
    have n2 : ∀ v, c ≠ .weakRef v := by rintro _ rfl; simp [Permanent] at hp
    have n3 : ∀ x y, c ≠ .guardian x y := by rintro _ _ rfl; simp [Permanent] at hp
    rw [hmem, hnc a (by intro x y; rw [hc]; simpa using n1 x y), w2 a (by intro v; rw [hc]; simpa using n2 v),
      w3 a (by intro x y; rw [hc]; simpa using n3 x y), hc]
    simp only [Option.map_some, Option.some.injEq]
    cases c with
    | string st => cases st <;> simp_all [Permanent, sweepCell]
    | subr => rfl
    | _ => simp [Permanent] at hp
  · intro a c hc hsp hp
    have n1 : ∀ car cdr, c ≠ .cons car cdr := by rintro _ _ rfl; simp [Special] at hsp
    have n2 : ∀ v, c ≠ .weakRef v := by rintro _ rfl; simp [Special] at hsp
    have n3 : ∀ x y, c ≠ .guardian x y := by rintro _ _ rfl; simp [Special] at hsp
    rw [hmem, hnc a (by intro x y; rw [hc]; simpa using n1 x y), w2 a (by intro v; rw [hc]; simpa using n2 v),
      w3 a (by intro x y; rw [hc]; simpa using n3 x y), hc]
    simp only [Option.map_some, Option.some.injEq]
    have hcond : (m2 a || a == nil) = m2 a := by
      by_cases hn : a = nil
      · subst hn; simp [hnil2]
      · simp [hn]
    cases c with
    | cons x y => simp [Special] at hsp
    | subr => simp [Permanent] at hp
    | string st =>
      cases st with
      | true => simp [Permanent] at hp
      | false => simp only [sweepCell, hcond]
    | _ => simp [sweepCell, hcond]
  · intro a hc
    rw [hmem, hnc a (by intro x y; rw [hc]; simp), w2 a (by intro v; rw [hc]; simp), w3 a (by intro x y; rw [hc]; simp), hc]
    rfl
  · rfl
  · rfl
  · have := s1.congr (mem' := mem3.mapIdx (sweepCell m2)) (by
      intro a ha
      simp only [List.append_nil, List.mem_reverse, List.mem_filter] at ha
      obtain ⟨car, cdr, hc⟩ := s3 a ha.1
      rw [hmem, hc]; rfl)
    simpa using this
  · simp
  · rfl
  · simp

end Rep.Gc
