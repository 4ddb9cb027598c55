/-
The event loop: specification and properties.
-/
import Verif.Events.Model
import Mathlib.Data.List.Induction

namespace Rep.Events

variable {size : Nat} {garbage : FdSet}

/-! ### Specification -/

/-- The state before the event with number `t` of a history. -/
def before (size : Nat) (garbage : FdSet) (evs : List Event) (t : Nat) : St :=
  run size garbage (evs.take t)

/-- Asked for by the request, in this state. -/
def Asked (st : St) (req : Request) (fd : Nat) : Prop :=
  match req with
  | .all => ∃ c, st.actions fd = some c
  | .callbacks cs => ∃ c ∈ cs, st.actions fd = some c
  | .fds l => fd ∈ l ∧ ∃ c, st.actions fd = some c

/-- The set `R` that a loop handles is right: the descriptors asked for that are
marked as pending when the loop is entered or, if there are none, those asked
for that have input when `select` returns. -/
def Reported (size : Nat) (garbage : FdSet) (evs : List Event) (req : Request)
    (entered seen : Nat) (R : Nat → Prop) : Prop :=
  let S := before size garbage evs
  ((∃ fd, R fd) ∧ seen = entered ∧
    ∀ fd, R fd ↔ Asked (S entered) req fd ∧ (S entered).pending fd = true) ∨
  ((∀ fd, Asked (S entered) req fd → (S entered).pending fd = false) ∧ entered < seen ∧
    ∀ fd, R fd ↔ Asked (S entered) req fd ∧ (S seen).os fd = true)

/-- The turns of a loop are right: in the order of the descriptors, so each has
at most one; only reported ones; with a call of the function that is registered
for it at that time, and no call if there is none. -/
def TurnsRight (size : Nat) (garbage : FdSet) (evs : List Event) (seen : Nat) (R : Nat → Prop)
    (turns : List Turn) : Prop :=
  turns.Pairwise (fun a b => a.fd < b.fd) ∧
  ∀ t ∈ turns, R t.fd ∧ seen < t.time ∧ t.time < evs.length ∧
    t.callback = (before size garbage evs t.time).actions t.fd

/-! ### Proof -/

theorem put_same {α : Type} (f : Nat → α) (fd : Nat) (v : α) : put f fd v fd = v := by simp [put]

theorem put_ne {α : Type} (f : Nat → α) {fd x : Nat} (v : α) (h : x ≠ fd) :
    put f fd v x = f x := by simp [put, h]

theorem countP_put (l : List Nat) (hl : l.Nodup) (s : FdSet) (fd : Nat) :
    (l.countP (put s fd true) : Int)
      = l.countP s + (if fd ∈ l ∧ s fd = false then 1 else 0) ∧
    (l.countP (put s fd false) : Int)
      = l.countP s - (if fd ∈ l ∧ s fd = true then 1 else 0) := by
  induction l with
  | nil => simp
  | cons x l ih =>
    rw [List.nodup_cons] at hl
    have ih := ih hl.2
    simp only [List.countP_cons, List.mem_cons]
    by_cases hx : x = fd
    · subst hx
      have h1 := hl.1
      simp only [h1, false_and, if_false] at ih
      simp only [put_same, true_or, true_and]
      cases hs : s x <;> simp <;> constructor <;> omega
    · have hx' : ¬ fd = x := fun h => hx h.symm
      simp only [put_ne s _ hx, hx', false_or]
      constructor
      · have := ih.1; cases s x <;> simp at * <;> omega
      · have := ih.2; cases s x <;> simp at * <;> omega

theorem card_true {s : FdSet} {fd : Nat} (h : fd < size) (hs : s fd = false) :
    (card size (put s fd true) : Int) = card size s + 1 := by
  have := (countP_put (List.range size) List.nodup_range s fd).1
  simpa [card, h, hs] using this

theorem card_false {s : FdSet} {fd : Nat} (h : fd < size) (hs : s fd = true) :
    (card size (put s fd false) : Int) = card size s - 1 := by
  have := (countP_put (List.range size) List.nodup_range s fd).2
  simpa [card, h, hs] using this

/-- The members from `i` on, below `size`. -/
def from_ (size i : Nat) (s : FdSet) : Nat := (List.range' i (size - i)).countP s

theorem from_zero (s : FdSet) : from_ size 0 s = card size s := by
  simp [from_, card, List.range_eq_range']

theorem from_succ {i : Nat} (h : i < size) (s : FdSet) :
    from_ size i s = (if s i then 1 else 0) + from_ size (i + 1) s := by
  unfold from_
  obtain ⟨k, hk⟩ : ∃ k, size - i = k + 1 := ⟨size - i - 1, by omega⟩
  rw [hk, List.range'_succ, List.countP_cons, show size - (i + 1) = k from by omega]
  omega

theorem from_none {i : Nat} {s : FdSet} (h : from_ size i s = 0) {fd : Nat} (h1 : i ≤ fd)
    (h2 : fd < size) : s fd = false := by
  unfold from_ at h
  rw [List.countP_eq_zero] at h
  have := h fd (by rw [List.mem_range'_1]; omega)
  simpa using this

/-- The scan of the pending inputs. -/
theorem scan_spec {pending inputs : FdSet} {count : Int} :
    ∀ (n i : Nat) (seen : Int) (out : FdSet) (cnt : Int), n = size - i → i ≤ size →
      seen + from_ size i pending = count → 0 ≤ cnt →
      (cnt > 0 → ∀ fd, out fd = (decide (fd < i) && pending fd && inputs fd)) →
      (cnt = 0 → ∀ fd < i, (pending fd && inputs fd) = false) →
      let r := scan pending inputs count n i seen out cnt
      r.2 = cnt + from_ size i (fun fd => pending fd && inputs fd) ∧
      (r.2 > 0 → ∀ fd, r.1 fd = (decide (fd < size) && pending fd && inputs fd)) := by
  intro n
  induction n with
  | zero =>
    intro i seen out cnt hn hi hc h0 ho hz
    have : i = size := by omega
    subst this
    simp only [scan]
    refine ⟨by simp [from_], fun h => ho h⟩
  | succ n ih =>
    intro i seen out cnt hn hi hc h0 ho hz
    have hlt : i < size := by omega
    simp only [scan]
    by_cases hsc : seen < count
    · rw [if_pos hsc]
      rw [from_succ hlt pending] at hc
      rw [from_succ hlt (fun fd => pending fd && inputs fd)]
      cases hp : pending i with
      | false =>
        simp only [hp, Bool.false_and, Bool.false_eq_true, if_false, Nat.zero_add] at hc ⊢
        exact ih _ _ _ _ (by omega) (by omega) (by omega) h0
          (fun h fd => by
            rw [ho h fd]
            by_cases hfd : fd = i
            · subst hfd; simp [hp]
            · congr 2; exact decide_eq_decide.2 (by omega))
          (fun h fd hfd => by
            by_cases hfi : fd = i
            · subst hfi; simp [hp]
            · exact hz h fd (by omega))
      | true =>
        simp only [hp, if_true, Bool.true_and] at hc ⊢
        cases hin : inputs i with
        | false =>
          simp only [Bool.false_eq_true, if_false, Nat.zero_add]
          exact ih _ _ _ _ (by omega) (by omega) (by omega) h0
            (fun h fd => by
              rw [ho h fd]
              by_cases hfd : fd = i
              · subst hfd; simp [hin]
              · congr 2; exact decide_eq_decide.2 (by omega))
            (fun h fd hfd => by
              by_cases hfi : fd = i
              · subst hfi; simp [hin]
              · exact hz h fd (by omega))
        | true =>
          simp only [if_true]
          have := ih (i + 1) (seen + 1)
            (put (if cnt = 0 then (fun _ => false) else out) i true) (cnt + 1)
            (by omega) (by omega) (by omega) (by omega)
            (fun _ fd => by
              by_cases hfd : fd = i
              · subst hfd; simp [put_same, hp, hin]
              · rw [put_ne _ _ hfd]
                by_cases hc0 : cnt = 0
                · rw [if_pos hc0]
                  by_cases hlt2 : fd < i
                  · have := hz hc0 fd hlt2
                    rw [Bool.and_assoc, this]; simp
                  · have : ¬ fd < i + 1 := by omega
                    simp [this]
                · rw [if_neg hc0, ho (by omega) fd]
                  congr 2; exact decide_eq_decide.2 (by omega))
            (fun h => by omega)
          refine ⟨?_, this.2⟩
          rw [this.1]; omega
    · rw [if_neg hsc]
      have hz0 : from_ size i pending = 0 := by omega
      have hzz : from_ size i (fun fd => pending fd && inputs fd) = 0 := by
        unfold from_
        rw [List.countP_eq_zero]
        intro fd hfd
        rw [List.mem_range'_1] at hfd
        rw [from_none hz0 hfd.1 (by omega)]; simp
      refine ⟨by simp [hzz], fun h fd => ?_⟩
      dsimp only
      rw [ho h fd]
      by_cases h1 : fd < i
      · have : fd < size := by omega
        simp [h1, this]
      · by_cases h2 : fd < size
        · rw [from_none hz0 (by omega) h2]; simp
        · simp [h1, h2]

/-- What is true of each loop. -/
structure LoopOk (size : Nat) (garbage : FdSet) (evs : List Event) (l : Loop) : Prop where
  time : l.entered ≤ l.seen ∧ l.seen < evs.length
  right : ∃ req,
    (l.phase = .waiting → (∀ fd, l.inputs fd = true ↔
        Asked (before size garbage evs l.entered) req fd) ∧ l.turns = [] ∧ l.i = 0 ∧
        ∀ fd, Asked (before size garbage evs l.entered) req fd →
          (before size garbage evs l.entered).pending fd = false) ∧
    (l.phase ≠ .waiting →
      Reported size garbage evs req l.entered l.seen (fun fd => l.inputs fd = true) ∧
      (∀ fd, l.inputs fd = true → fd < size) ∧
      l.i ≤ size ∧ l.ready = from_ size l.i l.inputs ∧
      l.turns.map Turn.fd = (List.range l.i).filter l.inputs ∧
      ∀ t ∈ l.turns, l.seen < t.time ∧ t.time < evs.length ∧
        t.callback = (before size garbage evs t.time).actions t.fd)

/-- The invariant. -/
structure Inv (size : Nat) (garbage : FdSet) (evs : List Event) (st : St) : Prop where
  clock : st.clock = evs.length
  small : ∀ fd, st.pending fd = true → fd < size
  count : st.count = card size st.pending
  reg : ∀ fd, st.fdset fd = (st.actions fd).isSome
  regSmall : ∀ fd, st.fdset fd = true → fd < size
  loops : ∀ l ∈ st.loops, LoopOk size garbage evs l
  done : ∀ d ∈ st.done, LoopOk size garbage evs d.loop ∧ d.loop.phase ≠ .waiting ∧
    (d.interrupted = false → from_ size d.loop.i d.loop.inputs = 0)

theorem before_append {evs : List Event} {t : Nat} (h : t ≤ evs.length) (e : Event) :
    before size garbage (evs ++ [e]) t = before size garbage evs t := by
  unfold before
  rw [List.take_append_of_le_length h]

theorem Reported.append {evs : List Event} {req entered seen} {R : Nat → Prop}
    (h : Reported size garbage evs req entered seen R) (h1 : entered ≤ seen)
    (h2 : seen ≤ evs.length) (e : Event) :
    Reported size garbage (evs ++ [e]) req entered seen R := by
  unfold Reported at h ⊢
  simp only [before_append h2, before_append (Nat.le_trans h1 h2)]
  exact h

theorem LoopOk.append {evs : List Event} {l : Loop} (h : LoopOk size garbage evs l) (e : Event) :
    LoopOk size garbage (evs ++ [e]) l := by
  obtain ⟨⟨h1, h2⟩, req, ha, hb⟩ := h
  have h3 : l.seen ≤ evs.length := by omega
  refine ⟨⟨h1, by simp; omega⟩, req, ?_, ?_⟩
  · intro hp
    rw [before_append (by omega)]
    exact ha hp
  · intro hp
    obtain ⟨b1, b2, b3, b4, b5, b6⟩ := hb hp
    refine ⟨b1.append h1 h3 e, b2, b3, b4, b5, ?_⟩
    intro t ht
    obtain ⟨c1, c2, c3⟩ := b6 t ht
    refine ⟨c1, by simp; omega, ?_⟩
    rw [before_append (by omega)]; exact c3

theorem requested_iff {st : St} (hreg : ∀ fd, st.fdset fd = (st.actions fd).isSome)
    (req : Request) (fd : Nat) : requested st req fd = true ↔ Asked st req fd := by
  cases req with
  | all => simp [requested, Asked, hreg, Option.isSome_iff_exists]
  | callbacks cs =>
    simp only [requested, Asked, hreg, Bool.and_eq_true, List.any_eq_true, decide_eq_true_eq]
    constructor
    · rintro ⟨_, c, h⟩; exact ⟨c, h⟩
    · rintro ⟨c, h1, h2⟩; exact ⟨by simp [h2], c, h1, h2⟩
  | fds l =>
    simp [requested, Asked, hreg, Option.isSome_iff_exists, and_comm]

theorem stepLoop_mem {st : St} {id : Nat} {p : Phase} {f : St → Loop → St × Option Loop}
    (hf : ∀ l, (f st l).1.loops = st.loops) {l' : Loop}
    (h : l' ∈ (stepLoop st id p f).loops) :
    l' ∈ st.loops ∨ ∃ l ∈ st.loops, l.phase = p ∧ (f st l).2 = some l' := by
  unfold stepLoop at h
  cases hl : st.loops.find? (fun l => l.id == id && l.phase == p) with
  | none => rw [hl] at h; exact Or.inl h
  | some l =>
    rw [hl] at h
    have hm := List.mem_of_find?_eq_some hl
    have hp := List.find?_some hl
    simp only [Bool.and_eq_true, beq_iff_eq] at hp
    simp only [hf, List.mem_filterMap] at h
    obtain ⟨x, hx, hx2⟩ := h
    by_cases hid : x.id = id
    · rw [if_pos hid] at hx2
      exact Or.inr ⟨l, hm, hp.2, hx2⟩
    · rw [if_neg hid] at hx2
      cases hx2
      exact Or.inl hx

/-- A step of a loop changes the rest of the state as `f` does on some loop. -/
theorem stepLoop_rest {st : St} {id : Nat} {p : Phase} {f : St → Loop → St × Option Loop} :
    stepLoop st id p f = st ∨ ∃ l ∈ st.loops, l.phase = p ∧
      ∃ ls, stepLoop st id p f = { (f st l).1 with loops := ls } := by
  unfold stepLoop
  cases hl : st.loops.find? (fun l => l.id == id && l.phase == p) with
  | none => exact Or.inl rfl
  | some l =>
    have hm := List.mem_of_find?_eq_some hl
    have hp := List.find?_some hl
    simp only [Bool.and_eq_true, beq_iff_eq] at hp
    exact Or.inr ⟨l, hm, hp.2, _, rfl⟩

theorem selectStep_fst (st : St) (l : Loop) (a b : Bool) : (selectStep size st l a b).1 = st := by
  unfold selectStep
  dsimp only
  split
  · rfl
  · split
    · split <;> rfl
    · rfl

theorem before_self {evs : List Event} : before size garbage evs evs.length
    = run size garbage evs := by
  unfold before; rw [List.take_length]

theorem before_now {evs : List Event} (e : Event) :
    before size garbage (evs ++ [e]) evs.length = run size garbage evs := by
  unfold before; rw [List.take_left']
  rfl

theorem range_filter_succ (i : Nat) (s : FdSet) : (List.range (i + 1)).filter s
    = (List.range i).filter s ++ (if s i then [i] else []) := by
  rw [List.range_succ, List.filter_append]
  congr 1
  cases h : s i <;> simp [h]

theorem advance_loops (st : St) (l : Loop) : (advanceStep size st l).1.loops = st.loops := by
  unfold advanceStep
  split
  · split
    · cases st.pending l.i <;> dsimp only <;> split <;> rfl
    · rfl
  · rfl

theorem Inv.enter {evs : List Event} {st : St} (h : Inv size garbage evs st)
    (hst : st = run size garbage evs) (req : Request) :
    Inv size garbage (evs ++ [.enter req])
      { step size garbage st (.enter req) with clock := st.clock + 1 } := by
  have hnow : before size garbage (evs ++ [.enter req]) evs.length = st := by
    rw [before_now, hst]
  refine ⟨by simp [h.clock], h.small, h.count, h.reg, h.regSmall, ?_,
    fun d hd => ⟨(h.done d hd).1.append _, (h.done d hd).2⟩⟩
  intro l hl
  simp only [step, Events.enter, List.mem_cons] at hl
  rcases hl with rfl | hl
  · -- the new loop
    have hlen : st.clock = evs.length := h.clock
    have hsp : let r := (if st.count > 0 then
          scan st.pending (requested st req) st.count size 0 0 garbage 0 else (garbage, 0))
        r.2 = card size (fun fd => st.pending fd && requested st req fd) ∧
        (r.2 > 0 → ∀ fd, r.1 fd = (decide (fd < size) && st.pending fd && requested st req fd)) := by
      by_cases hc : st.count > 0
      · simp only [if_pos hc]
        have := scan_spec (size := size) (pending := st.pending) (inputs := requested st req)
          (count := st.count) size 0 0 garbage 0 rfl (Nat.zero_le _)
          (by rw [from_zero, h.count]; omega) (by omega) (fun hh => by omega)
          (fun _ fd hfd => absurd hfd (Nat.not_lt_zero _))
        rw [from_zero] at this
        simpa using this
      · simp only [if_neg hc]
        refine ⟨?_, fun hh => by omega⟩
        have hz : card size st.pending = 0 := by
          have := h.count; omega
        have : card size (fun fd => st.pending fd && requested st req fd) = 0 := by
          unfold card at hz ⊢
          rw [List.countP_eq_zero] at hz ⊢
          intro fd hfd
          have := hz fd hfd
          simp only [Bool.not_eq_true] at this
          simp [this]
        rw [this]; rfl
    generalize hr : (if st.count > 0 then
          scan st.pending (requested st req) st.count size 0 0 garbage 0 else (garbage, 0)) = r
      at hsp
    simp only at hsp
    refine ⟨⟨Nat.le_refl _, by simp [hlen]⟩, req, ?_, ?_⟩
    · simp only [hlen, hnow]
      intro hp
      have hr0 : ¬ r.2 > 0 := by
        intro hh; rw [if_pos hh] at hp; cases hp
      rw [if_neg hr0]
      refine ⟨fun fd => requested_iff h.reg req fd, trivial, trivial, ?_⟩
      intro fd hfd
      have hz : card size (fun fd => st.pending fd && requested st req fd) = 0 := by
        have := hsp.1; omega
      by_contra hpn
      have hpn : st.pending fd = true := by simpa using hpn
      have hsm := h.small fd hpn
      unfold card at hz
      rw [List.countP_eq_zero] at hz
      exact hz fd (List.mem_range.2 hsm) (by
        simp [hpn, (requested_iff h.reg req fd).2 hfd])
    · simp only [hlen]
      intro hp
      have hr0 : r.2 > 0 := by
        by_contra hh; rw [if_neg hh] at hp; exact hp rfl
      rw [if_pos hr0]
      have hin : ∀ fd, r.1 fd = true ↔ Asked st req fd ∧ st.pending fd = true := by
        intro fd
        rw [hsp.2 hr0 fd]
        simp only [Bool.and_eq_true, decide_eq_true_eq, requested_iff h.reg]
        constructor
        · rintro ⟨⟨_, a⟩, b⟩; exact ⟨b, a⟩
        · rintro ⟨a, b⟩; exact ⟨⟨h.small fd b, b⟩, a⟩
      have hcount : r.2 = card size r.1 := by
        rw [hsp.1]
        unfold card
        congr 1
        apply List.countP_congr
        intro fd hfd
        rw [hsp.2 hr0 fd]
        simp [List.mem_range.1 hfd]
      refine ⟨Or.inl ⟨?_, rfl, ?_⟩, ?_, Nat.zero_le _, ?_, rfl, fun t ht => nomatch ht⟩
      · have hpos : 0 < card size r.1 := by omega
        unfold card at hpos
        rw [List.countP_pos_iff] at hpos
        obtain ⟨fd, _, hh⟩ := hpos
        exact ⟨fd, hh⟩
      · intro fd
        rw [hnow]; exact hin fd
      · intro fd hfd
        exact h.small fd ((hin fd).1 hfd).2
      · rw [from_zero]; exact hcount
  · exact (h.loops l hl).append _

theorem select_ok {evs : List Event} {st : St} (hc : st.clock = evs.length)
    (hst : st = run size garbage evs)
    {l l' : Loop}
    (hrs : ∀ req, ∀ fd, Asked (before size garbage evs l.entered) req fd → fd < size)
    (hl : LoopOk size garbage evs l) (hp : l.phase = .waiting) {a b : Bool} {e : Event}
    (h : (selectStep size st l a b).2 = some l') : LoopOk size garbage (evs ++ [e]) l' := by
  unfold selectStep at h
  dsimp only at h
  split at h
  · cases h
  split at h
  · split at h
    · cases h
    · cases h; exact hl.append _
  · rename_i hz
    cases h
    obtain ⟨⟨t1, t2⟩, req, ha, -⟩ := hl
    obtain ⟨a1, a2, a3, a4⟩ := ha hp
    have hnow : before size garbage (evs ++ [e]) evs.length = st := by rw [before_now, hst]
    refine ⟨⟨by simp only [hc]; omega, by simp [hc]⟩, req, (fun hh => nomatch hh), fun _ => ?_⟩
    refine ⟨Or.inr ⟨?_, by simp only [hc]; omega, ?_⟩, ?_, by simp [a3], ?_, by simp [a2, a3], ?_⟩
    · simp only
      rw [before_append (by omega)]
      exact a4
    · intro fd
      simp only [hc, hnow]
      rw [before_append (by omega), ← a1 fd]
      simp only [Bool.and_eq_true, decide_eq_true_eq]
      constructor
      · rintro ⟨⟨_, x⟩, y⟩; exact ⟨x, y⟩
      · rintro ⟨x, y⟩; exact ⟨⟨hrs req fd ((a1 fd).1 x), x⟩, y⟩
    · intro fd hfd
      simp only [Bool.and_eq_true, decide_eq_true_eq] at hfd
      exact hfd.1.1
    · simp only [a3, from_zero]
    · intro t ht
      simp only [a2] at ht
      cases ht

theorem advance_ok {evs : List Event} {st : St} (hc : st.clock = evs.length)
    (hst : st = run size garbage evs) {l l' : Loop}
    (hl : LoopOk size garbage evs l) (hp : l.phase = .handling) {e : Event}
    (h : (advanceStep size st l).2 = some l') : LoopOk size garbage (evs ++ [e]) l' := by
  have hnow : before size garbage (evs ++ [e]) evs.length = st := by rw [before_now, hst]
  have hl2 := hl.append e
  obtain ⟨⟨t1, t2⟩, req, -, hb⟩ := hl2
  obtain ⟨b1, b2, b3, b4, b5, b6⟩ := hb (by rw [hp]; decide)
  have hls : l.seen < evs.length := hl.time.2
  unfold advanceStep at h
  split at h
  · rename_i hcond
    have hfs := from_succ hcond.1 l.inputs
    split at h
    · rename_i hin
      rw [if_pos hin] at hfs
      have hacts : (if st.pending l.i = true then
          { st with pending := put st.pending l.i false, count := st.count - 1 } else st).actions
          = st.actions := by split <;> rfl
      have hclk : (if st.pending l.i = true then
          { st with pending := put st.pending l.i false, count := st.count - 1 } else st).clock
          = st.clock := by split <;> rfl
      simp only [hacts, hclk] at h
      have hgoal : ∀ ph : Phase, ph ≠ .waiting → LoopOk size garbage (evs ++ [e])
          { l with ready := l.ready - 1, i := l.i + 1, phase := ph,
                   turns := l.turns ++ [⟨l.i, st.clock, st.actions l.i⟩] } := by
        intro ph hph
        refine ⟨⟨t1, t2⟩, req, fun hh => absurd hh hph, fun _ => ?_⟩
        refine ⟨b1, b2, hcond.1, ?_, ?_, ?_⟩
        · simp only; rw [b4, hfs]; omega
        · simp only [List.map_append, b5, range_filter_succ, hin, if_true]; rfl
        · intro t ht
          rcases List.mem_append.1 ht with ht | ht
          · exact b6 t ht
          · cases List.mem_singleton.1 ht
            simp only [hc, hnow]
            exact ⟨hls, by simp, trivial⟩
      cases ha : st.actions l.i with
      | some c =>
        simp only [ha] at h
        cases h
        have := hgoal .calling (by decide)
        rw [ha] at this
        exact this
      | none =>
        simp only [ha] at h
        cases h
        have := hgoal .handling (by decide)
        rw [ha, ← hp] at this
        exact this
    · rename_i hin
      rw [if_neg hin] at hfs
      cases h
      refine ⟨⟨t1, t2⟩, req, (fun hh => by simp only at hh; rw [hp] at hh; cases hh), fun _ => ?_⟩
      refine ⟨b1, b2, hcond.1, ?_, ?_, b6⟩
      · simp only; rw [b4, hfs]; omega
      · simp only; rw [range_filter_succ, if_neg hin, List.append_nil]; exact b5
  · cases h

theorem run_snoc (evs : List Event) (e : Event) : run size garbage (evs ++ [e])
    = { step size garbage (run size garbage evs) e with
        clock := (run size garbage evs).clock + 1 } := by
  unfold run; rw [List.foldl_append]; rfl

/-- The fields that only `register` and `deregister` change. -/
theorem step_reg (st : St) (e : Event) :
    ((step size garbage st e).fdset = st.fdset ∧ (step size garbage st e).actions = st.actions) ∨
    ∃ fd < size, ∃ c : Option Nat, (step size garbage st e).fdset = put st.fdset fd c.isSome ∧
      (step size garbage st e).actions = put st.actions fd c := by
  cases e with
  | register fd cb =>
    by_cases h : fd < size
    · exact Or.inr ⟨fd, h, some cb, by simp [step, register, h]⟩
    · exact Or.inl (by simp [step, register, h])
  | deregister fd =>
    by_cases h : fd < size
    · exact Or.inr ⟨fd, h, none, by simp [step, deregister, h]⟩
    · exact Or.inl (by simp [step, deregister, h])
  | mark fd =>
    refine Or.inl ?_
    simp only [step, mark]
    split
    · split <;> exact ⟨rfl, rfl⟩
    · exact ⟨rfl, rfl⟩
  | select id a b =>
    refine Or.inl ?_
    simp only [step]
    rcases stepLoop_rest (st := st) (id := id) (p := .waiting)
      (f := fun st l => selectStep size st l a b) with h | ⟨l, _, _, ls, h⟩
    · rw [h]; exact ⟨rfl, rfl⟩
    · rw [h]; simp only [selectStep_fst]; exact ⟨trivial, trivial⟩
  | advance id =>
    refine Or.inl ?_
    simp only [step]
    rcases stepLoop_rest (st := st) (id := id) (p := .handling)
      (f := fun st l => advanceStep size st l) with h | ⟨l, _, _, ls, h⟩
    · rw [h]; exact ⟨rfl, rfl⟩
    · rw [h]
      unfold advanceStep
      split
      · split
        · cases st.pending l.i <;> dsimp only <;> split <;> exact ⟨rfl, rfl⟩
        · exact ⟨rfl, rfl⟩
      · exact ⟨rfl, rfl⟩
  | «return» id =>
    refine Or.inl ?_
    simp only [step]
    rcases stepLoop_rest (st := st) (id := id) (p := .calling)
      (f := fun st l => (st, some { l with phase := .handling })) with h | ⟨l, _, _, ls, h⟩
    · rw [h]; exact ⟨rfl, rfl⟩
    · rw [h]; exact ⟨rfl, rfl⟩
  | _ => exact Or.inl ⟨rfl, rfl⟩

theorem reg_run (evs : List Event) : ∀ fd,
    (run size garbage evs).fdset fd = ((run size garbage evs).actions fd).isSome ∧
    ((run size garbage evs).fdset fd = true → fd < size) := by
  induction evs using List.reverseRecOn with
  | nil => intro fd; exact ⟨rfl, fun h => nomatch h⟩
  | append_singleton evs e ih =>
    intro fd
    rw [run_snoc]
    rcases step_reg (size := size) (garbage := garbage) (run size garbage evs) e with
      ⟨h1, h2⟩ | ⟨x, hx, c, h1, h2⟩
    · simp only [h1, h2]; exact ih fd
    · simp only [h1, h2]
      by_cases hfd : fd = x
      · subst hfd; simp [put_same, hx]
      · rw [put_ne _ _ hfd, put_ne _ _ hfd]; exact ih fd

theorem asked_small (evs : List Event) (t : Nat) (req : Request) (fd : Nat)
    (h : Asked (before size garbage evs t) req fd) : fd < size := by
  have hr := reg_run (size := size) (garbage := garbage) (evs.take t)
  exact (hr fd).2 (by
    rw [(hr fd).1]
    cases req with
    | all => obtain ⟨c, hc⟩ := h; unfold before at hc; simp [hc]
    | callbacks cs => obtain ⟨c, _, hc⟩ := h; unfold before at hc; simp [hc]
    | fds l => obtain ⟨_, c, hc⟩ := h; unfold before at hc; simp [hc])

/-- Steps that leave pending marks, loops and finished loops alone. -/
theorem Inv.plain {evs : List Event} {st : St} (h : Inv size garbage evs st) (e : Event)
    (hr : ∀ fd, (step size garbage st e).fdset fd = ((step size garbage st e).actions fd).isSome ∧
      ((step size garbage st e).fdset fd = true → fd < size))
    (h1 : ∀ fd, (step size garbage st e).pending fd = true → fd < size)
    (h2 : (step size garbage st e).count = card size (step size garbage st e).pending)
    (h3 : ∀ l ∈ (step size garbage st e).loops, l ∈ st.loops ∨ LoopOk size garbage (evs ++ [e]) l)
    (h4 : ∀ d ∈ (step size garbage st e).done, d ∈ st.done ∨
      (LoopOk size garbage (evs ++ [e]) d.loop ∧ d.loop.phase ≠ .waiting ∧
        (d.interrupted = false → from_ size d.loop.i d.loop.inputs = 0))) :
    Inv size garbage (evs ++ [e]) { step size garbage st e with clock := st.clock + 1 } where
  clock := by simp [h.clock]
  small := h1
  count := h2
  reg fd := (hr fd).1
  regSmall fd := (hr fd).2
  loops l hl := (h3 l hl).elim (fun hh => (h.loops l hh).append e) id
  done d hd := (h4 d hd).elim (fun hh => ⟨(h.done d hh).1.append e, (h.done d hh).2⟩) id

theorem advance_pending (st : St) (l : Loop) :
    ((advanceStep size st l).1.pending = st.pending ∧
      (advanceStep size st l).1.count = st.count) ∨
    (st.pending l.i = true ∧ (advanceStep size st l).1.pending = put st.pending l.i false ∧
      (advanceStep size st l).1.count = st.count - 1 ∧
      ∃ l', (advanceStep size st l).2 = some l' ∧
        l'.turns = l.turns ++ [⟨l.i, st.clock, st.actions l.i⟩] ∧ l'.id = l.id) := by
  unfold advanceStep
  split
  · split
    · cases hp : st.pending l.i with
      | false =>
        left
        simp only [Bool.false_eq_true, if_false]
        cases st.actions l.i <;> exact ⟨rfl, rfl⟩
      | true =>
        right
        simp only [if_true]
        cases st.actions l.i <;> exact ⟨trivial, rfl, rfl, _, rfl, rfl, rfl⟩
    · exact Or.inl ⟨rfl, rfl⟩
  · exact Or.inl ⟨rfl, rfl⟩

theorem advance_done (st : St) (l : Loop) :
    (advanceStep size st l).1.done = st.done ∨
    ((advanceStep size st l).1.done = ⟨l, st.interrupt⟩ :: st.done ∧
      ¬ (l.i < size ∧ l.ready > 0 ∧ st.interrupt = false)) := by
  unfold advanceStep
  split
  · split
    · cases st.pending l.i <;> dsimp only <;> split <;> exact Or.inl rfl
    · exact Or.inl rfl
  · rename_i h
    exact Or.inr ⟨rfl, h⟩

theorem inv_run (evs : List Event) : Inv size garbage evs (run size garbage evs) := by
  induction evs using List.reverseRecOn with
  | nil =>
    refine ⟨rfl, (fun _ h => nomatch h), ?_, fun _ => rfl, (fun _ h => nomatch h),
      (fun _ h => nomatch h), fun _ h => nomatch h⟩
    show (0 : Int) = _
    have : card size (fun _ => false) = 0 := by unfold card; rw [List.countP_eq_zero]; simp
    change (0 : Int) = card size (fun _ => false)
    rw [this]; rfl
  | append_singleton evs e ih =>
    have hreg := reg_run (size := size) (garbage := garbage) (evs ++ [e])
    rw [run_snoc] at hreg ⊢
    generalize hst : run size garbage evs = st at ih hreg ⊢
    have hreg' : ∀ fd, (step size garbage st e).fdset fd
        = ((step size garbage st e).actions fd).isSome ∧
      ((step size garbage st e).fdset fd = true → fd < size) := hreg
    cases e with
    | enter req => exact ih.enter hst.symm req
    | register fd cb =>
      refine ih.plain _ hreg' ?_ ?_ ?_ ?_ <;> simp only [step, register] <;> split
      · exact ih.small
      · exact ih.small
      · exact ih.count
      · exact ih.count
      · exact fun _ h => Or.inl h
      · exact fun _ h => Or.inl h
      · exact fun _ h => Or.inl h
      · exact fun _ h => Or.inl h
    | deregister fd =>
      refine ih.plain _ hreg' ?_ ?_ ?_ ?_ <;> simp only [step, deregister] <;> split
      · exact ih.small
      · exact ih.small
      · exact ih.count
      · exact ih.count
      · exact fun _ h => Or.inl h
      · exact fun _ h => Or.inl h
      · exact fun _ h => Or.inl h
      · exact fun _ h => Or.inl h
    | mark fd =>
      have hm : (step size garbage st (.mark fd)).loops = st.loops ∧
          (step size garbage st (.mark fd)).done = st.done := by
        simp only [step, mark]
        split
        · split <;> exact ⟨rfl, rfl⟩
        · exact ⟨rfl, rfl⟩
      refine ih.plain _ hreg' ?_ ?_ (fun l h => Or.inl (hm.1 ▸ h)) (fun l h => Or.inl (hm.2 ▸ h))
      · simp only [step, mark]
        split
        · split
          · exact ih.small
          · intro x hx
            simp only at hx
            by_cases hxf : x = fd
            · omega
            · rw [put_ne _ _ hxf] at hx; exact ih.small x hx
        · exact ih.small
      · simp only [step, mark]
        split
        · rename_i hlt
          split
          · exact ih.count
          · rename_i hp
            dsimp only
            rw [card_true hlt (by simpa using hp), ih.count]
        · exact ih.count
    | arrive fd => exact ih.plain _ hreg' ih.small ih.count (fun _ h => Or.inl h) fun _ h => Or.inl h
    | consume fd => exact ih.plain _ hreg' ih.small ih.count (fun _ h => Or.inl h) fun _ h => Or.inl h
    | interrupt => exact ih.plain _ hreg' ih.small ih.count (fun _ h => Or.inl h) fun _ h => Or.inl h
    | clear => exact ih.plain _ hreg' ih.small ih.count (fun _ h => Or.inl h) fun _ h => Or.inl h
    | select id a b =>
      have hrest : ∃ ls, step size garbage st (.select id a b) = { st with loops := ls } := by
        simp only [step]
        rcases stepLoop_rest (st := st) (id := id) (p := .waiting)
          (f := fun st l => selectStep size st l a b) with h | ⟨l, _, _, ls, h⟩
        · exact ⟨st.loops, h⟩
        · exact ⟨ls, by rw [h, selectStep_fst]⟩
      obtain ⟨ls, hls⟩ := hrest
      refine ih.plain _ hreg' ?_ ?_ ?_ ?_
      · rw [hls]; exact ih.small
      · rw [hls]; exact ih.count
      · intro l' hl'
        simp only [step] at hl'
        rcases stepLoop_mem (fun l => by rw [selectStep_fst]) hl' with h | ⟨l, h1, h2, h3⟩
        · exact Or.inl h
        · exact Or.inr (select_ok ih.clock hst.symm
            (fun req fd => asked_small evs _ req fd) (ih.loops l h1) h2 h3)
      · rw [hls]; exact fun _ h => Or.inl h
    | advance id =>
      simp only [step] at hreg'
      refine ih.plain _ hreg' ?_ ?_ ?_ ?_
      · simp only [step]
        rcases stepLoop_rest (st := st) (id := id) (p := .handling)
          (f := fun st l => advanceStep size st l) with h | ⟨l, _, _, ls, h⟩
        · rw [h]; exact ih.small
        · rw [h]
          rcases advance_pending (size := size) st l with ⟨h1, _⟩ | ⟨_, h1, _⟩
          · simp only [h1]; exact ih.small
          · simp only [h1]
            intro x hx
            by_cases hxf : x = l.i
            · subst hxf; rw [put_same] at hx; cases hx
            · rw [put_ne _ _ hxf] at hx; exact ih.small x hx
      · simp only [step]
        rcases stepLoop_rest (st := st) (id := id) (p := .handling)
          (f := fun st l => advanceStep size st l) with h | ⟨l, _, _, ls, h⟩
        · rw [h]; exact ih.count
        · rw [h]
          rcases advance_pending (size := size) st l with ⟨h1, h2⟩ | ⟨h0, h1, h2, _⟩
          · simp only [h1, h2]; exact ih.count
          · simp only [h1, h2]
            rw [card_false (ih.small _ h0) h0, ih.count]
      · intro l' hl'
        simp only [step] at hl'
        rcases stepLoop_mem (fun l => advance_loops st l) hl' with h | ⟨l, h1, h2, h3⟩
        · exact Or.inl h
        · exact Or.inr (advance_ok ih.clock hst.symm (ih.loops l h1) h2 h3)
      · intro d hd
        simp only [step] at hd
        rcases stepLoop_rest (st := st) (id := id) (p := .handling)
          (f := fun st l => advanceStep size st l) with h | ⟨l, hlm, hph, ls, h⟩
        · rw [h] at hd; exact Or.inl hd
        · rw [h] at hd
          rcases advance_done (size := size) st l with h1 | ⟨h1, h2⟩
          · simp only [h1] at hd; exact Or.inl hd
          · simp only [h1, List.mem_cons] at hd
            rcases hd with rfl | hd
            · have hl := ih.loops l hlm
              refine Or.inr ⟨hl.append _, by rw [hph]; decide, ?_⟩
              intro hi
              simp only at hi ⊢
              obtain ⟨_, req, _, hb⟩ := hl
              obtain ⟨_, _, b3, b4, _, _⟩ := hb (by rw [hph]; decide)
              by_cases hlt : l.i < size
              · have : ¬ l.ready > 0 := fun hh => h2 ⟨hlt, hh, hi⟩
                omega
              · have : l.i = size := by omega
                rw [this]; simp [from_]
            · exact Or.inl hd
    | «return» id =>
      have hrest : ∃ ls, step size garbage st (.return id) = { st with loops := ls } := by
        simp only [step]
        rcases stepLoop_rest (st := st) (id := id) (p := .calling)
          (f := fun st l => (st, some { l with phase := .handling })) with h | ⟨l, _, _, ls, h⟩
        · exact ⟨st.loops, h⟩
        · exact ⟨ls, h⟩
      obtain ⟨ls, hls⟩ := hrest
      refine ih.plain _ hreg' ?_ ?_ ?_ ?_
      · rw [hls]; exact ih.small
      · rw [hls]; exact ih.count
      · intro l' hl'
        simp only [step] at hl'
        rcases stepLoop_mem (fun l => rfl) hl' with h | ⟨l, h1, h2, h3⟩
        · exact Or.inl h
        · cases h3
          obtain ⟨t, req, _, hb⟩ := (ih.loops l h1).append (.return id)
          exact Or.inr ⟨t, req, (fun hh => nomatch hh), fun _ => hb (by rw [h2]; decide)⟩
      · rw [hls]; exact fun _ h => Or.inl h

/-! ### The theorems -/

theorem LoopOk.turns {evs : List Event} {l : Loop} (h : LoopOk size garbage evs l)
    (hp : l.phase ≠ .waiting) : ∃ req,
    Reported size garbage evs req l.entered l.seen (fun fd => l.inputs fd = true) ∧
    TurnsRight size garbage evs l.seen (fun fd => l.inputs fd = true) l.turns ∧
    (from_ size l.i l.inputs = 0 →
      ∀ fd, l.inputs fd = true → ∃ t ∈ l.turns, t.fd = fd) := by
  obtain ⟨_, req, _, hb⟩ := h
  obtain ⟨b1, b2, b3, b4, b5, b6⟩ := hb hp
  refine ⟨req, b1, ⟨?_, ?_⟩, ?_⟩
  · have : (l.turns.map Turn.fd).Pairwise (· < ·) := by
      rw [b5]; exact List.Pairwise.filter _ List.pairwise_lt_range
    rwa [List.pairwise_map] at this
  · intro t ht
    have : t.fd ∈ (List.range l.i).filter l.inputs := by
      rw [← b5]; exact List.mem_map_of_mem ht
    exact ⟨(List.mem_filter.1 this).2, b6 t ht⟩
  · intro hz fd hfd
    have hlt : fd < l.i := by
      by_contra hge
      rw [from_none hz (by omega) (b2 fd hfd)] at hfd
      cases hfd
    have : fd ∈ l.turns.map Turn.fd := by
      rw [b5]; exact List.mem_filter.2 ⟨List.mem_range.2 hlt, hfd⟩
    obtain ⟨t, h1, h2⟩ := List.mem_map.1 this
    exact ⟨t, h1, h2⟩

/-- Property C77: in every history, each loop that has come to its end without
an interrupt has given exactly one turn to every descriptor that was reported
(and an interrupted one at most one), in order, in which the function registered
at that time was called; and the report was right. -/
theorem C77_loops (evs : List Event) (d : Done) (hd : d ∈ (run size garbage evs).done) :
    ∃ req R, Reported size garbage evs req d.loop.entered d.loop.seen R ∧
      TurnsRight size garbage evs d.loop.seen R d.loop.turns ∧
      (d.interrupted = false → ∀ fd, R fd → ∃ t ∈ d.loop.turns, t.fd = fd) := by
  obtain ⟨h1, h2, h3⟩ := (inv_run evs).done d hd
  obtain ⟨req, a, b, c⟩ := h1.turns h2
  exact ⟨req, _, a, b, fun hi => c (h3 hi)⟩

/-- Property C77: the same for loops that are not at their end. -/
theorem C77_calls (evs : List Event) (l : Loop) (hl : l ∈ (run size garbage evs).loops)
    (ht : l.turns ≠ []) :
    ∃ req R, Reported size garbage evs req l.entered l.seen R ∧
      TurnsRight size garbage evs l.seen R l.turns := by
  have h := (inv_run evs).loops l hl
  by_cases hp : l.phase = .waiting
  · obtain ⟨_, req, ha, _⟩ := h
    exact absurd (ha hp).2.1 ht
  · obtain ⟨req, a, b, _⟩ := h.turns hp
    exact ⟨req, _, a, b⟩

/-- Property C77: a mark is not lost: it is there until its descriptor has a
turn, however loops are interrupted. -/
theorem C77_marks_kept (evs : List Event) (e : Event) (fd : Nat)
    (h : (run size garbage evs).pending fd = true)
    (h2 : (run size garbage (evs ++ [e])).pending fd = false) :
    ∃ l ∈ (run size garbage (evs ++ [e])).loops, ∃ t ∈ l.turns, t.fd = fd ∧
      t.time = evs.length := by
  have hinv := inv_run (size := size) (garbage := garbage) evs
  rw [run_snoc] at h2 ⊢
  generalize run size garbage evs = st at h h2 hinv ⊢
  have hsame : (step size garbage st e).pending = st.pending → False := by
    intro hh
    simp only [hh, h] at h2
    cases h2
  cases e with
  | advance id =>
    simp only [step] at h2 ⊢
    have hst : ∀ {f : St → Loop → St × Option Loop} {p}, stepLoop st id p f
      = match st.loops.find? (fun l => l.id == id && l.phase == p) with
        | none => st
        | some l => { (f st l).1 with
            loops := (f st l).1.loops.filterMap fun x => if x.id = id then (f st l).2 else some x } :=
      rfl
    rw [hst] at h2 ⊢
    cases hf : st.loops.find? (fun l => l.id == id && l.phase == .handling) with
    | none =>
      rw [hf] at h2
      simp only [h] at h2
      cases h2
    | some l =>
      rw [hf] at h2
      simp only at h2 ⊢
      rcases advance_pending (size := size) st l with ⟨h3, _⟩ | ⟨_, h3, _, l', h4, h5, h6⟩
      · rw [h3, h] at h2; cases h2
      · rw [h3] at h2
        have hfd : fd = l.i := by
          by_contra hne
          rw [put_ne _ _ hne, h] at h2; cases h2
        subst hfd
        have hm := List.mem_of_find?_eq_some hf
        have hp := List.find?_some hf
        simp only [Bool.and_eq_true, beq_iff_eq] at hp
        refine ⟨l', ?_, ⟨l.i, st.clock, st.actions l.i⟩, by rw [h5]; simp, rfl, hinv.clock⟩
        rw [List.mem_filterMap, advance_loops]
        exact ⟨l, hm, by rw [if_pos hp.1, h4]⟩
  | register x cb =>
    refine (hsame ?_).elim
    simp only [step, register]; split <;> rfl
  | deregister x =>
    refine (hsame ?_).elim
    simp only [step, deregister]; split <;> rfl
  | mark x =>
    exfalso
    simp only [step, mark] at h2
    split at h2
    · split at h2
      · simp only [h] at h2; cases h2
      · simp only at h2
        by_cases hx : fd = x
        · subst hx; rw [put_same] at h2; cases h2
        · rw [put_ne _ _ hx, h] at h2; cases h2
    · simp only [h] at h2; cases h2
  | select id a b =>
    refine (hsame ?_).elim
    simp only [step]
    rcases stepLoop_rest (st := st) (id := id) (p := .waiting)
      (f := fun st l => selectStep size st l a b) with h | ⟨l, _, _, ls, h⟩
    · rw [h]
    · rw [h, selectStep_fst]
  | «return» id =>
    refine (hsame ?_).elim
    simp only [step]
    rcases stepLoop_rest (st := st) (id := id) (p := .calling)
      (f := fun st l => (st, some { l with phase := .handling })) with h | ⟨l, _, _, ls, h⟩
    · rw [h]
    · rw [h]
  | arrive _ => exact (hsame rfl).elim
  | consume _ => exact (hsame rfl).elim
  | interrupt => exact (hsame rfl).elim
  | clear => exact (hsame rfl).elim
  | enter _ => exact (hsame rfl).elim

end Rep.Events
