import Verif.Heap.Spec
import Mathlib.Data.List.Nodup
import Mathlib.Data.List.Infix

namespace Rep.Lists

/-! ### spines -/

theorem Spine.append_iff {h : Heap} {as bs : List Nat} {v w : V} :
    Spine h v (as ++ bs) w ↔ ∃ u, Spine h v as u ∧ Spine h u bs w := by
  induction as generalizing v with
  | nil => simp [Spine]
  | cons a as ih =>
    simp only [List.cons_append, Spine, ih]
    constructor
    · rintro ⟨h1, h2, u, h3, h4⟩; exact ⟨u, ⟨h1, h2, h3⟩, h4⟩
    · rintro ⟨u, ⟨h1, h2, h3⟩, h4⟩; exact ⟨h1, h2, u, h3, h4⟩

theorem Spine.lt {h : Heap} {as : List Nat} {v w : V} (hs : Spine h v as w) : ∀ a ∈ as, a < h.next := by
  induction as generalizing v with
  | nil => simp
  | cons a as ih =>
    obtain ⟨_, h2, h3⟩ := hs
    intro b hb
    rcases List.mem_cons.1 hb with rfl | hb
    · exact h2
    · exact ih h3 b hb

/-- A spine survives any change that keeps the cdrs of its cells. -/
theorem Spine.congr {h h' : Heap} {as : List Nat} {v w : V} (hs : Spine h v as w)
    (hn : h.next ≤ h'.next) (hc : ∀ a ∈ as, h'.cdr a = h.cdr a) : Spine h' v as w := by
  induction as generalizing v with
  | nil => exact hs
  | cons a as ih =>
    obtain ⟨h1, h2, h3⟩ := hs
    refine ⟨h1, by omega, ?_⟩
    rw [hc a (by simp)]
    exact ih h3 (fun b hb => hc b (by simp [hb]))

theorem Spine.extends {h h' : Heap} {as : List Nat} {v w : V} (hs : Spine h v as w)
    (he : Extends h h') : Spine h' v as w :=
  hs.congr he.1 fun a ha => (he.2 a (hs.lt a ha)).2

theorem Extends.refl (h : Heap) : Extends h h := ⟨le_refl _, fun _ _ => ⟨rfl, rfl⟩⟩

theorem Extends.trans {h1 h2 h3 : Heap} (a : Extends h1 h2) (b : Extends h2 h3) : Extends h1 h3 := by
  refine ⟨a.1.trans b.1, fun x hx => ?_⟩
  obtain ⟨p1, p2⟩ := a.2 x hx
  obtain ⟨q1, q2⟩ := b.2 x (lt_of_lt_of_le hx a.1)
  exact ⟨q1.trans p1, q2.trans p2⟩

theorem cons_extends (h : Heap) (x y : V) : Extends h (cons h x y).1 := by
  refine ⟨Nat.le_succ _, fun a ha => ?_⟩
  have : a ≠ h.next := by omega
  simp [cons, Function.update_of_ne this]

/-- Where the next cell of a chain `cs` is linked in. -/
def locEnd : List Nat → Loc
  | [] => .var
  | c :: cs => .cdrOf ((c :: cs).getLast (by simp))

theorem locEnd_append (cs : List Nat) (c : Nat) : locEnd (cs ++ [c]) = .cdrOf c := by
  cases cs with
  | nil => rfl
  | cons d cs => simp [locEnd]

/-- State of a list under construction: a chain `cs` of cells at or above the old end of the heap, whose
end is the location `p`, in a heap that agrees with `h0` below the old end of the heap. -/
structure Build (h0 h : Heap) (res : V) (cs : List Nat) (p : Loc) (w : V) : Prop where
  spine : Spine h res cs w
  read : p.read h res = w
  loc : p = locEnd cs
  nodup : cs.Nodup
  fresh : ∀ c ∈ cs, h0.next ≤ c
  le : h0.next ≤ h.next
  frame : ∀ a, a < h0.next → h.car a = h0.car a ∧ h.cdr a = h0.cdr a

theorem Build.init (h : Heap) : Build h h .nil [] .var .nil :=
  ⟨rfl, rfl, rfl, List.nodup_nil, by simp, le_refl _, fun _ _ => ⟨rfl, rfl⟩⟩

theorem locEnd_mem {cs : List Nat} {a : Nat} (h : locEnd cs = .cdrOf a) :
    ∃ ds, cs = ds ++ [a] := by
  rcases List.eq_nil_or_concat cs with rfl | ⟨ds, c, rfl⟩
  · simp [locEnd] at h
  · rw [List.concat_eq_append, locEnd_append] at h
    injection h with h
    exact ⟨ds, by rw [List.concat_eq_append, h]⟩

theorem Build.write {h0 h : Heap} {res : V} {cs : List Nat} {p : Loc} {w : V}
    (b : Build h0 h res cs p w) (v : V) :
    Build h0 (p.write h res v).1 (p.write h res v).2 cs p v ∧
      (p.write h res v).1.car = h.car ∧ (p.write h res v).1.next = h.next := by
  cases hp : p with
  | var =>
    have hcs : cs = [] := by
      have := b.loc
      rw [hp] at this
      cases cs with
      | nil => rfl
      | cons c cs => simp [locEnd] at this
    subst hcs
    refine ⟨⟨rfl, rfl, rfl, List.nodup_nil, by simp, b.le, b.frame⟩, rfl, rfl⟩
  | cdrOf a =>
    obtain ⟨ds, rfl⟩ := locEnd_mem (b.loc.symm.trans hp)
    have hN : h0.next ≤ a := b.fresh a (by simp)
    have hd : a ∉ ds := by
      have := b.nodup
      rw [List.nodup_append] at this
      intro hm
      exact this.2.2 a hm a (by simp) rfl
    obtain ⟨u, hs1, hs2⟩ := Spine.append_iff.1 b.spine
    simp only [Spine] at hs2
    refine ⟨⟨?_, ?_, ?_, b.nodup, b.fresh, b.le, ?_⟩, rfl, rfl⟩
    · rw [Spine.append_iff]
      refine ⟨u, hs1.congr (le_refl _) ?_, hs2.1, hs2.2.1, ?_⟩
      · intro c hc
        have : c ≠ a := fun e => hd (e ▸ hc)
        simp [Loc.write, setCdr, Function.update_of_ne this]
      · simp [Loc.write, setCdr, Spine]
    · simp [Loc.write, setCdr, Loc.read]
    · rw [locEnd_append]
    · intro x hx
      have : x ≠ a := by omega
      simpa [Loc.write, setCdr, Function.update_of_ne this] using b.frame x hx

theorem Build.extends {h0 h h' : Heap} {res : V} {cs : List Nat} {p : Loc} {w : V}
    (b : Build h0 h res cs p w) (he : Extends h h') : Build h0 h' res cs p w := by
  refine ⟨b.spine.extends he, ?_, b.loc, b.nodup, b.fresh, b.le.trans he.1, ?_⟩
  · cases hp : p with
    | var => have := b.read; rw [hp] at this; exact this
    | cdrOf a =>
      obtain ⟨ds, rfl⟩ := locEnd_mem (b.loc.symm.trans hp)
      have := b.read
      rw [hp] at this
      simp only [Loc.read] at *
      rw [(he.2 a (b.spine.lt a (by simp))).2, this]
  · intro a ha
    obtain ⟨p1, p2⟩ := b.frame a ha
    obtain ⟨q1, q2⟩ := he.2 a (lt_of_lt_of_le ha b.le)
    exact ⟨q1.trans p1, q2.trans p2⟩

/-- Adding a fresh cell at the end of the chain. -/
theorem Build.push {h0 h : Heap} {res : V} {cs : List Nat} {p : Loc} {w : V}
    (b : Build h0 h res cs p w) (x : V) :
    Build h0 (p.write (cons h x .nil).1 res (.cell h.next)).1
      (p.write (cons h x .nil).1 res (.cell h.next)).2 (cs ++ [h.next]) (.cdrOf h.next) .nil ∧
    (p.write (cons h x .nil).1 res (.cell h.next)).1.car = Function.update h.car h.next x ∧
    (p.write (cons h x .nil).1 res (.cell h.next)).1.next = h.next + 1 := by
  obtain ⟨b1, c1, n1⟩ := (b.extends (cons_extends h x .nil)).write (.cell h.next)
  have hcell : ∀ a, p = .cdrOf a → a < h.next := by
    intro a hp
    obtain ⟨ds, rfl⟩ := locEnd_mem (b.loc.symm.trans hp)
    exact b.spine.lt a (by simp)
  have hcdr : (p.write (cons h x .nil).1 res (.cell h.next)).1.cdr h.next = .nil := by
    cases hp : p with
    | var => simp [Loc.write, cons]
    | cdrOf a =>
      have : h.next ≠ a := by have := hcell a hp; omega
      simp [Loc.write, cons, setCdr, Function.update_of_ne this]
  refine ⟨⟨?_, ?_, ?_, ?_, ?_, b1.le, b1.frame⟩, ?_, ?_⟩
  · rw [Spine.append_iff]
    refine ⟨_, b1.spine, rfl, ?_, ?_⟩
    · rw [n1]; simp [cons]
    · simpa [Spine] using hcdr
  · exact hcdr
  · rw [locEnd_append]
  · rw [List.nodup_append]
    refine ⟨b.nodup, by simp, ?_⟩
    intro a ha c hc
    have := b.spine.lt a ha
    simp at hc; omega
  · intro c hc
    rcases List.mem_append.1 hc with hc | hc
    · exact b.fresh c hc
    · simp at hc; subst hc; exact b.le
  · rw [c1]; rfl
  · rw [n1]; rfl

theorem map_update_fresh {h : Heap} {cs : List Nat} {x : V} (hlt : ∀ c ∈ cs, c < h.next) :
    (cs ++ [h.next]).map (Function.update h.car h.next x) = cs.map h.car ++ [x] := by
  rw [List.map_append]
  congr 1
  · apply List.map_congr_left
    intro c hc
    have : c ≠ h.next := by have := hlt c hc; omega
    rw [Function.update_of_ne this]
  · simp

/-! ### copying -/

theorem copyList_loop_atom {h : Heap} {res : V} {p : Loc} {l : V} (hl : IsAtom l) :
    copyList.loop h res p l = some (p.write h res l) := by
  rw [copyList.loop.eq_def]
  cases l with
  | cell a => exact absurd rfl (hl a)
  | nil => rfl
  | atom n => rfl

theorem copyList_loop_cell {h : Heap} {res : V} {p : Loc} {a : Nat} :
    copyList.loop h res p (.cell a) =
      copyList.loop (p.write (cons h (h.car a) .nil).1 res (.cell h.next)).1
        (p.write (cons h (h.car a) .nil).1 res (.cell h.next)).2 (.cdrOf h.next)
        ((p.write (cons h (h.car a) .nil).1 res (.cell h.next)).1.cdr a) := by
  rw [copyList.loop.eq_def]; rfl

theorem copyList_loop_spec {h0 : Heap} {t : V} (ht : IsAtom t) :
    ∀ (as : List Nat) (h : Heap) (res : V) (cs : List Nat) (p : Loc) (w l : V),
      Build h0 h res cs p w → Spine h0 l as t →
      ∃ h' res' ds, copyList.loop h res p l = some (h', res') ∧
        Build h0 h' res' (cs ++ ds) (locEnd (cs ++ ds)) t ∧
        (cs ++ ds).map h'.car = cs.map h.car ++ as.map h0.car := by
  intro as
  induction as with
  | nil =>
    intro h res cs p w l b hs
    have hl : l = t := hs
    subst hl
    obtain ⟨b1, c1, n1⟩ := b.write l
    refine ⟨(p.write h res l).1, (p.write h res l).2, [], copyList_loop_atom ht, ?_, ?_⟩
    · rw [List.append_nil, ← b.loc]; exact b1
    · rw [c1]; simp
  | cons a as ih =>
    intro h res cs p w l b hs
    obtain ⟨rfl, hlt, hs⟩ := hs
    have hfa := b.frame a hlt
    obtain ⟨b1, c1, n1⟩ := b.push (h.car a)
    obtain ⟨h', res', ds, e, b2, m⟩ := ih _ _ _ _ _ (h0.cdr a) b1 hs
    rw [← (b1.frame a hlt).2] at e
    refine ⟨h', res', h.next :: ds, copyList_loop_cell.trans e, ?_, ?_⟩
    · rw [List.append_assoc] at b2; exact b2
    · rw [List.append_assoc] at m
      simp only [List.singleton_append] at m
      rw [m, c1, map_update_fresh (b.spine.lt), hfa.1]
      simp

theorem copyList_spec {h : Heap} {l t : V} {as : List Nat} (ht : IsAtom t) (hs : Spine h l as t) :
    ∃ h' r cs, copyList h l = some (h', r) ∧ Extends h h' ∧ Spine h' r cs t ∧ cs.Nodup ∧
      (∀ c ∈ cs, h.next ≤ c) ∧ cs.map h'.car = as.map h.car := by
  obtain ⟨h', r, cs, e, b, m⟩ := copyList_loop_spec (h0 := h) ht as h .nil [] .var .nil l
    (Build.init h) hs
  exact ⟨h', r, cs, e, ⟨b.le, b.frame⟩, by simpa using b.spine, by simpa using b.nodup,
    by simpa using b.fresh, by simpa using m⟩

theorem seekEnd_spec {h : Heap} {x w : V} (hw : IsAtom w) :
    ∀ (as : List Nat) (p : Loc), Spine h (p.read h x) as w →
      seekEnd h x p = some (match as.getLast? with | some a => .cdrOf a | none => p) := by
  intro as
  induction as with
  | nil =>
    intro p hs
    rw [seekEnd.eq_def]
    have : p.read h x = w := hs
    cases hr : p.read h x with
    | cell a => exact absurd (this ▸ hr) (hw a)
    | nil => rfl
    | atom n => rfl
  | cons a as ih =>
    intro p hs
    obtain ⟨h1, _, h2⟩ := hs
    rw [seekEnd.eq_def, h1]
    simp only
    rw [ih (.cdrOf a) h2]
    cases as with
    | nil => rfl
    | cons b as => simp [List.getLast?_cons]

/-- A non-last argument of `append`: its value, its cells and its final cdr. -/
structure Arg where
  val : V
  cells : List Nat
  tail : V

def Arg.Ok (h : Heap) (a : Arg) : Prop := Spine h a.val a.cells a.tail ∧ IsAtom a.tail ∧ listp a.val = true

theorem locEnd_cat (cs ds : List Nat) :
    (match ds.getLast? with | some a => Loc.cdrOf a | none => locEnd cs) = locEnd (cs ++ ds) := by
  rcases List.eq_nil_or_concat ds with rfl | ⟨es, c, rfl⟩
  · simp
  · rw [List.concat_eq_append, ← List.append_assoc, locEnd_append]; simp

/-- Linking an existing chain after the list under construction. -/
theorem Build.link {h0 h h1 : Heap} {res : V} {cs : List Nat} {p : Loc} {w c t : V} {ds : List Nat}
    (b : Build h0 h res cs p w) (he : Extends h h1) (hd : Spine h1 c ds t)
    (hn : ds.Nodup) (hf : ∀ d ∈ ds, h.next ≤ d) :
    Build h0 (p.write h1 res c).1 (p.write h1 res c).2 (cs ++ ds) (locEnd (cs ++ ds)) t ∧
      (p.write h1 res c).1.car = h1.car ∧ (p.write h1 res c).1.next = h1.next ∧
      Spine (p.write h1 res c).1 c ds t := by
  obtain ⟨b1, c1, n1⟩ := (b.extends he).write c
  have hd' : Spine (p.write h1 res c).1 c ds t := by
    refine hd.congr n1.ge ?_
    intro d hdm
    cases hp : p with
    | var => rfl
    | cdrOf a =>
      obtain ⟨es, rfl⟩ := locEnd_mem (b.loc.symm.trans hp)
      have h1 := b.spine.lt a (by simp)
      have h2 := hf d hdm
      have : d ≠ a := by omega
      simp [Loc.write, setCdr, Function.update_of_ne this]
  refine ⟨⟨?_, ?_, rfl, ?_, ?_, b1.le, b1.frame⟩, c1, n1, hd'⟩
  · exact Spine.append_iff.2 ⟨c, b1.spine, hd'⟩
  · rcases List.eq_nil_or_concat ds with rfl | ⟨es, e, rfl⟩
    · rw [List.append_nil, ← b.loc, b1.read]
      exact hd'
    · rw [List.concat_eq_append, ← List.append_assoc, locEnd_append]
      rw [List.concat_eq_append, Spine.append_iff] at hd'
      obtain ⟨u, _, hu⟩ := hd'
      simp only [Spine] at hu
      exact hu.2.2
  · rw [List.nodup_append]
    refine ⟨b.nodup, hn, ?_⟩
    intro x hx y hy
    have := b.spine.lt x hx
    have := hf y hy
    omega
  · intro x hx
    rcases List.mem_append.1 hx with hx | hx
    · exact b.fresh x hx
    · exact b.le.trans (hf x hx)

theorem append_loop_spec {h0 : Heap} {z tz : V} {zs : List Nat} (hz : Spine h0 z zs tz)
    (htz : IsAtom tz) :
    ∀ (args : List Arg) (h : Heap) (res : V) (cs : List Nat) (p : Loc) (w : V) (i : Nat),
      Build h0 h res cs p w → (∀ a ∈ args, a.Ok h0) →
      ∃ h' r ds, append.loop h res p i (args.map Arg.val ++ [z]) = some (h', .ok r) ∧
        Build h0 h' r (cs ++ ds) (locEnd (cs ++ ds)) z ∧
        (cs ++ ds).map h'.car = cs.map h.car ++ args.flatMap (fun a => a.cells.map h0.car) := by
  intro args
  induction args with
  | nil =>
    intro h res cs p w i b _
    obtain ⟨b1, c1, n1⟩ := b.write z
    refine ⟨(p.write h res z).1, (p.write h res z).2, [], ?_, ?_, ?_⟩
    · simp only [List.map_nil, List.nil_append, append.loop]
      rw [seekEnd_spec htz zs p]
      · rfl
      · rw [b1.read]
        exact hz.congr b1.le fun a ha => (b1.frame a (hz.lt a ha)).2
    · rw [List.append_nil, ← b.loc]; exact b1
    · rw [c1]; simp
  | cons a args ih =>
    intro h res cs p w i b ha
    obtain ⟨⟨hs, ht, hl⟩, hrest⟩ := List.forall_mem_cons.1 ha
    have hs' : Spine h a.val a.cells a.tail :=
      hs.congr b.le fun x hx => (b.frame x (hs.lt x hx)).2
    obtain ⟨h1, c, ds, e1, he, hd, hn, hf, hm⟩ := copyList_spec ht hs'
    obtain ⟨b2, c2, n2, hd2⟩ := b.link he hd hn hf
    have hseek : seekEnd (p.write h1 res c).1 (p.write h1 res c).2 p = some (locEnd (cs ++ ds)) := by
      rw [seekEnd_spec ht ds p, b.loc, locEnd_cat]
      rw [((b.extends he).write c).1.read]; exact hd2
    obtain ⟨h', r, es, e3, b3, m3⟩ := ih _ _ _ _ _ (i + 1) b2 hrest
    refine ⟨h', r, ds ++ es, ?_, ?_, ?_⟩
    · obtain ⟨y, ys, hy⟩ : ∃ y ys, args.map Arg.val ++ [z] = y :: ys := by
        cases args <;> simp
      rw [hy] at e3
      simp only [List.map_cons, List.cons_append, hy, append.loop, hl, if_true, e1, Option.bind_some, hseek]
      exact e3
    · rw [← List.append_assoc]; exact b3
    · rw [← List.append_assoc, m3, c2, List.map_append, hm, List.flatMap_cons]
      have e4 : cs.map h1.car = cs.map h.car :=
        List.map_congr_left fun x hx => (he.2 x (b.spine.lt x hx)).1
      have e5 : a.cells.map h.car = a.cells.map h0.car :=
        List.map_congr_left fun x hx => (b.frame x (hs.lt x hx)).1
      rw [e4, e5, List.append_assoc]

/-! ### reverse, nreverse -/

theorem reverse_loop_spec {h0 : Heap} {t : V} (ht : IsAtom t) :
    ∀ (as : List Nat) (h : Heap) (res l : V) (cs : List Nat),
      Extends h0 h → Spine h0 l as t → Spine h res cs .nil → cs.Nodup → (∀ c ∈ cs, h0.next ≤ c) →
      ∃ h' r ds, reverse.loop h res l = some (h', .ok r) ∧ Extends h0 h' ∧ Spine h' r ds .nil ∧
        ds.Nodup ∧ (∀ c ∈ ds, h0.next ≤ c) ∧ ds.map h'.car = (as.map h0.car).reverse ++ cs.map h.car := by
  intro as
  induction as with
  | nil =>
    intro h res l cs he hs hr hn hf
    have hl : l = t := hs
    subst hl
    refine ⟨h, res, cs, ?_, he, hr, hn, hf, by simp⟩
    rw [reverse.loop.eq_def]
    cases l with
    | cell a => exact absurd rfl (ht a)
    | nil => rfl
    | atom n => rfl
  | cons a as ih =>
    intro h res l cs he hs hr hn hf
    obtain ⟨rfl, hlt, hs⟩ := hs
    have he1 := cons_extends h (h.car a) res
    have hcs : ∀ c ∈ cs, c < h.next := hr.lt
    obtain ⟨h', r, ds, e, h2, h3, h4, h5, h6⟩ := ih (cons h (h.car a) res).1 (.cell h.next) (h0.cdr a)
      (h.next :: cs) (he.trans he1) hs
      ⟨rfl, by simp [cons], by
        have : (cons h (h.car a) res).1.cdr h.next = res := by simp [cons]
        rw [this]; exact hr.extends he1⟩
      (by
        rw [List.nodup_cons]
        exact ⟨fun hm => by have := hcs _ hm; omega, hn⟩)
      (by
        intro c hc
        rcases List.mem_cons.1 hc with rfl | hc
        · exact he.1
        · exact hf c hc)
    refine ⟨h', r, ds, ?_, h2, h3, h4, h5, ?_⟩
    · rw [reverse.loop.eq_def]
      have : (cons h (h.car a) res).1.cdr a = h0.cdr a := ((he.trans he1).2 a hlt).2
      rw [← this] at e
      exact e
    · rw [h6]
      have e1 : cs.map (cons h (h.car a) res).1.car = cs.map h.car :=
        List.map_congr_left fun x hx => (he1.2 x (hcs x hx)).1
      have e2 : (cons h (h.car a) res).1.car h.next = h.car a := by simp [cons]
      rw [List.map_cons, e1, e2, (he.2 a hlt).1]
      simp

theorem nreverse_loop_spec {t : V} (ht : IsAtom t) :
    ∀ (as : List Nat) (h : Heap) (a : Nat) (res : V) (rs : List Nat),
      Spine h (.cell a) (a :: as) t → Spine h res rs .nil → (a :: as ++ rs).Nodup →
      ∃ h' r, nreverse.loop h res a = some (h', .ok r) ∧
        Spine h' r ((a :: as).reverse ++ rs) .nil ∧ OnlyCdrsOf (a :: as) h h' := by
  intro as
  induction as with
  | nil =>
    intro h a res rs hs hr hn
    obtain ⟨_, hlt, hs⟩ := hs
    have hc : h.cdr a = t := hs
    refine ⟨setCdr h a res, .cell a, ?_, ?_, ?_⟩
    · rw [nreverse.loop.eq_def, hc]
      cases t with
      | cell b => exact absurd rfl (ht b)
      | nil => rfl
      | atom n => rfl
    · refine ⟨rfl, hlt, ?_⟩
      have : (setCdr h a res).cdr a = res := by simp [setCdr]
      rw [this]
      refine hr.congr (le_refl _) ?_
      intro b hb
      have : b ≠ a := by
        rintro rfl
        simp only [List.cons_append, List.nil_append, List.nodup_cons] at hn
        exact hn.1 hb
      simp [setCdr, Function.update_of_ne this]
    · refine ⟨rfl, rfl, fun b hb => ?_⟩
      have : b ≠ a := by simpa using hb
      simp [setCdr, Function.update_of_ne this]
  | cons b as ih =>
    intro h a res rs hs hr hn
    obtain ⟨_, hlt, hs⟩ := hs
    have hc : h.cdr a = .cell b := hs.1
    rw [hc] at hs
    have hna : a ∉ b :: as ++ rs := by
      simp only [List.cons_append, List.nodup_cons] at hn ⊢
      exact hn.1
    have hkeep : ∀ c, c ≠ a → (setCdr h a res).cdr c = h.cdr c := by
      intro c hc
      simp [setCdr, Function.update_of_ne hc]
    obtain ⟨h', r, e, h1, h2⟩ := ih (setCdr h a res) b (.cell a) (a :: rs)
      (hs.congr (le_refl _) fun c hcm => hkeep c (by rintro rfl; exact hna (List.mem_append_left _ hcm)))
      ⟨rfl, hlt, by
        have : (setCdr h a res).cdr a = res := by simp [setCdr]
        rw [this]
        exact hr.congr (le_refl _) fun c hcm => hkeep c (by rintro rfl; exact hna (List.mem_append_right _ hcm))⟩
      (by
        have : (b :: as ++ a :: rs).Perm (a :: (b :: as) ++ rs) := by
          exact List.perm_middle (l₁ := b :: as)
        rw [this.nodup_iff]; exact hn)
    refine ⟨h', r, ?_, ?_, ?_⟩
    · rw [nreverse.loop.eq_def, hc]; exact e
    · rw [List.reverse_cons, List.append_assoc]
      exact h1
    · obtain ⟨p1, p2, p4⟩ := h2
      refine ⟨p1, p2, fun c hcm => ?_⟩
      simp only [List.mem_cons, not_or] at hcm
      rw [p4 c (by simp only [List.mem_cons, not_or]; exact hcm.2), hkeep c hcm.1]

/-! ### nconc -/

theorem OnlyCdrsOf.trans {as bs : List Nat} {h1 h2 h3 : Heap} (a : OnlyCdrsOf as h1 h2)
    (b : OnlyCdrsOf bs h2 h3) : OnlyCdrsOf (as ++ bs) h1 h3 := by
  obtain ⟨p1, p2, p4⟩ := a
  obtain ⟨q1, q2, q4⟩ := b
  refine ⟨q1.trans p1, q2.trans p2, fun c hc => ?_⟩
  simp only [List.mem_append, not_or] at hc
  rw [q4 c hc.2, p4 c hc.1]

/-- Writing at the end of a duplicate free chain. -/
theorem write_end {h : Heap} {res w : V} {cs : List Nat} (hs : Spine h res cs w) (hn : cs.Nodup) (v : V) :
    Spine ((locEnd cs).write h res v).1 ((locEnd cs).write h res v).2 cs v ∧
      (locEnd cs).read ((locEnd cs).write h res v).1 ((locEnd cs).write h res v).2 = v ∧
      OnlyCdrsOf cs h ((locEnd cs).write h res v).1 := by
  rcases List.eq_nil_or_concat cs with rfl | ⟨ds, a, rfl⟩
  · exact ⟨rfl, rfl, rfl, rfl, fun _ _ => rfl⟩
  · rw [List.concat_eq_append] at *
    rw [locEnd_append]
    have hd : a ∉ ds := by
      rw [List.nodup_append] at hn
      intro hm
      exact hn.2.2 a hm a (by simp) rfl
    obtain ⟨u, hs1, hs2⟩ := Spine.append_iff.1 hs
    simp only [Spine] at hs2
    refine ⟨?_, by simp [Loc.write, Loc.read, setCdr], rfl, rfl, ?_⟩
    · rw [Spine.append_iff]
      refine ⟨u, hs1.congr (le_refl _) ?_, hs2.1, hs2.2.1, ?_⟩
      · intro c hc
        have : c ≠ a := fun e => hd (e ▸ hc)
        simp [Loc.write, setCdr, Function.update_of_ne this]
      · simp [Loc.write, setCdr, Spine]
    · intro c hc
      have : c ≠ a := by rintro rfl; simp at hc
      simp [Loc.write, setCdr, Function.update_of_ne this]

theorem nconc_loop_spec {z tz : V} {zs : List Nat} (htz : IsAtom tz) :
    ∀ (args : List Arg) (h : Heap) (res w : V) (cs : List Nat) (i : Nat),
      Spine h res cs w → Spine h z zs tz →
      (∀ a ∈ args, a.Ok h) →
      (cs ++ args.flatMap Arg.cells ++ zs).Nodup →
      ∃ h' r, nconc.loop h res (locEnd cs) i (args.map Arg.val ++ [z]) = some (h', .ok r) ∧
        Spine h' r (cs ++ args.flatMap Arg.cells ++ zs) tz ∧
        OnlyCdrsOf (cs ++ args.flatMap Arg.cells) h h' := by
  intro args
  induction args with
  | nil =>
    intro h res w cs i hs hz _ hn
    simp only [List.flatMap_nil, List.append_nil] at hn ⊢
    obtain ⟨h1, h2, h3⟩ := write_end hs (List.nodup_append.1 hn).1 z
    have hz' : Spine ((locEnd cs).write h res z).1 z zs tz := by
      refine hz.congr h3.1.ge fun a ha => h3.2.2 a ?_
      intro hc
      exact (List.nodup_append.1 hn).2.2 a hc a ha rfl
    refine ⟨_, _, ?_, Spine.append_iff.2 ⟨z, h1, hz'⟩, h3⟩
    simp only [List.map_nil, List.nil_append, nconc.loop]
    rw [seekEnd_spec htz zs (locEnd cs)]
    · rfl
    · rw [h2]; exact hz'
  | cons a args ih =>
    intro h res w cs i hs hz ha hn
    obtain ⟨⟨hsa, hta, hla⟩, hrest⟩ := List.forall_mem_cons.1 ha
    simp only [List.flatMap_cons] at hn ⊢
    have hn' : (cs ++ (a.cells ++ args.flatMap Arg.cells) ++ zs).Nodup := hn
    have hncs : cs.Nodup := by
      rw [List.append_assoc] at hn; exact (List.nodup_append.1 hn).1
    have hdisj : ∀ x ∈ cs, x ∉ a.cells ∧ x ∉ args.flatMap Arg.cells ∧ x ∉ zs := by
      intro x hx
      rw [List.append_assoc] at hn
      have := (List.nodup_append.1 hn).2.2 x hx
      refine ⟨fun hm => this x (by simp [hm]) rfl, fun hm => this x ?_ rfl, fun hm => this x (by simp [hm]) rfl⟩
      exact List.mem_append_left _ (List.mem_append_right _ hm)
    obtain ⟨h1, h2, h3⟩ := write_end hs hncs a.val
    have move : ∀ {v as w}, Spine h v as w → (∀ x ∈ as, x ∉ cs) → Spine ((locEnd cs).write h res a.val).1 v as w :=
      fun hs hd => hs.congr h3.1.ge fun x hx => h3.2.2 x (hd x hx)
    have hsa' := move hsa (fun x hx hc => (hdisj x hc).1 hx)
    have hz' := move hz (fun x hx hc => (hdisj x hc).2.2 hx)
    obtain ⟨h', r, e, q1, q2⟩ := ih ((locEnd cs).write h res a.val).1 ((locEnd cs).write h res a.val).2 a.tail
      (cs ++ a.cells) (i + 1) (Spine.append_iff.2 ⟨a.val, h1, hsa'⟩) hz'
      (by
        intro b hb
        obtain ⟨s1, s2, s3⟩ := hrest b hb
        exact ⟨move s1 (fun x hx hc => (hdisj x hc).2.1 (List.mem_flatMap.2 ⟨b, hb, hx⟩)), s2, s3⟩)
      (by rw [List.append_assoc cs]; exact hn')
    refine ⟨h', r, ?_, ?_, ?_⟩
    · obtain ⟨y, ys, hy⟩ : ∃ y ys, args.map Arg.val ++ [z] = y :: ys := by
        cases args <;> simp
      rw [hy] at e
      simp only [List.map_cons, List.cons_append, hy, nconc.loop, hla, Bool.not_true, Bool.false_eq_true,
        if_false]
      rw [seekEnd_spec hta a.cells (locEnd cs) (by rw [h2]; exact hsa'), locEnd_cat]
      exact e
    · rw [List.append_assoc cs] at q1; exact q1
    · have := h3.trans q2
      obtain ⟨p1, p2, p4⟩ := this
      refine ⟨p1, p2, fun x hx => p4 x ?_⟩
      simp only [List.mem_append, not_or] at hx ⊢
      exact ⟨hx.1, ⟨hx.1, hx.2.1⟩, hx.2.2⟩

/-! ### mapcar, filter, copy-sequence -/

theorem mapcar_loop_spec {h0 : Heap} {t : V} (ht : IsAtom t) {f : Fn} {g : V → V} (hf : Quiet f g) :
    ∀ (as : List Nat) (h : Heap) (res : V) (cs : List Nat) (p : Loc) (l : V),
      Build h0 h res cs p .nil → Spine h0 l as t →
      ∃ h' r ds, mapcar.loop f h res p l = some (h', .ok r) ∧
        Build h0 h' r (cs ++ ds) (locEnd (cs ++ ds)) .nil ∧
        (cs ++ ds).map h'.car = cs.map h.car ++ as.map (fun a => g (h0.car a)) := by
  intro as
  induction as with
  | nil =>
    intro h res cs p l b hs
    have hl : l = t := hs
    subst hl
    refine ⟨h, res, [], ?_, ?_, by simp⟩
    · rw [mapcar.loop.eq_def]
      cases l with
      | cell a => exact absurd rfl (ht a)
      | nil => rfl
      | atom n => rfl
    · rw [List.append_nil, ← b.loc]; exact b
  | cons a as ih =>
    intro h res cs p l b hs
    obtain ⟨rfl, hlt, hs⟩ := hs
    obtain ⟨b1, c1, n1⟩ := b.push .nil
    generalize hw : p.write (cons h .nil .nil).1 res (.cell h.next) = hr at b1 c1 n1
    obtain ⟨hef, hv⟩ := hf hr.1 (hr.1.car a)
    have b2 := b1.extends hef
    have hane : a ≠ h.next := by have := b.le; omega
    have b3 : Build h0 (setCar (f hr.1 (hr.1.car a)).1 h.next (f hr.1 (hr.1.car a)).2) hr.2 (cs ++ [h.next])
        (.cdrOf h.next) .nil := by
      refine ⟨b2.spine.congr (le_refl _) (fun _ _ => rfl), b2.read, b2.loc, b2.nodup, b2.fresh, b2.le, ?_⟩
      intro x hx
      have : x ≠ h.next := by have := b.le; omega
      simpa [setCar, Function.update_of_ne this] using b2.frame x hx
    obtain ⟨h', r, ds, e, b4, m⟩ := ih _ _ _ _ (h0.cdr a) b3 hs
    refine ⟨h', r, h.next :: ds, ?_, ?_, ?_⟩
    · rw [mapcar.loop.eq_def]
      have e1 : (setCar (f hr.1 (hr.1.car a)).1 h.next (f hr.1 (hr.1.car a)).2).cdr a = h0.cdr a :=
        (b3.frame a hlt).2
      rw [← e1] at e
      simp only [hw]
      exact e
    · rw [List.append_assoc] at b4; exact b4
    · rw [List.append_assoc] at m
      simp only [List.singleton_append] at m
      rw [m, hv, (b1.frame a hlt).1, List.map_append]
      have e2 : cs.map (setCar (f hr.1 (h0.car a)).1 h.next (g (h0.car a))).car = cs.map h.car := by
        apply List.map_congr_left
        intro x hx
        have hxn : x < h.next := b.spine.lt x hx
        have : x ≠ h.next := by omega
        rw [(b1.frame a hlt).1] at hef
        simp only [setCar, Function.update_of_ne this]
        rw [(hef.2 x (by omega)).1, c1, Function.update_of_ne this]
      rw [e2]
      simp [setCar]

theorem filter_loop_spec {h0 : Heap} {t : V} (ht : IsAtom t) {f : Fn} {g : V → V} (hf : Quiet f g) :
    ∀ (as : List Nat) (h : Heap) (res : V) (cs : List Nat) (p : Loc) (l : V),
      Build h0 h res cs p .nil → Spine h0 l as t →
      ∃ h' r ds, filter.loop f h res p l = some (h', .ok r) ∧
        Build h0 h' r (cs ++ ds) (locEnd (cs ++ ds)) .nil ∧
        (cs ++ ds).map h'.car = cs.map h.car ++ (as.map h0.car).filter (fun v => g v ≠ .nil) := by
  intro as
  induction as with
  | nil =>
    intro h res cs p l b hs
    have hl : l = t := hs
    subst hl
    refine ⟨h, res, [], ?_, ?_, by simp⟩
    · rw [filter.loop.eq_def]
      cases l with
      | cell a => exact absurd rfl (ht a)
      | nil => rfl
      | atom n => rfl
    · rw [List.append_nil, ← b.loc]; exact b
  | cons a as ih =>
    intro h res cs p l b hs
    obtain ⟨rfl, hlt, hs⟩ := hs
    have hfa := b.frame a hlt
    obtain ⟨hef, hv⟩ := hf h (h.car a)
    have b1 := b.extends hef
    have hcs : cs.map (f h (h.car a)).1.car = cs.map h.car :=
      List.map_congr_left fun x hx => (hef.2 x (b.spine.lt x hx)).1
    by_cases hg : g (h0.car a) = .nil
    · obtain ⟨h', r, ds, e, b4, m⟩ := ih _ _ _ _ (h0.cdr a) b1 hs
      refine ⟨h', r, ds, ?_, b4, ?_⟩
      · rw [filter.loop.eq_def]
        rw [← (b1.frame a hlt).2] at e
        simp only [ne_eq]
        rw [if_neg (by rw [hv, hfa.1]; exact not_not.2 hg)]
        exact e
      · rw [m, hcs]; simp [hg]
    · obtain ⟨b2, c2, n2⟩ := b1.push ((f h (h.car a)).1.car a)
      obtain ⟨h', r, ds, e, b4, m⟩ := ih _ _ _ _ (h0.cdr a) b2 hs
      refine ⟨h', r, (f h (h.car a)).1.next :: ds, ?_, ?_, ?_⟩
      · rw [filter.loop.eq_def]
        rw [← (b2.frame a hlt).2] at e
        simp only [ne_eq]
        rw [if_pos (by rw [hv, hfa.1]; exact hg)]
        exact e
      · rw [List.append_assoc] at b4; exact b4
      · rw [List.append_assoc] at m
        simp only [List.singleton_append] at m
        rw [m, c2, map_update_fresh b1.spine.lt, hcs, (b1.frame a hlt).1]
        simp [hg]

theorem copySeq_loop_spec {h0 : Heap} {t : V} (ht : IsAtom t) :
    ∀ (as : List Nat) (h : Heap) (res : V) (cs : List Nat) (p : Loc) (l : V),
      Build h0 h res cs p .nil → Spine h0 l as t →
      ∃ h' r ds, copySeq.loop h res p l = some (h', .ok r) ∧
        Build h0 h' r (cs ++ ds) (locEnd (cs ++ ds)) .nil ∧
        (cs ++ ds).map h'.car = cs.map h.car ++ as.map h0.car := by
  intro as
  induction as with
  | nil =>
    intro h res cs p l b hs
    have hl : l = t := hs
    subst hl
    refine ⟨h, res, [], ?_, ?_, by simp⟩
    · rw [copySeq.loop.eq_def]
      cases l with
      | cell a => exact absurd rfl (ht a)
      | nil => rfl
      | atom n => rfl
    · rw [List.append_nil, ← b.loc]; exact b
  | cons a as ih =>
    intro h res cs p l b hs
    obtain ⟨rfl, hlt, hs⟩ := hs
    have hfa := b.frame a hlt
    obtain ⟨b1, c1, n1⟩ := b.push (h.car a)
    obtain ⟨h', res', ds, e, b2, m⟩ := ih _ _ _ _ (h0.cdr a) b1 hs
    rw [← (b1.frame a hlt).2] at e
    refine ⟨h', res', h.next :: ds, ?_, ?_, ?_⟩
    · rw [copySeq.loop.eq_def]; exact e
    · rw [List.append_assoc] at b2; exact b2
    · rw [List.append_assoc] at m
      simp only [List.singleton_append] at m
      rw [m, c1, map_update_fresh (b.spine.lt), hfa.1]
      simp

/-! ### searching -/

theorem memLoop_spec {h : Heap} {t : V} (ht : IsAtom t) (p : V → Bool) :
    ∀ (as : List Nat) (l : V), Spine h l as t →
      memLoop h p l = some (startOf .nil (as.dropWhile fun a => !p (h.car a))) := by
  intro as
  induction as with
  | nil =>
    intro l hs
    have hl : l = t := hs
    subst hl
    rw [memLoop.eq_def]
    cases l with
    | cell a => exact absurd rfl (ht a)
    | nil => rfl
    | atom n => rfl
  | cons a as ih =>
    intro l hs
    obtain ⟨rfl, hlt, hs⟩ := hs
    rw [memLoop.eq_def]
    by_cases hp : p (h.car a) = true
    · simp [hp, startOf]
    · simp [hp, ih _ hs]

theorem assLoop_spec {h : Heap} {t : V} (ht : IsAtom t) (p : Nat → Bool) :
    ∀ (as : List Nat) (l : V), Spine h l as t →
      assLoop h p l = some (((as.map h.car).find? (fun v => match v with | .cell c => p c | _ => false)).getD .nil) := by
  intro as
  induction as with
  | nil =>
    intro l hs
    have hl : l = t := hs
    subst hl
    rw [assLoop.eq_def]
    cases l with
    | cell a => exact absurd rfl (ht a)
    | nil => rfl
    | atom n => rfl
  | cons a as ih =>
    intro l hs
    obtain ⟨rfl, hlt, hs⟩ := hs
    rw [assLoop.eq_def]
    simp only [List.map_cons, List.find?_cons]
    cases hc : h.car a with
    | cell c =>
      by_cases hp : p c = true
      · simp [hp]
      · simp [hp, ih _ hs]
    | nil => simp [ih _ hs]
    | atom n => simp [ih _ hs]

theorem nthcdr_loop_spec {h : Heap} {t : V} (ht : IsAtom t) :
    ∀ (as : List Nat) (n : Nat) (l : V), Spine h l as t →
      nthcdr.loop h n l = startOf t (as.drop n) := by
  intro as
  induction as with
  | nil =>
    intro n l hs
    have hl : l = t := hs
    subst hl
    cases n with
    | zero => rfl
    | succ n =>
      cases l with
      | cell a => exact absurd rfl (ht a)
      | nil => rfl
      | atom n => rfl
  | cons a as ih =>
    intro n l hs
    obtain ⟨rfl, hlt, hs⟩ := hs
    cases n with
    | zero => rfl
    | succ n => simp only [nthcdr.loop, List.drop_succ_cons]; exact ih n _ hs

theorem length_loop_spec {h : Heap} {t : V} (ht : IsAtom t) :
    ∀ (as : List Nat) (i : Nat) (l : V), Spine h l as t → length.loop h i l = some (i + as.length) := by
  intro as
  induction as with
  | nil =>
    intro i l hs
    have hl : l = t := hs
    subst hl
    rw [length.loop.eq_def]
    cases l with
    | cell a => exact absurd rfl (ht a)
    | nil => rfl
    | atom n => rfl
  | cons a as ih =>
    intro i l hs
    obtain ⟨rfl, hlt, hs⟩ := hs
    rw [length.loop.eq_def]
    simp only
    rw [ih (i + 1) _ hs, List.length_cons]
    congr 1; omega

theorem last_loop_spec {h : Heap} {t : V} (ht : IsAtom t) :
    ∀ (as : List Nat) (a : Nat), Spine h (h.cdr a) as t →
      last.loop h a = some (h.car ((a :: as).getLast (by simp))) := by
  intro as
  induction as with
  | nil =>
    intro a hs
    have hl : h.cdr a = t := hs
    rw [last.loop.eq_def, hl]
    cases t with
    | cell a => exact absurd rfl (ht a)
    | nil => rfl
    | atom n => rfl
  | cons b as ih =>
    intro a hs
    obtain ⟨h1, hlt, hs⟩ := hs
    rw [last.loop.eq_def, h1]
    simp only
    rw [ih b hs, List.getLast_cons (a := a) (by simp)]

/-! ### delete -/

theorem deleteLoop_spec {h0 : Heap} {t : V} (ht : IsAtom t) (p : Heap → V → Bool) (all : List Nat)
    (hp : ∀ h', OnlyCdrsOf all h0 h' → ∀ a ∈ all, p h' (h0.car a) = p h0 (h0.car a)) :
    ∀ (as : List Nat) (h : Heap) (lst : V) (ks : List Nat),
      Spine h lst (ks ++ as) t → (ks ++ as).Nodup → (∀ a ∈ ks ++ as, a ∈ all) → OnlyCdrsOf all h0 h →
      ∃ h' r, deleteLoop p h lst (locEnd ks) = some (h', .ok r) ∧
        Spine h' r (ks ++ as.filter (fun a => !p h0 (h0.car a))) t ∧ OnlyCdrsOf all h0 h' := by
  have readEnd : ∀ {h : Heap} {lst u : V} {ks : List Nat}, Spine h lst ks u → (locEnd ks).read h lst = u := by
    intro h lst u ks hs
    rcases List.eq_nil_or_concat ks with rfl | ⟨ds, a, rfl⟩
    · exact hs
    · rw [List.concat_eq_append] at *
      rw [locEnd_append]
      obtain ⟨v, _, hs2⟩ := Spine.append_iff.1 hs
      simp only [Spine] at hs2
      exact hs2.2.2
  intro as
  induction as with
  | nil =>
    intro h lst ks hs hn hall ho
    simp only [List.append_nil] at hs
    refine ⟨h, lst, ?_, by simpa using hs, ho⟩
    rw [deleteLoop.eq_def, readEnd hs]
    cases t with
    | cell a => exact absurd rfl (ht a)
    | nil => rfl
    | atom n => rfl
  | cons a as ih =>
    intro h lst ks hs hn hall ho
    obtain ⟨u, hs1, hs2⟩ := Spine.append_iff.1 hs
    obtain ⟨rfl, hlt, hs3⟩ := hs2
    have hcar : h.car a = h0.car a := by rw [ho.2.1]
    have hpa : p h (h.car a) = p h0 (h0.car a) := by
      rw [hcar]; exact hp h ho a (hall a (by simp))
    rw [deleteLoop.eq_def, readEnd hs1]
    simp only
    rw [hpa]
    by_cases hd : p h0 (h0.car a) = true
    · rw [if_pos hd]
      have hnks : ks.Nodup := (List.nodup_append.1 hn).1
      obtain ⟨w1, w2, w3⟩ := write_end hs1 hnks (h.cdr a)
      have hsub : (ks ++ as).Sublist (ks ++ a :: as) := (List.sublist_cons_self a as).append_left ks
      obtain ⟨h', r, e, r1, r2⟩ := ih ((locEnd ks).write h lst (h.cdr a)).1 ((locEnd ks).write h lst (h.cdr a)).2 ks
        (Spine.append_iff.2 ⟨h.cdr a, w1, hs3.congr w3.1.ge fun x hx => w3.2.2 x (by
          intro hk
          exact (List.nodup_append.1 hn).2.2 x hk x (by simp [hx]) rfl)⟩)
        (hn.sublist hsub) (fun x hx => hall x (hsub.subset hx))
        (by
          obtain ⟨q1, q2, q4⟩ := ho.trans w3
          refine ⟨q1, q2, fun x hx => q4 x ?_⟩
          rw [List.mem_append, not_or]
          exact ⟨hx, fun hk => hx (hall x (List.mem_append_left _ hk))⟩)
      refine ⟨h', r, e, ?_, r2⟩
      rw [List.filter_cons]; simp only [hd, Bool.not_true, Bool.false_eq_true, if_false]; exact r1
    · rw [if_neg hd]
      obtain ⟨h', r, e, r1, r2⟩ := ih h lst (ks ++ [a]) (by rw [List.append_assoc]; exact hs)
        (by rw [List.append_assoc]; exact hn) (by rw [List.append_assoc]; exact hall) ho
      rw [locEnd_append] at e
      refine ⟨h', r, e, ?_, r2⟩
      rw [List.append_assoc] at r1
      rw [List.filter_cons]
      simp only [hd, Bool.not_false, if_true]
      exact r1

end Rep.Lists
