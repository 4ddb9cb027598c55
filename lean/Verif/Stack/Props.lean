import Verif.Stack.Run
import Verif.Compile.Violations

/-
C90: the sizes that compiled code declares for its stacks are enough wherever execution gets.
-/

namespace Rep.Stack

open Rep.Compile

/-- The code of the form and the functions, with the sizes before they are packed. -/
def Sized.exact (z : Sized) : List (List I × Sizes) :=
  (z.prog.main, z.main) :: z.prog.table.zip z.table

theorem forall₂_zip {α β : Type} {R : α → β → Prop} {l : List α} {l' : List β}
    (h : List.Forall₂ R l l') {a : α} {b : β} (hm : (a, b) ∈ l.zip l') : R a b := by
  induction h with
  | nil => simp at hm
  | cons hr _ ih =>
    simp only [List.zip_cons_cons, List.mem_cons, Prod.mk.injEq] at hm
    rcases hm with ⟨rfl, rfl⟩ | hm
    · exact hr
    · exact ih hm

theorem forall₂_some {α β : Type} {R : α → β → Prop} {l : List α} {l' : List β}
    (h : List.Forall₂ R l l') {a : α} (hm : a ∈ l) : ∃ b, (a, b) ∈ l.zip l' := by
  induction h with
  | nil => simp at hm
  | cons _ _ ih =>
    rcases List.mem_cons.1 hm with rfl | hm
    · exact ⟨_, List.mem_cons_self⟩
    · obtain ⟨b, hb⟩ := ih hm
      exact ⟨b, List.mem_cons_of_mem _ hb⟩

theorem exact_codes {u : Bool} {p : Prog} {z : Sized} (h : compileS u p = some z) :
    ∃ L, Codes z.exact L z.prog.table ∧ ∀ k y, (k, y) ∈ z.exact → y.s = slots k := by
  obtain ⟨L, hm, hs, hf⟩ := compileS_good h
  refine ⟨L, ⟨fun k y hk => ?_, fun k hk => ?_⟩, fun k y hk => ?_⟩
  · rcases List.mem_cons.1 hk with e | hk
    · obtain ⟨rfl, rfl⟩ := Prod.mk.inj e
      exact hm
    · exact (forall₂_zip hf hk).1
  · obtain ⟨y, hy⟩ := forall₂_some hf hk
    exact ⟨y, List.mem_cons_of_mem _ hy⟩
  · rcases List.mem_cons.1 hk with e | hk
    · obtain ⟨rfl, rfl⟩ := Prod.mk.inj e
      exact hs
    · exact (forall₂_zip hf hk).2

theorem start_inv {u : Bool} {p : Prog} {z : Sized} (h : compileS u p = some z) (P : Prims)
    (lib : Name → Option Nat) : ∃ L, (∀ k y, (k, y) ∈ z.exact → y.s = slots k) ∧
      ∀ m, Reach P z.prog.table (z.start lib) m → Inv z.exact L m := by
  obtain ⟨L, hc, hs⟩ := exact_codes h
  refine ⟨L, hs, fun m hm => reach_inv hc ⟨?_, fun _ hk => by simp [Sized.start] at hk⟩ hm⟩
  exact enter_ok hc ⟨z.main, List.mem_cons_self⟩ [] []

theorem unpack_pack {y : Sizes} (hv : y.v < 1024) (hb : y.b < 1024) : unpack y.pack = y := by
  obtain ⟨v, b, s⟩ := y
  simp only [unpack, Sizes.pack, Sizes.mk.injEq] at *
  omega

theorem codes_exact {z : Sized} (h : z.small) : z.codes = z.exact := by
  unfold Sized.codes Sized.exact
  rw [unpack_pack (h _ List.mem_cons_self).1 (h _ List.mem_cons_self).2]
  congr 2
  have : ∀ y ∈ z.table, unpack y.pack = y := fun y hy =>
    unpack_pack (h y (List.mem_cons_of_mem _ hy)).1 (h y (List.mem_cons_of_mem _ hy)).2
  rw [List.map_congr_left this, List.map_id']

/-- **C90** However far a compiled file has been executed: every activation, the running one and
those that wait for it to return, is an activation of code for which the machine was told sizes, and
is within them.  (Partial: the sizes have to fit the fields of ten bits.) -/
theorem C90_declared_sizes_suffice_partial (P : Prims) (lib : Name → Option Nat) (u : Bool)
    (p : Prog) (z : Sized) (h : compileS u p = some z) (hz : z.small) (m : MSt)
    (hm : Reach P z.prog.table (z.start lib) m) (a : Act) (ha : a ∈ m.act :: m.ks) :
    (∃ y, (a.code, y) ∈ z.codes) ∧ ∀ y, (a.code, y) ∈ z.codes → Within a y := by
  obtain ⟨L, hs, hi⟩ := start_inv h P lib
  have hi := hi m hm
  rw [codes_exact hz]
  have : ∃ d, Ok z.exact L d a := by
    rcases List.mem_cons.1 ha with rfl | ha
    · exact ⟨0, hi.act⟩
    · exact ⟨1, hi.ks a ha⟩
  obtain ⟨d, hd⟩ := this
  refine ⟨hd.some, fun y hy => ?_⟩
  obtain ⟨_, _, hv, hb, hn⟩ := hd.all y hy
  refine ⟨by omega, hb, fun n h => ?_⟩
  rw [hs _ _ hy]
  exact hn n h

theorem tr0_operands {L : Nat → H} {x b : Nat} {i : I} {o : Option H}
    (h : tr0 L (some (x, b)) i = some o) : (operands i).1 ≤ x ∧ (operands i).2 ≤ b := by
  cases i with
  | call n =>
    simp only [tr0] at h
    split at h
    · rename_i hn
      exact ⟨hn, Nat.zero_le _⟩
    · cases h
  | _ =>
    cases x <;> cases b <;> first
      | (exact ⟨Nat.zero_le _, Nat.zero_le _⟩)
      | (exact ⟨Nat.succ_le_succ (Nat.zero_le _), Nat.zero_le _⟩)
      | (exact ⟨Nat.zero_le _, Nat.succ_le_succ (Nat.zero_le _)⟩)
      | (exact ⟨Nat.succ_le_succ (Nat.zero_le _), Nat.succ_le_succ (Nat.zero_le _)⟩)
      | (simp [tr0] at h)

/-- **C90** Whatever the sizes are, no instruction takes a value or a frame that is not there, and
execution does not run past the end of the code of a function. -/
theorem C90_operands_are_there (P : Prims) (lib : Name → Option Nat) (u : Bool) (p : Prog)
    (z : Sized) (h : compileS u p = some z) (m : MSt)
    (hm : Reach P z.prog.table (z.start lib) m) :
    ∃ i, m.act.code[m.act.pc]? = some i ∧ (operands i).1 ≤ m.act.stk.length ∧
      (operands i).2 ≤ m.act.bst.length := by
  obtain ⟨L, _, hi⟩ := start_inv h P lib
  obtain ⟨y, hy⟩ := (hi m hm).act.some
  have hf := (hi m hm).act.all y hy
  have hlt := hf.inside
  refine ⟨_, List.getElem?_eq_getElem hlt, ?_⟩
  obtain ⟨o, h1, _, _⟩ := hf.head (List.getElem?_eq_getElem hlt)
  exact tr0_operands h1

/-- A file that can be compiled is compiled with sizes. -/
theorem compileS_total {u : Bool} {p : Prog} {t : TProg} (h : compile u p = some t) :
    ∃ z, compileS u p = some z ∧ z.prog = t := by
  have h' := h
  simp only [compile, compile1, Option.bind_eq_bind, Option.bind_eq_some_iff] at h'
  obtain ⟨_, ⟨⟨r, s⟩, h1, _⟩, _⟩ := h'
  have hw : ∃ w, uses p = some w := by
    simp only [uses, Option.bind_eq_bind, h1]
    exact ⟨_, rfl⟩
  obtain ⟨w, hw⟩ := hw
  refine ⟨⟨t, ⟨w.v, w.b, slots t.main⟩,
    List.zipWith (fun k (z : Nat × Nat) => ⟨z.1, z.2, slots k⟩) t.table w.fns⟩, ?_, rfl⟩
  simp [compileS, h, hw]

/-! ### Calls with many arguments -/

/-- Arguments. -/
def nils : Nat → Exps
  | 0 => .nil
  | n + 1 => .cons (.quote .nil) (nils n)

theorem nils_length (n : Nat) : (nils n).length = n := by
  induction n with
  | zero => rfl
  | succ n ih => simp [nils, Exps.length, ih]

/-- `(F nil ... nil)` -/
def wide (n : Nat) : Prog := ⟨[], .call (.var 0) (nils n)⟩

theorem cArgs_nils (n : Nat) (c : Ctx) (s : CSt) :
    cArgs c (nils n) s = some (List.replicate n (.push .nil), s) := by
  induction n generalizing c with
  | zero => rfl
  | succ n ih => simp [nils, cArgs, cExp, ih, List.replicate_succ]

theorem uArgs_nils (n : Nat) (c : Ctx) (s : CSt) (v b : Nat) (f : List (Nat × Nat)) (h : c.sp ≤ v) :
    uArgs c (nils n) s ⟨v, b, f⟩ = ⟨max v (c.sp + n), b, f⟩ := by
  induction n generalizing c v with
  | zero => simp [nils, uArgs, h]
  | succ n ih =>
    simp only [nils, uArgs, cExp, uExp, Use.inc]
    rw [ih _ _ (Nat.le_max_right _ _)]
    simp only [Use.mk.injEq, and_true]
    omega

/-- The code of the call. -/
def wideCode (n : Nat) : List I :=
  [.label 0, .refg 0] ++ List.replicate n (.push .nil) ++ [.call n, .ret]

def wideProg (n : Nat) : TProg := ⟨[], [], wideCode n⟩

/-- The context of the form of a file without functions. -/
def c0 : Ctx := ⟨[], [⟨none, [], 0, 0, 0, 0, false⟩], 0, 0⟩

theorem wide_exp (n : Nat) : cExp c0 true (.call (.var 0) (nils n)) { CSt.init with lab := 1 } =
    some ([.refg 0] ++ List.replicate n (.push .nil) ++ [.call n],
      noteCall c0 { CSt.init with lab := 1 }) := by
  have hi : inlinable c0 { CSt.init with lab := 1 } 0 true = none := by decide
  have hv : varref c0 0 { CSt.init with lab := 1 } = ([.refg 0], { CSt.init with lab := 1 }) := by rfl
  simp only [cExp, hi, hv, cArgs_nils, nils_length, Option.bind_eq_bind, Option.bind_some]

theorem wide_use (n : Nat) : uExp c0 true (.call (.var 0) (nils n)) { CSt.init with lab := 1 }
    ⟨0, 0, []⟩ = ⟨n + 1, 0, []⟩ := by
  have hi : inlinable c0 { CSt.init with lab := 1 } 0 true = none := by decide
  have hv : varref c0 0 { CSt.init with lab := 1 } = ([.refg 0], { CSt.init with lab := 1 }) := by rfl
  simp only [uExp, hi, hv, Use.inc]
  rw [uArgs_nils n _ _ _ _ _ (by simp [c0])]
  simp [c0]
  omega

theorem wide_slots (n : Nat) : slots (wideCode n) = 0 := by
  simp only [slots, wideCode, List.map_append, List.foldl_append, List.map_replicate]
  have : ∀ k a, (List.replicate k (slotOf (.push .nil))).foldl max a = a := by
    intro k
    induction k with
    | zero => intro a; rfl
    | succ k ih =>
      intro a
      simp only [List.replicate_succ, List.foldl_cons]
      rw [ih]
      simp [slotOf]
  rw [this]
  rfl

theorem wide_compile (n : Nat) : compileS false (wide n) =
    some ⟨wideProg n, ⟨n + 1, 0, 0⟩, []⟩ := by
  have h1 : compile1 (wide n) = some ([], wideCode n, noteCall c0 { CSt.init with lab := 1 }) := by
    have := wide_exp n
    simp only [compile1, wide, cDefs, Option.bind_eq_bind, Option.bind_some]
    simp only [c0] at this ⊢
    rw [show CSt.init.lab = 0 from rfl]
    rw [show (0 : Nat) + 1 = 1 from rfl, this]
    simp [wideCode]
  have hc : compile false (wide n) = some (wideProg n) := by
    simp only [compile, h1, Option.bind_eq_bind, Option.bind_some, finish, wideProg,
      Option.some.injEq, TProg.mk.injEq]
    refine ⟨by first | trivial | rfl, by first | trivial | rfl, ?_⟩
    simp [wideCode, alloc]
  have hu : uses (wide n) = some ⟨n + 1, 0, []⟩ := by
    have := wide_use n
    simp only [uses, wide, cDefs, uDefs, Option.bind_eq_bind, Option.bind_some]
    simp only [c0] at this ⊢
    rw [show CSt.init.lab = 0 from rfl, show (0 : Nat) + 1 = 1 from rfl, this]
  simp only [compileS, hc, hu, Option.bind_eq_bind, Option.bind_some, wideProg, wide_slots]
  rfl

/-- The machine after the first arguments. -/
def wideAt (n k : Nat) (s : TSt) : MSt :=
  ⟨⟨wideCode n, k + 2, List.replicate k (.atom .nil) ++ [.prim 0], [], [0], fun _ => none, []⟩, [], s⟩

theorem wide_reach (P : Prims) (n k : Nat) (hk : k ≤ n) :
    Reach P [] (Sized.start ⟨wideProg n, ⟨n + 1, 0, 0⟩, []⟩ Demo.lib)
      (wideAt n k ⟨[], (wideProg n).globals Demo.lib⟩) := by
  induction k with
  | zero =>
    refine .step (.step .start (m' := ⟨⟨wideCode n, 1, [], [], [0], fun _ => none, []⟩, [],
      ⟨[], (wideProg n).globals Demo.lib⟩⟩) ?_) ?_
    · rfl
    · rfl
  | succ k ih =>
    refine .step (ih (by omega)) ?_
    have : (wideCode n)[k + 2]? = some (.push .nil) := by
      simp only [wideCode, List.append_assoc]
      rw [List.getElem?_append_right (by simp)]
      simp only [List.length_cons, List.length_nil, Nat.add_sub_cancel]
      rw [List.getElem?_append_left (by simp; omega), List.getElem?_replicate]
      simp; omega
    simp only [step, wideAt, this, Act.next, List.replicate_succ, List.cons_append]

/-- **C90** The violated part: `(F nil ... nil)` with 1023 arguments needs 1024 elements of the stack;
the machine is told that it needs none. -/
theorem C90_call_with_many_arguments_violated (P : Prims) : ∃ z m,
    compileS false (wide 1023) = some z ∧ Reach P z.prog.table (z.start Demo.lib) m ∧
      m.act.stk.length = 1024 ∧ (m.act.code, ⟨0, 1, 0⟩) ∈ z.codes ∧
      ∀ y, (m.act.code, y) ∈ z.codes → y.v = 0 := by
  refine ⟨_, _, wide_compile 1023, wide_reach P 1023 1023 (Nat.le_refl _), ?_, ?_, ?_⟩
  · simp only [wideAt, List.length_append, List.length_replicate, List.length_cons, List.length_nil]
  · simp only [wideAt, Sized.codes, wideProg]
    exact List.mem_cons_self
  · intro y hy
    simp only [wideAt, Sized.codes, wideProg, List.zip_nil_left, List.mem_singleton,
      Prod.mk.injEq, true_and] at hy
    subst hy
    rfl

/-- **C90** As many arguments fewer than that as one likes are all right; here is what the machine is
told for them. -/
example (n : Nat) (h : n < 1023) : ∃ z, compileS false (wide n) = some z ∧ z.small ∧
    z.codes = [(wideCode n, ⟨n + 1, 0, 0⟩)] := by
  have hz : Sized.small ⟨wideProg n, ⟨n + 1, 0, 0⟩, []⟩ := by
    intro y hy
    simp only [List.mem_singleton] at hy
    subst hy
    simp only
    omega
  refine ⟨_, wide_compile n, hz, ?_⟩
  rw [codes_exact hz]
  rfl

/-- A program with frames, slots, a loop and a function: `(defun f (x) (let loop ((i x)) (cond ((= i
0) (cons i x)) (t (loop (1- i))))))` and `(f 3)`. -/
def demo : Prog :=
  ⟨[(Demo.f, [Demo.x], .named Demo.g [Demo.i]
      (Demo.ite (Demo.c2 Demo.eq (.var Demo.i) (Demo.int 0))
        (Demo.c2 Demo.cons (.var Demo.i) (.var Demo.x))
        (Demo.c1 Demo.g (Demo.c1 Demo.dec (.var Demo.i)))) (.cons (.var Demo.x) .nil))],
    Demo.c1 Demo.f (Demo.int 3)⟩

example : (compileS true demo).map (fun z => (z.main, z.table)) =
    some (⟨2, 0, 0⟩, [⟨3, 1, 2⟩]) := by decide +kernel

example : ∃ z, compileS true demo = some z ∧ z.small := by
  have h : ((compileS true demo).map fun z => (z.main :: z.table).all fun y =>
    decide (y.v < 1024 ∧ y.b < 1024)) = some true := by decide +kernel
  cases hz : compileS true demo with
  | none => rw [hz] at h; cases h
  | some z =>
    refine ⟨z, rfl, fun y hy => ?_⟩
    rw [hz] at h
    simp only [Option.map_some, Option.some.injEq, List.all_eq_true] at h
    simpa using h y hy

end Rep.Stack
