import Verif.Compile.Sim6
import Verif.Compile.Violations

/-
A whole file: C59.
-/

namespace Rep.Compile

/-! ### The functions of the file -/

def Prog.Gf (p : Prog) : Name → Option Clo := fun x =>
  (look x p.defs.reverse).map fun d => ⟨d.1, d.2, []⟩

/-- What is known of a function that has been compiled. -/
structure DefAt (Gf : Name → Option Clo) (sc : Scope) (t : CSt) (d : Name × List Name × Exp)
    (o : Name × Nat) : Prop where
  name : d.1 = o.1
  fn : ∃ s0 k s1, t.fns[o.2]? =
      some ⟨(lambdaHead ⟨[], [], 0, 0⟩ (some d.1) d.2.1 s0).1 ++ k ++ [.ret], []⟩ ∧
    cExp (lambdaHead ⟨[], [], 0, 0⟩ (some d.1) d.2.1 s0).2.1 true d.2.2
      (lambdaHead ⟨[], [], 0, 0⟩ (some d.1) d.2.1 s0).2.2 = some (k, s1) ∧
    SOk Gf ⟨[], [], 0, 0⟩ sc s0 ∧ Later s1 t

theorem DefAt.later {Gf : Name → Option Clo} {sc : Scope} {t t' : CSt} {d : Name × List Name × Exp}
    {o : Name × Nat} (h : DefAt Gf sc t d o) (hl : Later t t') : DefAt Gf sc t' d o := by
  obtain ⟨h1, s0, k, s1, h2, h3, h4, h5⟩ := h
  refine ⟨h1, s0, k, s1, ?_, h3, h4, h5.trans hl⟩
  obtain ⟨r, hr, _⟩ := hl.fns
  rw [hr, List.getElem?_append_left (List.getElem?_eq_some_iff.1 h2).1]
  exact h2

theorem cDefs_spec {Gf : Name → Option Clo} {sc : Scope} (ds : List (Name × List Name × Exp))
    {s t : CSt} {out : List (Name × Nat)} (h : cDefs ds s = some (out, t))
    (hs : SOk Gf ⟨[], [], 0, 0⟩ sc s)
    (hg : ∀ d ∈ ds, fresh sc d.2.1 = true ∧ good (vars d.2.1 ++ sc) d.2.2 = true)
    (hn : ∀ d ∈ ds, look d.1 sc ≠ none) :
    Later s t ∧ LRel (DefAt Gf sc t) ds out ∧ SOk Gf ⟨[], [], 0, 0⟩ sc t := by
  induction ds generalizing s t out with
  | nil =>
    simp only [cDefs, Option.some.injEq, Prod.mk.injEq] at h
    obtain ⟨rfl, rfl⟩ := h
    exact ⟨.refl _, .nil, hs⟩
  | cons d ds ih =>
    obtain ⟨x, ps, b⟩ := d
    simp only [cDefs, Option.bind_eq_bind, Option.bind_eq_some_iff] at h
    obtain ⟨⟨k, s1⟩, h1, ⟨out', t'⟩, h2, h⟩ := h
    simp only [Option.some.injEq, Prod.mk.injEq] at h
    obtain ⟨rfl, rfl⟩ := h
    obtain ⟨hf, hgb⟩ := hg _ (.head _)
    have hx := hn _ (.head _)
    have g1 : Grow s ((lambdaHead ⟨[], [], 0, 0⟩ (some x) ps s).1 ++ k ++ [.ret]) s1 := 
      fn_grow (cExp_grow _ true b _ h1)
    have hl1 : Later s s1 := g1.later
    have hl2 : Later s1 { s1 with fns := s1.fns ++
        [⟨(lambdaHead ⟨[], [], 0, 0⟩ (some x) ps s).1 ++ k ++ [.ret], []⟩] } := by
      refine ⟨Nat.le_refl _, Nat.le_refl _, ⟨_, rfl, ?_⟩, fun _ h => h, fun _ h => h⟩
      intro f hf
      rw [List.mem_singleton.1 hf]
      exact g1.labs.1
    have hs1 : SOk Gf ⟨[], [], 0, 0⟩ sc { s1 with fns := s1.fns ++
        [⟨(lambdaHead ⟨[], [], 0, 0⟩ (some x) ps s).1 ++ k ++ [.ret], []⟩] } := by
      have q1 := lambdaHead_sok hs hf (nm := some x) (fun y hy => by
        simp only [Option.some.injEq] at hy
        rw [← hy]; exact hx)
      have q2 := (cExp_tag _ true b _ h1 hgb q1.cells q1.tags).1
      exact hs.next rfl rfl hl1.cell (tagsOk_of q2 rfl rfl (Nat.le_refl _))
    obtain ⟨a1, a2, a3⟩ := ih h2 hs1 (fun d hd => hg d (.tail _ hd)) (fun d hd => hn d (.tail _ hd))
    refine ⟨(hl1.trans hl2).trans a1, .cons ?_ a2, a3⟩
    have : DefAt Gf sc { s1 with fns := s1.fns ++
        [⟨(lambdaHead ⟨[], [], 0, 0⟩ (some x) ps s).1 ++ k ++ [.ret], []⟩] } (x, ps, b)
        (x, s1.fns.length) :=
      ⟨rfl, s, k, s1, by simp, h1, hs, hl2⟩
    exact this.later a1

/-! ### Results -/

/-- A result of the interpreter and what compiled code ends with. -/
def Agree : SRes SVal → Out → Prop
  | .ok v S, .done v' st => Same v v' ∧ SameGlobals S.g st.g
  | .err e S, .err e' st => e = e' ∧ SameGlobals S.g st.g
  | _, _ => False

theorem VR.same {U : Setup} {w : World} {v : SVal} {v' : TVal} (h : VR U w v v') : Same v v' := by
  induction h with
  | atom a => exact .atom a
  | pair _ _ h1 h2 => exact .pair h1 h2
  | prim p => exact .prim p
  | fn _ => exact .fn trivial

theorem WOk.same {U : Setup} {w : World} {S : SSt} {st : TSt} (h : WOk U w S st) :
    SameGlobals S.g st.g := by
  intro x
  have := h.g x
  cases h1 : S.g x <;> cases h2 : st.g x <;> rw [h1, h2] at this
  · trivial
  · exact this
  · exact this
  · exact this.same

theorem exec_of_run {P : Prims} {T : List (List I)} {n : Nat} {m : MSt} {o : Out}
    (h : run P T n m = o) (ho : ∀ m', o ≠ .next m') : exec P T n m = some o := by
  induction n generalizing m with
  | zero => exact absurd h.symm (ho m)
  | succ n ih =>
    simp only [run, exec] at h ⊢
    cases hs : step P T m with
    | next m' =>
      rw [hs] at h
      exact ih h
    | _ => rw [hs] at h; simp [h]

theorem LRel.look {α β : Type} {R : Name × α → Name × β → Prop} {as : List (Name × α)}
    {bs : List (Name × β)} (h : LRel R as bs) (hn : ∀ a b, R a b → a.1 = b.1) (x : Name) :
    (look x as = none ∧ look x bs = none) ∨
      ∃ a b, look x as = some a ∧ look x bs = some b ∧ R (x, a) (x, b) := by
  induction h with
  | nil => exact .inl ⟨rfl, rfl⟩
  | @cons a b as bs h _ ih =>
    obtain ⟨y, a⟩ := a
    obtain ⟨z, b⟩ := b
    have : y = z := hn _ _ h
    subst this
    by_cases hy : y = x
    · subst hy
      exact .inr ⟨a, b, by simp [Compile.look], by simp [Compile.look], h⟩
    · simp only [Compile.look, hy, if_false]
      exact ih

theorem Prog.gf_scope {p : Prog} (h : (p.defs.map (·.1)).Nodup) {x : Name} {c : Clo}
    (hx : p.Gf x = some c) : look x p.scope = some (some c.ps.length) := by
  unfold Prog.Gf at hx
  cases hl : look x p.defs.reverse with
  | none => rw [hl] at hx; simp at hx
  | some d =>
    rw [hl] at hx
    simp only [Option.map_some, Option.some.injEq] at hx
    subst hx
    have hm := List.mem_reverse.1 (look_mem hl)
    refine look_of_mem ?_ ?_
    · simpa [Prog.scope, List.map_map, Function.comp_def] using h
    · exact List.mem_map.2 ⟨_, hm, rfl⟩

theorem captured_heap {u : Bool} {s : CSt} {f : Fn} (hf : f ∈ s.fns) {x : Name} {lex : Lex}
    (hi : I.lexRef x lex ∈ f.code ∨ I.lexSet x lex ∈ f.code) {k : Nat} (hk : look x f.base = some k) :
    heapP u s k = true := by
  simp only [heapP, captured, Bool.or_eq_true, List.any_eq_true]
  left
  refine ⟨f, hf, ?_⟩
  rcases hi with hi | hi
  · exact ⟨_, hi, by simp [hk]⟩
  · exact ⟨_, hi, by simp [hk]⟩

/-- The fixed part of a run of a compiled file. -/
def setup (P : Prims) (p : Prog) (u : Bool) (s : CSt) (hl : ∀ f ∈ s.fns, (labelsOf f.code).Nodup) :
    Setup :=
  ⟨P, heapP u s, s.fns, p.Gf, hl, fun _ hf _ _ hi _ hk => captured_heap hf hi hk⟩

theorem step_ret0 {U : Setup} {C : List I} {Eb : List Ent} {m pc : Nat}
    {args : List TVal} {k : List I} {v : TVal} {stk : List TVal}
    {env bst : List Nat} {slots : Nat → Option TVal} {st : TSt}
    (h : CodeAt C pc (.ret :: k)) :
    step U.P U.table (U.mk' ⟨C, Eb, m, [], args⟩ pc (v :: stk) env bst slots st) = .done v st := by
  have := fetch (U := U) (fr := ⟨C, Eb, m, [], args⟩) h
  simp [step, Setup.mk', this, alloc]

/-- **C59** A file whose functions and variables obey the conditions of `Prog.good`, compiled without
jumps that assign variables in the heap, does what the interpreter does: whenever the interpreter
comes to an end, compiled code comes to an end, with the same value or the same error and the same
global variables.  In particular compiled code does not read a stack, a slot or a table where it
has no element. -/
theorem C59_compiled_file_behaves_as_interpreted_partial (P : Prims) (lib : Name → Option Nat)
    (u : Bool) (p : Prog) (t : TProg) (hg : p.good = true) (hu : p.noReuse u = true)
    (hc : compile u p = some t) (n : Nat) (r : SRes SVal) (hr : interpret P lib n p = some r) :
    ∃ m o, load P lib m t = some o ∧ Agree r o := by
  simp only [compile, Option.bind_eq_bind, Option.bind_eq_some_iff] at hc
  obtain ⟨⟨ds, k, s⟩, hc1, hc⟩ := hc
  simp only [Option.some.injEq] at hc
  subst hc
  have hu' : noReuse u s = true := by
    unfold Prog.noReuse at hu
    rw [hc1] at hu
    exact hu
  simp only [compile1, Option.bind_eq_bind, Option.bind_eq_some_iff] at hc1
  obtain ⟨⟨ds', s1⟩, hd, ⟨k1, s2⟩, hm, hc1⟩ := hc1
  simp only [Option.some.injEq, Prod.mk.injEq] at hc1
  obtain ⟨rfl, rfl, rfl⟩ := hc1
  simp only [Prog.good, Bool.and_eq_true, List.all_eq_true] at hg
  obtain ⟨⟨hf, hds⟩, hgm⟩ := hg
  have hnd := (fresh_spec hf).1
  have hscn : p.scope.map (·.1) = p.defs.map (·.1) := by
    simp [Prog.scope, List.map_map, Function.comp_def]
  have hlk : ∀ d ∈ p.defs, look d.1 p.scope = some (some d.2.1.length) := by
    intro d hd
    refine look_of_mem (by rw [hscn]; exact hnd) ?_
    exact List.mem_map.2 ⟨d, hd, rfl⟩
  have hs0 : SOk p.Gf ⟨[], [], 0, 0⟩ p.scope CSt.init := by
    refine ⟨⟨by simp, by simp⟩, ⟨by simp [CSt.init], by simp [CSt.init]⟩, by simp, by simp, by simp,
      by simp, fun x c h => Prog.gf_scope hnd h⟩
  obtain ⟨l1, hdefs, hs1⟩ := cDefs_spec p.defs hd hs0 hds
    (fun d hd => by rw [hlk d hd]; simp)
  have gm := cExp_grow _ true p.main _ hm
  have l2 : Later s1 s2 := by
    have h0 : Later s1 { s1 with lab := s1.lab + 1 } :=
      ⟨Nat.le_succ _, Nat.le_refl _, ⟨[], by simp, by simp⟩, fun _ h => h, fun _ h => h⟩
    exact h0.trans gm.later
  have hlab : ∀ f ∈ s2.fns, (labelsOf f.code).Nodup := by
    obtain ⟨r1, e1, q1⟩ := (l1.trans l2).fns
    intro f hf
    rw [e1] at hf
    exact q1 f (by simpa [CSt.init] using hf)
  let U := setup P p u s2 hlab
  have hfin : Fin U s2 := by
    refine ⟨⟨[], by simp [U, setup]⟩, ?_⟩
    intro k hk
    simp only [noReuse, List.all_eq_true, Bool.not_eq_true'] at hu'
    exact hu' k hk
  -- the state in which the form is evaluated
  let w : World := ⟨0, fun _ => none, fun _ => none, fun _ => false⟩
  let C : List I := .label s1.lab :: k1 ++ [.ret]
  let fr : Fr := ⟨C, [], 0, [], []⟩
  have hCat : CodeAt fr.C 0 (.label s1.lab :: (k1 ++ [.ret])) := ⟨[], [], by simp [fr, C], rfl⟩
  have hok : FrOk U fr := by
    refine ⟨?_, fun _ _ _ _ hk => absurd hk (by simp [fr, look])⟩
    have q := gm.labs
    show (labelsOf (.label s1.lab :: k1 ++ [.ret])).Nodup
    have : labelsOf (.label s1.lab :: k1 ++ [.ret]) = s1.lab :: labelsOf k1 := by
      simp [labelsOf_cons, labelsOf_append, labelOf]
    rw [this, List.nodup_cons]
    refine ⟨fun hm => ?_, q.1⟩
    have : s1.lab + 1 ≤ s1.lab := (q.2 _ hm).1
    omega
  have hgl : ∀ x, match p.globals lib x, (finish u ds' (.label s1.lab :: k1 ++ [.ret]) s2).globals lib x with
      | some v, some v' => VR U w v v'
      | none, none => True
      | _, _ => False := by
    intro x
    have hrev : LRel (DefAt p.Gf p.scope s2) p.defs.reverse ds'.reverse :=
      (hdefs.mono fun _ _ h => h.later l2).reverse
    rcases hrev.look (fun a b h => h.name) x with ⟨e1, e2⟩ | ⟨d, o, e1, e2, hD⟩
    · simp only [Prog.globals, TProg.globals, finish, e1, e2]
      cases lib x with
      | none => trivial
      | some q => exact .prim q
    · simp only [Prog.globals, TProg.globals, finish, e1, e2]
      obtain ⟨_, q0, kq, q1, b1, b2, b3, b4⟩ := hD
      have hmem : (x, d) ∈ p.defs := List.mem_reverse.1 (look_mem e1)
      refine .fn ⟨⟨[], [], 0, 0⟩, some x, q0, kq, q1, p.scope, [], [], ?_⟩
      refine ⟨b1, b2, hfin.before b4, b3, (hds _ hmem).1, (hds _ hmem).2, rfl, fun _ _ => rfl,
        by simp, by simp, by simp, by simp, by simp, rfl, ?_⟩
      intro y hy
      simp only [Option.some.injEq] at hy
      subst hy
      refine ⟨.inr ⟨rfl, ?_⟩, hlk _ hmem, by simp⟩
      show p.Gf x = _
      simp [Prog.Gf, e1]
  have hw : WOk U w ⟨[], p.globals lib⟩ ⟨[], (finish u ds' (.label s1.lab :: k1 ++ [.ret]) s2).globals lib⟩ := by
    refine ⟨rfl, ?_, ?_, ?_, hgl, ?_⟩
    · intro l h hh
      exact absurd hh (by simp [w])
    · intro l l' h hh
      exact absurd hh (by simp [w])
    · intro l c hh
      exact absurd hh (by simp [w])
    · intro x c hx
      have hx' : p.Gf x = some c := hx
      unfold Prog.Gf at hx'
      cases hl : look x p.defs.reverse with
      | none => rw [hl] at hx'; simp at hx'
      | some d =>
        rw [hl] at hx'
        simp only [Option.map_some, Option.some.injEq] at hx'
        subst hx'
        simp [Prog.globals, hl]
  have hF : FR U fr [[]] w ⟨[], p.globals lib⟩ [] [0] (fun _ => none) := by
    refine ⟨by simp [fr, Setup.heap], by simp [Setup.heap], by simp [Slots], by simp [fr], by simp,
      by simp, by simp [fr], Nat.le_refl _⟩
  have hsm : SOk U.Gf ⟨[], [⟨none, [], 0, 0, 0, s1.lab, false⟩], 0, 0⟩ p.scope
      { s1 with lab := s1.lab + 1 } := by
    refine ⟨⟨by simp, by simp⟩, tagsOk_of hs1.tags rfl rfl (Nat.le_refl _), by simp, by simp, by simp,
      by simp [depth], fun x c h => Prog.gf_scope hnd h⟩
  have main : GoesTo U.P U.table (Agree r) (U.mk' fr 0 [] [] [0] (fun _ => none)
      ⟨[], (finish u ds' (.label s1.lab :: k1 ++ [.ret]) s2).globals lib⟩) := by
    refine GoesTo.step (step_label hCat) ?_
    refine simE (U := U) n (sc := p.scope) (X := []) (av := []) (ρ := []) (r := r) hm hfin
      ⟨hsm, by simp, by simp, by simp, ?_, by simp, by simp, by simp⟩ hgm hCat.tail.left
      ⟨hok, ⟨by simp [fr], fun _ _ => rfl, by simp [fr], rfl⟩, hF, hw⟩ trivial hr ?_ ?_
    · intro y r0 hfy
      simp [findLambda] at hfy
    · intro v S1 hr1 w1 env1 bst1 slots1 st1 v1 p1 p2 p3 p4
      subst hr1
      exact GoesTo.done (step_ret0 hCat.tail.right) ⟨p3.same, p2.same⟩
    · intro e S1 hr1 w1 st1 p2
      subst hr1
      exact ⟨rfl, p2.same⟩
  obtain ⟨m, hm'⟩ := main
  generalize ho : run U.P U.table m _ = o at hm'
  refine ⟨m, o, exec_of_run ho ?_, hm'⟩
  intro m' hn
  rw [hn] at hm'
  cases r <;> exact hm'

/-! ### Files that meet the conditions -/

namespace Demo

/-- A loop, compiled inline, as the interpreter runs it. -/
example : q1.good = true ∧ q1.noReuse false = true ∧ (compile false q1).isSome = true ∧
    sees 50 q1 = .value [3] ∧ runs 1000 q1 = .value [3] := by decide +kernel

/-- A function with a tail call of itself, where a parameter is captured by a closure: with the
parameter in the heap, the jump makes a new binding. -/
example : q2.good = true ∧ q2.noReuse false = true ∧ (compile false q2).isSome = true ∧
    sees 50 q2 = .value [1] ∧ runs 1000 q2 = .value [1] := by decide +kernel

/-- `letrec`, a call that is not a tail call, a global variable that is assigned, and an error. -/
example : q3.good = true ∧ q3.noReuse false = true ∧ (compile false q3).isSome = true ∧
    sees 60 q3 = .error .void ∧ runs 1000 q3 = .error .void := by decide +kernel

/-! ### Files that do not -/

end Demo

end Rep.Compile
