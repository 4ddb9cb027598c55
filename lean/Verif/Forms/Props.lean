/-
Derived forms: the properties.
-/
import Verif.Forms.Exprs

namespace Rep.Forms

variable {P W : Type} {prim : P → List (Option Sexp) → W → Ans × W}

/-! ### What can be observed -/

/-- What can be told about a value: the datum it is, the function it is, that
it is a closure, or that it is a special form or macro. -/
inductive Shown (P : Type)
  | datum (d : Sexp)
  | fn (f : Fn P)
  | closure
  | special
  deriving DecidableEq

def SVal.shown : SVal P → Shown P
  | .data d => .datum d
  | .fn f => .fn f
  | .clos _ _ _ => .closure

def Val.shown : Val P → Shown P
  | .data d => .datum d
  | .fn f => .fn f
  | .clos _ _ => .closure
  | .kw _ => .special

/-- The result of a run as it can be observed: the values or the error, what
the global variables hold, and the world. -/
structure Seen (P W : Type) where
  result : Res (Shown P)
  globals : List (Shown P)
  world : W
  deriving DecidableEq

def Res.shown {V : Type} (f : V → Shown P) : Res V → Res (Shown P)
  | .ok vs => .ok (vs.map f)
  | .err e => .err e

/-- The initial value of a global variable: a datum or a function. -/
inductive Global (P : Type)
  | datum (d : Sexp)
  | fn (p : P)

/-- The meaning of the program `e`, with global variables `gs`, in the world
`w`. -/
def meaning (prim : P → List (Option Sexp) → W → Ans × W) (n : Nat)
    (gs : List (String × Global P)) (e : Src) (w : W) : Option (Seen P W) :=
  (sev prim n (.expr e) ((gs.map Prod.fst).zipIdx)
    ⟨gs.map fun g => match g.2 with | .datum d => .data d | .fn p => .fn (.prim p), w⟩).map
    fun r => ⟨r.1.shown SVal.shown, (r.2.store.take gs.length).map SVal.shown, r.2.world⟩

/-- What the evaluator does with the list structure `x`. -/
def evaluate (prim : P → List (Option Sexp) → W → Ans × W) (n : Nat)
    (gs : List (String × Global P)) (x : Sexp) (w : W) : Option (Seen P W) :=
  (ev prim n (.expr x) (((gs.map Prod.fst).zipIdx).map fun p => (.name p.1, p.2))
    ⟨gs.map fun g => match g.2 with | .datum d => .data d | .fn p => .fn (.prim p), 0, w⟩).map
    fun r => ⟨r.1.shown Val.shown, (r.2.store.take gs.length).map Val.shown, r.2.world⟩

/-! ### The theorem -/

theorem VRel.shown {μ} {v : SVal P} {v' : Val P} (h : VRel μ v v') : v'.shown = v.shown := by
  cases h <;> rfl

theorem VsRel.shown {μ} {vs : List (SVal P)} {vs' : List (Val P)} (h : VsRel μ vs vs') :
    vs'.map Val.shown = vs.map SVal.shown := by
  induction h with
  | nil => rfl
  | cons a _ ih => rw [List.map_cons, List.map_cons, a.shown, ih]

theorem lookup_zipIdx : ∀ (xs : List String) (k : Nat) (x : String),
    (((xs.zipIdx k).map fun p => ((Sym.name p.1, p.2) : Sym × Nat)).lookup (.name x))
      = (xs.zipIdx k).lookup x
  | [], _, _ => rfl
  | y :: ys, k, x => by
    simp only [List.zipIdx_cons, List.map_cons, List.lookup_cons]
    by_cases h : x = y
    · subst h; simp
    · have h1 : (x == y) = false := by simpa using h
      have h2 : (Sym.name x == Sym.name y) = false := by simpa using h
      rw [h1, h2]
      exact lookup_zipIdx ys (k + 1) x

theorem lookup_mem {β : Type} : ∀ {l : List (String × β)} {x : String} {b : β},
    l.lookup x = some b → (x, b) ∈ l
  | [], _, _, h => nomatch h
  | (y, c) :: l, x, b, h => by
    rw [List.lookup_cons] at h
    by_cases hx : x = y
    · subst hx; simp at h; simp [h]
    · have h1 : (x == y) = false := by simpa using hx
      rw [h1] at h
      exact List.mem_cons_of_mem _ (lookup_mem h)

theorem init_rel (gs : List (String × Global P)) (hg : gs.all (fun g => free g.1) = true) (w : W) :
    EnvRel (List.range gs.length) ((gs.map Prod.fst).zipIdx)
      (((gs.map Prod.fst).zipIdx).map fun p => (.name p.1, p.2)) ∧
    StRel (P := P) (List.range gs.length)
      ⟨gs.map fun g => match g.2 with | .datum d => .data d | .fn p => .fn (.prim p), w⟩
      ⟨gs.map fun g => match g.2 with | .datum d => .data d | .fn p => .fn (.prim p), 0, w⟩ := by
  refine ⟨⟨?_, ?_, ?_⟩, ⟨by simp, List.nodup_range, ?_, ?_, rfl⟩⟩
  · intro x l h
    have hm := lookup_mem h
    have hl : l < gs.length := by
      have := List.mem_zipIdx hm
      simp at this
      omega
    refine ⟨l, by simp [hl], ?_⟩
    rw [lookup_zipIdx]; exact h
  · intro x h
    rw [lookup_zipIdx]; exact h
  · intro x hx
    cases h : ((gs.map Prod.fst).zipIdx).lookup x with
    | none => rfl
    | some l =>
      have hm := List.fst_mem_of_mem_zipIdx (lookup_mem h)
      obtain ⟨g, h1, h2⟩ := List.mem_map.1 hm
      have := List.all_eq_true.1 hg g h1
      subst h2
      simp [free, hx] at this
  · intro l hl
    simpa using hl
  · intro i v h
    rw [List.getElem?_map] at h
    cases hi : gs[i]? with
    | none => rw [hi] at h; cases h
    | some g =>
      rw [hi] at h
      have hlt := (List.getElem?_eq_some_iff.1 hi).1
      refine ⟨i, (match g.2 with | .datum d => .data d | .fn p => .fn (.prim p)),
        by simp [hlt], by rw [List.getElem?_map, hi]; rfl, ?_⟩
      cases h
      obtain ⟨x, g⟩ := g
      cases g with
      | datum d => exact .data d
      | fn p => exact .fn _

theorem take_shown {μ2 : List Nat} {k : Nat} {s : SSt P W} {s' : St P W}
    (hp : List.range k <+: μ2) (hs : StRel μ2 s s') :
    (s'.store.take k).map Val.shown = (s.store.take k).map SVal.shown := by
  apply List.ext_getElem?
  intro i
  rw [List.getElem?_map, List.getElem?_map]
  by_cases hi : i < k
  · rw [List.getElem?_take_of_lt hi, List.getElem?_take_of_lt hi]
    have hμ : μ2[i]? = some i := getElem?_prefix hp (by simp [hi])
    have hlt : i < s.store.length := by
      rw [← hs.len]; exact (List.getElem?_eq_some_iff.1 hμ).1
    obtain ⟨l, v', h1, h2, h3⟩ := hs.val i _ (List.getElem?_eq_getElem hlt)
    rw [hμ] at h1
    cases h1
    rw [h2, List.getElem?_eq_getElem hlt]
    simp [h3.shown]
  · rw [List.getElem?_take_eq_none (by omega), List.getElem?_take_eq_none (by omega)]
    rfl

/-- Property C76.  Take any program made of constants, variables, functions,
calls, assignments and the derived forms, nested in any way, that binds and
assigns variables of its own only, whose `case` clauses have items and forms and
whose `letrec` forms have a body.  Whenever the meaning of the program is
defined, the evaluator, run on the program's text, finishes with that result,
the same effects on the world and on the global variables; and no run of it
finishes with another.  What is missing: that the evaluator does not finish when
the meaning is not defined, and the programs the guard excludes. -/
theorem C76_forms_partial {n : Nat} {gs : List (String × Global P)} {e : Src} {w : W}
    {r : Seen P W} (hg : gs.all (fun g => free g.1) = true) (ho : e.ok = true)
    (h : meaning prim n gs e w = some r) :
    (∃ m, evaluate prim m gs e.text w = some r) ∧
    ∀ m r', evaluate prim m gs e.text w = some r' → r' = r := by
  obtain ⟨he, hs⟩ := init_rel gs hg w
  obtain ⟨⟨r0, s0⟩, h0, rfl⟩ := Option.map_eq_some_iff.1 h
  obtain ⟨μ2, r', s2', hev, hr, hst, hf⟩ := good n _ _ _ _ _ _ _ _ h0 (.expr ho he) hs
  have hsame : (⟨r'.shown Val.shown, (s2'.store.take gs.length).map Val.shown, s2'.world⟩ :
      Seen P W) = ⟨r0.shown SVal.shown, (s0.store.take gs.length).map SVal.shown, s0.world⟩ := by
    have h1 : r'.shown Val.shown = r0.shown SVal.shown := by
      cases hr with
      | ok hv => exact congrArg Res.ok hv.shown
      | err e => rfl
    rw [h1, take_shown hf.pre hst, hst.world]
  refine ⟨?_, ?_⟩
  · obtain ⟨m, hm⟩ := hev
    exact ⟨m, by rw [evaluate, hm, ← hsame]; rfl⟩
  · intro m r2 h2
    obtain ⟨r3, h3, rfl⟩ := Option.map_eq_some_iff.1 h2
    have := Ev.det ⟨m, h3⟩ hev
    subst this
    exact hsame

/-! ### Instances -/

/-- Two functions with effects: `emit` records its argument and returns it,
`sub` subtracts. -/
inductive Two
  | emit | sub
  deriving DecidableEq

def two : Two → List (Option Sexp) → List Sexp → Ans × List Sexp
  | .emit, [some d], w => (.arg 0, w ++ [d])
  | .sub, [some (.int a), some (.int b)], w => (.datum (.int (a - b)), w)
  | _, _, w => (.err .nil, w)

def twoGlobals : List (String × Global Two) :=
  [("emit", .fn .emit), ("-", .fn .sub), ("n", .datum (.int 3))]

/-- `(progn (while (case n ((0) nil) (t t)) (emit n) (setq n (- n 1)))
(let* ((x 5) (y (- x 1))) (prog1 (emit y) (unless nil (emit x)))))` -/
def sample : Src :=
  .progn [
    .while (.case (.var "n") [.items [.int 0] [.empty], .otherwise [.var "t"]])
      [.call (.var "emit") [.var "n"],
       .setq "n" (.call (.var "-") [.var "n", .int 1])],
    .letStar [.forms "x" [.int 5], .forms "y" [.call (.var "-") [.var "x", .int 1]]]
      [.prog1 (.call (.var "emit") [.var "y"])
        [.unless .empty [.call (.var "emit") [.var "x"]]]]]

def sampleSeen : Seen Two (List Sexp) :=
  ⟨.ok [.datum (.int 4)], [.fn (.prim .emit), .fn (.prim .sub), .datum (.int 0)],
   [.int 3, .int 2, .int 1, .int 4, .int 5]⟩

theorem sample_meaning : meaning two 30 twoGlobals sample [] = some sampleSeen := by
  decide +kernel

/-- The hypotheses of the theorem hold of `sample`. -/
example : (∃ m, evaluate two m twoGlobals sample.text [] = some sampleSeen) ∧
    ∀ m r', evaluate two m twoGlobals sample.text [] = some r' → r' = sampleSeen :=
  C76_forms_partial (by decide +kernel) (by decide +kernel) sample_meaning

/-- `(do ((i 0 (- i -1)) (l)) ((eql i 3) (emit i)) (emit l) (setq l i))`, and
`(letrec ((f (lambda (x) (or (eql x 0) (and x (f (- x 1))))))) (f n))`. -/
def sample2 : Src :=
  .prog2
    (.do [.step "i" (.int 0) (.call (.var "-") [.var "i", .int (-1)]), .bare "l"]
      (.call (.var "eql") [.var "i", .int 3]) [.call (.var "emit") [.var "i"]]
      [.call (.var "emit") [.var "l"], .setq "l" (.var "i")])
    (.letrec [.forms "f" [.lambda ["x"] [.or [.call (.var "eql") [.var "x", .int 0],
        .and [.var "x", .call (.var "f") [.call (.var "-") [.var "x", .int 1]]]]]]]
      [.call (.var "f") [.var "n"]])
    [.named "loop" [.forms "k" [.int 1]]
      [.if (.call (.var "eql") [.var "k", .int 0]) (.int 0)
        [.call (.var "emit") [.var "k"], .call (.var "loop") [.call (.var "-") [.var "k", .int 1]]]]]

theorem sample2_meaning : meaning two 80 twoGlobals sample2 [] = some
    ⟨.ok [.datum (nm "t")], [.fn (.prim .emit), .fn (.prim .sub), .datum (.int 3)],
      [.nil, .int 0, .int 1, .int 3, .int 1]⟩ := by
  decide +kernel

example : ∃ m, evaluate two m twoGlobals sample2.text [] = some
    ⟨.ok [.datum (nm "t")], [.fn (.prim .emit), .fn (.prim .sub), .datum (.int 3)],
      [.nil, .int 0, .int 1, .int 3, .int 1]⟩ :=
  (C76_forms_partial (by decide +kernel) (by decide +kernel) sample2_meaning).1

/-! ### Where the forms do not do what is documented -/

/-- The documented meaning gives `r`, the evaluator `r'`. -/
def Differs (e : Src) (r r' : Res (Shown Two)) : Prop :=
  (meaning two 30 [] e []).map Seen.result = some r ∧
  (evaluate two 30 [] e.text []).map Seen.result = some r' ∧ r ≠ r'

instance (e r r') : Decidable (Differs e r r') := inferInstanceAs (Decidable (_ ∧ _ ∧ _))

/-- The forms of a clause of `case` are evaluated as by `progn`, whose value for no
forms is false; but `(case 1 ((1)))` returns `t` and `(case 2 ((1 2 3)))`
returns `(2 3)`, the value of the test. -/
theorem C76_case_no_forms_violated :
    Differs (.case (.int 1) [.items [.int 1] []]) (.ok [.datum .nil]) (.ok [.datum (nm "t")]) ∧
    Differs (.case (.int 2) [.items [.int 1, .int 2, .int 3] []]) (.ok [.datum .nil])
      (.ok [.datum (.ofList [.int 2, .int 3])]) := by
  decide +kernel

/-- A clause of `case` without items matches no key; but `(case () (() 1))`
returns 1. -/
theorem C76_case_no_items_violated :
    Differs (.case .empty [.items [] [.int 1]]) (.ok [.datum .nil]) (.ok [.datum (.int 1)]) := by
  decide +kernel

/-- The value of `(letrec ((x 1)))` is the value of no forms, false; it is 1. -/
theorem C76_letrec_no_body_violated :
    Differs (.letrec [.forms "x" [.int 1]] []) (.ok [.datum .nil]) (.ok [.datum (.int 1)]) := by
  decide +kernel

/-- The expansions are not hygienic: `(let ((t ())) (if () 1 2))` returns false,
and `(let ((not (lambda (x) ()))) (unless () 1))` too. -/
theorem C76_capture_violated :
    Differs (.let [.forms "t" [.empty]] [.if .empty (.int 1) [.int 2]])
      (.ok [.datum (.int 2)]) (.ok [.datum .nil]) ∧
    Differs (.let [.forms "not" [.lambda ["x"] [.empty]]] [.unless .empty [.int 1]])
      (.ok [.datum (.int 1)]) (.ok [.datum .nil]) := by
  decide +kernel

/-- `(let loop ((x loop)) x)`: the name is bound within the body only, so the
value of `x` is that of the variable `loop` outside, 7; the evaluator gives the
new function. -/
theorem C76_named_scope_violated :
    (evaluate two 30 [("loop", .datum (.int 7))]
      (Src.text (.named "loop" [.forms "x" [.var "loop"]] [.var "x"])) []).map Seen.result
      = some (.ok [.closure]) := by
  decide +kernel

end Rep.Forms
