/-
Internal definitions: what the scanner makes of a program.
-/
import Verif.Define.Spec
import Mathlib.Tactic.Tauto

namespace Rep.Define
open Rep.Forms

/-- `(and A B ...)` with `cond`. -/
def andOut : List Src → Src
  | [] => .var "t"
  | [e] => .cond [.mk e []]
  | e :: e2 :: es => .cond [.mk e [andOut (e2 :: es)]]

mutual
/-- The program that the scanner makes. -/
def ISrc.out : ISrc → Src
  | .int n => .int n
  | .empty => .empty
  | .quote d => .quote d
  | .var x => .var x
  | .lambda ps doc body => .lambda ps (doc.map .int ++ [body.out])
  | .call f args => .call f.out (outL args)
  | .setq x e => .setq x e.out
  | .progn es => .progn (outL es)
  | .cond cls => .cond (outC cls)
  | .let bs body => .let (outB bs) [body.out]
  | .letStar bs body => .letStar (outB bs) [body.out]
  | .letrec bs body => .letrec (outB bs) [body.out]
  | .named f bs body =>
    .letrec [.forms f [.lambda ((outB bs).map Binding.var) [body.out]]]
      [.call (.var f) (outV bs)]
  | .if c t [] => .cond [.mk c.out [t.out]]
  | .if c t (e :: els) => .cond [.mk c.out [t.out], .mk (.var "t") (e.out :: outL els)]
  | .case key cls => .case key.out (outK cls)
  | .when c body => .cond [.mk c.out [.progn (outL body)]]
  | .unless c body => .cond [.mk (.call (.var "not") [c.out]) [.progn (outL body)]]
  | .or [] => .var "nil"
  | .or (e :: es) => .cond (.mk e.out [] :: outO es)
  | .and es => andOut (outL es)
def Body.out : Body → Src
  | .mk [] [] => .empty
  | .mk [] [e] => e.out
  | .mk [] (e :: e2 :: es) => .progn (e.out :: e2.out :: outL es)
  | .mk (d :: ds) es => .letrec (d.out :: outD ds) (outL es)
def Def.out : Def → Binding
  | .var x e => .forms x [e.out]
  | .fn h ps doc body => .forms h.var [h.curry (.lambda ps (doc.map .int ++ [body.out]))]
def outD : List Def → List Binding
  | [] => []
  | d :: ds => d.out :: outD ds
def outL : List ISrc → List Src
  | [] => []
  | e :: es => e.out :: outL es
def outO : List ISrc → List Clause
  | [] => []
  | e :: es => .mk e.out [] :: outO es
def IBinding.out : IBinding → Binding
  | .plain x => .plain x
  | .forms x es => .forms x (outL es)
def outB : List IBinding → List Binding
  | [] => []
  | b :: bs => b.out :: outB bs
def IBinding.outV' : IBinding → Src
  | .plain _ => .empty
  | .forms _ es => .progn (outL es)
def outV : List IBinding → List Src
  | [] => []
  | b :: bs => b.outV' :: outV bs
def IClause.out : IClause → Clause
  | .mk c es => .mk c.out (outL es)
def outC : List IClause → List Clause
  | [] => []
  | c :: cs => c.out :: outC cs
def ICase.out : ICase → CaseClause
  | .items is es => .items is (outL es)
  | .otherwise es => .otherwise (outL es)
def outK : List ICase → List CaseClause
  | [] => []
  | c :: cs => c.out :: outK cs
end

/-! ### Lists -/

theorem itextL_eq (es : List ISrc) : itextL es = .ofList (es.map ISrc.text) := by
  induction es with
  | nil => simp [itextL, Sexp.ofList]
  | cons a l ih => simp [itextL, Sexp.ofList, ih]

theorem itextB_eq (es : List IBinding) : itextB es = .ofList (es.map IBinding.text) := by
  induction es with
  | nil => simp [itextB, Sexp.ofList]
  | cons a l ih => simp [itextB, Sexp.ofList, ih]

theorem itextC_eq (es : List IClause) : itextC es = .ofList (es.map IClause.text) := by
  induction es with
  | nil => simp [itextC, Sexp.ofList]
  | cons a l ih => simp [itextC, Sexp.ofList, ih]

theorem itextK_eq (es : List ICase) : itextK es = .ofList (es.map ICase.text) := by
  induction es with
  | nil => simp [itextK, Sexp.ofList]
  | cons a l ih => simp [itextK, Sexp.ofList, ih]

theorem textL_eq' (es : List Src) : textL es = .ofList (es.map Src.text) := by
  induction es with
  | nil => simp [textL, Sexp.ofList]
  | cons a l ih => simp [textL, Sexp.ofList, ih]

theorem textB_eq' (es : List Binding) : textB es = .ofList (es.map Binding.text) := by
  induction es with
  | nil => simp [textB, Sexp.ofList]
  | cons a l ih => simp [textB, Sexp.ofList, ih]

theorem textC_eq' (es : List Clause) : textC es = .ofList (es.map Clause.text) := by
  induction es with
  | nil => simp [textC, Sexp.ofList]
  | cons a l ih => simp [textC, Sexp.ofList, ih]

theorem textK_eq' (es : List CaseClause) : textK es = .ofList (es.map CaseClause.text) := by
  induction es with
  | nil => simp [textK, Sexp.ofList]
  | cons a l ih => simp [textK, Sexp.ofList, ih]

theorem toList_ofList' (xs : List Sexp) : (Sexp.ofList xs).toList = some xs := by
  induction xs with
  | nil => rfl
  | cons x xs ih => simp [Sexp.ofList, Sexp.toList, ih]

/-! ### Scanning, without step counts -/

variable {str : Int → Bool}

/-- The computation ends, from some number of steps on, and uses no generated
symbols. -/
def Ends {α : Type} (f : Nat → Nat → Option (α × Nat)) (y : α) : Prop :=
  ∃ n, ∀ m, n ≤ m → ∀ g, f m g = some (y, g)

/-- The scanner makes `y` of it. -/
def Scans (str : Int → Bool) (t : Task) (bound : List Sexp) (y : Sexp) : Prop :=
  Ends (fun m g => scan str m t bound g) y

theorem Scans.of {t : Task} {bound : List Sexp} {y : Sexp}
    (h : Ends (fun m g => scanStep str (scan str m) t bound g) y) : Scans str t bound y := by
  obtain ⟨n, hn⟩ := h
  refine ⟨n + 1, fun m hm g => ?_⟩
  obtain ⟨m, rfl⟩ : ∃ k, m = k + 1 := ⟨m - 1, by omega⟩
  exact hn m (by omega) g

theorem Ends.const {α : Type} (y : α) : Ends (fun _ g => some (y, g)) y :=
  ⟨0, fun _ _ _ => rfl⟩

theorem Ends.map {α β : Type} {f : Nat → Nat → Option (α × Nat)} {y : α}
    {k : α → β} (h : Ends f y) :
    Ends (fun m g => (f m g).map fun a => (k a.1, a.2)) (k y) := by
  obtain ⟨n, hn⟩ := h
  exact ⟨n, fun m hm g => by simp only [hn m hm g, Option.map_some]⟩

theorem Ends.bind {α β : Type} {f : Nat → Nat → Option (α × Nat)} {y : α}
    {k : Nat → α → Nat → Option (β × Nat)} {z : β} (h : Ends f y)
    (h2 : Ends (fun m g => k m y g) z) :
    Ends (fun m g => (f m g).bind fun a => k m a.1 a.2) z := by
  obtain ⟨n, hn⟩ := h
  obtain ⟨n2, hn2⟩ := h2
  exact ⟨max n n2, fun m hm g => by
    simp only [hn m (by omega) g, Option.bind_some, hn2 m (by omega) g]⟩

theorem Ends.mapG {F : Nat → Sexp → Nat → Out} {xs ys : List Sexp}
    (h : List.Forall₂ (fun x y => Ends (fun m g => F m x g) y) xs ys) :
    Ends (fun m g => mapG (F m) xs g) ys := by
  induction h with
  | nil => exact Ends.const _
  | cons h _ ih =>
    obtain ⟨n, hn⟩ := h
    obtain ⟨n2, hn2⟩ := ih
    exact ⟨max n n2, fun m hm g => by
      simp only [Define.mapG, hn m (by omega) g, Option.bind_some, hn2 m (by omega) g,
        Option.map_some]⟩

/-- The locally bound variables are names of the program. -/
def BoundOk (bound : List Sexp) : Prop := ∀ s, nm s ∈ bound → free s = true

theorem BoundOk.nil : BoundOk [] := fun s h => by cases h

theorem BoundOk.append {xs : List String} {bound : List Sexp} (hx : xs.all free = true)
    (h : BoundOk bound) (l : List Sexp) (hl : ∀ s ∈ l, s ∈ xs.map nm) : BoundOk (l ++ bound) := by
  intro s hs
  rcases List.mem_append.1 hs with h1 | h1
  · obtain ⟨x, hx1, hx2⟩ := List.mem_map.1 (hl _ h1)
    have : x = s := by simpa [nm] using hx2
    exact this ▸ (List.all_eq_true.1 hx x hx1)
  · exact h s h1

theorem headWord_reserved {w : String} (hw : free w = false) {bound : List Sexp}
    (h : BoundOk bound) : headWord bound (nm w) = some w := by
  have : nm w ∉ bound := fun hm => by simp [h w hm] at hw
  show (if nm w ∈ bound then none else some w) = some w
  rw [if_neg this]

/-- A form with a word as its head. -/
theorem Scans.word {w : String} (hw : free w = false) {args : Sexp} {bound : List Sexp} {y}
    (hb : BoundOk bound)
    (h : Ends (fun m g => scanWord str (scan str m) w args bound g) y) :
    Scans str (.form (form w args)) bound y := by
  refine Scans.of ?_
  simpa only [scanStep, form, headWord_reserved hw hb] using h

theorem Scans.body {xs ys : List Sexp} {bound : List Sexp}
    (h : List.Forall₂ (fun x y => Scans str (.form x) bound y) xs ys) :
    Scans str (.body (.ofList xs)) bound (.ofList ys) := by
  refine Scans.of ?_
  simp only [scanStep, toList_ofList', Option.bind_some]
  exact Ends.map (k := Sexp.ofList) (Ends.mapG h)

theorem reserved_macro {w : String} (hr : readable w = true) : macroOf w = none := by
  unfold macroOf
  split <;> first | rfl | (exfalso; revert hr; decide)

/-- A call of a variable is not special. -/
theorem scanWord_name {w : String} (hr : readable w = true) (hp : plainName w = true)
    {self args bound g} :
    scanWord str self w args bound g = self (.body (.cons (nm w) args)) bound g := by
  have hne : ∀ v, readable v = false ∨ plainName v = false → w ≠ v := by
    rintro v hv rfl; simp_all
  have e1 := hne "let" (by decide)
  have e2 := hne "let*" (by decide)
  have e3 := hne "letrec" (by decide)
  have e4 := hne "let-fluids" (by decide)
  have e5 := hne "setq" (by decide)
  have e6 := hne "cond" (by decide)
  have e7 := hne "case" (by decide)
  have e8 := hne "condition-case" (by decide)
  have e9 := hne "catch" (by decide)
  have e10 := hne "unwind-protect" (by decide)
  have e11 := hne "progn" (by decide)
  have e12 := hne "quote" (by decide)
  have e13 := hne "structure-ref" (by decide)
  have e14 := hne "structure" (by decide)
  have e15 := hne "define-structure" (by decide)
  have e16 := hne "declare" (by decide)
  have e17 := hne "lambda" (by decide)
  have e18 := hne "defvar" (by decide)
  have e19 := hne "define" (by decide)
  simp only [scanWord, e1, e2, e3, e4, e5, e6, e7, e8, e9, e10, e11, e12, e13, e14, e15, e16, e17,
    e18, e19, if_false, or_self, reserved_macro hr]

/-- What a text can look like: not a `define` form, and a header only if it is a
string. -/
theorem text_head {e : ISrc} (ho : e.ok str = true) {a d : Sexp} (h : e.text = .cons a d) :
    a ≠ nm "define" ∧ a ≠ nm "interactive" := by
  have key : ∀ s : String, free s = false → s ≠ "define" ∧ s ≠ "interactive" := by
    rintro s hs
    exact ⟨by rintro rfl; revert hs; decide, by rintro rfl; revert hs; decide⟩
  have kw : ∀ (s : String) (r : Sexp), free s = false → form s r = .cons a d →
      a ≠ nm "define" ∧ a ≠ nm "interactive" := by
    intro s r hs hf
    simp only [form, Sexp.cons.injEq] at hf
    rw [← hf.1]
    simpa [nm] using key s hs
  cases e with
  | int => simp [ISrc.text] at h
  | empty => simp [ISrc.text] at h
  | var => simp [ISrc.text, nm] at h
  | call f args =>
    simp only [ISrc.text, Sexp.cons.injEq] at h
    simp only [ISrc.ok, Bool.and_eq_true] at ho
    rw [← h.1]
    cases f with
    | var x =>
      have hx : plainName x = true := ho.1
      simp only [ISrc.text, nm, ne_eq, Sexp.sym.injEq, Sym.name.injEq]
      exact ⟨by rintro rfl; revert hx; decide, by rintro rfl; revert hx; decide⟩
    | _ => simp [ISrc.text, nm, form]
  | _ => exact kw _ _ (by decide) h

theorem text_not_header {e : ISrc} (ho : e.ok str = true) (hs : e.isStr str = false) :
    isHeader str e.text = false := by
  cases hx : e.text with
  | nil => rfl
  | sym s => rfl
  | cons a d => simpa [isHeader] using (text_head ho hx).2
  | int n =>
    cases e with
    | int k => simp only [ISrc.text, Sexp.int.injEq] at hx; subst hx; exact hs
    | _ => simp [ISrc.text, form, nm] at hx

theorem skip_doc {doc : List Int} (hd : doc.all str = true) {rest : Sexp}
    (hr : skipHeader str rest = ([], rest)) :
    skipHeader str (docText doc rest) = (doc.map Sexp.int, rest) := by
  induction doc with
  | nil => exact hr
  | cons n doc ih =>
    simp only [List.all_cons, Bool.and_eq_true] at hd
    have hi : isHeader str (.int n) = true := hd.1
    simp only [docText, List.foldr_cons, skipHeader, hi, if_true, List.map_cons]
    rw [show doc.foldr (fun n s => Sexp.cons (.int n) s) rest = docText doc rest from rfl,
      ih hd.2]

theorem itextD_cons {d : Def} {ds : List Def} {rest : Sexp} :
    ∃ x y, itextD (d :: ds) rest = .cons (.cons (nm "define") x) y := by
  cases d <;> simp [itextD, Def.text, form]

/-- The body starts after the documentation strings. -/
theorem skip_body {doc : List Int} {b : Body} (hd : docOk str doc b = true)
    (hb : b.ok str = true) :
    skipHeader str (docText doc b.text) = (doc.map Sexp.int, b.text) := by
  match b with
  | .mk [] [] =>
    simp only [docOk, List.isEmpty_iff] at hd
    subst hd
    simp [docText, Body.text, itextD, itextL, skipHeader]
  | .mk [] (e :: es) =>
    simp only [docOk, Bool.and_eq_true, Bool.not_eq_true'] at hd
    simp only [Body.ok, iokD, iokL, Bool.and_eq_true] at hb
    refine skip_doc hd.1 ?_
    simp only [Body.text, itextD, itextL, skipHeader, text_not_header hb.2.1 hd.2]
    rfl
  | .mk (d :: ds) es =>
    refine skip_doc hd ?_
    obtain ⟨x, y, h⟩ := itextD_cons (d := d) (ds := ds) (rest := itextL es)
    simp [Body.text, h, skipHeader, isHeader, nm]

theorem lambdaVars_names (ps : List String) (hp : ps.all plainName = true) (acc : List Sexp) :
    lambdaVars (names ps) acc = (ps.map nm).reverse ++ acc := by
  induction ps generalizing acc with
  | nil => simp [names, Sexp.ofList, lambdaVars]
  | cons p ps ih =>
    simp only [List.all_cons, Bool.and_eq_true] at hp
    have hk : carOr (nm p) = nm p := by simp [carOr, nm, Sexp.car]
    have hn : nm p ∉ lambdaKeys := by
      have h1 := hp.1
      simp only [plainName, words, decide_eq_true_eq, List.mem_cons, not_or] at h1
      simp only [lambdaKeys, nm, List.mem_cons, Sexp.sym.injEq, Sym.name.injEq, not_or]
      tauto
    have : lambdaVars (.cons (nm p) (names ps)) acc = lambdaVars (names ps) (nm p :: acc) := by
      rw [lambdaVars, hk, if_neg hn]
    rw [show names (p :: ps) = .cons (nm p) (names ps) by simp [names, Sexp.ofList], this,
      ih hp.2]
    simp

/-- A lambda expression, given its body. -/
theorem Scans.lambda {ps : List String} {doc : List Int} {rest : Sexp} {e' : Src}
    (hp : ps.all plainName = true) (hf : ps.all free = true)
    (hs : skipHeader str (docText doc rest) = (doc.map Sexp.int, rest))
    (h : ∀ bound, BoundOk bound → Scans str (.internals rest) bound e'.text)
    {bound : List Sexp} (hb : BoundOk bound) :
    Scans str (.form (form "lambda" (.cons (names ps) (docText doc rest)))) bound
      (Src.lambda ps (doc.map .int ++ [e'])).text := by
  refine Scans.word (by decide) hb ?_
  have := h ((ps.map nm).reverse ++ bound)
    (hb.append hf _ (fun s hs => by simpa using hs))
  have he : ∀ y, (Sexp.ofList (doc.map Sexp.int ++ [e'.text])) = y →
      (Src.lambda ps (doc.map .int ++ [e'])).text = .cons (nm "lambda") (.cons (names ps) y) := by
    rintro y rfl
    have hc : Src.text ∘ Src.int = Sexp.int := by funext n; simp [Src.text]
    simp [Src.text, form, textL_eq', hc]
  rw [he _ rfl]
  have hm := Ends.map (k := fun y => Sexp.cons (nm "lambda") (.cons (names ps)
    (.ofList (doc.map Sexp.int ++ [y])))) this
  simpa [scanWord, Sexp.car, Sexp.cdr, hs, lambdaVars_names ps hp] using hm

end Rep.Define
