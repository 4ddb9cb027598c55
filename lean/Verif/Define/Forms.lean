/-
Internal definitions: the scanner makes `P.out` of the program `P`.
-/
import Verif.Define.Scan

namespace Rep.Define
open Rep.Forms

variable {str : Int → Bool}

/-! ### Forms, given their parts -/

theorem Scans.quote {d : Sexp} {bound : List Sexp} (hb : BoundOk bound) :
    Scans str (.form (form "quote" (.cons d .nil))) bound (Src.quote d).text := by
  refine Scans.word (by decide) hb ?_
  simpa [scanWord, Src.text, form] using Ends.const _

theorem Scans.progn {xs ys : List Sexp} {bound : List Sexp} (hb : BoundOk bound)
    (h : List.Forall₂ (fun x y => Scans str (.form x) bound y) xs ys) :
    Scans str (.form (form "progn" (.ofList xs))) bound (form "progn" (.ofList ys)) := by
  refine Scans.word (by decide) hb ?_
  have := Ends.map (k := fun y => Sexp.cons (nm "progn") y) (Scans.body h)
  simpa [scanWord, form] using this

theorem Scans.setq {x : Sexp} {e y : Sexp} {bound : List Sexp} (hb : BoundOk bound)
    (h : Scans str (.form e) bound y) :
    Scans str (.form (form "setq" (.cons x (.cons e .nil)))) bound
      (form "setq" (.cons x (.cons y .nil))) := by
  refine Scans.word (by decide) hb ?_
  obtain ⟨n, hn⟩ := h
  refine ⟨n, fun m hm g => ?_⟩
  simp [scanWord, scanSetq, hn m hm g, form]

theorem Scans.cond {xs ys : List Sexp} {bound : List Sexp} (hb : BoundOk bound)
    (h : List.Forall₂ (fun x y => Scans str (.body x) bound y) xs ys) :
    Scans str (.form (form "cond" (.ofList xs))) bound (form "cond" (.ofList ys)) := by
  refine Scans.word (by decide) hb ?_
  have := Ends.map (k := fun y => Sexp.cons (nm "cond") (.ofList y)) (Ends.mapG h)
  simpa [scanWord, form, toList_ofList'] using this

theorem Scans.call {h : ISrc} {xs ys : List Sexp} {y : Sexp} {bound : List Sexp}
    (hr : h.plain.ok = true) (ho : h.ok str = true)
    (hh : Scans str (.form h.text) bound y)
    (ha : List.Forall₂ (fun x y => Scans str (.form x) bound y) xs ys) :
    Scans str (.form (.cons h.text (.ofList xs))) bound (.cons y (.ofList ys)) := by
  have hall : Scans str (.body (.cons h.text (.ofList xs))) bound (.cons y (.ofList ys)) := by
    simpa [Sexp.ofList] using Scans.body (List.Forall₂.cons hh ha)
  refine Scans.of ?_
  cases hw : headWord bound h.text with
  | none => simp only [scanStep, hw]; exact hall
  | some w =>
    cases h with
    | var x =>
      have hx : x = w := by
        have hw' : (if nm x ∈ bound then none else some x) = some w := hw
        by_cases hm : nm x ∈ bound
        · rw [if_pos hm] at hw'; cases hw'
        · rw [if_neg hm] at hw'; exact Option.some.inj hw'
      subst hx
      simp only [ISrc.plain, Src.ok] at hr
      simp only [ISrc.ok] at ho
      simp only [scanStep, hw, scanWord_name hr ho]
      exact hall
    | _ => simp [ISrc.text, headWord, form] at hw

theorem Scans.expands {w : String} {k : Kw} (hw : free w = false) (hk : macroOf w = some k)
    (hn : w ∉ ["let", "let*", "letrec", "case"])
    {xs : List Sexp} {x y : Sexp} {bound : List Sexp} (hb : BoundOk bound)
    (he : ∀ g, expand k xs g = some (x, g)) (h : Scans str (.form x) bound y) :
    Scans str (.form (form w (.ofList xs))) bound y := by
  refine Scans.word hw hb ?_
  have hne : ∀ v, macroOf v = none → w ≠ v := by rintro v hv rfl; simp [hv] at hk
  simp only [List.mem_cons, not_or] at hn
  have e1 := hn.1
  have e2 := hn.2.1
  have e3 := hn.2.2.1
  have e7 := hn.2.2.2.1
  have e4 := hne "let-fluids" (by decide)
  have e5 := hne "setq" (by decide)
  have e6 := hne "cond" (by decide)
  have e8 := hne "condition-case" (by decide)
  have e9 := hne "catch" (by decide)
  have e10 := hne "unwind-protect" (by decide)
  have e11 := hne "progn" (by decide)
  have e12 := hne "quote" (by decide)
  have e13 := hne "structure-ref" (by decide)
  have e14 := hne "structure" (by decide)
  have e15 := hne "define-structure" (by decide)
  have e16 := hne "declare" (by decide)
  have e17 := hne "lambda" (by decide)
  have e18 := hne "defvar" (by decide)
  have e19 := hne "define" (by decide)
  simp only [scanWord, e1, e2, e3, e4, e5, e6, e7, e8, e9, e10, e11, e12, e13, e14, e15, e16, e17,
    e18, e19, if_false, or_self, hk, toList_ofList', Option.bind_some, he]
  exact h

theorem Scans.if2 {c t c' t' : Sexp} {bound : List Sexp} (hb : BoundOk bound)
    (hc : Scans str (.form c) bound c') (ht : Scans str (.form t) bound t') :
    Scans str (.form (form "if" (.ofList [c, t]))) bound
      (form "cond" (.ofList [.ofList [c', t']])) := by
  refine Scans.expands (k := .if) (x := form "cond" (.ofList [.ofList [c, t]])) (by decide) rfl
    (by decide) hb (fun g => rfl) ?_
  exact Scans.cond hb (.cons (Scans.body (.cons hc (.cons ht .nil))) .nil)

theorem atom_scans {x : Sexp} (h : ∀ a d, x ≠ .cons a d) {bound : List Sexp} :
    Scans str (.form x) bound x := by
  refine Scans.of ?_
  cases x with
  | cons a d => exact absurd rfl (h a d)
  | _ => exact Ends.const _

/-! ### `and` -/

/-- The expansion of `and`. -/
def andText : List Sexp → Sexp
  | [] => nm "t"
  | [x] => .ofList [nm "cond", .ofList [x]]
  | x :: y :: ys => .ofList [nm "cond", .ofList [x, andText (y :: ys)]]

theorem andText_ne (x : Sexp) (xs : List Sexp) : andText (x :: xs) ≠ .nil := by
  cases xs <;> simp [andText, Sexp.ofList]

theorem andLoop_append (l : List Sexp) (x b : Sexp) :
    andLoop (l ++ [x]) b = andLoop [x] (andLoop l b) := by
  induction l generalizing b with
  | nil => rfl
  | cons a l ih => simp only [List.cons_append, andLoop]; exact ih _

theorem andLoop_text (x : Sexp) (xs : List Sexp) :
    andLoop (x :: xs).reverse .nil = andText (x :: xs) := by
  induction xs generalizing x with
  | nil => simp [andLoop, andText]
  | cons y ys ih =>
    rw [List.reverse_cons, andLoop_append, ih y]
    simp only [andLoop, andText, ne_eq, andText_ne, not_false_eq_true, if_true]

theorem andText_scans {bound : List Sexp} (hb : BoundOk bound) :
    ∀ {xs : List Sexp} {es : List Src},
      List.Forall₂ (fun x y => Scans str (.form x) bound y) xs (es.map Src.text) →
      Scans str (.form (andText xs)) bound (andOut es).text
  | [], [], _ => atom_scans (by simp [andText, nm])
  | [x], [e], .cons h .nil => by
    have := Scans.cond hb (.cons (Scans.body (.cons h .nil)) .nil)
    simpa [andText, andOut, Src.text, form, textC, Clause.text, textL, Sexp.ofList] using this
  | x :: y :: xs, e :: e2 :: es, .cons h h2 => by
    have ih := andText_scans hb (xs := y :: xs) (es := e2 :: es) h2
    have := Scans.cond hb (.cons (Scans.body (.cons h (.cons ih .nil))) .nil)
    simpa [andText, andOut, Src.text, form, textC, Clause.text, textL, Sexp.ofList] using this

theorem and_scans {bound : List Sexp} (hb : BoundOk bound) {xs : List Sexp} {es : List Src}
    (h : List.Forall₂ (fun x y => Scans str (.form x) bound y) xs (es.map Src.text)) :
    Scans str (.form (form "and" (.ofList xs))) bound (andOut es).text := by
  refine Scans.expands (k := .and) (x := andText xs) (by decide) rfl (by decide) hb
    (fun g => ?_) (andText_scans hb h)
  cases xs with
  | nil => rfl
  | cons x xs =>
    simp only [expand, expandAnd, if_neg (List.cons_ne_nil x xs), andLoop_text, Option.map_some]

/-! ### Bindings and bodies -/

theorem binding_var_text (b : IBinding) : bindingVar b.text = nm b.out.var := by
  cases b <;> simp [IBinding.text, IBinding.out, bindingVar, nm, Binding.var]

theorem binding_carOr_text (b : IBinding) : carOr b.text = nm b.out.var := by
  cases b <;> simp [IBinding.text, IBinding.out, carOr, nm, Binding.var, Sexp.car]

theorem outB_eq (bs : List IBinding) : outB bs = bs.map IBinding.out := by
  induction bs with
  | nil => rfl
  | cons b bs ih => simp [outB, ih]

theorem plainB_var (bs : List IBinding) :
    (plainB bs).map Binding.var = (outB bs).map Binding.var := by
  induction bs with
  | nil => rfl
  | cons b bs ih =>
    simp only [plainB, outB, List.map_cons, ih]
    cases b <;> rfl

theorem okB_names {bs : List Binding} (h : okB bs = true) :
    (bs.map Binding.var).all free = true := by
  induction bs with
  | nil => rfl
  | cons b bs ih =>
    simp only [okB, Bool.and_eq_true] at h
    simp only [List.map_cons, List.all_cons, Bool.and_eq_true]
    refine ⟨?_, ih h.2⟩
    cases b with
    | plain x => exact h.1
    | forms x es => exact (Bool.and_eq_true _ _ ▸ h.1).1

theorem bvars_bound {bs : List IBinding} (h : okB (plainB bs) = true) {bound : List Sexp}
    (hb : BoundOk bound) (l : List Sexp) (hl : ∀ s ∈ l, s ∈ bs.map fun b => nm b.out.var) :
    BoundOk (l ++ bound) := by
  refine hb.append (okB_names h) l (fun s hs => ?_)
  rw [plainB_var, outB_eq]
  simpa using hl s hs

/-- The forms as one. -/
def bodySrc : List Src → Src
  | [] => .empty
  | [e] => e
  | e :: e2 :: es => .progn (e :: e2 :: es)

/-- The body of forms only. -/
theorem internals_forms {xs : List Sexp} {es : List Src} {bound : List Sexp}
    (hd : ∀ r, xs.head? ≠ some (.cons (nm "define") r))
    (h : List.Forall₂ (fun x y => Scans str (.form x) bound y) xs (es.map Src.text)) :
    Scans str (.internals (.ofList xs)) bound
      (bodySrc es).text := by
  refine Scans.of ?_
  have hs : ∀ self g, scanDefs self bound (.ofList xs) g = some ([], .ofList xs, g) := by
    intro self g
    match xs, hd with
    | [], _ => rfl
    | .cons a d :: xs, hd =>
      have : a ≠ nm "define" := by rintro rfl; exact hd d rfl
      simp [Sexp.ofList, scanDefs, this]
    | .nil :: xs, _ => rfl
    | .int _ :: xs, _ => rfl
    | .sym _ :: xs, _ => rfl
  obtain ⟨n, hn⟩ := Scans.body h
  refine ⟨n, fun m hm g => ?_⟩
  simp only [scanStep, hs, Option.bind_some, hn m hm g, Option.map_some, ne_eq, not_true_eq_false,
    if_false]
  match es with
  | [] => simp [bodySrc, Sexp.ofList, Sexp.cdr, Sexp.car, Src.text]
  | [e] => simp [bodySrc, Sexp.ofList, Sexp.cdr, Sexp.car]
  | e :: e2 :: es => simp [bodySrc, Sexp.ofList, Sexp.cdr, Src.text, form, textL_eq']

/-- `letrec` with one variable. -/
theorem Scans.letrec1 {f : String} {r r' b b' : Sexp} {bound : List Sexp} (hb : BoundOk bound)
    (h1 : Scans str (.body r) ([nm f] ++ bound) r')
    (h2 : Scans str (.internals b) ([nm f] ++ bound) b') :
    Scans str (.form (form "letrec" (.cons (.cons (.cons (nm f) r) .nil) b))) bound
      (form "letrec" (.ofList [.ofList [.cons (nm f) r'], b'])) := by
  refine Scans.word (by decide) hb ?_
  obtain ⟨n1, hn1⟩ := h1
  obtain ⟨n2, hn2⟩ := h2
  refine ⟨max n1 n2, fun m hm g => ?_⟩
  have hco : ∀ r, carOr (.cons (nm f) r) = nm f := by intro r; simp [carOr, Sexp.car, nm]
  have e1 := hn1 m (by omega) g
  have e2 := hn2 m (by omega) g
  simp only [List.cons_append, List.nil_append] at e1 e2
  simp [scanWord, Sexp.car, Sexp.cdr, Sexp.toList, hco, mapG, scanBinding, e1, e2, form,
    Sexp.ofList]

/-- The parameters of the head are names of the program. -/
def Head.params : Head → List String
  | .name _ => []
  | .app h ps => ps ++ h.params

theorem curry_ok : ∀ (h : Head) (e : Src), (h.curry e).ok = true →
    e.ok = true ∧ h.params.all free = true
  | .name x, e, h => ⟨h, rfl⟩
  | .app h ps, e, he => by
    have := curry_ok h _ he
    simp only [Src.ok, okL, Bool.and_eq_true] at this
    refine ⟨this.1.2.1, ?_⟩
    simp only [Head.params, List.all_append, Bool.and_eq_true]
    exact ⟨this.1.1, this.2⟩

/-- The heads of definitions. -/
theorem parse_head : ∀ (h : Head) (r : Sexp) (e' : Src) {bound : List Sexp},
    h.ok = true → h.params.all free = true →
    (∀ bound, BoundOk bound → Scans str (.form (form "lambda" r)) bound e'.text) →
    BoundOk bound →
    Scans str (.parse (.ofList [h.text, form "lambda" r])) bound
      (.ofList [nm h.var, (h.curry e').text])
  | .name x, r, e', bound, _, _, hl, hb => by
    refine Scans.of ?_
    have := Ends.map (k := fun y => Sexp.ofList [nm x, y]) (hl bound hb)
    simpa [scanStep, Sexp.ofList, Sexp.car, Head.text, nm, Sexp.cdr, Head.var, Head.curry]
      using this
  | .app h ps, r, e', bound, ho, hc, hl, hb => by
    simp only [Head.ok, Bool.and_eq_true] at ho
    simp only [Head.params, List.all_append, Bool.and_eq_true] at hc
    have hin : ∀ bound, BoundOk bound →
        Scans str (.internals (.ofList [form "lambda" r])) bound e'.text := by
      intro bound hb
      exact internals_forms (es := [e']) (by simp [form, nm])
        (.cons (hl bound hb) .nil)
    have hlam := fun bound (hb : BoundOk bound) => Scans.lambda (doc := []) (str := str) ho.2 hc.1
      (by simp [docText, Sexp.ofList, form, skipHeader, isHeader, nm]) hin hb
    have := parse_head h (.cons (names ps) (.ofList [form "lambda" r])) (.lambda ps [e'])
      ho.1 hc.2 (fun bound hb => by simpa [docText] using hlam bound hb) hb
    refine Scans.of ?_
    unfold Scans at this
    simpa [scanStep, Sexp.ofList, Sexp.car, Head.text, Sexp.cdr, Head.var, Head.curry, form]
      using this

/-! ### All programs -/

theorem head_not_define {es : List ISrc} (ho : iokL str es = true) (r : Sexp) :
    (es.map ISrc.text).head? ≠ some (.cons (nm "define") r) := by
  cases es with
  | nil => simp
  | cons e es =>
    simp only [iokL, Bool.and_eq_true] at ho
    intro h
    simp only [List.map_cons, List.head?_cons, Option.some.injEq] at h
    exact (text_head ho.1 h).1 rfl

theorem outV_text (bs : List IBinding) :
    (bs.map fun b => bindValue b.text) =
      bs.map fun b => match b with
        | .plain _ => Sexp.nil
        | .forms _ es => form "progn" (itextL es) := by
  refine List.map_congr_left fun b _ => ?_
  cases b <;> simp [IBinding.text, bindValue, form, nm]

theorem bindVar_eq (b : IBinding) : bindVar b.text = nm b.out.var := by
  cases b <;> simp [IBinding.text, IBinding.out, bindVar, nm, Binding.var]

theorem body_text_list : ∀ b : Body, ∃ xs, b.text = .ofList xs
  | .mk defs es => by
    refine ⟨defs.map Def.text ++ es.map ISrc.text, ?_⟩
    simp only [Body.text]
    induction defs with
    | nil => simp [itextD, itextL_eq]
    | cons d ds ih => simp [itextD, Sexp.ofList, ih]

mutual
theorem scan_form : ∀ (e : ISrc), e.plain.ok = true → e.ok str = true → ∀ {bound : List Sexp},
    BoundOk bound → Scans str (.form e.text) bound e.out.text
  | .int n, _, _, _, _ => atom_scans (by simp [ISrc.text])
  | .empty, _, _, _, _ => atom_scans (by simp [ISrc.text])
  | .var x, _, _, _, _ => by
    simpa [ISrc.text, ISrc.out, Src.text] using atom_scans (x := nm x) (by simp [nm])
  | .quote d, _, _, bound, hb => Scans.quote hb
  | .lambda ps doc body, hp, ho, bound, hb => by
    simp only [ISrc.plain, Src.ok, Bool.and_eq_true] at hp
    simp only [ISrc.ok, Bool.and_eq_true] at ho
    have hpl : okL body.plain = true := by
      have : ∀ (l : List Int) (es : List Src), okL (l.map .int ++ es) = true → okL es = true := by
        intro l es h
        induction l with
        | nil => exact h
        | cons a l ih => simp only [List.map_cons, List.cons_append, okL, Bool.and_eq_true] at h; exact ih h.2
      exact this _ _ hp.2
    exact Scans.lambda ho.1.1 hp.1 (skip_body ho.1.2 ho.2)
      (fun bound hb => scan_internals body hpl ho.2 hb) hb
  | .call f args, hp, ho, bound, hb => by
    simp only [ISrc.plain, Src.ok, Bool.and_eq_true] at hp
    have ho' := ho
    simp only [ISrc.ok, Bool.and_eq_true] at ho'
    have := Scans.call hp.1 ho'.1 (scan_form f hp.1 ho'.1 hb) (scan_list args hp.2 ho'.2 hb)
    simpa [ISrc.text, ISrc.out, Src.text, itextL_eq, textL_eq'] using this
  | .setq x e, hp, ho, bound, hb => by
    simp only [ISrc.plain, Src.ok, Bool.and_eq_true] at hp
    simp only [ISrc.ok, Bool.and_eq_true] at ho
    exact Scans.setq hb (scan_form e hp.2 ho.2 hb)
  | .progn es, hp, ho, bound, hb => by
    simp only [ISrc.plain, Src.ok] at hp
    simp only [ISrc.ok] at ho
    have := Scans.progn hb (scan_list es hp ho hb)
    simpa [ISrc.text, ISrc.out, Src.text, itextL_eq, textL_eq'] using this
  | .cond cls, hp, ho, bound, hb => by
    simp only [ISrc.plain, Src.ok] at hp
    simp only [ISrc.ok] at ho
    have := Scans.cond hb (scan_clauses cls hp ho hb)
    simpa [ISrc.text, ISrc.out, Src.text, itextC_eq, textC_eq'] using this
  | .let bs body, hp, ho, bound, hb => by
    simp only [ISrc.plain, Src.ok, Bool.and_eq_true] at hp
    simp only [ISrc.ok, Bool.and_eq_true] at ho
    have h1 := Ends.mapG (scan_bindings bs hp.1 ho.1 hb)
    have h2 := scan_internals body hp.2 ho.2 (bvars_bound hp.1 hb
      ((bs.map IBinding.text).map bindingVar).reverse
      (fun s hs => by simpa [binding_var_text] using hs))
    refine Scans.word (by decide) hb ?_
    have hcar : ∀ s, itextB bs ≠ .sym s := by
      intro s; cases bs <;> simp [itextB]
    obtain ⟨n1, hn1⟩ := h1
    obtain ⟨n2, hn2⟩ := h2
    refine ⟨max n1 n2, fun m hm g => ?_⟩
    simp only [scanWord, if_true, Sexp.car, Sexp.cdr]
    rw [itextB_eq, toList_ofList']
    simp only [Option.bind_some, hn1 m (by omega) g, hn2 m (by omega) g, Option.map_some,
      ISrc.out, Src.text, form, textB_eq', textL, Sexp.ofList]
  | .letStar bs body, hp, ho, bound, hb => by
    simp only [ISrc.plain, Src.ok, Bool.and_eq_true] at hp
    simp only [ISrc.ok, Bool.and_eq_true] at ho
    obtain ⟨bound', hb', n1, hn1⟩ := scan_star bs hp.1 ho.1 hb
    obtain ⟨n2, hn2⟩ := scan_internals body hp.2 ho.2 hb'
    refine Scans.word (by decide) hb ?_
    refine ⟨max n1 n2, fun m hm g => ?_⟩
    simp [scanWord, Sexp.car, Sexp.cdr, itextB_eq, toList_ofList', hn1 m (by omega) g,
      hn2 m (by omega) g, ISrc.out, Src.text, form, textB_eq', textL, Sexp.ofList]
  | .letrec bs body, hp, ho, bound, hb => by
    simp only [ISrc.plain, Src.ok, Bool.and_eq_true] at hp
    simp only [ISrc.ok, Bool.and_eq_true] at ho
    have hb2 := bvars_bound hp.1.1 hb ((bs.map IBinding.text).map carOr)
      (fun s hs => by simpa [binding_carOr_text] using hs)
    obtain ⟨n1, hn1⟩ := Ends.mapG (scan_bindings bs hp.1.1 ho.1 hb2)
    obtain ⟨n2, hn2⟩ := scan_internals body hp.2 ho.2 hb2
    refine Scans.word (by decide) hb ?_
    refine ⟨max n1 n2, fun m hm g => ?_⟩
    have e1 := hn1 m (by omega) g
    have e2 := hn2 m (by omega) g
    simp only [List.map_map] at e1 e2
    simp [scanWord, Sexp.car, Sexp.cdr, itextB_eq, toList_ofList', e1, e2, ISrc.out, Src.text,
      form, textB_eq', textL, Sexp.ofList]
  | .named f bs body, hp, ho, bound, hb => by
    simp only [ISrc.plain, Src.ok, Bool.and_eq_true] at hp
    simp only [ISrc.ok, Bool.and_eq_true] at ho
    have hvars : (bs.map fun b => b.out.var).all plainName = true := by
      have := ho.1.1.2
      clear hp ho hb
      induction bs with
      | nil => rfl
      | cons b bs ih =>
        simp only [iokB, Bool.and_eq_true] at this
        simp only [List.map_cons, List.all_cons, Bool.and_eq_true]
        refine ⟨?_, ih this.2⟩
        cases b with
        | plain x => exact this.1
        | forms x es => exact (Bool.and_eq_true _ _ ▸ this.1).1
    have hfv : (bs.map fun b => b.out.var).all free = true := by
      have := okB_names hp.1.2
      rw [plainB_var, outB_eq] at this
      simpa using this
    have hlam := fun {bound} (hb : BoundOk bound) => Scans.lambda (str := str) (doc := []) hvars hfv
      (skip_body (doc := []) ho.1.2 ho.2)
      (fun bound hb => scan_internals body hp.2 ho.2 hb) hb
    have hb2 : BoundOk ([nm f] ++ bound) :=
      hb.append (xs := [f]) (by simp [hp.1.1]) _ (by simp)
    have hvals := scan_values bs hp.1.2 ho.1.1.2 hb2
    have hcall := Scans.call (h := .var f) (str := str) (y := nm f) (bound := [nm f] ++ bound)
      (by simp [ISrc.plain, Src.ok, readable, hp.1.1]) ho.1.1.1
      (atom_scans (by simp [ISrc.text, nm])) hvals
    have hint := internals_forms (es := [.call (.var f) (outV bs)])
      (str := str) (bound := [nm f] ++ bound)
      (xs := [.cons (nm f) (.ofList (bs.map fun b => bindValue b.text))])
      (by
        intro r h
        simp only [List.head?_cons, Option.some.injEq, Sexp.cons.injEq] at h
        have hf : f = "define" := by simpa [nm] using h.1
        have := ho.1.1.1
        rw [hf] at this
        exact absurd this (by decide))
      (.cons (by simpa [Src.text, textL_eq', ISrc.text] using hcall) .nil)
    have hL := Scans.letrec1 hb (Scans.body (.cons (hlam hb2) .nil)) hint
    refine Scans.word (by decide) hb ?_
    obtain ⟨n, hn⟩ := hL
    refine ⟨n, fun m hm g => ?_⟩
    have hex : ((Sexp.cons (nm f) (.cons (itextB bs) body.text)).toList.bind (expand .let · g)) =
        some (form "letrec" (.cons (.cons (.cons (nm f) (.ofList
          [form "lambda" (.cons (names (bs.map fun b => b.out.var)) (docText [] body.text))]))
            .nil) (.ofList [.cons (nm f) (.ofList (bs.map fun b => bindValue b.text))])), g) := by
      obtain ⟨xs, hxs⟩ := body_text_list body
      rw [hxs, itextB_eq, show Sexp.cons (nm f) (.cons (.ofList (bs.map IBinding.text))
        (.ofList xs)) = .ofList (nm f :: .ofList (bs.map IBinding.text) :: xs) from rfl,
        toList_ofList']
      simp only [Option.bind_some, expand, expandLet, nm, List.headD_cons, toList_ofList',
        List.tail_cons, Option.map_some, docText, List.foldr_nil, Option.bind_eq_bind,
        Option.pure_def]
      have : (bs.map IBinding.text).map bindVar = (bs.map fun b => b.out.var).map nm := by
        simp only [List.map_map]
        exact List.map_congr_left fun b _ => bindVar_eq b
      rw [this]
      simp [form, names, nm, Sexp.ofList, Function.comp_def]
    have hlet : ∀ self : Task → List Sexp → Nat → Out, scanWord str self "let"
        (.cons (nm f) (.cons (itextB bs) body.text)) bound g =
        ((Sexp.cons (nm f) (.cons (itextB bs) body.text)).toList.bind (expand .let · g)).bind
          fun y => self (.form y.1) bound y.2 := by
      intro self
      simp only [scanWord, if_true, Sexp.car, nm]
    have h5 := hn m hm g
    simp only [hlet, hex, Option.bind_some]
    refine Eq.trans h5 ?_
    simp [ISrc.out, Src.text, form, textB, Binding.text, textL, Sexp.ofList, outB_eq,
      Function.comp_def, bodySrc]
  | .if c t [], hp, ho, bound, hb => by
    simp only [ISrc.plain, Src.ok, Bool.and_eq_true] at hp
    simp only [ISrc.ok, Bool.and_eq_true] at ho
    have := Scans.if2 hb (scan_form c hp.1.1 ho.1.1 hb) (scan_form t hp.1.2 ho.1.2 hb)
    simpa [ISrc.text, ISrc.out, Src.text, form, itextL, textC, Clause.text, textL, Sexp.ofList]
      using this
  | .if c t (e :: els), hp, ho, bound, hb => by
    simp only [ISrc.plain, Src.ok, Bool.and_eq_true] at hp
    simp only [ISrc.ok, Bool.and_eq_true] at ho
    have hc := scan_form c hp.1.1 ho.1.1 hb
    have ht := scan_form t hp.1.2 ho.1.2 hb
    have he := scan_list (e :: els) hp.2 ho.2 hb
    have htt : Scans str (.form (nm "t")) bound (nm "t") := atom_scans (by simp [nm])
    have := Scans.expands (k := .if) (w := "if") (xs := c.text :: t.text :: (e :: els).map ISrc.text)
      (x := form "cond" (.ofList [.ofList [c.text, t.text],
        .ofList (nm "t" :: (e :: els).map ISrc.text)])) (by decide) rfl (by decide) hb
      (fun g => rfl) (Scans.cond hb (.cons (Scans.body (.cons hc (.cons ht .nil)))
        (.cons (Scans.body (.cons htt he)) .nil)))
    simpa [ISrc.text, ISrc.out, Src.text, form, itextL_eq, textC, Clause.text, textL_eq', outL,
      textL, itextL, Sexp.ofList] using this
  | .case key cls, hp, ho, bound, hb => by
    simp only [ISrc.plain, Src.ok, Bool.and_eq_true] at hp
    simp only [ISrc.ok, Bool.and_eq_true] at ho
    obtain ⟨n1, hn1⟩ := scan_form key hp.1 ho.1 hb
    obtain ⟨n2, hn2⟩ := Ends.mapG (scan_cases cls hp.2 ho.2 hb)
    refine Scans.word (by decide) hb ?_
    refine ⟨max n1 n2, fun m hm g => ?_⟩
    simp [scanWord, Sexp.car, Sexp.cdr, itextK_eq, toList_ofList', hn1 m (by omega) g,
      hn2 m (by omega) g, ISrc.out, Src.text, form, textK_eq']
  | .when c body, hp, ho, bound, hb => by
    simp only [ISrc.plain, Src.ok, Bool.and_eq_true] at hp
    simp only [ISrc.ok, Bool.and_eq_true] at ho
    have := Scans.expands (k := .when) (w := "when") (xs := c.text :: body.map ISrc.text)
      (by decide) rfl (by decide) hb (fun g => rfl)
      (Scans.if2 hb (scan_form c hp.1 ho.1 hb) (Scans.progn hb (scan_list body hp.2 ho.2 hb)))
    simpa [ISrc.text, ISrc.out, Src.text, form, itextL_eq, textC, Clause.text, textL_eq',
      Sexp.ofList] using this
  | .unless c body, hp, ho, bound, hb => by
    simp only [ISrc.plain, Src.ok, Bool.and_eq_true] at hp
    simp only [ISrc.ok, Bool.and_eq_true] at ho
    have hnot := Scans.call (h := .var "not") (str := str) (y := nm "not") (bound := bound)
      (by decide) (by simp [ISrc.ok, plainName, words])
      (atom_scans (by simp [ISrc.text, nm])) (.cons (scan_form c hp.1 ho.1 hb) .nil)
    have := Scans.expands (k := .unless) (w := "unless") (xs := c.text :: body.map ISrc.text)
      (by decide) rfl (by decide) hb (fun g => rfl)
      (Scans.if2 hb hnot (Scans.progn hb (scan_list body hp.2 ho.2 hb)))
    simpa [ISrc.text, ISrc.out, Src.text, form, itextL_eq, textC, Clause.text, textL_eq',
      Sexp.ofList] using this
  | .or [], hp, ho, bound, hb => by
    have := Scans.expands (str := str) (k := .or) (w := "or") (xs := []) (x := nm "nil") (y := nm "nil")
      (by decide) rfl (by decide) hb (fun g => rfl) (atom_scans (by simp [nm]))
    simpa [ISrc.text, ISrc.out, Src.text, itextL, Sexp.ofList] using this
  | .or (e :: es), hp, ho, bound, hb => by
    simp only [ISrc.plain, Src.ok] at hp
    simp only [ISrc.ok] at ho
    have hl := scan_list (e :: es) hp ho hb
    have hcl : List.Forall₂ (fun x y => Scans str (.body x) bound y)
        (((e :: es).map ISrc.text).map fun x => .ofList [x])
        (((outL (e :: es)).map Src.text).map fun x => .ofList [x]) := by
      clear hp ho
      generalize (e :: es).map ISrc.text = xs at *
      generalize (outL (e :: es)).map Src.text = ys at *
      induction hl with
      | nil => exact .nil
      | cons h _ ih => exact .cons (Scans.body (.cons h .nil)) ih
    have := Scans.expands (k := .or) (w := "or") (xs := (e :: es).map ISrc.text)
      (by decide) rfl (by decide) hb (fun g => rfl) (Scans.cond hb hcl)
    have ht : ∀ (l : List ISrc), ((outL l).map Src.text).map (fun x => Sexp.ofList [x]) =
        (outO l).map Clause.text := by
      intro l
      induction l with
      | nil => simp [outL, outO]
      | cons a l ih => simp [outL, outO, Clause.text, textL, Sexp.ofList] at ih ⊢; exact ih
    rw [ht] at this
    simpa [ISrc.text, ISrc.out, Src.text, form, itextL_eq, textC_eq', outO] using this
  | .and es, hp, ho, bound, hb => by
    simp only [ISrc.plain, Src.ok] at hp
    simp only [ISrc.ok] at ho
    have := and_scans hb (scan_list es hp ho hb)
    simpa [ISrc.text, ISrc.out, itextL_eq] using this
theorem scan_list : ∀ (es : List ISrc), okL (plainL es) = true → iokL str es = true →
    ∀ {bound : List Sexp}, BoundOk bound →
    List.Forall₂ (fun x y => Scans str (.form x) bound y) (es.map ISrc.text)
      ((outL es).map Src.text)
  | [], _, _, _, _ => .nil
  | e :: es, hp, ho, bound, hb => by
    simp only [plainL, okL, Bool.and_eq_true] at hp
    simp only [iokL, Bool.and_eq_true] at ho
    exact .cons (scan_form e hp.1 ho.1 hb) (scan_list es hp.2 ho.2 hb)
theorem scan_internals : ∀ (b : Body), okL b.plain = true → b.ok str = true →
    ∀ {bound : List Sexp}, BoundOk bound → Scans str (.internals b.text) bound b.out.text
  | .mk [] es, hp, ho, bound, hb => by
    simp only [Body.plain] at hp
    simp only [Body.ok, iokD, Bool.true_and] at ho
    have := internals_forms (head_not_define ho) (scan_list es hp ho hb)
    have he : (Body.mk [] es).out = bodySrc (outL es) := by
      match es with
      | [] => simp [Body.out, outL, bodySrc]
      | [e] => simp [Body.out, outL, bodySrc]
      | e :: e2 :: es => simp [Body.out, outL, bodySrc]
    rw [he, Body.text, itextD, itextL_eq]
    exact this
  | .mk (d :: ds) es, hp, ho, bound, hb => by
    simp only [Body.plain, okL, Src.ok, Bool.and_eq_true, okB] at hp
    simp only [Body.ok, Bool.and_eq_true] at ho
    obtain ⟨n1, hn1⟩ := scan_defs (d :: ds) (by simp [plainD, okB, hp.1.1.1.1, hp.1.1.1.2])
      ho.1 hb (.ofList (es.map ISrc.text)) (by
        intro self g
        have hd := head_not_define ho.2
        generalize es.map ISrc.text = xs at hd
        match xs, hd with
        | [], _ => rfl
        | .cons a d :: xs, hd =>
          have : a ≠ nm "define" := by rintro rfl; exact hd d rfl
          simp [Sexp.ofList, scanDefs, this]
        | .nil :: xs, _ => rfl
        | .int _ :: xs, _ => rfl
        | .sym _ :: xs, _ => rfl)
    obtain ⟨n2, hn2⟩ := Scans.body (scan_list es hp.1.2 ho.2 hb)
    refine Scans.of ⟨max n1 n2, fun m hm g => ?_⟩
    simp only [scanStep, Body.text, itextL_eq, hn1 m (by omega) g, Option.bind_some,
      hn2 m (by omega) g, Option.map_some]
    have hb2 : ∀ l : List Def, ((outD l).map fun b => Sexp.ofList [nm b.var, (textL b.es).car]).map
        (fun d => Sexp.ofList [d.car, d.cdr.car]) = (outD l).map Binding.text := by
      intro l
      induction l with
      | nil => rfl
      | cons d l ih =>
        simp only [outD, List.map_cons, ih]
        congr 1
        cases d <;> simp [Def.out, Binding.text, Binding.var, Binding.es, textL, Sexp.car,
          Sexp.cdr, Sexp.ofList]
    rw [if_pos (by simp [outD]), hb2]
    simp [outD, Body.out, Src.text, form, textB_eq', textL_eq']
theorem scan_def : ∀ (d : Def), d.plain.ok = true → d.ok str = true →
    ∀ {bound : List Sexp}, BoundOk bound → 
    ∃ args, d.text = .cons (nm "define") args ∧
      Scans str (.parse args) bound (.ofList [nm d.out.var, (textL d.out.es).car])
  | .var x e, hp, ho, bound, hb => by
    simp only [Def.plain, Binding.ok, okL, Bool.and_eq_true] at hp
    simp only [Def.ok, Bool.and_eq_true] at ho
    refine ⟨_, rfl, Scans.of ?_⟩
    have := Ends.map (k := fun y => Sexp.ofList [nm x, y]) (scan_form e hp.2.1 ho.2 hb)
    simpa [scanStep, Sexp.car, Sexp.cdr, nm, Def.out, Binding.var, Binding.es, textL] using this
  | .fn h ps doc body, hp, ho, bound, hb => by
    simp only [Def.plain, Binding.ok, okL, Bool.and_eq_true] at hp
    simp only [Def.ok, Bool.and_eq_true] at ho
    obtain ⟨hlok, hpar⟩ := curry_ok h _ hp.2.1
    simp only [Src.ok, Bool.and_eq_true] at hlok
    have hpl : okL body.plain = true := by
      have : ∀ (l : List Int) (es : List Src), okL (l.map .int ++ es) = true → okL es = true := by
        intro l es h
        induction l with
        | nil => exact h
        | cons a l ih => simp only [List.map_cons, List.cons_append, okL, Bool.and_eq_true] at h; exact ih h.2
      exact this _ _ hlok.2
    have hl := fun bound (hb : BoundOk bound) => Scans.lambda (str := str) ho.1.1.2 hlok.1
      (skip_body ho.1.2 ho.2)
      (fun bound hb => scan_internals body hpl ho.2 hb) hb
    refine ⟨_, rfl, Scans.of ?_⟩
    have := parse_head h _ (.lambda ps (doc.map .int ++ [body.out])) ho.1.1.1 hpar hl hb
    unfold Scans at this
    simpa [scanStep, Sexp.car, Sexp.cdr, Def.out, Binding.var, Binding.es, textL, form] using this
theorem scan_defs : ∀ (ds : List Def), okB (plainD ds) = true → iokD str ds = true →
    ∀ {bound : List Sexp}, BoundOk bound → ∀ (rest : Sexp),
    (∀ self g, scanDefs self bound rest g = some ([], rest, g)) →
    ∃ n, ∀ m, n ≤ m → ∀ g, scanDefs (scan str m) bound (itextD ds rest) g =
      some ((outD ds).map fun b => Sexp.ofList [nm b.var, (textL b.es).car], rest, g)
  | [], _, _, _, _, rest, hr => ⟨0, fun m _ g => by simp [itextD, outD, hr]⟩
  | d :: ds, hp, ho, bound, hb, rest, hr => by
    simp only [plainD, okB, Bool.and_eq_true] at hp
    simp only [iokD, Bool.and_eq_true] at ho
    obtain ⟨args, ha, n1, hn1⟩ := scan_def d hp.1 ho.1 hb
    obtain ⟨n2, hn2⟩ := scan_defs ds hp.2 ho.2 hb rest hr
    refine ⟨max n1 n2, fun m hm g => ?_⟩
    simp only [itextD, ha, scanDefs, if_true, hn1 m (by omega) g, Option.bind_some,
      hn2 m (by omega) g, Option.map_some, outD, List.map_cons]
theorem scan_bindings : ∀ (bs : List IBinding), okB (plainB bs) = true → iokB str bs = true →
    ∀ {bound : List Sexp}, BoundOk bound →
    List.Forall₂ (fun x y => Ends (fun m g => scanBinding (scan str m) bound x g) y)
      (bs.map IBinding.text) ((outB bs).map Binding.text)
  | [], _, _, _, _ => .nil
  | .plain x :: bs, hp, ho, bound, hb => by
    simp only [plainB, okB, Bool.and_eq_true] at hp
    simp only [iokB, Bool.and_eq_true] at ho
    refine .cons ?_ (scan_bindings bs hp.2 ho.2 hb)
    simpa [IBinding.text, IBinding.out, Binding.text, scanBinding, nm] using Ends.const _
  | .forms x es :: bs, hp, ho, bound, hb => by
    simp only [plainB, okB, Bool.and_eq_true, IBinding.plain', Binding.ok] at hp
    simp only [iokB, Bool.and_eq_true, IBinding.ok] at ho
    refine .cons ?_ (scan_bindings bs hp.2 ho.2 hb)
    have := Ends.map (k := fun y => Sexp.cons (nm x) y)
      (Scans.body (scan_list es hp.1.2 ho.1.2 hb))
    simpa [IBinding.text, IBinding.out, Binding.text, scanBinding, itextL_eq, textL_eq'] using this
theorem scan_star : ∀ (bs : List IBinding), okB (plainB bs) = true → iokB str bs = true →
    ∀ {bound : List Sexp}, BoundOk bound →
    ∃ bound', BoundOk bound' ∧ ∃ n, ∀ m, n ≤ m → ∀ g,
      scanStar (scan str m) (bs.map IBinding.text) bound g =
        some ((outB bs).map Binding.text, bound', g)
  | [], _, _, bound, hb => ⟨bound, hb, 0, fun _ _ _ => rfl⟩
  | .plain x :: bs, hp, ho, bound, hb => by
    simp only [plainB, okB, Bool.and_eq_true, IBinding.plain', Binding.ok] at hp
    simp only [iokB, Bool.and_eq_true] at ho
    have hb2 : BoundOk ([nm x] ++ bound) := hb.append (xs := [x]) (by simp [hp.1]) _ (by simp)
    obtain ⟨b', hb', n, hn⟩ := scan_star bs hp.2 ho.2 hb2
    refine ⟨b', hb', n, fun m hm g => ?_⟩
    have := hn m hm g
    simp only [List.cons_append, List.nil_append, nm] at this
    simp [scanStar, IBinding.text, bindingVar, scanBinding, nm, this, outB, IBinding.out,
      Binding.text]
  | .forms x es :: bs, hp, ho, bound, hb => by
    simp only [plainB, okB, Bool.and_eq_true, IBinding.plain', Binding.ok] at hp
    simp only [iokB, Bool.and_eq_true, IBinding.ok] at ho
    have hb2 : BoundOk ([nm x] ++ bound) := hb.append (xs := [x]) (by simp [hp.1.1]) _ (by simp)
    obtain ⟨b', hb', n, hn⟩ := scan_star bs hp.2 ho.2 hb2
    obtain ⟨n2, hn2⟩ := Scans.body (scan_list es hp.1.2 ho.1.2 hb2)
    refine ⟨b', hb', max n n2, fun m hm g => ?_⟩
    have e1 := hn m (by omega) g
    have e2 := hn2 m (by omega) g
    simp only [List.cons_append, List.nil_append, nm] at e1 e2
    simp [scanStar, IBinding.text, bindingVar, scanBinding, nm, e1, e2, outB, IBinding.out,
      Binding.text, itextL_eq, textL_eq']
theorem scan_values : ∀ (bs : List IBinding), okB (plainB bs) = true → iokB str bs = true →
    ∀ {bound : List Sexp}, BoundOk bound →
    List.Forall₂ (fun x y => Scans str (.form x) bound y)
      (bs.map fun b => bindValue b.text) ((outV bs).map Src.text)
  | [], _, _, _, _ => .nil
  | .plain x :: bs, hp, ho, bound, hb => by
    simp only [plainB, okB, Bool.and_eq_true] at hp
    simp only [iokB, Bool.and_eq_true] at ho
    refine .cons ?_ (scan_values bs hp.2 ho.2 hb)
    simpa [IBinding.text, bindValue, nm, IBinding.outV', Src.text] using
      atom_scans (x := .nil) (by simp)
  | .forms x es :: bs, hp, ho, bound, hb => by
    simp only [plainB, okB, Bool.and_eq_true, IBinding.plain', Binding.ok] at hp
    simp only [iokB, Bool.and_eq_true, IBinding.ok] at ho
    refine .cons ?_ (scan_values bs hp.2 ho.2 hb)
    have := Scans.progn hb (scan_list es hp.1.2 ho.1.2 hb)
    simpa [IBinding.text, bindValue, IBinding.outV', Src.text, form, itextL_eq, textL_eq']
      using this
theorem scan_clauses : ∀ (cs : List IClause), okC (plainC cs) = true → iokC str cs = true →
    ∀ {bound : List Sexp}, BoundOk bound →
    List.Forall₂ (fun x y => Scans str (.body x) bound y)
      (cs.map IClause.text) ((outC cs).map Clause.text)
  | [], _, _, _, _ => .nil
  | .mk c es :: cs, hp, ho, bound, hb => by
    simp only [plainC, okC, Bool.and_eq_true, IClause.plain, Clause.ok] at hp
    simp only [iokC, Bool.and_eq_true, IClause.ok] at ho
    refine .cons ?_ (scan_clauses cs hp.2 ho.2 hb)
    have := Scans.body (.cons (scan_form c hp.1.1 ho.1.1 hb) (scan_list es hp.1.2 ho.1.2 hb))
    simpa [IClause.text, IClause.out, Clause.text, Sexp.ofList, itextL_eq, textL_eq'] using this
theorem scan_cases : ∀ (cs : List ICase), okK (plainK cs) = true → iokK str cs = true →
    ∀ {bound : List Sexp}, BoundOk bound →
    List.Forall₂ (fun x y => Ends (fun m g => scanClause (scan str m) bound x g) y)
      (cs.map ICase.text) ((outK cs).map CaseClause.text)
  | [], _, _, _, _ => .nil
  | .items is es :: cs, hp, ho, bound, hb => by
    simp only [plainK, okK, Bool.and_eq_true, ICase.plain, CaseClause.ok] at hp
    simp only [iokK, Bool.and_eq_true, ICase.ok] at ho
    refine .cons ?_ (scan_cases cs hp.2 ho.2 hb)
    have := Ends.map (k := fun y => Sexp.cons (.ofList is) y)
      (Scans.body (scan_list es hp.1.2 ho.1 hb))
    simpa [ICase.text, ICase.out, CaseClause.text, scanClause, Sexp.car, Sexp.cdr, itextL_eq,
      textL_eq'] using this
  | .otherwise es :: cs, hp, ho, bound, hb => by
    simp only [plainK, okK, Bool.and_eq_true, ICase.plain, CaseClause.ok] at hp
    simp only [iokK, Bool.and_eq_true, ICase.ok] at ho
    refine .cons ?_ (scan_cases cs hp.2 ho.2 hb)
    have := Ends.map (k := fun y => Sexp.cons (nm "t") y)
      (Scans.body (scan_list es hp.1.2 ho.1 hb))
    simpa [ICase.text, ICase.out, CaseClause.text, scanClause, Sexp.car, Sexp.cdr, itextL_eq,
      textL_eq'] using this
end

end Rep.Define
