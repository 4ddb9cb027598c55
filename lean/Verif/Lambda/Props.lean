import Verif.Lambda.Spec
import Mathlib.Data.List.Induction

/-
C56: parameters are bound as the manual says.
-/

namespace Rep.Lambda

open Spec

variable {Val Form St : Type} [DecidableEq Val]

/-! ### Keyword arguments -/

/-- An array of arguments, some already taken, and the list of those that are left. -/
inductive Arr (K : Val → Prop) : List (Option Val) → List Val → Prop
  | nil : Arr K [] []
  | one (a) : Arr K [some a] [a]
  | gone {l m} : Arr K l m → Arr K (none :: none :: l) m
  | pair {l m} (a v) : ¬ K v → Arr K l m → Arr K (some a :: some v :: l) (a :: v :: m)

theorem Arr.left {K : Val → Prop} {l : List (Option Val)} {m : List Val} (h : Arr K l m) : l.filterMap id = m := by
  induction h with
  | nil => rfl
  | one => rfl
  | gone _ ih => simpa using ih
  | pair a v _ _ ih => simp [ih]

theorem arr_of {K : Val → Prop} : ∀ {m : List Val}, (∀ i, i % 2 = 1 → ∀ v, m[i]? = some v → ¬ K v) → Arr K (m.map some) m
  | [], _ => .nil
  | [a], _ => .one a
  | a :: v :: m, h => by
    refine .pair a v (h 1 rfl v rfl) (arr_of fun i hi u hu => h (i + 2) (by omega) u ?_)
    simpa using hu

theorem findKey_skip {k : Val} {a : Option Val} (h : a ≠ some k) (l : List (Option Val)) :
    findKey k (a :: l) = (findKey k l).map fun r => (r.1, a :: r.2) := by
  cases l with
  | nil => cases a <;> simp [findKey]
  | cons b l =>
    cases a with
    | none => simp [findKey]
    | some a =>
      cases b with
      | none => simp [findKey]
      | some b =>
        rw [findKey]
        rw [if_neg (fun e => h (by rw [e]))]

theorem key1_skip {k : Val} {a : Option Val} (h : a ≠ some k) (l : List (Option Val)) :
    key1 k (a :: l) = (key1 k l).map fun r => (r.1, a :: r.2) := by
  cases l with
  | nil => simp [key1]
  | cons b l =>
    rw [key1, if_neg h]

/-- The three searches find what the specification says. -/
theorem keys_ok {K : Val → Prop} {k : Val} (hk : K k) {l : List (Option Val)} {m : List Val} (h : Arr K l m) :
    match takeKey k m with
    | none => findKey k l = none ∧ key1 k l = none ∧ key2 k l = none
    | some (v, m') => ∃ l', findKey k l = some (v, l') ∧ key1 k l = some (some v, l') ∧ key2 k l = some (some v, l') ∧ Arr K l' m' := by
  induction h with
  | nil => simp [takeKey, findKey, key1, key2]
  | one a => simp [takeKey, findKey, key1, key2]
  | @gone l m h ih =>
    rw [findKey_skip (by simp), findKey_skip (by simp), key1_skip (by simp), key1_skip (by simp), key2, if_neg (by simp)]
    cases ht : takeKey k m with
    | none =>
      rw [ht] at ih
      simp only at ih ⊢
      simp [ih.1, ih.2.1, ih.2.2]
    | some r =>
      obtain ⟨v, m'⟩ := r
      rw [ht] at ih
      simp only at ih ⊢
      obtain ⟨l', h1, h2, h3, h4⟩ := ih
      exact ⟨none :: none :: l', by simp [h1], by simp [h2], by simp [h3], .gone h4⟩
  | @pair l m a v hv h ih =>
    by_cases ha : a = k
    · rw [takeKey, if_pos ha]
      refine ⟨none :: none :: l, ?_, ?_, ?_, .gone h⟩
      · rw [findKey, if_pos ha]
      · rw [key1, if_pos (by rw [ha])]
      · rw [key2, if_pos (by rw [ha])]
    · have hvk : v ≠ k := fun e => hv (e ▸ hk)
      rw [takeKey, if_neg ha, findKey_skip (by simpa using ha), findKey_skip (by simpa using hvk),
        key1_skip (by simpa using ha), key1_skip (by simpa using hvk), key2, if_neg (by simpa using ha)]
      cases ht : takeKey k m with
      | none =>
        rw [ht] at ih
        simp only at ih
        simp [ih.1, ih.2.1, ih.2.2]
      | some r =>
        obtain ⟨u, m'⟩ := r
        rw [ht] at ih
        simp only [Option.map_some] at ih ⊢
        obtain ⟨l', h1, h2, h3, h4⟩ := ih
        exact ⟨some a :: some v :: l', by simp [h1], by simp [h2], by simp [h3], .pair a v hv h4⟩

/-! ### The interpreter -/

def cell : Given Val Form → Cell Val Form
  | .val v => .done (.val v)
  | .list l => .done (.list l)
  | .default d => Cell.default d

def cells (l : List (Nat × Given Val Form)) : List (Nat × Cell Val Form) := l.map fun p => (p.1, cell p.2)

theorem cells_append (a b : List (Nat × Given Val Form)) : cells (a ++ b) = cells a ++ cells b := by simp [cells]

theorem pass1_req (w : World Val Form St) (tail : Option Nat) (L : List (Item Form)) : ∀ (req : List Nat) (args : List Val)
    (vars : List (Nat × Cell Val Form)), pass1 w tail .required (req.map (fun s => Item.par s none) ++ L) (args.map some) vars =
      if args.length < req.length then .inl .missing
      else pass1 w tail .required L ((args.drop req.length).map some)
        (vars ++ cells ((req.zip args).map fun p => (p.1, .val p.2)))
  | [], args, vars => by simp [cells]
  | s :: req, [], vars => by simp [pass1]
  | s :: req, a :: args, vars => by
    simp only [List.map_cons, List.cons_append, pass1]
    rw [pass1_req w tail L req args]
    simp [cells, cell]

theorem pass1_opt (w : World Val Form St) (tail : Option Nat) (L : List (Item Form)) : ∀ (opt : List (Nat × Option Form)) (args : List Val)
    (vars : List (Nat × Cell Val Form)), pass1 w tail .optional (opt.map (fun p => Item.par p.1 p.2) ++ L) (args.map some) vars =
      pass1 w tail .optional L ((optionals opt args).2.map some) (vars ++ cells (optionals opt args).1)
  | [], args, vars => by simp [optionals, cells]
  | (s, d) :: opt, [], vars => by
    have ih := pass1_opt w tail L opt [] (vars ++ [(s, .default d)])
    simp only [List.map_nil] at ih
    simp only [List.map_cons, List.cons_append, List.map_nil, pass1, optionals]
    rw [ih]
    simp [cells, cell]
  | (s, d) :: opt, a :: args, vars => by
    simp only [List.map_cons, List.cons_append, pass1, optionals]
    rw [pass1_opt w tail L opt args]
    simp [cells, cell]

theorem pass1_key (w : World Val Form St) (tail : Option Nat) (L : List (Item Form)) {K : Val → Prop} :
    ∀ (key : List (Nat × Option Form)) (l : List (Option Val)) (m : List Val) (vars : List (Nat × Cell Val Form)),
      (∀ p ∈ key, K (w.kw p.1)) → Arr K l m →
      ∃ l', Arr K l' (keys w.kw key m).2 ∧ pass1 w tail .key (key.map (fun p => Item.par p.1 p.2) ++ L) l vars =
        pass1 w tail .key L l' (vars ++ cells (keys w.kw key m).1)
  | [], l, m, vars, _, h => ⟨l, h, by simp [keys, cells]⟩
  | (s, d) :: key, l, m, vars, hK, h => by
    have hk := keys_ok (hK (s, d) (List.mem_cons_self ..)) h
    have hK' : ∀ p ∈ key, K (w.kw p.1) := fun p hp => hK p (List.mem_cons_of_mem _ hp)
    simp only [List.map_cons, List.cons_append, pass1, keys]
    cases ht : takeKey (w.kw s) m with
    | none =>
      rw [ht] at hk
      simp only at hk ⊢
      rw [hk.1]
      obtain ⟨l', h1, h2⟩ := pass1_key w tail L key l m (vars ++ [(s, .default d)]) hK' h
      refine ⟨l', h1, ?_⟩
      simp only
      rw [h2]
      simp [cells, cell]
    | some r =>
      obtain ⟨v, m'⟩ := r
      rw [ht] at hk
      simp only at hk ⊢
      obtain ⟨l1, e1, _, _, h1⟩ := hk
      rw [e1]
      obtain ⟨l', h2, h3⟩ := pass1_key w tail L key l1 m' (vars ++ [(s, .done (.val v))]) hK' h1
      refine ⟨l', h2, ?_⟩
      simp only
      rw [h3]
      simp [cells, cell]

theorem pass2_evaluate (w : World Val Form St) : ∀ (l : List (Nat × Given Val Form)) (st : St),
    pass2 w (cells l) st = evaluate w.eval l st
  | [], st => rfl
  | (s, g) :: l, st => by
    have ih := pass2_evaluate w l
    cases g with
    | val v =>
      rw [show cells ((s, Given.val v) :: l) = (s, .done (.val v)) :: cells l from rfl]
      simp only [pass2, evaluate, value, ih]
    | list v =>
      rw [show cells ((s, Given.list v) :: l) = (s, .done (.list v)) :: cells l from rfl]
      simp only [pass2, evaluate, value, ih]
    | default d =>
      cases d with
      | none =>
        rw [show cells ((s, Given.default none) :: l) = (s, .done .nil) :: cells l from rfl]
        simp only [pass2, evaluate, value, ih]
      | some f =>
        rw [show cells ((s, Given.default (some f)) :: l) = (s, .form f) :: cells l from rfl]
        simp only [pass2, evaluate, value]
        cases hv : w.eval f st with
        | mk v st' =>
          cases v with
          | none => rfl
          | some v => simp only [Option.map_some, ih]

/-- Pass 1 for a whole lambda list. -/
theorem pass1_all (w : World Val Form St) {g : Sig Form} {l : List (Item Form)} {tail : Option Nat} (hl : Lists g l tail)
    (args : List Val) (ha : Aligned w g args) :
    pass1 w tail .required l (args.map some) [] =
      if args.length < g.req.length then .inl .missing else .inr (cells (assign w.kw g args)) := by
  obtain @⟨o, k, r, tail, ho, hk, hr⟩ := hl
  rw [List.append_assoc, List.append_assoc, pass1_req]
  split
  · rfl
  · rename_i hlen
    simp only [List.nil_append]
    have hopt : ∀ (opt : List (Nat × Option Form)) (args : List Val), (optionals opt args).2 = args.drop opt.length := by
      intro opt
      induction opt with
      | nil => intro args; simp [optionals]
      | cons p opt ih =>
        intro args
        obtain ⟨s, d⟩ := p
        cases args with
        | nil => simp [optionals, ih]
        | cons a args => simp [optionals, ih]
    -- the end
    have hrest : ∀ (ph : Phase) (l : List (Option Val)) (m : List Val) (vars : List (Nat × Cell Val Form)), ph ≠ .rest →
        l.filterMap id = m → pass1 w tail ph r l vars = .inr (vars ++ cells (g.rest.toList.map fun s => (s, .list m))) := by
      intro ph l m vars hph hm
      rcases hr with ⟨s, h1, rfl, rfl⟩ | ⟨rfl, rfl⟩
      · rw [h1]
        cases ph with
        | rest => exact absurd rfl hph
        | required | optional | key => simp [pass1, cells, cell, hm]
      · cases hrs : g.rest with
        | none => simp [pass1, cells]
        | some s => simp [pass1, cells, cell, hm]
    have hkey : ∀ (ph : Phase) (m : List Val) (vars : List (Nat × Cell Val Form)), (ph = .required ∨ ph = .optional) →
        m = args.drop (g.req.length + g.opt.length) →
        pass1 w tail ph (k ++ r) (m.map some) vars =
          .inr (vars ++ cells (keys w.kw g.key m).1 ++ cells (g.rest.toList.map fun s => (s, .list (keys w.kw g.key m).2))) := by
      intro ph m vars hph hm
      rcases hk with rfl | ⟨rfl, hk⟩
      · have harr : Arr (fun v => ∃ p ∈ g.key, v = w.kw p.1) (m.map some) m := by
          refine arr_of fun i hi v hv => ?_
          rintro ⟨p, hp, rfl⟩
          subst hm
          exact ha i hi _ hv p hp rfl
        obtain ⟨l', h1, h2⟩ := pass1_key w tail r g.key (m.map some) m vars (fun p hp => ⟨p, hp, rfl⟩) harr
        have e : pass1 w tail ph (Item.key :: g.key.map (fun p => Item.par p.1 p.2) ++ r) (m.map some) vars =
            pass1 w tail .key (g.key.map (fun p => Item.par p.1 p.2) ++ r) (m.map some) vars := by
          rcases hph with rfl | rfl <;> simp [pass1]
        rw [e, h2, hrest .key l' _ _ (by decide) h1.left]
      · rw [hk]
        simp only [List.nil_append, keys]
        rw [hrest ph (m.map some) m vars (by rcases hph with rfl | rfl <;> decide) (by simp)]
        simp [cells]
    rcases ho with rfl | ⟨rfl, ho⟩
    · simp only [List.cons_append, pass1]
      rw [pass1_opt, hkey .optional _ _ (.inr rfl) (by rw [hopt, List.drop_drop])]
      simp [assign, cells_append]
    · rw [List.nil_append, hkey .required _ _ (.inl rfl) (by rw [ho]; simp)]
      simp [assign, cells_append, ho, optionals]

theorem lookup_reverse {β : Type} {l : List (Nat × β)} (h : (l.map (·.1)).Nodup) (x : Nat) :
    l.reverse.lookup x = l.lookup x := by
  induction l with
  | nil => rfl
  | cons p l ih =>
    obtain ⟨y, v⟩ := p
    rw [List.map_cons, List.nodup_cons] at h
    rw [List.reverse_cons, List.lookup_append, ih h.2]
    by_cases hx : x = y
    · subst hx
      have : l.lookup x = none := by
        rw [List.lookup_eq_none_iff]
        intro q hq
        simp only [beq_eq_false_iff_ne, ne_eq, bne_iff_ne, beq_iff_eq]
        intro e
        exact h.1 (List.mem_map.2 ⟨q, hq, by rw [e]⟩)
      rw [this]
      simp
    · simp [List.lookup, show (x == y) = false by simpa using hx]

theorem evaluate_names {eval : Form → St → Option Val × St} : ∀ {l : List (Nat × Given Val Form)} {st st' : St} {e : List (Nat × Bound Val)},
    evaluate eval l st = (some e, st') → e.map (·.1) = l.map (·.1)
  | [], st, st', e, h => by
    simp only [evaluate, value, Prod.mk.injEq, Option.some.injEq] at h
    rw [← h.1]
    rfl
  | (s, g) :: l, st, st', e, h => by
    rw [evaluate] at h
    split at h
    · cases h
    · rename_i b st1 hr
      cases he : evaluate eval l st1 with
      | mk r st2 =>
        rw [he] at h
        simp only [Prod.mk.injEq, Option.map_eq_some_iff] at h
        obtain ⟨⟨e', h1, h2⟩, _⟩ := h
        subst h1
        rw [← h2, List.map_cons, evaluate_names he]
        rfl

theorem optionals_names : ∀ (opt : List (Nat × Option Form)) (args : List Val), (optionals opt args).1.map (·.1) = opt.map (·.1)
  | [], _ => rfl
  | (s, d) :: opt, [] => by simp [optionals, optionals_names opt]
  | (s, d) :: opt, a :: args => by simp [optionals, optionals_names opt]

theorem keys_names (kw : Nat → Val) : ∀ (key : List (Nat × Option Form)) (args : List Val), (keys kw key args).1.map (·.1) = key.map (·.1)
  | [], _ => rfl
  | (s, d) :: key, args => by
    rw [keys]
    split <;> simp [keys_names kw key]

theorem assign_names (kw : Nat → Val) {g : Sig Form} {args : List Val} (h : ¬ args.length < g.req.length) :
    (assign kw g args).map (·.1) = g.names := by
  have e : List.map (Prod.fst ∘ fun (p : Nat × Val) => (p.1, (Given.val p.2 : Given Val Form))) (g.req.zip args) = g.req := by
    have : (Prod.fst ∘ fun (p : Nat × Val) => (p.1, (Given.val p.2 : Given Val Form))) = Prod.fst := rfl
    rw [this, List.map_fst_zip (by omega)]
  have e2 : List.map (Prod.fst ∘ fun s => (s, (Given.list (keys kw g.key (optionals g.opt (args.drop g.req.length)).2).2 : Given Val Form))) g.rest.toList =
      g.rest.toList := by
    cases g.rest <;> rfl
  simp only [assign, List.map_append, List.map_map, optionals_names, keys_names, Sig.names, e, e2]

/-- C56.  A call of an interpreted function with distinct parameters binds them as the manual says,
if no keyword of the function is among the arguments in the place of a value. -/
theorem C56_interpreted_partial (w : World Val Form St) {g : Sig Form} {l : List (Item Form)} {tail : Option Nat}
    (hl : Lists g l tail) (hn : g.names.Nodup) (args : List Val) (ha : Aligned w g args) (st : St) :
    Same (interpret w l tail args st).1 (call w g args st).1 ∧ (interpret w l tail args st).2 = (call w g args st).2 := by
  unfold interpret call
  rw [pass1_all w hl args ha]
  by_cases h : args.length < g.req.length
  · rw [if_pos h, if_pos h]
    exact ⟨trivial, rfl⟩
  · rw [if_neg h, if_neg h]
    simp only
    rw [pass2_evaluate]
    cases he : evaluate w.eval (assign w.kw g args) st with
    | mk r st' =>
      cases r with
      | none => exact ⟨trivial, rfl⟩
      | some e =>
        refine ⟨fun x => lookup_reverse ?_ x, rfl⟩
        rw [evaluate_names he, assign_names w.kw h]
        exact hn

/-! ### Compiled functions -/

/-- Some instructions. -/
def execTo (w : World Val Form St) : List (Ins Form) → Mach Val → St → (Res Val ⊕ Mach Val) × St
  | [], m, st => (.inr m, st)
  | i :: l, m, st =>
    match exec w m st i with
    | (.inl r, st') => (.inl r, st')
    | (.inr m', st') => execTo w l m' st'

theorem execTo_append (w : World Val Form St) (b : List (Ins Form)) : ∀ (a : List (Ins Form)) (m : Mach Val) (st : St),
    execTo w (a ++ b) m st =
      match execTo w a m st with
      | (.inl r, st') => (.inl r, st')
      | (.inr m', st') => execTo w b m' st'
  | [], m, st => rfl
  | i :: a, m, st => by
    simp only [List.cons_append, execTo]
    cases exec w m st i with
    | mk r st' =>
      cases r with
      | inl r => rfl
      | inr m' => exact execTo_append w b a m' st'

theorem execAll_execTo (w : World Val Form St) : ∀ (a : List (Ins Form)) (m : Mach Val) (st : St),
    execAll w a m st =
      match execTo w a m st with
      | (.inl r, st') => (r, st')
      | (.inr m', st') => (.bound m'.env, st')
  | [], m, st => rfl
  | i :: a, m, st => by
    simp only [execAll, execTo]
    cases exec w m st i with
    | mk r st' =>
      cases r with
      | inl r => rfl
      | inr m' => exact execAll_execTo w a m' st'

theorem evaluate_append (eval : Form → St → Option Val × St) (b : List (Nat × Given Val Form)) :
    ∀ (a : List (Nat × Given Val Form)) (st : St),
    evaluate eval (a ++ b) st =
      match evaluate eval a st with
      | (none, st') => (none, st')
      | (some x, st') => ((evaluate eval b st').1.map (x ++ ·), (evaluate eval b st').2)
  | [], st => by simp [evaluate, value]
  | (s, g) :: a, st => by
    rw [List.cons_append, evaluate, evaluate]
    generalize value eval st g = r
    obtain ⟨r, st'⟩ := r
    cases r with
    | none => rfl
    | some x =>
      simp only [evaluate_append eval b a st']
      cases evaluate eval a st' with
      | mk y st2 =>
        cases y with
        | none => rfl
        | some y => simp [Function.comp_def]

/-- What a section of the code does: it pushes the values of some parameters. -/
def Pushes (w : World Val Form St) (c : List (Ins Form)) (args args' : List (Option Val)) (gs : List (Nat × Given Val Form)) : Prop :=
  ∀ (stk : List (Slot Val)) (env : Env Val) (st : St), execTo w c ⟨args, stk, env⟩ st =
    match evaluate w.eval gs st with
    | (none, st') => (.inl .failed, st')
    | (some e, st') => (.inr ⟨args', (e.map fun p => Slot.b p.2).reverse ++ stk, env⟩, st')

theorem Pushes.append {w : World Val Form St} {c1 c2 : List (Ins Form)} {a1 a2 a3 : List (Option Val)}
    {g1 g2 : List (Nat × Given Val Form)} (h1 : Pushes w c1 a1 a2 g1) (h2 : Pushes w c2 a2 a3 g2) :
    Pushes w (c1 ++ c2) a1 a3 (g1 ++ g2) := by
  intro stk env st
  rw [execTo_append, h1, evaluate_append]
  cases evaluate w.eval g1 st with
  | mk x st1 =>
    cases x with
    | none => rfl
    | some x =>
      simp only
      rw [h2]
      cases evaluate w.eval g2 st1 with
      | mk y st2 =>
        cases y with
        | none => rfl
        | some y => simp

theorem Pushes.nil (w : World Val Form St) (a : List (Option Val)) : Pushes w [] a a [] := by
  intro stk env st
  simp [execTo, evaluate, value]

def reqCode (req : List Nat) : List (Ins Form) := req.map fun _ => .required

def optCode (opt : List (Nat × Option Form)) : List (Ins Form) := opt.flatMap fun p => parCode .optional p.1 p.2

def keyCode (key : List (Nat × Option Form)) : List (Ins Form) := key.flatMap fun p => parCode .key p.1 p.2

theorem req_short (w : World Val Form St) : ∀ (req : List Nat) (args : List Val) (stk : List (Slot Val)) (env : Env Val) (st : St),
    args.length < req.length → execTo w (reqCode req) ⟨args.map some, stk, env⟩ st = (.inl .missing, st)
  | [], args, _, _, _, h => by simp at h
  | s :: req, [], stk, env, st, _ => rfl
  | s :: req, a :: args, stk, env, st, h => by
    simp only [reqCode, List.map_cons, execTo, exec]
    exact req_short w req args _ env st (by simpa using h)

theorem req_pushes (w : World Val Form St) : ∀ (req : List Nat) (args : List Val), ¬ args.length < req.length →
    Pushes w (reqCode req) (args.map some) ((args.drop req.length).map some) ((req.zip args).map fun p => (p.1, .val p.2))
  | [], args, _ => by simpa [reqCode] using Pushes.nil w (args.map some)
  | s :: req, [], h => by simp at h
  | s :: req, a :: args, h => by
    have one : Pushes w (reqCode [s]) ((a :: args).map some) (args.map some) [(s, .val a)] := by
      intro stk env st
      simp [reqCode, execTo, exec, evaluate, value, ofOpt]
    exact one.append (req_pushes w req args (by simpa using h))

theorem opt_pushes (w : World Val Form St) : ∀ (opt : List (Nat × Option Form)) (args : List Val),
    Pushes w (optCode opt) (args.map some) ((optionals opt args).2.map some) (optionals opt args).1
  | [], args => by simpa [optCode, optionals] using Pushes.nil w (args.map some)
  | (s, d) :: opt, [] => by
    have one : Pushes w (parCode .optional s d) [] [] [(s, .default d)] := by
      intro stk env st
      cases d with
      | none => simp [parCode, execTo, exec, evaluate, value]
      | some f =>
        simp only [parCode, execTo, exec, evaluate, value]
        cases w.eval f st with
        | mk v st' => cases v <;> simp
    have ih := opt_pushes w opt []
    simp only [List.map_nil] at ih
    simpa [optCode, optionals] using one.append ih
  | (s, d) :: opt, a :: args => by
    have one : Pushes w (parCode .optional s d) ((a :: args).map some) (args.map some) [(s, .val a)] := by
      intro stk env st
      cases d <;> simp [parCode, execTo, exec, evaluate, value, ofOpt]
    simpa [optCode, optionals] using one.append (opt_pushes w opt args)

theorem key_pushes (w : World Val Form St) {K : Val → Prop} : ∀ (key : List (Nat × Option Form)) (l : List (Option Val)) (m : List Val),
    (∀ p ∈ key, K (w.kw p.1)) → Arr K l m →
    ∃ l', Arr K l' (keys w.kw key m).2 ∧ Pushes w (keyCode key) l l' (keys w.kw key m).1
  | [], l, m, _, h => ⟨l, h, by simpa [keyCode, keys] using Pushes.nil w l⟩
  | (s, d) :: key, l, m, hK, h => by
    have hk := keys_ok (hK (s, d) (List.mem_cons_self ..)) h
    have hK' : ∀ p ∈ key, K (w.kw p.1) := fun p hp => hK p (List.mem_cons_of_mem _ hp)
    simp only [keys]
    cases ht : takeKey (w.kw s) m with
    | none =>
      rw [ht] at hk
      simp only at hk ⊢
      have one : Pushes w (parCode .key s d) l l [(s, .default d)] := by
        intro stk env st
        cases d with
        | none => simp [parCode, execTo, exec, evaluate, value, hk.2.1]
        | some f =>
          simp only [parCode, execTo, exec, evaluate, value, hk.2.2]
          cases w.eval f st with
          | mk v st' => cases v <;> simp
      obtain ⟨l', h1, h2⟩ := key_pushes w key l m hK' h
      exact ⟨l', h1, by simpa [keyCode] using one.append h2⟩
    | some r =>
      obtain ⟨v, m'⟩ := r
      rw [ht] at hk
      simp only at hk ⊢
      obtain ⟨l1, _, e1, e2, h1⟩ := hk
      have one : Pushes w (parCode .key s d) l l1 [(s, .val v)] := by
        intro stk env st
        cases d <;> simp [parCode, execTo, exec, evaluate, value, ofOpt, e1, e2]
      obtain ⟨l', h2, h3⟩ := key_pushes w key l1 m' hK' h1
      exact ⟨l', h2, by simpa [keyCode] using one.append h3⟩

theorem binds_ok (w : World Val Form St) (args : List (Option Val)) : ∀ (e : List (Nat × Bound Val)) (env : Env Val) (st : St),
    execAll w ((e.map (·.1)).reverse.map Ins.bind) ⟨args, (e.map fun p => Slot.b p.2).reverse, env⟩ st = (.bound (e ++ env), st) := by
  intro e
  induction e using List.reverseRecOn with
  | nil => intro env st; rfl
  | append_singleton e p ih =>
    intro env st
    simp only [List.map_append, List.map_cons, List.map_nil, List.reverse_append, List.reverse_cons, List.reverse_nil, List.nil_append,
      List.cons_append, execAll, exec]
    rw [ih]
    simp

theorem spec_par (tail : Option Nat) (ph : Phase) (L : List (Item Form)) : ∀ (ps : List (Nat × Option Form)) (vars : List Nat),
    specCode tail ph (ps.map (fun p => Item.par p.1 p.2) ++ L) vars =
      (specCode tail ph L ((ps.map (·.1)).reverse ++ vars)).map (ps.flatMap (fun p => parCode ph p.1 p.2) ++ ·)
  | [], vars => by simp
  | (s, d) :: ps, vars => by
    simp only [List.map_cons, List.cons_append, specCode]
    rw [spec_par tail ph L ps]
    simp [Function.comp_def]

/-- The code of a whole lambda list. -/
theorem code_all {g : Sig Form} {l : List (Item Form)} {tail : Option Nat} (hl : Lists g l tail) :
    specCode tail .required l [] =
      some (reqCode g.req ++ optCode g.opt ++ keyCode g.key ++ g.rest.toList.map (fun _ => Ins.rest) ++ g.names.reverse.map .bind) := by
  obtain @⟨o, k, r, tail, ho, hk, hr⟩ := hl
  have hrest : ∀ (ph : Phase) (vars : List Nat), ph ≠ .rest → specCode tail ph r vars =
      some (g.rest.toList.map (fun _ => Ins.rest) ++ (g.rest.toList ++ vars).map .bind) := by
    intro ph vars hph
    rcases hr with ⟨s, h1, rfl, rfl⟩ | ⟨rfl, rfl⟩
    · rw [h1]
      simp [specCode, parCode]
    · cases hrs : g.rest <;> simp [specCode]
  have hkey : ∀ (ph : Phase) (vars : List Nat), ph ≠ .rest → specCode tail ph (k ++ r) vars =
      some (keyCode g.key ++ (g.rest.toList.map (fun _ => Ins.rest) ++ (g.rest.toList ++ ((g.key.map (·.1)).reverse ++ vars)).map .bind)) := by
    intro ph vars hph
    rcases hk with rfl | ⟨rfl, hk⟩
    · simp only [List.cons_append, specCode]
      rw [spec_par, hrest .key _ (by decide)]
      rfl
    · rw [hk, List.nil_append, hrest ph _ hph]
      simp [keyCode]
  have hreq : g.req.map (fun s => (Item.par s none : Item Form)) = (g.req.map fun s => (s, none)).map fun p => Item.par p.1 p.2 := by
    simp
  have hreq2 : (g.req.map fun s => ((s, none) : Nat × Option Form)).flatMap (fun p => parCode .required p.1 p.2) = reqCode g.req := by
    induction g.req with
    | nil => rfl
    | cons s req ih =>
      simp only [List.map_cons, List.flatMap_cons, ih]
      rfl
  have hreq3 : (g.req.map fun s => ((s, none) : Nat × Option Form)).map (·.1) = g.req := by
    rw [List.map_map]
    exact List.map_id g.req
  rw [List.append_assoc, List.append_assoc, hreq, spec_par, hreq2, hreq3]
  have hrr : g.rest.toList.reverse = g.rest.toList := by cases g.rest <;> rfl
  rcases ho with rfl | ⟨rfl, ho⟩
  · simp only [List.cons_append, specCode]
    rw [spec_par, hkey .optional _ (by decide)]
    simp [Sig.names, optCode, hrr]
  · rw [List.nil_append, hkey .required _ (by decide)]
    simp [Sig.names, optCode, ho, hrr]

/-- C56.  The same for compiled functions. -/
theorem C56_compiled_partial (w : World Val Form St) {g : Sig Form} {l : List (Item Form)} {tail : Option Nat}
    (hl : Lists g l tail) (args : List Val) (ha : Aligned w g args) (st : St) :
    compiled w l tail args st = call w g args st := by
  unfold compiled call
  rw [code_all hl]
  simp only
  rw [execAll_execTo, List.append_assoc, List.append_assoc, List.append_assoc]
  by_cases h : args.length < g.req.length
  · rw [if_pos h, execTo_append, req_short w g.req args [] [] st h]
  · rw [if_neg h]
    have hopt : ∀ (opt : List (Nat × Option Form)) (args : List Val), (optionals opt args).2 = args.drop opt.length := by
      intro opt
      induction opt with
      | nil => intro args; simp [optionals]
      | cons p opt ih =>
        intro args
        obtain ⟨s, d⟩ := p
        cases args with
        | nil => simp [optionals, ih]
        | cons a args => simp [optionals, ih]
    have harr : Arr (fun v => ∃ p ∈ g.key, v = w.kw p.1) ((optionals g.opt (args.drop g.req.length)).2.map some)
        (optionals g.opt (args.drop g.req.length)).2 := by
      refine arr_of fun i hi v hv => ?_
      rintro ⟨p, hp, rfl⟩
      rw [hopt, List.drop_drop] at hv
      exact ha i hi _ hv p hp rfl
    obtain ⟨l', hl', h3⟩ := key_pushes w g.key _ _ (fun p hp => ⟨p, hp, rfl⟩) harr
    have h4 : ∃ l'', Pushes w (g.rest.toList.map (fun _ => Ins.rest)) l' l''
        (g.rest.toList.map fun s => (s, Given.list (keys w.kw g.key (optionals g.opt (args.drop g.req.length)).2).2)) := by
      cases g.rest with
      | none => exact ⟨l', Pushes.nil w l'⟩
      | some s =>
        refine ⟨[], fun stk env st => ?_⟩
        simp [execTo, exec, evaluate, value, hl'.left]
    obtain ⟨l'', h4⟩ := h4
    have all := ((req_pushes w g.req args h).append (opt_pushes w g.opt (args.drop g.req.length))).append h3 |>.append h4
    rw [← List.append_assoc, ← List.append_assoc, ← List.append_assoc, execTo_append, all]
    rw [show (g.req.zip args).map (fun p => (p.1, Given.val p.2)) ++ (optionals g.opt (args.drop g.req.length)).1 ++
      (keys w.kw g.key (optionals g.opt (args.drop g.req.length)).2).1 ++
      g.rest.toList.map (fun s => (s, Given.list (keys w.kw g.key (optionals g.opt (args.drop g.req.length)).2).2)) = assign w.kw g args from rfl]
    cases he : evaluate w.eval (assign w.kw g args) st with
    | mk r st' =>
      cases r with
      | none => rfl
      | some e =>
        have hn : e.map (·.1) = g.names := by rw [evaluate_names he, assign_names w.kw h]
        have hb := binds_ok w l'' e [] st'
        rw [execAll_execTo, hn] at hb
        simp only [List.append_nil] at hb ⊢
        exact hb

/-! ### Inline lambda expressions -/

theorem inline_req (tail : Option Nat) (L : List (Item Form)) : ∀ (req : List Nat) (i : Inline Form),
    inlineArgs tail .required (req.map (fun s => Item.par s none) ++ L) i =
      if i.left < req.length then none
      else inlineArgs tail .required L { i with binds := (req.map Bnd.one).reverse ++ i.binds, left := i.left - req.length }
  | [], i => by simp
  | s :: req, i => by
    simp only [List.map_cons, List.cons_append, inlineArgs, Option.isSome_none, Bool.false_eq_true, or_false]
    by_cases h : i.left = 0
    · rw [if_pos h, if_pos (by simp [h])]
    · rw [if_neg h, inline_req tail L req]
      simp only [List.length_cons]
      by_cases h2 : i.left - 1 < req.length
      · rw [if_pos h2, if_pos (by omega)]
      · rw [if_neg h2, if_neg (by omega)]
        simp [Nat.sub_sub, Nat.add_comm]

theorem inline_opt (tail : Option Nat) (L : List (Item Form)) : ∀ (opt : List (Nat × Option Form)) (i : Inline Form),
    inlineArgs tail .optional (opt.map (fun p => Item.par p.1 p.2) ++ L) i =
      inlineArgs tail .optional L
        { pushes := i.pushes ++ (opt.drop i.left).map (·.2)
          binds := (opt.map fun p => Bnd.one p.1).reverse ++ i.binds
          left := i.left - opt.length }
  | [], i => by simp
  | (s, d) :: opt, i => by
    simp only [List.map_cons, List.cons_append, inlineArgs]
    by_cases h : i.left = 0
    · rw [if_pos h, inline_opt tail L opt]
      simp [h]
    · obtain ⟨n, hn⟩ := Nat.exists_eq_succ_of_ne_zero h
      rw [if_neg h, inline_opt tail L opt]
      simp [hn]

/-- What the compiler does with a lambda list without keyword parameters. -/
theorem inline_all {g : Sig Form} {l : List (Item Form)} {tail : Option Nat} (hl : Lists g l tail) (hk : g.key = []) (hk' : Item.key ∉ l)
    (n : Nat) : inlineArgs tail .required l ⟨[], [], n⟩ =
      if n < g.req.length then none
      else some
        { pushes := (g.opt.drop (n - g.req.length)).map (·.2)
          binds := (g.rest.toList.map fun s => Bnd.many s (n - g.req.length - g.opt.length)) ++
            ((g.opt.map fun p => Bnd.one p.1).reverse ++ (g.req.map Bnd.one).reverse)
          left := if g.rest.isSome then 0 else n - g.req.length - g.opt.length } := by
  obtain @⟨o, k, r, tail, ho, hk2, hr⟩ := hl
  obtain rfl : k = [] := by
    rcases hk2 with rfl | ⟨rfl, _⟩
    · simp at hk'
    · rfl
  have hrest : ∀ (ph : IPhase) (i : Inline Form), inlineArgs tail ph r i =
      some { i with
        binds := (g.rest.toList.map fun s => Bnd.many s i.left) ++ i.binds
        left := if g.rest.isSome then 0 else i.left } := by
    intro ph i
    rcases hr with ⟨s, h1, rfl, rfl⟩ | ⟨rfl, rfl⟩
    · rw [h1]
      simp [inlineArgs]
    · cases hrs : g.rest <;> simp [inlineArgs]
  rw [List.append_assoc, List.append_assoc, List.nil_append, inline_req]
  simp only
  split
  · rfl
  · rcases ho with rfl | ⟨rfl, ho⟩
    · simp only [List.cons_append, inlineArgs]
      rw [inline_opt, hrest]
      simp
    · rw [List.nil_append, hrest]
      simp [ho]

theorem pushes_evaluate (w : World Val Form St) : ∀ (ps : List (Nat × Option Form)) (stk : List (Bound Val)) (st : St),
    runPushes w (ps.map (·.2)) stk st =
      match evaluate w.eval (ps.map fun p => (p.1, Given.default p.2)) st with
      | (none, st') => (none, st')
      | (some e, st') => (some ((e.map (·.2)).reverse ++ stk), st')
  | [], stk, st => by simp [runPushes, evaluate]
  | (s, none) :: ps, stk, st => by
    simp only [List.map_cons, runPushes, evaluate, value]
    rw [pushes_evaluate w ps]
    cases evaluate w.eval (ps.map fun p => (p.1, Given.default p.2)) st with
    | mk r st' => cases r <;> simp
  | (s, some f) :: ps, stk, st => by
    simp only [List.map_cons, runPushes, evaluate, value]
    cases w.eval f st with
    | mk v st1 =>
      cases v with
      | none => rfl
      | some v =>
        simp only [Option.map_some]
        rw [pushes_evaluate w ps]
        cases evaluate w.eval (ps.map fun p => (p.1, Given.default p.2)) st1 with
        | mk r st' => cases r <;> simp

theorem evaluate_vals (eval : Form → St → Option Val × St) (st : St) : ∀ (l : List (Nat × Val)),
    evaluate eval (l.map fun p => (p.1, Given.val p.2)) st = (some (l.map fun p => (p.1, .val p.2)), st)
  | [] => rfl
  | (s, v) :: l => by
    simp only [List.map_cons, evaluate, value, evaluate_vals eval st l]
    rfl

theorem optionals_few : ∀ (opt : List (Nat × Option Form)) (args : List Val), args.length ≤ opt.length →
    optionals opt args = (((opt.map (·.1)).zip args).map (fun p => (p.1, Given.val p.2)) ++
      (opt.drop args.length).map (fun p => (p.1, Given.default p.2)), [])
  | [], args, h => by
    have : args = [] := List.eq_nil_of_length_eq_zero (by simpa using h)
    simp [optionals, this]
  | (s, d) :: opt, [], _ => by simp [optionals, optionals_few opt []]
  | (s, d) :: opt, a :: args, h => by simp [optionals, optionals_few opt args (by simpa using h)]

theorem optionals_many : ∀ (opt : List (Nat × Option Form)) (args : List Val), opt.length ≤ args.length →
    optionals opt args = (((opt.map (·.1)).zip args).map (fun p => (p.1, Given.val p.2)), args.drop opt.length)
  | [], args, h => by simp [optionals]
  | (s, d) :: opt, [], h => by simp at h
  | (s, d) :: opt, a :: args, h => by simp [optionals, optionals_many opt args (by simpa using h)]

theorem runBinds_ones (L : List Bnd) : ∀ (e : List (Nat × Bound Val)) (stk : List (Bound Val)) (env : Env Val),
    runBinds (((e.map fun p => Bnd.one p.1).reverse) ++ L) ((e.map (·.2)).reverse ++ stk) env = runBinds L stk (e ++ env) := by
  intro e
  induction e using List.reverseRecOn with
  | nil => intro stk env; rfl
  | append_singleton e p ih =>
    intro stk env
    simp only [List.map_append, List.map_cons, List.map_nil, List.reverse_append, List.reverse_cons, List.reverse_nil, List.nil_append,
      List.cons_append, runBinds]
    rw [ih]
    simp

theorem consUp_ok (stk : List (Bound Val)) : ∀ (l : List Val) (acc : List Val),
    consUp l.length (l.map Bound.val ++ stk) acc = some (l.reverse ++ acc, stk)
  | [], acc => rfl
  | v :: l, acc => by
    simp only [List.length_cons, List.map_cons, List.cons_append, consUp]
    rw [consUp_ok stk l]
    simp

/-- C56.  The same for an inline lambda expression that the compiler accepts, if there are not more
arguments than parameters or there is a rest parameter. -/
theorem C56_inlined_partial (w : World Val Form St) {g : Sig Form} {l : List (Item Form)} {tail : Option Nat} (hl : Lists g l tail)
    (hk : g.key = []) (hk' : Item.key ∉ l) (args : List Val)
    (hmax : g.rest.isSome = true ∨ args.length ≤ g.req.length + g.opt.length) (st : St) :
    (args.length < g.req.length ∧ inlined w l tail args st = none) ∨
    (g.req.length ≤ args.length ∧ inlined w l tail args st = some (call w g args st)) := by
  unfold inlined
  rw [inline_all hl hk hk']
  by_cases h : args.length < g.req.length
  · rw [if_pos h]
    exact .inl ⟨h, rfl⟩
  · refine .inr ⟨by omega, ?_⟩
    rw [if_neg h]
    unfold call
    rw [if_neg h]
    simp only
    rcases Nat.lt_or_ge (args.length - g.req.length) (g.opt.length + 1) with hfew | hmany
    · -- no arguments are left
      have ho := optionals_few g.opt (args.drop g.req.length) (by rw [List.length_drop]; omega)
      rw [pushes_evaluate]
      have hassign : assign w.kw g args =
          ((g.req ++ g.opt.map (·.1)).zip args).map (fun p => (p.1, Given.val p.2)) ++
            ((g.opt.drop (args.length - g.req.length)).map (fun p => (p.1, Given.default p.2)) ++
              g.rest.toList.map fun s => (s, Given.list [])) := by
        simp only [assign, ho, hk, keys]
        have e : (g.req ++ g.opt.map (·.1)).zip args = g.req.zip args ++ (g.opt.map (·.1)).zip (args.drop g.req.length) := by
          conv => lhs; rw [← List.take_append_drop g.req.length args]
          rw [List.zip_append (by rw [List.length_take]; omega)]
          congr 1
          rw [List.zip_eq_zip_take_min (l₁ := g.req) (l₂ := args), Nat.min_eq_left (by omega), List.take_length]
        rw [e]
        simp
      rw [hassign, evaluate_append, evaluate_vals]
      simp only
      rw [evaluate_append]
      cases hev : evaluate w.eval ((g.opt.drop (args.length - g.req.length)).map fun p => (p.1, Given.default p.2)) st with
      | mk r st' =>
        cases r with
        | none => rfl
        | some e =>
          simp only
          have hrest : evaluate w.eval (g.rest.toList.map fun s => (s, (Given.list [] : Given Val Form))) st' =
              (some (g.rest.toList.map fun s => (s, .list [])), st') := by
            cases g.rest <;> simp [evaluate, value]
          rw [hrest]
          simp only [Option.map_some]
          have hn : args.length - g.req.length - g.opt.length = 0 := by omega
          have hen := evaluate_names hev
          have key : ∀ env : Env Val, runBinds ((g.opt.map fun p => Bnd.one p.1).reverse ++ (g.req.map Bnd.one).reverse)
              ((e.map (·.2)).reverse ++ args.reverse.map .val) env =
              some (((g.req ++ g.opt.map (·.1)).zip args).map (fun p => (p.1, .val p.2)) ++ e ++ env, []) := by
            intro env
            have := runBinds_ones (Val := Val) [] (((g.req ++ g.opt.map (·.1)).zip args).map (fun p => (p.1, Bound.val p.2)) ++ e) [] env
            simp only [List.append_nil, runBinds] at this
            rw [← this]
            congr 1
            · rw [List.map_append, List.reverse_append, List.map_map]
              have e1 : e.map (fun p => Bnd.one p.1) = ((g.opt.drop (args.length - g.req.length)).map (fun p => Bnd.one p.1)) := by
                have := congrArg (List.map Bnd.one) hen
                simpa [Function.comp_def] using this
              have e2 : ((g.req ++ g.opt.map (·.1)).zip args).map ((fun p => Bnd.one p.1) ∘ fun p => (p.1, Bound.val p.2)) =
                  (g.req ++ (g.opt.take (args.length - g.req.length)).map (·.1)).map Bnd.one := by
                have : ((fun p : Nat × Bound Val => Bnd.one p.1) ∘ fun p : Nat × Val => (p.1, Bound.val p.2)) = Bnd.one ∘ Prod.fst := rfl
                rw [this, ← List.map_map]
                congr 1
                rw [List.zip_eq_zip_take_min, List.map_fst_zip (by simp only [List.length_take]; omega)]
                simp only [List.length_append, List.length_map]
                rw [Nat.min_eq_right (by omega), List.take_append, List.take_of_length_le (by omega), List.map_take]
              rw [e1, e2, ← List.reverse_append, ← List.reverse_append]
              congr 1
              simp only [List.map_append, List.append_assoc, List.map_map]
              congr 1
              rw [show (Bnd.one ∘ fun x : Nat × Option Form => x.1) = fun p => Bnd.one p.1 from rfl, ← List.map_append,
                List.take_append_drop]
            · rw [List.map_append, List.reverse_append, List.map_map]
              congr 1
              have : ((fun p : Nat × Bound Val => p.2) ∘ fun p : Nat × Val => (p.1, Bound.val p.2)) = Bound.val ∘ Prod.snd := rfl
              rw [this, ← List.map_map, List.map_snd_zip (by simp; omega), List.map_reverse]
          cases hg : g.rest with
          | none =>
            simp only [Option.toList_none, List.map_nil, List.nil_append, key]
            simp
          | some s =>
            simp only [Option.toList_some, List.map_cons, List.map_nil, List.cons_append, List.nil_append, runBinds, hn, consUp, key]
            simp
    · -- a list of the arguments that are left
      have hrs : g.rest.isSome = true := by
        rcases hmax with h | h
        · exact h
        · omega
      obtain ⟨s, hs⟩ := Option.isSome_iff_exists.1 hrs
      have ho := optionals_many g.opt (args.drop g.req.length) (by rw [List.length_drop]; omega)
      have hp : g.opt.drop (args.length - g.req.length) = [] := List.drop_eq_nil_of_le (by omega)
      rw [hp]
      simp only [List.map_nil, runPushes]
      have hassign : assign w.kw g args =
          ((g.req ++ g.opt.map (·.1)).zip (args.take (g.req.length + g.opt.length))).map (fun p => (p.1, Given.val p.2)) ++
            [(s, Given.list (args.drop (g.req.length + g.opt.length)))] := by
        simp only [assign, ho, hk, keys, hs]
        have e : (g.req ++ g.opt.map (·.1)).zip (args.take (g.req.length + g.opt.length)) =
            g.req.zip args ++ (g.opt.map (·.1)).zip (args.drop g.req.length) := by
          rw [List.take_add, List.zip_append (by rw [List.length_take]; omega)]
          congr 1
          · rw [List.zip_eq_zip_take_min (l₁ := g.req) (l₂ := args), Nat.min_eq_left (by omega), List.take_length]
          · rw [List.zip_eq_zip_take_min (l₁ := g.opt.map (·.1)) (l₂ := args.drop g.req.length), Nat.min_eq_left (by simp; omega),
              List.take_of_length_le (Nat.le_refl _), List.length_map]
        rw [e]
        simp [List.drop_drop]
      rw [hassign, evaluate_append, evaluate_vals]
      simp only [evaluate, value, Option.map_some]
      rw [hs]
      simp only [Option.toList_some, List.map_cons, List.map_nil, List.cons_append, List.nil_append, runBinds]
      have hst : args.reverse.map Bound.val = ((args.drop (g.req.length + g.opt.length)).reverse).map Bound.val ++
          (((args.take (g.req.length + g.opt.length)).map Bound.val).reverse) := by
        conv => lhs; rw [← List.take_append_drop (g.req.length + g.opt.length) args]
        rw [List.reverse_append, List.map_append, List.map_reverse (l := args.take _)]
      have hlen : args.length - g.req.length - g.opt.length = (args.drop (g.req.length + g.opt.length)).reverse.length := by
        rw [List.length_reverse, List.length_drop]
        omega
      rw [hst, hlen, consUp_ok]
      simp only [List.reverse_reverse, List.append_nil]
      have := runBinds_ones (Val := Val) [] (((g.req ++ g.opt.map (·.1)).zip (args.take (g.req.length + g.opt.length))).map (fun p => (p.1, Bound.val p.2))) []
        [(s, .list (args.drop (g.req.length + g.opt.length)))]
      simp only [List.append_nil, runBinds, List.map_map] at this
      have e1 : ((g.req ++ g.opt.map (·.1)).zip (args.take (g.req.length + g.opt.length))).map ((fun p => Bnd.one p.1) ∘ fun p => (p.1, Bound.val p.2)) =
          (g.req ++ g.opt.map (·.1)).map Bnd.one := by
        have : ((fun p : Nat × Bound Val => Bnd.one p.1) ∘ fun p : Nat × Val => (p.1, Bound.val p.2)) = Bnd.one ∘ Prod.fst := rfl
        rw [this, ← List.map_map, List.map_fst_zip (by simp; omega)]
      have e2 : ((g.req ++ g.opt.map (·.1)).zip (args.take (g.req.length + g.opt.length))).map ((fun p => p.2) ∘ fun p => (p.1, Bound.val p.2)) =
          (args.take (g.req.length + g.opt.length)).map Bound.val := by
        have : ((fun p : Nat × Bound Val => p.2) ∘ fun p : Nat × Val => (p.1, Bound.val p.2)) = Bound.val ∘ Prod.snd := rfl
        rw [this, ← List.map_map, List.map_snd_zip (by simp; omega)]
      rw [e1, e2, List.map_append, List.reverse_append, List.map_map] at this
      rw [show (fun p : Nat × Option Form => Bnd.one p.1) = (Bnd.one ∘ fun x => x.1) from rfl, this]

/-! ### Cases -/

/-- Numbers are values, and forms that evaluate to themselves; -1, -2, … are the keywords of the
symbols 0, 1, …; the state counts evaluations. -/
def W : World Int Int Nat := ⟨fun n => -(n : Int) - 1, fun f st => (some f, st + 1)⟩

/-- `(0 #!optional (1 50) #!key 2 (3 60) #!rest 4)` -/
def ll : List (Item Int) := [.par 0 none, .opt, .par 1 (some 50), .key, .par 2 none, .par 3 (some 60), .rest, .par 4 none]

def sig : Sig Int := ⟨[0], [(1, some 50)], [(2, none), (3, some 60)], some 4⟩

/-- The hypotheses hold for it, with arguments `10 20 #:3 30 40`. -/
example : Lists sig ll none ∧ sig.names.Nodup ∧ Aligned W sig [10, 20, -4, 30, 40] := by
  refine ⟨?_, by decide, ?_⟩
  · exact .intro (o := [.opt, .par 1 (some 50)]) (k := [.key, .par 2 none, .par 3 (some 60)]) (r := [.rest, .par 4 none])
      (.inl rfl) (.inl rfl) (.inl ⟨4, rfl, rfl, rfl⟩)
  · intro i hi v hv p hp
    have hv : ([-4, 30, 40] : List Int)[i]? = some v := hv
    match i with
    | 1 =>
      simp only [List.getElem?_cons_succ, List.getElem?_cons_zero, Option.some.injEq] at hv
      subst hv
      revert p
      decide
    | i + 3 => simp at hv

example : call W sig [10, 20, -4, 30, 40] 0 =
    (.bound [(0, .val 10), (1, .val 20), (2, .nil), (3, .val 30), (4, .list [40])], 0) := by rfl

example : call W sig [10] 0 = (.bound [(0, .val 10), (1, .val 50), (2, .nil), (3, .val 60), (4, .list [])], 2) := by rfl

/-- `((lambda (0 #!optional 1 (2 50) . 3) …) 10 20)` and with `10 20 30 40 50`, inline. -/
example : Lists (⟨[0], [(1, none), (2, some 50)], [], some 3⟩ : Sig Int) [.par 0 none, .opt, .par 1 none, .par 2 (some 50)] (some 3) ∧
    inlined W [.par 0 none, .opt, .par 1 none, .par 2 (some 50)] (some 3) [10, 20] 0 =
      some (.bound [(0, .val 10), (1, .val 20), (2, .val 50), (3, .list [])], 1) ∧
    inlined W [.par 0 none, .opt, .par 1 none, .par 2 (some 50)] (some 3) [10, 20, 30, 40, 50] 0 =
      some (.bound [(0, .val 10), (1, .val 20), (2, .val 30), (3, .list [40, 50])], 0) :=
  ⟨.intro (g := ⟨[0], [(1, none), (2, some 50)], [], some 3⟩) (o := [.opt, .par 1 none, .par 2 (some 50)]) (k := []) (r := [])
    (.inl rfl) (.inr ⟨rfl, rfl⟩) (.inr ⟨rfl, rfl⟩), rfl, rfl⟩

/-- `(lambda (#!key a x) …)` called with `#:x #:a #:a 1`: the value `#:a` of `x` is taken for the
keyword (interpreted and compiled). -/
theorem C56_value_violated :
    let g : Sig Int := ⟨[], [], [(0, none), (1, none)], none⟩
    let l : List (Item Int) := [.key, .par 0 none, .par 1 none]
    Lists g l none ∧ call W g [-2, -1, -1, 7] 0 = (.bound [(0, .val 7), (1, .val (-1))], 0) ∧
    interpret W l none [-2, -1, -1, 7] 0 = (.bound [(1, .nil), (0, .val (-1))], 0) ∧
    compiled W l none [-2, -1, -1, 7] 0 = (.bound [(0, .val (-1)), (1, .null)], 0) := by
  refine ⟨?_, rfl, rfl, rfl⟩
  exact .intro (g := ⟨[], [], [(0, none), (1, none)], none⟩) (o := []) (k := [.key, .par 0 none, .par 1 none]) (r := []) (.inr ⟨rfl, rfl⟩)
    (.inl rfl) (.inr ⟨rfl, rfl⟩)

/-- `(lambda (#!key b) …)` called with `1 #:b 5`: `#:b` is not at the beginning of a pair, but `b` is
5; with a default (and compiled) it is not. -/
theorem C56_odd_violated :
    call W ⟨[], [], [(1, none)], none⟩ [1, -2, 5] 0 = (.bound [(1, .nil)], 0) ∧
    interpret W [.key, .par 1 none] none [1, -2, 5] 0 = (.bound [(1, .val 5)], 0) ∧
    compiled W [.key, .par 1 none] none [1, -2, 5] 0 = (.bound [(1, .val 5)], 0) ∧
    interpret W [.key, .par 1 (some 9)] none [1, -2, 5] 0 = (.bound [(1, .val 5)], 0) ∧
    compiled W [.key, .par 1 (some 9)] none [1, -2, 5] 0 = (.bound [(1, .val 9)], 1) := by
  exact ⟨rfl, rfl, rfl, rfl, rfl⟩

/-- `((lambda (a) …) 1 2)`, compiled inline, binds `a` to 2. -/
theorem C56_inline_violated :
    call W ⟨[0], [], [], none⟩ [1, 2] 0 = (.bound [(0, .val 1)], 0) ∧
    inlined W [.par 0 none] none [1, 2] 0 = some (.bound [(0, .val 2)], 0) := by
  exact ⟨rfl, rfl⟩

/-- With a name used twice the last one counts when interpreted and the first one when compiled. -/
theorem C56_twice_violated :
    interpret W [.par 0 none, .par 0 none] none [1, 2] 0 = (.bound [(0, .val 2), (0, .val 1)], 0) ∧
    compiled W [.par 0 none, .par 0 none] none [1, 2] 0 = (.bound [(0, .val 1), (0, .val 2)], 0) := by
  exact ⟨rfl, rfl⟩

end Rep.Lambda
