import Verif.Compile.Tags

/-
How states of the interpreter and of compiled code correspond.
-/

namespace Rep.Compile

/-! ### Execution -/

/-- So many instructions. -/
def run (P : Prims) (T : List (List I)) : Nat → MSt → Out
  | 0, m => .next m
  | n + 1, m => match step P T m with
    | .next m => run P T n m
    | o => o

/-- Execution reaches something. -/
def GoesTo (P : Prims) (T : List (List I)) (Q : Out → Prop) (m : MSt) : Prop :=
  ∃ n, Q (run P T n m)

theorem GoesTo.step {P : Prims} {T : List (List I)} {Q : Out → Prop} {m m' : MSt}
    (h : Compile.step P T m = .next m') (g : GoesTo P T Q m') : GoesTo P T Q m := by
  obtain ⟨n, hn⟩ := g
  exact ⟨n + 1, by simp only [run, h]; exact hn⟩

theorem GoesTo.err {P : Prims} {T : List (List I)} {Q : Out → Prop} {m : MSt} {e : Err} {st : TSt}
    (h : Compile.step P T m = .err e st) (g : Q (.err e st)) : GoesTo P T Q m :=
  ⟨1, by simp only [run, h]; exact g⟩

theorem GoesTo.done {P : Prims} {T : List (List I)} {Q : Out → Prop} {m : MSt} {v : TVal} {st : TSt}
    (h : Compile.step P T m = .done v st) (g : Q (.done v st)) : GoesTo P T Q m :=
  ⟨1, by simp only [run, h]; exact g⟩

/-! ### Places in code -/

/-- The instructions `k` are at `pc`. -/
def CodeAt (C : List I) (pc : Nat) (k : List I) : Prop :=
  ∃ pre post, C = pre ++ k ++ post ∧ pre.length = pc

theorem CodeAt.get {C : List I} {pc : Nat} {i : I} {k : List I} (h : CodeAt C pc (i :: k)) :
    C[pc]? = some i := by
  obtain ⟨pre, post, rfl, rfl⟩ := h
  simp

theorem CodeAt.left {C : List I} {pc : Nat} {a b : List I} (h : CodeAt C pc (a ++ b)) :
    CodeAt C pc a := by
  obtain ⟨pre, post, rfl, rfl⟩ := h
  exact ⟨pre, b ++ post, by simp, rfl⟩

theorem CodeAt.right {C : List I} {pc : Nat} {a b : List I} (h : CodeAt C pc (a ++ b)) :
    CodeAt C (pc + a.length) b := by
  obtain ⟨pre, post, rfl, rfl⟩ := h
  exact ⟨pre ++ a, post, by simp, by simp⟩

theorem CodeAt.tail {C : List I} {pc : Nat} {i : I} {k : List I} (h : CodeAt C pc (i :: k)) :
    CodeAt C (pc + 1) k :=
  CodeAt.right (a := [i]) h

/-- A label is where it is. -/
theorem label_pos {C : List I} {H : Nat → Bool} {b p l : Nat} (hn : (labelsOf C).Nodup)
    (h : C[p]? = some (.label l)) :
    (C.map (alloc H b)).findIdx? (· == .label l) = some p := by
  induction C generalizing p with
  | nil => simp at h
  | cons i C ih =>
    rw [List.map_cons, List.findIdx?_cons]
    cases p with
    | zero =>
      simp only [List.getElem?_cons_zero, Option.some.injEq] at h
      subst h
      simp [alloc]
    | succ p =>
      simp only [List.getElem?_cons_succ] at h
      have hn' : (labelsOf C).Nodup := by
        rw [labelsOf_cons] at hn
        exact (List.nodup_append.1 hn).2.1
      have hl : l ∈ labelsOf C := by
        unfold labelsOf
        rw [List.mem_filterMap]
        exact ⟨_, List.mem_of_getElem? h, rfl⟩
      have hi : (alloc H b i == .label l) = false := by
        rw [beq_eq_false_iff_ne]
        intro he
        have hi' : i = .label l := by
          cases i <;> simp only [alloc] at he
          all_goals first
            | exact he
            | (split at he <;> first | (split at he <;> cases he) | cases he)
            | cases he
        rw [labelsOf_cons, hi'] at hn
        simp only [labelOf, List.singleton_append, List.nodup_cons] at hn
        exact hn.1 hl
      rw [hi]
      simp [ih hn' h]

/-! ### Worlds -/

/-- A variable in scope: its cell, its binding in the interpreter, and whether it is the name of a
function. -/
structure Ent where
  name : Name
  cell : Nat
  loc : Nat
  fk : Bool

def Ent.lex (e : Ent) : Name × Nat := (e.name, e.cell)
def Ent.src (e : Ent) : Name × Nat := (e.name, e.loc)

/-- What is known about the bindings of the interpreter: how many there are, which of them are
which bindings in the heap of compiled code, which of them are the names of functions, and of which
functions. -/
structure World where
  n : Nat
  j : Nat → Option Nat
  F : Nat → Option Clo
  K : Nat → Bool

/-- Later, more is known. -/
structure World.Le (w w' : World) : Prop where
  n : w.n ≤ w'.n
  j : ∀ l h, w.j l = some h → w'.j l = some h
  F : ∀ l c, w.F l = some c → w'.F l = some c
  K : ∀ l, l < w.n → w'.K l = w.K l

theorem World.Le.refl (w : World) : w.Le w :=
  ⟨Nat.le_refl _, fun _ _ h => h, fun _ _ h => h, fun _ _ => rfl⟩

theorem World.Le.trans {a b c : World} (h1 : a.Le b) (h2 : b.Le c) : a.Le c :=
  ⟨Nat.le_trans h1.n h2.n, fun l h hh => h2.j l h (h1.j l h hh),
    fun l c hh => h2.F l c (h1.F l c hh),
    fun l hl => by rw [h2.K l (Nat.lt_of_lt_of_le hl h1.n), h1.K l hl]⟩

/-- The value of a variable is this function, for good. -/
def Frozen (Gf : Name → Option Clo) (w : World) (ρ : Env) (x : Name) (c : Clo) : Prop :=
  (∃ l, look x ρ = some l ∧ w.F l = some c) ∨ (look x ρ = none ∧ Gf x = some c)

theorem Frozen.mono {Gf : Name → Option Clo} {w w' : World} {ρ : Env} {x : Name} {c : Clo}
    (h : Frozen Gf w ρ x c) (hw : w.Le w') : Frozen Gf w' ρ x c := by
  rcases h with ⟨l, h1, h2⟩ | h
  · exact .inl ⟨l, h1, hw.F _ _ h2⟩
  · exact .inr h

/-- The environment of the interpreter has the variables in scope, except for some names. -/
def Coh (X : List Name) (ρ : Env) (E : List Ent) : Prop :=
  ∀ x, x ∉ X → look x ρ = look x (E.map Ent.src)

/-- What holds of the compiler where it compiles something. -/
structure SOk (Gf : Name → Option Clo) (c : Ctx) (sc : Scope) (s : CSt) : Prop where
  cells : CellsOk c.lex s.cell
  tags : TagsOk s
  names : ∀ e ∈ c.lex, look e.1 sc ≠ none
  nodup : (c.lex.map (·.1)).Nodup
  recN : ∀ r ∈ c.recs, ∀ x, r.name = some x → look x sc ≠ none
  recD : ∀ r ∈ c.recs, r.depth ≤ depth c.recs
  gf : ∀ x c, Gf x = some c → look x sc = some (some c.ps.length)

/-- What is fixed for a run: the subrs, the bindings in the heap, the functions of the compiled file
and the functions of the file in the interpreter. -/
structure Setup where
  P : Prims
  H : Nat → Bool
  T : List Fn
  Gf : Name → Option Clo
  labels : ∀ f ∈ T, (labelsOf f.code).Nodup
  capt : ∀ f ∈ T, ∀ x lex, (.lexRef x lex ∈ f.code ∨ .lexSet x lex ∈ f.code) → ∀ k,
    look x f.base = some k → H k = true

variable (U : Setup)

def Setup.code (f : Fn) : List I := f.code.map (alloc U.H f.base.length)
def Setup.table : List (List I) := U.T.map U.code

/-- A state of the compiler on the way to the final one. -/
def Fin (s : CSt) : Prop := (∃ r, U.T = s.fns ++ r) ∧ ∀ k ∈ s.inplace, U.H k = false

theorem Fin.before {U : Setup} {s s' : CSt} (h : Fin U s') (hl : Later s s') : Fin U s := by
  obtain ⟨⟨r, hr⟩, hi⟩ := h
  obtain ⟨r', hr', _⟩ := hl.fns
  exact ⟨⟨r' ++ r, by rw [hr, hr', List.append_assoc]⟩, fun k hk => hi k (hl.inplace k hk)⟩

/-- The variables that have bindings in the heap. -/
def Setup.heap (E : List Ent) : List Ent := E.filter fun e => U.H e.cell

/-- The number of those that have not. -/
def Setup.slot (E : List Ent) : Nat := (E.filter fun e => !U.H e.cell).length

/-- `tc` is a function of the compiled file that was compiled from `clo`. -/
structure FnAt (w : World) (clo : Clo) (tc : TClo) (c0 : Ctx) (nm : Option Name) (s0 : CSt)
    (k : List I) (s1 : CSt) (sc : Scope) (X : List Name) (E : List Ent) : Prop where
  fn : U.T[tc.fn]? = some ⟨(lambdaHead c0 nm clo.ps s0).1 ++ k ++ [.ret], c0.lex⟩
  comp : cExp (lambdaHead c0 nm clo.ps s0).2.1 true clo.body (lambdaHead c0 nm clo.ps s0).2.2 =
    some (k, s1)
  fin : Fin U s1
  sok : SOk U.Gf c0 sc s0
  fresh : fresh sc clo.ps = true
  good : good (vars clo.ps ++ sc) clo.body = true
  lex : c0.lex = E.map Ent.lex
  coh : Coh X clo.env E
  ment : ∀ x ∈ X, mentions x clo.body = false
  inSc : ∀ x ∈ X, look x sc ≠ none
  kind : ∀ e ∈ E, look e.name sc = some none → e.fk = false
  fk : ∀ e ∈ E, w.K e.loc = e.fk
  lt : ∀ e ∈ E, e.loc < w.n
  env : tc.env.map some = (U.heap E).map fun e => w.j e.loc
  name : ∀ x, nm = some x → Frozen U.Gf w clo.env x clo ∧
    look x sc = some (some clo.ps.length) ∧ x ∉ X

/-- A closure of the interpreter and a closure of compiled code. -/
def CloRel (w : World) (clo : Clo) (tc : TClo) : Prop :=
  ∃ c0 nm s0 k s1 sc X E, FnAt U w clo tc c0 nm s0 k s1 sc X E

/-- Values. -/
abbrev VR (w : World) : SVal → TVal → Prop := VRel (CloRel U w)

theorem jmap_mono {w w' : World} (hw : w.Le w') {E : List Ent} {env : List Nat}
    (h : env.map some = E.map fun e => w.j e.loc) : env.map some = E.map fun e => w'.j e.loc := by
  induction E generalizing env with
  | nil => simpa using h
  | cons e E ih =>
    cases env with
    | nil => simp at h
    | cons a env =>
      simp only [List.map_cons, List.cons.injEq] at h ⊢
      exact ⟨(hw.j _ _ h.1.symm).symm, ih h.2⟩

variable {U}

theorem CloRel.mono {w w' : World} {clo : Clo} {tc : TClo} (h : CloRel U w clo tc) (hw : w.Le w') :
    CloRel U w' clo tc := by
  obtain ⟨c0, nm, s0, k, s1, sc, X, E, h⟩ := h
  exact ⟨c0, nm, s0, k, s1, sc, X, E, h.fn, h.comp, h.fin, h.sok, h.fresh, h.good, h.lex, h.coh,
    h.ment, h.inSc, h.kind, (fun e he => by rw [hw.K _ (h.lt e he)]; exact h.fk e he),
    fun e he => Nat.lt_of_lt_of_le (h.lt e he) hw.n, jmap_mono hw h.env,
    fun x hx => ⟨(h.name x hx).1.mono hw, (h.name x hx).2⟩⟩

theorem VR.mono {w w' : World} {v : SVal} {v' : TVal} (h : VR U w v v') (hw : w.Le w') :
    VR U w' v v' := by
  induction h with
  | atom a => exact .atom a
  | pair _ _ h1 h2 => exact .pair h1 h2
  | prim p => exact .prim p
  | fn h => exact .fn (CloRel.mono h hw)

theorem LRel.mono {α β : Type} {R S : α → β → Prop} {as : List α} {bs : List β} (h : LRel R as bs)
    (hs : ∀ a b, R a b → S a b) : LRel S as bs := by
  induction h with
  | nil => exact .nil
  | cons h _ ih => exact .cons (hs _ _ h) ih

theorem LRel.length {α β : Type} {R : α → β → Prop} {as : List α} {bs : List β} (h : LRel R as bs) :
    as.length = bs.length := by
  induction h with
  | nil => rfl
  | cons _ _ ih => simp [ih]

theorem VR.isNil {w : World} {v : SVal} {v' : TVal} (h : VR U w v v') : v.isNil = v'.isNil := by
  cases h with
  | atom a => cases a <;> rfl
  | _ => rfl

variable (U)

/-- The memories correspond. -/
structure WOk (w : World) (S : SSt) (st : TSt) : Prop where
  n : w.n = S.σ.length
  j : ∀ l h, w.j l = some h → ∃ v v', S.σ[l]? = some v ∧ st.heap[h]? = some v' ∧ VR U w v v'
  inj : ∀ l l' h, w.j l = some h → w.j l' = some h → l = l'
  F : ∀ l c, w.F l = some c → w.K l = true ∧ S.σ[l]? = some (.fn c)
  g : ∀ x, match S.g x, st.g x with
    | some v, some v' => VR U w v v'
    | none, none => True
    | _, _ => False
  gf : ∀ x c, U.Gf x = some c → S.g x = some (.fn c)

/-- From one state to a later one: what was known of the first `n` bindings stays; the first `m`
ones that are not in the heap keep their values. -/
structure Ext (m n : Nat) (w : World) (S : SSt) (w' : World) (S' : SSt) : Prop where
  le : w.Le w'
  j : ∀ l, l < n → w'.j l = w.j l
  F : ∀ l, l < n → w'.F l = w.F l
  σ : ∀ l, l < m → w.j l = none → S'.σ[l]? = S.σ[l]?

theorem Ext.refl (m n : Nat) (w : World) (S : SSt) : Ext m n w S w S :=
  ⟨.refl w, fun _ _ => rfl, fun _ _ => rfl, fun _ _ _ => rfl⟩

theorem Ext.trans {m n n' : Nat} {w w' w'' : World} {S S' S'' : SSt} (h1 : Ext m n w S w' S')
    (h2 : Ext m n' w' S' w'' S'') (hn : n ≤ n') (hm : m ≤ n) : Ext m n w S w'' S'' :=
  ⟨h1.le.trans h2.le,
    fun l hl => by rw [h2.j l (Nat.lt_of_lt_of_le hl hn), h1.j l hl],
    fun l hl => by rw [h2.F l (Nat.lt_of_lt_of_le hl hn), h1.F l hl],
    fun l hl hj => by
      rw [h2.σ l hl (by rw [h1.j l (Nat.lt_of_lt_of_le hl hm)]; exact hj), h1.σ l hl hj]⟩

theorem Ext.less {m n m' n' : Nat} {w w' : World} {S S' : SSt} (h : Ext m n w S w' S')
    (hm : m' ≤ m) (hn : n' ≤ n) : Ext m' n' w S w' S' :=
  ⟨h.le, fun l hl => h.j l (Nat.lt_of_lt_of_le hl hn), fun l hl => h.F l (Nat.lt_of_lt_of_le hl hn),
    fun l hl => h.σ l (Nat.lt_of_lt_of_le hl hm)⟩

/-- The slots hold the variables of the activation that are not in the heap. -/
def Slots (w : World) (S : SSt) (slots : Nat → Option TVal) : List Ent → Prop
  | [] => True
  | e :: r => (U.H e.cell = false → w.j e.loc = none ∧
      ∃ v v', S.σ[e.loc]? = some v ∧ slots (U.slot r) = some v' ∧ VR U w v v') ∧
    Slots w S slots r

/-- An activation: its code, the variables of the place where its function was enclosed, the number
of bindings there were when it was called, those that wait for it, and its arguments. -/
structure Fr where
  C : List I
  Eb : List Ent
  m : Nat
  ks : List Act
  args : List TVal

structure FrOk (fr : Fr) : Prop where
  labels : (labelsOf fr.C).Nodup
  capt : ∀ x lex, (.lexRef x lex ∈ fr.C ∨ .lexSet x lex ∈ fr.C) → ∀ k,
    look x (fr.Eb.map Ent.lex) = some k → U.H k = true

def Setup.mk' (fr : Fr) (pc : Nat) (stk : List TVal) (env bst : List Nat) (slots : Nat → Option TVal)
    (st : TSt) : MSt :=
  ⟨⟨fr.C.map (alloc U.H fr.Eb.length), pc, stk, env, bst, slots, fr.args⟩, fr.ks, st⟩

/-- The variables of the running activation, by frames of bindings. -/
structure FR (fr : Fr) (fs : List (List Ent)) (w : World) (S : SSt) (env bst : List Nat)
    (slots : Nat → Option TVal) : Prop where
  env : env.map some = (U.heap (fs.flatten ++ fr.Eb)).map fun e => w.j e.loc
  bst : bst = fs.map fun f => (U.heap f).length
  slots : Slots U w S slots fs.flatten
  lt : ∀ e ∈ fs.flatten ++ fr.Eb, e.loc < w.n
  own : ∀ e ∈ fs.flatten, fr.m ≤ e.loc
  nodup : (fs.flatten.map (·.loc)).Nodup
  fk : ∀ e ∈ fs.flatten ++ fr.Eb, w.K e.loc = e.fk
  m : fr.m ≤ w.n

/-- The names in scope. -/
structure Sco (fr : Fr) (c : Ctx) (sc : Scope) (X : List Name) (ρ : Env) (fs : List (List Ent)) :
    Prop where
  lex : c.lex = (fs.flatten ++ fr.Eb).map Ent.lex
  coh : Coh X ρ (fs.flatten ++ fr.Eb)
  kind : ∀ e ∈ fs.flatten ++ fr.Eb, look e.name sc = some none → e.fk = false
  bp : fs.length = c.bp + 1

/-- What happens at the end of a form: with the value on the stack, execution reaches `Q`. -/
def EndK (fr : Fr) (w : World) (S : SSt) (fs : List (List Ent)) (pc : Nat) (stk : List TVal)
    (Q : Out → Prop) (v : SVal) (S' : SSt) : Prop :=
  ∀ w' env bst slots st v', FR U fr fs w' S' env bst slots → WOk U w' S' st → VR U w' v v' →
    Ext fr.m w.n w S w' S' → GoesTo U.P U.table Q (U.mk' fr pc (v' :: stk) env bst slots st)

end Rep.Compile
