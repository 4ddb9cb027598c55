import Verif.Auto.Model

/-
C107: autoloaded functions.
-/

namespace Rep.Auto

/-- What never changes from one state to a later one. -/
structure Le (s t : State) : Prop where
  code : ∀ id k : Nat, s.clos[id]? = some (.code k) → t.clos[id]? = some (.code k)
  dead : ∀ c : Nat, s.cells[c]? = some none → t.cells[c]? = some none
  stub : ∀ id c : Nat, s.clos[id]? = some (.stub c) → s.cells[c]? = some none → t.clos[id]? = some (.stub c)

theorem Le.refl (s : State) : Le s s := ⟨fun _ _ h => h, fun _ h => h, fun _ _ h _ => h⟩

theorem Le.trans {s t u : State} (h : Le s t) (g : Le t u) : Le s u :=
  ⟨fun id k e => g.code _ _ (h.code _ _ e), fun c e => g.dead _ (h.dead _ e), fun id c e d => g.stub _ _ (h.stub _ _ e d) (h.dead _ d)⟩

structure Inv (s : State) : Prop where
  nodup : s.loads.Nodup
  dead : ∀ c ∈ s.loads, s.cells[c]? = some none

/-- Same closures, lists and log. -/
theorem le_of_eq {s t : State} (h1 : t.clos = s.clos) (h2 : t.cells = s.cells) : Le s t := by
  refine ⟨?_, ?_, ?_⟩
  · rw [h1]; exact fun _ _ h => h
  · rw [h2]; exact fun _ h => h
  · rw [h1]; exact fun _ _ h _ => h

theorem inv_of_eq {s t : State} (h2 : t.cells = s.cells) (h3 : t.loads = s.loads) (i : Inv s) : Inv t :=
  ⟨by rw [h3]; exact i.nodup, by rw [h3, h2]; exact i.dead⟩

theorem getElem?_append_some {α : Type} {l m : List α} {i : Nat} {a : α} (h : l[i]? = some a) : (l ++ m)[i]? = some a := by
  rw [List.getElem?_append_left]
  · exact h
  · exact (List.getElem?_eq_some_iff.1 h).1

theorem newClo_le (s : State) (f : Fn) : Le s (newClo s f).2 :=
  ⟨fun _ _ h => getElem?_append_some h, fun _ h => h, fun _ _ h _ => getElem?_append_some h⟩

theorem newCell_le (s : State) (x f : Nat) : Le s (newCell s x f).2 :=
  ⟨fun _ _ h => h, fun _ h => getElem?_append_some h, fun _ _ h _ => h⟩

theorem newClo_inv {s : State} (i : Inv s) (f : Fn) : Inv (newClo s f).2 := ⟨i.nodup, i.dead⟩

theorem newCell_inv {s : State} (i : Inv s) (x f : Nat) : Inv (newCell s x f).2 :=
  ⟨i.nodup, fun c h => getElem?_append_some (i.dead c h)⟩

theorem eval_ok {s t : State} {e : Expr} {v : Val} (h : eval s e = .ok (v, t)) : Le s t ∧ (Inv s → Inv t) := by
  cases e <;> simp only [eval] at h
  case var x =>
    split at h
    · cases h; exact ⟨.refl _, id⟩
    · cases h
  case subr | lam => cases h; exact ⟨.refl _, id⟩
  case function k => cases h; exact ⟨newClo_le _ _, fun i => newClo_inv i _⟩
  case «macro» k => cases h; exact ⟨newClo_le _ _, fun i => newClo_inv i _⟩
  case documented k x f => cases h; exact ⟨(newCell_le s x f).trans (newClo_le _ _), fun i => newClo_inv (newCell_inv i x f) _⟩
  case «autoload» x f => cases h; exact ⟨(newCell_le s x f).trans (newClo_le _ _), fun i => newClo_inv (newCell_inv i x f) _⟩
  case autoloadMacro x f => cases h; exact ⟨(newCell_le s x f).trans (newClo_le _ _), fun i => newClo_inv (newCell_inv i x f) _⟩

theorem getD_some {α : Type} {l : List α} {i : Nat} {a d : α} (h : l.getD i d = a) (hd : a ≠ d) : l[i]? = some a := by
  rw [List.getD_eq_getElem?_getD] at h
  cases e : l[i]? with
  | none => rw [e] at h; exact absurd h.symm hd
  | some b => rw [e] at h; rw [← h]; rfl

theorem trash_le (s : State) (c : Nat) : Le s (trash s c) := by
  refine ⟨fun _ _ h => h, fun c' h => ?_, fun _ _ h _ => h⟩
  show (s.cells.set c none)[c']? = some none
  have hl := (List.getElem?_eq_some_iff.1 h).1
  by_cases e : c = c'
  · subst e; rw [List.getElem?_set_self hl]
  · rw [List.getElem?_set_ne e]; exact h

theorem trash_inv {s : State} (i : Inv s) {c : Nat} {p : Nat × Nat} (h : s.cells[c]? = some (some p)) : Inv (trash s c) := by
  refine ⟨?_, ?_⟩
  · show (s.loads ++ [c]).Nodup
    rw [List.nodup_append]
    refine ⟨i.nodup, by simp, ?_⟩
    intro a ha b hb e
    simp at hb
    subst hb; subst e
    rw [i.dead _ ha] at h
    cases h
  · intro d hd
    have : d ∈ s.loads ++ [c] := hd
    rw [List.mem_append, List.mem_singleton] at this
    rcases this with h' | h'
    · exact (trash_le s c).dead _ (i.dead _ h')
    · subst h'
      show (s.cells.set d none)[d]? = some none
      exact List.getElem?_set_self (List.getElem?_eq_some_iff.1 h).1

theorem replace_cells (s : State) (id : Nat) (v : Val) : (replace s id v).cells = s.cells ∧ (replace s id v).loads = s.loads := by
  cases v <;> exact ⟨rfl, rfl⟩

theorem replace_other (s : State) {id id' : Nat} (v : Val) (h : id ≠ id') : (replace s id v).clos[id']? = s.clos[id']? := by
  cases v <;> exact List.getElem?_set_ne h

/-- Everything the evaluator does only adds. -/
theorem exec_le (bodies : Nat → List Op) : ∀ (n : Nat) (t : Task) (s s' : State) (r : Res),
    exec bodies n t s = some (r, s') → Le s s' ∧ (Inv s → Inv s') := by
  intro n
  induction n with
  | zero => intro t s s' r h; simp [exec] at h
  | succ n ih =>
    have body : ∀ (k : Nat) (l : List Op) (s s' : State) (r : Res),
        (match exec bodies n (.ops l) { s with runs := s.runs ++ [k] } with
          | none => none
          | some (.err e, s) => some (.err e, s)
          | some (_, s) => some (.ran k, s)) = some (r, s') → Le s s' ∧ (Inv s → Inv s') := by
      intro k l s s' r h
      have key : ∀ r' s1, exec bodies n (.ops l) { s with runs := s.runs ++ [k] } = some (r', s1) → Le s s1 ∧ (Inv s → Inv s1) := by
        intro r' s1 e
        obtain ⟨a, b⟩ := ih _ _ _ _ e
        exact ⟨(le_of_eq (s := s) (t := { s with runs := s.runs ++ [k] }) rfl rfl).trans a, fun i => b (inv_of_eq (s := s) rfl rfl i)⟩
      split at h
      · cases h
      · next e1 => cases h; exact key _ _ e1
      · next e1 => cases h; exact key _ _ e1
    intro t s s' r h
    cases t with
    | ops l =>
      cases l with
      | nil => simp only [exec] at h; cases h; exact ⟨.refl _, id⟩
      | cons o os =>
        simp only [exec] at h
        split at h
        · cases h
        · next e1 => cases h; exact ih _ _ _ _ e1
        · next e1 =>
          obtain ⟨a, b⟩ := ih _ _ _ _ e1
          obtain ⟨a', b'⟩ := ih _ _ _ _ h
          exact ⟨a.trans a', fun i => b' (b i)⟩
    | op o =>
      cases o with
      | define x e =>
        simp only [exec] at h
        split at h
        · next e1 =>
          cases h
          obtain ⟨a, b⟩ := eval_ok e1
          exact ⟨a.trans (le_of_eq rfl rfl), fun i => ⟨(b i).nodup, (b i).dead⟩⟩
        · cases h; exact ⟨.refl _, id⟩
      | call x =>
        simp only [exec] at h
        split at h
        · cases h; exact ⟨.refl _, id⟩
        · exact ih _ _ _ _ h
      | expand x => simp only [exec] at h; exact ih _ _ _ _ h
      | loadAutoload x =>
        simp only [exec] at h
        split at h
        · exact ih _ _ _ _ h
        · cases h; exact ⟨.refl _, id⟩
        · cases h; exact ⟨.refl _, id⟩
      | fail => simp only [exec] at h; cases h; exact ⟨.refl _, id⟩
      | attempt o =>
        simp only [exec] at h
        split at h
        · cases h
        · next e1 => cases h; exact ih _ _ _ _ e1
    | apply v cl =>
      simp only [exec] at h
      split at h
      · split at h
        · exact body _ _ _ _ _ h
        · split at h
          · cases h; exact ⟨.refl _, id⟩
          · exact body _ _ _ _ _ h
        · split at h
          · cases h
          · next e1 =>
            obtain ⟨a, b⟩ := ih _ _ _ _ e1
            obtain ⟨a', b'⟩ := ih _ _ _ _ h
            exact ⟨a.trans a', fun i => b' (b i)⟩
          · next e1 => cases h; exact ih _ _ _ _ e1
        · cases h; exact ⟨.refl _, id⟩
      · cases h; exact ⟨le_of_eq rfl rfl, inv_of_eq rfl rfl⟩
      · split at h
        · exact body _ _ _ _ _ h
        · cases h; exact ⟨.refl _, id⟩
      · cases h; exact ⟨.refl _, id⟩
    | load id =>
      have main : ∀ c, (s.clos[id]? = some (.stub c) ∨ ∃ k, s.clos[id]? = some (.rest c k)) →
          (match s.cells.getD c none with
            | none => some (Res.err .invalidAutoload, s)
            | some (sym, file) =>
              match s.files file with
              | none => some (.err .noFile, trash s c)
              | some l =>
                match exec bodies n (.ops l) (trash s c) with
                | none => none
                | some (.err e, s) => some (.err e, s)
                | some (_, s) =>
                  match s.vars sym with
                  | none => some (.err (.void sym), s)
                  | some v => some (.val v, replace s id v)) = some (r, s') → Le s s' ∧ (Inv s → Inv s') := by
        intro c hc h
        split at h
        · cases h; exact ⟨.refl _, _root_.id⟩
        · next sym file hcell =>
          have hlive := getD_some hcell (by simp)
          split at h
          · cases h; exact ⟨trash_le _ _, fun i => trash_inv i hlive⟩
          · split at h
            · cases h
            · next e1 =>
              cases h
              obtain ⟨a, b⟩ := ih _ _ _ _ e1
              exact ⟨(trash_le s c).trans a, fun i => b (trash_inv i hlive)⟩
            · next r1 s1 _ e1 =>
              obtain ⟨a, b⟩ := ih _ _ _ _ e1
              have a' := (trash_le s c).trans a
              have b' : Inv s → Inv s1 := fun i => b (trash_inv i hlive)
              split at h
              · cases h; exact ⟨a', b'⟩
              · next v hv =>
                cases h
                obtain ⟨r1, r2⟩ := replace_cells s1 id v
                refine ⟨⟨?_, ?_, ?_⟩, fun i => inv_of_eq r1 r2 (b' i)⟩
                · intro id' k hk
                  by_cases e : id = id'
                  · subst e
                    rcases hc with hc | ⟨k', hc⟩ <;> rw [hc] at hk <;> cases hk
                  · rw [replace_other _ _ e]; exact a'.code _ _ hk
                · rw [r1]; exact a'.dead
                · intro id' c' hk hd
                  by_cases e : id = id'
                  · subst e
                    rcases hc with hc | ⟨k', hc⟩ <;> rw [hc] at hk <;> cases hk
                    rw [hlive] at hd
                    cases hd
                  · rw [replace_other _ _ e]; exact a'.stub _ _ hk hd
      simp only [exec] at h
      split at h
      · next c hc => exact main c (Or.inl (getD_some hc (by simp))) h
      · next c k hc => exact main c (Or.inr ⟨k, getD_some hc (by simp)⟩) h
      · cases h; exact ⟨.refl _, _root_.id⟩
    | expand x =>
      simp only [exec] at h
      split at h
      · split at h
        · split at h
          · cases h
          · next e1 =>
            obtain ⟨a, b⟩ := ih _ _ _ _ e1
            obtain ⟨a', b'⟩ := ih _ _ _ _ h
            exact ⟨a.trans a', fun i => b' (b i)⟩
          · next e1 => cases h; exact ih _ _ _ _ e1
        · exact ih _ _ _ _ h
      · cases h; exact ⟨.refl _, id⟩

theorem acts_le (bodies : Nat → List Op) : ∀ (as : List Act) (s s' : State), acts bodies s as = some s' → Le s s' ∧ (Inv s → Inv s') := by
  intro as
  induction as with
  | nil => intro s s' h; cases h; exact ⟨.refl _, id⟩
  | cons a as ih =>
    intro s s' h
    rw [acts] at h
    cases ha : act bodies s a with
    | none => rw [ha] at h; cases h
    | some s1 =>
      rw [ha, Option.bind_some] at h
      obtain ⟨p, q⟩ := ih _ _ h
      have h1 : Le s s1 ∧ (Inv s → Inv s1) := by
        cases a with
        | eval n o =>
          simp only [act] at ha
          cases he : exec bodies n (.op o) s with
          | none => rw [he] at ha; cases ha
          | some x =>
            rw [he] at ha
            cases ha
            exact exec_le bodies n _ _ _ x.1 (by rw [he])
        | put f l => cases ha; exact ⟨le_of_eq rfl rfl, inv_of_eq rfl rfl⟩
      exact ⟨h1.1.trans p, fun i => q (h1.2 i)⟩

/-- In no history whatever does one autoload definition load its file twice. -/
theorem C107_once (bodies : Nat → List Op) (as : List Act) (s : State) (h : acts bodies init as = some s) : s.loads.Nodup :=
  ((acts_le bodies as init s h).2 ⟨List.nodup_nil, fun _ h => nomatch h⟩).nodup

/-- Loading runs the file once, with the definition disabled; then the value of the symbol is the value,
and the stub has become the same function.  Nothing else changes. -/
theorem C107_load (bodies : Nat → List Op) (n : Nat) (s s0 : State) (id c sym file : Nat) (l : List Op) (j : Nat)
    (hid : s.clos[id]? = some (.stub c)) (hc : s.cells[c]? = some (some (sym, file))) (hf : s.files file = some l)
    (hl : exec bodies n (.ops l) (trash s c) = some (.done, s0)) (hv : s0.vars sym = some (.clo j) ∨ s0.vars sym = some (.macroClo j)) :
    ∃ v s1, exec bodies (n + 1) (.load id) s = some (.val v, s1) ∧ s0.vars sym = some v ∧
      s1.clos[id]? = some (s0.clos.getD j .empty) ∧ (∀ id', id' ≠ id → s1.clos[id']? = s0.clos[id']?) ∧
      s1.cells = s0.cells ∧ s1.vars = s0.vars ∧ s1.files = s0.files ∧ s1.runs = s0.runs ∧ s1.loads = s0.loads := by
  have hd : s0.clos[id]? = some (.stub c) := by
    refine (exec_le bodies n _ _ _ _ hl).1.stub id c hid ?_
    show (s.cells.set c none)[c]? = some none
    exact List.getElem?_set_self (List.getElem?_eq_some_iff.1 hc).1
  have e1 : s.clos.getD id .empty = .stub c := by rw [List.getD_eq_getElem?_getD, hid]; rfl
  have e2 : s.cells.getD c none = some (sym, file) := by rw [List.getD_eq_getElem?_getD, hc]; rfl
  rcases hv with hv | hv
  all_goals
    refine ⟨_, _, (by simp only [exec, e1, e2, hf, hl, hv]; rfl), hv, ?_, fun id' hn => replace_other _ _ (Ne.symm hn), rfl, rfl, rfl, rfl, rfl⟩
    · exact List.getElem?_set_self (List.getElem?_eq_some_iff.1 hd).1

/-- A call of a stub is a call of the value that its symbol gets from the file. -/
theorem C107_call (bodies : Nat → List Op) (n : Nat) (s s1 : State) (id c : Nat) (v : Val) (cl : Bool)
    (hid : s.clos[id]? = some (.stub c)) (hl : exec bodies n (.load id) s = some (.val v, s1)) :
    exec bodies (n + 1) (.apply (.clo id) cl) s = exec bodies n (.apply v true) s1 := by
  have e1 : s.clos.getD id .empty = .stub c := by rw [List.getD_eq_getElem?_getD, hid]; rfl
  simp only [exec, e1, hl]

/-- From the time that a closure has code, whether from the beginning or from a file, a call through any
reference to it runs that code and loads nothing, whatever happened in between.  Partial: the value of
the symbol must be a closure with code of its own. -/
theorem C107_forever_partial (bodies : Nat → List Op) (as : List Act) (s t : State) (id k : Nat) (n : Nat) (cl : Bool)
    (h : s.clos[id]? = some (.code k)) (ht : acts bodies s as = some t) :
    exec bodies (n + 1) (.apply (.clo id) cl) t =
      match exec bodies n (.ops (bodies k)) { t with runs := t.runs ++ [k] } with
      | none => none
      | some (.err e, u) => some (.err e, u)
      | some (_, u) => some (.ran k, u) := by
  have e1 : t.clos.getD id .empty = .code k := by
    rw [List.getD_eq_getElem?_getD, (acts_le bodies as s t ht).1.code id k h]; rfl
  simp only [exec, e1]
  rfl

/-- A macro call whose macro is to be loaded is expanded by the macro that the file defines. -/
theorem C107_macro (bodies : Nat → List Op) (n : Nat) (s s1 : State) (x id c j k : Nat) (v : Val)
    (hx : s.vars x = some (.macroClo id)) (hid : s.clos[id]? = some (.stub c))
    (hl : exec bodies (n + 2) (.load id) s = some (.val v, s1))
    (h1 : s1.vars x = some (.macroClo j)) (hj : s1.clos[j]? = some (.code k)) :
    exec bodies (n + 3) (.expand x) s =
      match exec bodies n (.ops (bodies k)) { s1 with runs := s1.runs ++ [k] } with
      | none => none
      | some (.err e, u) => some (.err e, u)
      | some (_, u) => some (.ran k, u) := by
  have e1 : s.clos.getD id .empty = .stub c := by rw [List.getD_eq_getElem?_getD, hid]; rfl
  have e2 : s1.clos.getD j .empty = .code k := by rw [List.getD_eq_getElem?_getD, hj]; rfl
  rw [exec]
  simp only [hx, e1, hl]
  rw [exec]
  simp only [h1, e2]
  rw [exec]
  simp only [e2]
  rfl

/-! ### what fails -/

/-- A stub whose load failed, for whatever reason, is of no use for ever: the file is never tried again,
even if it exists by then. -/
theorem C107_retry_violated (bodies : Nat → List Op) (as : List Act) (s s1 t : State) (id c n m : Nat) (e : Err) (cl : Bool)
    (hid : s.clos[id]? = some (.stub c)) (hc : c < s.cells.length) (hl : exec bodies n (.load id) s = some (.err e, s1))
    (ht : acts bodies s1 as = some t) :
    exec bodies (m + 2) (.apply (.clo id) cl) t = some (.err .invalidAutoload, t) := by
  have hdead : s1.clos[id]? = some (.stub c) ∧ s1.cells[c]? = some none := by
    have e1 : s.clos.getD id .empty = .stub c := by rw [List.getD_eq_getElem?_getD, hid]; rfl
    have hc' : s.cells[c]? = some s.cells[c] := List.getElem?_eq_getElem hc
    have e2 : s.cells.getD c none = s.cells[c] := by rw [List.getD_eq_getElem?_getD, hc']; rfl
    cases n with
    | zero => simp [exec] at hl
    | succ n =>
      simp only [exec, e1, e2] at hl
      split at hl
      · next h0 => cases hl; exact ⟨hid, by rw [hc', h0]⟩
      · have hd : (trash s c).cells[c]? = some none := List.getElem?_set_self hc
        have fin : ∀ u, Le (trash s c) u → u.clos[id]? = some (.stub c) ∧ u.cells[c]? = some none :=
          fun u hu => ⟨hu.stub id c hid hd, hu.dead c hd⟩
        split at hl
        · cases hl; exact fin _ (.refl _)
        · split at hl
          · cases hl
          · next e3 => cases hl; exact fin _ (exec_le bodies n _ _ _ _ e3).1
          · next e3 =>
            split at hl
            · cases hl; exact fin _ (exec_le bodies n _ _ _ _ e3).1
            · cases hl
  obtain ⟨a, b⟩ := hdead
  have L := (acts_le bodies as s1 t ht).1
  have e1 : t.clos.getD id .empty = .stub c := by rw [List.getD_eq_getElem?_getD, L.stub id c a b]; rfl
  have e2 : t.cells.getD c none = none := by rw [List.getD_eq_getElem?_getD, L.dead c b]; rfl
  rw [exec]
  simp only [e1]
  rw [exec]
  simp only [e1, e2]

/-- Function 7 does nothing. -/
def nobodies : Nat → List Op := fun _ => []

/-- The results of the operations, one after the other; the last state. -/
def results (s : State) : List Op → List (Option Res)
  | [] => []
  | o :: os =>
    match exec nobodies 20 (.op o) s with
    | none => [none]
    | some (r, s) => some r :: results s os

/-- File 1 defines symbol 10 as the function 7. -/
def good : State := { init with files := fun f => if f = 1 then some [.define 10 (.function 7)] else none }

example : results good [.define 10 (.autoload 10 1), .define 11 (.var 10), .call 11, .call 11, .call 10] =
    [some .done, some .done, some (.ran 7), some (.ran 7), some (.ran 7)] := by decide

example : (acts nobodies good [.eval 20 (.define 10 (.autoload 10 1)), .eval 20 (.call 10), .eval 20 (.call 10)]).map
    (fun s => (s.loads, s.runs)) = some ([0], [7, 7]) := by decide

example : results { init with files := fun _ => some [.define 10 (.macro 7)] } [.define 10 (.autoloadMacro 10 1), .expand 10, .expand 10, .expand 12] =
    [some .done, some (.ran 7), some (.ran 7), some .form] := by decide

/-- The file did not exist at the first call; at the second it does. -/
example : (acts nobodies init [.eval 20 (.define 10 (.autoload 10 1)), .eval 20 (.call 10), .put 1 (some [.define 10 (.function 7)])]).map
    (fun s => results s [.call 10]) = some [some (.err .invalidAutoload)] := by decide

/-- The file defines the symbol as a built in function: the first call works, every later one through
the same reference fails. -/
theorem C107_subr_violated :
    results { init with files := fun _ => some [.define 10 (.subr 7)] } [.define 10 (.autoload 10 1), .define 11 (.var 10), .call 11, .call 11, .call 10] =
    [some .done, some .done, some (.ran 7), some (.err .invalidFunction), some (.ran 7)] := by decide

/-- The file defines the symbol as another autoload: the same. -/
theorem C107_chain_violated :
    results { init with files := fun f => if f = 1 then some [.define 10 (.autoload 10 2)] else some [.define 10 (.function 7)] }
      [.define 10 (.autoload 10 1), .define 11 (.var 10), .call 11, .call 11, .call 10] =
    [some .done, some .done, some (.ran 7), some (.err .invalidAutoload), some (.ran 7)] := by decide

/-- The file defines the symbol as a macro: the first call fails, later ones call the expander as if it
were the function. -/
theorem C107_kind_violated :
    results { init with files := fun _ => some [.define 10 (.macro 7)] } [.define 10 (.autoload 10 1), .define 11 (.var 10), .call 11, .call 11] =
    [some .done, some .done, some (.err .invalidFunction), some (.ran 7)] := by decide

/-- A lambda expression that is not enclosed cannot be called, "for security reasons", but it can through
an autoload. -/
theorem C107_unclosed_violated :
    results { init with files := fun _ => some [.define 10 (.lam 7)] } [.define 12 (.lam 7), .call 12, .define 10 (.autoload 10 1), .call 10, .call 10] =
    [some .done, some (.err .invalidFunction), some .done, some (.ran 7), some (.err .invalidFunction)] := by decide

/-- `load-autoload` of an ordinary function whose lambda list is a symbol loads the file with the name
that is the documentation string, and takes the body away. -/
theorem C107_documented_violated :
    results { init with files := fun f => if f = 5 then some [.define 20 (.function 8)] else none }
      [.define 10 (.documented 7 20 5), .call 10, .attempt (.loadAutoload 10), .call 10] =
    [some .done, some (.ran 7), some .done, some (.ran 8)] ∧
    results init [.define 10 (.documented 7 20 5), .call 10, .attempt (.loadAutoload 10), .call 10] =
    [some .done, some (.ran 7), some .done, some .done] := by decide

/-- Symbol 10 is an autoload from file 1, and file 1 makes it one again. -/
def selfish : State → Prop := fun s =>
  s.files 1 = some [.define 10 (.autoload 10 1)] ∧
  ∃ id c, s.vars 10 = some (.clo id) ∧ s.clos[id]? = some (.stub c) ∧ s.cells[c]? = some (some (10, 1))

/-- A file that makes the symbol an autoload from the same file again is loaded for ever: a call never ends. -/
theorem C107_endless_violated (bodies : Nat → List Op) (n : Nat) (s : State) (h : selfish s) : exec bodies n (.op (.call 10)) s = none := by
  have key : ∀ (n : Nat) (s : State) (id c : Nat) (cl : Bool), s.files 1 = some [.define 10 (.autoload 10 1)] →
      s.clos[id]? = some (.stub c) → s.cells[c]? = some (some (10, 1)) → exec bodies n (.apply (.clo id) cl) s = none := by
    intro n
    induction n using Nat.strongRecOn with
    | ind n ih =>
      intro s id c cl hf h1 h2
      match n with
      | 0 => rfl
      | 1 =>
        have e1 : s.clos.getD id .empty = .stub c := by rw [List.getD_eq_getElem?_getD, h1]; rfl
        simp only [exec, e1]
      | 2 =>
        have e1 : s.clos.getD id .empty = .stub c := by rw [List.getD_eq_getElem?_getD, h1]; rfl
        have e2 : s.cells.getD c none = some (10, 1) := by rw [List.getD_eq_getElem?_getD, h2]; rfl
        simp only [exec, e1, e2, hf]
      | 3 =>
        have e1 : s.clos.getD id .empty = .stub c := by rw [List.getD_eq_getElem?_getD, h1]; rfl
        have e2 : s.cells.getD c none = some (10, 1) := by rw [List.getD_eq_getElem?_getD, h2]; rfl
        simp only [exec, e1, e2, hf]
      | m + 4 =>
        have e1 : s.clos.getD id .empty = .stub c := by rw [List.getD_eq_getElem?_getD, h1]; rfl
        have e2 : s.cells.getD c none = some (10, 1) := by rw [List.getD_eq_getElem?_getD, h2]; rfl
        have hlt := (List.getElem?_eq_some_iff.1 h1).1
        have hl : exec bodies (m + 3) (.load id) s = some (.val (.clo s.clos.length),
            replace (setVar (newClo (newCell (trash s c) 10 1).2 (.stub s.cells.length)).2 10 (.clo s.clos.length)) id (.clo s.clos.length)) := by
          simp [exec, List.getD_eq_getElem?_getD, h1, h2, hf, eval, newCell, newClo, setVar, trash, replace]
        rw [C107_call bodies (m + 3) s _ id c _ cl h1 hl]
        refine ih (m + 3) (by omega) _ s.clos.length s.cells.length true hf ?_ ?_
        · show ((s.clos ++ [Fn.stub s.cells.length]).set id _)[s.clos.length]? = _
          rw [List.getElem?_set_ne (by omega)]
          simp
        · show (s.cells.set c none ++ [some (10, 1)])[s.cells.length]? = _
          rw [List.getElem?_append_right (by simp)]
          simp
  obtain ⟨hf, id, c, hv, h1, h2⟩ := h
  cases n with
  | zero => rfl
  | succ n =>
    simp only [exec, hv]
    exact key n s id c false hf h1 h2

example : selfish { init with vars := fun _ => some (.clo 0), clos := [.stub 0], cells := [some (10, 1)], files := fun _ => some [.define 10 (.autoload 10 1)] } :=
  ⟨rfl, 0, 0, rfl, rfl, rfl⟩

end Rep.Auto
