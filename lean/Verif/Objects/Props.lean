/-
C88: messages to objects.
-/
import Verif.Objects.Model

namespace Rep.Objects

/-! ### Specification -/

/-- The method for a message: the first with this name in the object, else in its base. -/
inductive Finds (objs : List Obj) (op : V) : Nat → Nat → Nat → Method → Prop
  | here (id o k m) : objs[id]? = some o → o.methods[k]? = some m → m.name = op →
      (∀ j m', j < k → o.methods[j]? = some m' → m'.name ≠ op) → Finds objs op id id k m
  | base (id o j t k m) : objs[id]? = some o → (∀ m' ∈ o.methods, m'.name ≠ op) →
      o.base = .obj j → Finds objs op j t k m → Finds objs op id t k m

/-- There is none; `last` is the base of the last object. -/
inductive Lacks (objs : List Obj) (op : V) (last : V) : Nat → Prop
  | here (id o) : objs[id]? = some o → (∀ m' ∈ o.methods, m'.name ≠ op) → o.base = last →
      (∀ j, last ≠ .obj j) → Lacks objs op last id
  | base (id o j) : objs[id]? = some o → (∀ m' ∈ o.methods, m'.name ≠ op) → o.base = .obj j →
      Lacks objs op last j → Lacks objs op last id

/-- Objects are made after their bases. -/
def Ok (objs : List Obj) : Prop := ∀ (id : Nat) (o : Obj) (j : Nat), objs[id]? = some o → o.base = .obj j → j < id

/-- The variables of a method: the i-th parameter is the i-th argument, or nil; the rest
parameter is the list of the other arguments. -/
def Vars (params : List Nat) (rest : Option Nat) (args : List V)
    (vars : List (Nat × Lambda.Bound V)) : Prop :=
  vars.map Prod.fst = params ++ rest.toList ∧
  (∀ (i : Nat) (p : Nat), params[i]? = some p →
    vars[i]? = some (p, .val (match args[i]? with | some v => v | none => .nil))) ∧
  (∀ r, rest = some r → vars[params.length]? = some (r, .list (args.drop params.length)))

/-! ### Proofs -/

open Lambda in
theorem findKey_none {k : V} : ∀ {l : List V}, k ∉ l → findKey k (l.map some) = none
  | [], _ => rfl
  | [_], _ => rfl
  | a :: b :: l, h => by
    have ha : a ≠ k := fun e => h (by simp [e])
    have := findKey_none (k := k) (l := b :: l) (fun m => h (by simp at m ⊢; exact .inr m))
    simp only [List.map_cons] at this ⊢
    simp [findKey, ha, this]

open Lambda in
theorem key2_none {k : V} : ∀ {l : List V}, k ∉ l → key2 k (l.map some) = none
  | [], _ => rfl
  | [_], _ => rfl
  | a :: b :: l, h => by
    have ha : a ≠ k := fun e => h (by simp [e])
    have := key2_none (k := k) (l := l) (fun m => h (by simp [m]))
    simp [key2, ha, this]

theorem filterMap_some (l : List V) : (l.map some).filterMap id = l := by
  induction l with
  | nil => rfl
  | cons a l ih => simp

/-- A call without `#:self`. -/
theorem bindCall_plain (c : Bool) (id : Nat) (op : V) (args : List V) (h : V.kw selfVar ∉ args) :
    bindCall c id (op :: args) = some (op, .obj id, args) := by
  have h1 := findKey_none h
  have h2 := key2_none h
  cases c with
  | false =>
    simp [bindCall, Lambda.interpret, Lambda.pass1, lambdaList, world, h1, Lambda.Cell.default,
      Lambda.pass2, look, opVar, selfVar, argsVar, filterMap_some]
    simp [selfVar] at h1
    simp [h1, Lambda.pass2]
  | true =>
    simp only [selfVar] at h2
    simp [bindCall, Lambda.compiled, Lambda.specCode, lambdaList, world, Lambda.parCode,
      Lambda.execAll, Lambda.exec, h2, look, opVar, selfVar, argsVar, Lambda.ofOpt]

/-- A call with `#:self` in front. -/
theorem bindCall_self (c : Bool) (id : Nat) (op self : V) (args : List V) :
    bindCall c id (op :: .kw selfVar :: self :: args) = some (op, self, args) := by
  cases c with
  | false =>
    simp [bindCall, Lambda.interpret, Lambda.pass1, lambdaList, world, Lambda.findKey,
      Lambda.pass2, look, opVar, selfVar, argsVar]
  | true =>
    simp [bindCall, Lambda.compiled, Lambda.specCode, lambdaList, world, Lambda.parCode,
      Lambda.execAll, Lambda.exec, Lambda.key2, look, opVar, selfVar, argsVar, Lambda.ofOpt]

theorem clause_none {op : V} : ∀ {ms : List Method} {i}, (∀ m ∈ ms, m.name ≠ op) → clause op ms i = none
  | [], _, _ => rfl
  | m :: ms, i, h => by
    simp only [clause]
    rw [if_neg (h m (by simp)), clause_none fun m' hm => h m' (by simp [hm])]

theorem clause_some {op : V} : ∀ {ms : List Method} {i k m}, ms[k]? = some m → m.name = op →
    (∀ j m', j < k → ms[j]? = some m' → m'.name ≠ op) → clause op ms i = some (i + k, m)
  | [], _, _, _, h, _, _ => by simp at h
  | x :: ms, i, 0, m, h, hm, _ => by
    simp at h
    subst h
    simp [clause, hm]
  | x :: ms, i, k + 1, m, h, hm, hf => by
    have hx : x.name ≠ op := hf 0 x (by omega) rfl
    simp only [List.getElem?_cons_succ] at h
    simp only [clause, hx, if_false]
    rw [clause_some h hm fun j m' hj hj' => hf (j + 1) m' (by omega) (by simpa using hj')]
    congr 2; omega

theorem letBindings_vars (args : List V) (rest : Option Nat) : ∀ (params : List Nat) (i : Nat),
    (letBindings args params i rest).map Prod.fst = params ++ rest.toList ∧
    (∀ (j : Nat) (p : Nat), params[j]? = some p → (letBindings args params i rest)[j]? =
      some (p, .val ((args[i + j]?).getD .nil))) ∧
    (∀ r, rest = some r → (letBindings args params i rest)[params.length]? =
      some (r, .list (args.drop (i + params.length))))
  | [], i => by
    cases rest with
    | none => simp [letBindings]
    | some r => simp [letBindings]
  | p :: ps, i => by
    obtain ⟨h1, h2, h3⟩ := letBindings_vars args rest ps (i + 1)
    refine ⟨by simp [letBindings, h1], ?_, ?_⟩
    · intro j q hj
      cases j with
      | zero =>
        simp at hj
        subst hj
        simp [letBindings]
      | succ j =>
        simp only [List.getElem?_cons_succ] at hj
        simp only [letBindings, List.getElem?_cons_succ]
        rw [h2 j q hj, show i + 1 + j = i + (j + 1) by omega]
    · intro r hr
      simp only [letBindings, List.length_cons, List.getElem?_cons_succ]
      rw [h3 r hr, show i + 1 + ps.length = i + (ps.length + 1) by omega]

theorem vars_ok (params : List Nat) (rest : Option Nat) (args : List V) :
    Vars params rest args (letBindings args params 0 rest) := by
  obtain ⟨h1, h2, h3⟩ := letBindings_vars args rest params 0
  refine ⟨h1, fun i p hp => ?_, fun r hr => by simpa using h3 r hr⟩
  rw [h2 i p hp, Nat.zero_add]
  cases args[i]? <;> rfl

/-- The outcome of a message for a method. -/
def Invoked (t k : Nat) (m : Method) (self : V) (args : List V) (out : Out) : Prop :=
  match m with
  | .code _ params rest => ∃ vars, out = .code t k self vars ∧ Vars params rest args vars
  | .func _ => out = .func t k self args

theorem send_found (c : Bool) {objs : List Obj} (ok : Ok objs) {op : V} {id t k m}
    (h : Finds objs op id t k m) : ∀ (n : Nat) (all args : List V) (self : V), id < n →
    bindCall c id all = some (op, self, args) →
    ∃ out, send c objs n id all = some out ∧ Invoked t k m self args out := by
  induction h with
  | here id o k m ho hk hm hf =>
    intro n all args self hn hb
    obtain ⟨n, rfl⟩ : ∃ n', n = n' + 1 := ⟨n - 1, by omega⟩
    simp only [send, ho, hb, clause_some (i := 0) hk hm hf, Nat.zero_add]
    cases m with
    | code name params rest => exact ⟨_, rfl, _, rfl, vars_ok params rest args⟩
    | func name => exact ⟨_, rfl, rfl⟩
  | base id o j t k m ho hm hbase _ ih =>
    intro n all args self hn hb
    obtain ⟨n, rfl⟩ : ∃ n', n = n' + 1 := ⟨n - 1, by omega⟩
    have := ok id o j ho hbase
    simp only [send, ho, hb, clause_none hm, hbase]
    exact ih n _ args self (by omega) (bindCall_self c j op self args)

theorem send_lacks (c : Bool) {objs : List Obj} (ok : Ok objs) {op last : V} {id}
    (h : Lacks objs op last id) : ∀ (n : Nat) (all args : List V) (self : V), id < n →
    bindCall c id all = some (op, self, args) →
    send c objs n id all = some (if last = .nil then .unknown op
      else .call last (op :: .kw selfVar :: self :: args)) := by
  induction h with
  | here id o ho hm hbase hn' =>
    intro n all args self hn hb
    obtain ⟨n, rfl⟩ : ∃ n', n = n' + 1 := ⟨n - 1, by omega⟩
    simp only [send, ho, hb, clause_none hm, hbase]
    cases last with
    | obj j => exact absurd rfl (hn' j)
    | _ => simp
  | base id o j ho hm hbase _ ih =>
    intro n all args self hn hb
    obtain ⟨n, rfl⟩ : ∃ n', n = n' + 1 := ⟨n - 1, by omega⟩
    have := ok id o j ho hbase
    simp only [send, ho, hb, clause_none hm, hbase]
    exact ih n _ args self (by omega) (bindCall_self c j op self args)

/-- C88: a message with arguments, in interpreted and in compiled code, is handled by the
first method of that name in the object and its bases.  There `self` is the object the
message was sent to, parameters are the arguments (nil if missing) and the rest
parameter the others. -/
theorem C88_message_partial (c : Bool) (objs : List Obj) (ok : Ok objs) (op : V) (id t k : Nat)
    (m : Method) (h : Finds objs op id t k m) (args : List V) (hs : V.kw selfVar ∉ args) :
    ∃ out, send c objs (id + 1) id (op :: args) = some out ∧ Invoked t k m (.obj id) args out :=
  send_found c ok h _ _ args _ (by omega) (bindCall_plain c id op args hs)

/-- C88: if there is no such method, an error is signalled that names the message; or, if
the last object has a function for its base, the function is called with the message, the
object and the arguments. -/
theorem C88_unknown_partial (c : Bool) (objs : List Obj) (ok : Ok objs) (op last : V) (id : Nat)
    (h : Lacks objs op last id) (args : List V) (hs : V.kw selfVar ∉ args) :
    send c objs (id + 1) id (op :: args) = some (if last = .nil then .unknown op
      else .call last (op :: .kw selfVar :: .obj id :: args)) :=
  send_lacks c ok h _ _ args _ (by omega) (bindCall_plain c id op args hs)

/-- One of the two applies. -/
theorem C88_total (objs : List Obj) (ok : Ok objs) (op : V) : ∀ (n id : Nat), id ≤ n →
    (∀ (i : Nat) (o : Obj) (j : Nat), objs[i]? = some o → o.base = .obj j → (objs[j]?).isSome) → (objs[id]?).isSome →
    (∃ t k m, Finds objs op id t k m) ∨ ∃ last, Lacks objs op last id := by
  intro n
  induction n with
  | zero =>
    intro id hid hb hs
    obtain ⟨o, ho⟩ := Option.isSome_iff_exists.1 hs
    exact one ho fun j hj => by have := ok id o j ho hj; omega
  | succ n ih =>
    intro id hid hb hs
    obtain ⟨o, ho⟩ := Option.isSome_iff_exists.1 hs
    exact one ho fun j hj => ih j (by have := ok id o j ho hj; omega) hb (hb id o j ho hj)
where
  one {objs : List Obj} {op : V} {id : Nat} {o : Obj} (ho : objs[id]? = some o)
      (rec : ∀ j, o.base = .obj j → (∃ t k m, Finds objs op j t k m) ∨ ∃ last, Lacks objs op last j) :
      (∃ t k m, Finds objs op id t k m) ∨ ∃ last, Lacks objs op last id := by
    by_cases hm : ∃ m ∈ o.methods, m.name = op
    · left
      have : ∃ (k : Nat) (m : Method), o.methods[k]? = some m ∧ m.name = op ∧
          ∀ (j : Nat) (m' : Method), j < k → o.methods[j]? = some m' → m'.name ≠ op := by
        generalize o.methods = ms at hm
        induction ms with
        | nil => obtain ⟨m, h, _⟩ := hm; cases h
        | cons x ms ih =>
          by_cases hx : x.name = op
          · exact ⟨0, x, rfl, hx, fun j _ hj => by omega⟩
          · obtain ⟨m, h, e⟩ := hm
            rcases List.mem_cons.1 h with rfl | h
            · exact absurd e hx
            · obtain ⟨k, m, e1, e2, e3⟩ := ih ⟨m, h, e⟩
              refine ⟨k + 1, m, by simpa using e1, e2, fun j m' hj hj' => ?_⟩
              cases j with
              | zero => simp at hj'; subst hj'; exact hx
              | succ j => exact e3 j m' (by omega) (by simpa using hj')
      obtain ⟨k, m, e1, e2, e3⟩ := this
      exact ⟨id, k, m, .here id o k m ho e1 e2 e3⟩
    · have hm : ∀ m ∈ o.methods, m.name ≠ op := fun m h e => hm ⟨m, h, e⟩
      by_cases hb : ∃ j, o.base = .obj j
      · obtain ⟨j, hj⟩ := hb
        rcases rec j hj with ⟨t, k, m, h⟩ | ⟨last, h⟩
        · exact .inl ⟨t, k, m, .base id o j t k m ho hm hj h⟩
        · exact .inr ⟨last, .base id o j ho hm hj h⟩
      · exact .inr ⟨o.base, .here id o ho hm rfl fun j h => hb ⟨j, h⟩⟩

/-- A class, and an object based on it. -/
def demo : List Obj :=
  [⟨.nil, [.code (.sym 10) [20, 21] none, .func (.sym 11)]⟩,
   ⟨.obj 0, [.code (.sym 12) [20] (some 22)]⟩]

theorem demo_ok : Ok demo := by
  intro id o j h hb
  rcases id with _ | _ | id
  · simp [demo] at h; subst h; cases hb
  · simp [demo] at h; subst h; cases hb; decide
  · simp [demo] at h

/-- C88 is violated: the keyword `#:self` among the arguments of a message is not passed
to the method, but replaces `self`. -/
theorem C88_self_violated (c : Bool) (x : V) :
    ∃ vars, send c demo 2 1 [.sym 10, .kw selfVar, x] = some (.code 0 0 x vars) ∧
      vars = [(20, .val .nil), (21, .val .nil)] := by
  refine ⟨_, ?_, rfl⟩
  have h : Finds demo (.sym 10) 1 0 0 (.code (.sym 10) [20, 21] none) :=
    .base 1 _ 0 0 0 _ rfl (by decide) rfl (.here 0 _ 0 _ rfl rfl rfl fun j _ hj => by omega)
  simp only [send, demo, List.getElem?_cons_succ, List.getElem?_cons_zero,
    bindCall_self, clause, Method.name]
  rfl

/-- C88 is violated: at odd places interpreted code takes the keyword, compiled code does
not. -/
theorem C88_compiled_violated :
    bindCall false 0 [.sym 10, .other 1, .kw selfVar, .other 2] = some (.sym 10, .other 2, [.other 1]) ∧
    bindCall true 0 [.sym 10, .other 1, .kw selfVar, .other 2] =
      some (.sym 10, .obj 0, [.other 1, .kw selfVar, .other 2]) := by
  constructor <;> decide

example : Finds demo (.sym 11) 1 0 1 (.func (.sym 11)) :=
  .base 1 _ 0 0 1 _ rfl (by decide) rfl (.here 0 _ 1 _ rfl rfl rfl fun j m hj h => by
    obtain rfl : j = 0 := by omega
    simp at h; subst h; decide)
example : Lacks demo (.sym 13) .nil 1 :=
  .base 1 _ 0 rfl (by decide) rfl (.here 0 _ rfl (by decide) rfl (fun j h => by cases h))

end Rep.Objects
