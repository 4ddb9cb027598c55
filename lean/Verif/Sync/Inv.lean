import Verif.Sync.Spec

/-
The invariant of mutexes, condition variables and ports.
-/

namespace Rep.Sync

/-- The mutex that goes with a condition variable -/
def cvm (f : Nat → Nat) : Cv → Mx
  | .user n => .user (f n)
  | .port p => .port p

/-- The mutex a thread has to own where it is -/
def own (f : Nat → Nat) (x : Th) : Option Mx :=
  match x.pc with
  | .idle => none
  | .obt _ _ => none
  | .obtd _ => none
  | .relChk m => if x.stk = [] then none else some m
  | .rel m => some m
  | .waitMem _ m _ => some m
  | .waitRead _ m _ => some m
  | .waitWrite _ m _ _ => some m
  | .waitGo _ m _ => some m
  | .waited _ _ => none
  | .sigChk c => some (cvm f c)
  | .sigLast c => some (cvm f c)
  | .sigRead c _ => some (cvm f c)
  | .sigWrite c _ _ => some (cvm f c)
  | .sigWake c _ => some (cvm f c)
  | .bcRead c => some (cvm f c)
  | .bcClear c _ => some (cvm f c)
  | .bcWake c _ => some (cvm f c)
  | .enq p _ => some (.port p)
  | .emp p _ _ => some (.port p)
  | .deq p => some (.port p)
  | .deqW p _ => some (.port p)
  | .chk p => some (.port p)

/-- What `obtain-mutex` returns to -/
def ObtShape (f : Nat → Nat) (m : Mx) (k : List Fr) : Prop :=
  (∃ n, m = .user n ∧ k = []) ∨ (∃ n, m = .user (f n) ∧ k = [.wait (.user n) true]) ∨
  ∃ p, m = .port p ∧ ((∃ to, k = [.wait (.port p) true, .fetchW p to]) ∨ (∃ to, k = [.fetch p to]) ∨
    (∃ v, k = [.send p v]) ∨ k = [.query p])

/-- What `release-mutex` returns to -/
def RelShape (m : Mx) (k : List Fr) : Prop :=
  (∃ n, m = .user n ∧ k = []) ∨
  ∃ p, m = .port p ∧ ((∃ v, k = [.fetchEnd p (some v)]) ∨ k = [.sendEnd p] ∨ ∃ b, k = [.queryEnd p b])

/-- What `condition-variable-wait` returns to -/
def WaitShape (f : Nat → Nat) (c : Cv) (m : Mx) (k : List Fr) : Prop :=
  m = cvm f c ∧ ((∃ n, c = .user n ∧ k = []) ∨ ∃ p to, c = .port p ∧ k = [.fetchW p to])

/-- What `condition-variable-signal` returns to -/
def SigShape (c : Cv) (k : List Fr) : Prop :=
  (∃ n, c = .user n ∧ k = []) ∨ ∃ p, c = .port p ∧ k = [.sendSig p]

/-- What a function returns to -/
def Shape (f : Nat → Nat) (x : Th) : Prop :=
  match x.pc with
  | .idle => x.stk = []
  | .obt m _ => ObtShape f m x.stk
  | .obtd m => ObtShape f m x.stk
  | .relChk m => RelShape m x.stk
  | .rel m => RelShape m x.stk
  | .waitMem c m _ => WaitShape f c m x.stk
  | .waitRead c m _ => WaitShape f c m x.stk
  | .waitWrite c m _ _ => WaitShape f c m x.stk
  | .waitGo c m _ => WaitShape f c m x.stk
  | .waited c m => WaitShape f c m x.stk
  | .sigChk c => SigShape c x.stk
  | .sigLast c => SigShape c x.stk
  | .sigRead c _ => SigShape c x.stk
  | .sigWrite c _ _ => SigShape c x.stk
  | .sigWake c _ => SigShape c x.stk
  | .bcRead _ => x.stk = []
  | .bcClear _ _ => x.stk = []
  | .bcWake _ _ => x.stk = []
  | .enq _ _ => x.stk = []
  | .emp _ _ can => x.stk = [] ∧ can = true
  | .deq _ => x.stk = []
  | .deqW _ _ => x.stk = []
  | .chk _ => x.stk = []

/-- Whether a thread can run, where it is -/
def StOk (x : Th) : Prop :=
  match x.pc with
  | .obtd _ => x.st ≠ .run ∧ x.st ≠ .ready true
  | .waited _ _ => x.st ≠ .run ∧ x.st ≠ .ready true
  | _ => x.st = .run

/-- The state of one thread -/
structure ThOk (f : Nat → Nat) (s : St) (t : Tid) : Prop where
  shape : Shape f (s.th t)
  st : StOk (s.th t)
  own : ∀ m, own f (s.th t) = some m → (s.mx m).head? = some t

/-- Suspended? -/
def Run.isSusp : Run → Bool
  | .susp _ => true
  | _ => false

/-- Whether a thread waits for this mutex, and is still suspended -/
def mv (m : Mx) (x : Th) : Option Bool :=
  match x.pc with
  | .obtd k => if k = m then some x.st.isSusp else none
  | _ => none

/-- Whether a thread waits for this condition variable, and is still suspended -/
def cw (c : Cv) (x : Th) : Option Bool :=
  match x.pc with
  | .waited k _ => if k = c then some x.st.isSusp else none
  | _ => none

/-- A mutex, and what the specification knows of it -/
structure MInv (s : St) (m : Mx) (sp : MS) : Prop where
  list : sp.hold.toList ++ sp.q = s.mx m
  tail : ∀ u ∈ (s.mx m).tail, mv m (s.th u) = some true
  nd : (s.mx m).tail.Nodup
  held : ∀ u, sp.hold = some u → mv m (s.th u) ≠ some false
  handed : sp.hold = none → ∀ u, (s.mx m).head? = some u → mv m (s.th u) = some false
  susp : ∀ u, mv m (s.th u) = some true → u ∈ (s.mx m).tail
  ready : ∀ u, mv m (s.th u) = some false → (s.mx m).head? = some u

/-- A condition variable, while its mutex is owned by a thread that is here -/
def CritRel (t : Tid) (l : List Tid) (sp : CS) : Pc → Prop
  | .waitMem _ _ _ => l = sp.q.reverse ∧ sp.busy = none
  | .waitRead _ _ _ => l = sp.q.reverse ∧ sp.busy = none
  | .waitWrite _ _ _ l' => l' = l ∧ l = sp.q.reverse ∧ sp.busy = none
  | .waitGo _ _ _ => l = t :: sp.q.reverse ∧ sp.busy = none
  | .sigChk _ => l = sp.q.reverse ∧ sp.busy = some (t, sp.q.take 1)
  | .sigLast _ => l = sp.q.reverse ∧ sp.busy = some (t, sp.q.take 1) ∧ sp.q ≠ []
  | .sigRead _ u => l = sp.q.reverse ∧ sp.busy = some (t, [u]) ∧ sp.q.head? = some u
  | .sigWrite _ u l' => l' = l ∧ l = sp.q.reverse ∧ sp.busy = some (t, [u]) ∧ sp.q.head? = some u
  | .sigWake _ u => l = sp.q.tail.reverse ∧ sp.busy = some (t, [u]) ∧ sp.q.head? = some u
  | .bcRead _ => l = sp.q.reverse ∧ sp.busy = some (t, sp.q)
  | .bcClear _ l' => l' = l ∧ l = sp.q.reverse ∧ sp.busy = some (t, sp.q)
  | .bcWake _ l' => l = [] ∧ sp.q = l' ∧ sp.busy = some (t, l')
  | _ => False

/-- The condition variable a thread is at work on -/
def crit : Pc → Option Cv
  | .waitMem c _ _ => some c
  | .waitRead c _ _ => some c
  | .waitWrite c _ _ _ => some c
  | .waitGo c _ _ => some c
  | .sigChk c => some c
  | .sigLast c => some c
  | .sigRead c _ => some c
  | .sigWrite c _ _ => some c
  | .sigWake c _ => some c
  | .bcRead c => some c
  | .bcClear c _ => some c
  | .bcWake c _ => some c
  | _ => none

/-- Where a thread is, if it is at work on this condition variable -/
def critOf (c : Cv) (x : Th) : Option Pc := if crit x.pc = some c then some x.pc else none

/-- A condition variable, and what the specification knows of it -/
structure CInv (s : St) (c : Cv) (sp : CS) : Prop where
  wait : ∀ u ∈ sp.q, cw c (s.th u) = some true
  nd : sp.q.Nodup
  susp : ∀ u, cw c (s.th u) = some true → u ∈ sp.q
  crit : ∀ t pc, critOf c (s.th t) = some pc → CritRel t (s.cv c) sp pc
  dflt : (∀ t, critOf c (s.th t) = none) → s.cv c = sp.q.reverse ∧ sp.busy = none

/-- The message to be sent to this port, and the message taken from it, by what a function returns to -/
def outK (p : Nat) : List Fr → Option Msg
  | [.send k v] => if k = p then some v else none
  | _ => none

def handK (p : Nat) : List Fr → Option Msg
  | [.fetchEnd k r] => if k = p then r else none
  | _ => none

/-- The message a thread has taken from this port and not returned yet -/
def handOf (p : Nat) (x : Th) : Option Msg := handK p x.stk

/-- The message a thread is about to send to this port -/
def outOf (p : Nat) (x : Th) : Option Msg :=
  match x.pc with
  | .enq k v => if k = p then some v else none
  | _ => outK p x.stk

/-- What a thread knows of the queue of this port: it is not empty, or its first message -/
def deqOf (p : Nat) (x : Th) : Option (Option Msg) :=
  match x.pc with
  | .deq k => if k = p then some none else none
  | .deqW k v => if k = p then some (some v) else none
  | _ => none

/-- A port, and what the specification knows of it -/
structure PInv (s : St) (p : Nat) (sp : PS) : Prop where
  q : sp.q = s.pq p
  hand : ∀ t, sp.hand t = handOf p (s.th t)
  out : ∀ t, sp.out t = outOf p (s.th t)
  deq : ∀ t, deqOf p (s.th t) = some none → s.pq p ≠ []
  deqW : ∀ t v, deqOf p (s.th t) = some (some v) → (s.pq p).head? = some v

/-- The invariant -/
structure Inv (f : Nat → Nat) (s : St) : Prop where
  th : ∀ t, ThOk f s t
  mx : ∀ m, ∃ sp, MS.run m s.log = some sp ∧ MInv s m sp
  cv : ∀ c, ∃ sp, CS.run c s.log = some sp ∧ CInv s c sp
  pq : ∀ p, ∃ sp, PS.run p s.log = some sp ∧ PInv s p sp

theorem MS.run_snoc {m : Mx} {l : List Log} {x : Log} {sp sp' : MS} (h : MS.run m l = some sp)
    (h' : sp.step m x = some sp') : MS.run m (l ++ [x]) = some sp' := by
  unfold MS.run at *
  rw [List.foldl_append, h]; exact h'

theorem CS.run_snoc {c : Cv} {l : List Log} {x : Log} {sp sp' : CS} (h : CS.run c l = some sp)
    (h' : sp.step c x = some sp') : CS.run c (l ++ [x]) = some sp' := by
  unfold CS.run at *
  rw [List.foldl_append, h]; exact h'

theorem PS.run_snoc {p : Nat} {l : List Log} {x : Log} {sp sp' : PS} (h : PS.run p l = some sp)
    (h' : sp.step p x = some sp') : PS.run p (l ++ [x]) = some sp' := by
  unfold PS.run at *
  rw [List.foldl_append, h]; exact h'

theorem MInv.congr {s s' : St} {m : Mx} {sp : MS} (h : MInv s m sp) (h1 : s'.mx m = s.mx m)
    (h2 : ∀ u, mv m (s'.th u) = mv m (s.th u)) : MInv s' m sp := by
  obtain ⟨a, b, c, d, e, g, i⟩ := h
  constructor <;> simp only [h1, h2] <;> assumption

theorem CInv.congr {s s' : St} {c : Cv} {sp : CS} (h : CInv s c sp) (h1 : s'.cv c = s.cv c)
    (h2 : ∀ u, cw c (s'.th u) = cw c (s.th u)) (h3 : ∀ u, critOf c (s'.th u) = critOf c (s.th u)) :
    CInv s' c sp := by
  obtain ⟨a, b, d, e, g⟩ := h
  refine ⟨?_, b, ?_, ?_, ?_⟩ <;> simp only [h1, h2, h3] <;> assumption

theorem PInv.congr {s s' : St} {p : Nat} {sp : PS} (h : PInv s p sp) (h1 : s'.pq p = s.pq p)
    (h2 : ∀ u, handOf p (s'.th u) = handOf p (s.th u)) (h3 : ∀ u, outOf p (s'.th u) = outOf p (s.th u))
    (h4 : ∀ u, deqOf p (s'.th u) = deqOf p (s.th u)) : PInv s' p sp := by
  obtain ⟨a, b, d, e, g⟩ := h
  constructor <;> simp only [h1, h2, h3, h4] <;> assumption

/-- The log entries that say nothing of mutexes, of condition variables, of ports -/
def Log.noM : Log → Bool
  | .asked _ _ => false
  | .got _ _ _ => false
  | .maybe _ _ _ => false
  | .rel _ _ => false
  | .relErr _ _ => false
  | _ => true

def Log.noC : Log → Bool
  | .waits _ _ => false
  | .waitRet _ _ b => b
  | .sigCall _ _ => false
  | .bcCall _ _ => false
  | .woke _ _ _ => false
  | .sigRet _ _ => false
  | _ => true

def Log.noP : Log → Bool
  | .sendCall _ _ _ => false
  | .sent _ _ _ => false
  | .sendRet _ _ => false
  | .sendErr _ _ => false
  | .took _ _ _ => false
  | .fetchRet _ _ _ => false
  | .fetchErr _ _ => false
  | _ => true

theorem MS.step_no {m : Mx} {sp : MS} {x : Log} (h : x.noM = true) : sp.step m x = some sp := by
  cases x <;> first | rfl | cases h

theorem CS.step_no {c : Cv} {sp : CS} {x : Log} (h : x.noC = true) : sp.step c x = some sp := by
  cases x <;> first | rfl | cases h | skip
  all_goals simp [CS.step]

theorem PS.step_no {p : Nat} {sp : PS} {x : Log} (h : x.noP = true) : sp.step p x = some sp := by
  cases x <;> first | rfl | cases h

/-! ### Views of the changed state -/

theorem set_th (s : St) (t : Tid) (x : Th) (u : Tid) : (s.set t x).th u = if u = t then x else s.th u := rfl

theorem view_set {α : Type} (v : Th → α) {s : St} {t : Tid} {x : Th} (h : v x = v (s.th t)) (u : Tid) :
    v ((s.set t x).th u) = v (s.th u) := by
  rw [set_th]
  split
  · next e => rw [h, e]
  · rfl

end Rep.Sync
