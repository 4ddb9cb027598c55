import Verif.Handler.Model
import Mathlib.Data.List.FinRange
import Mathlib.Tactic.ByContra

namespace Rep.Handler

variable {W : Type}

/-! ### Specification -/

/-- The calls of handlers for an operation that have not returned, latest first. -/
def running (op : Op) : List Event → List Nat → List Nat
  | [], l => l
  | .found _ _ _ :: es, l => running op es l
  | .enter h o :: es, l => running op es (if o = op then h :: l else l)
  | .leave _ o :: es, l => running op es (if o = op then l.tail else l)

/-- The handler for a name: the first in `file-handler-alist` whose pattern matches and
that is not already at work on that operation. -/
def rightHandler (sys : Sys W) (op : Op) (name : String) (before : List Event) : Option Nat :=
  (sys.alist.find? fun e => e.1 name && !(running op before []).contains e.2).map Prod.snd

/-- The operations for which a handler is called without looking at what it is doing:
those on open files, and copying from one handler to another or to local files. -/
def Op.direct : Op → Bool
  | .object _ => true
  | .copyTo => true
  | .copyFrom => true
  | _ => false

/-- The program does not call them (except on local files). -/
inductive NoDirect : User W → Prop
  | ret {v} : NoDirect (.ret v)
  | act {f k} : (∀ w, NoDirect (k w)) → NoDirect (.act f k)
  | call {c k} : (∀ s d b, c ≠ .copy s d b) → (∀ i h a, c ≠ .object i (some h) a) →
      (∀ v, NoDirect (k v)) → NoDirect (.call c k)

/-- The handlers' functions for these operations do not call them again. -/
def Tame (sys : Sys W) : Prop :=
  ∀ h op args, op.direct = true → NoDirect (sys.handler h op args)

/-! ### The shape of the functions -/

/-- Handlers are called as they were found, or directly if that is allowed. -/
inductive Fine (hs : List Nat) (b : Op → List Nat) (direct : Bool) : Prog W → Prop
  | ret {v} : Fine hs b direct (.ret v)
  | act {f k} : (∀ w, Fine hs b direct (k w)) → Fine hs b direct (.act f k)
  | builtin {op args k} : (∀ v, Fine hs b direct (k v)) → Fine hs b direct (.builtin op args k)
  | find {op name k} : (∀ h, (∀ x, h = some x → x ∈ hs ∧ x ∉ b op) → Fine hs b direct (k h)) →
      Fine hs b direct (.find op name k)
  | enter {h op args k} : (h ∈ hs ∧ h ∉ b op) ∨ (op.direct = true ∧ direct = true) →
      (∀ v, Fine hs b direct (k v)) → Fine hs b direct (.enter h op args k)

variable {hs : List Nat} {b : Op → List Nat} {d : Bool}

theorem fine_dispatch {op name args} {k : Option Val → Prog W} (hk : ∀ v, Fine hs b d (k v)) :
    Fine hs b d (dispatch op name args k) := by
  refine .find fun h hx => ?_
  cases h with
  | none => exact .builtin hk
  | some h => exact .enter (.inl (hx h rfl)) hk

theorem fine_expand {file dir} {k : Option Val → Prog W} (hk : ∀ v, Fine hs b d (k v)) :
    Fine hs b d (expandFileName file dir k) := by
  refine fine_dispatch fun v => ?_
  split
  · exact hk _
  · exact fine_dispatch fun v => fine_dispatch hk
  · exact fine_dispatch hk

theorem fine_expandAndFind {op file dir} {err : Prog W} {k : String → Option Nat → Prog W}
    (he : Fine hs b d err)
    (hk : ∀ s h, (∀ x, h = some x → x ∈ hs ∧ x ∉ b op) → Fine hs b d (k s h)) :
    Fine hs b d (expandAndFind op file dir err k) := by
  refine fine_expand fun v => ?_
  split
  · exact .find fun h hx => hk _ h hx
  · exact he

theorem fine_local {file dir} {k : Option Val → Prog W} (hk : ∀ v, Fine hs b d (k v)) :
    Fine hs b d (localFileName file dir k) := by
  refine fine_expandAndFind (hk _) fun s h hx => ?_
  cases h with
  | none => exact hk _
  | some h => exact .enter (.inl (hx h rfl)) hk

theorem fine_localise {op file dir} {err : Prog W} {k : String → Option Nat → Prog W}
    (he : Fine hs b d err)
    (hk : ∀ s h, (∀ x, h = some x → x ∈ hs ∧ x ∉ b op) → Fine hs b d (k s h)) :
    Fine hs b d (localiseAndFind op file dir err k) := by
  refine fine_local fun v => ?_
  split
  · exact he
  · refine fine_expand fun v => ?_
    split
    · exact .find fun h hx => hk _ h hx
    · exact he
  · exact .find fun h hx => hk _ h hx
  · exact he

theorem fine_perform (tmp : String) {c : Call} {k : Option Val → Prog W}
    (hd : d = true ∨ ((∀ s e b, c ≠ .copy s e b) ∧ ∀ i h a, c ≠ .object i (some h) a))
    (hk : ∀ v, Fine hs b d (k v)) : Fine hs b d (perform tmp c k) := by
  cases c with
  | absoluteP f => exact fine_dispatch hk
  | expand f e => exact fine_expand hk
  | localName f e => exact fine_local hk
  | asDirectory f => exact fine_dispatch hk
  | name i f => exact fine_dispatch hk
  | file i f e args =>
    refine fine_expandAndFind (hk _) fun s h hx => ?_
    cases h with
    | none => exact .builtin hk
    | some h => exact .enter (.inl (hx h rfl)) hk
  | object i h args =>
    cases h with
    | none => exact .builtin hk
    | some h =>
      rcases hd with rfl | hd
      · exact .enter (.inr ⟨rfl, rfl⟩) hk
      · exact absurd rfl (hd.2 i h args)
  | rename o n e =>
    refine fine_localise (fine_localise (hk _) fun _ _ _ => hk _) fun s h hx => ?_
    refine fine_localise (hk _) fun s' h' hx' => ?_
    split
    · cases h with
      | none => exact .builtin hk
      | some h => exact .enter (.inl (hx h rfl)) hk
    · exact hk _
  | copy s e dir =>
    rcases hd with rfl | hd
    · refine fine_localise (fine_localise (hk _) fun _ _ _ => hk _) fun s h hx => ?_
      refine fine_localise (hk _) fun s' h' hx' => ?_
      cases h with
      | none => cases h' with
        | none => exact .builtin hk
        | some h' => exact .enter (.inr ⟨rfl, rfl⟩) hk
      | some h => cases h' with
        | none => exact .enter (.inr ⟨rfl, rfl⟩) hk
        | some h' =>
          simp only
          split
          · exact .enter (.inl (hx h rfl)) hk
          · refine .enter (.inr ⟨rfl, rfl⟩) fun v => ?_
            split
            · exact hk _
            · exact .enter (.inr ⟨rfl, rfl⟩) hk
    · exact absurd rfl (hd.1 s e dir)

theorem fine_compile (tmp : String) (u : User W) : Fine hs b true (compile tmp u) := by
  induction u with
  | ret v => exact .ret
  | act f k ih => exact .act ih
  | call c k ih => exact fine_perform tmp (.inl rfl) ih

theorem fine_noDirect (tmp : String) {u : User W} (h : NoDirect u) :
    Fine hs b false (compile tmp u) := by
  induction h with
  | ret => exact .ret
  | act _ ih => exact .act ih
  | call h1 h2 _ ih => exact fine_perform tmp (.inr ⟨h1, h2⟩) ih

/-! ### What is blocked -/

theorem setBlocked_restore (b : Op → List Nat) (op : Op) (l : List Nat) :
    setBlocked (setBlocked b op l) op (b op) = b := by
  funext o
  by_cases e : o = op
  · subst e; simp [setBlocked]
  · simp [setBlocked, e]

/-- After the call of a handler, whatever its result, what was blocked before is
blocked. -/
theorem blocked_restored (sys : Sys W) : ∀ (n : Nat) (p : Prog W) (st : St W) {v st'},
    run sys n p st = some (v, st') → st'.blocked = st.blocked
  | 0, _, _, _, _, h => by cases h
  | n + 1, p, st, v, st', h => by
    cases p with
    | ret x => simp only [run, Option.some.injEq, Prod.mk.injEq] at h; rw [← h.2]
    | act f k => exact (blocked_restored sys n _ _ h).trans rfl
    | find op name k => exact (blocked_restored sys n _ _ h).trans rfl
    | builtin op args k => exact (blocked_restored sys n _ _ h).trans rfl
    | enter x op args k =>
      simp only [run] at h
      split at h
      · cases h
      · rename_i v1 st1 e
        have h1 := blocked_restored sys n _ _ e
        rw [blocked_restored sys n _ _ h]
        simp only [h1, setBlocked_restore]

theorem running_append (op : Op) : ∀ (a b : List Event) (l : List Nat),
    running op (a ++ b) l = running op b (running op a l)
  | [], _, _ => rfl
  | .found _ _ _ :: a, b, l => running_append op a b l
  | .enter _ _ :: a, b, l => running_append op a b _
  | .leave _ _ :: a, b, l => running_append op a b _

theorem lookup_eq (alist : List ((String → Bool) × Nat)) (blocked : List Nat) (name : String) :
    lookup alist blocked name =
      (alist.find? fun e => e.1 name && !blocked.contains e.2).map Prod.snd := by
  induction alist with
  | nil => rfl
  | cons e rest ih =>
    obtain ⟨p, h⟩ := e
    simp only [lookup, List.find?_cons]
    by_cases c : p name ∧ h ∉ blocked
    · simp [c]
    · have : (p name && !blocked.contains h) = false := by
        by_cases q : p name
        · simp only [q, true_and, not_not] at c; simp [q, c]
        · simp [q]
      simp only [c, if_false, this]
      exact ih

theorem lookup_mem {alist : List ((String → Bool) × Nat)} {blocked name h}
    (e : lookup alist blocked name = some h) : h ∈ alist.map Prod.snd ∧ h ∉ blocked := by
  rw [lookup_eq] at e
  obtain ⟨x, e1, rfl⟩ := Option.map_eq_some_iff.1 e
  have h1 := List.find?_some e1
  have h2 := List.mem_of_find?_eq_some e1
  simp at h1
  exact ⟨List.mem_map_of_mem h2, by simpa using h1.2⟩

/-- Every choice in the log is the right one, and every call of a handler is one for an
operation it is not at work on, or a direct one. -/
def GoodLog (sys : Sys W) (log : List Event) : Prop :=
  (∀ pre op name h post, log = pre ++ .found op name h :: post →
    h = rightHandler sys op name pre) ∧
  ∀ pre h op post, log = pre ++ .enter h op :: post → h ∉ running op pre [] ∨ op.direct = true

theorem split_snoc {α} {l pre post : List α} {x e : α} (h : l ++ [x] = pre ++ e :: post) :
    (pre = l ∧ e = x ∧ post = []) ∨ ∃ post', l = pre ++ e :: post' := by
  rcases List.eq_nil_or_concat post with rfl | ⟨post', y, rfl⟩
  · left
    have := List.append_inj' h rfl
    simp only [List.cons.injEq, and_true] at this
    exact ⟨this.1.symm, this.2.symm, rfl⟩
  · right
    refine ⟨post', ?_⟩
    have : l ++ [x] = (pre ++ e :: post') ++ [y] := by simpa using h
    exact (List.append_inj' this rfl).1

theorem good_snoc {sys : Sys W} {log : List Event} {e : Event} (g : GoodLog sys log)
    (h1 : ∀ op name h, e = .found op name h → h = rightHandler sys op name log)
    (h2 : ∀ h op, e = .enter h op → h ∉ running op log [] ∨ op.direct = true) :
    GoodLog sys (log ++ [e]) := by
  constructor
  · intro pre op name h post q
    rcases split_snoc q with ⟨rfl, rfl, rfl⟩ | ⟨post', q⟩
    · exact h1 _ _ _ rfl
    · exact g.1 _ _ _ _ _ q
  · intro pre h op post q
    rcases split_snoc q with ⟨rfl, rfl, rfl⟩ | ⟨post', q⟩
    · exact h2 _ _ rfl
    · exact g.2 _ _ _ _ q

theorem run_good (sys : Sys W) : ∀ (n : Nat) (p : Prog W) (st : St W) {v st'},
    run sys n p st = some (v, st') → Fine (sys.alist.map Prod.snd) st.blocked true p →
    (∀ op, st.blocked op = running op st.log []) → GoodLog sys st.log →
    (∀ op, st'.blocked op = running op st'.log []) ∧ GoodLog sys st'.log
  | 0, _, _, _, _, h, _, _, _ => by cases h
  | n + 1, p, st, v, st', h, f, hb, g => by
    cases f with
    | ret => simp only [run, Option.some.injEq, Prod.mk.injEq] at h; rw [← h.2]; exact ⟨hb, g⟩
    | act fk => exact run_good sys n _ _ h (fk _) hb g
    | builtin fk => exact run_good sys n _ _ h (fk _) hb g
    | @find op name k fk =>
      simp only [run] at h
      refine run_good sys n _ _ h (fk _ fun x e => lookup_mem e) ?_ (good_snoc g ?_ ?_)
      · intro o; simp only [running_append, running]; exact hb o
      · intro o nm x e
        cases e
        rw [lookup_eq, hb]; rfl
      · intro x o e; cases e
    | @enter x op args k hx fk =>
      simp only [run] at h
      split at h
      · cases h
      · rename_i v1 st1 e
        have h1 := run_good sys n _ _ e (fine_compile _ _) ?_ (good_snoc g ?_ ?_)
        · have hr := blocked_restored sys n _ _ e
          have hb1 : setBlocked st1.blocked op (st.blocked op) = st.blocked := by
            simp only [hr, setBlocked_restore]
          refine run_good sys n _ _ h ?_ ?_ (good_snoc h1.2 ?_ ?_)
          · simp only [hb1]; exact fk _
          · intro o
            simp only [running_append, running, setBlocked]
            rw [← h1.1 o]
            simp only [hr, setBlocked]
            by_cases q : o = op
            · subst q; simp
            · simp [q, Ne.symm q]
          · intro o nm y q; cases q
          · intro y o q; cases q
        · intro o
          simp only [running_append, running, setBlocked]
          rw [← hb o]
          by_cases q : o = op
          · subst q; simp
          · simp [q, Ne.symm q]
        · intro o nm y q; cases q
        · intro y o q
          cases q
          rcases hx with hx | hx
          · left; rw [← hb]; exact hx.2
          · right; exact hx.1

/-- C85: whatever the handlers do, errors included, every operation goes to the first
handler in `file-handler-alist` whose pattern matches the name and which is not at work
on that operation; a handler is never called for an operation it is already at work on,
except for those on open files and for copies between handlers; and at the end none is
at work. -/
theorem C85_dispatch (sys : Sys W) (n : Nat) (u : User W) (w : W) {v st}
    (h : start sys n u w = some (v, st)) :
    (∀ pre op name x post, st.log = pre ++ .found op name x :: post →
      x = rightHandler sys op name pre) ∧
    (∀ pre x op post, st.log = pre ++ .enter x op :: post →
      x ∉ running op pre [] ∨ op.direct = true) ∧
    (∀ op, running op st.log [] = []) := by
  have g := run_good sys n _ _ h (fine_compile _ _) (fun _ => rfl)
    ⟨fun pre op name x post e => by simp at e, fun pre x op post e => by simp at e⟩
  refine ⟨g.2.1, g.2.2, fun op => ?_⟩
  rw [← g.1 op, blocked_restored sys n _ _ h]

/-! ### Termination -/

theorem run_mono (sys : Sys W) : ∀ (n m : Nat) (p : Prog W) (st : St W) {r},
    n ≤ m → run sys n p st = some r → run sys m p st = some r
  | 0, _, _, _, _, _, h => by cases h
  | n + 1, 0, _, _, _, l, _ => by omega
  | n + 1, m + 1, p, st, r, l, h => by
    have l' : n ≤ m := by omega
    cases p with
    | ret v => exact h
    | act f k => exact run_mono sys n m _ _ l' h
    | find op name k => exact run_mono sys n m _ _ l' h
    | builtin op args k => exact run_mono sys n m _ _ l' h
    | enter x op args k =>
      simp only [run] at h ⊢
      split at h
      · cases h
      · rename_i e
        rw [run_mono sys n m _ _ l' e]
        exact run_mono sys n m _ _ l' h

def Ends (sys : Sys W) (p : Prog W) (st : St W) : Prop := ∃ n r, run sys n p st = some r

def allOps : List Op :=
  [.absoluteP, .expand, .localName, .asDirectory, .rename, .copy, .copyTo, .copyFrom] ++
  (List.finRange 3).map .name ++ (List.finRange 30).map .file ++ (List.finRange 3).map .object

theorem mem_allOps (op : Op) : op ∈ allOps := by
  cases op <;> simp [allOps]

/-- The calls that are still possible. -/
def room (hs : List Nat) (b : Op → List Nat) : Nat :=
  (allOps.map fun o => hs.countP fun h => decide (h ∉ b o)).sum

theorem sum_lt {α} (f g : α → Nat) : ∀ (l : List α), (∀ x ∈ l, f x ≤ g x) →
    (∃ x ∈ l, f x < g x) → (l.map f).sum < (l.map g).sum
  | [], _, h => by obtain ⟨x, m, _⟩ := h; cases m
  | x :: l, h1, h2 => by
    simp only [List.map_cons, List.sum_cons]
    have hx := h1 x (by simp)
    have hl : (l.map f).sum ≤ (l.map g).sum := by
      have : ∀ (l : List α), (∀ x ∈ l, f x ≤ g x) → (l.map f).sum ≤ (l.map g).sum := by
        intro l
        induction l with
        | nil => intro _; simp
        | cons y l ih =>
          intro h
          have := ih fun z m => h z (by simp [m])
          have := h y (by simp)
          simp only [List.map_cons, List.sum_cons]; omega
      exact this l fun y m => h1 y (by simp [m])
    obtain ⟨y, m, k⟩ := h2
    rcases List.mem_cons.1 m with rfl | m
    · omega
    · have := sum_lt f g l (fun z q => h1 z (by simp [q])) ⟨y, m, k⟩
      omega

theorem countP_le (hs : List Nat) (p q : Nat → Bool) (h : ∀ x, p x = true → q x = true) :
    hs.countP p ≤ hs.countP q := List.countP_mono_left fun x _ => h x

theorem countP_lt (p q : Nat → Bool) (h : ∀ x, p x = true → q x = true) {y : Nat} :
    ∀ (hs : List Nat), y ∈ hs → p y = false → q y = true → hs.countP p < hs.countP q
  | [], m, _, _ => by cases m
  | x :: hs, m, hp, hq => by
    simp only [List.countP_cons]
    by_cases e : x = y
    · subst e
      have := countP_le hs p q h
      simp only [hp, hq, if_true]
      simp; omega
    · have m' : y ∈ hs := by
        rcases List.mem_cons.1 m with q | q
        · exact absurd q.symm e
        · exact q
      have := countP_lt p q h hs m' hp hq
      have : (if p x = true then 1 else 0) ≤ (if q x = true then 1 else 0) := by
        by_cases a : p x = true
        · simp [a, h x a]
        · simp [a]
      omega

theorem room_le (hs : List Nat) (b : Op → List Nat) (op : Op) (h : Nat) :
    room hs (setBlocked b op (h :: b op)) ≤ room hs b := by
  have : ∀ (l : List Op), (l.map fun o => hs.countP fun x =>
      decide (x ∉ setBlocked b op (h :: b op) o)).sum ≤
      (l.map fun o => hs.countP fun x => decide (x ∉ b o)).sum := by
    intro l
    induction l with
    | nil => simp
    | cons o l ih =>
      have := countP_le hs (fun x => decide (x ∉ setBlocked b op (h :: b op) o))
        (fun x => decide (x ∉ b o)) (by
          intro x
          by_cases e : o = op
          · subst e; simp [setBlocked]
          · simp [setBlocked, e])
      simp only [List.map_cons, List.sum_cons]
      omega
  exact this allOps

theorem room_lt (hs : List Nat) (b : Op → List Nat) {op : Op} {h : Nat} (m : h ∈ hs)
    (n : h ∉ b op) : room hs (setBlocked b op (h :: b op)) < room hs b := by
  refine sum_lt _ _ allOps (fun o _ => ?_) ⟨op, mem_allOps op, ?_⟩
  · refine countP_le hs _ _ fun x => ?_
    by_cases e : o = op
    · subst e; simp [setBlocked]
    · simp [setBlocked, e]
  · refine countP_lt _ _ ?_ hs m ?_ ?_
    · intro x; simp [setBlocked]
    · simp [setBlocked]
    · simpa using n

theorem ends_of_run {sys : Sys W} {p : Prog W} {st : St W}
    (h : ∃ q st', Ends sys q st' ∧ ∀ n, run sys (n + 1) p st = run sys n q st') :
    Ends sys p st := by
  obtain ⟨q, st', ⟨n, r, e⟩, k⟩ := h
  exact ⟨n + 1, r, by rw [k, e]⟩

theorem ends (sys : Sys W) (tame : Tame sys) : ∀ (M : Nat) (p : Prog W) (b : Op → List Nat)
    (d : Bool), 2 * room (sys.alist.map Prod.snd) b + d.toNat = M →
    Fine (sys.alist.map Prod.snd) b d p → ∀ st : St W, st.blocked = b → Ends sys p st := by
  intro M
  induction M using Nat.strongRecOn with
  | ind M IH =>
    intro p b d hM f
    induction f with
    | ret => exact fun st _ => ⟨1, _, rfl⟩
    | @act f k _ ih =>
      exact fun st hb => ends_of_run
        ⟨_, _, ih st.world { st with world := f st.world } hb, fun _ => rfl⟩
    | @builtin op args k _ ih =>
      exact fun st hb => ends_of_run
        ⟨_, _, ih (sys.builtin op args st.world).1
          { st with world := (sys.builtin op args st.world).2 } hb, fun _ => rfl⟩
    | @find op name k _ ih =>
      intro st hb
      exact ends_of_run
        ⟨_, _, ih (lookup sys.alist (st.blocked op) name) (fun x e => hb ▸ lookup_mem e)
          { st with log := st.log ++ [.found op name (lookup sys.alist (st.blocked op) name)] } hb,
          fun _ => rfl⟩
    | @enter h op args k hx _ ih =>
      intro st hb
      have body : Ends sys (compile sys.tmp (sys.handler h op args))
          { st with blocked := setBlocked st.blocked op (h :: st.blocked op),
                    log := st.log ++ [.enter h op] } := by
        rw [hb]
        rcases hx with ⟨m, n⟩ | ⟨dr, rfl⟩
        · have lt := room_lt _ b m n
          refine IH _ ?_ _ _ true rfl (fine_compile _ _) _ rfl
          simp only [Bool.toNat_true]
          omega
        · have le := room_le (sys.alist.map Prod.snd) b op h
          refine IH _ ?_ _ _ false rfl (fine_noDirect _ (tame h op args dr)) _ rfl
          simp only [Bool.toNat_true, Bool.toNat_false] at hM ⊢
          omega
      obtain ⟨n, ⟨v, st1⟩, e⟩ := body
      have hr := blocked_restored sys n _ _ e
      have hb1 : setBlocked st1.blocked op (st.blocked op) = b := by
        rw [hr, ← hb]; exact setBlocked_restore _ _ _
      obtain ⟨m, r, e2⟩ := ih v { st1 with blocked := setBlocked st1.blocked op (st.blocked op),
                                           log := st1.log ++ [.leave h op] } hb1
      refine ⟨max n m + 1, r, ?_⟩
      simp only [run]
      rw [run_mono sys n (max n m) _ _ (Nat.le_max_left _ _) e]
      exact run_mono sys m (max n m) _ _ (Nat.le_max_right _ _) e2

/-- C85 (termination): a program that calls functions on files comes to an end, although
handlers call them again, for the same names or others, if the handlers' functions for
open files and for copies to and from local files do not call these again. -/
theorem C85_ends_partial (sys : Sys W) (tame : Tame sys) (u : User W) (w : W) :
    ∃ n r, start sys n u w = some r :=
  ends sys tame _ _ _ true rfl (fine_compile _ _) _ rfl

/-! ### Violations and instances -/

/-- Local files: every name is absolute, and every operation returns its first
argument. -/
def plain : Op → List Val → Unit → Option Val × Unit
  | .absoluteP, _, w => (some (.other 1), w)
  | _, a :: _, w => (some a, w)
  | _, [], w => (some .nil, w)

/-- A system where `~` has a handler, which copies a file to a local one by `copy-file`,
closes a file by `close-file`, and opens one by `open-file`. -/
def demo : Sys Unit :=
  ⟨[(fun s => s == "~", 0)],
   fun _ op args => match op, args with
    | .absoluteP, _ => .ret (some (.other 1))
    | .expand, [.str s] => .ret (some (.str s))
    | .localName, [.str s] => .ret (some (.str s))
    | .file 0, .str s :: a => .call (.file 0 s "/" a) .ret
    | .copyTo, [.str s, .str d] => .call (.copy s d "/") .ret
    | .object i, a => .call (.object i (some 0) a) .ret
    | _, _ => .ret none,
   plain, "/tmp/x"⟩

theorem inv_find {sys : Sys W} {n op name k} {st : St W} {r} {h : Option Nat}
    (e : run sys n (.find op name k) st = some r)
    (hl : lookup sys.alist (st.blocked op) name = h) :
    ∃ m st2, m < n ∧ st2.blocked = st.blocked ∧ run sys m (k h) st2 = some r := by
  cases n with
  | zero => cases e
  | succ n =>
    subst hl
    exact ⟨n, { st with log := st.log ++ [.found op name (lookup sys.alist (st.blocked op) name)] },
      by omega, rfl, e⟩

theorem inv_builtin {sys : Sys W} {n op args k} {st : St W} {r}
    (e : run sys n (.builtin op args k) st = some r) :
    ∃ m st2, m < n ∧ st2.blocked = st.blocked ∧
      run sys m (k (sys.builtin op args st.world).1) st2 = some r := by
  cases n with
  | zero => cases e
  | succ n =>
    exact ⟨n, { st with world := (sys.builtin op args st.world).2 }, by omega, rfl, e⟩

theorem inv_enter {sys : Sys W} {n h op args k} {st : St W} {r}
    (e : run sys n (.enter h op args k) st = some r) :
    ∃ m v st0 st1 st2, m < n ∧ st2.blocked = st.blocked ∧
      st0.blocked = setBlocked st.blocked op (h :: st.blocked op) ∧
      run sys m (compile sys.tmp (sys.handler h op args)) st0 = some (v, st1) ∧
      run sys m (k v) st2 = some r := by
  cases n with
  | zero => cases e
  | succ n =>
    simp only [run] at e
    split at e
    · cases e
    · rename_i v st1 e1
      refine ⟨n, v, _, st1, _, by omega, ?_, rfl, e1, e⟩
      have := blocked_restored sys n _ _ e1
      simp only [this, setBlocked_restore]

theorem inv_ret {sys : Sys W} {n} {st : St W} {x v st1}
    (e : run sys n (.ret x) st = some (v, st1)) : v = x := by
  cases n with
  | zero => cases e
  | succ n => simp only [run, Option.some.injEq, Prod.mk.injEq] at e; exact e.1.symm

/-- C85 is violated: a handler that closes an open file by calling `close-file` on it is
called again, without end. -/
theorem C85_object_violated (n : Nat) :
    start demo n (.call (.object 0 (some 0) []) .ret) () = none := by
  have key : ∀ n (k) (st : St Unit), run demo n (.enter 0 (.object 0) [] k) st = none := by
    intro n
    induction n using Nat.strongRecOn with
    | ind n ih =>
      intro k st
      rcases e : run demo n (.enter 0 (.object 0) [] k) st with _ | r
      · rfl
      · obtain ⟨m, v, st0, st1, st2, lt, _, _, e1, _⟩ := inv_enter e
        have : run demo m (.enter 0 (.object 0) [] fun v => .ret v) st0 = some (v, st1) := e1
        rw [ih m lt] at this
        cases this
  exact key n _ _

theorem find_tilde : lookup demo.alist [] "~" = some 0 := by decide
theorem find_a (l : List Nat) : lookup demo.alist l "a" = none := by
  simp only [demo, lookup]
  have : ("a" == "~") = false := by decide
  simp [this]

/-- C85 is violated: a handler that copies a file to a local one by calling `copy-file`,
which is what it is called for, is called again, without end. -/
theorem C85_copy_violated (n : Nat) :
    start demo n (.call (.copy "~" "a" "/") .ret) () = none := by
  have key : ∀ n (k) (st : St Unit), (∀ o, o ≠ .copyTo → st.blocked o = []) →
      run demo n (perform "/tmp/x" (.copy "~" "a" "/") k) st = none := by
    intro n
    induction n using Nat.strongRecOn with
    | ind n ih =>
      intro k st hb
      rcases e : run demo n (perform "/tmp/x" (.copy "~" "a" "/") k) st with _ | r
      · rfl
      · exfalso
        have lk : ∀ (s : St Unit), s.blocked = st.blocked → ∀ o, o ≠ .copyTo →
            lookup demo.alist (s.blocked o) "~" = some 0 := by
          intro s hs o ho
          rw [hs, hb o ho]; exact find_tilde
        obtain ⟨m1, s1, l1, b1, e⟩ := inv_find e (lk st rfl _ (by decide))
        obtain ⟨m2, v2, _, _, s2, l2, b2, _, c2, e⟩ := inv_enter e
        have := inv_ret (x := some (.other 1)) c2
        subst this
        have b2' : s2.blocked = st.blocked := b2.trans b1
        obtain ⟨m3, s3, l3, b3, e⟩ := inv_find e (lk s2 b2' _ (by decide))
        obtain ⟨m4, v4, _, _, s4, l4, b4, _, c4, e⟩ := inv_enter e
        have := inv_ret (x := some (.str "~")) c4
        subst this
        have b4' : s4.blocked = st.blocked := b4.trans (b3.trans b2')
        obtain ⟨m5, s5, l5, b5, e⟩ := inv_find e (lk s4 b4' _ (by decide))
        obtain ⟨m6, v6, _, _, s6, l6, b6, _, c6, e⟩ := inv_enter e
        have := inv_ret (x := some (.str "~")) c6
        subst this
        have b6' : s6.blocked = st.blocked := b6.trans (b5.trans b4')
        obtain ⟨m7, s7, l7, b7, e⟩ := inv_find e (lk s6 b6' _ (by decide))
        have b7' : s7.blocked = st.blocked := b7.trans b6'
        obtain ⟨m8, s8, l8, b8, e⟩ := inv_find e (find_a _)
        obtain ⟨m9, s9, l9, b9, e⟩ := inv_builtin e
        obtain ⟨m10, s10, l10, b10, e⟩ := inv_find e (find_a _)
        obtain ⟨m11, s11, l11, b11, e⟩ := inv_builtin e
        obtain ⟨m12, s12, l12, b12, e⟩ := inv_find e (find_a _)
        obtain ⟨m13, s13, l13, b13, e⟩ := inv_find e (find_a _)
        obtain ⟨m14, v14, s0, st1, s14, l14, _, b0, c14, _⟩ := inv_enter e
        have c : run demo m14 (perform "/tmp/x" (.copy "~" "a" "/") fun v => .ret v) s0 =
          some (v14, st1) := c14
        rw [ih m14 (by omega)] at c
        · cases c
        · intro o ho
          have : s13.blocked = st.blocked := by
            rw [b13, b12, b11, b10, b9, b8, b7']
          rw [b0]
          simp only [setBlocked, ho, if_false, this]
          exact hb o ho
  exact key n _ _ fun _ _ => rfl

/-- The same system without these two. -/
def tame : Sys Unit :=
  { demo with handler := fun h op args => if op.direct then .ret none else demo.handler h op args }

theorem tame_tame : Tame tame := by
  intro h op args d
  simp only [tame, d, if_true]
  exact .ret

/-- Opening `~` is given to the handler, which calls `open-file` again and gets the file
of the local file system. -/
example : (start tame 40 (.call (.file 0 "~" "/" []) .ret) ()).map Prod.fst =
    some (some (.str "~")) := by decide

end Rep.Handler
