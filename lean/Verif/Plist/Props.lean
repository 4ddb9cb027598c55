/-
C87: properties of symbols.
-/
import Verif.Plist.Model
import Mathlib.Tactic.ByContra

namespace Rep.Plist

/-! ### Specification -/

/-- `equal` as it is used: an equivalence; a symbol is only `equal` to symbols (which
ones does not matter). -/
structure EqOk (e : Env) : Prop where
  refl : ∀ a, e.equal a a = true
  symm : ∀ a b, e.equal a b = true → e.equal b a = true
  trans : ∀ a b c, e.equal a b = true → e.equal b c = true → e.equal a c = true
  sym : ∀ a b, e.equal a b = true → a.isSym = b.isSym

/-- Properties are the same when they are the same symbol, or `equal` and no symbols. -/
def Same (e : Env) (a b : Val) : Prop :=
  a = b ∨ (a.isSym = false ∧ b.isSym = false ∧ e.equal a b = true)

/-- The cells of a list that comes to an end. -/
inductive Path (h : Heap) : Val → List Nat → Prop
  | stop (v : Val) : (∀ a, v ≠ .cell a) → Path h v []
  | step (a : Nat) (l : List Nat) : Path h (h.cdr a) l → Path h (.cell a) (a :: l)

/-- The properties in a list and their values. -/
def entries (h : Heap) : List Nat → List (Val × Val)
  | a :: b :: l => (h.car a, h.car b) :: entries h l
  | _ => []

/-- The states in which each symbol has a list of its own. -/
structure Own (st : St) (cells : Nat → List Nat) : Prop where
  path : ∀ s v, st.plist s = some v → Path st.heap v (cells s)
  old : ∀ s c, st.plist s ≠ none → c ∈ cells s → c < st.heap.next
  apart : ∀ s t c, s ≠ t → st.plist s ≠ none → st.plist t ≠ none → c ∈ cells s → c ∉ cells t

/-- The value of a property: the first in the list, else `nil`. -/
noncomputable def value (e : Env) (es : List (Val × Val)) (prop : Val) : Val :=
  open Classical in
  match es.find? (fun kv => decide (Same e kv.1 prop)) with
  | some kv => kv.2
  | none => .nil

/-! ### Lemmas -/

theorem hit_iff {e : Env} (ok : EqOk e) (k p : Val) : hit e k p = true ↔ Same e k p := by
  simp only [hit, Same, Bool.or_eq_true, Bool.and_eq_true, Bool.not_eq_true', beq_iff_eq]
  constructor
  · rintro (h | ⟨h1, h2⟩)
    · exact .inl h
    · exact .inr ⟨by rw [ok.sym _ _ h2, h1], h1, h2⟩
  · rintro (h | ⟨_, h1, h2⟩)
    · exact .inl h
    · exact .inr ⟨h1, h2⟩

theorem Same.symm {e : Env} (ok : EqOk e) {a b : Val} : Same e a b → Same e b a := by
  rintro (h | ⟨h1, h2, h3⟩)
  · exact .inl h.symm
  · exact .inr ⟨h2, h1, ok.symm _ _ h3⟩

theorem Same.trans {e : Env} (ok : EqOk e) {a b c : Val} : Same e a b → Same e b c → Same e a c := by
  rintro (h | ⟨h1, h2, h3⟩) (g | ⟨g1, g2, g3⟩)
  · exact .inl (h.trans g)
  · exact .inr ⟨h ▸ g1, g2, h ▸ g3⟩
  · exact .inr ⟨h1, g ▸ h2, g ▸ h3⟩
  · exact .inr ⟨h1, g2, ok.trans _ _ _ h3 g3⟩

theorem Path.unique {h : Heap} : ∀ {v l l'}, Path h v l → Path h v l' → l = l' := by
  intro v l l' p
  induction p generalizing l' with
  | stop v hv =>
    intro q
    cases q with
    | stop => rfl
    | step a l' _ => exact absurd rfl (hv a)
  | step a l _ ih =>
    intro q
    cases q with
    | stop _ hv => exact absurd rfl (hv a)
    | step _ l' q => rw [ih q]

theorem Path.suffix {h : Heap} {c : Nat} : ∀ {v l}, Path h v l → c ∈ l →
    ∃ l', Path h (.cell c) (c :: l') ∧ (c :: l').length ≤ l.length := by
  intro v l p
  induction p with
  | stop => intro hc; cases hc
  | step a l q ih =>
    intro hc
    rcases List.mem_cons.1 hc with rfl | hc
    · exact ⟨l, .step _ l q, Nat.le_refl _⟩
    · obtain ⟨l', q', hl⟩ := ih hc
      exact ⟨l', q', by simp only [List.length_cons] at hl ⊢; omega⟩

theorem Path.not_mem {h : Heap} {a : Nat} {l : List Nat} (p : Path h (h.cdr a) l) : a ∉ l := by
  intro hc
  obtain ⟨l', q, hl⟩ := p.suffix hc
  have := q.unique (.step a l p)
  rw [this] at hl
  simp only [List.length_cons] at hl
  omega

theorem Path.nodup {h : Heap} : ∀ {v l}, Path h v l → l.Nodup := by
  intro v l p
  induction p with
  | stop => exact List.nodup_nil
  | step a l q ih => exact List.nodup_cons.2 ⟨q.not_mem, ih⟩

/-- Only the `cdr`s of the cells matter. -/
theorem Path.congr {h h' : Heap} : ∀ {v l}, Path h v l → (∀ c ∈ l, h'.cdr c = h.cdr c) →
    Path h' v l := by
  intro v l p
  induction p with
  | stop v hv => intro _; exact .stop v hv
  | step a l q ih =>
    intro hc
    refine .step a l ?_
    rw [hc a (by simp)]
    exact ih fun c m => hc c (by simp [m])

theorem entries_congr {h h' : Heap} : ∀ {l : List Nat}, (∀ c ∈ l, h'.car c = h.car c) →
    entries h' l = entries h l
  | [], _ => rfl
  | [_], _ => rfl
  | a :: b :: l, hc => by
    simp only [entries]
    rw [hc a (by simp), hc b (by simp), entries_congr fun c m => hc c (by simp [m])]

/-- The loop of `get`. -/
theorem getLoop_eq {e : Env} (ok : EqOk e) {h : Heap} (prop : Val) : ∀ (n : Nat) (v : Val)
    (l : List Nat), Path h v l → l.length < 2 * n →
    getLoop e h prop n v = some (value e (entries h l) prop)
  | 0, _, _, _, hl => by omega
  | n + 1, v, l, p, hl => by
    cases p with
    | stop _ hv =>
      cases v with
      | cell a => exact absurd rfl (hv a)
      | sym => rfl
      | other => rfl
    | step a l q =>
      simp only [getLoop]
      generalize hw : h.cdr a = w at q
      cases q with
      | stop _ hv =>
        cases w with
        | cell b => exact absurd rfl (hv b)
        | sym => rfl
        | other => rfl
      | step b l q =>
        simp only [entries, value, List.find?]
        by_cases hh : hit e (h.car a) prop = true
        · simp [hh, (hit_iff ok _ _).1 hh]
        · have : ¬ Same e (h.car a) prop := fun s => hh ((hit_iff ok _ _).2 s)
          simp only [hh, this, decide_false, if_false]
          rw [getLoop_eq ok prop n _ l q (by simp only [List.length_cons] at hl; omega)]
          rfl

/-- The loop of `put`: it finds the cell of the first value. -/
theorem findLoop_eq {e : Env} (ok : EqOk e) {h : Heap} (prop : Val) : ∀ (n : Nat) (v : Val)
    (l : List Nat), Path h v l → l.length < 2 * n →
    (findLoop e h prop n v = some none ∧ ∀ kv ∈ entries h l, ¬ Same e kv.1 prop) ∨
    ∃ b, findLoop e h prop n v = some (some b) ∧ b ∈ l ∧ ∀ val,
      ∃ pre k old post, entries h l = pre ++ (k, old) :: post ∧ Same e k prop ∧
        (∀ kv ∈ pre, ¬ Same e kv.1 prop) ∧
        entries (setCar h b val) l = pre ++ (k, val) :: post
  | 0, _, _, _, hl => by omega
  | n + 1, v, l, p, hl => by
    cases p with
    | stop _ hv =>
      left
      cases v with
      | cell a => exact absurd rfl (hv a)
      | sym => exact ⟨rfl, fun _ h => by cases h⟩
      | other => exact ⟨rfl, fun _ h => by cases h⟩
    | step a l q =>
      have na := q.not_mem
      simp only [findLoop]
      generalize hw : h.cdr a = w at q
      cases q with
      | stop _ hv =>
        left
        cases w with
        | cell b => exact absurd rfl (hv b)
        | sym => exact ⟨rfl, fun _ h => by cases h⟩
        | other => exact ⟨rfl, fun _ h => by cases h⟩
      | step b l q =>
        have nb := q.not_mem
        have nab : a ≠ b := fun e => na (by simp [e])
        have nal : a ∉ l := fun e => na (by simp [e])
        by_cases hh : hit e (h.car a) prop = true
        · right
          refine ⟨b, by simp [hh], by simp, fun val => ⟨[], h.car a, h.car b, entries h l, rfl,
            (hit_iff ok _ _).1 hh, (fun _ h => by cases h), ?_⟩⟩
          simp only [entries, List.nil_append]
          rw [entries_congr (h := h) (l := l) fun c m => by
            have : c ≠ b := fun e => nb (e ▸ m)
            simp [setCar, this]]
          simp [setCar, nab]
        · have ns : ¬ Same e (h.car a) prop := fun s => hh ((hit_iff ok _ _).2 s)
          simp only [hh, if_false]
          rcases findLoop_eq ok prop n _ l q (by simp only [List.length_cons] at hl; omega) with
            ⟨e1, e2⟩ | ⟨c, e1, hc, e2⟩
          · left
            refine ⟨e1, fun kv m => ?_⟩
            simp only [entries] at m
            rcases List.mem_cons.1 m with rfl | m
            · exact ns
            · exact e2 kv m
          · right
            refine ⟨c, e1, by simp [hc], fun val => ?_⟩
            obtain ⟨pre, k, old, post, f1, f2, f3, f4⟩ := e2 val
            refine ⟨(h.car a, h.car b) :: pre, k, old, post, by simp [entries, f1], f2, ?_, ?_⟩
            · intro kv m
              rcases List.mem_cons.1 m with rfl | m
              · exact ns
              · exact f3 kv m
            · simp only [entries, f4]
              have c1 : a ≠ c := fun e => nal (e ▸ hc)
              have c2 : b ≠ c := fun e => nb (e ▸ hc)
              simp [setCar, c1, c2]

theorem value_first {e : Env} {pre post : List (Val × Val)} {k v prop : Val}
    (hp : ∀ kv ∈ pre, ¬ Same e kv.1 prop) (hk : Same e k prop) :
    value e (pre ++ (k, v) :: post) prop = v := by
  have : pre.find? (fun kv => open Classical in decide (Same e kv.1 prop)) = none := by
    rw [List.find?_eq_none]; intro kv m; simpa using hp kv m
  simp [value, List.find?_append, this, hk]

theorem value_skip {e : Env} {pre post : List (Val × Val)} {k v w prop : Val}
    (hk : ¬ Same e k prop) :
    value e (pre ++ (k, v) :: post) prop = value e (pre ++ (k, w) :: post) prop := by
  simp [value, List.find?_append, List.find?_cons, hk]

/-! ### Theorems -/

/-- What a symbol's list says. -/
def table (st : St) (cells : Nat → List Nat) (s : Nat) : List (Val × Val) :=
  match st.plist s with
  | none => []
  | some _ => entries st.heap (cells s)

/-- C87 (`get`): in a state where lists end, `get` returns the value of the first entry
of the property, or nil. -/
theorem C87_get {e : Env} (ok : EqOk e) {st : St} {cells : Nat → List Nat} (o : Own st cells)
    (s : Nat) (prop : Val) {n : Nat} (hn : (cells s).length < 2 * n) :
    get e n st s prop = some (value e (table st cells s) prop) := by
  unfold get table
  cases hp : st.plist s with
  | none => rfl
  | some v => exact getLoop_eq ok prop n v _ (o.path s v hp) hn

/-- C87 (`put`): afterwards the property of the symbol has this value, and all other
properties of all symbols have the values they had; the lists stay apart. -/
theorem C87_put_partial {e : Env} (ok : EqOk e) {st : St} {cells : Nat → List Nat}
    (o : Own st cells) (s : Nat) (prop val : Val) (vis : e.visible s = true) {n : Nat}
    (hn : (cells s).length < 2 * n) :
    ∃ st' cells', put e n st s prop val = some (some st') ∧ Own st' cells' ∧
      ∀ t q, value e (table st' cells' t) q =
        open Classical in
        if t = s ∧ Same e prop q then val else value e (table st cells t) q := by
  classical
  -- a new entry at the front
  have hpush : ∀ old l, Path st.heap old l → (∀ c ∈ l, c < st.heap.next) →
      (∀ v, st.plist s = some v → v = old ∧ l = cells s) →
      (st.plist s = none → l = []) →
      ∀ st', st' = define { st with heap := (cons (cons st.heap val old).2 prop
          (cons st.heap val old).1).2 } s (.cell (st.heap.next + 1)) →
      ∃ cells', Own st' cells' ∧ ∀ t q, value e (table st' cells' t) q =
        if t = s ∧ Same e prop q then val else value e (table st cells t) q := by
    intro old l p lt h1 h2 st' rfl
    have lt2 : ∀ t c, st.plist t ≠ none → c ∈ cells t → c < st.heap.next := fun t c => o.old t c
    refine ⟨fun t => if t = s then (st.heap.next + 1) :: st.heap.next :: l else cells t,
      ⟨?_, ?_, ?_⟩, ?_⟩
    · intro t v hv
      by_cases ts : t = s
      · subst ts
        simp only [define, if_true, Option.some.injEq] at hv
        subst hv
        simp only [if_true]
        refine .step _ _ ?_
        have : (define { st with heap := (cons (cons st.heap val old).2 prop
          (cons st.heap val old).1).2 } t (.cell (st.heap.next + 1))).heap.cdr (st.heap.next + 1) =
            .cell st.heap.next := by simp [define, cons]
        rw [this]
        refine .step _ _ ?_
        have : (define { st with heap := (cons (cons st.heap val old).2 prop
          (cons st.heap val old).1).2 } t (.cell (st.heap.next + 1))).heap.cdr st.heap.next =
            old := by simp [define, cons]
        rw [this]
        exact p.congr fun c m => by
          have := lt c m
          have a1 : c ≠ st.heap.next := by omega
          have a2 : c ≠ st.heap.next + 1 := by omega
          simp [define, cons, a1, a2]
      · simp only [define, ts, if_false] at hv ⊢
        refine (o.path t v hv).congr fun c m => ?_
        have := lt2 t c (by rw [hv]; simp) m
        have a1 : c ≠ st.heap.next := by omega
        have a2 : c ≠ st.heap.next + 1 := by omega
        simp [cons, a1, a2]
    · intro t c hv m
      show c < st.heap.next + 1 + 1
      by_cases ts : t = s
      · simp only [ts, if_true, List.mem_cons] at m
        rcases m with rfl | rfl | m
        · omega
        · omega
        · have := lt c m; omega
      · simp only [define, ts, if_false] at hv m
        have := lt2 t c hv m; omega
    · intro t u c tu ht hu m
      by_cases ts : t = s
      · have us : u ≠ s := fun e => tu (ts.trans e.symm)
        simp only [define, us, ts, if_true, if_false] at m hu ⊢
        intro m'
        have := lt2 u c hu m'
        rcases List.mem_cons.1 m with rfl | m
        · omega
        rcases List.mem_cons.1 m with rfl | m
        · omega
        cases hs : st.plist s with
        | none => rw [h2 hs] at m; cases m
        | some v =>
          rw [(h1 v hs).2] at m
          exact o.apart s u c (Ne.symm us) (by rw [hs]; simp) hu m m'
      · simp only [define, ts, if_false] at ht m
        by_cases us : u = s
        · simp only [us, if_true]
          intro m'
          have := lt2 t c ht m
          rcases List.mem_cons.1 m' with rfl | m'
          · omega
          rcases List.mem_cons.1 m' with rfl | m'
          · omega
          cases hs : st.plist s with
          | none => rw [h2 hs] at m'; cases m'
          | some v =>
            rw [(h1 v hs).2] at m'
            exact o.apart t s c ts ht (by rw [hs]; simp) m m'
        · simp only [define, us, if_false] at hu ⊢
          exact o.apart t u c tu ht hu m
    · intro t q
      by_cases ts : t = s
      · subst ts
        have e1 : entries (define { st with heap := (cons (cons st.heap val old).2 prop
            (cons st.heap val old).1).2 } t (.cell (st.heap.next + 1))).heap
            ((st.heap.next + 1) :: st.heap.next :: l) = (prop, val) :: entries st.heap l := by
          simp only [entries]
          rw [entries_congr (h := st.heap) (l := l) fun c m => by
            have := lt c m
            have a1 : c ≠ st.heap.next := by omega
            have a2 : c ≠ st.heap.next + 1 := by omega
            simp [define, cons, a1, a2]]
          simp [define, cons]
        have e2 : entries st.heap l = table st cells t := by
          unfold table
          cases hs : st.plist t with
          | none => simp [h2 hs, entries]
          | some v => rw [(h1 v hs).2]
        have e3 : table (define { st with heap := (cons (cons st.heap val old).2 prop
            (cons st.heap val old).1).2 } t (.cell (st.heap.next + 1)))
            (fun u => if u = t then (st.heap.next + 1) :: st.heap.next :: l else cells u) t =
            (prop, val) :: table st cells t := by
          rw [← e2, ← e1]; simp [table, define]
        rw [e3]
        by_cases sp : Same e prop q
        · simp only [sp, and_self, if_true]
          exact value_first (pre := []) (by simp) sp
        · simp only [sp, and_false, if_false]
          simp [value, List.find?_cons, sp]
      · simp only [ts, false_and, if_false]
        congr 1
        simp only [table, define, ts, if_false]
        cases ht : st.plist t with
        | none => rfl
        | some v =>
          refine entries_congr fun c m => ?_
          have := lt2 t c (by rw [ht]; simp) m
          have a1 : c ≠ st.heap.next := by omega
          have a2 : c ≠ st.heap.next + 1 := by omega
          simp [cons, a1, a2]
  unfold put
  simp only [vis, Bool.not_true, Bool.false_eq_true, if_false]
  cases hs : st.plist s with
  | none =>
    have h0 : Path st.heap .nil [] := .stop _ (fun a h => by cases h)
    have hf : findLoop e st.heap prop n .nil = some none := by
      cases n with
      | zero => omega
      | succ n => rfl
    simp only [Option.getD_none, hf]
    obtain ⟨cells', k1, k2⟩ := hpush .nil [] h0 (by simp) (by simp [hs]) (by simp) _ rfl
    exact ⟨_, cells', rfl, k1, k2⟩
  | some old =>
    have p := o.path s old hs
    simp only [Option.getD_some]
    obtain ⟨cells', k1, k2⟩ := hpush old (cells s) p (fun c m => o.old s c (by rw [hs]; simp) m)
      (by rw [hs]; simp) (by rw [hs]; simp) _ rfl
    rcases findLoop_eq ok prop n old _ p hn with ⟨e1, _⟩ | ⟨b, e1, hb, e2⟩
    · simp only [e1]
      exact ⟨_, cells', rfl, k1, k2⟩
    · simp only [e1]
      by_cases w : st.heap.writable b = true
      · simp only [w, if_true]
        obtain ⟨pre, k, oldv, post, f1, f2, f3, f4⟩ := e2 val
        refine ⟨_, cells, rfl, ⟨fun t v hv => (o.path t v hv).congr fun _ _ => rfl, o.old, o.apart⟩, ?_⟩
        intro t q
        by_cases ts : t = s
        · subst ts
          have t1 : table st cells t = pre ++ (k, oldv) :: post := by
            rw [← f1]; simp [table, hs]
          have t2 : table { st with heap := setCar st.heap b val } cells t =
              pre ++ (k, val) :: post := by
            rw [← f4]; simp [table, hs]
          rw [t1, t2]
          by_cases sp : Same e prop q
          · simp only [sp, and_self, if_true]
            refine value_first (fun kv m hq => f3 kv m (hq.trans ok (sp.symm ok))) (f2.trans ok sp)
          · simp only [sp, and_false, if_false]
            exact value_skip fun h => sp ((f2.symm ok).trans ok h)
        · simp only [ts, false_and, if_false]
          congr 1
          simp only [table]
          cases ht : st.plist t with
          | none => rfl
          | some v =>
            refine entries_congr fun c m => ?_
            have : c ≠ b := fun e => o.apart s t b (Ne.symm ts) (by rw [hs]; simp)
              (by rw [ht]; simp) hb (e ▸ m)
            simp [setCar, this]
      · simp only [w, if_false]
        exact ⟨_, cells', rfl, k1, k2⟩

/-- What else programs do: other cells are made and changed (not those of the lists). -/
def Elsewhere (st st' : St) (cells : Nat → List Nat) : Prop :=
  st'.plist = st.plist ∧ st.heap.next ≤ st'.heap.next ∧
  ∀ s c, st.plist s ≠ none → c ∈ cells s → st'.heap.car c = st.heap.car c ∧
    st'.heap.cdr c = st.heap.cdr c

theorem C87_elsewhere {st st' : St} {cells : Nat → List Nat} (o : Own st cells)
    (h : Elsewhere st st' cells) :
    Own st' cells ∧ ∀ t, table st' cells t = table st cells t := by
  obtain ⟨h1, h2, h3⟩ := h
  refine ⟨⟨fun s v hv => ?_, fun s c hs m => ?_, fun s t c n hs ht m => ?_⟩, fun t => ?_⟩
  · rw [h1] at hv
    exact (o.path s v hv).congr fun c m => (h3 s c (by rw [hv]; simp) m).2
  · rw [h1] at hs
    have := o.old s c hs m; omega
  · rw [h1] at hs ht
    exact o.apart s t c n hs ht m
  · simp only [table, h1]
    cases ht : st.plist t with
    | none => rfl
    | some v => exact entries_congr fun c m => (h3 t c (by rw [ht]; simp) m).1

/-- `setplist` with a list that no other symbol has. -/
theorem C87_setplist_partial {e : Env} {st : St} {cells : Nat → List Nat} (o : Own st cells)
    (s : Nat) (v : Val) {l : List Nat} (vis : e.visible s = true) (p : Path st.heap v l)
    (lt : ∀ c ∈ l, c < st.heap.next)
    (ap : ∀ t c, t ≠ s → st.plist t ≠ none → c ∈ cells t → c ∉ l) :
    ∃ st', setplist e st s v = some st' ∧
      Own st' (fun t => if t = s then l else cells t) ∧ symbolPlist e st' s = some v ∧
      table st' (fun t => if t = s then l else cells t) s = entries st.heap l ∧
      ∀ t, t ≠ s → table st' (fun t => if t = s then l else cells t) t = table st cells t := by
  refine ⟨define st s v, by simp [setplist, vis], ⟨?_, ?_, ?_⟩, by simp [symbolPlist, vis, define],
    by simp [table, define], fun t ht => by simp [table, define, ht]⟩
  · intro t w hw
    by_cases ts : t = s
    · simp only [define, ts, if_true, Option.some.injEq] at hw ⊢
      subst hw; exact p
    · simp only [define, ts, if_false] at hw ⊢
      exact o.path t w hw
  · intro t c ht m
    by_cases ts : t = s
    · simp only [ts, if_true] at m
      exact lt c m
    · simp only [define, ts, if_false] at ht m
      exact o.old t c ht m
  · intro t u c tu ht hu m
    by_cases ts : t = s
    · have us : u ≠ s := fun e => tu (ts.trans e.symm)
      simp only [define, ts, us, if_true, if_false] at hu m ⊢
      exact fun m' => ap u c us hu m' m
    · simp only [define, ts, if_false] at ht m
      by_cases us : u = s
      · simp only [us, if_true]
        exact ap t c ts ht m
      · simp only [define, us, if_false] at hu ⊢
        exact o.apart t u c tu ht hu m

/-- Programs: properties are set, and other things are done. -/
inductive History (e : Env) : St → List (Nat × Val × Val) → St → Prop
  | done (st) : History e st [] st
  | put (st s prop val n st' es st'') : put e n st s prop val = some (some st') →
      History e st' es st'' → History e st ((s, prop, val) :: es) st''
  | other (st cells st' es st'') : Own st cells → Elsewhere st st' cells →
      History e st' es st'' → History e st es st''

/-- The last value put. -/
noncomputable def lastPut (e : Env) (es : List (Nat × Val × Val)) (t : Nat) (q : Val)
    (init : Val) : Val :=
  open Classical in
  es.foldl (fun v p => if t = p.1 ∧ Same e p.2.1 q then p.2.2 else v) init

theorem findLoop_mono {e : Env} {h : Heap} {prop : Val} : ∀ {n k : Nat} {v : Val} {r},
    findLoop e h prop n v = some r → findLoop e h prop (n + k) v = some r
  | 0, _, _, _, hr => by cases hr
  | n + 1, k, v, r, hr => by
    rw [Nat.add_right_comm]
    cases v with
    | cell a =>
      simp only [findLoop] at hr ⊢
      cases hc : h.cdr a with
      | cell b =>
        simp only [hc] at hr ⊢
        by_cases hh : hit e (h.car a) prop = true
        · simpa [hh] using hr
        · simp only [hh, if_false] at hr ⊢
          exact findLoop_mono hr
      | sym => simpa [hc] using hr
      | other => simpa [hc] using hr
    | sym => exact hr
    | other => exact hr

theorem put_mono {e : Env} {st : St} {s : Nat} {prop val : Val} {n k : Nat} {r}
    (h : put e n st s prop val = some r) : put e (n + k) st s prop val = some r := by
  unfold put at h ⊢
  by_cases vis : e.visible s = true
  · simp only [vis, Bool.not_true, Bool.false_eq_true, if_false] at h ⊢
    cases hf : findLoop e st.heap prop n ((st.plist s).getD .nil) with
    | none => rw [hf] at h; cases h
    | some x => rw [findLoop_mono hf]; rw [hf] at h; exact h
  · simpa [vis] using h

theorem Own.table_eq {st : St} {c1 c2 : Nat → List Nat} (o1 : Own st c1) (o2 : Own st c2)
    (t : Nat) : table st c1 t = table st c2 t := by
  unfold table
  cases ht : st.plist t with
  | none => rfl
  | some v => simp only; rw [(o1.path t v ht).unique (o2.path t v ht)]

/-- C87: after any history of `put`s, with anything done elsewhere between them, `get`
returns the last value put under that property of that symbol, or what it returned at
first. -/
theorem C87_history {e : Env} (ok : EqOk e) {st st' : St} {cells : Nat → List Nat}
    {es : List (Nat × Val × Val)} (o : Own st cells) (h : History e st es st') (t : Nat)
    (q : Val) :
    ∃ m, ∀ n, m ≤ n → get e n st' t q =
      some (lastPut e es t q (value e (table st cells t) q)) := by
  induction h generalizing cells with
  | done st =>
    exact ⟨(cells t).length + 1, fun n hn => C87_get ok o t q (by omega)⟩
  | put st s prop val n st' es st'' hp _ ih =>
    have vis : e.visible s = true := by
      by_contra hv
      have hv : e.visible s = false := by simpa using hv
      simp [put, hv] at hp
    obtain ⟨st1, cells', e1, o', hv⟩ := C87_put_partial ok o s prop val vis
      (n := n + ((cells s).length + 1)) (by omega)
    have e2 := put_mono (k := (cells s).length + 1) hp
    rw [e1] at e2
    cases e2
    obtain ⟨m, hm⟩ := ih o'
    refine ⟨m, fun n hn => ?_⟩
    rw [hm n hn, hv]
    rfl
  | other st cells1 st' es st'' o1 he _ ih =>
    obtain ⟨o', ht⟩ := C87_elsewhere o1 he
    obtain ⟨m, hm⟩ := ih o'
    exact ⟨m, fun n hn => by rw [hm n hn, ht, o1.table_eq o]⟩

theorem findLoop_setCar {e : Env} {h : Heap} {prop val : Val} : ∀ {n : Nat} {v : Val} {l : List Nat} {b},
    Path h v l → findLoop e h prop n v = some (some b) →
    b ∈ l ∧ findLoop e (setCar h b val) prop n v = some (some b)
  | 0, _, _, _, _, hr => by cases hr
  | n + 1, v, l, b, p, hr => by
    cases p with
    | stop _ hv =>
      cases v with
      | cell a => exact absurd rfl (hv a)
      | sym => cases hr
      | other => cases hr
    | step a l q =>
      have na := q.not_mem
      simp only [findLoop] at hr ⊢
      generalize hw : h.cdr a = w at q hr
      have hw' : (setCar h b val).cdr a = w := hw
      rw [hw']
      cases q with
      | stop _ hv =>
        cases w with
        | cell c => exact absurd rfl (hv c)
        | sym => cases hr
        | other => cases hr
      | step c l q =>
        have nac : a ≠ c := fun e => na (by simp [e])
        simp only at hr ⊢
        by_cases hh : hit e (h.car a) prop = true
        · simp only [hh, if_true, Option.some.injEq] at hr
          subst hr
          have : (setCar h c val).car a = h.car a := by simp [setCar, nac]
          exact ⟨by simp, by rw [this]; simp [hh]⟩
        · simp only [hh] at hr
          obtain ⟨hb, k⟩ := findLoop_setCar (val := val) q hr
          have : (setCar h b val).car a = h.car a := by
            have : a ≠ b := fun e => na (by rw [e]; simp [hb])
            simp [setCar, this]
          refine ⟨by simp [hb], ?_⟩
          rw [this]
          simp only [hh]
          exact k

/-- C87: a property put again is changed in its place: the list does not grow, and no
cell is made. -/
theorem C87_put_again {e : Env} {st st' st'' : St} {cells : Nat → List Nat} (o : Own st cells)
    {s : Nat} {prop v w : Val} {n m : Nat} (h1 : put e n st s prop v = some (some st'))
    (h2 : put e m st' s prop w = some (some st'')) :
    st''.plist = st'.plist ∧ st''.heap.next = st'.heap.next := by
  have vis : e.visible s = true := by
    by_contra hv
    have hv : e.visible s = false := by simpa using hv
    simp [put, hv] at h1
  have hk : ∀ p, hit e p p = true := fun p => by simp [hit]
  -- it is found again
  have found : ∃ b k, findLoop e st'.heap prop k ((st'.plist s).getD .nil) = some (some b) ∧
      st'.heap.writable b = true := by
    unfold put at h1
    simp only [vis, Bool.not_true, Bool.false_eq_true, if_false] at h1
    have front : ∀ old st', st' = define { st with heap := (cons (cons st.heap v old).2 prop
          (cons st.heap v old).1).2 } s (.cell (st.heap.next + 1)) →
        ∃ b k, findLoop e st'.heap prop k ((st'.plist s).getD .nil) = some (some b) ∧
          st'.heap.writable b = true := by
      rintro old st' rfl
      refine ⟨st.heap.next, 1, ?_, by simp [define, cons]⟩
      simp [define, cons, findLoop, hk]
    split at h1
    · cases h1
    · cases h1
      exact front _ _ rfl
    · rename_i b hb
      split at h1
      · rename_i hw
        cases h1
        refine ⟨b, n, ?_, hw⟩
        cases hs : st.plist s with
        | none =>
          rw [hs] at hb
          cases n with
          | zero => cases hb
          | succ n => cases hb
        | some old =>
          rw [hs] at hb
          simp only [Option.getD_some] at hb ⊢
          exact (findLoop_setCar (o.path s old hs) hb).2
      · cases h1
        exact front _ _ rfl
  obtain ⟨b, k, hb, hw⟩ := found
  have h3 := put_mono (k := k) h2
  have hb' := findLoop_mono (k := m) hb
  rw [Nat.add_comm] at hb'
  unfold put at h3
  simp only [vis, Bool.not_true, Bool.false_eq_true, if_false, hb', hw, if_true,
    Option.some.injEq] at h3
  rw [← h3]
  exact ⟨rfl, rfl⟩

/-! ### Violations and examples -/

/-- `equal` as identity. -/
def plain : Env := ⟨fun a b => a == b, fun _ => true⟩

theorem plain_ok : EqOk plain :=
  ⟨fun a => by simp [plain], fun a b h => by simp [plain] at h ⊢; exact h.symm,
    fun a b c h g => by simp [plain] at h g ⊢; exact h.trans g,
    fun a b h => by simp [plain] at h; rw [h]⟩

/-- No symbol has properties. -/
def empty : St := ⟨⟨fun _ => .nil, fun _ => .nil, fun _ => true, 0⟩, fun _ => none⟩

theorem empty_own : Own empty (fun _ => []) :=
  ⟨(fun _ _ h => by cases h), (fun _ _ _ h => by cases h), (fun _ _ _ _ _ _ h => by cases h)⟩

/-- Two symbols with one list: `(put 'a 'p 1) (setplist 'b (symbol-plist 'a))`. -/
def shared : Option St := do
  let st ← (← put plain 1 empty 10 (.sym 1) (.other 1))
  setplist plain st 11 (← symbolPlist plain st 10)

/-- C87 is violated: a property put on one symbol is changed on the other. -/
theorem C87_shared_violated : ∃ st st', shared = some st ∧
    get plain 2 st 11 (.sym 1) = some (.other 1) ∧
    put plain 2 st 10 (.sym 1) (.other 2) = some (some st') ∧
    get plain 2 st' 11 (.sym 1) = some (.other 2) := by
  refine ⟨_, _, rfl, by decide, rfl, by decide⟩

/-- A circular list. -/
def circular : St :=
  ⟨⟨fun _ => .sym 1, fun _ => .cell 0, fun _ => true, 1⟩, fun _ => some (.cell 0)⟩

/-- C87 is violated: with a circular list `get` does not end. -/
theorem C87_circular_violated : ∀ n, get plain n circular 5 (.sym 2) = none := by
  have : ∀ n, getLoop plain circular.heap (.sym 2) n (.cell 0) = none := by
    intro n
    induction n with
    | zero => rfl
    | succ n ih =>
      have h : hit plain (.sym 1) (.sym 2) = false := by decide
      simpa [getLoop, circular, h] using ih
  exact this

/-- C87 is violated: `get` works on symbols for which `put` and `symbol-plist` signal an
error. -/
theorem C87_restricted_violated (e : Env) (n : Nat) (st : St) (s : Nat) (p v : Val)
    (h : e.visible s = false) :
    put e n st s p v = some none ∧ symbolPlist e st s = none ∧
    (get e (n + 1) empty s p = some .nil) := by
  refine ⟨by simp [put, h], by simp [symbolPlist, h], rfl⟩

/-- Two properties of one symbol, one changed again. -/
example : ∃ a b c, put plain 1 empty 10 (.sym 1) (.other 1) = some (some a) ∧
    put plain 2 a 10 (.other 7) (.other 2) = some (some b) ∧
    put plain 3 b 10 (.sym 1) (.other 3) = some (some c) ∧
    get plain 3 c 10 (.sym 1) = some (.other 3) ∧ get plain 3 c 10 (.other 7) = some (.other 2) ∧
    get plain 3 c 11 (.sym 1) = some .nil := by
  refine ⟨_, _, _, rfl, rfl, rfl, by decide, by decide, by decide⟩
/-- A history. -/
example : ∃ st, History plain empty [(10, .sym 1, .other 1)] st := by
  refine ⟨_, .put _ _ _ _ 1 _ _ _ rfl (.done _)⟩

end Rep.Plist
