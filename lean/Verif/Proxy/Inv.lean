import Verif.Proxy.Spec
import Mathlib.Data.List.Perm.Subperm
import Mathlib.Data.List.Nodup

/-
The invariant of the proxy.
-/

namespace Rep.Proxy

/-- All calls: thread, argument, whether it waits. -/
def calls (l : List Seen) : List (Nat × Nat × Bool) :=
  l.filterMap fun
    | .sent t a b => some (t, a, b)
    | _ => none

theorem args_eq (l : List Seen) : args l = (calls l).map (·.2.1) := by
  unfold args calls
  induction l with
  | nil => rfl
  | cons x l ih => cases x <;> simp_all

theorem callers_eq (l : List Seen) : callers l = (calls l).map fun c => (c.1, c.2.2) := by
  unfold callers calls
  induction l with
  | nil => rfl
  | cons x l ih => cases x <;> simp_all

/-- The calls that have returned. -/
def rets (l : List Seen) : List Nat :=
  l.filterMap fun
    | .ret _ n _ => some n
    | _ => none

/-- The message of a call. -/
def msg (i : Nat) (c : Nat × Nat × Bool) : Msg := if c.2.2 then .sync i c.2.1 else .async c.2.1

def msgs (cs : List (Nat × Nat × Bool)) : List Msg := cs.mapIdx msg

def aft (F : Fn) (st : Nat) (as : List Nat) : Nat := as.foldl (fun s a => (F s a).1) st

theorem outs_append (F : Fn) (as bs : List Nat) : ∀ st, outs F st (as ++ bs) = outs F st as ++ outs F (aft F st as) bs := by
  induction as with
  | nil => intro st; rfl
  | cons a as ih => intro st; simp [outs, ih, aft]

theorem outs_length (F : Fn) (as : List Nat) : ∀ st, (outs F st as).length = as.length := by
  induction as with
  | nil => intro st; rfl
  | cons a as ih => intro st; simp [outs, ih]

theorem outs_get (F : Fn) (as : List Nat) : ∀ (st k a : Nat), as[k]? = some a →
    (outs F st as)[k]? = some (F (aft F st (as.take k)) a).2 ∧ (F (aft F st (as.take k)) a).1 = aft F st (as.take (k + 1)) := by
  induction as with
  | nil => intro st k a h; simp at h
  | cons b as ih =>
    intro st k a h
    cases k with
    | zero => simp at h; subst h; simp [outs, aft]
    | succ k =>
      have := ih (F st b).1 k a (by simpa using h)
      simpa [outs, aft] using this

theorem outs_old (F : Fn) (st : Nat) (as : List Nat) (a n : Nat) (o : Out) (h : (outs F st as)[n]? = some o) :
    (outs F st (as ++ [a]))[n]? = some o := by
  rw [outs_append, List.getElem?_append_left (List.getElem?_eq_some_iff.1 h).1, h]

/-- A message in a port for results, as an end of the function. -/
def toOut (r : Bool × Nat) : Out := if r.1 then .value r.2 else .raise r.2

/-- `k` calls have been carried out. -/
structure Inv (F : Fn) (st0 k : Nat) (s : State) : Prop where
  next : s.next = (calls s.log).length
  le : k ≤ (calls s.log).length
  idle : s.worker = .idle → s.inport = (msgs (calls s.log)).drop k ∧ s.st = aft F st0 ((args s.log).take k)
  busy : ∀ m, s.worker = .busy m → (msgs (calls s.log))[k]? = some m ∧ s.inport = (msgs (calls s.log)).drop (k + 1) ∧
    s.st = aft F st0 ((args s.log).take k)
  port : ∀ n, s.ports n = [] ∨ ∃ r, s.ports n = [r] ∧ n < k ∧ (outs F st0 (args s.log))[n]? = some (toOut r)
  waits : ∀ t n, s.waits t = some n → (callers s.log)[n]? = some (t, true) ∧ n ∉ rets s.log
  ret : ∀ t n o, .ret t n o ∈ s.log → (callers s.log)[n]? = some (t, true) ∧ (outs F st0 (args s.log))[n]? = some o ∧ o ≠ .self ∧ n < k
  nodup : (rets s.log).Nodup
  /-- a call that was carried out has its result in the port until it returns -/
  kept : ∀ t n, n < k → (callers s.log)[n]? = some (t, true) → n ∉ rets s.log → s.ports n ≠ []

theorem start_inv (F : Fn) (st0 : Nat) : Inv F st0 0 (.start st0) := by
  constructor <;> simp [State.start, calls, msgs, args, aft, rets, callers]

theorem ret_mem {l : List Seen} {n : Nat} : n ∈ rets l ↔ ∃ t o, .ret t n o ∈ l := by
  unfold rets
  rw [List.mem_filterMap]
  constructor
  · rintro ⟨x, hx, e⟩
    cases x <;> simp at e
    subst e
    exact ⟨_, _, hx⟩
  · rintro ⟨t, o, h⟩
    exact ⟨_, h, rfl⟩

/-! A new call. -/

theorem send_inv {F : Fn} {st0 k : Nat} {s : State} (h : Inv F st0 k s) (t x : Nat) (b : Bool) (w : Nat → Option Nat)
    (hw : ∀ u n, w u = some n → s.waits u = some n ∨ (u = t ∧ n = s.next ∧ b = true)) :
    Inv F st0 k { s with inport := s.inport ++ [msg s.next (t, x, b)], waits := w, next := s.next + 1, log := s.log ++ [.sent t x b] } := by
  have hc : calls (s.log ++ [.sent t x b]) = calls s.log ++ [(t, x, b)] := by simp [calls, List.filterMap_append]
  have hr : rets (s.log ++ [.sent t x b]) = rets s.log := by simp [rets, List.filterMap_append]
  have ha : args (s.log ++ [.sent t x b]) = args s.log ++ [x] := by simp [args, List.filterMap_append]
  have hcl : callers (s.log ++ [.sent t x b]) = callers s.log ++ [(t, b)] := by simp [callers, List.filterMap_append]
  have hal : (args s.log).length = (calls s.log).length := by rw [args_eq, List.length_map]
  have hcll : (callers s.log).length = (calls s.log).length := by rw [callers_eq, List.length_map]
  have hm : msgs (calls s.log ++ [(t, x, b)]) = msgs (calls s.log) ++ [msg s.next (t, x, b)] := by
    simp [msgs, List.mapIdx_append, h.next]
  have hml : (msgs (calls s.log)).length = (calls s.log).length := by simp [msgs]
  have hta : (args s.log ++ [x]).take k = (args s.log).take k := by
    rw [List.take_append_of_le_length (by rw [hal]; exact h.le)]
  have hold : ∀ (n : Nat) (p : Nat × Bool), (callers s.log)[n]? = some p → (callers s.log ++ [(t, b)])[n]? = some p := by
    intro n p hp
    rw [List.getElem?_append_left (List.getElem?_eq_some_iff.1 hp).1, hp]
  refine ⟨?_, ?_, ?_, ?_, ?_, ?_, ?_, ?_, ?_⟩
  · show s.next + 1 = _
    rw [hc]; simp [h.next]
  · show k ≤ (calls (s.log ++ [.sent t x b])).length
    rw [hc]; simp; exact Nat.le_succ_of_le h.le
  · intro hi
    obtain ⟨h1, h2⟩ := h.idle hi
    show s.inport ++ _ = (msgs (calls (s.log ++ [.sent t x b]))).drop k ∧ s.st = aft F st0 ((args (s.log ++ [.sent t x b])).take k)
    rw [hc, hm, ha, hta, List.drop_append_of_le_length (by rw [hml]; exact h.le), ← h1]
    exact ⟨rfl, h2⟩
  · intro m hb
    obtain ⟨h1, h2, h3⟩ := h.busy m hb
    show (msgs (calls (s.log ++ [.sent t x b])))[k]? = some m ∧ s.inport ++ _ = (msgs (calls (s.log ++ [.sent t x b]))).drop (k + 1) ∧
      s.st = aft F st0 ((args (s.log ++ [.sent t x b])).take k)
    have hk : k < (msgs (calls s.log)).length := (List.getElem?_eq_some_iff.1 h1).1
    rw [hc, hm, ha, hta, List.drop_append_of_le_length (by omega), ← h2, List.getElem?_append_left hk]
    exact ⟨h1, rfl, h3⟩
  · intro n
    rcases h.port n with h1 | ⟨r, h1, h2, h3⟩
    · exact Or.inl h1
    · refine Or.inr ⟨r, h1, h2, ?_⟩
      show (outs F st0 (args (s.log ++ [.sent t x b])))[n]? = _
      rw [ha]; exact outs_old F st0 _ x n _ h3
  · intro u n hn
    show (callers (s.log ++ [.sent t x b]))[n]? = _ ∧ n ∉ rets (s.log ++ [.sent t x b])
    rw [hcl, hr]
    rcases hw u n hn with h1 | ⟨rfl, rfl, rfl⟩
    · exact ⟨hold _ _ (h.waits u n h1).1, (h.waits u n h1).2⟩
    · refine ⟨by rw [h.next, ← hcll]; simp, ?_⟩
      intro hm
      obtain ⟨t', o, hm⟩ := ret_mem.1 hm
      have := (h.ret t' _ o hm).2.2.2
      have := h.le
      have := h.next
      omega
  · intro u n o hm
    have hm' : Seen.ret u n o ∈ s.log := by simpa using hm
    obtain ⟨h1, h2, h3, h4⟩ := h.ret u n o hm'
    show (callers (s.log ++ [.sent t x b]))[n]? = _ ∧ (outs F st0 (args (s.log ++ [.sent t x b])))[n]? = _ ∧ _
    rw [hcl, ha]
    exact ⟨hold _ _ h1, outs_old F st0 _ x n o h2, h3, h4⟩
  · show (rets (s.log ++ [.sent t x b])).Nodup
    rw [hr]; exact h.nodup
  · intro u n hn hcn hrn
    have hcn' : (callers (s.log ++ [.sent t x b]))[n]? = some (u, true) := hcn
    have hrn' : n ∉ rets (s.log ++ [.sent t x b]) := hrn
    rw [hcl, List.getElem?_append_left (by rw [hcll]; exact Nat.lt_of_lt_of_le hn h.le)] at hcn'
    rw [hr] at hrn'
    exact h.kept u n hn hcn' hrn'

theorem inv_congr {F : Fn} {st0 k : Nat} {s s' : State} (h : Inv F st0 k s) (h1 : s'.next = s.next) (h2 : s'.log = s.log)
    (h3 : s'.ports = s.ports) (h4 : s'.waits = s.waits) (h5 : s'.worker ≠ .idle) (h6 : ∀ m, s'.worker ≠ .busy m) : Inv F st0 k s' := by
  refine ⟨?_, ?_, fun e => absurd e h5, fun m e => absurd e (h6 m), ?_, ?_, ?_, ?_, ?_⟩
  · rw [h1, h2]; exact h.next
  · rw [h2]; exact h.le
  · rw [h2, h3]; exact h.port
  · rw [h2, h4]; exact h.waits
  · rw [h2]; exact h.ret
  · rw [h2]; exact h.nodup
  · rw [h2, h3]; exact h.kept

theorem msgs_get {cs : List (Nat × Nat × Bool)} {k : Nat} {m : Msg} (h : (msgs cs)[k]? = some m) :
    ∃ t a b, cs[k]? = some (t, a, b) ∧ m = msg k (t, a, b) := by
  simp only [msgs, List.getElem?_mapIdx, Option.map_eq_some_iff] at h
  obtain ⟨⟨t, a, b⟩, h1, h2⟩ := h
  exact ⟨t, a, b, h1, h2.symm⟩

/-- The function returns or raises, and the thread goes on. -/
theorem done_inv {F : Fn} {st0 k : Nat} {s : State} (h : Inv F st0 k s) {m : Msg} (hb : s.worker = .busy m) {t a : Nat} {b : Bool}
    (hc : (calls s.log)[k]? = some (t, a, b)) (P : Nat → List (Bool × Nat))
    (hP : (b = true ∧ ∃ r, P = set s.ports k (s.ports k ++ [r]) ∧ (F s.st a).2 = toOut r) ∨ (b = false ∧ P = s.ports)) :
    Inv F st0 (k + 1) { s with st := (F s.st a).1, worker := .idle, ports := P } := by
  obtain ⟨h1, h2, h3⟩ := h.busy m hb
  have hk : k < (calls s.log).length := (List.getElem?_eq_some_iff.1 hc).1
  have harg : (args s.log)[k]? = some a := by rw [args_eq, List.getElem?_map, hc]; rfl
  have hcl : (callers s.log)[k]? = some (t, b) := by rw [callers_eq, List.getElem?_map, hc]; rfl
  obtain ⟨o1, o2⟩ := outs_get F (args s.log) st0 k a harg
  rw [← h3] at o1 o2
  have hpk : s.ports k = [] := by
    rcases h.port k with e | ⟨r, -, e, -⟩
    · exact e
    · exact absurd e (Nat.lt_irrefl _)
  refine ⟨h.next, hk, fun _ => ⟨h2, ?_⟩, fun m' e => (by cases e), ?_, h.waits, ?_, h.nodup, ?_⟩
  · show (F s.st a).1 = _
    rw [o2]
  · intro n
    show P n = [] ∨ ∃ r, P n = [r] ∧ _
    rcases hP with ⟨-, r, rfl, hr⟩ | ⟨-, rfl⟩
    · by_cases hn : n = k
      · subst hn
        right
        refine ⟨r, by simp [set, hpk], Nat.lt_succ_self _, ?_⟩
        show (outs F st0 (args s.log))[n]? = _
        rw [o1, hr]
      · rcases h.port n with e | ⟨r', e1, e2, e3⟩
        · left; simp [set, hn, e]
        · right; exact ⟨r', by simp [set, hn, e1], Nat.lt_succ_of_lt e2, e3⟩
    · rcases h.port n with e | ⟨r', e1, e2, e3⟩
      · left; exact e
      · right; exact ⟨r', e1, Nat.lt_succ_of_lt e2, e3⟩
  · intro u n o hm
    obtain ⟨a1, a2, a3, a4⟩ := h.ret u n o hm
    exact ⟨a1, a2, a3, Nat.lt_succ_of_lt a4⟩
  · intro u n hn hcn hrn
    show P n ≠ []
    by_cases e : n = k
    · subst e
      have hcn' : (callers s.log)[n]? = some (u, true) := hcn
      rw [hcl] at hcn'
      cases hcn'
      rcases hP with ⟨-, r, rfl, hr⟩ | ⟨e, -⟩
      · simp [set]
      · cases e
    · have := h.kept u n (by omega) hcn hrn
      rcases hP with ⟨-, r, rfl, hr⟩ | ⟨-, rfl⟩
      · simpa [set, e] using this
      · exact this

theorem step_inv {F : Fn} {st0 k : Nat} {s s' : State} (h : Inv F st0 k s) {a : Act} (hs : step F s a = some s') :
    ∃ k', Inv F st0 k' s' := by
  unfold step at hs
  split at hs
  · cases hs
  cases a with
  | call t x =>
    simp only at hs
    split at hs
    · cases hs
      exact ⟨k, send_inv h t x true _ (by
        intro u n hu
        simp only [set] at hu
        split at hu
        · next e => cases hu; exact Or.inr ⟨e, rfl, rfl⟩
        · exact Or.inl hu)⟩
    · cases hs
  | post t x =>
    simp only at hs
    split at hs
    · cases hs
      exact ⟨k, send_inv h t x false _ (fun u n hu => Or.inl hu)⟩
    · cases hs
  | delete =>
    cases hs
    exact ⟨k, inv_congr h rfl rfl rfl rfl (by simp) (by simp)⟩
  | fetch =>
    simp only at hs
    split at hs
    · next w m ms hw hq =>
      cases hs
      obtain ⟨h1, h2⟩ := h.idle hw
      rw [hq] at h1
      have hk : (msgs (calls s.log))[k]? = some m := by
        have : ((msgs (calls s.log)).drop k)[0]? = some m := by rw [← h1]; rfl
        simpa using this
      have hd : (msgs (calls s.log)).drop (k + 1) = ms := by
        rw [← List.drop_drop, ← h1]; rfl
      refine ⟨k, h.next, h.le, fun e => (by cases e), ?_, h.port, h.waits, h.ret, h.nodup, h.kept⟩
      intro m' e
      cases e
      exact ⟨hk, hd.symm, h2⟩
    · cases hs
  | finish =>
    simp only at hs
    split at hs
    · next m hw =>
      cases hs
      obtain ⟨h1, h2, h3⟩ := h.busy m hw
      obtain ⟨t, a, b, hc, rfl⟩ := msgs_get h1
      cases b with
      | true =>
        simp only [msg, if_true, finish]
        cases hF : F s.st a with
        | mk st' o =>
          cases o with
          | value v =>
            have := done_inv h hw hc (set s.ports k (s.ports k ++ [(true, v)])) (Or.inl ⟨rfl, (true, v), rfl, by rw [hF]; rfl⟩)
            rw [hF] at this
            exact ⟨k + 1, this⟩
          | raise v =>
            have := done_inv h hw hc (set s.ports k (s.ports k ++ [(false, v)])) (Or.inl ⟨rfl, (false, v), rfl, by rw [hF]; rfl⟩)
            rw [hF] at this
            exact ⟨k + 1, this⟩
          | self => exact ⟨k, inv_congr h rfl rfl rfl rfl (by simp) (by simp)⟩
      | false =>
        simp only [msg, Bool.false_eq_true, if_false, finish]
        cases hF : F s.st a with
        | mk st' o =>
          cases o with
          | value v =>
            have := done_inv h hw hc s.ports (Or.inr ⟨rfl, rfl⟩)
            rw [hF] at this
            exact ⟨k + 1, this⟩
          | raise v => exact ⟨k, inv_congr h rfl rfl rfl rfl (by simp) (by simp)⟩
          | self => exact ⟨k, inv_congr h rfl rfl rfl rfl (by simp) (by simp)⟩
    · cases hs
  | fetchTimeout =>
    simp only at hs
    split at hs
    · cases hs
      exact ⟨k, inv_congr h rfl rfl rfl rfl (by simp) (by simp)⟩
    · cases hs
  | getTimeout t =>
    simp only at hs
    split at hs
    · cases hs
    · next n hw =>
      split at hs
      · cases hs
        have hc : calls (s.log ++ [.badArg t n]) = calls s.log := by simp [calls, List.filterMap_append]
        have hr : rets (s.log ++ [.badArg t n]) = rets s.log := by simp [rets, List.filterMap_append]
        have ha : args (s.log ++ [.badArg t n]) = args s.log := by simp [args, List.filterMap_append]
        have hcl : callers (s.log ++ [.badArg t n]) = callers s.log := by simp [callers, List.filterMap_append]
        refine ⟨k, ?_, ?_, ?_, ?_, ?_, ?_, ?_, ?_, ?_⟩ <;> simp only [hc, hr, ha, hcl]
        · exact h.next
        · exact h.le
        · exact h.idle
        · exact h.busy
        · exact h.port
        · intro u n' hu
          simp only [set] at hu
          split at hu
          · cases hu
          · exact h.waits u n' hu
        · intro u n' o hm
          exact h.ret u n' o (by simpa using hm)
        · exact h.nodup
        · exact h.kept
      · cases hs
  | get t =>
    simp only at hs
    split at hs
    · cases hs
    · next n hw =>
      split at hs
      · cases hs
      · next ok v rest hp =>
        cases hs
        obtain ⟨w1, w2⟩ := h.waits t n hw
        rcases h.port n with e | ⟨r, e1, e2, e3⟩
        · rw [e] at hp; cases hp
        rw [hp] at e1
        cases e1
        set x : Seen := .ret t n (if ok = true then Out.value v else Out.raise v) with hx
        have hc : calls (s.log ++ [x]) = calls s.log := by simp [hx, calls, List.filterMap_append]
        have hr : rets (s.log ++ [x]) = rets s.log ++ [n] := by simp [hx, rets, List.filterMap_append]
        have ha : args (s.log ++ [x]) = args s.log := by simp [hx, args, List.filterMap_append]
        have hcl : callers (s.log ++ [x]) = callers s.log := by simp [hx, callers, List.filterMap_append]
        refine ⟨k, ?_, ?_, ?_, ?_, ?_, ?_, ?_, ?_, ?_⟩ <;> simp only [hc, hr, ha, hcl]
        · exact h.next
        · exact h.le
        · exact h.idle
        · exact h.busy
        · intro n'
          by_cases e : n' = n
          · left; simp [set, e]
          · rcases h.port n' with q | ⟨r, q1, q2, q3⟩
            · left; simp [set, e, q]
            · right; exact ⟨r, by simp [set, e, q1], q2, q3⟩
        · intro u n' hu
          simp only [set] at hu
          split at hu
          · cases hu
          · next hne =>
            obtain ⟨q1, q2⟩ := h.waits u n' hu
            refine ⟨q1, ?_⟩
            intro hm
            rcases List.mem_append.1 hm with hm | hm
            · exact q2 hm
            · simp at hm
              subst hm
              rw [w1] at q1
              simp at q1
              exact hne q1.symm
        · intro u n' o hm
          rcases List.mem_append.1 hm with hm | hm
          · exact h.ret u n' o hm
          · simp [hx] at hm
            obtain ⟨rfl, rfl, rfl⟩ := hm
            exact ⟨w1, e3, by split <;> simp, e2⟩
        · exact List.Nodup.append h.nodup (by simp) (by simpa using w2)
        · intro u n' hn hcn hrn
          have hne : n' ≠ n := fun e => hrn (by simp [e])
          have := h.kept u n' hn hcn (fun hm => hrn (by simp [hm]))
          simpa [set, hne] using this

theorem run_inv {F : Fn} {st0 : Nat} : ∀ (as : List Act) (s s' : State) (k : Nat), Inv F st0 k s → run F s as = some s' →
    ∃ k', Inv F st0 k' s' := by
  intro as
  induction as with
  | nil => intro s s' k h e; cases e; exact ⟨k, h⟩
  | cons a as ih =>
    intro s s' k h e
    simp only [run] at e
    cases hs : step F s a with
    | none => rw [hs] at e; cases e
    | some s1 =>
      rw [hs] at e
      obtain ⟨k1, h1⟩ := step_inv h hs
      exact ih s1 s' k1 h1 e

end Rep.Proxy
