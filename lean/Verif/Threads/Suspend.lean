import Verif.Threads.Fair

/-
C27 and C47: what `thread-suspend` and `thread-join` return, and when.
-/

namespace Rep.Threads

/-- The clock shows a time between 1970 and the year 287200 or so. -/
def TvOk (t : TV) : Prop := 0 ≤ t.usec ∧ t.usec < 1000000 ∧ 0 ≤ t.sec ∧ t.sec ≤ 9000000000000

/-- This many milliseconds have passed, but for the last of them; 0 means forever. -/
def Passed (n : Nat) (a b : TV) : Prop := n ≠ 0 ∧ a.us + n * 1000 ≤ b.us + 999

/-- No call of this thread begins or returns here. -/
def NoCall (t : Tid) (l : List Log) : Prop := ∀ x ∈ l, match x with
  | .called u _ _ => u ≠ t
  | .joined u _ _ _ _ => u ≠ t
  | .ret u _ _ => u ≠ t
  | .retJoin u _ _ => u ≠ t
  | _ => True

/-- A call of `thread-suspend` returns at the time `τ`, after the history `pre`.  It returns true
only if the milliseconds have passed and nobody has called `thread-wake` on the thread since it
was suspended; it returns false only if somebody has. -/
def SuspendRet (pre : List Log) (t : Tid) (timeout : Bool) (τ : TV) : Prop :=
  ∃ pre₀ ms τ₀ mid, pre = pre₀ ++ .called t ms τ₀ :: mid ∧ NoCall t mid ∧
    (timeout = true → .woken t ∉ mid ∧ Passed (suspendMsecs ms) τ₀ τ) ∧
    (timeout = false → .woken t ∈ mid)

/-- A call of `thread-join` returns `v`.  That is the value of the function of the other thread
if that has returned; otherwise it is the default value, and then the other thread has been
deleted, somebody has called `thread-wake`, or the milliseconds have passed. -/
def JoinRet (pre : List Log) (t : Tid) (v : Val) (τ : TV) : Prop :=
  ∃ pre₀ u ms d τ₀ mid, pre = pre₀ ++ .joined t u ms d τ₀ :: mid ∧ NoCall t mid ∧
    ((.done u v ∈ pre ∧ ∀ w, .done u w ∈ pre → w = v) ∨
     ((∀ w, .done u w ∉ pre) ∧ v = d ∧
       (.gone u ∈ pre ∨ .woken t ∈ mid ∨ Passed (joinMsecs ms) τ₀ τ)))

/-- What an entry of the log has to do with the history before it. -/
def RetOk (pre : List Log) : Log → Prop
  | .ret t b τ => SuspendRet pre t b τ
  | .retJoin t v τ => JoinRet pre t v τ
  | _ => True

/-- Every return of the history is right. -/
def LogOk (log : List Log) : Prop := ∀ pre x post, log = pre ++ x :: post → RetOk pre x

/-! ### Times -/

theorem wakeTime_us {τ : TV} {n : Nat} (hn : n ≠ 0) (h : TvOk τ) :
    (wakeTime τ n).us = τ.us + n * 1000 ∧ 0 ≤ (wakeTime τ n).usec ∧ (wakeTime τ n).usec ≤ 1000000 := by
  obtain ⟨h1, h2, h3, h4⟩ := h
  unfold wakeTime
  rw [if_neg hn]
  have hm : n = 1000 * (n / 1000) + n % 1000 := (Nat.div_add_mod n 1000).symm
  have hm2 : n % 1000 < 1000 := Nat.mod_lt _ (by omega)
  generalize n / 1000 = q at hm ⊢
  generalize n % 1000 = r at hm hm2 ⊢
  subst hm
  show TV.us (if _ then _ else _) = _ ∧ _
  have hx : ((r * 1000 : Nat) : Int) = (r : Int) * 1000 := by omega
  rw [hx]
  by_cases hc : τ.usec + (r : Int) * 1000 > 1000000
  · rw [if_pos hc]
    unfold TV.us
    dsimp only
    omega
  · rw [if_neg hc]
    unfold TV.us
    dsimp only
    omega

theorem not_later_forever {now : TV} (h : TvOk now) : later now (wakeTime now 0) = false := by
  obtain ⟨h1, h2, h3, h4⟩ := h
  unfold later wakeTime longMax
  simp
  omega

theorem passed_of_later {n : Nat} {τ now : TV} (h : TvOk τ) (hn : TvOk now)
    (hl : later now (wakeTime τ n) = true) : Passed n τ now := by
  have h0 : n ≠ 0 := by
    rintro rfl
    have h1 := not_later_forever hn
    have h2 : wakeTime τ 0 = wakeTime now 0 := rfl
    rw [h2, h1] at hl; cases hl
  obtain ⟨e, u1, u2⟩ := wakeTime_us h0 h
  refine ⟨h0, ?_⟩
  rw [← e]
  obtain ⟨n1, n2, n3, n4⟩ := hn
  unfold later at hl
  simp only [Bool.or_eq_true, Bool.and_eq_true, decide_eq_true_eq] at hl
  unfold TV.us
  omega

theorem add_us (t : TV) (x : Int) : (t.add x).us = t.us + x := by
  unfold TV.add
  show (t.us + x) / 1000000 * 1000000 + (t.us + x) % 1000000 = _
  omega

/-- After the sleep the time has come, but for less than a millisecond. -/
theorem passed_of_sleep {n : Nat} {τ : TV} {c c' : Com} {x : Nat} (h : TvOk τ) (hn : TvOk c.now)
    (hs : sleepUntil c (wakeTime τ n) (.late x) = .ok c') : Passed n τ c'.now ∧ c.now.us ≤ c'.now.us := by
  obtain ⟨n1, n2, n3, n4⟩ := hn
  by_cases h0 : n = 0
  · subst h0
    exfalso
    unfold sleepUntil at hs
    have hl : later (wakeTime τ 0) c.now = true := by
      unfold later wakeTime longMax
      simp
      omega
    rw [if_pos hl, if_pos] at hs
    · cases hs
    · unfold delta wakeTime longMax
      simp only [if_true]
      have hneg : ¬ (9223372036854775807 - c.now.usec : Int) < 0 := by omega
      rw [if_neg hneg]
      dsimp only
      omega
  · obtain ⟨e, u1, u2⟩ := wakeTime_us h0 h
    generalize wakeTime τ n = r at *
    suffices hh : r.us ≤ c'.now.us + 999 ∧ c.now.us ≤ c'.now.us from ⟨⟨h0, by omega⟩, hh.2⟩
    unfold sleepUntil at hs
    by_cases hl : later r c.now = true
    · rw [if_pos hl] at hs
      split at hs
      · cases hs
      · cases hs
        show r.us ≤ (c.now.add (sleepUs r c.now + x)).us + 999 ∧ c.now.us ≤ (c.now.add (sleepUs r c.now + x)).us
        rw [add_us]
        unfold later at hl
        simp only [Bool.or_eq_true, Bool.and_eq_true, decide_eq_true_eq] at hl
        unfold sleepUs delta TV.us
        split
        · dsimp only
          omega
        · dsimp only
          omega
    · rw [if_neg hl] at hs
      cases hs
      unfold later at hl
      simp only [Bool.or_eq_true, Bool.and_eq_true, decide_eq_true_eq] at hl
      unfold TV.us
      omega

/-! ### The threads that are in a call -/

/-- What is known of a thread that called at the time `τ₀`, with this timeout. -/
def Status (c : Com) (t : Tid) (n : Nat) (τ₀ : TV) (mid : List Log) (poll : Option Tid) : Prop :=
  (c.th t).runAt = wakeTime τ₀ n ∧ (c.th t).poll = poll ∧ TvOk τ₀ ∧
  (((c.th t).susp = true ∧ (c.th t).val = .nil ∧ .woken t ∉ mid) ∨
   ((c.th t).susp = false ∧ (c.th t).val = .t ∧ .woken t ∈ mid) ∨
   ((c.th t).susp = false ∧ (c.th t).val = .nil ∧ .woken t ∉ mid ∧
     (Passed n τ₀ c.now ∨ ∃ u, poll = some u ∧ (c.th u).exited = true)))

/-- What is known of a thread, according to the call it is in. -/
def InCall (c : Com) (t : Tid) : Call → Prop
  | .none => True
  | .suspend => ∃ pre ms τ₀ mid, c.log = pre ++ .called t ms τ₀ :: mid ∧ NoCall t mid ∧
      Status c t (suspendMsecs ms) τ₀ mid none
  | .join u d => ∃ pre ms τ₀ mid, c.log = pre ++ .joined t u ms d τ₀ :: mid ∧ NoCall t mid ∧
      Status c t (joinMsecs ms) τ₀ mid (some u)

/-- The values of the threads that have exited, in terms of the history. -/
def Ended (c : Com) (u : Tid) : Prop :=
  if (c.th u).exited = true then
    (∀ w, .done u w ∈ c.log → w = (c.th u).val) ∧ ((c.th u).val ≠ .null → .done u (c.th u).val ∈ c.log) ∧
    ((c.th u).val = .null → .gone u ∈ c.log ∧ ∀ w, .done u w ∉ c.log)
  else ∀ w, .done u w ∉ c.log

/-- The invariant. -/
structure K (c : Com) : Prop where
  clock : TvOk c.now
  calls : ∀ t, (c.th t).exited = false → InCall c t (c.th t).call
  ended : c.closed = false → ∀ u, Ended c u
  dflt : (c.th 0).exited = false → (c.th 0).call = .none → (c.th 0).val = .null ∧ (c.th 0).susp = false
  log : LogOk c.log
  fresh : c.closed = false → ∀ t, c.n ≤ t → c.th t = {}
  times : ∀ t, 0 ≤ (c.th t).runAt.usec

theorem NoCall.append {t : Tid} {l m : List Log} (h : NoCall t l) (h' : NoCall t m) : NoCall t (l ++ m) := by
  intro x hx
  rcases List.mem_append.1 hx with hx | hx
  · exact h x hx
  · exact h' x hx

/-- What others do. -/
structure Frame (c c' : Com) (t : Tid) : Prop where
  th : c'.th t = c.th t
  now : c.now.us ≤ c'.now.us
  exited : ∀ u, (c.th u).exited = true → (c'.th u).exited = true
  log : ∃ ext, c'.log = c.log ++ ext ∧ NoCall t ext ∧ .woken t ∉ ext

theorem Passed.mono {n : Nat} {a b b' : TV} (h : Passed n a b) (hb : b.us ≤ b'.us) : Passed n a b' :=
  ⟨h.1, by have := h.2; omega⟩

theorem Status.frame {c c' : Com} {t : Tid} {n : Nat} {τ₀ : TV} {mid ext : List Log} {poll : Option Tid}
    (h : Status c t n τ₀ mid poll) (hth : c'.th t = c.th t) (hnow : c.now.us ≤ c'.now.us)
    (hex : ∀ u, (c.th u).exited = true → (c'.th u).exited = true) (hw : .woken t ∉ ext) :
    Status c' t n τ₀ (mid ++ ext) poll := by
  obtain ⟨h1, h2, h3, h4⟩ := h
  unfold Status
  rw [hth]
  refine ⟨h1, h2, h3, ?_⟩
  rcases h4 with ⟨a, b, d⟩ | ⟨a, b, d⟩ | ⟨a, b, d, e⟩
  · exact .inl ⟨a, b, by simp [d, hw]⟩
  · exact .inr (.inl ⟨a, b, by simp [d]⟩)
  · refine .inr (.inr ⟨a, b, by simp [d, hw], ?_⟩)
    rcases e with e | ⟨u, e, e'⟩
    · exact .inl (e.mono hnow)
    · exact .inr ⟨u, e, hex u e'⟩

theorem InCall.frame {c c' : Com} {t : Tid} {k : Call} (h : InCall c t k) (f : Frame c c' t) :
    InCall c' t k := by
  obtain ⟨ext, hl, hn, hw⟩ := f.log
  cases k with
  | none => trivial
  | suspend =>
    obtain ⟨pre, ms, τ₀, mid, e, hm, hs⟩ := h
    exact ⟨pre, ms, τ₀, mid ++ ext, by rw [hl, e]; simp, hm.append hn,
      hs.frame f.th f.now f.exited hw⟩
  | join u d =>
    obtain ⟨pre, ms, τ₀, mid, e, hm, hs⟩ := h
    exact ⟨pre, ms, τ₀, mid ++ ext, by rw [hl, e]; simp, hm.append hn,
      hs.frame f.th f.now f.exited hw⟩

theorem LogOk.snoc {l : List Log} {x : Log} (h : LogOk l) (hx : RetOk l x) : LogOk (l ++ [x]) := by
  intro pre y post e
  rcases List.eq_nil_or_concat post with rfl | ⟨post', z, rfl⟩
  · have := List.append_inj' e (by simp)
    obtain ⟨e1, e2⟩ := this
    cases e2
    rw [← e1]; exact hx
  · rw [List.concat_eq_append] at e
    have e' : l ++ [x] = (pre ++ y :: post') ++ [z] := by rw [e]; simp
    have := List.append_inj' e' (by simp)
    exact h pre y post' this.1

/-- A change that concerns one thread only. -/
theorem K.change {c c' : Com} (k : K c) (t : Tid) (hclock : TvOk c'.now) (hnow : c.now.us ≤ c'.now.us)
    (hth : ∀ u, u ≠ t → c'.th u = c.th u) (hex : (c.th t).exited = true → (c'.th t).exited = true)
    (hlog : ∃ ext, c'.log = c.log ++ ext ∧ ∀ u, u ≠ t → NoCall u ext ∧ .woken u ∉ ext ∧ ∀ w, .done u w ∉ ext)
    (hcl : c'.closed = c.closed)
    (h1 : (c'.th t).exited = false → InCall c' t (c'.th t).call)
    (h2 : c.closed = false → Ended c' t)
    (h3 : t = 0 → (c'.th 0).exited = false → (c'.th 0).call = .none →
      (c'.th 0).val = .null ∧ (c'.th 0).susp = false)
    (h4 : LogOk c'.log) (h5 : c'.closed = false → ∀ u, c'.n ≤ u → c'.th u = {})
    (h6 : 0 ≤ (c'.th t).runAt.usec) : K c' := by
  obtain ⟨ext, hl, hx⟩ := hlog
  have hexu : ∀ u, (c.th u).exited = true → (c'.th u).exited = true := by
    intro u hu
    by_cases hut : u = t
    · subst hut; exact hex hu
    · rw [hth u hut]; exact hu
  refine ⟨hclock, ?_, ?_, ?_, h4, h5, fun u => ?_⟩
  · intro u hu
    by_cases hut : u = t
    · subst hut; exact h1 hu
    · rw [hth u hut] at hu ⊢
      exact (k.calls u hu).frame ⟨hth u hut, hnow, hexu, ext, hl, (hx u hut).1, (hx u hut).2.1⟩
  · intro hc u
    rw [hcl] at hc
    by_cases hut : u = t
    · subst hut; exact h2 hc
    · have := k.ended hc u
      unfold Ended at this ⊢
      rw [hth u hut, hl]
      have hd : ∀ w, .done u w ∈ c.log ++ ext ↔ .done u w ∈ c.log := by
        intro w
        simp [(hx u hut).2.2 w]
      split
      · next he =>
        rw [if_pos he] at this
        simp only [hd]
        exact ⟨this.1, this.2.1, fun hv => ⟨by simp [(this.2.2 hv).1], (this.2.2 hv).2⟩⟩
      · next he =>
        rw [if_neg he] at this
        simp only [hd]
        exact this
  · by_cases ht : t = 0
    · exact h3 ht
    · rw [hth 0 (fun e => ht e.symm)]; exact k.dflt
  · by_cases hut : u = t
    · subst hut; exact h6
    · rw [hth u hut]; exact k.times u

theorem K.freshTo {c c' : Com} (k : K c) {t : Tid} (ht : t < c.n) (hn : c'.n = c.n)
    (hcl : c'.closed = c.closed) (hth : ∀ u, u ≠ t → c'.th u = c.th u) :
    c'.closed = false → ∀ u, c'.n ≤ u → c'.th u = {} := by
  intro h u hu
  rw [hn] at hu
  rw [hth u fun e => Nat.lt_irrefl _ (Nat.lt_of_lt_of_le ht (e ▸ hu))]
  exact k.fresh (hcl ▸ h) u hu

/-- The thread is woken because its time has come, or because its poll function says so. -/
def Reason (c : Com) (u : Tid) : Prop :=
  (∀ n τ₀, (c.th u).runAt = wakeTime τ₀ n → TvOk τ₀ → Passed n τ₀ c.now) ∨ c.pollTrue u = true

theorem reason_due {c : Com} (k : TvOk c.now) {u : Tid} (h : c.due u = true) : Reason c u := by
  unfold Com.due at h
  simp only [Bool.or_eq_true] at h
  rcases h with h | h
  · left
    intro n τ₀ e hτ
    rw [e] at h
    exact passed_of_later hτ k h
  · exact .inr h

theorem status_woken {c : Com} {u : Tid} {n : Nat} {τ₀ : TV} {mid : List Log} {poll : Option Tid}
    (h : Status c u n τ₀ mid poll) (hs : (c.th u).susp = true) (he : (c.th u).exited = false)
    (r : Reason c u) :
    Status (c.set u { c.th u with susp := false }) u n τ₀ mid poll := by
  obtain ⟨h1, h2, h3, h4⟩ := h
  unfold Status
  simp only [set_th, if_true]
  refine ⟨h1, h2, h3, ?_⟩
  rcases h4 with ⟨a, b, d⟩ | ⟨a, b, d⟩ | ⟨a, b, d, e⟩
  · refine .inr (.inr ⟨by simp, b, d, ?_⟩)
    rcases r with r | r
    · exact .inl (r n τ₀ h1 h3)
    · right
      unfold Com.pollTrue at r
      rw [h2] at r
      cases poll with
      | none => cases r
      | some v =>
        refine ⟨v, rfl, ?_⟩
        split
        · next hv =>
          have r' : (c.th v).exited = true := r
          rw [hv, he] at r'; cases r'
        · exact r
  · rw [hs] at a; cases a
  · rw [hs] at a; cases a

theorem K.woken {c : Com} (k : K c) {u : Tid} (hn : u < c.n) (hs : (c.th u).susp = true) (he : (c.th u).exited = false)
    (r : Reason c u) : K (c.set u { c.th u with susp := false }) := by
  refine k.change u k.clock (Int.le_refl _) (fun v hv => by rw [set_th, if_neg hv])
    (fun h => by rw [he] at h; cases h) ⟨[], by simp [Com.set], fun v _ => by simp [NoCall]⟩ rfl ?_ ?_ ?_ k.log
    (k.freshTo hn rfl rfl fun v hv => by rw [set_th, if_neg hv])
    (by rw [set_th, if_pos rfl]; exact k.times u)
  · intro _
    have hc := k.calls u he
    have e : ((c.set u { c.th u with susp := false }).th u).call = (c.th u).call := by simp [set_th]
    rw [e]
    cases hk : (c.th u).call with
    | none => trivial
    | suspend =>
      rw [hk] at hc
      obtain ⟨pre, ms, τ₀, mid, e, hm, hst⟩ := hc
      exact ⟨pre, ms, τ₀, mid, e, hm, status_woken hst hs he r⟩
    | join v d =>
      rw [hk] at hc
      obtain ⟨pre, ms, τ₀, mid, e, hm, hst⟩ := hc
      exact ⟨pre, ms, τ₀, mid, e, hm, status_woken hst hs he r⟩
  · intro hc
    have := k.ended hc u
    unfold Ended at this ⊢
    simpa [set_th, Com.set] using this
  · rintro rfl _ hcall
    have hcall' : (c.th 0).call = .none := by simpa [set_th] using hcall
    have := (k.dflt he hcall').2
    rw [hs] at this; cases this

theorem K.resume {c : Com} (k : K c) {t : Tid} (hn : t < c.n) (hs : (c.th t).susp = false) (he : (c.th t).exited = false)
    (hcl : c.closed = false) : K (c.resume t) := by
  have hc := k.calls t he
  unfold Com.resume
  cases hk : (c.th t).call with
  | none => exact k
  | suspend =>
    rw [hk] at hc
    obtain ⟨pre, ms, τ₀, mid, e, hm, h1, h2, h3, h4⟩ := hc
    refine k.change t k.clock (Int.le_refl _) (fun v hv => by
        show (if v = t then _ else c.th v) = _
        rw [if_neg hv]) (fun h => by rw [he] at h; cases h)
      ⟨[.ret t (decide ((c.th t).val = .nil)) c.now], rfl, fun v hv => ⟨?_, by simp, by simp⟩⟩ rfl ?_ ?_ ?_ ?_
      (k.freshTo hn rfl rfl fun v hv => by
        show (if v = t then _ else c.th v) = _
        rw [if_neg hv])
      (by
        show 0 ≤ (if t = t then _ else c.th t).runAt.usec
        rw [if_pos rfl]; exact k.times t)
    · intro x hx
      have hx' := List.mem_singleton.1 hx
      subst hx'
      exact fun e => hv e.symm
    · intro _
      show InCall _ t (if t = t then _ else c.th t).call
      rw [if_pos rfl]
      trivial
    · intro hcl
      have := k.ended hcl t
      unfold Ended at this ⊢
      simp only [Com.set, if_true, he, Bool.false_eq_true, if_false] at this ⊢
      intro w hw
      simp at hw
      exact this w hw
    · rintro rfl _ _
      exact ⟨rfl, hs⟩
    · refine k.log.snoc ⟨pre, ms, τ₀, mid, e, hm, ?_, ?_⟩
      · intro hv
        have hv' : (c.th t).val = .nil := by simpa using hv
        rcases h4 with ⟨a, -⟩ | ⟨-, b, -⟩ | ⟨-, -, d, f⟩
        · rw [hs] at a; cases a
        · rw [hv'] at b; cases b
        · refine ⟨d, ?_⟩
          rcases f with f | ⟨u, f, -⟩
          · exact f
          · cases f
      · intro hv
        have hv' : (c.th t).val ≠ .nil := by simpa using hv
        rcases h4 with ⟨a, -⟩ | ⟨-, -, d⟩ | ⟨-, b, -⟩
        · rw [hs] at a; cases a
        · exact d
        · exact absurd b hv'
  | join u d =>
    rw [hk] at hc
    obtain ⟨pre, ms, τ₀, mid, e, hm, h1, h2, h3, h4⟩ := hc
    refine k.change t k.clock (Int.le_refl _) (fun v hv => by
        show (if v = t then _ else c.th v) = _
        rw [if_neg hv]) (fun h => by rw [he] at h; cases h)
      ⟨[.retJoin t _ c.now], rfl, fun v hv => ⟨?_, by simp, by simp⟩⟩ rfl ?_ ?_ ?_ ?_
      (k.freshTo hn rfl rfl fun v hv => by
        show (if v = t then _ else c.th v) = _
        rw [if_neg hv])
      (by
        show 0 ≤ (if t = t then _ else c.th t).runAt.usec
        rw [if_pos rfl]; exact k.times t)
    · intro x hx
      have hx' := List.mem_singleton.1 hx
      subst hx'
      exact fun e => hv e.symm
    · intro _
      show InCall _ t (if t = t then _ else c.th t).call
      rw [if_pos rfl]
      trivial
    · intro hcl
      have := k.ended hcl t
      unfold Ended at this ⊢
      simp only [Com.set, if_true, he, Bool.false_eq_true, if_false] at this ⊢
      intro w hw
      simp at hw
      exact this w hw
    · rintro rfl _ _
      exact ⟨rfl, hs⟩
    · refine k.log.snoc ⟨pre, u, ms, d, τ₀, mid, e, hm, ?_⟩
      have hu := k.ended hcl u
      unfold Ended at hu
      by_cases hex : (c.th u).exited = true
      · rw [if_pos hex] at hu
        by_cases hv : (c.th u).val = .null
        · right
          rw [if_neg (fun h => h.2 hv)]
          exact ⟨(hu.2.2 hv).2, rfl, .inl (hu.2.2 hv).1⟩
        · left
          rw [if_pos ⟨hex, hv⟩]
          exact ⟨hu.2.1 hv, hu.1⟩
      · right
        rw [if_neg hex] at hu
        rw [if_neg (fun h => hex h.1)]
        refine ⟨hu, rfl, .inr ?_⟩
        rcases h4 with ⟨a, -⟩ | ⟨-, -, d⟩ | ⟨-, -, -, f⟩
        · rw [hs] at a; cases a
        · exact .inl d
        · rcases f with f | ⟨v, f, f'⟩
          · exact .inr f
          · cases f; exact absurd f' hex

theorem resume_keeps (c : Com) (t : Tid) :
    (c.resume t).now = c.now ∧ (c.resume t).closed = c.closed ∧ (c.resume t).active = c.active := by
  unfold Com.resume
  split <;> exact ⟨rfl, rfl, rfl⟩

theorem K.tick {c : Com} (k : K c) {now : TV} (h : TvOk now) (hl : c.now.us ≤ now.us) :
    K { c with now := now } :=
  ⟨h, fun t ht => (k.calls t ht).frame ⟨rfl, hl, fun _ h => h, [], by simp, by simp [NoCall], by simp⟩,
    k.ended, k.dflt, k.log, k.fresh, k.times⟩

theorem K.active {c : Com} (k : K c) (a : Option Tid) : K { c with active := a } :=
  ⟨k.clock, fun t ht => (k.calls t ht).frame ⟨rfl, Int.le_refl _, fun _ h => h, [], by simp, by simp [NoCall],
    by simp⟩, k.ended, k.dflt, k.log, k.fresh, k.times⟩

/-- The invariant of a state: nothing is running once the root has been left, and the active
thread is in no call. -/
def KS (s : S) : Prop := K s.c ∧ (s.c.closed = true → s.c.active = none) ∧
  ∀ x, s.c.active = some x → (s.c.th x).call = .none

theorem resume_call (c : Com) (t : Tid) : ((c.resume t).th t).call = .none := by
  unfold Com.resume
  split
  · assumption
  · show (if t = t then _ else c.th t).call = _
    rw [if_pos rfl]
  · show (if t = t then _ else c.th t).call = _
    rw [if_pos rfl]

theorem close_K {s : S} (k : K s.c) : KS s.close :=
  ⟨⟨k.clock, fun _ h => Bool.noConfusion h, fun h => Bool.noConfusion h, fun h => Bool.noConfusion h, k.log,
    fun h => Bool.noConfusion h, k.times⟩, fun _ => rfl, fun _ h => by cases h⟩

theorem run_K {s : S} {t : Tid} {l : List Tid} (w : Wf s) (k : K s.c) (hcl : s.c.closed = false)
    (h : s.run = t :: l) : KS { s with c := ({ s.c with active := some t } : Com).resume t } := by
  obtain ⟨h1, h2, h3⟩ := w.run t (by rw [h]; simp)
  refine ⟨(k.active (some t)).resume h3 h1 h2 hcl, fun h => ?_, fun x h => ?_⟩
  on_goal 2 =>
    have := (resume_keeps ({ s.c with active := some t } : Com) t).2.2
    have h' := this.symm.trans h
    cases h'
    exact resume_call _ t
  have := (resume_keeps ({ s.c with active := some t } : Com) t).2.1
  rw [show (_ : Bool) = s.c.closed from this, hcl] at h
  cases h

theorem wakeAll_K {test : Com → Tid → Bool} (ht : ∀ c u, TvOk c.now → test c u = true → Reason c u) :
    ∀ (l l₀ : List Tid) (s : S) (b : Bool) {s' : S} {b' : Bool}, Wf s → s.susp = l₀ ++ l → K s.c →
      S.wakeAll test l s b = .ok (s', b') → K s'.c
  | [], l₀, s, b, s', b', w, h, k, e => by cases e; exact k
  | t :: l, l₀, s, b, s', b', w, h, k, e => by
    unfold S.wakeAll at e
    split at e
    · next htest =>
      have hm : t ∈ s.susp := by rw [h]; simp
      have nd : s.susp.Nodup := (List.nodup_append.1 w.nd).2.1
      have hs : (s.woken t).susp = l₀ ++ l := by
        show s.susp.erase t = _
        rw [h] at nd ⊢
        have : t ∉ l₀ := fun hx => (List.nodup_append.1 nd).2.2 t hx t (by simp) rfl
        rw [List.erase_append_right _ this]; simp
      rw [wake_ok w hm] at e
      obtain ⟨h1, h2, h3⟩ := w.susp t hm
      exact wakeAll_K ht l l₀ (s.woken t) true (woken_wf w hm) hs
        (k.woken h3 h1 h2 (ht s.c t k.clock htest)) e
    · exact wakeAll_K ht l (l₀ ++ [t]) s b w (by rw [h]; simp) k e

theorem wakeAll_call {test : Com → Tid → Bool} :
    ∀ (l l₀ : List Tid) (s : S) (b : Bool) {s' : S} {b' : Bool}, Wf s → s.susp = l₀ ++ l →
      S.wakeAll test l s b = .ok (s', b') → ∀ u, (s'.c.th u).call = (s.c.th u).call
  | [], l₀, s, b, s', b', w, h, e => by cases e; exact fun _ => rfl
  | t :: l, l₀, s, b, s', b', w, h, e => by
    unfold S.wakeAll at e
    split at e
    · next htest =>
      have hm : t ∈ s.susp := by rw [h]; simp
      have nd : s.susp.Nodup := (List.nodup_append.1 w.nd).2.1
      have hs : (s.woken t).susp = l₀ ++ l := by
        show s.susp.erase t = _
        rw [h] at nd ⊢
        have : t ∉ l₀ := fun hx => (List.nodup_append.1 nd).2.2 t hx t (by simp) rfl
        rw [List.erase_append_right _ this]; simp
      rw [wake_ok w hm] at e
      intro u
      rw [wakeAll_call l l₀ (s.woken t) true (woken_wf w hm) hs e u]
      show (if u = t then _ else s.c.th u).call = _
      split
      · next hu => rw [hu]
      · rfl
    · exact wakeAll_call l (l₀ ++ [t]) s b w (by rw [h]; simp) e

/-- `select` sleeps as long as it was told. -/
def Wk.full : Wk → Bool
  | .late _ => true
  | .signal _ => false

theorem sleep_eq {c c' : Com} {r : TV} {z : Wk} (h : sleepUntil c r z = .ok c') :
    c' = { c with now := c'.now } := by
  unfold sleepUntil at h
  split at h
  · split at h
    · cases h
    · cases h; rfl
  · cases h; rfl

theorem invoke_K {s s' : S} {z : Wk} (w : Wf s) (k : K s.c) (hcl : s.c.closed = false)
    (hz : z.full = true) (h : s.invoke rounds z = .ok s') (hnow : TvOk s'.c.now) : KS s' := by
  cases hr : s.run with
  | cons t l =>
    rw [show rounds = 1 + 1 from rfl, invoke_run hr 1 z] at h
    cases h
    exact run_K w k hcl hr
  | nil =>
    cases hs : s.susp with
    | nil =>
      rw [show rounds = 1 + 1 from rfl, invoke_none hr hs 1 z] at h
      cases h
      exact close_K k
    | cons b l =>
      rw [show rounds = 1 + 1 from rfl, invoke_sleep hr hs 1 z] at h
      obtain ⟨s1, ws, b', h1, h2, h3, h4, h5, -, -, -, -, h10, -⟩ :=
        wakeAll_ok Com.pollTrue (b :: l) [] s false w (by rw [hs]; rfl)
      have k1 := wakeAll_K (test := Com.pollTrue) (fun c u _ h => .inr h) (b :: l) [] s false w
        (by rw [hs]; rfl) k h1
      rw [h1] at h
      change (if b' = true then S.invoke 1 s1 z else
          (sleepUntil s.c (s.c.th b).runAt z).andThen fun c =>
          (S.wake { s with c := c } b).andThen fun s => S.invoke 1 s z) = Res.ok s' at h
      by_cases hb : b' = true
      · rw [if_pos hb] at h
        have hws : ws ≠ [] := by rintro rfl; simp [hb] at h5
        obtain ⟨x, xs, rfl⟩ := List.exists_cons_of_ne_nil hws
        have hx : s1.run = x :: xs := by rw [h3, hr]; rfl
        rw [invoke_run hx 0 z] at h
        cases h
        exact run_K h2 k1 (h10.trans hcl) hx
      · rw [if_neg hb] at h
        cases hsl : sleepUntil s.c (s.c.th b).runAt z with
        | bad x => rw [hsl] at h; cases h
        | ok c =>
          rw [hsl] at h
          have ec := sleep_eq hsl
          have w' : Wf { s with c := c } := w.same (by
            rw [ec]; exact ⟨rfl, fun _ => rfl, fun _ => rfl, fun _ => rfl⟩)
          have hb' : b ∈ ({ s with c := c } : S).susp := by
            show b ∈ s.susp; rw [hs]; simp
          change (S.wake { s with c := c } b).andThen _ = _ at h
          rw [wake_ok w' hb'] at h
          have hx : (S.woken { s with c := c } b).run = b :: [] := by
            show s.run ++ [b] = _; rw [hr]; rfl
          change S.invoke 1 (S.woken { s with c := c } b) z = _ at h
          rw [invoke_run hx 0 z] at h
          cases h
          obtain ⟨b1, b2, b3⟩ := w.susp b (by rw [hs]; simp)
          have hnow' : TvOk c.now := by
            have := (resume_keeps ({ (S.woken { s with c := c } b).c with active := some b } : Com) b).1
            rw [show (_ : TV) = c.now from this] at hnow
            exact hnow
          cases z with
          | signal x => cases hz
          | late x =>
            -- the sleep was long enough, whatever the thread waits for
            have hmono : s.c.now.us ≤ c.now.us := by
              unfold sleepUntil at hsl
              split at hsl
              · next hlt =>
                split at hsl
                · cases hsl
                · cases hsl
                  show _ ≤ (s.c.now.add _).us
                  rw [add_us]
                  have : 0 ≤ sleepUs (s.c.th b).runAt s.c.now := by
                    obtain ⟨n1, n2, n3, n4⟩ := k.clock
                    have hu := k.times b
                    unfold later at hlt
                    simp only [Bool.or_eq_true, Bool.and_eq_true, decide_eq_true_eq] at hlt
                    unfold sleepUs delta
                    split <;> dsimp only <;> omega
                  show _ ≤ s.c.now.us + (sleepUs (s.c.th b).runAt s.c.now + (x : Int))
                  omega
              · cases hsl; exact Int.le_refl _
            have k2 : K c := by rw [ec]; exact k.tick hnow' hmono
            refine run_K (woken_wf w' hb') (k2.woken ?_ ?_ ?_ ?_) ?_ hx
            · rw [ec]; exact b3
            · rw [ec]; exact b1
            · rw [ec]; exact b2
            · left
              intro n τ₀ e hτ
              have e' : (s.c.th b).runAt = wakeTime τ₀ n := by rw [ec] at e; exact e
              rw [e'] at hsl
              exact (passed_of_sleep hτ k.clock hsl).1
            · show c.closed = false
              rw [ec]; exact hcl

end Rep.Threads
