/-
Property C72: every remote procedure call is carried out once, and answered once, with what the servant returned for its arguments.
-/
import Verif.Rpc.Spec
import Mathlib.Tactic.Tauto

namespace Rep.Rpc

open Rep.Reader Rep.Rpc.Spec Rep.Number Rep.NumText

/-! ### Messages -/

/-- A message under way. -/
inductive Msg where
  | call (e : Escape) (id : Option Nat) (servant : List Char) (args : Obj)
  | result (e : Escape) (id : Nat) (ok : Bool) (v : Obj)

/-- The form. -/
def Msg.form : Msg → Obj
  | .call _ none servant args => request .nil servant args
  | .call _ (some n) servant args => request (idObj n) servant args
  | .result _ id ok v => response (idObj id) ok v

/-- The setting of `print-escape`. -/
def Msg.esc : Msg → Escape
  | .call e _ _ _ => e
  | .result e _ _ _ => e

/-- The text. -/
def Msg.text (m : Msg) : List Char := prin m.esc m.form

/-- Text that can be read back. -/
def Msg.Good : Msg → Prop
  | .call e id servant args => (∀ n, id = some n → n < 2 ^ 61) ∧ Readable e (.sym servant) ∧ Sendable e args
  | .result e id _ v => id < 2 ^ 61 ∧ Sendable e v

/-- The text of several messages. -/
def flat (ms : List Msg) : List Char := ms.flatMap Msg.text

theorem natDigits_length : ∀ k n, n < 2 ^ k → (natDigits 10 n).length ≤ k + 1 := by
  intro k
  induction k with
  | zero => intro n hn; unfold natDigits; rw [dif_neg (by omega)]; simp
  | succ k ih =>
    intro n hn
    unfold natDigits
    split
    · have := ih (n / 10) (by
        rw [Nat.div_lt_iff_lt_mul (by omega)]
        rw [Nat.pow_succ] at hn
        have : 2 ^ k * 2 ≤ 2 ^ k * 10 := Nat.mul_le_mul_left _ (by omega)
        omega)
      simp only [List.length_append, List.length_cons, List.length_nil]; omega
    · simp

theorem readable_id (e : Escape) {n : Nat} (h : n < 2 ^ 61) : Readable e (idObj n) := by
  refine .num _ ⟨?_, ?_⟩ ?_
  · show -(2 ^ 61) ≤ (n : Int); omega
  · show (n : Int) < 2 ^ 61; omega
  · rw [prin]
    have e1 : numberToString (.fix (.ofNat n)) 10 = natDigits 10 n := by
      show intDigits 10 (n : Int) = _
      unfold intDigits
      rw [if_neg (by omega)]
      simp
    rw [e1]
    have := natDigits_length 61 n h
    omega

/-- A symbol that begins with a letter. -/
theorem readable_word (e : Escape) (c : Char) (s : List Char) (hl : (c :: s).length < 240) (hn : '\x00' ∉ c :: s) (hc : isdigit c = false)
    (h1 : c ≠ '-') (h2 : c ≠ '+') (h3 : c ≠ '.') (h4 : c ≠ '?') : Readable e (.sym (c :: s)) := by
  refine .sym _ (by simp) hl hn (by intro h; injection h with h _; exact h3 h) (by simpa using h4) (Or.inr ?_)
  have hdec : ¬ IsDec c := by rw [isDec_iff]; simp [hc]
  rintro ⟨signs, t, h, hs, hu⟩
  cases signs with
  | cons d _ =>
    injection h with h _
    subst h
    rcases hs c (by simp) with h | h
    · exact h1 h
    · exact h2 h
  | nil =>
    rw [List.nil_append] at h
    subst h
    rcases hu with ⟨n, ⟨h1, h2⟩, h | ⟨m, _, h⟩⟩ | ⟨x, sg, t, h, _⟩ | h
    · subst h; exact hdec (h2 c (by simp))
    · cases n with
      | nil => exact h1 rfl
      | cons d n => injection h with h _; subst h; exact hdec (h2 c (by simp))
    · injection h with h _; subst h; exact absurd hc (by decide)
    · unfold strtodAll at h
      simp [digits, afterDigits, hc, h3] at h

theorem readable_call (e : Escape) : Readable e (sym "call") := readable_word e 'c' "all".toList (by decide) (by decide) (by decide) (by decide) (by decide) (by decide) (by decide)
theorem readable_result (e : Escape) : Readable e (sym "result") := readable_word e 'r' "esult".toList (by decide) (by decide) (by decide) (by decide) (by decide) (by decide) (by decide)
theorem readable_t (e : Escape) : Readable e (sym "t") := readable_word e 't' [] (by decide) (by decide) (by decide) (by decide) (by decide) (by decide) (by decide)

/-- Every message is a list that can be sent. -/
theorem Msg.Good.form {m : Msg} (h : m.Good) : ∃ a d, m.form = .cons a d ∧ Readable m.esc a ∧ Readable m.esc d ∧ Plain a ∧ Plain d := by
  cases m with
  | call e id servant args =>
    obtain ⟨h1, h2, h3, h4⟩ := h
    cases id with
    | none => exact ⟨_, _, rfl, readable_call e, .cons _ _ .nil (.cons _ _ h2 h3), .sym _, .cons _ _ .nil (.cons _ _ (.sym _) h4)⟩
    | some n => exact ⟨_, _, rfl, readable_call e, .cons _ _ (readable_id e (h1 n rfl)) (.cons _ _ h2 h3), .sym _, .cons _ _ (.num _) (.cons _ _ (.sym _) h4)⟩
  | result e id ok v =>
    obtain ⟨h1, h2, h3⟩ := h
    cases ok with
    | true => exact ⟨_, _, rfl, readable_result e, .cons _ _ (readable_id e h1) (.cons _ _ (readable_t e) (.cons _ _ h2 .nil)), .sym _, .cons _ _ (.num _) (.cons _ _ (.sym _) (.cons _ _ h3 .nil))⟩
    | false => exact ⟨_, _, rfl, readable_result e, .cons _ _ (readable_id e h1) (.cons _ _ .nil (.cons _ _ h2 .nil)), .sym _, .cons _ _ (.num _) (.cons _ _ .nil (.cons _ _ h3 .nil))⟩

theorem Msg.text_head (m : Msg) (h : m.Good) : ∃ t, m.text = '(' :: t := by
  obtain ⟨a, d, hf, _⟩ := h.form
  exact ⟨_, by unfold Msg.text; rw [hf, prin]; rfl⟩

theorem delim_flat {ms : List Msg} (hg : ∀ m ∈ ms, m.Good) {rest : List Char} (h : rest <+: flat ms) : Delimited rest := by
  cases rest with
  | nil => exact Or.inl rfl
  | cons c rest =>
    cases ms with
    | nil => obtain ⟨t, ht⟩ := h; simp [flat] at ht
    | cons m ms =>
      obtain ⟨t, ht⟩ := m.text_head (hg m (by simp))
      obtain ⟨u, hu⟩ := h
      unfold flat at hu
      rw [List.flatMap_cons, ht] at hu
      injection hu with hc _
      subst hc
      exact Or.inr ⟨'(', rest, rfl, by decide⟩

/-- Reading what has arrived of several messages: the first one, or nothing. -/
theorem read_flat {ms : List Msg} (hg : ∀ m ∈ ms, m.Good) {buf : List Char} (h : buf <+: flat ms) :
    (read buf 240 = .err .premature ∨ read buf 240 = .err .endOfStream) ∧ (ms ≠ [] → buf ≠ flat ms) ∨
    ∃ m ms' rest, ms = m :: ms' ∧ read buf 240 = .ok m.form rest 240 ∧ buf = m.text ++ rest ∧ rest <+: flat ms' := by
  cases ms with
  | nil =>
    left
    have : buf = [] := by simpa [flat] using h
    subst this
    exact ⟨Or.inr rfl, fun h => absurd rfl h⟩
  | cons m ms =>
    have hm := hg m (by simp)
    obtain ⟨a, d, hf, ra, rd, pa, pd⟩ := hm.form
    have htext : m.text = prin m.esc (.cons a d) := by unfold Msg.text; rw [hf]
    have hfl : flat (m :: ms) = m.text ++ flat ms := by unfold flat; rw [List.flatMap_cons]
    rw [hfl] at h
    rcases prefix_append_cases h with hp | ⟨rest, rfl, hr⟩
    · by_cases hne : buf = m.text
      · right
        refine ⟨m, ms, [], rfl, ?_, by simp [hne], List.nil_prefix⟩
        have := C44_partial m.esc m.form (by rw [hf]; exact .cons a d ra rd) [] (Or.inl rfl)
        rw [List.append_nil] at this
        rw [hne]; exact this
      · left
        rw [htext] at hp hne
        refine ⟨read_prefix ra rd pa pd hp hne, fun _ h => ?_⟩
        rw [hfl, htext] at h
        have := hp.length_le
        rw [h] at this hne
        simp only [List.length_append] at this
        exact hne (by rw [List.eq_nil_of_length_eq_zero (show (flat ms).length = 0 by omega), List.append_nil])
    · right
      refine ⟨m, ms, rest, rfl, ?_, rfl, hr⟩
      exact C44_partial m.esc m.form (by rw [hf]; exact .cons a d ra rd) rest (delim_flat (fun x hx => hg x (by simp [hx])) hr)

/-! ### Forms -/

theorem act_request (id : Obj) (servant : List Char) (args : Obj) : act (request id servant args) = .call id (.sym servant) args := by
  unfold act request sym car nth
  simp only [nthcdr]
  rw [if_neg (by decide), if_pos trivial]

theorem act_response (id : Obj) (ok : Bool) (v : Obj) : act (response id ok v) = .result id ok v := by
  unfold act response sym car nth
  simp only [nthcdr]
  cases ok <;> rfl

theorem callId_idObj (n : Nat) : callId (idObj n) = some n := rfl

/-! ### The invariant -/

/-- The record of a socket. -/
def sockOf (w : Wiring) (net : Net) (r : Nat) : Option SockData := (net.host (w.owner r)).socks r

/-- What has arrived at a socket and is on its way to it. -/
def bytes (w : Wiring) (net : Net) (r : Nat) : List Char :=
  match sockOf w net r with
  | none => []
  | some d => d.pendingData ++ net.wire r

def isReq (n : Nat) : Msg → Bool
  | .call _ id _ _ => id == some n
  | .result .. => false
def isRes (n : Nat) : Msg → Bool
  | .call .. => false
  | .result _ id _ _ => id == n

def nCalls (net : Net) (s n : Nat) : Nat := net.calls.countP fun c => c.sock == s && c.id == n
def nReq (ms : List Msg) (n : Nat) : Nat := ms.countP (isReq n)
def nRun (net : Net) (r n : Nat) : Nat := net.running.countP fun x => x.sock == r && callId x.id == some n
def nStart (net : Net) (r n : Nat) : Nat := net.started.countP fun x => x.sock == r && callId x.id == some n
def nRes (ms : List Msg) (n : Nat) : Nat := ms.countP (isRes n)
def nAns (net : Net) (s n : Nat) : Nat := net.answers.countP fun a => a.sock == s && a.id == n

/-- The execution belongs to a call, or nobody waits for its result. -/
def Matches (w : Wiring) (net : Net) (x : Exec) : Prop :=
  x.id = .nil ∨ ∃ c ∈ net.calls, x.sock = w.peer c.sock ∧ x.id = idObj c.id ∧ x.servant = .sym c.servant ∧ x.args = c.args

/-- The result of a call comes from the servant. -/
def Served (w : Wiring) (net : Net) (s n : Nat) (ok : Bool) (v : Obj) : Prop :=
  ∃ c ∈ net.calls, c.sock = s ∧ c.id = n ∧ ∃ x, (x, ok, v) ∈ net.returned ∧ x.sock = w.peer s ∧ x.id = idObj n ∧ x.servant = .sym c.servant ∧ x.args = c.args

/-- Where every call is: on its way, with a servant, on its way back, or answered. -/
structure Inv (w : Wiring) (net : Net) (msgs : Nat → List Msg) : Prop where
  good : ∀ r, ∀ m ∈ msgs r, m.Good
  gone : ∀ s, s ∈ net.lost → sockOf w net s = none
  here : ∀ s, s ∉ net.lost → ∃ d, sockOf w net s = some d
  part : ∀ r, bytes w net r <+: flat (msgs r)
  whole : ∀ r, r ∉ net.lost → w.peer r ∉ net.lost → bytes w net r = flat (msgs r)
  bound : ∀ c ∈ net.calls, c.id ≤ (net.host (w.owner c.sock)).counter ∧ c.id < 2 ^ 61
  uniq : ∀ c ∈ net.calls, ∀ c' ∈ net.calls, w.owner c.sock = w.owner c'.sock → c.id = c'.id → c = c'
  once : ∀ s n, nCalls net s n ≤ 1
  count : ∀ s n, nReq (msgs (w.peer s)) n + nRun net (w.peer s) n + nRes (msgs s) n + nAns net s n ≤ nCalls net s n
  all : ∀ s n, s ∉ net.lost → w.peer s ∉ net.lost →
    nReq (msgs (w.peer s)) n + nRun net (w.peer s) n + nRes (msgs s) n + nAns net s n = nCalls net s n
  starts : ∀ s n, nReq (msgs (w.peer s)) n + nStart net (w.peer s) n ≤ nCalls net s n
  pend : ∀ c ∈ net.calls, nAns net c.sock c.id = 0 → c.id ∈ (net.host (w.owner c.sock)).pending
  reqs : ∀ r e n servant args, .call e (some n) servant args ∈ msgs r → ∃ c ∈ net.calls, r = w.peer c.sock ∧ c.id = n ∧ c.servant = servant ∧ c.args = args
  runs : ∀ x ∈ net.running, x ∈ net.started ∧ Matches w net x
  results : ∀ r e n ok v, .result e n ok v ∈ msgs r → Served w net r n ok v
  answers : ∀ a ∈ net.answers, Served w net a.sock a.id a.ok a.value
  rets : ∀ x ok v, (x, ok, v) ∈ net.returned → x ∈ net.started ∧ (ok = true → x.known = true)

theorem peer_ne {w : Wiring} (hw : Wired w) {s t : Nat} (h : s ≠ t) : w.peer s ≠ w.peer t := by
  intro he
  have := congrArg w.peer he
  rw [hw.sym, hw.sym] at this
  exact h this

theorem inv_start (w : Wiring) : Inv w (Net.start w) (fun _ => []) where
  good := by simp
  gone := by intro s hs; cases hs
  here := by intro s _; exact ⟨{}, by simp [sockOf, Net.start]⟩
  part := by intro r; simp [bytes, sockOf, Net.start, flat]
  whole := by intro r _ _; simp [bytes, sockOf, Net.start, flat]
  bound := by intro c hc; cases hc
  uniq := by intro c hc; cases hc
  once := by intro s n; simp [nCalls, Net.start]
  count := by intro s n; simp [nReq, nRun, nRes, nAns, nCalls, Net.start]
  all := by intro s n _ _; simp [nReq, nRun, nRes, nAns, nCalls, Net.start]
  starts := by intro s n; simp [nReq, nStart, nCalls, Net.start]
  pend := by intro c hc; cases hc
  reqs := by simp
  runs := by intro x hx; cases hx
  results := by simp
  answers := by intro a ha; cases ha
  rets := by intro x ok v h; cases h

/-! ### Sending -/

/-- One more message for a socket (if it is still there). -/
def post (net : Net) (msgs : Nat → List Msg) (r : Nat) (m : Msg) : Nat → List Msg :=
  fun i => if i = r ∧ r ∉ net.lost then msgs i ++ [m] else msgs i

theorem post_req {net : Net} {msgs : Nat → List Msg} {r : Nat} {m : Msg} (i n : Nat) :
    nReq (post net msgs r m i) n = nReq (msgs i) n + (if i = r ∧ r ∉ net.lost ∧ isReq n m = true then 1 else 0) := by
  unfold post nReq
  by_cases h : i = r ∧ r ∉ net.lost
  · rw [if_pos h, List.countP_append]; simp [h.1, h.2, List.countP_cons]
  · rw [if_neg h, if_neg (by tauto)]; simp

theorem post_res {net : Net} {msgs : Nat → List Msg} {r : Nat} {m : Msg} (i n : Nat) :
    nRes (post net msgs r m i) n = nRes (msgs i) n + (if i = r ∧ r ∉ net.lost ∧ isRes n m = true then 1 else 0) := by
  unfold post nRes
  by_cases h : i = r ∧ r ∉ net.lost
  · rw [if_pos h, List.countP_append]; simp [h.1, h.2, List.countP_cons]
  · rw [if_neg h, if_neg (by tauto)]; simp

theorem post_mem {net : Net} {msgs : Nat → List Msg} {r : Nat} {m x : Msg} {i : Nat} (h : x ∈ post net msgs r m i) : x ∈ msgs i ∨ (i = r ∧ x = m) := by
  unfold post at h
  split at h
  · rename_i hc
    rcases List.mem_append.mp h with h | h
    · exact Or.inl h
    · exact Or.inr ⟨hc.1, by simpa using h⟩
  · exact Or.inl h

/-- The text after a message has been sent from `s`, which is not lost; the records of the sockets keep their text. -/
theorem send_part {w : Wiring} {net net' : Net} {msgs : Nat → List Msg} (hi : Inv w net msgs) {s : Nat} {m : Msg} (hs : s ∉ net.lost)
    (hw : Wired w) (hlost : net'.lost = net.lost)
    (hdata : ∀ r, (sockOf w net' r).map (·.pendingData) = (sockOf w net r).map (·.pendingData))
    (hwire : ∀ r, net'.wire r = if r = w.peer s then net.wire r ++ m.text else net.wire r) :
    (∀ r, bytes w net' r <+: flat (post net msgs (w.peer s) m r)) ∧
    (∀ r, r ∉ net'.lost → w.peer r ∉ net'.lost → bytes w net' r = flat (post net msgs (w.peer s) m r)) := by
  have key : ∀ r, bytes w net' r = if r = w.peer s ∧ w.peer s ∉ net.lost then bytes w net r ++ m.text else bytes w net r := by
    intro r
    have h1 := hdata r
    unfold bytes
    cases hr : sockOf w net r with
    | none =>
      have : sockOf w net' r = none := by rw [hr] at h1; simpa using h1
      rw [this]
      rw [if_neg]
      rintro ⟨rfl, h2⟩
      obtain ⟨d, hd⟩ := hi.here _ h2
      rw [hr] at hd; cases hd
    | some d =>
      rw [hr] at h1
      obtain ⟨d', hd', he⟩ : ∃ d', sockOf w net' r = some d' ∧ d'.pendingData = d.pendingData := by
        cases hh : sockOf w net' r with
        | none => rw [hh] at h1; simp at h1
        | some d' => rw [hh] at h1; exact ⟨d', rfl, by simpa using h1⟩
      rw [hd']
      show d'.pendingData ++ net'.wire r = _
      rw [he, hwire]
      by_cases hp : r = w.peer s
      · have : w.peer s ∉ net.lost := by
          intro hl
          have := hi.gone _ hl
          rw [← hp, hr] at this; cases this
        rw [if_pos hp, if_pos ⟨hp, this⟩, List.append_assoc]
      · rw [if_neg hp, if_neg (by tauto)]
  have hfl : ∀ r, flat (post net msgs (w.peer s) m r) = if r = w.peer s ∧ w.peer s ∉ net.lost then flat (msgs r) ++ m.text else flat (msgs r) := by
    intro r
    unfold post
    by_cases h : r = w.peer s ∧ w.peer s ∉ net.lost
    · rw [if_pos h, if_pos h]; simp [flat]
    · rw [if_neg h, if_neg h]
  constructor
  · intro r
    rw [key, hfl]
    by_cases h : r = w.peer s ∧ w.peer s ∉ net.lost
    · rw [if_pos h, if_pos h, hi.whole r (by rw [h.1]; exact h.2) (by rw [h.1, hw.sym]; exact hs)]
      exact List.prefix_refl _
    · rw [if_neg h, if_neg h]; exact hi.part r
  · intro r h1 h2
    rw [hlost] at h1 h2
    rw [key, hfl, hi.whole r h1 h2]

/-! ### The events -/

theorem setHost_host (net : Net) (i j : Nat) (h : Host) : (net.setHost i h).host j = if j = i then h else net.host j := rfl

theorem sockOf_setHost {w : Wiring} {net : Net} {s : Nat} {h : Host} {d : Option SockData}
    (hd : ∀ r, h.socks r = if r = s then d else (net.host (w.owner s)).socks r) (r : Nat) :
    sockOf w (net.setHost (w.owner s) h) r = if r = s then d else sockOf w net r := by
  unfold sockOf
  rw [setHost_host]
  by_cases hr : r = s
  · subst hr; rw [if_pos rfl, if_pos rfl, hd, if_pos rfl]
  · rw [if_neg hr]
    split
    · rename_i ho; rw [hd, if_neg hr, ho]
    · rfl

theorem count_zero_of_lt {net : Net} {s n : Nat} (h : ∀ c ∈ net.calls, c.sock = s → c.id ≠ n) : nCalls net s n = 0 := by
  unfold nCalls
  rw [List.countP_eq_zero]
  intro c hc
  simp only [Bool.and_eq_true, beq_iff_eq, not_and]
  exact h c hc

theorem inv_call {w : Wiring} (hw : Wired w) {net net' : Net} {msgs : Nat → List Msg} (hi : Inv w net msgs) {s : Nat} {e : Escape} {servant : List Char} {args : Obj}
    (hok : Ok (.call s e servant args)) (h : net.step w (.call s e servant args) = some net') : ∃ msgs', Inv w net' msgs' := by
  simp only [Net.step] at h
  split at h
  · rename_i hc
    unfold invokeMethod recordPendingCall at h
    cases hd : (net.host (w.owner s)).socks s with
    | none => simp only [hd] at h; cases h
    | some d =>
      simp only [hd, Option.map_some, Option.some.injEq] at h
      have hs : s ∉ net.lost := by
        intro hl; have := hi.gone s hl; unfold sockOf at this; rw [hd] at this; cases this
      let n := (net.host (w.owner s)).counter + 1
      let m : Msg := .call e (some n) servant args
      have hn : n < 2 ^ 61 := hc
      have hhost : ∀ j, net'.host j = if j = w.owner s then
          ({ net.host (w.owner s) with counter := n, pending := n :: (net.host (w.owner s)).pending }.setSock s (some { d with pendingCalls := n :: d.pendingCalls })) else net.host j := by
        rw [← h]; intro j; rfl
      have hsock : ∀ r, sockOf w net' r = if r = s then some { d with pendingCalls := n :: d.pendingCalls } else sockOf w net r := by
        intro r
        rw [← h]
        exact sockOf_setHost (fun r => rfl) r
      have hwire : ∀ r, net'.wire r = if r = w.peer s then net.wire r ++ m.text else net.wire r := by rw [← h]; intro r; rfl
      have hlost : net'.lost = net.lost := by rw [← h]; rfl
      have hcalls : net'.calls = ⟨s, n, servant, args⟩ :: net.calls := by rw [← h]; rfl
      have hrun : net'.running = net.running := by rw [← h]; rfl
      have hst : net'.started = net.started := by rw [← h]; rfl
      have hret : net'.returned = net.returned := by rw [← h]; rfl
      have hans : net'.answers = net.answers := by rw [← h]; rfl
      clear h
      have hcounter : ∀ j, (net.host j).counter ≤ (net'.host j).counter := by
        intro j; rw [hhost]; split
        · rename_i hj; subst hj; show _ ≤ n; omega
        · exact Nat.le_refl _
      have hnew : ∀ c ∈ net.calls, w.owner c.sock = w.owner s → c.id ≠ n := by
        intro c hc ho he
        have := (hi.bound c hc).1
        rw [ho, he] at this
        simp only [n] at this
        omega
      have hserved : ∀ s n ok v, Served w net s n ok v → Served w net' s n ok v := by
        rintro s n ok v ⟨c, hc, h1, h2, x, hx, h3⟩
        exact ⟨c, by rw [hcalls]; simp [hc], h1, h2, x, by rw [hret]; exact hx, h3⟩
      have hnc : ∀ t k, nCalls net' t k = nCalls net t k + if t = s ∧ k = n then 1 else 0 := by
        intro t k
        unfold nCalls
        rw [hcalls, List.countP_cons]
        congr 1
        simp only [Bool.and_eq_true, beq_iff_eq, eq_comm (a := s), eq_comm (a := n)]
      have hold : nCalls net s n = 0 := count_zero_of_lt fun c hc h1 => hnew c hc (by rw [h1])
      have hmsg := send_part (net' := net') (m := m) hi hs hw hlost (by
        intro r; rw [hsock]; split
        · rename_i hr; subst hr; unfold sockOf; rw [hd]; rfl
        · rfl) hwire
      have hreq : ∀ t k, nReq (post net msgs (w.peer s) m (w.peer t)) k ≤ nReq (msgs (w.peer t)) k + if t = s ∧ k = n then 1 else 0 := by
        intro t k
        rw [post_req]
        apply Nat.add_le_add_left
        by_cases h1 : w.peer t = w.peer s ∧ w.peer s ∉ net.lost ∧ isReq k m = true
        · rw [if_pos h1, if_pos]
          have h2 : t = s := by by_contra hne; exact peer_ne hw hne h1.1
          have h3 := h1.2.2
          simp only [isReq, m, beq_iff_eq, Option.some.injEq] at h3
          exact ⟨h2, h3.symm⟩
        · rw [if_neg h1]; omega
      have hres : ∀ t k, nRes (post net msgs (w.peer s) m t) k = nRes (msgs t) k := by
        intro t k
        rw [post_res, if_neg (by simp [isRes, m])]
        rfl
      refine ⟨post net msgs (w.peer s) m, ?_⟩
      constructor
      · intro r x hx
        rcases post_mem hx with hx | ⟨_, rfl⟩
        · exact hi.good r x hx
        · exact ⟨fun k hk => by injection hk with hk; rw [← hk]; exact hn, hok.1, hok.2⟩
      · intro t ht
        rw [hsock, if_neg (by rintro rfl; rw [hlost] at ht; exact hs ht)]
        exact hi.gone t (by rw [← hlost]; exact ht)
      · intro t ht
        rw [hsock]
        split
        · exact ⟨_, rfl⟩
        · exact hi.here t (by rw [← hlost]; exact ht)
      · exact hmsg.1
      · exact hmsg.2
      · intro c hc'
        rw [hcalls] at hc'
        rcases List.mem_cons.mp hc' with rfl | hc'
        · refine ⟨?_, hn⟩
          show n ≤ _
          rw [hhost, if_pos rfl]; exact Nat.le_refl _
        · exact ⟨Nat.le_trans (hi.bound c hc').1 (hcounter _), (hi.bound c hc').2⟩
      · intro c h1 c' h2 ho he
        rw [hcalls] at h1 h2
        rcases List.mem_cons.mp h1 with rfl | h1 <;> rcases List.mem_cons.mp h2 with rfl | h2
        · rfl
        · exact absurd he.symm (hnew c' h2 ho.symm)
        · exact absurd he (hnew c h1 ho)
        · exact hi.uniq c h1 c' h2 ho he
      · intro t k
        rw [hnc]
        by_cases hk : t = s ∧ k = n
        · rw [if_pos hk, hk.1, hk.2, hold]
        · rw [if_neg hk]; exact hi.once t k
      · intro t k
        have h1 := hreq t k
        have h2 := hi.count t k
        rw [hnc, hres]
        simp only [nRun, nAns, hrun, hans] at h2 ⊢
        omega
      · intro t k h3 h4
        rw [hlost] at h3 h4
        have h2 := hi.all t k h3 h4
        rw [hnc, hres, post_req]
        have : (if w.peer t = w.peer s ∧ w.peer s ∉ net.lost ∧ isReq k m = true then 1 else 0) = if t = s ∧ k = n then 1 else 0 := by
          by_cases h5 : t = s
          · subst h5
            simp only [isReq, m, true_and, h4, not_false_eq_true, beq_iff_eq, Option.some.injEq, eq_comm (a := n)]
          · rw [if_neg (fun h => peer_ne hw h5 h.1), if_neg (by tauto)]
        rw [this]
        simp only [nRun, nAns, hrun, hans] at h2 ⊢
        omega
      · intro t k
        have h1 := hreq t k
        have h2 := hi.starts t k
        rw [hnc]
        simp only [nStart, hst] at h2 ⊢
        omega
      · intro c hc' ha
        rw [hcalls] at hc'
        rw [hhost]
        rcases List.mem_cons.mp hc' with rfl | hc'
        · rw [if_pos rfl]; show n ∈ n :: _; simp
        · have := hi.pend c hc' (by simpa [nAns, hans] using ha)
          split
          · rename_i ho; rw [ho] at this; show _ ∈ n :: _; simp [this]
          · exact this
      · intro r e' k sv ar hm
        rcases post_mem hm with hm | ⟨hr, hm⟩
        · obtain ⟨c, hc', h⟩ := hi.reqs r e' k sv ar hm
          exact ⟨c, by rw [hcalls]; simp [hc'], h⟩
        · simp only [m, Msg.call.injEq, Option.some.injEq] at hm
          obtain ⟨_, rfl, rfl, rfl⟩ := hm
          exact ⟨_, by rw [hcalls]; exact List.mem_cons_self .., hr, rfl, rfl, rfl⟩
      · intro x hx
        rw [hrun] at hx
        obtain ⟨h1, h2⟩ := hi.runs x hx
        refine ⟨by rw [hst]; exact h1, h2.imp_right ?_⟩
        rintro ⟨c, hc', h⟩
        exact ⟨c, by rw [hcalls]; simp [hc'], h⟩
      · intro r e' k ok v hm
        rcases post_mem hm with hm | ⟨_, hm⟩
        · exact hserved _ _ _ _ (hi.results r e' k ok v hm)
        · exact nomatch hm
      · intro a ha
        rw [hans] at ha
        exact hserved _ _ _ _ (hi.answers a ha)
      · intro x ok v hx
        rw [hret] at hx
        rw [hst]
        exact hi.rets x ok v hx
  · cases h

theorem inv_oneway {w : Wiring} (hw : Wired w) {net net' : Net} {msgs : Nat → List Msg} (hi : Inv w net msgs) {s : Nat} {e : Escape} {servant : List Char} {args : Obj}
    (hok : Ok (.oneway s e servant args)) (h : net.step w (.oneway s e servant args) = some net') : ∃ msgs', Inv w net' msgs' := by
  simp only [Net.step] at h
  split at h
  · rename_i hc
    injection h with h
    have hs : s ∉ net.lost := by
      intro hl; have := hi.gone s hl; unfold sockOf at this; rw [this] at hc; cases hc
    let m : Msg := .call e none servant args
    subst h
    have hmsg := send_part (net' := net.send w s m.text) (m := m) hi hs hw rfl (fun r => rfl) (fun r => rfl)
    have hreq : ∀ t k, nReq (post net msgs (w.peer s) m t) k = nReq (msgs t) k := by
      intro t k; rw [post_req, if_neg (by simp [isReq, m])]; rfl
    have hres : ∀ t k, nRes (post net msgs (w.peer s) m t) k = nRes (msgs t) k := by
      intro t k; rw [post_res, if_neg (by simp [isRes, m])]; rfl
    refine ⟨post net msgs (w.peer s) m, ?_, hi.gone, hi.here, hmsg.1, hmsg.2, hi.bound, hi.uniq, hi.once, ?_, ?_, ?_, hi.pend, ?_, hi.runs, ?_, hi.answers, hi.rets⟩
    · intro r x hx
      rcases post_mem hx with hx | ⟨_, rfl⟩
      · exact hi.good r x hx
      · exact ⟨(fun k hk => nomatch hk), hok.1, hok.2⟩
    · intro t k; rw [hreq, hres]; exact hi.count t k
    · intro t k; rw [hreq, hres]; exact hi.all t k
    · intro t k; rw [hreq]; exact hi.starts t k
    · intro r e' k sv ar hm
      rcases post_mem hm with hm | ⟨_, hm⟩
      · exact hi.reqs r e' k sv ar hm
      · simp [m] at hm
    · intro r e' k ok v hm
      rcases post_mem hm with hm | ⟨_, hm⟩
      · exact hi.results r e' k ok v hm
      · simp [m] at hm
  · cases h

/-- Text moves from the wire into the record of a socket, or nothing of interest changes. -/
theorem inv_move {w : Wiring} {net net' : Net} {msgs : Nat → List Msg} (hi : Inv w net msgs) (hlost : net'.lost = net.lost)
    (hcalls : net'.calls = net.calls) (hrun : net'.running = net.running) (hst : net'.started = net.started) (hret : net'.returned = net.returned)
    (hans : net'.answers = net.answers) (hsome : ∀ r, (sockOf w net' r).isSome = (sockOf w net r).isSome) (hbytes : ∀ r, bytes w net' r = bytes w net r)
    (hhost : ∀ j, (net'.host j).counter = (net.host j).counter ∧ (net'.host j).pending = (net.host j).pending) : Inv w net' msgs where
  good := hi.good
  gone := by
    intro s hs
    have := hsome s
    rw [hi.gone s (by rw [← hlost]; exact hs)] at this
    cases h : sockOf w net' s with
    | none => rfl
    | some d => rw [h] at this; cases this
  here := by
    intro s hs
    have := hsome s
    obtain ⟨d, hd⟩ := hi.here s (by rw [← hlost]; exact hs)
    rw [hd] at this
    cases h : sockOf w net' s with
    | none => rw [h] at this; cases this
    | some d => exact ⟨d, rfl⟩
  part := by intro r; rw [hbytes]; exact hi.part r
  whole := by rw [hlost]; intro r; rw [hbytes]; exact hi.whole r
  bound := by rw [hcalls]; intro c hc; rw [(hhost _).1]; exact hi.bound c hc
  uniq := by rw [hcalls]; exact hi.uniq
  once := by unfold nCalls; rw [hcalls]; exact hi.once
  count := by unfold nCalls nRun nAns; rw [hcalls, hrun, hans]; exact hi.count
  all := by unfold nCalls nRun nAns; rw [hcalls, hrun, hans, hlost]; exact hi.all
  starts := by unfold nCalls nStart; rw [hcalls, hst]; exact hi.starts
  pend := by unfold nAns; rw [hcalls, hans]; intro c hc; rw [(hhost _).2]; exact hi.pend c hc
  reqs := by rw [hcalls]; exact hi.reqs
  runs := by unfold Matches; rw [hrun, hst, hcalls]; exact hi.runs
  results := by unfold Served; rw [hcalls, hret]; exact hi.results
  answers := by unfold Served; rw [hcalls, hret, hans]; exact hi.answers
  rets := by rw [hret, hst]; exact hi.rets

theorem inv_deliver {w : Wiring} {net net' : Net} {msgs : Nat → List Msg} (hi : Inv w net msgs) {s n : Nat}
    (h : net.step w (.deliver s n) = some net') : ∃ msgs', Inv w net' msgs' := by
  simp only [Net.step, arrive] at h
  cases hd : (net.host (w.owner s)).socks s with
  | none => rw [hd] at h; cases h
  | some d =>
    rw [hd] at h
    simp only [Option.map_some, Option.some.injEq] at h
    have hsock : ∀ r, sockOf w net' r = if r = s then some { d with pendingData := d.pendingData ++ (net.wire s).take n } else sockOf w net r := by
      intro r; rw [← h]; exact sockOf_setHost (fun r => rfl) r
    refine ⟨msgs, inv_move hi (by rw [← h]; rfl) (by rw [← h]; rfl) (by rw [← h]; rfl) (by rw [← h]; rfl) (by rw [← h]; rfl) (by rw [← h]; rfl) ?_ ?_ ?_⟩
    · intro r
      rw [hsock]
      split
      · rename_i hr; subst hr; unfold sockOf; rw [hd]; rfl
      · rfl
    · intro r
      unfold bytes
      rw [hsock]
      by_cases hr : r = s
      · subst hr
        have : sockOf w net r = some d := hd
        rw [if_pos rfl, this, ← h]
        simp
      · rw [if_neg hr]
        have : net'.wire r = net.wire r := by rw [← h]; exact if_neg hr
        rw [this]
    · intro j
      rw [← h]
      show ((net.setHost (w.owner s) _).host j).counter = _ ∧ ((net.setHost (w.owner s) _).host j).pending = _
      rw [setHost_host]
      split
      · rename_i hj; subst hj; exact ⟨rfl, rfl⟩
      · exact ⟨rfl, rfl⟩

theorem inv_servants {w : Wiring} {net : Net} {msgs : Nat → List Msg} (hi : Inv w net msgs) (i : Nat) (l : List (List Char)) :
    Inv w (net.setHost i { net.host i with servants := l }) msgs := by
  have hsock : ∀ r, sockOf w (net.setHost i { net.host i with servants := l }) r = sockOf w net r := by
    intro r
    unfold sockOf
    rw [setHost_host]
    split
    · rename_i hj; rw [hj]
    · rfl
  refine inv_move hi rfl rfl rfl rfl rfl rfl (fun r => by rw [hsock]) ?_ ?_
  · intro r; unfold bytes; rw [hsock]; rfl
  · intro j
    rw [setHost_host]
    split
    · rename_i hj; subst hj; exact ⟨rfl, rfl⟩
    · exact ⟨rfl, rfl⟩

theorem countP_eraseIdx {α : Type} (p : α → Bool) : ∀ (l : List α) (k : Nat) (x : α), l[k]? = some x →
    l.countP p = (l.eraseIdx k).countP p + if p x = true then 1 else 0 := by
  intro l
  induction l with
  | nil => intro k x h; simp at h
  | cons a l ih =>
    intro k x h
    cases k with
    | zero => simp at h; subst h; rw [List.countP_cons]; rfl
    | succ k =>
      simp only [List.getElem?_cons_succ] at h
      rw [List.eraseIdx_cons_succ, List.countP_cons, List.countP_cons, ih k x h]
      omega

theorem inv_finish {w : Wiring} (hw : Wired w) {net net' : Net} {msgs : Nat → List Msg} (hi : Inv w net msgs) {k : Nat} {e : Escape} {ok : Bool} {v : Obj}
    (hok : Ok (.finish k e ok v)) (h : net.step w (.finish k e ok v) = some net') : ∃ msgs', Inv w net' msgs' := by
  simp only [Net.step] at h
  cases hx : net.running[k]? with
  | none => rw [hx] at h; cases h
  | some x =>
    rw [hx] at h
    simp only at h
    split at h
    · cases h
    · rename_i hkn
      have hxr : x ∈ net.running := List.mem_of_getElem? hx
      obtain ⟨hxs, hxm⟩ := hi.runs x hxr
      have hrun : ∀ t n, nRun net t n = (net.running.eraseIdx k).countP (fun y => y.sock == t && callId y.id == some n) +
          if (x.sock == t && callId x.id == some n) = true then 1 else 0 := fun t n => countP_eraseIdx _ _ k x hx
      have hsub : ∀ y ∈ net.running.eraseIdx k, y ∈ net.running := fun y hy => List.mem_of_mem_eraseIdx hy
      have hserved : ∀ (net' : Net), net'.calls = net.calls → net'.returned = (x, ok, v) :: net.returned → ∀ s n ok v, Served w net s n ok v → Served w net' s n ok v := by
        rintro net' h1 h2 s n ok v ⟨c, hc, h3, h4, y, hy, h5⟩
        exact ⟨c, by rw [h1]; exact hc, h3, h4, y, by rw [h2]; exact List.mem_cons_of_mem _ hy, h5⟩
      have hrets : ∀ y ok' v', (y, ok', v') ∈ (x, ok, v) :: net.returned → y ∈ net.started ∧ (ok' = true → y.known = true) := by
        intro y ok' v' hy
        rcases List.mem_cons.mp hy with hy | hy
        · injection hy with h1 h2
          injection h2 with h2 h3
          subst h1 h2
          exact ⟨hxs, fun h => by
            cases hk' : y.known with
            | true => rfl
            | false => exact absurd ⟨h, by simp [hk']⟩ hkn⟩
        · exact hi.rets y ok' v' hy
      split at h
      · rename_i hc
        injection h with h
        obtain ⟨ht, hsm⟩ := hc
        rcases hxm with hnil | ⟨c, hcm, h1, h2, h3, h4⟩
        · rw [hnil] at ht; cases ht
        · let m : Msg := .result e c.id ok v
          have hs : x.sock ∉ net.lost := by
            intro hl; have := hi.gone _ hl; unfold sockOf at this; rw [this] at hsm; cases hsm
          have hpeer : w.peer x.sock = c.sock := by rw [h1, hw.sym]
          have hmt : prin e (response x.id ok v) = m.text := by rw [h2]; rfl
          rw [hmt] at h
          have hmsg := send_part (net' := net') (m := m) hi hs hw (by rw [← h]; rfl) (by rw [← h]; intro r; rfl) (by rw [← h]; intro r; rfl)
          have hreq : ∀ t n, nReq (post net msgs (w.peer x.sock) m t) n = nReq (msgs t) n := by
            intro t n; rw [post_req, if_neg (by simp [isReq, m])]; rfl
          have hres : ∀ t n, nRes (post net msgs (w.peer x.sock) m t) n = nRes (msgs t) n + if t = c.sock ∧ c.sock ∉ net.lost ∧ n = c.id then 1 else 0 := by
            intro t n
            rw [post_res, hpeer]
            simp only [isRes, m, beq_iff_eq, eq_comm (a := c.id)]
          have hr : ∀ t n, (x.sock == w.peer t && callId x.id == some n) = true ↔ t = c.sock ∧ n = c.id := by
            intro t n
            rw [h2, callId_idObj, h1]
            simp only [Bool.and_eq_true, beq_iff_eq, Option.some.injEq]
            constructor
            · rintro ⟨h5, h6⟩
              have := congrArg w.peer h5
              rw [hw.sym, hw.sym] at this
              exact ⟨this.symm, h6.symm⟩
            · rintro ⟨rfl, rfl⟩; exact ⟨rfl, rfl⟩
          have hrun' : ∀ t n, nRun net' t n = (net.running.eraseIdx k).countP (fun y => y.sock == t && callId y.id == some n) := by
            rw [← h]; intro t n; rfl
          subst h
          refine ⟨post net msgs (w.peer x.sock) m, ?_, hi.gone, hi.here, hmsg.1, hmsg.2, hi.bound, hi.uniq, hi.once, ?_, ?_, ?_, hi.pend, ?_, ?_, ?_, ?_, hrets⟩
          · intro r y hy
            rcases post_mem hy with hy | ⟨_, rfl⟩
            · exact hi.good r y hy
            · exact ⟨(hi.bound c hcm).2, hok⟩
          · intro t n
            have h5 := hi.count t n
            rw [hrun, if_congr (hr t n) rfl rfl] at h5
            rw [hreq, hres, hrun']
            have h6 : (if t = c.sock ∧ c.sock ∉ net.lost ∧ n = c.id then 1 else 0) ≤ if t = c.sock ∧ n = c.id then 1 else 0 := by
              by_cases h7 : t = c.sock ∧ c.sock ∉ net.lost ∧ n = c.id
              · rw [if_pos h7, if_pos ⟨h7.1, h7.2.2⟩]
              · rw [if_neg h7]; omega
            refine Nat.le_trans ?_ h5
            show _ + _ + _ + nAns net t n ≤ _
            omega
          · intro t n h8 h9
            have h5 := hi.all t n h8 h9
            rw [hrun, if_congr (hr t n) rfl rfl] at h5
            rw [hreq, hres, hrun']
            have h6 : (if t = c.sock ∧ c.sock ∉ net.lost ∧ n = c.id then 1 else 0) = if t = c.sock ∧ n = c.id then 1 else 0 := by
              apply if_congr _ rfl rfl
              constructor
              · rintro ⟨a, _, b⟩; exact ⟨a, b⟩
              · rintro ⟨a, b⟩; exact ⟨a, by rw [← a]; exact h8, b⟩
            rw [h6]
            refine Eq.trans ?_ h5
            show _ + _ + _ + nAns net t n = _
            omega
          · intro t n; rw [hreq]; exact hi.starts t n
          · intro r e' n sv ar hm
            rcases post_mem hm with hm | ⟨_, hm⟩
            · exact hi.reqs r e' n sv ar hm
            · exact nomatch hm
          · intro y hy
            exact hi.runs y (hsub y hy)
          · intro r e' n ok' v' hm
            rcases post_mem hm with hm | ⟨hr', hm⟩
            · exact hserved (Net.send w { net with running := net.running.eraseIdx k, returned := (x, ok, v) :: net.returned } x.sock m.text) rfl rfl _ _ _ _ (hi.results r e' n ok' v' hm)
            · simp only [m, Msg.result.injEq] at hm
              obtain ⟨_, rfl, rfl, rfl⟩ := hm
              exact ⟨c, hcm, by rw [hr', hpeer], rfl, x, List.mem_cons_self .., by rw [hr', hw.sym], h2, h3, h4⟩
          · intro a ha
            exact hserved (Net.send w { net with running := net.running.eraseIdx k, returned := (x, ok, v) :: net.returned } x.sock m.text) rfl rfl _ _ _ _ (hi.answers a ha)
      · rename_i hc
        injection h with h
        subst h
        have hle : ∀ t n, (net.running.eraseIdx k).countP (fun y => y.sock == t && callId y.id == some n) ≤ nRun net t n := by
          intro t n; rw [hrun]; omega
        refine ⟨msgs, hi.good, hi.gone, hi.here, hi.part, hi.whole, hi.bound, hi.uniq, hi.once, ?_, ?_, hi.starts, hi.pend, hi.reqs, ?_, ?_, ?_, hrets⟩
        · intro t n
          have h5 := hi.count t n
          have := hle (w.peer t) n
          refine Nat.le_trans ?_ h5
          show nReq (msgs (w.peer t)) n + (net.running.eraseIdx k).countP _ + nRes (msgs t) n + nAns net t n ≤ _
          omega
        · intro t n h8 h9
          have h5 := hi.all t n h8 h9
          have : (net.running.eraseIdx k).countP (fun y => y.sock == w.peer t && callId y.id == some n) = nRun net (w.peer t) n := by
            rw [hrun, if_neg]; · rfl
            intro hh
            simp only [Bool.and_eq_true, beq_iff_eq] at hh
            apply hc
            rcases hxm with hnil | ⟨c, hcm, h1, h2, h3, h4⟩
            · rw [hnil] at hh; exact absurd hh.2 (by simp [callId])
            · refine ⟨by rw [h2]; rfl, ?_⟩
              rw [hh.1]
              obtain ⟨d, hd⟩ := hi.here _ h9
              unfold sockOf at hd
              rw [hd]; rfl
          refine Eq.trans ?_ h5
          show nReq (msgs (w.peer t)) n + (net.running.eraseIdx k).countP _ + nRes (msgs t) n + nAns net t n = _
          rw [this]
        · intro y hy
          exact hi.runs y (hsub y hy)
        · intro r e' n ok' v' hm
          exact hserved { net with running := net.running.eraseIdx k, returned := (x, ok, v) :: net.returned } rfl rfl _ _ _ _ (hi.results r e' n ok' v' hm)
        · intro a ha
          exact hserved { net with running := net.running.eraseIdx k, returned := (x, ok, v) :: net.returned } rfl rfl _ _ _ _ (hi.answers a ha)

/-! ### A connection is lost -/

/-- No callback is called when a connection is lost: the first attempt to do so is an error. -/
theorem deregister_eq (h : Host) (s : Nat) : (deregister h s).1.counter = h.counter ∧ (deregister h s).1.pending = h.pending ∧
    (deregister h s).2.2 = [] ∧ ∀ r, (deregister h s).1.socks r = if r = s then none else h.socks r := by
  cases hd : h.socks s with
  | none =>
    have : deregister h s = (h, true, []) := by unfold deregister; rw [hd]
    rw [this]
    refine ⟨rfl, rfl, rfl, fun r => ?_⟩
    by_cases hr : r = s
    · rw [if_pos hr, hr]; exact hd
    · rw [if_neg hr]
  | some d =>
    have : deregister h s = failCalls s d.pendingCalls (h.setSock s none) := by unfold deregister; rw [hd]
    rw [this]
    cases hp : d.pendingCalls with
    | nil => exact ⟨rfl, rfl, rfl, fun r => rfl⟩
    | cons id ids =>
      have : dispatchPendingCall (h.setSock s none) s (idObj id) = none := by
        unfold dispatchPendingCall
        have : (h.setSock s none).socks s = none := if_pos rfl
        rw [this]
      have : failCalls s (id :: ids) (h.setSock s none) = (h.setSock s none, false, []) := by
        unfold failCalls; rw [this]
      rw [this]
      exact ⟨rfl, rfl, rfl, fun r => rfl⟩

theorem inv_lose {w : Wiring} (hw : Wired w) {net net' : Net} {msgs : Nat → List Msg} (hi : Inv w net msgs) {s : Nat}
    (h : net.step w (.lose s) = some net') : ∃ msgs', Inv w net' msgs' := by
  simp only [Net.step, Option.some.injEq] at h
  obtain ⟨d1, d2, d3, d4⟩ := deregister_eq (net.host (w.owner s)) s
  have hsock : ∀ r, sockOf w net' r = if r = s then none else sockOf w net r := by
    intro r; rw [← h]; exact sockOf_setHost d4 r
  have hhost : ∀ j, (net'.host j).counter = (net.host j).counter ∧ (net'.host j).pending = (net.host j).pending := by
    intro j
    rw [← h]
    show ((net.setHost (w.owner s) _).host j).counter = _ ∧ ((net.setHost (w.owner s) _).host j).pending = _
    rw [setHost_host]
    split
    · rename_i hj; subst hj; exact ⟨d1, d2⟩
    · exact ⟨rfl, rfl⟩
  have hlost : net'.lost = s :: net.lost := by rw [← h]
  have hcalls : net'.calls = net.calls := by rw [← h]; rfl
  have hrun : net'.running = net.running := by rw [← h]; rfl
  have hst : net'.started = net.started := by rw [← h]; rfl
  have hret : net'.returned = net.returned := by rw [← h]; rfl
  have hans : net'.answers = net.answers := by rw [← h]; simp [d3]
  have hwire : ∀ r, net'.wire r = if r = s ∨ r = w.peer s then [] else net.wire r := by rw [← h]; intro r; rfl
  clear h
  have hle : ∀ r, bytes w net' r <+: bytes w net r := by
    intro r
    unfold bytes
    rw [hsock]
    by_cases hr : r = s
    · rw [if_pos hr]; exact List.nil_prefix
    · rw [if_neg hr]
      cases sockOf w net r with
      | none => exact List.nil_prefix
      | some d =>
        show d.pendingData ++ net'.wire r <+: d.pendingData ++ net.wire r
        rw [hwire]
        split
        · exact ⟨net.wire r, by simp⟩
        · exact List.prefix_refl _
  refine ⟨msgs, hi.good, ?_, ?_, ?_, ?_, ?_, ?_, ?_, ?_, ?_, ?_, ?_, ?_, ?_, ?_, ?_, ?_⟩
  · intro t ht
    rw [hsock]
    split
    · rfl
    · rename_i hne
      rw [hlost] at ht
      rcases List.mem_cons.mp ht with ht | ht
      · exact absurd ht hne
      · exact hi.gone t ht
  · intro t ht
    rw [hlost] at ht
    simp only [List.mem_cons, not_or] at ht
    rw [hsock, if_neg ht.1]
    exact hi.here t ht.2
  · intro r; exact (hle r).trans (hi.part r)
  · intro r h1 h2
    rw [hlost] at h1 h2
    simp only [List.mem_cons, not_or] at h1 h2
    rw [← hi.whole r h1.2 h2.2]
    unfold bytes
    rw [hsock, if_neg h1.1, hwire, if_neg]
    rintro (h3 | h3)
    · exact h1.1 h3
    · exact h2.1 (by rw [h3, hw.sym])
  · rw [hcalls]; intro c hc; rw [(hhost _).1]; exact hi.bound c hc
  · rw [hcalls]; exact hi.uniq
  · unfold nCalls; rw [hcalls]; exact hi.once
  · unfold nCalls nRun nAns; rw [hcalls, hrun, hans]; exact hi.count
  · unfold nCalls nRun nAns
    rw [hcalls, hrun, hans, hlost]
    intro t n h1 h2
    simp only [List.mem_cons, not_or] at h1 h2
    exact hi.all t n h1.2 h2.2
  · unfold nCalls nStart; rw [hcalls, hst]; exact hi.starts
  · unfold nAns; rw [hcalls, hans]; intro c hc; rw [(hhost _).2]; exact hi.pend c hc
  · rw [hcalls]; exact hi.reqs
  · unfold Matches; rw [hrun, hst, hcalls]; exact hi.runs
  · unfold Served; rw [hcalls, hret]; exact hi.results
  · unfold Served; rw [hcalls, hret, hans]; exact hi.answers
  · rw [hret, hst]; exact hi.rets

/-! ### A round of the output handler -/

theorem inv_round {w : Wiring} (hw : Wired w) {net net' : Net} {msgs : Nat → List Msg} (hi : Inv w net msgs) {s : Nat}
    (h : net.step w (.round s) = some net') : ∃ msgs', Inv w net' msgs' := by
  simp only [Net.step] at h
  cases hd : (net.host (w.owner s)).socks s with
  | none =>
    have : readForm (net.host (w.owner s)) s = .error := by unfold readForm; rw [hd]
    rw [this] at h
    injection h with h; subst h; exact ⟨msgs, hi⟩
  | some d =>
    have hs : s ∉ net.lost := by
      intro hl; have := hi.gone s hl; unfold sockOf at this; rw [hd] at this; cases this
    have hby : bytes w net s = d.pendingData ++ net.wire s := by unfold bytes sockOf; rw [hd]
    have hpre : d.pendingData <+: flat (msgs s) := (show d.pendingData <+: bytes w net s by rw [hby]; exact ⟨_, rfl⟩).trans (hi.part s)
    rcases read_flat (hi.good s) hpre with ⟨hr, _⟩ | ⟨m, ms', rest, hms, hr, hbuf, hrest⟩
    · have : readForm (net.host (w.owner s)) s = .out := by unfold readForm; rw [hd]; rcases hr with hr | hr <;> simp only [hr]
      rw [this] at h
      injection h with h; subst h; exact ⟨msgs, hi⟩
    · have : readForm (net.host (w.owner s)) s = .form ((net.host (w.owner s)).setSock s (some { d with pendingData := rest })) m.form := by
        unfold readForm; rw [hd]; simp only [hr]
      rw [this] at h
      simp only [Option.some.injEq] at h
      have hfl : flat (msgs s) = m.text ++ flat ms' := by rw [hms]; unfold flat; rw [List.flatMap_cons]
      let msgs' : Nat → List Msg := fun i => if i = s then ms' else msgs i
      have hm's : msgs' s = ms' := if_pos rfl
      have hsub : ∀ i, ∀ x ∈ msgs' i, x ∈ msgs i := by
        intro i x hx
        by_cases hi' : i = s
        · subst hi'; rw [hm's] at hx; rw [hms]; simp [hx]
        · simpa [msgs', hi'] using hx
      have hmem : m ∈ msgs s := by rw [hms]; simp
      have hpart : ∀ {net1 : Net}, (∀ r, net1.wire r = net.wire r) → net1.lost = net.lost →
          (∀ r, (sockOf w net1 r).map (·.pendingData) = if r = s then some rest else (sockOf w net r).map (·.pendingData)) →
          (∀ r, bytes w net1 r <+: flat (msgs' r)) ∧ (∀ r, r ∉ net1.lost → w.peer r ∉ net1.lost → bytes w net1 r = flat (msgs' r)) := by
        intro net1 h1 h2 h3
        have hb : ∀ r, r ≠ s → bytes w net1 r = bytes w net r ∧ msgs' r = msgs r := by
          intro r hr'
          refine ⟨?_, if_neg hr'⟩
          have := h3 r
          rw [if_neg hr'] at this
          unfold bytes
          cases ha : sockOf w net1 r <;> cases hb : sockOf w net r <;> rw [ha, hb] at this <;> simp at this
          · simp only [this, h1]
        have hbs : bytes w net1 s = rest ++ net.wire s := by
          have := h3 s
          rw [if_pos rfl] at this
          unfold bytes
          cases ha : sockOf w net1 s <;> rw [ha] at this <;> simp at this
          simp only [this, h1]
        constructor
        · intro r
          by_cases hr' : r = s
          · subst hr'
            rw [hbs, hm's]
            have := hi.part r
            rw [hby, hbuf, hfl, List.append_assoc] at this
            exact (List.prefix_append_right_inj _).mp this
          · rw [(hb r hr').1, (hb r hr').2]; exact hi.part r
        · intro r h4 h5
          rw [h2] at h4 h5
          by_cases hr' : r = s
          · subst hr'
            rw [hbs, hm's]
            have := hi.whole r h4 h5
            rw [hby, hbuf, hfl, List.append_assoc] at this
            exact List.append_cancel_left this
          · rw [(hb r hr').1, (hb r hr').2]; exact hi.whole r h4 h5
      have hgood' : ∀ r, ∀ x ∈ msgs' r, x.Good := fun r x hx => hi.good r x (hsub r x hx)
      have hreq : ∀ t n, nReq (msgs t) n = nReq (msgs' t) n + if t = s ∧ isReq n m = true then 1 else 0 := by
        intro t n
        by_cases ht : t = s
        · subst ht; rw [hm's, hms]; simp [nReq, List.countP_cons]
        · rw [if_neg (by tauto)]; simp [msgs', ht]
      have hres : ∀ t n, nRes (msgs t) n = nRes (msgs' t) n + if t = s ∧ isRes n m = true then 1 else 0 := by
        intro t n
        by_cases ht : t = s
        · subst ht; rw [hm's, hms]; simp [nRes, List.countP_cons]
        · rw [if_neg (by tauto)]; simp [msgs', ht]
      cases m with
      | call e id servant args =>
        obtain ⟨ido, hf, hid⟩ : ∃ ido, (Msg.call e id servant args).form = request ido servant args ∧ (id = none ∧ ido = .nil ∨ ∃ n, id = some n ∧ ido = idObj n) := by
          cases id with
          | none => exact ⟨_, rfl, Or.inl ⟨rfl, rfl⟩⟩
          | some n => exact ⟨_, rfl, Or.inr ⟨n, rfl, rfl⟩⟩
        rw [hf, act_request] at h
        simp only [Net.perform] at h
        have hsock : ∀ r, sockOf w net' r = if r = s then some { d with pendingData := rest } else sockOf w net r := by
          rw [← h]; intro r; exact sockOf_setHost (fun r => rfl) r
        have hhost : ∀ j, (net'.host j).counter = (net.host j).counter ∧ (net'.host j).pending = (net.host j).pending := by
          intro j
          rw [← h]
          show ((net.setHost (w.owner s) _).host j).counter = _ ∧ ((net.setHost (w.owner s) _).host j).pending = _
          rw [setHost_host]
          split
          · rename_i hj; subst hj; exact ⟨rfl, rfl⟩
          · exact ⟨rfl, rfl⟩
        have hp := hpart (net1 := net') (by rw [← h]; intro r; rfl) (by rw [← h]; rfl) (by
          intro r; rw [hsock]; split
          · rfl
          · rfl)
        obtain ⟨x, hx1, hx2, hx3, hx4, hrun, hst⟩ : ∃ x : Exec, x.sock = s ∧ x.id = ido ∧ x.servant = .sym servant ∧ x.args = args ∧
            net'.running = x :: net.running ∧ net'.started = x :: net.started := by
          rw [← h]; exact ⟨_, rfl, rfl, rfl, rfl, rfl, rfl⟩
        have hlost : net'.lost = net.lost := by rw [← h]; rfl
        have hcalls : net'.calls = net.calls := by rw [← h]; rfl
        have hret : net'.returned = net.returned := by rw [← h]; rfl
        have hans : net'.answers = net.answers := by rw [← h]; rfl
        clear h
        have hxn : ∀ t n, (x.sock == t && callId x.id == some n) = true ↔ t = s ∧ isReq n (Msg.call e id servant args) = true := by
          intro t n
          rw [hx1, hx2]
          rcases hid with ⟨rfl, rfl⟩ | ⟨k, rfl, rfl⟩
          · simp [callId, isReq]
          · simp only [callId_idObj, isReq, Bool.and_eq_true, beq_iff_eq, eq_comm (a := s)]
        have hnrun : ∀ t n, nRun net' t n = nRun net t n + if t = s ∧ isReq n (Msg.call e id servant args) = true then 1 else 0 := by
          intro t n
          unfold nRun
          rw [hrun, List.countP_cons, if_congr (hxn t n) rfl rfl]
        have hnst : ∀ t n, nStart net' t n = nStart net t n + if t = s ∧ isReq n (Msg.call e id servant args) = true then 1 else 0 := by
          intro t n
          unfold nStart
          rw [hst, List.countP_cons, if_congr (hxn t n) rfl rfl]
        have hres' : ∀ t n, nRes (msgs' t) n = nRes (msgs t) n := by
          intro t n; rw [hres t n]; simp [isRes]
        refine ⟨msgs', hgood', ?_, ?_, hp.1, hp.2, ?_, ?_, ?_, ?_, ?_, ?_, ?_, ?_, ?_, ?_, ?_, ?_⟩
        · intro t ht
          rw [hlost] at ht
          rw [hsock, if_neg (by rintro rfl; exact hs ht)]
          exact hi.gone t ht
        · intro t ht
          rw [hlost] at ht
          rw [hsock]; split
          · exact ⟨_, rfl⟩
          · exact hi.here t ht
        · rw [hcalls]; intro c hc; rw [(hhost _).1]; exact hi.bound c hc
        · rw [hcalls]; exact hi.uniq
        · unfold nCalls; rw [hcalls]; exact hi.once
        · intro t n
          have h1 := hi.count t n
          have h2 := hreq (w.peer t) n
          rw [hnrun, hres']
          simp only [nAns, nCalls, hans, hcalls] at h1 ⊢
          omega
        · intro t n h3 h4
          rw [hlost] at h3 h4
          have h1 := hi.all t n h3 h4
          have h2 := hreq (w.peer t) n
          rw [hnrun, hres']
          simp only [nAns, nCalls, hans, hcalls] at h1 ⊢
          omega
        · intro t n
          have h1 := hi.starts t n
          have h2 := hreq (w.peer t) n
          rw [hnst]
          simp only [nCalls, hcalls] at h1 ⊢
          omega
        · unfold nAns; rw [hcalls, hans]; intro c hc; rw [(hhost _).2]; exact hi.pend c hc
        · rw [hcalls]; intro r e' n sv ar hm; exact hi.reqs r e' n sv ar (hsub r _ hm)
        · intro y hy
          rw [hrun] at hy
          rw [hst]
          unfold Matches
          rw [hcalls]
          rcases List.mem_cons.mp hy with rfl | hy
          · refine ⟨List.mem_cons_self .., ?_⟩
            rcases hid with ⟨rfl, rfl⟩ | ⟨k, rfl, rfl⟩
            · exact Or.inl hx2
            · obtain ⟨c, hc, h1, h2, h3, h4⟩ := hi.reqs s e k servant args hmem
              exact Or.inr ⟨c, hc, by rw [hx1]; exact h1, by rw [hx2, h2], by rw [hx3, h3], by rw [hx4, h4]⟩
          · exact ⟨List.mem_cons_of_mem _ (hi.runs y hy).1, (hi.runs y hy).2⟩
        · unfold Served; rw [hcalls, hret]; intro r e' n ok v hm; exact hi.results r e' n ok v (hsub r _ hm)
        · unfold Served; rw [hcalls, hret, hans]; exact hi.answers
        · rw [hret, hst]; intro y ok v hy
          exact ⟨List.mem_cons_of_mem _ (hi.rets y ok v hy).1, (hi.rets y ok v hy).2⟩
      | result e k ok v =>
        obtain ⟨c, hc, hcs, hck, hx⟩ := hi.results s e k ok v hmem
        have hone : nRes (msgs s) k = nRes ms' k + 1 := by
          rw [hres, if_pos ⟨rfl, by simp [isRes]⟩, hm's]
        have h0 : nAns net s k = 0 := by
          have h1 := hi.count s k
          have h2 := hi.once s k
          omega
        have hpend : k ∈ (net.host (w.owner s)).pending := by
          have := hi.pend c hc (by rw [hcs, hck]; exact h0)
          rw [hcs, hck] at this; exact this
        have hf : act (Msg.result e k ok v).form = .result (idObj k) ok v := act_response _ _ _
        rw [hf] at h
        let h1 : Host := (net.host (w.owner s)).setSock s (some { d with pendingData := rest })
        let h2 : Host := { (h1.setSock s (some { pendingData := rest, pendingCalls := d.pendingCalls.filter (· ≠ k) })) with pending := (net.host (w.owner s)).pending.filter (· ≠ k) }
        have hdis : dispatchPendingCall h1 s (idObj k) = some (h2, some k) := by
          unfold dispatchPendingCall
          have : h1.socks s = some { d with pendingData := rest } := if_pos rfl
          rw [this]
          exact if_pos hpend
        have hnet : ((net.setHost (w.owner s) h1).host (w.owner s)) = h1 := if_pos rfl
        simp only [Net.perform] at h
        rw [hnet, hdis] at h
        simp only at h
        have hsock : ∀ r, sockOf w net' r = if r = s then some { pendingData := rest, pendingCalls := d.pendingCalls.filter (· ≠ k) } else sockOf w net r := by
          intro r
          rw [← h]
          unfold sockOf
          show (if w.owner r = w.owner s then h2 else if w.owner r = w.owner s then h1 else net.host (w.owner r)).socks r = _
          by_cases hr' : r = s
          · subst hr'; rw [if_pos rfl, if_pos rfl]; exact if_pos rfl
          · rw [if_neg hr']
            split
            · rename_i ho
              show (if r = s then _ else if r = s then _ else (net.host (w.owner s)).socks r) = _
              rw [if_neg hr', if_neg hr', ho]
            · rfl
        have hhost : ∀ j, (net'.host j).counter = (net.host j).counter ∧ (net'.host j).pending = if j = w.owner s then (net.host j).pending.filter (· ≠ k) else (net.host j).pending := by
          intro j
          rw [← h]
          show (if j = w.owner s then h2 else if j = w.owner s then h1 else net.host j).counter = _ ∧ (if j = w.owner s then h2 else if j = w.owner s then h1 else net.host j).pending = _
          by_cases hj : j = w.owner s
          · subst hj; simp only [if_true]; exact ⟨rfl, rfl⟩
          · simp only [if_neg hj]; exact ⟨trivial, trivial⟩
        have hp := hpart (net1 := net') (by rw [← h]; intro r; rfl) (by rw [← h]; rfl) (by
          intro r; rw [hsock]; split
          · rfl
          · rfl)
        have hrun : net'.running = net.running := by rw [← h]; rfl
        have hst : net'.started = net.started := by rw [← h]; rfl
        have hlost : net'.lost = net.lost := by rw [← h]; rfl
        have hcalls : net'.calls = net.calls := by rw [← h]; rfl
        have hret : net'.returned = net.returned := by rw [← h]; rfl
        have hans : net'.answers = ⟨s, k, ok, v⟩ :: net.answers := by rw [← h]; rfl
        clear h
        have hnans : ∀ t n, nAns net' t n = nAns net t n + if t = s ∧ isRes n (Msg.result e k ok v) = true then 1 else 0 := by
          intro t n
          unfold nAns
          rw [hans, List.countP_cons]
          congr 1
          apply if_congr _ rfl rfl
          simp only [Bool.and_eq_true, beq_iff_eq, isRes, eq_comm (a := s)]
        have hreq' : ∀ t n, nReq (msgs' t) n = nReq (msgs t) n := by
          intro t n; rw [hreq t n]; simp [isReq]
        refine ⟨msgs', hgood', ?_, ?_, hp.1, hp.2, ?_, ?_, ?_, ?_, ?_, ?_, ?_, ?_, ?_, ?_, ?_, ?_⟩
        · intro t ht
          rw [hlost] at ht
          rw [hsock, if_neg (by rintro rfl; exact hs ht)]
          exact hi.gone t ht
        · intro t ht
          rw [hlost] at ht
          rw [hsock]; split
          · exact ⟨_, rfl⟩
          · exact hi.here t ht
        · rw [hcalls]; intro c hc; rw [(hhost _).1]; exact hi.bound c hc
        · rw [hcalls]; exact hi.uniq
        · unfold nCalls; rw [hcalls]; exact hi.once
        · intro t n
          have h1 := hi.count t n
          have h2 := hres t n
          rw [hnans, hreq']
          simp only [nRun, nCalls, hrun, hcalls] at h1 ⊢
          omega
        · intro t n h3 h4
          rw [hlost] at h3 h4
          have h1 := hi.all t n h3 h4
          have h2 := hres t n
          rw [hnans, hreq']
          simp only [nRun, nCalls, hrun, hcalls] at h1 ⊢
          omega
        · intro t n
          have h1 := hi.starts t n
          rw [hreq']
          simp only [nStart, nCalls, hst, hcalls] at h1 ⊢
          exact h1
        · intro c' hc' ha
          rw [hcalls] at hc'
          rw [hnans] at ha
          have := hi.pend c' hc' (by omega)
          rw [(hhost _).2]
          split
          · rename_i ho
            rw [List.mem_filter]
            refine ⟨this, ?_⟩
            simp only [ne_eq, decide_eq_true_eq]
            intro hk
            have := hi.uniq c' hc' c hc (by rw [ho, hcs]) (by rw [hk, hck])
            subst this
            rw [if_pos ⟨hcs, by simp [isRes, hk]⟩] at ha
            omega
          · exact this
        · rw [hcalls]; intro r e' n sv ar hm; exact hi.reqs r e' n sv ar (hsub r _ hm)
        · unfold Matches; rw [hrun, hst, hcalls]; exact hi.runs
        · unfold Served; rw [hcalls, hret]; intro r e' n ok v hm; exact hi.results r e' n ok v (hsub r _ hm)
        · unfold Served; rw [hcalls, hret, hans]
          intro a ha
          rcases List.mem_cons.mp ha with rfl | ha
          · exact ⟨c, hc, hcs, hck, hx⟩
          · exact hi.answers a ha
        · rw [hret, hst]; exact hi.rets

/-! ### All events -/

theorem inv_step {w : Wiring} (hw : Wired w) {net net' : Net} {msgs : Nat → List Msg} (hi : Inv w net msgs) {ev : Event} (hok : Ok ev)
    (h : net.step w ev = some net') : ∃ msgs', Inv w net' msgs' := by
  cases ev with
  | call s e servant args => exact inv_call hw hi hok h
  | oneway s e servant args => exact inv_oneway hw hi hok h
  | deliver s n => exact inv_deliver hi h
  | round s => exact inv_round hw hi h
  | finish k e ok v => exact inv_finish hw hi hok h
  | servant i name => injection h with h; subst h; exact ⟨msgs, inv_servants hi i _⟩
  | destroy i name => injection h with h; subst h; exact ⟨msgs, inv_servants hi i _⟩
  | lose s => exact inv_lose hw hi h

theorem inv_run {w : Wiring} (hw : Wired w) : ∀ (evs : List Event) {net net' : Net} {msgs : Nat → List Msg}, Inv w net msgs → (∀ ev ∈ evs, Ok ev) →
    net.run w evs = some net' → ∃ msgs', Inv w net' msgs' := by
  intro evs
  induction evs with
  | nil => intro net net' msgs hi _ h; injection h with h; subst h; exact ⟨msgs, hi⟩
  | cons ev evs ih =>
    intro net net' msgs hi hok h
    simp only [Net.run] at h
    cases hs : net.step w ev with
    | none => rw [hs] at h; cases h
    | some net1 =>
      rw [hs] at h
      obtain ⟨msgs1, hi1⟩ := inv_step hw hi (hok ev (by simp)) hs
      exact ih hi1 (fun e he => hok e (by simp [he])) h

theorem inv_reachable {w : Wiring} (hw : Wired w) {net : Net} (h : Reachable w net) : ∃ msgs, Inv w net msgs := by
  obtain ⟨evs, hok, h⟩ := h
  exact inv_run hw evs (inv_start w) hok h

/-! ### C72 -/

theorem filter_le_one {α : Type} {l : List α} {p q : α → Bool} (h : l.countP p ≤ 1) (hq : ∀ x, q x = true → p x = true) : (l.filter q).length ≤ 1 := by
  rw [← List.countP_eq_length_filter]
  exact Nat.le_trans (List.countP_mono_left fun x _ => hq x) h

/-- Whatever is called by several processes over any number of connections, in whatever pieces the text arrives, in whatever order things happen
and whichever connections are lost: a callback is called only for a call that has been made, with what the servant at the other end
returned (or raised) when it was called with just these arguments, and with success only if there was such a servant; each callback is
called once at the most, and for each call the servant is called once at the most; and no two calls of a process have the same number. -/
theorem C72_answers {w : Wiring} (hw : Wired w) {net : Net} (h : Reachable w net) :
    (∀ a ∈ net.answers, ∃ c ∈ net.calls, c.sock = a.sock ∧ c.id = a.id ∧ ∃ x ∈ net.started, (x, a.ok, a.value) ∈ net.returned ∧
      x.sock = w.peer c.sock ∧ x.id = idObj c.id ∧ x.servant = .sym c.servant ∧ x.args = c.args ∧ (a.ok = true → x.known = true)) ∧
    (∀ s n, (net.answers.filter fun a => a.sock = s ∧ a.id = n).length ≤ 1) ∧
    (∀ r n, (net.started.filter fun x => x.sock = r ∧ callId x.id = some n).length ≤ 1) ∧
    (∀ c ∈ net.calls, ∀ c' ∈ net.calls, w.owner c.sock = w.owner c'.sock → c.id = c'.id → c = c') ∧
    (∀ s n, (net.calls.filter fun c => c.sock = s ∧ c.id = n).length ≤ 1) := by
  obtain ⟨msgs, hi⟩ := inv_reachable hw h
  refine ⟨?_, ?_, ?_, hi.uniq, ?_⟩
  · intro a ha
    obtain ⟨c, hc, h1, h2, x, hx, h3, h4, h5, h6⟩ := hi.answers a ha
    exact ⟨c, hc, h1, h2, x, (hi.rets x _ _ hx).1, hx, by rw [h1]; exact h3, by rw [h2]; exact h4, h5, h6, (hi.rets x _ _ hx).2⟩
  · intro s n
    have h1 := hi.count s n
    have h2 := hi.once s n
    exact filter_le_one (p := fun a => a.sock == s && a.id == n) (by show nAns net s n ≤ 1; omega) (by simp)
  · intro r n
    have h1 := hi.starts (w.peer r) n
    have h2 := hi.once (w.peer r) n
    rw [hw.sym] at h1
    exact filter_le_one (p := fun x => x.sock == r && callId x.id == some n) (by show nStart net r n ≤ 1; omega) (by simp)
  · intro s n
    exact filter_le_one (p := fun c : Call => c.sock == s && c.id == n) (hi.once s n) (by simp)

/-- Full statement: when nothing is left to do, every call has been answered.  It fails when the connection is lost
(`C72_lost_violated`).  When neither end of the connection has been told that it was lost, every call has been answered. -/
theorem C72_complete_partial {w : Wiring} (hw : Wired w) {net : Net} (h : Reachable w net) {s : Nat} (hs : s ∉ net.lost) (hp : w.peer s ∉ net.lost)
    (hq : Quiet w net s) : ∀ c ∈ net.calls, c.sock = s → ∃ a ∈ net.answers, a.sock = s ∧ a.id = c.id := by
  obtain ⟨msgs, hi⟩ := inv_reachable hw h
  have hempty : ∀ r, r ∉ net.lost → w.peer r ∉ net.lost → net.wire r = [] → readForm (net.host (w.owner r)) r = .out → msgs r = [] := by
    intro r h1 h2 hwr hro
    obtain ⟨d, hd⟩ := hi.here r h1
    have hby : bytes w net r = d.pendingData := by unfold bytes; rw [hd]; simp only [hwr, List.append_nil]
    have hwh := hi.whole r h1 h2
    rw [hby] at hwh
    rcases read_flat (hi.good r) (show d.pendingData <+: flat (msgs r) by rw [hwh]; exact List.prefix_refl _) with ⟨_, h3⟩ | ⟨m, ms', rest, _, hr, _⟩
    · by_contra hne
      exact h3 hne hwh
    · unfold sockOf at hd
      unfold readForm at hro
      rw [hd] at hro
      simp only [hr] at hro
      cases hro
  intro c hc hcs
  have h1 := hi.all s c.id hs hp
  rw [hempty s hs hp hq.here hq.roundHere, hempty (w.peer s) hp (by rw [hw.sym]; exact hs) hq.there hq.roundThere] at h1
  have h2 : nRun net (w.peer s) c.id = 0 := by
    unfold nRun
    rw [List.countP_eq_zero]
    intro x hx
    have := hq.running x hx
    simp [this]
  have h3 : 0 < nCalls net s c.id := by
    unfold nCalls
    rw [List.countP_pos_iff]
    exact ⟨c, hc, by simp [hcs]⟩
  have h4 : 0 < nAns net s c.id := by
    simp only [nReq, nRes, List.countP_nil] at h1
    omega
  unfold nAns at h4
  rw [List.countP_pos_iff] at h4
  obtain ⟨a, ha, hp⟩ := h4
  simp only [Bool.and_eq_true, beq_iff_eq] at hp
  exact ⟨a, ha, hp.1, hp.2⟩

/-- However the text is split, reading it never fails: there is a whole message, or the handler waits for more. -/
theorem C72_no_error {w : Wiring} (hw : Wired w) {net : Net} (h : Reachable w net) {s : Nat} (hs : s ∉ net.lost) :
    readForm (net.host (w.owner s)) s = .out ∨ ∃ h form, readForm (net.host (w.owner s)) s = .form h form ∧
      ((∃ id servant args, form = request id servant args) ∨ ∃ id ok v, form = response id ok v) := by
  obtain ⟨msgs, hi⟩ := inv_reachable hw h
  obtain ⟨d, hd⟩ := hi.here s hs
  have hby : bytes w net s = d.pendingData ++ net.wire s := by unfold bytes; rw [hd]
  have hpre : d.pendingData <+: flat (msgs s) := (show d.pendingData <+: bytes w net s by rw [hby]; exact ⟨_, rfl⟩).trans (hi.part s)
  unfold sockOf at hd
  rcases read_flat (hi.good s) hpre with ⟨hr, _⟩ | ⟨m, ms', rest, hms, hr, _⟩
  · left; unfold readForm; rw [hd]; rcases hr with hr | hr <;> simp only [hr]
  · right
    refine ⟨_, m.form, by unfold readForm; rw [hd]; simp only [hr]; rfl, ?_⟩
    cases m with
    | call e id servant args => cases id <;> exact Or.inl ⟨_, _, _, rfl⟩
    | result e id ok v => exact Or.inr ⟨_, _, _, rfl⟩

/-! ### A case -/

/-- Two processes; the even sockets are connected with the odd ones. -/
def two : Wiring := ⟨fun s => s % 2, fun s => if s % 2 = 0 then s + 1 else s - 1⟩

theorem two_wired : Wired two where
  sym := by
    intro s
    show (if (if s % 2 = 0 then s + 1 else s - 1) % 2 = 0 then (if s % 2 = 0 then s + 1 else s - 1) + 1 else (if s % 2 = 0 then s + 1 else s - 1) - 1) = s
    by_cases h : s % 2 = 0
    · simp only [if_pos h]; rw [if_neg (by omega)]; omega
    · simp only [if_neg h]; rw [if_pos (by omega)]; omega
  other := by intro s; show (if s % 2 = 0 then s + 1 else s - 1) ≠ s; split <;> omega

/-- A servant is made and called; the text arrives in pieces. -/
def demo : List Event :=
  [.servant 1 "f".toList, .call 0 .none "f".toList (.cons (.str "x".toList) .nil), .deliver 1 5, .round 1, .deliver 1 100, .round 1,
   .finish 0 .none true (.cons (.num (.fix 5)) .nil), .deliver 0 7, .round 0, .deliver 0 100, .round 0]

theorem demo_ok : ∀ ev ∈ demo, Ok ev := by
  have hf : Readable .none (.sym "f".toList) := readable_word .none 'f' [] (by decide) (by decide) (by decide) (by decide) (by decide) (by decide) (by decide)
  intro ev hev
  simp only [demo, List.mem_cons, List.not_mem_nil, or_false] at hev
  rcases hev with rfl | rfl | rfl | rfl | rfl | rfl | rfl | rfl | rfl | rfl | rfl
  · trivial
  · exact ⟨hf, .cons _ _ (.str _ (by decide)) .nil, .cons _ _ (.str _) .nil⟩
  · trivial
  · trivial
  · trivial
  · trivial
  · exact ⟨.cons _ _ (readable_id .none (n := 5) (by decide)) .nil, .cons _ _ (.num _) .nil⟩
  · trivial
  · trivial
  · trivial
  · trivial

/-- An answer, with the text of its value. -/
def Answer.is (a : Answer) (s n : Nat) (ok : Bool) (v : List Char) : Bool := a.sock == s && a.id == n && a.ok == ok && prin .none a.value == v

/-- The callback is called with what the servant returned, and nothing is left to do. -/
example : ∃ net, Reachable two net ∧ net.calls.length = 1 ∧ net.started.length = 1 ∧ net.running = [] ∧ net.answers.length = 1 ∧
    (∀ a ∈ net.answers, a.is 0 1 true "(5)".toList = true) ∧ Quiet two net 0 ∧ 0 ∉ net.lost ∧ 1 ∉ net.lost := by
  have h : (((Net.start two).run two demo).any fun net => net.calls.length == 1 && net.started.length == 1 && net.running.length == 0 &&
      net.answers.length == 1 && net.answers.all (·.is 0 1 true "(5)".toList) && (net.wire 0).length == 0 && (net.wire 1).length == 0 &&
      (match readForm (net.host 0) 0 with | .out => true | _ => false) && (match readForm (net.host 1) 1 with | .out => true | _ => false) &&
      net.lost.length == 0) = true := by decide +kernel
  cases hr : (Net.start two).run two demo with
  | none => rw [hr] at h; cases h
  | some net =>
    rw [hr] at h
    simp only [Option.any_some, Bool.and_eq_true, beq_iff_eq, List.length_eq_zero_iff, List.all_eq_true] at h
    obtain ⟨⟨⟨⟨⟨⟨⟨⟨⟨h1, h2⟩, h3⟩, h4⟩, h5⟩, h6⟩, h7⟩, h8⟩, h9⟩, h10⟩ := h
    have out : ∀ r : Round, (match r with | .out => true | _ => false) = true → r = .out := by intro r hr; cases r <;> first | rfl | cases hr
    exact ⟨net, ⟨demo, demo_ok, hr⟩, h1, h2, h3, h4, h5, ⟨h6, h7, out _ h8, out _ h9, by rw [h3]; intro x hx; cases hx⟩, by rw [h10]; simp, by rw [h10]; simp⟩

/-! ### Where it fails -/

/-- A socket that is not registered stays so, and no callback is called by what happens on it. -/
theorem step_gone {w : Wiring} {net net' : Net} {ev : Event} {s : Nat} (h0 : sockOf w net s = none) (h : net.step w ev = some net') :
    sockOf w net' s = none ∧ net'.answers.filter (fun a => a.sock = s) = net.answers.filter (fun a => a.sock = s) := by
  unfold sockOf at h0
  cases ev with
  | call r e servant args =>
    simp only [Net.step] at h
    split at h
    · unfold invokeMethod recordPendingCall at h
      cases hd : (net.host (w.owner r)).socks r with
      | none => simp only [hd] at h; cases h
      | some d =>
        simp only [hd, Option.map_some, Option.some.injEq] at h
        have hne : s ≠ r := by rintro rfl; rw [hd] at h0; cases h0
        rw [← h]
        refine ⟨?_, rfl⟩
        exact (sockOf_setHost (net := net) (fun r => rfl) s).trans (by rw [if_neg hne]; exact h0)
    · cases h
  | oneway r e servant args =>
    simp only [Net.step] at h
    split at h
    · injection h with h; subst h; exact ⟨h0, rfl⟩
    · cases h
  | deliver r n =>
    simp only [Net.step, arrive] at h
    cases hd : (net.host (w.owner r)).socks r with
    | none => rw [hd] at h; cases h
    | some d =>
      rw [hd] at h
      simp only [Option.map_some, Option.some.injEq] at h
      have hne : s ≠ r := by rintro rfl; rw [hd] at h0; cases h0
      rw [← h]
      refine ⟨?_, rfl⟩
      exact (sockOf_setHost (net := net) (fun r => rfl) s).trans (by rw [if_neg hne]; exact h0)
  | round r =>
    simp only [Net.step] at h
    by_cases hne : s = r
    · subst hne
      have : readForm (net.host (w.owner s)) s = .error := by unfold readForm; rw [h0]
      rw [this] at h
      injection h with h; subst h; exact ⟨h0, rfl⟩
    · split at h
      · injection h with h; subst h; exact ⟨h0, rfl⟩
      · injection h with h; subst h; exact ⟨h0, rfl⟩
      · cases h
      · rename_i h1 form hrf
        injection h with h
        have hs1 : ∀ i, i ≠ r → h1.socks i = (net.host (w.owner r)).socks i := by
          unfold readForm at hrf
          intro i hi
          split at hrf
          · cases hrf
          · split at hrf
            · injection hrf with hrf _; rw [← hrf]; exact if_neg hi
            · cases hrf
            · cases hrf
            · cases hrf
            · cases hrf
        have hset : ∀ h2 : Host, (∀ i, i ≠ r → h2.socks i = (net.host (w.owner r)).socks i) → ∀ net1 : Net, (∀ j, net1.host j = if j = w.owner r then h2 else net.host j) →
            sockOf w net1 s = none := by
          intro h2 hh net1 hn
          unfold sockOf
          rw [hn]
          split
          · rename_i ho; rw [hh s hne, ← ho]; exact h0
          · exact h0
        cases hact : act form with
        | ignore => rw [hact] at h; rw [← h]; exact ⟨hset h1 hs1 _ (fun j => rfl), rfl⟩
        | error => rw [hact] at h; rw [← h]; exact ⟨hset h1 hs1 _ (fun j => rfl), rfl⟩
        | call id sv ar => rw [hact] at h; rw [← h]; exact ⟨hset h1 hs1 _ (fun j => rfl), rfl⟩
        | result id ok v =>
          rw [hact] at h
          have hnet : ((net.setHost (w.owner r) h1).host (w.owner r)) = h1 := if_pos rfl
          simp only [Net.perform] at h
          rw [hnet] at h
          cases hdis : dispatchPendingCall h1 r id with
          | none => rw [hdis] at h; rw [← h]; exact ⟨hset h1 hs1 _ (fun j => rfl), rfl⟩
          | some p =>
            obtain ⟨h2, c⟩ := p
            have hs2 : ∀ i, i ≠ r → h2.socks i = (net.host (w.owner r)).socks i := by
              intro i hi
              rw [← hs1 i hi]
              unfold dispatchPendingCall at hdis
              split at hdis
              · cases hdis
              · split at hdis
                · injection hdis with hdis; injection hdis with hdis _; rw [← hdis]
                · dsimp only at hdis
                  split at hdis
                  · injection hdis with hdis; injection hdis with hdis _; rw [← hdis]; exact if_neg hi
                  · injection hdis with hdis; injection hdis with hdis _; rw [← hdis]; exact if_neg hi
            have hh : ∀ j, ((net.setHost (w.owner r) h1).setHost (w.owner r) h2).host j = if j = w.owner r then h2 else net.host j := by
              intro j
              show (if j = w.owner r then h2 else if j = w.owner r then h1 else net.host j) = _
              split <;> rfl
            rw [hdis] at h
            cases c with
            | none => rw [← h]; exact ⟨hset h2 hs2 _ hh, rfl⟩
            | some n =>
              rw [← h]
              refine ⟨hset h2 hs2 _ hh, ?_⟩
              show List.filter _ (_ :: net.answers) = _
              rw [List.filter_cons_of_neg (by simpa using fun h => hne h.symm)]
  | finish k e ok v =>
    simp only [Net.step] at h
    split at h
    · cases h
    · split at h
      · cases h
      · split at h <;> (injection h with h; subst h; exact ⟨h0, rfl⟩)
  | servant i name =>
    injection h with h; subst h
    refine ⟨?_, rfl⟩
    unfold sockOf
    rw [setHost_host]; split
    · rename_i ho; rw [← ho]; exact h0
    · exact h0
  | destroy i name =>
    injection h with h; subst h
    refine ⟨?_, rfl⟩
    unfold sockOf
    rw [setHost_host]; split
    · rename_i ho; rw [← ho]; exact h0
    · exact h0
  | lose r =>
    simp only [Net.step, Option.some.injEq] at h
    obtain ⟨_, _, d3, d4⟩ := deregister_eq (net.host (w.owner r)) r
    rw [← h]
    refine ⟨(sockOf_setHost (net := net) d4 s).trans (by split <;> first | rfl | exact h0), ?_⟩
    simp [d3]

/-- When a connection is lost, the calls on it are to fail (their callbacks are to be called with an error: rpc.jl:172-177).  But the socket is taken
out of the table before that, and `dispatch-pending-call` needs it there: so in every state that can be reached, whatever happens later, no
callback of a call on a lost connection is called any more. -/
theorem C72_lost_violated {w : Wiring} (hw : Wired w) {net : Net} (h : Reachable w net) {s : Nat} (hs : s ∈ net.lost) (evs : List Event) {net' : Net}
    (hr : net.run w evs = some net') : net'.answers.filter (fun a => a.sock = s) = net.answers.filter (fun a => a.sock = s) := by
  obtain ⟨msgs, hi⟩ := inv_reachable hw h
  have h0 := hi.gone s hs
  clear h hi hs msgs
  induction evs generalizing net with
  | nil => injection hr with hr; subst hr; rfl
  | cons ev evs ih =>
    simp only [Net.run] at hr
    cases hst : net.step w ev with
    | none => rw [hst] at hr; cases hr
    | some net1 =>
      rw [hst] at hr
      obtain ⟨h1, h2⟩ := step_gone h0 hst
      rw [← h2]
      exact ih hr h1

/-- A call is made, and the connection is lost. -/
def lostRun : List Event := [.call 0 .none "f".toList .nil, .lose 0]

/-- There is such a state, with a call that has not been answered. -/
theorem C72_lost_violated_case : ∃ net, Reachable two net ∧ 0 ∈ net.lost ∧ net.calls.length = 1 ∧ net.answers = [] := by
  have h : (((Net.start two).run two lostRun).any fun net => net.calls.length == 1 && net.answers.length == 0 && net.lost == [0]) = true := by decide +kernel
  cases hr : (Net.start two).run two lostRun with
  | none => rw [hr] at h; cases h
  | some net =>
    rw [hr] at h
    simp only [Option.any_some, Bool.and_eq_true, beq_iff_eq, List.length_eq_zero_iff] at h
    refine ⟨net, ⟨lostRun, ?_, hr⟩, by rw [h.2]; simp, h.1.1, h.1.2⟩
    have hf : Readable .none (.sym "f".toList) := readable_word .none 'f' [] (by decide) (by decide) (by decide) (by decide) (by decide) (by decide) (by decide)
    intro ev hev
    simp only [lostRun, List.mem_cons, List.not_mem_nil, or_false] at hev
    rcases hev with rfl | rfl
    · exact ⟨hf, .nil, .nil⟩
    · trivial

/-- A servant returns `#f`, and the answer is split behind the `#`. -/
def splitRun : List Event :=
  [.servant 1 "f".toList, .call 0 .none "f".toList .nil, .deliver 1 100, .round 1, .finish 0 .none true (.lit .f), .deliver 0 13, .round 0]

/-- A value that can be read back but is printed with a `#` is not `Sendable`, and rightly so: if the text of the answer `(result 1 t #f)` is split
behind the `#`, the reader takes the list to end there, and the callback is called with `()` although the servant has returned `#f`. -/
theorem C72_split_violated : ∃ evs net, (∀ ev ∈ evs, Ok ev ∨ ev = .finish 0 .none true (.lit .f)) ∧ (Net.start two).run two evs = some net ∧
    Readable .none (.lit .f) ∧ (∃ a ∈ net.answers, a.is 0 1 true "()".toList = true) ∧ ∀ r ∈ net.returned, prin .none r.2.2 ≠ "()".toList := by
  have h : (((Net.start two).run two splitRun).any fun net => net.answers.any (·.is 0 1 true "()".toList) && net.returned.all (fun r => prin .none r.2.2 != "()".toList)) = true := by
    decide +kernel
  cases hr : (Net.start two).run two splitRun with
  | none => rw [hr] at h; cases h
  | some net =>
    rw [hr] at h
    simp only [Option.any_some, Bool.and_eq_true, List.any_eq_true, List.all_eq_true, bne_iff_ne] at h
    refine ⟨splitRun, net, ?_, hr, .lit _, h.1, h.2⟩
    have hf : Readable .none (.sym "f".toList) := readable_word .none 'f' [] (by decide) (by decide) (by decide) (by decide) (by decide) (by decide) (by decide)
    intro ev hev
    simp only [splitRun, List.mem_cons, List.not_mem_nil, or_false] at hev
    rcases hev with rfl | rfl | rfl | rfl | rfl | rfl | rfl
    · exact Or.inl trivial
    · exact Or.inl ⟨hf, .nil, .nil⟩
    · exact Or.inl trivial
    · exact Or.inl trivial
    · exact Or.inr rfl
    · exact Or.inl trivial
    · exact Or.inl trivial

/-- An answer is accepted on any connection: whoever is at the other end of another one can answer a call that was not made to them. -/
theorem C72_foreign_violated (h : Host) (s : Nat) (d : SockData) (n : Nat) (hs : h.socks s = some d) (hn : n ∈ h.pending) :
    ∃ h', dispatchPendingCall h s (idObj n) = some (h', some n) ∧ n ∉ h'.pending := by
  unfold dispatchPendingCall
  rw [hs]
  simp only [callId_idObj]
  exact ⟨_, if_pos hn, by simp⟩

/-- One element at the front of a list, and the space behind it. -/
theorem list_step {e : Escape} {o : Obj} (h : Readable e o) (n : Nat) (rest : List Char) (acc : List Obj) (tail : Obj)
    (hn : 2 * (prin e o ++ ' ' :: rest).length + 2 ≤ n) :
    ∃ m, 2 * rest.length + 2 ≤ m ∧ readList n (prin e o ++ ' ' :: rest) 240 acc tail = readList m rest 240 (o :: acc) .nil := by
  simp only [List.length_append, List.length_cons] at hn
  obtain ⟨n, rfl⟩ : ∃ m, n = m + 2 := ⟨n - 2, by omega⟩
  refine ⟨n, by omega, ?_⟩
  rw [readList_elem (n + 1) _ (begins_prin h), (reads_all h).1 (n + 1) _ _ (delim_space rest) (by simp only [List.length_append, List.length_cons]; omega)]
  show readList (n + 1) (' ' :: rest) 240 (o :: acc) .nil = _
  rw [readList, if_pos (by decide)]

/-- What is written for an answer, up to the value. -/
def answerHead (e : Escape) (id : Nat) (ok : Bool) : List Char :=
  '(' :: (prin e (sym "result") ++ ' ' :: (prin e (idObj id) ++ ' ' :: (prin e (if ok then sym "t" else .nil) ++ [' '])))

/-- … it is. -/
theorem answerHead_eq (e : Escape) (id : Nat) (ok : Bool) (v : Obj) : prin e (response (idObj id) ok v) = answerHead e id ok ++ (prin e v ++ [')']) := by
  unfold response answerHead
  rw [prin]
  simp only [prinCdr, List.cons_append, List.append_assoc, List.nil_append]

theorem read_unreadable (e : Escape) {id : Nat} (hid : id < 2 ^ 61) (ok : Bool) (rest : List Char) :
    read (answerHead e id ok ++ '#' :: '<' :: rest) 240 = .err .invalid := by
  have hok : Readable e (if ok then sym "t" else .nil) := by
    cases ok
    · exact .nil
    · exact readable_t e
  unfold Reader.read
  rw [show answerHead e id ok ++ '#' :: '<' :: rest = '(' :: (prin e (sym "result") ++ ' ' :: (prin e (idObj id) ++ ' ' :: (prin e (if ok then sym "t" else .nil) ++ ' ' :: '#' :: '<' :: rest))) by
    unfold answerHead; simp only [List.cons_append, List.append_assoc, List.nil_append]]
  generalize hk : 2 * ('(' :: (prin e (sym "result") ++ ' ' :: (prin e (idObj id) ++ ' ' :: (prin e (if ok then sym "t" else .nil) ++ ' ' :: '#' :: '<' :: rest)))).length + 1 = k
  rw [List.length_cons] at hk
  obtain ⟨k, rfl⟩ : ∃ m, k = m + 1 := ⟨k - 1, by omega⟩
  rw [readl, if_neg (by decide), if_neg (by decide), if_pos rfl]
  obtain ⟨m1, h1, e1⟩ := list_step (readable_result e) k _ [] .nil (show 2 * (prin e (sym "result") ++ ' ' :: (prin e (idObj id) ++ ' ' :: (prin e (if ok then sym "t" else .nil) ++ ' ' :: '#' :: '<' :: rest))).length + 2 ≤ k by omega)
  obtain ⟨m2, h2, e2⟩ := list_step (readable_id e hid) m1 _ [sym "result"] .nil h1
  obtain ⟨m3, h3, e3⟩ := list_step hok m2 _ [idObj id, sym "result"] .nil h2
  rw [e1, e2, e3]
  simp only [List.length_cons] at h3
  obtain ⟨m, rfl⟩ : ∃ m, m3 = m + 3 := ⟨m3 - 3, by omega⟩
  rw [readList, if_neg (by decide), if_neg (by decide), if_neg (by decide), if_neg (by simp), if_neg (by simp), if_neg (by simp), if_neg (by simp)]
  rw [readl, if_neg (by decide), if_neg (by decide), if_neg (by decide), if_neg (by decide)]
  simp [readHash, Reader.Res.bind]

/-- Something that has no read syntax (a function, say: `#<closure …>`) blocks the connection for good: whatever arrives after it,
the handler fails before it comes to it, and the text is kept. -/
theorem C72_unreadable_violated (h : Host) (s : Nat) (d : SockData) (e : Escape) {id : Nat} (hid : id < 2 ^ 61) (ok : Bool) (rest : List Char) (hs : h.socks s = some d)
    (hd : d.pendingData = answerHead e id ok ++ '#' :: '<' :: rest) : readForm h s = .error ∧ ∀ more, ∃ h', arrive h s more = some h' ∧ readForm h' s = .error := by
  have key : ∀ (h : Host) (d : SockData), h.socks s = some d → read d.pendingData 240 = .err .invalid → readForm h s = .error := by
    intro h d h1 h2; unfold readForm; rw [h1]; simp only [h2]
  refine ⟨key h d hs (by rw [hd]; exact read_unreadable e hid ok rest), fun more => ?_⟩
  refine ⟨h.setSock s (some { d with pendingData := d.pendingData ++ more }), by unfold arrive; rw [hs]; rfl, ?_⟩
  refine key _ _ (if_pos rfl) ?_
  show read (d.pendingData ++ more) 240 = _
  rw [hd, List.append_assoc]; exact read_unreadable e hid ok _

/-- This is what a servant that returns a closure writes. -/
example : "(result 1 t #<closure f>)".toList = answerHead .none 1 true ++ '#' :: '<' :: "closure f>)".toList := by decide +kernel

end Rep.Rpc
