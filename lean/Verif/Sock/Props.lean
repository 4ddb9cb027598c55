import Verif.Sock.Steps

/-
C100: sockets.  Bytes reach the stream of the right socket in order, its sentinel is called once,
after the last of them, and nothing is called for a socket that has been closed.
-/

namespace Rep.Sock

theorem reach_inv (L : Lisp) (hL : L.Benign) (fuel : Nat) (ops : List Op) : Inv (runAll L fuel St.init ops) :=
  foldl_inv (fun st o h => (exec_inv L hL fuel st h).1 o) ops _ inv_init

/-- After the sentinel of a socket has been called, or `close-socket`, no function is called for it:
the sentinel is called once at most, and after all bytes. -/
theorem C100_once_partial (L : Lisp) (hL : L.Benign) (fuel : Nat) (ops : List Op) (sid : Nat)
    (before after : List Event) (e : Event) (h : (runAll L fuel St.init ops).log = before ++ e :: after)
    (he : e.Ends sid) : ∀ e' ∈ after, ¬ e'.Calls sid := by
  have := (reach_inv L hL fuel ops).order
  rw [h, List.pairwise_append, List.pairwise_cons] at this
  intro e' he'
  exact this.2.1.1 e' he' sid he

/-- The stream of a socket gets the bytes that the other side sent on its connection, in order:
always a first part of them; all but those that have not been read while it is open; all of them
before the sentinel is told of the end. -/
theorem C100_bytes_partial (L : Lisp) (hL : L.Benign) (fuel : Nat) (ops : List Op) (st : St)
    (h : runAll L fuel St.init ops = st) (sid : Nat) :
    dataOf sid st.log <+: st.sent (st.info sid).conn ∧
    (∀ s ∈ st.socks, s.id = sid → s.active = true → (st.info sid).client = true → (st.info sid).stream = true →
      dataOf sid st.log ++ st.inbox (st.info sid).conn = st.sent (st.info sid).conn) ∧
    (.ended sid .eof ∈ st.log → st.hung (st.info sid).conn = true ∧
      ((st.info sid).stream = true → dataOf sid st.log = st.sent (st.info sid).conn)) := by
  subst h
  have hi := reach_inv L hL fuel ops
  exact ⟨hi.pre sid, fun s hs he ha hc hst => he ▸ hi.eq s hs ha (he ▸ hc) (he ▸ hst), fun he => (hi.eofs sid he).2⟩

/-- Two sockets never share a connection or a number, and the library does not abort. -/
theorem C100_apart_partial (L : Lisp) (hL : L.Benign) (fuel : Nat) (ops : List Op) (st : St)
    (h : runAll L fuel St.init ops = st) :
    (∀ a < st.nextSock, ∀ b < st.nextSock, (st.info a).client = true → (st.info b).client = true →
      (st.info a).conn = (st.info b).conn → a = b) ∧
    (∀ s ∈ st.socks, ∀ t ∈ st.socks, s.active = true → t.active = true → s.fd = t.fd → s = t) ∧
    .crash ∉ st.log := by
  subst h
  have hi := reach_inv L hL fuel ops
  refine ⟨hi.conninj, ?_, hi.nocrash⟩
  intro s hs t ht ha hb e
  obtain ⟨f, h1, -⟩ := hi.act s hs ha
  exact hi.fdinj s hs t ht f h1 (e ▸ h1)

/-! ### everything that has come is handed on -/

theorem shutdown_log (st : St) (sid : Nat) : ∃ m, (st.shutdown sid).log = st.log ++ m := by
  unfold St.shutdown
  split
  · exact ⟨_, rfl⟩
  · split <;> exact ⟨[], by simp⟩

theorem foldl_log {run : St → Op → St} (hrun : ∀ st o, ∃ m, (run st o).log = st.log ++ m) :
    ∀ (ops : List Op) (st : St), ∃ m, (ops.foldl run st).log = st.log ++ m := by
  intro ops
  induction ops with
  | nil => intro st; exact ⟨[], by simp⟩
  | cons o ops ih =>
    intro st
    obtain ⟨m, hm⟩ := hrun st o
    obtain ⟨m', hm'⟩ := ih (run st o)
    exact ⟨m ++ m', by rw [List.foldl_cons, hm', hm, List.append_assoc]⟩

theorem finish_log (st : St) (L : Lisp) (sid : Nat) (why : Cause) {run : St → Op → St}
    (hrun : ∀ st o, ∃ m, (run st o).log = st.log ++ m) :
    ∃ m, (st.finish L sid why run).log = st.log ++ m ∧
      ((st.shutdown sid).info = st.info → (st.info sid).sentinel = true → .ended sid why ∈ m) := by
  obtain ⟨m, hm⟩ := shutdown_log st sid
  unfold St.finish
  simp only
  split
  · obtain ⟨m', hm'⟩ := foldl_log hrun (L.sentinel ((st.shutdown sid).note (.ended sid why)) sid)
      ((st.shutdown sid).note (.ended sid why))
    refine ⟨m ++ [.ended sid why] ++ m', by rw [hm', St.note, hm]; simp, fun _ _ => by simp⟩
  · rename_i hn
    exact ⟨m, hm, fun h1 h2 => absurd (h1 ▸ h2) hn⟩

theorem make_log (st : St) (f : Nat) (i : Info) (file : File) (act : Action) (ok : Bool) :
    (st.make f i file act ok).log = st.log := by cases ok <;> rfl

theorem exec_log (L : Lisp) : ∀ (n : Nat) (st : St) (t : Task), ∃ m, (exec L n st t).log = st.log ++ m := by
  intro n
  induction n with
  | zero => intro st t; exact ⟨[], by simp [exec]⟩
  | succ n ih =>
    intro st t
    have hrun : ∀ st o, ∃ m, (exec L n st (.op o)).log = st.log ++ m := fun st o => ih st (.op o)
    have same : ∃ m, st.log = st.log ++ m := ⟨[], by simp⟩
    cases t with
    | reading f sid =>
      simp only [exec]
      split
      · rename_i b st1 hr
        have hl : st1.log = st.log := by
          unfold St.read at hr
          split at hr
          · split at hr
            · cases hr; rfl
            · split at hr <;> cases hr
          · cases hr
        split
        · obtain ⟨m, hm⟩ := foldl_log hrun (L.stream (st1.note (.data sid b)) sid b) (st1.note (.data sid b))
          obtain ⟨m', hm'⟩ := ih (List.foldl (fun st o => exec L n st (.op o)) (st1.note (.data sid b))
            (L.stream (st1.note (.data sid b)) sid b)) (.reading f sid)
          exact ⟨[.data sid b] ++ m ++ m', by rw [hm', hm, St.note, hl]; simp⟩
        · obtain ⟨m', hm'⟩ := ih st1 (.reading f sid)
          exact ⟨m', by rw [hm', hl]⟩
      · exact same
      · obtain ⟨m, hm, -⟩ := finish_log st L sid _ hrun
        exact ⟨m, hm⟩
    | op o =>
      cases o with
      | connect g ok a b =>
        simp only [exec]; split
        · exact same
        · exact ⟨[], by simp [make_log]⟩
      | listen g ok a b =>
        simp only [exec]; split
        · exact same
        · exact ⟨[], by simp [make_log]⟩
      | accept a g b c =>
        simp only [exec]
        split
        · split
          · split
            · split
              · exact same
              · exact ⟨[], by simp [make_log]⟩
            · exact same
          · exact same
        · exact same
      | close a =>
        simp only [exec]
        split
        · obtain ⟨m, hm⟩ := shutdown_log st a
          exact ⟨m ++ [.closed a], by rw [St.note, hm]; simp⟩
        · exact same
      | writeFails a =>
        simp only [exec]
        split
        · split
          · obtain ⟨m, hm, -⟩ := finish_log st L a .error hrun
            exact ⟨m, hm⟩
          · exact same
        · exact same
      | dispatch f =>
        simp only [exec]
        split
        · exact same
        · split
          · exact ⟨_, rfl⟩
          · exact ih _ _
        · split
          · exact ⟨_, rfl⟩
          · split
            · rename_i t _ _
              obtain ⟨m, hm⟩ := foldl_log hrun (L.server (st.note (.asked t.id)) t.id) (st.note (.asked t.id))
              exact ⟨[.asked t.id] ++ m, by rw [hm, St.note]; simp⟩
            · exact same
      | gc keep => exact same
      | arrive c b => simp only [exec]; split <;> exact same
      | hangup c => simp only [exec]; split <;> exact same
      | request l => simp only [exec]; split <;> exact same

/-- When a stream only stores its bytes, handling the input of a socket hands on everything that has
come, and, if the other side has closed the connection, calls the sentinel. -/
theorem C100_delivers (L : Lisp) (hL : ∀ st sid b, L.stream st sid b = []) (fuel : Nat) (ops : List Op) (st : St)
    (h : runAll L fuel St.init ops = st) (s : Socket) (hs : s ∈ st.socks) (ha : s.active = true) (f : Nat)
    (hf : s.fd = some f) (hc : (st.info s.id).client = true) (n : Nat)
    (hn : (st.inbox (st.info s.id).conn).length + 1 < n) :
    (st.hung (st.info s.id).conn = false →
      (exec L n st (.op (.dispatch f))).inbox (st.info s.id).conn = [] ∧
      ((st.info s.id).stream = true →
        dataOf s.id (exec L n st (.op (.dispatch f))).log = st.sent (st.info s.id).conn)) ∧
    (st.hung (st.info s.id).conn = true → (st.info s.id).sentinel = true →
      .ended s.id .eof ∈ (exec L n st (.op (.dispatch f))).log) := by
  have hLb : L.Benign := fun st sid b o ho => by rw [hL] at ho; cases ho
  have hi : Inv st := h ▸ reach_inv L hLb fuel ops
  have key : ∀ (k : Nat) (st1 : St), Inv st1 → Holds st1 f s.id → (st1.inbox (st1.info s.id).conn).length < k →
      (st1.hung (st1.info s.id).conn = false → (exec L k st1 (.reading f s.id)).inbox (st1.info s.id).conn = [] ∧
        ((st1.info s.id).stream = true →
          dataOf s.id (exec L k st1 (.reading f s.id)).log = st1.sent (st1.info s.id).conn)) ∧
      (st1.hung (st1.info s.id).conn = true → (st1.info s.id).sentinel = true →
        .ended s.id .eof ∈ (exec L k st1 (.reading f s.id)).log) := by
    intro k
    induction k with
    | zero => intro st1 _ _ hk; omega
    | succ k ih =>
      intro st1 hi1 hh hk
      have hfile := read_eq hi1 hh
      simp only [exec, St.read, hfile]
      by_cases hb : st1.inbox (st1.info s.id).conn = []
      · rw [if_neg (by simpa using hb)]
        cases hu : st1.hung (st1.info s.id).conn with
        | false =>
          simp only [Bool.false_eq_true, if_false]
          refine ⟨fun _ => ⟨hb, fun hst => ?_⟩, (fun h => nomatch h)⟩
          obtain ⟨t, ht, he, h2, h3, h4⟩ := hh
          have := hi1.eq t ht h2 (by rw [he]; exact h4) (by rw [he]; exact hst)
          rw [he, hb, List.append_nil] at this
          exact this
        | true =>
          simp only [if_true]
          refine ⟨(fun h => nomatch h), fun _ hsen => ?_⟩
          obtain ⟨t, ht, he, h2, h3, h4⟩ := hh
          obtain ⟨m, hm, hmem⟩ := finish_log st1 L s.id .eof
            (run := fun st o => exec L k st (.op o)) (fun st o => exec_log L k st (.op o))
          rw [hm]
          have h5 := (inv_shutdown hi1 ht).2.2.1
          rw [he] at h5
          exact List.mem_append_right _ (hmem h5 hsen)
      · rw [if_pos hb]
        simp only [hL, List.foldl_nil]
        obtain ⟨d1, d2⟩ := inv_deliver hi1 hh (b := (st1.inbox (st1.info s.id).conn).take 1024)
          (rest := (st1.inbox (st1.info s.id).conn).drop 1024) (List.take_append_drop _ _).symm
        have hlen : ((st1.inbox (st1.info s.id).conn).drop 1024).length < k := by
          have : 0 < (st1.inbox (st1.info s.id).conn).length := List.length_pos_iff.2 hb
          rw [List.length_drop]; omega
        unfold deliver at d1 d2
        by_cases hst : (st1.info s.id).stream = true
        · rw [if_pos hst] at d1 d2
          rw [if_pos hst]
          exact ih _ d1 d2 (by simp only [St.note, upd_self]; exact hlen)
        · rw [if_neg hst] at d1 d2
          rw [if_neg hst]
          exact ih _ d1 d2 (by simp only [upd_self]; exact hlen)
  obtain ⟨g, g1, g2, g3⟩ := hi.act s hs ha
  rw [hf] at g1; cases g1
  rw [actionOf, if_pos hc] at g3
  match n, hn with
  | n + 1, hn =>
    have e : exec L (n + 1) st (.op (.dispatch f)) = exec L n st (.reading f s.id) := by
      rw [exec]; simp only [g3, find_fd hi hs hf]
    rw [e]
    exact key n st hi ⟨s, hs, rfl, ha, hf, hc⟩ (by omega)

/-! ### where it does not hold -/

/-- Functions that do nothing. -/
def quiet : Lisp := { stream := fun _ _ _ => [], sentinel := fun _ _ => [], server := fun _ _ => [] }

/-- A stream that closes its socket. -/
def closing : Lisp := { quiet with stream := fun _ sid _ => [.close sid] }

/-- `close-socket` must not call the sentinel.  Called by the stream it does: the loop goes on to read
from the number that is no longer open. -/
theorem C100_close_violated :
    (runAll closing 20 St.init [.connect 3 true true true, .arrive 0 [104, 105], .dispatch 3]).log =
      [.data 0 [104, 105], .closed 0, .ended 0 .error] := by decide +kernel

/-- A stream that closes its socket and connects again. -/
def again : Lisp := { quiet with stream := fun st sid _ => if st.nextSock = 1 then [.close sid,
  .connect 3 true true true, .arrive 1 [110, 101, 119]] else [] }

/-- The system gives the same number: the bytes of the new connection go to the stream of the old socket,
and there is nothing left for the new one. -/
theorem C100_reuse_violated :
    (runAll again 20 St.init [.connect 3 true true true, .arrive 0 [104, 105], .dispatch 3, .dispatch 3]).log =
      [.data 0 [104, 105], .closed 0, .data 0 [110, 101, 119]] := by
  decide +kernel

/-- A stream that waits for input. -/
def waits : Lisp := { quiet with stream := fun _ _ _ => [.dispatch 3] }

/-- The sentinel is called twice. -/
theorem C100_wait_violated :
    (runAll waits 20 St.init [.connect 3 true true true, .arrive 0 [104, 105], .hangup 0, .dispatch 3]).log =
      [.data 0 [104, 105], .ended 0 .eof, .ended 0 .error] := by decide +kernel

/-- A stream that answers on the socket. -/
def echo : Lisp := { quiet with stream := fun _ sid _ => [.writeFails sid] }

/-- The other side is gone: the sentinel is called twice. -/
theorem C100_echo_violated :
    (runAll echo 20 St.init [.connect 3 true true true, .arrive 0 [104, 105], .hangup 0, .dispatch 3]).log =
      [.data 0 [104, 105], .ended 0 .error, .ended 0 .error] := by decide +kernel

/-! ### the hypotheses are met -/

/-- A server that accepts everything. -/
def serving : Lisp := { quiet with server := fun st sid => [.accept sid (10 + st.nextSock) true true] }

theorem serving_benign : serving.Benign := fun _ _ _ o ho => by cases ho

/-- Two connections to a server; the first is closed by the other side. -/
def someOps : List Op := [.listen 3 true true false, .request 0, .request 0, .dispatch 3, .dispatch 3, .arrive 1 [1, 2],
  .arrive 2 [3], .dispatch 12, .arrive 1 [4], .hangup 1, .dispatch 11, .dispatch 11, .gc []]

example : (runAll serving 20 St.init someOps).log =
    [.asked 0, .asked 0, .data 2 [3], .data 1 [1, 2, 4], .ended 1 .eof] ∧
    (runAll serving 20 St.init someOps).socks.map (·.id) = [0, 2] := by decide +kernel

example : ∀ e' ∈ ([] : List Event), ¬ e'.Calls 1 :=
  C100_once_partial serving serving_benign 20 someOps 1 [.asked 0, .asked 0, .data 2 [3], .data 1 [1, 2, 4]] []
    (.ended 1 .eof) (by decide +kernel) rfl

/-- One connection, two bytes. -/
def oneConnection : St := runAll quiet 9 St.init [.connect 3 true true true, .arrive 0 [7, 8]]

example : dataOf 0 (exec quiet 9 oneConnection (.op (.dispatch 3))).log = [7, 8] :=
  ((C100_delivers quiet (fun _ _ _ => rfl) 9 _ oneConnection rfl ⟨0, some 3, true⟩ (by decide +kernel) rfl 3 rfl
    (by decide +kernel) 9 (by decide +kernel)).1 (by decide +kernel)).2 (by decide +kernel)

end Rep.Sock
