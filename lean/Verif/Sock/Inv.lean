import Verif.Sock.Model
import Verif.Sock.Spec
import Mathlib.Data.List.Nodup

namespace Rep.Sock

theorem dataOf_append (sid : Nat) : ∀ l m, dataOf sid (l ++ m) = dataOf sid l ++ dataOf sid m
  | [], m => rfl
  | e :: l, m => by
    cases e <;> simp [dataOf, dataOf_append sid l m]
    split <;> simp

def Event.About (sid : Nat) (e : Event) : Prop := e.Calls sid ∨ e.Ends sid

theorem dataOf_nil_of {sid : Nat} : ∀ {l : List Event}, (∀ e ∈ l, ¬ e.Calls sid) → dataOf sid l = []
  | [], _ => rfl
  | e :: l, h => by
    have ih := dataOf_nil_of (l := l) (fun e he => h e (by simp [he]))
    have h0 := h e (by simp)
    cases e <;> simp only [dataOf, ih]
    rw [if_neg (show ¬ _ = sid from h0)]

def fileOf (i : Info) : File := if i.client then .conn i.conn else .listener i.conn
def actionOf (i : Info) : Action := if i.client then .client else .server

structure Inv (st : St) : Prop where
  ids : (st.socks.map (·.id)).Nodup
  lt : ∀ s ∈ st.socks, s.id < st.nextSock
  act : ∀ s ∈ st.socks, s.active = true → ∃ f, s.fd = some f ∧ st.files f = some (fileOf (st.info s.id)) ∧
    st.action f = some (actionOf (st.info s.id))
  inact : ∀ s ∈ st.socks, s.active = false → s.fd = none
  fdinj : ∀ s ∈ st.socks, ∀ t ∈ st.socks, ∀ f, s.fd = some f → t.fd = some f → s = t
  action : ∀ f, st.action f ≠ none → ∃ s ∈ st.socks, s.fd = some f
  connlt : ∀ sid < st.nextSock, (st.info sid).conn < st.nextConn
  conninj : ∀ a < st.nextSock, ∀ b < st.nextSock, (st.info a).client = true → (st.info b).client = true →
    (st.info a).conn = (st.info b).conn → a = b
  waitlt : ∀ l, ∀ c ∈ st.waiting l, c < st.nextConn
  waitnodup : ∀ l, (st.waiting l).Nodup
  waitinj : ∀ l m c, c ∈ st.waiting l → c ∈ st.waiting m → l = m
  waitfree : ∀ l, ∀ sid < st.nextSock, (st.info sid).client = true → (st.info sid).conn ∉ st.waiting l
  fresh : ∀ c, st.nextConn ≤ c → st.inbox c = [] ∧ st.sent c = [] ∧ st.hung c = false ∧ st.waiting c = []
  idle : ∀ l, ∀ c ∈ st.waiting l, st.inbox c = st.sent c
  eq : ∀ s ∈ st.socks, s.active = true → (st.info s.id).client = true → (st.info s.id).stream = true →
    dataOf s.id st.log ++ st.inbox (st.info s.id).conn = st.sent (st.info s.id).conn
  pre : ∀ sid, dataOf sid st.log <+: st.sent (st.info sid).conn
  evlt : ∀ e ∈ st.log, ∀ sid, e.About sid → sid < st.nextSock
  nofinal : ∀ s ∈ st.socks, s.active = true → ∀ e ∈ st.log, ¬ e.Ends s.id
  order : st.log.Pairwise fun e e' => ∀ sid, e.Ends sid → ¬ e'.Calls sid
  eofs : ∀ sid, .ended sid .eof ∈ st.log → (st.info sid).client = true ∧ st.hung (st.info sid).conn = true ∧
    ((st.info sid).stream = true → dataOf sid st.log = st.sent (st.info sid).conn)
  nocrash : .crash ∉ st.log

theorem inv_init : Inv St.init where
  ids := by simp [St.init]
  lt := by simp [St.init]
  act := by simp [St.init]
  inact := by simp [St.init]
  fdinj := by simp [St.init]
  action := by simp [St.init]
  connlt := by simp [St.init]
  conninj := by simp [St.init]
  waitlt := by simp [St.init]
  waitnodup := by simp [St.init]
  waitinj := by simp [St.init]
  waitfree := by simp [St.init]
  fresh := by simp [St.init]
  idle := by simp [St.init]
  eq := by simp [St.init]
  pre := by simp [St.init, dataOf]
  evlt := by simp [St.init]
  nofinal := by simp [St.init]
  order := by simp [St.init]
  eofs := by simp [St.init]
  nocrash := by simp [St.init]

theorem mem_ids {st : St} (h : Inv st) {s t : Socket} (hs : s ∈ st.socks) (ht : t ∈ st.socks) (e : s.id = t.id) :
    s = t := List.inj_on_of_nodup_map h.ids hs ht e

theorem find_id {st : St} (h : Inv st) {s : Socket} (hs : s ∈ st.socks) :
    st.socks.find? (·.id = s.id) = some s := by
  cases hf : st.socks.find? (·.id = s.id) with
  | none =>
    have := List.find?_eq_none.1 hf s hs
    simp at this
  | some t =>
    have h1 := List.mem_of_find?_eq_some hf
    have h2 := List.find?_some hf
    simp only [decide_eq_true_eq] at h2
    rw [mem_ids h h1 hs h2]

theorem find_fd {st : St} (h : Inv st) {s : Socket} (hs : s ∈ st.socks) {f : Nat} (hf : s.fd = some f) :
    st.forFd f = some s := by
  unfold St.forFd
  cases he : st.socks.find? (·.fd = some f) with
  | none =>
    have := List.find?_eq_none.1 he s hs
    simp [hf] at this
  | some t =>
    have h1 := List.mem_of_find?_eq_some he
    have h2 := List.find?_some he
    simp only [decide_eq_true_eq] at h2
    rw [h.fdinj t h1 s hs f h2 hf]

/-! ### a new socket -/

theorem inv_make {st : St} (h : Inv st) (f : Nat) (hf : st.files f = none) (i : Info) (ok : Bool)
    (hc : i.conn < st.nextConn)
    (hnew : i.client = true → (∀ sid < st.nextSock, (st.info sid).client = true → (st.info sid).conn ≠ i.conn) ∧
      (∀ l, i.conn ∉ st.waiting l) ∧ st.inbox i.conn = st.sent i.conn) :
    Inv (st.make f i (fileOf i) (actionOf i) ok) := by
  have hnd : ∀ e ∈ st.log, ¬ e.About st.nextSock := fun e he ha => Nat.lt_irrefl _ (h.evlt e he _ ha)
  have hdn : dataOf st.nextSock st.log = [] := dataOf_nil_of fun e he hcall => hnd e he (Or.inl hcall)
  have hinfo : ∀ sid, sid < st.nextSock → upd st.info st.nextSock i sid = st.info sid := fun sid hs => by
    unfold upd; rw [if_neg (by omega)]
  have hself : upd st.info st.nextSock i st.nextSock = i := by unfold upd; rw [if_pos rfl]
  have hnf : ∀ s ∈ st.socks, s.fd ≠ some f := by
    intro s hs e
    cases ha : s.active with
    | true =>
      obtain ⟨g, h1, h2, -⟩ := h.act s hs ha
      rw [e] at h1; cases h1; rw [hf] at h2; cases h2
    | false => rw [h.inact s hs ha] at e; cases e
  have hids : ((st.nextSock :: st.socks.map (·.id))).Nodup := by
    rw [List.nodup_cons]
    refine ⟨fun hm => ?_, h.ids⟩
    obtain ⟨s, hs, e⟩ := List.mem_map.1 hm
    have := h.lt s hs
    omega
  have hconnlt : ∀ sid < st.nextSock + 1, (upd st.info st.nextSock i sid).conn < st.nextConn := by
    intro sid hs
    by_cases e : sid = st.nextSock
    · subst e; rw [hself]; exact hc
    · rw [hinfo sid (by omega)]; exact h.connlt sid (by omega)
  have hconninj : ∀ a < st.nextSock + 1, ∀ b < st.nextSock + 1, (upd st.info st.nextSock i a).client = true →
      (upd st.info st.nextSock i b).client = true →
      (upd st.info st.nextSock i a).conn = (upd st.info st.nextSock i b).conn → a = b := by
    intro a ha b hb h1 h2 h3
    by_cases ea : a = st.nextSock
    · by_cases eb : b = st.nextSock
      · rw [ea, eb]
      · rw [ea, hself] at h1 h3
        rw [hinfo b (by omega)] at h2 h3
        exact absurd h3.symm ((hnew h1).1 b (by omega) h2)
    · rw [hinfo a (by omega)] at h1 h3
      by_cases eb : b = st.nextSock
      · rw [eb, hself] at h2 h3
        exact absurd h3 ((hnew h2).1 a (by omega) h1)
      · rw [hinfo b (by omega)] at h2 h3
        exact h.conninj a (by omega) b (by omega) h1 h2 h3
  have hwaitfree : ∀ l, ∀ sid < st.nextSock + 1, (upd st.info st.nextSock i sid).client = true →
      (upd st.info st.nextSock i sid).conn ∉ st.waiting l := by
    intro l sid hs h1
    by_cases e : sid = st.nextSock
    · subst e; rw [hself] at h1 ⊢; exact (hnew h1).2.1 l
    · rw [hinfo sid (by omega)] at h1 ⊢; exact h.waitfree l sid (by omega) h1
  have hpre : ∀ sid, dataOf sid st.log <+: st.sent (upd st.info st.nextSock i sid).conn := by
    intro sid
    by_cases e : sid = st.nextSock
    · subst e; rw [hdn]; exact List.nil_prefix
    · have : upd st.info st.nextSock i sid = st.info sid := by unfold upd; rw [if_neg e]
      rw [this]; exact h.pre sid
  have hevlt : ∀ e ∈ st.log, ∀ sid, e.About sid → sid < st.nextSock + 1 := fun e he sid ha =>
    Nat.lt_succ_of_lt (h.evlt e he sid ha)
  have heofs : ∀ sid, .ended sid .eof ∈ st.log → (upd st.info st.nextSock i sid).client = true ∧
      st.hung (upd st.info st.nextSock i sid).conn = true ∧
      ((upd st.info st.nextSock i sid).stream = true → dataOf sid st.log = st.sent (upd st.info st.nextSock i sid).conn) := by
    intro sid he
    have hlt : sid < st.nextSock := h.evlt _ he sid (Or.inl rfl)
    rw [hinfo sid hlt]; exact h.eofs sid he
  cases ok with
  | true =>
    unfold St.make
    rw [if_pos rfl]
    refine ⟨hids, ?_, ?_, ?_, ?_, ?_, hconnlt, hconninj, h.waitlt, h.waitnodup, h.waitinj, hwaitfree, h.fresh, h.idle,
      ?_, hpre, hevlt, ?_, h.order, heofs, h.nocrash⟩
    · intro s hs
      rcases List.mem_cons.1 hs with rfl | hs
      · exact Nat.lt_succ_self _
      · exact Nat.lt_succ_of_lt (h.lt s hs)
    · intro s hs ha
      rcases List.mem_cons.1 hs with rfl | hs
      · exact ⟨f, rfl, by simp [upd], by simp [upd]⟩
      · obtain ⟨g, h1, h2, h3⟩ := h.act s hs ha
        have hg : g ≠ f := fun e => hnf s hs (by rw [h1, e])
        simp only [hinfo s.id (h.lt s hs)]
        exact ⟨g, h1, by simp [upd, hg, h2], by simp [upd, hg, h3]⟩
    · intro s hs ha
      rcases List.mem_cons.1 hs with rfl | hs
      · cases ha
      · exact h.inact s hs ha
    · intro s hs t ht g h1 h2
      rcases List.mem_cons.1 hs with rfl | hs <;> rcases List.mem_cons.1 ht with rfl | ht
      · rfl
      · cases h1; exact absurd h2 (hnf t ht)
      · cases h2; exact absurd h1 (hnf s hs)
      · exact h.fdinj s hs t ht g h1 h2
    · intro g hg
      by_cases e : g = f
      · subst e; exact ⟨_, List.mem_cons_self .., rfl⟩
      · simp only [upd, if_neg e] at hg
        obtain ⟨s, hs, h1⟩ := h.action g hg
        exact ⟨s, List.mem_cons_of_mem _ hs, h1⟩
    · intro s hs ha
      rcases List.mem_cons.1 hs with rfl | hs
      · simp only [hself]
        intro h1 h2
        rw [hdn, List.nil_append]; exact (hnew h1).2.2
      · simp only [hinfo s.id (h.lt s hs)]
        exact h.eq s hs ha
    · intro s hs ha e he
      rcases List.mem_cons.1 hs with rfl | hs
      · exact fun hfin => hnd e he (Or.inr hfin)
      · exact h.nofinal s hs ha e he
  | false =>
    unfold St.make
    rw [if_neg (by simp)]
    refine ⟨hids, ?_, ?_, ?_, ?_, ?_, hconnlt, hconninj, h.waitlt, h.waitnodup, h.waitinj, hwaitfree, h.fresh, h.idle,
      ?_, hpre, hevlt, ?_, h.order, heofs, h.nocrash⟩
    · intro s hs
      rcases List.mem_cons.1 hs with rfl | hs
      · exact Nat.lt_succ_self _
      · exact Nat.lt_succ_of_lt (h.lt s hs)
    · intro s hs ha
      rcases List.mem_cons.1 hs with rfl | hs
      · cases ha
      · simp only [hinfo s.id (h.lt s hs)]
        exact h.act s hs ha
    · intro s hs ha
      rcases List.mem_cons.1 hs with rfl | hs
      · rfl
      · exact h.inact s hs ha
    · intro s hs t ht g h1 h2
      rcases List.mem_cons.1 hs with rfl | hs <;> rcases List.mem_cons.1 ht with rfl | ht
      · rfl
      · cases h1
      · cases h2
      · exact h.fdinj s hs t ht g h1 h2
    · intro g hg
      obtain ⟨s, hs, h1⟩ := h.action g hg
      exact ⟨s, List.mem_cons_of_mem _ hs, h1⟩
    · intro s hs ha
      rcases List.mem_cons.1 hs with rfl | hs
      · cases ha
      · simp only [hinfo s.id (h.lt s hs)]
        exact h.eq s hs ha
    · intro s hs ha e he
      rcases List.mem_cons.1 hs with rfl | hs
      · cases ha
      · exact h.nofinal s hs ha e he

/-! ### the end of a socket -/

theorem inv_shutdown {st : St} (h : Inv st) {s : Socket} (hs : s ∈ st.socks) :
    Inv (st.shutdown s.id) ∧ (st.shutdown s.id).log = st.log ∧ (st.shutdown s.id).info = st.info ∧
      (st.shutdown s.id).nextSock = st.nextSock ∧ (st.shutdown s.id).sent = st.sent ∧
      (st.shutdown s.id).hung = st.hung ∧
      (∀ t ∈ (st.shutdown s.id).socks, t.active = true → t.id ≠ s.id ∧ t ∈ st.socks) ∧
      (∀ t ∈ st.socks, t.id ≠ s.id → t ∈ (st.shutdown s.id).socks) := by
  have hmem : ∀ t ∈ st.socks.map (fun x => if x.id = s.id then { x with fd := none, active := false } else x),
      (t.id = s.id ∧ t.fd = none ∧ t.active = false) ∨ (t.id ≠ s.id ∧ t ∈ st.socks) := by
    intro t ht
    obtain ⟨x, hx, rfl⟩ := List.mem_map.1 ht
    split
    · rename_i e; exact Or.inl ⟨e, rfl, rfl⟩
    · rename_i e; exact Or.inr ⟨e, hx⟩
  have hmem' : ∀ t ∈ st.socks, t.id ≠ s.id →
      t ∈ st.socks.map (fun x => if x.id = s.id then { x with fd := none, active := false } else x) := by
    intro t ht e
    exact List.mem_map.2 ⟨t, ht, by rw [if_neg e]⟩
  have hids : ((st.socks.map (fun x => if x.id = s.id then { x with fd := none, active := false } else x)).map
      (·.id)) = st.socks.map (·.id) := by
    rw [List.map_map]
    apply List.map_congr_left
    intro x _
    simp only [Function.comp]
    split <;> rfl
  unfold St.shutdown
  rw [find_id h hs]
  cases hfd : s.fd with
  | none =>
    simp only [hfd]
    refine ⟨⟨by rw [hids]; exact h.ids, ?_, ?_, ?_, ?_, ?_, h.connlt, h.conninj, h.waitlt, h.waitnodup, h.waitinj,
      h.waitfree, h.fresh, h.idle, ?_, h.pre, h.evlt, ?_, h.order, h.eofs, h.nocrash⟩, trivial, trivial, trivial, trivial, trivial, ?_, hmem'⟩
    · intro t ht
      rcases hmem t ht with ⟨e, -, -⟩ | ⟨-, h1⟩
      · rw [e]; exact h.lt s hs
      · exact h.lt t h1
    · intro t ht ha
      rcases hmem t ht with ⟨-, -, e⟩ | ⟨-, h1⟩
      · rw [e] at ha; cases ha
      · exact h.act t h1 ha
    · intro t ht ha
      rcases hmem t ht with ⟨-, e, -⟩ | ⟨-, h1⟩
      · exact e
      · exact h.inact t h1 ha
    · intro t ht u hu g h1 h2
      rcases hmem t ht with ⟨-, e, -⟩ | ⟨-, h3⟩
      · rw [e] at h1; cases h1
      · rcases hmem u hu with ⟨-, e, -⟩ | ⟨-, h4⟩
        · rw [e] at h2; cases h2
        · exact h.fdinj t h3 u h4 g h1 h2
    · intro g hg
      obtain ⟨t, ht, h1⟩ := h.action g hg
      refine ⟨t, hmem' t ht ?_, h1⟩
      intro e
      rw [mem_ids h ht hs e, hfd] at h1; cases h1
    · intro t ht ha
      rcases hmem t ht with ⟨-, -, e⟩ | ⟨-, h1⟩
      · rw [e] at ha; cases ha
      · exact h.eq t h1 ha
    · intro t ht ha
      rcases hmem t ht with ⟨-, -, e⟩ | ⟨-, h1⟩
      · rw [e] at ha; cases ha
      · exact h.nofinal t h1 ha
    · intro t ht ha
      rcases hmem t ht with ⟨-, -, e⟩ | h1
      · rw [e] at ha; cases ha
      · exact h1
  | some f =>
    have hother : ∀ t ∈ st.socks, t.id ≠ s.id → ∀ g, t.fd = some g → g ≠ f := by
      intro t ht e g hg hgf
      exact e (by rw [h.fdinj t ht s hs f (by rw [hg, hgf]) hfd])
    simp only [hfd]
    refine ⟨⟨by rw [hids]; exact h.ids, ?_, ?_, ?_, ?_, ?_, h.connlt, h.conninj, h.waitlt, h.waitnodup, h.waitinj,
      h.waitfree, h.fresh, h.idle, ?_, h.pre, h.evlt, ?_, h.order, h.eofs, h.nocrash⟩, trivial, trivial, trivial, trivial, trivial, ?_, hmem'⟩
    · intro t ht
      rcases hmem t ht with ⟨e, -, -⟩ | ⟨-, h1⟩
      · rw [e]; exact h.lt s hs
      · exact h.lt t h1
    · intro t ht ha
      rcases hmem t ht with ⟨-, -, e⟩ | ⟨hne, h1⟩
      · rw [e] at ha; cases ha
      · obtain ⟨g, g1, g2, g3⟩ := h.act t h1 ha
        have hg := hother t h1 hne g g1
        exact ⟨g, g1, by simp [upd, hg, g2], by simp [upd, hg, g3]⟩
    · intro t ht ha
      rcases hmem t ht with ⟨-, e, -⟩ | ⟨-, h1⟩
      · exact e
      · exact h.inact t h1 ha
    · intro t ht u hu g h1 h2
      rcases hmem t ht with ⟨-, e, -⟩ | ⟨-, h3⟩
      · rw [e] at h1; cases h1
      · rcases hmem u hu with ⟨-, e, -⟩ | ⟨-, h4⟩
        · rw [e] at h2; cases h2
        · exact h.fdinj t h3 u h4 g h1 h2
    · intro g hg
      have hgf : g ≠ f := by rintro rfl; simp [upd] at hg
      simp only [upd, if_neg hgf] at hg
      obtain ⟨t, ht, h1⟩ := h.action g hg
      refine ⟨t, hmem' t ht ?_, h1⟩
      intro e
      rw [mem_ids h ht hs e, hfd] at h1
      exact hgf (Option.some.inj h1).symm
    · intro t ht ha
      rcases hmem t ht with ⟨-, -, e⟩ | ⟨-, h1⟩
      · rw [e] at ha; cases ha
      · exact h.eq t h1 ha
    · intro t ht ha
      rcases hmem t ht with ⟨-, -, e⟩ | ⟨-, h1⟩
      · rw [e] at ha; cases ha
      · exact h.nofinal t h1 ha
    · intro t ht ha
      rcases hmem t ht with ⟨-, -, e⟩ | h1
      · rw [e] at ha; cases ha
      · exact h1

/-- An event without bytes. -/
theorem inv_note {st : St} (h : Inv st) (e : Event) (hd : ∀ sid, dataOf sid [e] = [])
    (hlt : ∀ sid, e.About sid → sid < st.nextSock)
    (hfin : ∀ s ∈ st.socks, s.active = true → ¬ e.Ends s.id)
    (hcall : ∀ sid, e.Calls sid → ∀ e' ∈ st.log, ¬ e'.Ends sid)
    (heof : ∀ sid, e = .ended sid .eof → (st.info sid).client = true ∧ st.hung (st.info sid).conn = true ∧
      ((st.info sid).stream = true → dataOf sid st.log = st.sent (st.info sid).conn))
    (hc : e ≠ .crash) : Inv (st.note e) := by
  have hdo : ∀ sid, dataOf sid (st.log ++ [e]) = dataOf sid st.log := fun sid => by
    rw [dataOf_append, hd, List.append_nil]
  unfold St.note
  refine ⟨h.ids, h.lt, h.act, h.inact, h.fdinj, h.action, h.connlt, h.conninj, h.waitlt, h.waitnodup, h.waitinj,
    h.waitfree, h.fresh, h.idle, ?_, ?_, ?_, ?_, ?_, ?_, ?_⟩
  · intro s hs; rw [hdo]; exact h.eq s hs
  · intro sid; rw [hdo]; exact h.pre sid
  · intro e' he' sid ha
    rcases List.mem_append.1 he' with he' | he'
    · exact h.evlt e' he' sid ha
    · rw [List.mem_singleton] at he'; subst he'; exact hlt sid ha
  · intro s hs ha e' he'
    rcases List.mem_append.1 he' with he' | he'
    · exact h.nofinal s hs ha e' he'
    · rw [List.mem_singleton] at he'; subst he'; exact hfin s hs ha
  · rw [List.pairwise_append]
    refine ⟨h.order, List.pairwise_singleton _ _, ?_⟩
    intro a ha b hb sid h1 h2
    rw [List.mem_singleton] at hb; subst hb
    exact hcall sid h2 a ha h1
  · intro sid he'
    rw [hdo]
    rcases List.mem_append.1 he' with he' | he'
    · exact h.eofs sid he'
    · rw [List.mem_singleton] at he'
      exact heof sid he'.symm
  · intro he'
    rcases List.mem_append.1 he' with he' | he'
    · exact h.nocrash he'
    · rw [List.mem_singleton] at he'; exact hc he'.symm

end Rep.Sock
