import Verif.Sock.Inv

namespace Rep.Sock

theorem upd_self {α : Type} (f : Nat → α) (k : Nat) (v : α) : upd f k v k = v := by simp [upd]
theorem upd_ne {α : Type} (f : Nat → α) {k x : Nat} (v : α) (h : x ≠ k) : upd f k v x = f x := by simp [upd, h]

/-- The socket is open under the number. -/
def Holds (st : St) (f sid : Nat) : Prop :=
  ∃ s ∈ st.socks, s.id = sid ∧ s.active = true ∧ s.fd = some f ∧ (st.info sid).client = true

/-! ### the other side -/

theorem inv_arrive {st : St} (h : Inv st) (c : Nat) (b : Bytes) (hc : c < st.nextConn) (hh : st.hung c = false) :
    Inv { st with inbox := upd st.inbox c (st.inbox c ++ b), sent := upd st.sent c (st.sent c ++ b) } := by
  refine ⟨h.ids, h.lt, h.act, h.inact, h.fdinj, h.action, h.connlt, h.conninj, h.waitlt, h.waitnodup, h.waitinj,
    h.waitfree, ?_, ?_, ?_, ?_, h.evlt, h.nofinal, h.order, ?_, h.nocrash⟩
  · intro d hd
    have hd' : st.nextConn ≤ d := hd
    have : d ≠ c := by omega
    simp only [upd_ne _ _ this]; exact h.fresh d hd
  · intro l d hd
    by_cases e : d = c
    · subst e; simp only [upd_self]; rw [h.idle l d hd]
    · simp only [upd_ne _ _ e]; exact h.idle l d hd
  · intro s hs h1 h2 h3
    have := h.eq s hs h1 h2 h3
    by_cases e : (st.info s.id).conn = c
    · simp only [e, upd_self] at this ⊢; rw [← List.append_assoc, this]
    · simp only [upd_ne _ _ e]; exact this
  · intro sid
    have := h.pre sid
    by_cases e : (st.info sid).conn = c
    · simp only [e, upd_self] at this ⊢; exact this.trans (List.prefix_append _ _)
    · simp only [upd_ne _ _ e]; exact this
  · intro sid he
    obtain ⟨h1, h2, h3⟩ := h.eofs sid he
    have e : (st.info sid).conn ≠ c := by rintro e; rw [e, hh] at h2; cases h2
    simp only [upd_ne _ _ e]
    exact ⟨h1, h2, h3⟩

theorem inv_hangup {st : St} (h : Inv st) (c : Nat) (hc : c < st.nextConn) :
    Inv { st with hung := upd st.hung c true } := by
  refine ⟨h.ids, h.lt, h.act, h.inact, h.fdinj, h.action, h.connlt, h.conninj, h.waitlt, h.waitnodup, h.waitinj,
    h.waitfree, ?_, h.idle, h.eq, h.pre, h.evlt, h.nofinal, h.order, ?_, h.nocrash⟩
  · intro d hd
    have hd' : st.nextConn ≤ d := hd
    have : d ≠ c := by omega
    simp only [upd_ne _ _ this]; exact h.fresh d hd
  · intro sid he
    obtain ⟨h1, h2, h3⟩ := h.eofs sid he
    refine ⟨h1, ?_, h3⟩
    by_cases e : (st.info sid).conn = c
    · simp only [e, upd_self]
    · simp only [upd_ne _ _ e]; exact h2

theorem inv_request {st : St} (h : Inv st) (l : Nat) (hl : l < st.nextConn) :
    Inv { st with waiting := upd st.waiting l (st.waiting l ++ [st.nextConn]), nextConn := st.nextConn + 1 } := by
  have hmem : ∀ m c, c ∈ upd st.waiting l (st.waiting l ++ [st.nextConn]) m →
      c ∈ st.waiting m ∨ (m = l ∧ c = st.nextConn) := by
    intro m c hc
    by_cases e : m = l
    · subst e; rw [upd_self] at hc
      rcases List.mem_append.1 hc with hc | hc
      · exact Or.inl hc
      · exact Or.inr ⟨rfl, List.mem_singleton.1 hc⟩
    · rw [upd_ne _ _ e] at hc; exact Or.inl hc
  refine ⟨h.ids, h.lt, h.act, h.inact, h.fdinj, h.action, ?_, h.conninj, ?_, ?_, ?_, ?_, ?_, ?_, h.eq, h.pre,
    h.evlt, h.nofinal, h.order, h.eofs, h.nocrash⟩
  · intro sid hs; exact Nat.lt_succ_of_lt (h.connlt sid hs)
  · intro m c hc
    rcases hmem m c hc with h1 | ⟨-, h1⟩
    · exact Nat.lt_succ_of_lt (h.waitlt m c h1)
    · rw [h1]; exact Nat.lt_succ_self _
  · intro m
    by_cases e : m = l
    · subst e; simp only [upd_self]
      rw [List.nodup_append]
      refine ⟨h.waitnodup m, by simp, ?_⟩
      intro a ha b hb e
      rw [List.mem_singleton] at hb
      have := h.waitlt m a ha
      omega
    · simp only [upd_ne _ _ e]; exact h.waitnodup m
  · intro m n c h1 h2
    rcases hmem m c h1 with h1 | ⟨h1, h1'⟩ <;> rcases hmem n c h2 with h2 | ⟨h2, h2'⟩
    · exact h.waitinj m n c h1 h2
    · have := h.waitlt m c h1; omega
    · have := h.waitlt n c h2; omega
    · rw [h1, h2]
  · intro m sid hs h1 h2
    rcases hmem m _ h2 with h2 | ⟨-, h2⟩
    · exact h.waitfree m sid hs h1 h2
    · have h3 : (st.info sid).conn < st.nextConn := h.connlt sid hs
      have h2 : (st.info sid).conn = st.nextConn := h2
      omega
  · intro d hd
    have hd' : st.nextConn + 1 ≤ d := hd
    have : d ≠ l := by omega
    simp only [upd_ne _ _ this]; exact h.fresh d (by omega)
  · intro m c hc
    rcases hmem m c hc with h1 | ⟨-, h1⟩
    · exact h.idle m c h1
    · rw [h1, (h.fresh st.nextConn (Nat.le_refl _)).1, (h.fresh st.nextConn (Nat.le_refl _)).2.1]

/-! ### the collector -/

theorem inv_gc {st : St} (h : Inv st) (keep : List Nat) :
    Inv { st with socks := (st.socks.filter fun s => s.active || keep.contains s.id).reverse } := by
  have hmem : ∀ s, s ∈ (st.socks.filter fun s => s.active || keep.contains s.id).reverse → s ∈ st.socks := by
    intro s hs
    exact (List.mem_filter.1 (List.mem_reverse.1 hs)).1
  refine ⟨?_, fun s hs => h.lt s (hmem s hs), fun s hs => h.act s (hmem s hs), fun s hs => h.inact s (hmem s hs),
    fun s hs t ht => h.fdinj s (hmem s hs) t (hmem t ht), ?_, h.connlt, h.conninj, h.waitlt, h.waitnodup, h.waitinj,
    h.waitfree, h.fresh, h.idle, fun s hs => h.eq s (hmem s hs), h.pre, h.evlt, fun s hs => h.nofinal s (hmem s hs),
    h.order, h.eofs, h.nocrash⟩
  · rw [List.map_reverse, List.nodup_reverse]
    exact h.ids.sublist (List.filter_sublist.map _)
  · intro f hf
    obtain ⟨s, hs, h1⟩ := h.action f hf
    refine ⟨s, ?_, h1⟩
    rw [List.mem_reverse, List.mem_filter]
    refine ⟨hs, ?_⟩
    cases ha : s.active with
    | true => rfl
    | false => rw [h.inact s hs ha] at h1; cases h1

/-! ### new connections -/

theorem inv_next {st : St} (h : Inv st) : Inv { st with nextConn := st.nextConn + 1 } :=
  ⟨h.ids, h.lt, h.act, h.inact, h.fdinj, h.action, fun sid hs => Nat.lt_succ_of_lt (h.connlt sid hs), h.conninj,
    fun l c hc => Nat.lt_succ_of_lt (h.waitlt l c hc), h.waitnodup, h.waitinj, h.waitfree,
    fun c hc => h.fresh c (Nat.le_of_succ_le hc), h.idle, h.eq, h.pre, h.evlt, h.nofinal, h.order, h.eofs, h.nocrash⟩

theorem make_next (st : St) (f : Nat) (i : Info) (file : File) (act : Action) (ok : Bool) (n : Nat) :
    { st.make f i file act ok with nextConn := n } = { st with nextConn := n }.make f i file act ok := by
  cases ok <;> rfl

theorem inv_open {st : St} (h : Inv st) (f : Nat) (hf : st.files f = none) (i : Info) (hi : i.conn = st.nextConn)
    (ok : Bool) : Inv { st.make f i (fileOf i) (actionOf i) ok with nextConn := st.nextConn + 1 } := by
  rw [make_next]
  apply inv_make (inv_next h) f hf i ok (by rw [hi]; exact Nat.lt_succ_self _)
  intro _
  rw [hi]
  refine ⟨fun sid hs _ => Nat.ne_of_lt (h.connlt sid hs), fun l hc => Nat.lt_irrefl _ (h.waitlt l _ hc), ?_⟩
  have := h.fresh st.nextConn (Nat.le_refl _)
  exact this.1.trans this.2.1.symm

theorem inv_accept {st : St} (h : Inv st) (f l c : Nat) (rest : List Nat) (hf : st.files f = none)
    (hw : st.waiting l = c :: rest) (stream sentinel : Bool) :
    Inv (St.make { st with waiting := upd st.waiting l rest } f
      { client := true, conn := c, stream, sentinel } (.conn c) .client true) := by
  have hsub : ∀ m, ∀ d ∈ upd st.waiting l rest m, d ∈ st.waiting m := by
    intro m d hd
    by_cases e : m = l
    · subst e; rw [upd_self] at hd; rw [hw]; exact List.mem_cons_of_mem _ hd
    · rw [upd_ne _ _ e] at hd; exact hd
  have hcl : c ∈ st.waiting l := by rw [hw]; exact List.mem_cons_self ..
  have hnd := h.waitnodup l
  rw [hw, List.nodup_cons] at hnd
  have hinv : Inv { st with waiting := upd st.waiting l rest } := by
    refine ⟨h.ids, h.lt, h.act, h.inact, h.fdinj, h.action, h.connlt, h.conninj,
      fun m d hd => h.waitlt m d (hsub m d hd), ?_, fun m n d h1 h2 => h.waitinj m n d (hsub m d h1) (hsub n d h2),
      fun m sid hs h1 h2 => h.waitfree m sid hs h1 (hsub m _ h2), ?_, fun m d hd => h.idle m d (hsub m d hd), h.eq, h.pre,
      h.evlt, h.nofinal, h.order, h.eofs, h.nocrash⟩
    · intro m
      by_cases e : m = l
      · subst e; simp only [upd_self]; exact hnd.2
      · simp only [upd_ne _ _ e]; exact h.waitnodup m
    · intro d hd
      obtain ⟨h1, h2, h3, h4⟩ := h.fresh d hd
      refine ⟨h1, h2, h3, ?_⟩
      have e : d ≠ l := by rintro rfl; rw [hw] at h4; cases h4
      simp only [upd_ne _ _ e]; exact h4
  apply inv_make hinv f hf { client := true, conn := c, stream, sentinel } true (h.waitlt l c hcl)
  intro _
  refine ⟨fun sid hs h1 e => h.waitfree l sid hs h1 (e ▸ hcl), ?_, h.idle l c hcl⟩
  intro m hm
  have e := h.waitinj m l c (hsub m c hm) hcl
  subst e
  simp only [upd_self] at hm
  exact hnd.1 hm

theorem holds_make {st : St} (h : Inv st) {f sid : Nat} (hh : Holds st f sid) (g : Nat) (i : Info) (file : File)
    (act : Action) (ok : Bool) : Holds (st.make g i file act ok) f sid := by
  obtain ⟨s, hs, h1, h2, h3, h4⟩ := hh
  have hlt : sid < st.nextSock := h1 ▸ h.lt s hs
  have e : upd st.info st.nextSock i sid = st.info sid := upd_ne _ _ (by omega)
  cases ok <;> exact ⟨s, List.mem_cons_of_mem _ hs, h1, h2, h3, by simp only [St.make]; simpa [e] using h4⟩

/-! ### bytes -/

/-- What `read` and the stream do to the state, before the function of the stream goes on. -/
def deliver (st : St) (sid c : Nat) (b rest : Bytes) : St :=
  if (st.info sid).stream then { st with inbox := upd st.inbox c rest }.note (.data sid b)
  else { st with inbox := upd st.inbox c rest }

theorem inv_deliver {st : St} (h : Inv st) {f sid : Nat} (hh : Holds st f sid) {b rest : Bytes}
    (hb : st.inbox (st.info sid).conn = b ++ rest) : Inv (deliver st sid (st.info sid).conn b rest) ∧
      Holds (deliver st sid (st.info sid).conn b rest) f sid := by
  obtain ⟨s, hs, rfl, ha, hfd, hcl⟩ := hh
  generalize hc : (st.info s.id).conn = c at *
  have hclt : c < st.nextConn := hc ▸ h.connlt s.id (h.lt s hs)
  have hother : ∀ t ∈ st.socks, (st.info t.id).client = true → t.id ≠ s.id → (st.info t.id).conn ≠ c := by
    intro t ht h1 h2 h3
    exact h2 (h.conninj t.id (h.lt t ht) s.id (h.lt s hs) h1 hcl (h3.trans hc.symm))
  have hfresh : ∀ d, st.nextConn ≤ d → upd st.inbox c rest d = [] ∧ st.sent d = [] ∧ st.hung d = false ∧
      st.waiting d = [] := by
    intro d hd
    have hd' : d ≠ c := by omega
    rw [upd_ne _ _ hd']; exact h.fresh d hd
  have hidle : ∀ l, ∀ d ∈ st.waiting l, upd st.inbox c rest d = st.sent d := by
    intro l d hd
    have hd' : d ≠ c := by rintro rfl; exact h.waitfree l s.id (h.lt s hs) hcl (hc ▸ hd)
    rw [upd_ne _ _ hd']; exact h.idle l d hd
  unfold deliver
  cases hst : (st.info s.id).stream with
  | false =>
    rw [if_neg (by simp)]
    refine ⟨⟨h.ids, h.lt, h.act, h.inact, h.fdinj, h.action, h.connlt, h.conninj, h.waitlt, h.waitnodup, h.waitinj,
      h.waitfree, hfresh, hidle, ?_, h.pre, h.evlt, h.nofinal, h.order, h.eofs, h.nocrash⟩,
      ⟨s, hs, rfl, ha, hfd, hcl⟩⟩
    intro t ht h1 h2 h3
    by_cases e : t.id = s.id
    · have h3 : (st.info t.id).stream = true := h3
      rw [e, hst] at h3; cases h3
    · simp only [upd_ne _ _ (hother t ht h2 e)]; exact h.eq t ht h1 h2 h3
  | true =>
    rw [if_pos rfl]
    have heq := h.eq s hs ha hcl hst
    rw [hc, hb] at heq
    have hds : dataOf s.id (st.log ++ [.data s.id b]) = dataOf s.id st.log ++ b := by
      rw [dataOf_append]; simp [dataOf]
    have hdo : ∀ sid, sid ≠ s.id → dataOf sid (st.log ++ [.data s.id b]) = dataOf sid st.log := by
      intro sid hne
      rw [dataOf_append]; simp [dataOf, Ne.symm hne]
    refine ⟨⟨h.ids, h.lt, h.act, h.inact, h.fdinj, h.action, h.connlt, h.conninj, h.waitlt, h.waitnodup, h.waitinj,
      h.waitfree, hfresh, hidle, ?_, ?_, ?_, ?_, ?_, ?_, ?_⟩, ⟨s, hs, rfl, ha, hfd, hcl⟩⟩
    · intro t ht h1 h2 h3
      by_cases e : t.id = s.id
      · simp only [St.note, e, hds, hc, upd_self]
        rw [List.append_assoc]; exact heq
      · simp only [St.note, hdo _ e, upd_ne _ _ (hother t ht h2 e)]; exact h.eq t ht h1 h2 h3
    · intro sid
      by_cases e : sid = s.id
      · simp only [St.note, e, hds, hc]
        rw [← heq, ← List.append_assoc]
        exact List.prefix_append _ _
      · simp only [St.note, hdo _ e]; exact h.pre sid
    · intro e he sid hab
      rcases List.mem_append.1 he with he | he
      · exact h.evlt e he sid hab
      · rw [List.mem_singleton] at he
        subst he
        rcases hab with hab | hab
        · have hab : s.id = sid := hab
          rw [← hab]; exact h.lt s hs
        · exact hab.elim
    · intro t ht h1 e he
      rcases List.mem_append.1 he with he | he
      · exact h.nofinal t ht h1 e he
      · rw [List.mem_singleton] at he
        subst he; exact fun hf => hf
    · show List.Pairwise _ (st.log ++ [.data s.id b])
      rw [List.pairwise_append]
      refine ⟨h.order, List.pairwise_singleton _ _, ?_⟩
      intro a h1 e he sid h2 h3
      rw [List.mem_singleton] at he
      subst he
      have h3 : s.id = sid := h3
      subst h3
      exact h.nofinal s hs ha a h1 h2
    · intro sid he
      rcases List.mem_append.1 he with he | he
      · have hne : sid ≠ s.id := by
          rintro rfl
          exact h.nofinal s hs ha _ he rfl
        simp only [St.note, hdo _ hne]; exact h.eofs sid he
      · rw [List.mem_singleton] at he; cases he
    · intro he
      rcases List.mem_append.1 he with he | he
      · exact h.nocrash he
      · rw [List.mem_singleton] at he; cases he

theorem inv_finish {st : St} (h : Inv st) {s : Socket} (hs : s ∈ st.socks) (ha : s.active = true) (L : Lisp) (why : Cause)
    (heof : why = .eof → (st.info s.id).client = true ∧ st.hung (st.info s.id).conn = true ∧
      st.inbox (st.info s.id).conn = [])
    (run : St → Op → St) (hrun : ∀ st o, Inv st → Inv (run st o)) : Inv (st.finish L s.id why run) := by
  obtain ⟨h1, h2, h3, h4, h5, h6, h7, h8⟩ := inv_shutdown h hs
  unfold St.finish
  simp only
  split
  · have hn : Inv ((st.shutdown s.id).note (.ended s.id why)) := by
      apply inv_note h1
      · intro sid; rfl
      · rintro sid (hab | hab)
        · have hab : s.id = sid := hab
          rw [h4, ← hab]; exact h.lt s hs
        · have hab : s.id = sid := hab
          rw [h4, ← hab]; exact h.lt s hs
      · intro t ht hta hab
        have hab : s.id = t.id := hab
        exact (h7 t ht hta).1 hab.symm
      · intro sid hab e he
        have hab : s.id = sid := hab
        rw [h2] at he; subst hab
        exact h.nofinal s hs ha e he
      · intro sid he
        simp only [Event.ended.injEq] at he
        obtain ⟨rfl, hw⟩ := he
        obtain ⟨g1, g2, g3⟩ := heof hw
        rw [h2, h3, h5, h6]
        refine ⟨g1, g2, fun hst => ?_⟩
        have := h.eq s hs ha g1 hst
        rw [g3, List.append_nil] at this
        exact this
      · exact fun e => nomatch e
    generalize (st.shutdown s.id).note (.ended s.id why) = st1 at hn
    generalize L.sentinel st1 s.id = ops
    clear * - hn hrun
    induction ops generalizing st1 with
    | nil => exact hn
    | cons o ops ih => exact ih _ (hrun _ o hn)
  · exact h1

theorem foldl_inv {run : St → Op → St} (hrun : ∀ st o, Inv st → Inv (run st o)) :
    ∀ (ops : List Op) (st : St), Inv st → Inv (ops.foldl run st) := by
  intro ops
  induction ops with
  | nil => intro st h; exact h
  | cons o ops ih => intro st h; exact ih _ (hrun _ o h)

/-- Operations of a stream leave its socket as it is. -/
theorem benign_holds (L : Lisp) (n : Nat) {st : St} (h : Inv st) {f sid : Nat} (hh : Holds st f sid) (o : Op)
    (hb : Benign sid o) : Holds (exec L n st (.op o)) f sid := by
  cases n with
  | zero => exact hh
  | succ n =>
    obtain ⟨s, hs, h1, h2, h3, h4⟩ := hh
    cases o with
    | connect g ok a b =>
      simp only [exec]
      split
      · exact ⟨s, hs, h1, h2, h3, h4⟩
      · exact holds_make h ⟨s, hs, h1, h2, h3, h4⟩ _ _ _ _ _
    | listen g ok a b =>
      simp only [exec]
      split
      · exact ⟨s, hs, h1, h2, h3, h4⟩
      · exact holds_make h ⟨s, hs, h1, h2, h3, h4⟩ _ _ _ _ _
    | accept a g b c =>
      simp only [exec]
      have hbase : Holds st f sid := ⟨s, hs, h1, h2, h3, h4⟩
      split
      · split
        · split
          · split
            · exact hbase
            · have hlt : sid < st.nextSock := h1 ▸ h.lt s hs
              refine ⟨s, List.mem_cons_of_mem _ hs, h1, h2, h3, ?_⟩
              have e : ∀ i, upd st.info st.nextSock i sid = st.info sid := fun i => upd_ne _ _ (by omega)
              simp only [St.make]; simpa [e] using h4
          · exact hbase
        · exact hbase
      · exact hbase
    | close a =>
      simp only [exec]
      split
      · rename_i hany
        obtain ⟨t, ht, he⟩ := List.any_eq_true.1 hany
        simp only [decide_eq_true_eq] at he
        subst he
        obtain ⟨-, -, g3, -, -, -, -, g8⟩ := inv_shutdown h ht
        have hne : s.id ≠ t.id := by rw [h1]; exact fun e => hb e.symm
        refine ⟨s, g8 s hs hne, h1, h2, h3, ?_⟩
        show ((St.shutdown st t.id).info sid).client = true
        rw [g3]; exact h4
      · exact ⟨s, hs, h1, h2, h3, h4⟩
    | writeFails a => exact hb.elim
    | dispatch g => exact hb.elim
    | gc keep =>
      simp only [exec]
      refine ⟨s, ?_, h1, h2, h3, h4⟩
      rw [List.mem_reverse, List.mem_filter]
      exact ⟨hs, by simp [h2]⟩
    | arrive c b => simp only [exec]; split <;> exact ⟨s, hs, h1, h2, h3, h4⟩
    | hangup c => simp only [exec]; split <;> exact ⟨s, hs, h1, h2, h3, h4⟩
    | request l => simp only [exec]; split <;> exact ⟨s, hs, h1, h2, h3, h4⟩

theorem read_eq {st : St} (h : Inv st) {f sid : Nat} (hh : Holds st f sid) : st.files f = some (.conn (st.info sid).conn) := by
  obtain ⟨s, hs, rfl, h2, h3, h4⟩ := hh
  obtain ⟨g, g1, g2, g3⟩ := h.act s hs h2
  rw [h3] at g1; cases g1
  rw [g2, fileOf, if_pos h4]

theorem exec_inv (L : Lisp) (hL : L.Benign) : ∀ (n : Nat) (st : St), Inv st →
    (∀ o, Inv (exec L n st (.op o))) ∧ ∀ f sid, Holds st f sid → Inv (exec L n st (.reading f sid)) := by
  intro n
  induction n with
  | zero => intro st h; exact ⟨fun _ => h, fun _ _ _ => h⟩
  | succ n ih =>
    intro st h
    have hrun : ∀ st o, Inv st → Inv (exec L n st (.op o)) := fun st o h => (ih st h).1 o
    constructor
    · intro o
      cases o with
      | connect g ok a b =>
        simp only [exec]
        split
        · exact h
        · rename_i hf
          exact inv_open h g (by simpa using hf) { client := true, conn := st.nextConn, stream := a, sentinel := b } rfl ok
      | listen g ok a b =>
        simp only [exec]
        split
        · exact h
        · rename_i hf
          exact inv_open h g (by simpa using hf) { client := false, conn := st.nextConn, stream := a, sentinel := b } rfl ok
      | accept a g b c =>
        simp only [exec]
        split
        · split
          · split
            · split
              · exact h
              · rename_i hw hf
                exact inv_accept h g _ _ _ (by simpa using hf) hw b c
            · exact h
          · exact h
        · exact h
      | close a =>
        simp only [exec]
        split
        · rename_i hany
          obtain ⟨t, ht, he⟩ := List.any_eq_true.1 hany
          simp only [decide_eq_true_eq] at he
          subst he
          obtain ⟨g1, g2, g3, g4, g5, g6, g7, g8⟩ := inv_shutdown h ht
          apply inv_note g1
          · intro sid; rfl
          · rintro sid (hab | hab)
            · exact hab.elim
            · have hab : t.id = sid := hab
              rw [g4, ← hab]; exact h.lt t ht
          · intro u hu hua hab
            have hab : t.id = u.id := hab
            exact (g7 u hu hua).1 hab.symm
          · intro sid hab; exact hab.elim
          · intro sid he; cases he
          · exact fun e => nomatch e
        · exact h
      | writeFails a =>
        simp only [exec]
        split
        · rename_i s hf
          split
          · rename_i hact
            have hm := List.mem_of_find?_eq_some hf
            have he := List.find?_some hf
            simp only [decide_eq_true_eq] at he
            subst he
            exact inv_finish h hm hact L .error (fun e => nomatch e) _ hrun
          · exact h
        · exact h
      | dispatch f =>
        simp only [exec]
        split
        · exact h
        · rename_i hact
          obtain ⟨s, hs, hfd⟩ := h.action f (by rw [hact]; exact fun e => nomatch e)
          rw [find_fd h hs hfd]
          simp only
          have ha : s.active = true := by
            cases ha : s.active with
            | true => rfl
            | false => rw [h.inact s hs ha] at hfd; cases hfd
          obtain ⟨g, g1, g2, g3⟩ := h.act s hs ha
          rw [hfd] at g1; cases g1
          have hcl : (st.info s.id).client = true := by
            rw [hact, actionOf] at g3
            cases hc : (st.info s.id).client with
            | true => rfl
            | false => rw [hc] at g3; simp at g3
          exact (ih st h).2 f s.id ⟨s, hs, rfl, ha, hfd, hcl⟩
        · rename_i hact
          obtain ⟨s, hs, hfd⟩ := h.action f (by rw [hact]; exact fun e => nomatch e)
          rw [find_fd h hs hfd]
          simp only
          have ha : s.active = true := by
            cases ha : s.active with
            | true => rfl
            | false => rw [h.inact s hs ha] at hfd; cases hfd
          split
          · apply foldl_inv hrun
            apply inv_note h
            · intro sid; rfl
            · rintro sid (hab | hab)
              · have hab : s.id = sid := hab
                rw [← hab]; exact h.lt s hs
              · exact hab.elim
            · intro t ht hta hab; exact hab.elim
            · intro sid hab e he
              have hab : s.id = sid := hab
              subst hab
              exact h.nofinal s hs ha e he
            · intro sid he; cases he
            · exact fun e => nomatch e
          · exact h
      | gc keep => exact inv_gc h keep
      | arrive c b =>
        simp only [exec]
        split
        · rename_i hc; exact inv_arrive h c b hc.1 hc.2
        · exact h
      | hangup c =>
        simp only [exec]
        split
        · rename_i hc; exact inv_hangup h c hc
        · exact h
      | request l =>
        simp only [exec]
        split
        · exact h
        · rename_i hl; exact inv_request h l (by omega)
    · intro f sid hh
      have hfile := read_eq h hh
      simp only [exec, St.read, hfile]
      by_cases hi : st.inbox (st.info sid).conn = []
      · rw [if_neg (by simpa using hi)]
        split
        · rename_i heq; split at heq <;> cases heq
        · exact h
        · rename_i why heq
          split at heq
          · rename_i hu
            cases heq
            obtain ⟨s, hs, rfl, ha, hfd, hcl⟩ := hh
            exact inv_finish h hs ha L .eof (fun _ => ⟨hcl, hu, hi⟩) _ hrun
          · cases heq
      · rw [if_pos hi]
        simp only
        obtain ⟨d1, d2⟩ := inv_deliver h hh (b := (st.inbox (st.info sid).conn).take 1024)
          (rest := (st.inbox (st.info sid).conn).drop 1024) (List.take_append_drop _ _).symm
        unfold deliver at d1 d2
        by_cases hst : (st.info sid).stream = true
        · rw [if_pos hst] at d1 d2
          rw [if_pos hst]
          have key : ∀ (ops : List Op), (∀ o ∈ ops, Benign sid o) → ∀ st1, Inv st1 → Holds st1 f sid →
              Inv (ops.foldl (fun st o => exec L n st (.op o)) st1) ∧
              Holds (ops.foldl (fun st o => exec L n st (.op o)) st1) f sid := by
            intro ops
            induction ops with
            | nil => intro _ st1 e1 e2; exact ⟨e1, e2⟩
            | cons o ops iho =>
              intro hb st1 e1 e2
              exact iho (fun o ho => hb o (by simp [ho])) _ (hrun st1 o e1)
                (benign_holds L n e1 e2 o (hb o (by simp)))
          obtain ⟨k1, k2⟩ := key _ (hL _ sid ((st.inbox (st.info sid).conn).take 1024)) _ d1 d2
          exact (ih _ k1).2 f sid k2
        · rw [if_neg hst] at d1 d2
          rw [if_neg hst]
          exact (ih _ d1).2 f sid d2

end Rep.Sock
