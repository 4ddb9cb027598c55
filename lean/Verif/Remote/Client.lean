import Verif.Remote.Server

namespace Rep.Remote

/-- Induction over the pieces of a reply: `Inv rest s` holds while `rest` is still to come. -/
theorem feed_inv (Inv : Bytes → Session → Prop) (Fin : Session → Prop)
    (busy : ∀ f s, Inv f s → s.status = .busy)
    (step : ∀ s d fut, Inv (d ++ fut) s → d ≠ [] →
      ∃ s', outputFilter s d = some s' ∧ (fut = [] → Fin s') ∧ (fut ≠ [] → Inv fut s')) :
    ∀ (pieces : List Bytes) (s : Session), pieces ≠ [] → (∀ p ∈ pieces, p ≠ []) → Inv pieces.flatten s →
      (∃ s', feed s pieces = some s' ∧ Fin s') ∧
      ∀ ps qs, pieces = ps ++ qs → qs ≠ [] → ∃ s1, feed s ps = some s1 ∧ s1.status = .busy := by
  intro pieces
  induction pieces with
  | nil => intro s h; exact absurd rfl h
  | cons p pieces ih =>
    intro s _ hne hinv
    rw [List.flatten_cons] at hinv
    obtain ⟨s', h1, h2, h3⟩ := step s p _ hinv (hne p (by simp))
    by_cases hp : pieces = []
    · subst hp
      refine ⟨⟨s', by simp [feed, h1], h2 rfl⟩, ?_⟩
      intro ps qs e hq
      cases ps with
      | nil => exact ⟨s, rfl, busy _ _ hinv⟩
      | cons a ps =>
        simp only [List.cons_append, List.cons.injEq] at e
        exact absurd (List.append_eq_nil_iff.1 e.2.symm).2 hq
    · have hf : pieces.flatten ≠ [] := by
        intro e
        exact hp (flatten_nil_of e (fun c hc => hne c (by simp [hc])))
      obtain ⟨⟨s2, h4, h5⟩, h6⟩ := ih s' hp (fun c hc => hne c (by simp [hc])) (h3 hf)
      refine ⟨⟨s2, by simp [feed, h1, h4], h5⟩, ?_⟩
      intro ps qs e hq
      cases ps with
      | nil => exact ⟨s, rfl, busy _ _ hinv⟩
      | cons a ps =>
        simp only [List.cons_append, List.cons.injEq] at e
        obtain ⟨rfl, e⟩ := e
        obtain ⟨s1, h7, h8⟩ := h6 ps qs e hq
        exact ⟨s1, by simp [feed, h1, h7], h8⟩

/-- What is kept of the part `x` that has come. -/
def keep (x : Bytes) : Option Bytes := if x = [] then none else some x

theorem keep_getD (x : Bytes) : (keep x).getD [] = x := by unfold keep; split <;> simp_all

/-- A reply that is kept until it is whole. -/
theorem feed_kept (base fin : Session) (hb : base.status = .busy) (R : Bytes)
    (hpart : ∀ x fut, x ++ fut = R → x ≠ [] → fut ≠ [] → ∀ p d, p ++ d = x →
      outputFilter { base with pending := keep p } d = some { base with pending := keep x })
    (hwhole : ∀ p d, p ++ d = R → d ≠ [] → outputFilter { base with pending := keep p } d = some fin)
    (hp : base.pending = none) (pieces : List Bytes) (hc : Chopped R pieces) (hR : R ≠ []) :
    feed base pieces = some fin ∧
      ∀ ps qs, pieces = ps ++ qs → qs ≠ [] → ∃ s1, feed base ps = some s1 ∧ s1.status = .busy := by
  have h0 : pieces ≠ [] := by rintro rfl; exact hR hc.1.symm
  have := feed_inv (fun fut s => ∃ x, x ++ fut = R ∧ s = { base with pending := keep x }) (· = fin)
    (by rintro f s ⟨x, _, rfl⟩; exact hb)
    (by
      rintro s d fut ⟨x, h1, rfl⟩ hd
      by_cases hf : fut = []
      · subst hf
        exact ⟨fin, hwhole x d (by simpa using h1) hd, fun _ => rfl, fun h => absurd rfl h⟩
      · exact ⟨_, hpart (x ++ d) fut (by simpa using h1) (by simp [hd]) hf x d rfl, fun h => absurd h hf,
          fun _ => ⟨x ++ d, by simpa using h1, rfl⟩⟩)
    pieces base h0 hc.2 ⟨[], by simpa using hc.1, by
      cases base; simp only at hp; subst hp; rfl⟩
  obtain ⟨⟨s', h1, rfl⟩, h2⟩ := this
  exact ⟨h1, h2⟩

theorem readStr_whole {m : Bytes} (h : Short m) : readStr (sendString m) = some m := by
  rw [readStr_prefix (x := sendString m) (fut := []) (z := []) h rfl, if_pos (by rw [sendString_length h])]

theorem readStr_part {m x fut : Bytes} (h : Short m) (he : x ++ fut = sendString m) (hf : fut ≠ []) :
    readStr x = none := by
  rw [readStr_prefix (x := x) (fut := fut) (z := []) h (by simpa using he), if_neg]
  have := congrArg List.length he
  rw [List.length_append, sendString_length h] at this
  have : 0 < fut.length := List.length_pos_iff.2 hf
  omega

theorem hexChar_ne_two (d : Nat) (h : d < 16) : hexChar d ≠ 2 := by
  have : ∀ d : Fin 16, hexChar d ≠ 2 := by decide
  exact this ⟨d, h⟩

theorem two_hexW (w : Nat) : ∀ n, 2 ∉ hexW w n := by
  induction w with
  | zero => simp [hexW]
  | succ w ih =>
    intro n
    simp only [hexW, List.mem_append, List.mem_singleton, not_or]
    exact ⟨ih _, (hexChar_ne_two _ (Nat.mod_lt _ (by decide))).symm⟩

theorem two_sendString {m : Bytes} (h : Short m) (h2 : 2 ∉ m) : 2 ∉ sendString m := by
  rw [sendString_eq h]
  simp [two_hexW, h2]

theorem findSignature_none : ∀ {x : Bytes}, 2 ∉ x → findSignature x = none
  | [], _ => rfl
  | c :: x, h => by
    have h' : 2 ≠ c ∧ 2 ∉ x := by simpa using h
    have : signature.isPrefixOf (c :: x) = false := by
      simp [signature, List.isPrefixOf, h'.1]
    simp [findSignature, this, findSignature_none h'.2]

/-- The reply of success to a command without a function of its own. -/
theorem feed_done (base : Session) (hb : base.status = .busy) (hp : base.pending = none)
    (hcb : base.callback = .none) (hpr : base.protocol.isSome) (pieces : List Bytes) (hc : Chopped [1] pieces) :
    feed base pieces = some { base with status := .success } ∧
      ∀ ps qs, pieces = ps ++ qs → qs ≠ [] → ∃ s1, feed base ps = some s1 ∧ s1.status = .busy := by
  refine feed_kept base _ hb [1] ?_ ?_ hp pieces hc (by simp)
  · intro x fut e hx hf
    match x, fut, e with
    | [_], [], _ => exact absurd rfl hf
    | [_], _ :: _, e => simp at e
    | _ :: _ :: _, _, e => simp at e
    | [], _, _ => exact absurd rfl hx
  · intro p d e hd
    have : p = [] ∧ d = [1] := by
      match p, d, e with
      | [], _, e => exact ⟨rfl, e⟩
      | [_], [], _ => exact absurd rfl hd
      | [_], _ :: _, e => simp at e
      | _ :: _ :: _, _, e => simp at e
    obtain ⟨rfl, rfl⟩ := this
    have hpr' : base.protocol.isNone = false := by cases h : base.protocol <;> simp_all
    simp only [outputFilter, keep, if_true, hcb, Option.getD_none, List.nil_append, List.length_singleton]
    simp only [filterLoop, hpr', Bool.false_and, Bool.false_eq_true, if_false,
      findSignature_none (show 2 ∉ [1] by decide), if_true]
    cases base; simp only at hp hcb hpr' ⊢; subst hp; rfl

/-- The reply of failure to a command without a function of its own. -/
theorem feed_error (base : Session) (hb : base.status = .busy) (hp : base.pending = none)
    (hcb : base.callback = .none) (hpr : base.protocol.isSome) (m : Bytes) (hm : Short m) (h2 : 2 ∉ m)
    (pieces : List Bytes) (hc : Chopped (127 :: sendString m) pieces) :
    feed base pieces = some { base with status := .failure, error := m } ∧
      ∀ ps qs, pieces = ps ++ qs → qs ≠ [] → ∃ s1, feed base ps = some s1 ∧ s1.status = .busy := by
  have hpr' : base.protocol.isNone = false := by cases h : base.protocol <;> simp_all
  have hno : 2 ∉ (127 :: sendString m) := by
    simp only [List.mem_cons, not_or]; exact ⟨by decide, two_sendString hm h2⟩
  refine feed_kept base _ hb _ ?_ ?_ hp pieces hc (by simp)
  · intro x fut e hx hf p d hpd
    simp only [outputFilter, keep_getD, hpd, hcb]
    match x, e, hx, hpd with
    | c :: x, e, _, hpd =>
      simp only [List.cons_append, List.cons.injEq] at e
      obtain ⟨rfl, e⟩ := e
      have hno' : 2 ∉ (127 :: x) := by
        intro h; apply hno; rw [← e]
        rcases List.mem_cons.1 h with h | h <;> simp [h]
      simp only [List.length_cons, filterLoop, hpr', Bool.false_and, Bool.false_eq_true, if_false,
        findSignature_none hno', readStr_part hm e hf, keep]
      simp
  · intro p d e hd
    simp only [outputFilter, keep_getD, e, hcb]
    simp only [List.length_cons, filterLoop, hpr', Bool.false_and, Bool.false_eq_true, if_false,
      findSignature_none hno, readStr_whole hm]
    have e : List.drop (9 + m.length) (127 :: sendString m) = [] :=
      List.drop_of_length_le (by rw [List.length_cons, sendString_length hm]; omega)
    rw [e, sendString_length hm]
    simp only [show (127 : Nat) ≠ 1 by decide, if_false, if_true]
    rw [hp]

/-- The replies to `read-symlink`. -/
theorem feed_link (base : Session) (hb : base.status = .busy) (hp : base.pending = none)
    (hcb : base.callback = .link) (hl : base.link = none) (m : Bytes) (hm : Short m)
    (pieces : List Bytes) (hc : Chopped (1 :: sendString m) pieces) :
    feed base pieces = some { base with status := .success, link := some m } ∧
      ∀ ps qs, pieces = ps ++ qs → qs ≠ [] → ∃ s1, feed base ps = some s1 ∧ s1.status = .busy := by
  refine feed_kept base _ hb _ ?_ ?_ hp pieces hc (by simp)
  · intro x fut e hx hf p d hpd
    simp only [outputFilter, keep_getD, hpd, hcb]
    match x, e, hx, hpd with
    | c :: x, e, _, hpd =>
      simp only [List.cons_append, List.cons.injEq] at e
      obtain ⟨rfl, e⟩ := e
      simp only [linkCallback, readStr_part hm e hf, keep]
      cases base; simp only at hl ⊢; subst hl; simp
  · intro p d e hd
    simp only [outputFilter, keep_getD, e, hcb, linkCallback, readStr_whole hm]
    cases base; simp only at hp ⊢; subst hp; rfl

theorem feed_link_error (base : Session) (hb : base.status = .busy) (hp : base.pending = none)
    (hcb : base.callback = .link) (m : Bytes) (hm : Short m)
    (pieces : List Bytes) (hc : Chopped (127 :: sendString m) pieces) :
    feed base pieces = some { base with status := .failure, error := m } ∧
      ∀ ps qs, pieces = ps ++ qs → qs ≠ [] → ∃ s1, feed base ps = some s1 ∧ s1.status = .busy := by
  refine feed_kept base _ hb _ ?_ ?_ hp pieces hc (by simp)
  · intro x fut e hx hf p d hpd
    simp only [outputFilter, keep_getD, hpd, hcb]
    match x, e, hx, hpd with
    | c :: x, e, _, hpd =>
      simp only [List.cons_append, List.cons.injEq] at e
      obtain ⟨rfl, e⟩ := e
      simp only [linkCallback, readStr_part hm e hf, keep]
      simp
  · intro p d e hd
    simp only [outputFilter, keep_getD, e, hcb, linkCallback, readStr_whole hm]
    cases base; simp only at hp ⊢; subst hp; rfl

theorem dropWhile_no_two {x : Bytes} (h : 2 ∉ x) : x.dropWhile (· ≠ 2) = [] := by
  induction x with
  | nil => rfl
  | cons c x ih =>
    have h' : 2 ≠ c ∧ 2 ∉ x := by simpa using h
    rw [List.dropWhile_cons_of_pos (by simpa using fun e : c = 2 => h'.1 e.symm)]
    exact ih h'.2

theorem dirLoop_no_two (f : Nat) (es : List Bytes) {x : Bytes} (h : 2 ∉ x) : dirLoop f es x = (es, x) := by
  cases f with
  | zero => rfl
  | succ f => simp only [dirLoop, dropWhile_no_two h]

theorem feed_dir_error (base : Session) (hb : base.status = .busy) (hp : base.pending = none)
    (hcb : base.callback = .dir) (m : Bytes) (hm : Short m) (h2 : 2 ∉ m)
    (pieces : List Bytes) (hc : Chopped (127 :: sendString m) pieces) :
    feed base pieces = some { base with status := .failure, error := m } ∧
      ∀ ps qs, pieces = ps ++ qs → qs ≠ [] → ∃ s1, feed base ps = some s1 ∧ s1.status = .busy := by
  have hno : 2 ∉ (127 :: sendString m) := by
    simp only [List.mem_cons, not_or]; exact ⟨by decide, two_sendString hm h2⟩
  refine feed_kept base _ hb _ ?_ ?_ hp pieces hc (by simp)
  · intro x fut e hx hf p d hpd
    simp only [outputFilter, keep_getD, hpd, hcb]
    match x, e, hx, hpd with
    | c :: x, e, _, hpd =>
      simp only [List.cons_append, List.cons.injEq] at e
      obtain ⟨rfl, e⟩ := e
      have hno' : 2 ∉ (127 :: x) := by
        intro h; apply hno; rw [← e]
        rcases List.mem_cons.1 h with h | h <;> simp [h]
      simp only [dirCallback, dirLoop_no_two _ _ hno', readStr_part hm e hf, keep]
      simp
  · intro p d e hd
    simp only [outputFilter, keep_getD, e, hcb, dirCallback, dirLoop_no_two _ _ hno, readStr_whole hm]
    cases base; simp only at hp ⊢; subst hp; rfl

/-! ### `get` -/

theorem feed_get (base : Session) (hb : base.status = .busy) (hp : base.pending = none)
    (hcb : base.callback = .get none) (hfile : base.file = []) (data : Bytes) (hd : Short data)
    (pieces : List Bytes) (hc : Chopped (1 :: (sendLong data.length ++ data)) pieces) :
    feed base pieces = some { base with status := .success, file := data, callback := .get (some 0) } ∧
      ∀ ps qs, pieces = ps ++ qs → qs ≠ [] → ∃ s1, feed base ps = some s1 ∧ s1.status = .busy := by
  have h0 : pieces ≠ [] := by rintro rfl; cases hc.1
  rw [sendLong_small hd] at hc
  have := feed_inv (fun fut s =>
      (∃ x, x ++ fut = 1 :: (hexW 8 data.length ++ data) ∧ x.length < 9 ∧ s = { base with pending := keep x }) ∨
      (∃ y, y ++ fut = data ∧ fut ≠ [] ∧ s = { base with file := y, callback := .get (some fut.length) }))
    (· = { base with status := .success, file := data, callback := .get (some 0) })
    (by rintro f s (⟨x, _, _, rfl⟩ | ⟨y, _, _, rfl⟩) <;> exact hb)
    (by
      rintro s d fut (⟨x, h1, h2, rfl⟩ | ⟨y, h1, h2, rfl⟩) hd0
      · simp only [outputFilter, keep_getD, hcb]
        by_cases h9 : (x ++ d).length < 9
        · -- the length has not come yet
          have hx : x ++ d ≠ [] := by simp [hd0]
          have hf : fut ≠ [] := by
            rintro rfl
            have := congrArg List.length h1
            simp only [List.append_nil, List.length_cons, List.length_append, hexW_length] at this h9
            omega
          generalize hxd : x ++ d = z at *
          match z, hx with
          | c :: z, _ =>
            have h1' : (c :: z) ++ fut = 1 :: (hexW 8 data.length ++ data) := by rw [← hxd]; simpa using h1
            simp only [List.cons_append, List.cons.injEq] at h1'
            obtain ⟨rfl, h1'⟩ := h1'
            have hz : readLength z = none := readLength_short (by simp only [List.length_cons] at h9; omega)
            refine ⟨_, by simp only [getCallback, hz]; rfl, fun h => absurd h hf, fun _ => Or.inl ⟨1 :: z, by simpa using h1', h9, ?_⟩⟩
            cases base; simp only at hcb ⊢; subst hcb; simp [keep]
        · -- it has
          have hlen : 9 ≤ (x ++ d).length := by omega
          obtain ⟨z, hz⟩ : ∃ z, x ++ d = 1 :: (hexW 8 data.length ++ z) := by
            refine ⟨(x ++ d).drop 9, ?_⟩
            have h3 : (x ++ d ++ fut).take 9 = 1 :: hexW 8 data.length := by
              rw [List.append_assoc, h1]
              simp only [List.take_succ_cons]
              rw [List.take_append_of_le_length (by rw [hexW_length]), List.take_of_length_le (by rw [hexW_length])]
            rw [List.take_append_of_le_length hlen] at h3
            rw [← List.cons_append, ← h3, List.take_append_drop]
          have hzf : z ++ fut = data := by
            have : x ++ d ++ fut = 1 :: (hexW 8 data.length ++ data) := by simpa using h1
            rw [hz] at this
            simpa using this
          have hdrop : List.drop 9 (1 :: (hexW 8 data.length ++ z)) = z := by
            rw [List.drop_succ_cons, List.drop_append_of_le_length (by rw [hexW_length]),
              List.drop_of_length_le (by rw [hexW_length]), List.nil_append]
          have hmin : min data.length z.length = z.length := by
            rw [← hzf, List.length_append]; omega
          have hsub : data.length - z.length = fut.length := by
            rw [← hzf, List.length_append]; omega
          rw [hz]
          refine ⟨_, by simp only [getCallback, readLength_hexW hd, hdrop]; rfl, ?_, ?_⟩
          · rintro rfl
            rw [List.append_nil] at hzf
            subst hzf
            cases base; simp only at hp hfile ⊢; subst hp hfile; simp
          · intro hf
            refine Or.inr ⟨z, hzf, hf, ?_⟩
            rw [hmin, hsub, if_neg (by simpa using hf), List.take_length]
            cases base; simp only at hp hfile ⊢; subst hp hfile; simp
      · simp only [outputFilter, hp, Option.getD_none, List.nil_append, getCallback]
        have hmin : min (d ++ fut).length d.length = d.length := by rw [List.length_append]; omega
        have hsub : (d ++ fut).length - d.length = fut.length := by rw [List.length_append]; omega
        refine ⟨_, rfl, ?_, ?_⟩
        · rintro rfl
          simp only [List.append_nil] at h1 ⊢
          cases base; simp only at hp ⊢; subst hp; simp [h1]
        · intro hf
          refine Or.inr ⟨y ++ d, by simpa using h1, hf, ?_⟩
          rw [hmin, hsub, if_neg (by simpa using hf), List.take_length])
    pieces base h0 hc.2 (Or.inl ⟨[], by simpa using hc.1, by simp, by
      cases base; simp only at hp; subst hp; rfl⟩)
  obtain ⟨⟨s', h1, rfl⟩, h2⟩ := this
  exact ⟨h1, h2⟩

/-- An error reply to `get` that comes whole. -/
theorem feed_get_error (base : Session) (hp : base.pending = none) (hb : base.status = .busy)
    (hcb : base.callback = .get none) (m : Bytes) (hm : Short m) :
    feed base [127 :: sendString m] = some { base with status := .failure, error := m } := by
  simp only [feed, outputFilter, hp, Option.getD_none, List.nil_append, hcb, getCallback, readStr_whole hm]
  cases base; simp only at hp hcb ⊢; subst hp hcb; rfl

/-! ### directories -/

/-- The records on the wire. -/
def wire (l : List Bytes) : Bytes := (l.map fun e => 2 :: sendString e).flatten ++ [1]

theorem wire_cons (e : Bytes) (l : List Bytes) : wire (e :: l) = 2 :: (sendString e ++ wire l) := by
  simp [wire]

/-- Any part of the records: the whole ones are taken, the rest is kept. -/
theorem dirLoop_prefix : ∀ (rem : List Bytes) (f : Nat) (es : List Bytes) (x fut : Bytes),
    (∀ e ∈ rem, Short e) → x.length < f → x ++ fut = wire rem →
    ∃ rem' y, (dirLoop f es x).2 = y ∧ y ++ fut = wire rem' ∧ (∀ e ∈ rem', Short e) ∧
      (dirLoop f es x).1.reverse ++ rem' = es.reverse ++ rem ∧ (fut ≠ [] → y = [] ∨ ∃ z, y = 2 :: z) ∧
      (fut = [] → rem' = []) := by
  intro rem
  induction rem with
  | nil =>
    intro f es x fut _ hf he
    have hx : 2 ∉ x := by
      intro h
      have : 2 ∈ wire [] := by rw [← he]; simp [h]
      simp [wire] at this
    refine ⟨[], x, by rw [dirLoop_no_two _ _ hx], he, by simp, by rw [dirLoop_no_two _ _ hx], ?_, fun _ => rfl⟩
    intro hfut
    match x, fut, he with
    | [], _, _ => exact Or.inl rfl
    | _ :: _, [], _ => exact absurd rfl hfut
    | [_], _ :: _, he => simp [wire] at he
    | _ :: _ :: _, _ :: _, he => simp [wire] at he
  | cons e rem ih =>
    intro f es x fut hs hf he
    match f, x, hf, he with
    | 0, _, hf, _ => omega
    | f + 1, [], hf, he => exact ⟨e :: rem, [], rfl, he, hs, rfl, fun _ => Or.inl rfl, by rintro rfl; rw [wire_cons] at he; cases he⟩
    | f + 1, c :: x, hf, he =>
      rw [wire_cons, List.cons_append, List.cons.injEq] at he
      obtain ⟨rfl, he⟩ := he
      have hse := hs e (by simp)
      have hr := readStr_prefix hse he
      have hdw : (2 :: x).dropWhile (· ≠ 2) = 2 :: x := by
        rw [List.dropWhile_cons_of_neg (by simp)]
      by_cases hl : 8 + e.length ≤ x.length
      · rw [if_pos hl] at hr
        have hstep : dirLoop (f + 1) es (2 :: x) = dirLoop f (e :: es) (x.drop (8 + e.length)) := by
          simp only [dirLoop, hdw, hr]
        have he2 : x.drop (8 + e.length) ++ fut = wire rem := by
          have := congrArg (List.drop (8 + e.length)) he
          rw [List.drop_append_of_le_length hl, List.drop_append_of_le_length (by rw [sendString_length hse])] at this
          rw [this]
          have : List.drop (8 + e.length) (sendString e) = [] :=
            List.drop_of_length_le (by rw [sendString_length hse])
          rw [this, List.nil_append]
        obtain ⟨rem', y, h1, h2, h3, h4, h5, h6⟩ := ih f (e :: es) _ fut (fun a ha => hs a (by simp [ha]))
          (by rw [List.length_drop]; simp only [List.length_cons] at hf; omega) he2
        rw [hstep]
        exact ⟨rem', y, h1, h2, h3, by rw [h4]; simp, h5, h6⟩
      · rw [if_neg hl] at hr
        have hstep : dirLoop (f + 1) es (2 :: x) = (es, 2 :: x) := by
          simp only [dirLoop, hdw, hr]
        rw [hstep]
        refine ⟨e :: rem, 2 :: x, rfl, by rw [wire_cons, List.cons_append, he], hs, rfl, fun _ => Or.inr ⟨x, rfl⟩, ?_⟩
        rintro rfl
        exfalso
        have := congrArg List.length he
        simp only [List.append_nil, List.length_append, sendString_length hse] at this
        omega

theorem feed_dir (base : Session) (hb : base.status = .busy) (hp : base.pending = none)
    (hcb : base.callback = .dir) (hes : base.entries = []) (l : List Bytes) (hl : ∀ e ∈ l, Short e)
    (pieces : List Bytes) (hc : Chopped (wire l) pieces) :
    feed base pieces = some { base with status := .success, entries := l.reverse } ∧
      ∀ ps qs, pieces = ps ++ qs → qs ≠ [] → ∃ s1, feed base ps = some s1 ∧ s1.status = .busy := by
  have h0 : pieces ≠ [] := by rintro rfl; have := hc.1; simp [wire] at this
  have := feed_inv (fun fut s => ∃ rem y es, y ++ fut = wire rem ∧ (∀ e ∈ rem, Short e) ∧ es.reverse ++ rem = l ∧
      s = { base with pending := keep y, entries := es })
    (· = { base with status := .success, entries := l.reverse })
    (by rintro f s ⟨_, _, _, _, _, _, rfl⟩; exact hb)
    (by
      rintro s d fut ⟨rem, y, es, h1, h2, h3, rfl⟩ hd
      simp only [outputFilter, keep_getD, hcb, dirCallback]
      obtain ⟨rem', y', g1, g2, g3, g4, g5, g6⟩ := dirLoop_prefix rem ((y ++ d).length + 1) es (y ++ d) fut h2
        (by omega) (by simpa using h1)
      rw [g1]
      by_cases hf : fut = []
      · have hr := g6 hf
        subst hr hf
        have hy : y' = [1] := by simpa [wire] using g2
        subst hy
        refine ⟨_, rfl, fun _ => ?_, fun h => absurd rfl h⟩
        rw [List.append_nil, h3] at g4
        have : (dirLoop ((y ++ d).length + 1) es (y ++ d)).1 = l.reverse := by rw [← g4, List.reverse_reverse]
        rw [this]
        cases base; simp only at hp ⊢; subst hp; rfl
      · rcases g5 hf with rfl | ⟨z, rfl⟩
        · exact ⟨_, rfl, fun h => absurd h hf, fun _ => ⟨rem', [], _, g2, g3, by rw [g4, h3], rfl⟩⟩
        · exact ⟨_, rfl, fun h => absurd h hf, fun _ => ⟨rem', 2 :: z, _, g2, g3, by rw [g4, h3], rfl⟩⟩)
    pieces base h0 hc.2 ⟨l, [], [], by simpa using hc.1, hl, rfl, by
      cases base; simp only at hp hes; subst hp hes; rfl⟩
  obtain ⟨⟨s', h1, rfl⟩, h2⟩ := this
  exact ⟨h1, h2⟩

end Rep.Remote
