import Verif.Canon.Text

/-
C92: canonical names of files.
-/

namespace Rep.Canon

theorem Canonical.good {w : World} {p : List Name} (h : Canonical w p) : Good p :=
  fun n hn => ⟨(h.1 n hn).1, (h.1 n hn).2.1⟩

theorem Canonical.dropLast {w : World} {p : List Name} (h : Canonical w p) :
    Canonical w p.dropLast :=
  ⟨fun n hn => h.1 n ((List.dropLast_prefix p).subset hn),
    fun q hq => h.2 q (hq.trans (List.dropLast_prefix p))⟩

theorem Canonical.add {w : World} {p : List Name} {n : Name} {x : Node} (h : Canonical w p)
    (hn : Plain n) (hx : w.node (p ++ [n]) = some x) (hl : ∀ l, x ≠ .link l) :
    Canonical w (p ++ [n]) := by
  refine ⟨fun m hm => ?_, fun q hq => ?_⟩
  · rcases List.mem_append.1 hm with hm | hm
    · exact h.1 m hm
    · rw [List.mem_singleton.1 hm]
      exact hn
  · rcases List.prefix_concat_iff.1 hq with hq | hq
    · subst hq
      exact ⟨x, hx, hl⟩
    · exact h.2 q hq

theorem Canonical.root {w : World} (ht : w.Tree) : Canonical w [] :=
  ⟨fun n hn => by simp at hn, fun q hq => by
    rw [List.prefix_nil.1 hq]
    exact ⟨_, ht.1, fun l => nofun⟩⟩

/-- One pass of the loop. -/
inductive Pass (w : World) (s : St) (d : List Name) : Out → Prop
  | done : comps s.rest = [] → Pass w s d (.ok (show_ d))
  | error : Pass w s d .error
  | overrun : Pass w s d .overrun
  | dot (e) : comps s.rest = ['.'] :: comps e → Pass w s d (.more { s with rest := e })
  | up (e) : comps s.rest = ['.', '.'] :: comps e →
      Pass w s d (.more { s with text := back s.text, rest := e })
  | name (n e x nuls) : Plain n → comps s.rest = n :: comps e → w.node (d ++ [n]) = some x →
      (∀ l, x ≠ .link l) → (flat (d ++ [n])).length < w.pathMax →
      Pass w s d (.more ⟨flat (d ++ [n]), nuls, e, 0⟩)
  | link (n e l nuls t) : Plain n → comps s.rest = n :: comps e → w.node (d ++ [n]) = some (.link l) →
      (flat (d ++ [n])).length < w.pathMax → Reps t (from_ d l) → t.length < w.pathMax → Sep e →
      Pass w s d (.more ⟨t, nuls, l ++ e, s.links + 1⟩)

theorem step_pass {w : World} {s : St} {d : List Name} (ht : w.Tree) (hr : Reps s.text d) :
    Pass w s d (step w s) := by
  obtain ⟨hs, hn, h0, h1⟩ := comps_next s.rest
  unfold step
  extract_lets r c e slash t nuls t' nuls'
  have hs : Sep e := hs
  have hn : '/' ∉ c := hn
  have h0 : c = [] → comps s.rest = [] := h0
  have h1 : c ≠ [] → comps s.rest = c :: comps e := h1
  split
  · rename_i hc
    rw [reps_finish hr]
    exact .done (h0 hc)
  · rename_i hc
    have hcs := h1 hc
    split
    · rename_i hd
      rw [hd] at hcs
      exact .dot e hcs
    · rename_i hd
      split
      · rename_i hu
        rw [hu] at hcs
        exact .up e hcs
      · rename_i hu
        have hp : Plain c := ⟨hc, hn, hd, hu⟩
        have ht' : t' = flat (d ++ [c]) := reps_add hr c
        have hg : Good (d ++ [c]) := fun m hm => by
          rcases List.mem_append.1 hm with hm | hm
          · exact hr.1 m hm
          · rw [List.mem_singleton.1 hm]
            exact ⟨hc, hn⟩
        have hlen : t'.length = t.length + c.length := List.length_append
        split
        · split
          · exact .error
          · exact .overrun
        · rename_i hlim
          have hl : (flat (d ++ [c])).length < w.pathMax := by
            rw [← ht', hlen]
            omega
          have hst : lstat w t' = w.node (d ++ [c]) := by rw [ht', reps_lstat hg]
          rw [hst]
          cases hx : w.node (d ++ [c]) with
          | none => exact .error
          | some x =>
            cases x with
            | dir =>
              simp only
              rw [ht']
              exact .name c e .dir _ hp hcs hx (fun l => nofun) hl
            | file =>
              simp only
              rw [ht']
              exact .name c e .file _ hp hcs hx (fun l => nofun) hl
            | link l =>
              simp only
              split
              · exact .error
              · split
                · exact .error
                · have hl0 : l ≠ [] := fun h => ht.2.2 _ (h ▸ hx)
                  have hh : (l ++ e).head? = l.head? := by
                    cases l with
                    | nil => exact absurd rfl hl0
                    | cons => rfl
                  have hb := reps_back (t := t') (d := d ++ [c]) ⟨hg, .inl ⟨ht', by simp⟩⟩
                  rw [List.dropLast_concat] at hb
                  refine .link c e l _ _ hp hcs hx hl ?_ ?_ hs
                  · rw [hh]
                    unfold from_
                    split
                    · exact ⟨fun n hn => by simp at hn, .inr rfl⟩
                    · exact hb.1
                  · split
                    · rw [flat_concat] at hl
                      have h0 : 0 < c.length := List.length_pos_iff.2 hc
                      simp only [List.length_append, List.length_cons, List.length_nil] at hl ⊢
                      omega
                    · rw [ht'] at hb ⊢
                      have := hb.2
                      omega

theorem loop_sound {w : World} (ht : w.Tree) (n : Nat) :
    ∀ (s : St) (d : List Name) (t : Text), Reps s.text d → s.text.length < w.pathMax →
      Canonical w d → loop w n s = .ok t →
      ∃ p, t = show_ p ∧ Loosely w d (comps s.rest) p ∧ Canonical w p ∧ t.length < w.pathMax := by
  induction n with
  | zero =>
    intro s d t _ _ _ h
    cases h
  | succ n ih =>
    intro s d t hr hlen hc h
    have hp := step_pass ht hr
    have hf := finish_length s.text
    rw [reps_finish hr] at hf
    simp only [loop] at h
    generalize ho : step w s = o at hp h
    cases hp with
    | done h0 =>
      simp only [Out.ok.injEq] at h
      refine ⟨d, h.symm, by rw [h0]; exact .done, hc, ?_⟩
      rw [← h]
      omega
    | error => cases h
    | overrun => cases h
    | dot e h0 =>
      obtain ⟨p, e1, e2, e3⟩ := ih { s with rest := e } d t hr hlen hc h
      exact ⟨p, e1, by rw [h0]; exact .dot e2, e3⟩
    | up e h0 =>
      have hb := reps_back hr
      obtain ⟨p, e1, e2, e3⟩ := ih _ d.dropLast t hb.1 (Nat.lt_of_le_of_lt hb.2 hlen) hc.dropLast h
      exact ⟨p, e1, by rw [h0]; exact .up e2, e3⟩
    | name m e x nuls hm h0 hx hl hfl =>
      have hc' := hc.add hm hx hl
      obtain ⟨p, e1, e2, e3⟩ := ih _ (d ++ [m]) t ⟨hc'.good, .inl ⟨rfl, by simp⟩⟩ hfl hc' h
      exact ⟨p, e1, by rw [h0]; exact .name hm.2.2.1 hm.2.2.2 hx hl e2, e3⟩
    | link m e l nuls t1 hm h0 hx hfl hr1 hl1 hs =>
      have hc' : Canonical w (from_ d l) := by
        unfold from_
        split
        · exact .root ht
        · exact hc
      obtain ⟨p, e1, e2, e3⟩ := ih _ (from_ d l) t hr1 hl1 hc' h
      refine ⟨p, e1, ?_, e3⟩
      rw [h0]
      refine .link hm.2.2.1 hm.2.2.2 hx ?_
      simp only at e2
      rwa [comps_sep l hs] at e2

theorem start_reps {w : World} {name : Text} (ht : w.Tree) (hc : Canonical w w.cwd)
    (hl : (show_ w.cwd).length < w.pathMax) :
    Reps (start w name).text (origin w name) ∧ (start w name).text.length < w.pathMax ∧
      Canonical w (origin w name) ∧ (start w name).rest = name := by
  unfold start origin from_
  split
  · refine ⟨⟨fun n hn => by simp at hn, .inr rfl⟩, ?_, .root ht, rfl⟩
    have : 1 ≤ (show_ w.cwd).length := by
      unfold show_
      split
      · simp
      · rename_i h
        obtain ⟨n, l, h⟩ := List.exists_cons_of_ne_nil h
        rw [h]
        simp
    simp only [List.length_cons, List.length_nil]
    omega
  · exact ⟨reps_show hc.good, hl, hc, rfl⟩

theorem strip_show {w : World} {p : List Name} (h : Canonical w p) (hp : p ≠ []) :
    strip (show_ p) = show_ p := by
  have hs : show_ p = flat p := by simp [show_, hp, flat]
  have hl := last_flat h.good hp
  rw [hs]
  unfold strip
  rw [List.getLast?_eq_head?_reverse] at hl
  cases hr : (flat p).reverse with
  | nil =>
    rw [List.reverse_eq_nil_iff] at hr
    rw [hr]
    rfl
  | cons c l =>
    rw [hr] at hl
    simp only [List.head?_cons, ne_eq, Option.some.injEq] at hl
    have : (flat p) = (c :: l).reverse := by rw [← hr, List.reverse_reverse]
    simp [hl, this]

/-- **C92** `canonical-file-name` returns the name itself, without slashes at its end, or the
absolute name of the file that one comes to along the name: each directory on the way exists, is not a
link, and is not `.` or `..`.  (Partial: for the root the result is empty, and `.` and `..` are
accepted after the name of a file; see below.) -/
theorem C92_canonical_name_partial (w : World) (ht : w.Tree) (hc : Canonical w w.cwd)
    (hl : (show_ w.cwd).length < w.pathMax) (n : Nat) (name t : Text)
    (h : canonical w n name = .ok t) :
    t = strip name ∨ ∃ p, Loosely w (origin w name) (comps name) p ∧ Canonical w p ∧
      (p ≠ [] → t = show_ p) := by
  unfold canonical at h
  split at h
  · rename_i t1 h1
    obtain ⟨a, b, c, d⟩ := start_reps (name := name) ht hc hl
    obtain ⟨p, e1, e2, e3, e4⟩ := loop_sound ht n _ _ _ a b c h1
    rw [d] at e2
    right
    refine ⟨p, e2, e3, fun hp => ?_⟩
    simp only [Out.ok.injEq] at h
    rw [← h, e1, strip_show e3 hp]
  · split at h
    · cases h
    · simp only [Out.ok.injEq] at h
      exact .inl h.symm
  · rename_i o h1 h2
    rw [h] at h1
    exact absurd rfl (h1 t)

/-- Where the walk leads is determined. -/
theorem Loosely.unique {w : World} {d cs p q : List Name} (h : Loosely w d cs p)
    (h' : Loosely w d cs q) : p = q := by
  induction h with
  | done => cases h'; rfl
  | dot _ ih =>
    cases h' with
    | dot h => exact ih h
    | name h => exact absurd rfl h
    | link h => exact absurd rfl h
  | up _ ih =>
    cases h' with
    | up h => exact ih h
    | name _ h => exact absurd rfl h
    | link _ h => exact absurd rfl h
  | name h1 h2 h3 h4 _ ih =>
    cases h' with
    | dot => exact absurd rfl h1
    | up => exact absurd rfl h2
    | name _ _ _ _ h => exact ih h
    | link _ _ h _ =>
      rw [h3] at h
      cases h
      exact absurd rfl (h4 _)
  | link h1 h2 h3 _ ih =>
    cases h' with
    | dot => exact absurd rfl h1
    | up => exact absurd rfl h2
    | name _ _ h h4 _ =>
      rw [h3] at h
      cases h
      exact absurd rfl (h4 _)
    | link _ _ h h5 =>
      rw [h3] at h
      cases h
      exact ih h5

theorem Resolves.loosely {w : World} {d cs p : List Name} (h : Resolves w d cs p) :
    Loosely w d cs p := by
  induction h with
  | done => exact .done
  | dot _ _ ih => exact .dot ih
  | up _ _ ih => exact .up ih
  | name h1 h2 h3 h4 _ ih => exact .name h1 h2 h3 h4 ih
  | link h1 h2 h3 _ ih => exact .link h1 h2 h3 ih

theorem loop_mono {w : World} {n m : Nat} {s : St} {t : Text} (h : loop w n s = .ok t) (hm : n ≤ m) :
    loop w m s = .ok t := by
  induction n generalizing m s with
  | zero => cases h
  | succ n ih =>
    obtain ⟨m, rfl⟩ : ∃ k, m = k + 1 := ⟨m - 1, by omega⟩
    simp only [loop] at h ⊢
    cases ho : step w s with
    | more s1 =>
      rw [ho] at h
      exact ih h (by omega)
    | ok t1 => rw [ho] at h; exact h
    | error => rw [ho] at h; exact h
    | overrun => rw [ho] at h; exact h

theorem rest_length (s : Text) :
    ((s.dropWhile (· = '/')).dropWhile (· ≠ '/')).length ≤ s.length :=
  Nat.le_trans (List.IsSuffix.length_le (List.dropWhile_suffix _))
    (List.IsSuffix.length_le (List.dropWhile_suffix _))

/-- A pass of the loop goes on if the limits allow it. -/
theorem step_next {w : World} {s : St} {d cs : List Name} {n : Name} (ht : w.Tree)
    (hr : Reps s.text d) (hcs : comps s.rest = n :: cs) (hn : n ≠ ['.']) (hu : n ≠ ['.', '.'])
    (hpm : (flat (d ++ [n])).length < w.pathMax) (x : Node) (hx : w.node (d ++ [n]) = some x)
    (hl : ∀ l, x = .link l → s.links + 1 ≤ w.maxLinks ∧ l.length + s.rest.length < w.pathMax) :
    ∃ s', step w s = .more s' ∧ ∃ e, Sep e ∧ comps e = cs ∧ e.length ≤ s.rest.length ∧
      ((∀ l, x ≠ .link l) → s'.rest = e ∧ s'.links = 0 ∧ Reps s'.text (d ++ [n])) ∧
      ∀ l, x = .link l → s'.rest = l ++ e ∧ s'.links = s.links + 1 ∧ Reps s'.text (from_ d l) := by
  obtain ⟨hs, hns, h0, h1⟩ := comps_next s.rest
  have hlen := rest_length s.rest
  unfold step
  extract_lets r c e slash t nuls t' nuls'
  have hs : Sep e := hs
  have hns : '/' ∉ c := hns
  have h0 : c = [] → comps s.rest = [] := h0
  have h1 : c ≠ [] → comps s.rest = c :: comps e := h1
  have hlen : e.length ≤ s.rest.length := hlen
  have hc : c ≠ [] := fun h => by
    rw [h0 h] at hcs
    cases hcs
  rw [h1 hc] at hcs
  obtain ⟨hcn, hce⟩ := List.cons.inj hcs
  rw [← hcn] at hn hu hx hpm
  rw [if_neg hc, if_neg hn, if_neg hu]
  have ht' : t' = flat (d ++ [c]) := reps_add hr c
  have hg : Good (d ++ [c]) := fun m hm => by
    rcases List.mem_append.1 hm with hm | hm
    · exact hr.1 m hm
    · rw [List.mem_singleton.1 hm]
      exact ⟨hc, hns⟩
  have hlt : t'.length = t.length + c.length := List.length_append
  rw [← ht'] at hpm
  rw [if_neg (by omega)]
  have hst : lstat w t' = w.node (d ++ [c]) := by rw [ht', reps_lstat hg]
  rw [hst, hx]
  cases x with
  | dir => exact ⟨_, rfl, e, hs, hce, hlen,
      fun _ => ⟨rfl, rfl, by rw [← hcn]; exact ⟨hg, .inl ⟨ht', by simp⟩⟩⟩, fun l hl => by cases hl⟩
  | file => exact ⟨_, rfl, e, hs, hce, hlen,
      fun _ => ⟨rfl, rfl, by rw [← hcn]; exact ⟨hg, .inl ⟨ht', by simp⟩⟩⟩, fun l hl => by cases hl⟩
  | link l =>
    obtain ⟨hl1, hl2⟩ := hl l rfl
    simp only
    rw [if_neg (by omega), if_neg (by omega)]
    refine ⟨_, rfl, e, hs, hce, hlen, fun h => absurd rfl (h l), fun l' hl' => ?_⟩
    cases hl'
    refine ⟨rfl, rfl, ?_⟩
    have hl0 : l ≠ [] := fun h => ht.2.2 _ (h ▸ hx)
    have hh : (l ++ e).head? = l.head? := by
      cases l with
      | nil => exact absurd rfl hl0
      | cons => rfl
    have hb := reps_back (t := t') (d := d ++ [c]) ⟨hg, .inl ⟨ht', by simp⟩⟩
    rw [List.dropLast_concat] at hb
    simp only [hh]
    unfold from_
    split
    · exact ⟨fun n hn => by simp at hn, .inr rfl⟩
    · exact hb.1

theorem step_dot {w : World} {s : St} {cs : List Name} (hcs : comps s.rest = ['.'] :: cs) :
    ∃ e, step w s = .more { s with rest := e } ∧ comps e = cs ∧ e.length ≤ s.rest.length := by
  obtain ⟨_, _, h0, h1⟩ := comps_next s.rest
  have hlen := rest_length s.rest
  unfold step
  extract_lets r c e slash t nuls t' nuls'
  have h0 : c = [] → comps s.rest = [] := h0
  have h1 : c ≠ [] → comps s.rest = c :: comps e := h1
  have hc : c ≠ [] := fun h => by
    rw [h0 h] at hcs
    cases hcs
  rw [h1 hc] at hcs
  obtain ⟨hcn, hce⟩ := List.cons.inj hcs
  exact ⟨e, by rw [if_neg hc, if_pos hcn], hce, hlen⟩

theorem step_up {w : World} {s : St} {cs : List Name} (hcs : comps s.rest = ['.', '.'] :: cs) :
    ∃ e, step w s = .more { s with text := back s.text, rest := e } ∧ comps e = cs ∧
      e.length ≤ s.rest.length := by
  obtain ⟨_, _, h0, h1⟩ := comps_next s.rest
  have hlen := rest_length s.rest
  unfold step
  extract_lets r c e slash t nuls t' nuls'
  have h0 : c = [] → comps s.rest = [] := h0
  have h1 : c ≠ [] → comps s.rest = c :: comps e := h1
  have hc : c ≠ [] := fun h => by
    rw [h0 h] at hcs
    cases hcs
  rw [h1 hc] at hcs
  obtain ⟨hcn, hce⟩ := List.cons.inj hcs
  exact ⟨e, by rw [if_neg hc, if_neg (by rw [hcn]; simp), if_pos hcn], hce, hlen⟩

theorem step_done {w : World} {s : St} {d : List Name} (hr : Reps s.text d)
    (hcs : comps s.rest = []) : step w s = .ok (show_ d) := by
  obtain ⟨_, _, _, h1⟩ := comps_next s.rest
  unfold step
  extract_lets r c e slash t nuls t' nuls'
  have h1 : c ≠ [] → comps s.rest = c :: comps e := h1
  have hc : c = [] := by
    by_cases hc : c = []
    · exact hc
    · rw [h1 hc] at hcs
      cases hcs
  rw [if_pos hc, reps_finish hr]

/-- The world with other limits. -/
def World.limits (w : World) (m k : Nat) : World := { w with pathMax := m, maxLinks := k }

theorem World.Tree.limits {w : World} (h : w.Tree) (m k : Nat) : (w.limits m k).Tree := h

theorem Resolves.limits {w : World} {d cs p : List Name} (h : Resolves w d cs p) (m k : Nat) :
    Resolves (w.limits m k) d cs p := by
  induction h with
  | done => exact .done
  | dot h _ ih => exact .dot h ih
  | up h _ ih => exact .up h ih
  | name h1 h2 h3 h4 _ ih => exact .name h1 h2 h3 h4 ih
  | link h1 h2 h3 _ ih => exact .link h1 h2 h3 ih

theorem loop_complete {w : World} (ht : w.Tree) {d cs p : List Name} (h : Resolves w d cs p) :
    ∃ a k n, ∀ (s : St) (m' k' : Nat), Reps s.text d → comps s.rest = cs → a + s.rest.length < m' →
      k + s.links ≤ k' → loop (w.limits m' k') n s = .ok (show_ p) := by
  induction h with
  | done => exact ⟨0, 0, 1, fun s m' k' hr hcs _ _ => by simp [loop, step_done hr hcs]⟩
  | dot _ _ ih =>
    obtain ⟨a, k, n, hi⟩ := ih
    refine ⟨a, k, n + 1, fun s m' k' hr hcs hm hk => ?_⟩
    obtain ⟨e, h1, h2, h3⟩ := step_dot (w := w.limits m' k') hcs
    simp only [loop, h1]
    exact hi { s with rest := e } m' k' hr h2 (by simp only; omega) hk
  | up _ _ ih =>
    obtain ⟨a, k, n, hi⟩ := ih
    refine ⟨a, k, n + 1, fun s m' k' hr hcs hm hk => ?_⟩
    obtain ⟨e, h1, h2, h3⟩ := step_up (w := w.limits m' k') hcs
    simp only [loop, h1]
    exact hi { s with text := back s.text, rest := e } m' k' (reps_back hr).1 h2 (by simp only; omega) hk
  | @name d c cs p x h1 h2 h3 h4 _ ih =>
    obtain ⟨a, k, n, hi⟩ := ih
    refine ⟨a + (flat (d ++ [c])).length + 1, k, n + 1, fun s m' k' hr hcs hm hk => ?_⟩
    obtain ⟨s', e1, e, e2, e3, e4, e5, _⟩ := step_next (ht.limits m' k') hr hcs h1 h2
      (show _ < m' by omega) x h3 (fun l hl => absurd hl (h4 l))
    obtain ⟨f1, f2, f3⟩ := e5 h4
    simp only [loop, e1]
    exact hi s' m' k' f3 (by rw [f1, e3]) (by rw [f1]; omega) (by rw [f2]; omega)
  | @link d c cs p l h1 h2 h3 _ ih =>
    obtain ⟨a, k, n, hi⟩ := ih
    refine ⟨a + l.length + (flat (d ++ [c])).length + 1, k + 1, n + 1,
      fun s m' k' hr hcs hm hk => ?_⟩
    obtain ⟨s', e1, e, e2, e3, e4, _, e5⟩ := step_next (ht.limits m' k') hr hcs h1 h2
      (show _ < m' by omega) (.link l) h3 (fun l' hl => by
        cases hl
        exact ⟨show _ ≤ k' by omega, show _ < m' by omega⟩)
    obtain ⟨f1, f2, f3⟩ := e5 l rfl
    simp only [loop, e1]
    refine hi s' m' k' f3 (by rw [f1, comps_sep l e2, e3]) ?_ (by rw [f2]; omega)
    rw [f1, List.length_append]
    omega

/-- **C92** A name along which the system comes to a file has the name of that place as its
canonical name, if the limits on the lengths of names and on links are large enough. -/
theorem C92_resolved_names_partial (w : World) (ht : w.Tree) (hc : Canonical w w.cwd) (name : Text)
    (p : List Name) (hp : p ≠ []) (h : Resolves w (origin w name) (comps name) p) :
    ∃ m k n, ∀ m' k' n', m ≤ m' → k ≤ k' → n ≤ n' →
      canonical (w.limits m' k') n' name = .ok (show_ p) := by
  obtain ⟨a, k, n, hi⟩ := loop_complete ht h
  have hl := Nat.lt_succ_self (show_ w.cwd).length
  have hm : ∀ m', (show_ w.cwd).length < m' → Reps (start w name).text (origin w name) ∧
      (start w name).rest = name := fun m' hm' => by
    have := start_reps (w := w.limits m' 0) (name := name) (ht.limits _ _) hc hm'
    exact ⟨this.1, this.2.2.2⟩
  obtain ⟨hr, hs⟩ := hm _ hl
  refine ⟨a + name.length + (show_ w.cwd).length + 1, k, n, fun m' k' n' hm' hk hn => ?_⟩
  have h1 := hi (start w name) m' k' hr (by rw [hs]) (by rw [hs]; omega) (by
    have : (start w name).links = 0 := by
      unfold start
      split <;> rfl
    omega)
  have h2 := loop_mono h1 hn
  have h3 : realpath (w.limits m' k') n' name = .ok (show_ p) := h2
  have hcp : Canonical w p := by
    have hst := start_reps (w := w.limits m' k') (name := name) (ht.limits _ _) hc
      (show (show_ w.cwd).length < m' by omega)
    obtain ⟨q, q1, q2, q3, _⟩ := loop_sound (ht.limits m' k') n _ _ _ hst.1 hst.2.1 hst.2.2.1 h1
    have hL : Loosely (w.limits m' k') (origin w name) (comps name) p := by
      exact (h.limits m' k').loosely
    rw [hst.2.2.2] at q2
    have := Loosely.unique q2 hL
    subst this
    exact q3
  simp only [canonical, h3]
  rw [strip_show hcp hp]

/-- The name of a place without links is walked along as it is. -/
theorem loop_canonical {w : World} (ht : w.Tree) (r : List Name) :
    ∀ (s : St) (d : List Name), Reps s.text d → comps s.rest = r → Canonical w (d ++ r) →
      (flat (d ++ r)).length < w.pathMax → loop w (r.length + 1) s = .ok (show_ (d ++ r)) := by
  induction r with
  | nil =>
    intro s d hr hcs _ _
    rw [List.append_nil]
    simp [loop, step_done hr hcs]
  | cons c r ih =>
    intro s d hr hcs hc hl
    have hpl := hc.1 c (by simp)
    obtain ⟨x, hx, hxl⟩ := hc.2 (d ++ [c]) ⟨r, by simp⟩
    have hlen : (flat (d ++ [c])).length ≤ (flat (d ++ c :: r)).length := by
      simp [flat]
    obtain ⟨s', e1, e, e2, e3, e4, e5, _⟩ := step_next ht hr hcs hpl.2.2.1 hpl.2.2.2 (by omega) x hx
      (fun l hl => absurd hl (hxl l))
    obtain ⟨f1, f2, f3⟩ := e5 hxl
    rw [List.length_cons, loop]
    simp only [e1]
    have := ih s' (d ++ [c]) f3 (by rw [f1, e3]) (by simpa using hc) (by simpa using hl)
    simpa using this

/-- **C92** A canonical name is its own canonical name, in every directory. -/
theorem C92_canonical_again_partial (w : World) (ht : w.Tree) (hc : Canonical w w.cwd)
    (hl : (show_ w.cwd).length < w.pathMax) (n : Nat) (name t : Text)
    (h : realpath w n name = .ok t) (hroot : t ≠ ['/']) (cwd : List Name) :
    canonical w n name = .ok t ∧ ∃ m, canonical { w with cwd := cwd } m t = .ok t := by
  obtain ⟨a, b, c, d⟩ := start_reps (name := name) ht hc hl
  obtain ⟨p, e1, e2, e3, e4⟩ := loop_sound ht n _ _ _ a b c h
  have hp : p ≠ [] := fun hp => hroot (by rw [e1, hp]; rfl)
  have hs : show_ p = flat p := by simp [show_, hp, flat]
  have hstrip := strip_show e3 hp
  refine ⟨by simp only [canonical, h]; rw [e1, hstrip], p.length + 1, ?_⟩
  have hhead : t.head? = some '/' := by
    obtain ⟨x, l, hx⟩ := List.exists_cons_of_ne_nil hp
    rw [e1, hs, hx]
    simp [flat]
  have hst : start { w with cwd := cwd } t = ⟨['/'], [], t, 0⟩ := by
    unfold start
    rw [if_pos hhead]
  have ht' : World.Tree { w with cwd := cwd } := ht
  have e3' : Canonical { w with cwd := cwd } p := e3
  have hlen : (flat p).length < w.pathMax := by rw [← hs, ← e1]; exact e4
  have := loop_canonical ht' p ⟨['/'], [], t, 0⟩ [] ⟨fun n hn => by simp at hn, .inr rfl⟩
    (by show comps t = p; rw [e1, hs, comps_flat e3.good]) e3' hlen
  simp only [canonical, realpath, hst, this]
  rw [List.nil_append, hstrip, e1]

/-! Cases. -/

/-- A directory `/d` with a file `f` and links `l` and `up`; a link `/a` that leads to itself through
`/d`. -/
def disk : World where
  node p :=
    if p = [] then some .dir
    else if p = [['d']] then some .dir
    else if p = [['d'], ['f']] then some .file
    else if p = [['d'], ['l']] then some (.link ['u', 'p', '/', 'd', '/', 'f'])
    else if p = [['d'], ['u', 'p']] then some (.link ['.', '.'])
    else if p = [['a']] then some (.link ['d', '/', '.', '.', '/', 'a'])
    else none
  cwd := [['d']]
  pathMax := 20
  maxLinks := 8

theorem disk_tree : disk.Tree := by
  refine ⟨rfl, fun p n h => ?_, fun p h => ?_⟩
  · simp only [disk] at h ⊢
    rcases p with _ | ⟨x, _ | ⟨y, p⟩⟩
    · simp
    · by_cases hx : x = ['d']
      · simp [hx]
      · simp [hx] at h
    · simp at h
  · simp only [disk] at h
    split at h <;> try (cases h; done)
    split at h <;> try (cases h; done)
    split at h <;> try (cases h; done)
    split at h <;> try (cases h; done)
    split at h <;> try (cases h; done)
    split at h <;> cases h

theorem disk_cwd : Canonical disk disk.cwd ∧ (show_ disk.cwd).length < disk.pathMax := by
  refine ⟨⟨fun n hn => ?_, fun q hq => ?_⟩, by decide⟩
  · simp only [disk, List.mem_singleton] at hn
    subst hn
    exact ⟨by decide, by decide, by decide, by decide⟩
  · rcases List.prefix_concat_iff.1 (show q <+: [] ++ [['d']] from hq) with hq | hq
    · subst hq
      exact ⟨.dir, rfl, fun l => nofun⟩
    · rw [List.prefix_nil.1 hq]
      exact ⟨.dir, rfl, fun l => nofun⟩

/-- The name `l//./` leads through two links to `/d/f`, and that is its canonical name. -/
example : canonical disk 20 ['l', '/', '/', '.', '/'] = .ok ['/', 'd', '/', 'f'] := by
  decide +kernel

example : Resolves disk (origin disk ['l']) (comps ['l']) [['d'], ['f']] := by
  refine .link (l := ['u', 'p', '/', 'd', '/', 'f']) (by decide) (by decide) rfl ?_
  refine .link (l := ['.', '.']) (n := ['u', 'p']) (by decide) (by decide) rfl ?_
  refine .up rfl ?_
  refine .name (x := .dir) (by decide) (by decide) rfl (fun l => nofun) ?_
  exact .name (x := .file) (by decide) (by decide) rfl (fun l => nofun) .done

/-- A name that does not exist is returned as it is. -/
example : canonical disk 20 ['x', '/'] = .ok ['x'] := by decide +kernel

/-- **C92 (violated)** The canonical name of the root is empty. -/
theorem C92_root_violated : Resolves disk (origin disk ['/']) (comps ['/']) [] ∧
    canonical disk 20 ['/'] = .ok [] := ⟨.done, by decide +kernel⟩

/-- The states between which `realpath` goes on. -/
def turn1 : St := ⟨['/'], [2], ['d', '/', '.', '.', '/', 'a'], 1⟩
def turn2 : St := ⟨['/', 'd'], [2], ['/', '.', '.', '/', 'a'], 0⟩
def turn3 : St := ⟨['/'], [2], ['/', 'a'], 0⟩

theorem turning (n : Nat) : (∃ s, loop disk n turn1 = .more s) ∧ (∃ s, loop disk n turn2 = .more s) ∧
    ∃ s, loop disk n turn3 = .more s := by
  induction n with
  | zero => exact ⟨⟨_, rfl⟩, ⟨_, rfl⟩, ⟨_, rfl⟩⟩
  | succ n ih =>
    obtain ⟨h1, h2, h3⟩ := ih
    have e1 : step disk turn1 = .more turn2 := by decide +kernel
    have e2 : step disk turn2 = .more turn3 := by decide +kernel
    have e3 : step disk turn3 = .more turn1 := by decide +kernel
    simp only [loop, e1, e2, e3]
    exact ⟨h2, h3, h1⟩

/-- **C92 (violated)** A link that leads to itself through a directory: the count of links starts
again at each component that is not a link (realpath.c:201), and the loop does not end. -/
theorem C92_endless_violated (n : Nat) : ∃ s, canonical disk n ['/', 'a'] = .more s := by
  cases n with
  | zero => exact ⟨_, rfl⟩
  | succ n =>
    have e : step disk (start disk ['/', 'a']) = .more turn1 := by decide +kernel
    obtain ⟨s, h⟩ := (turning n).1
    exact ⟨s, by simp [canonical, realpath, loop, e, h]⟩

/-- A link to itself without a directory on the way is found out. -/
def selfLink : World :=
  ⟨fun p => if p = [] then some .dir else if p = [['a']] then some (.link ['a']) else none, [], 20, 8⟩

example : canonical selfLink 20 ['/', 'a'] = .ok ['/', 'a'] := by decide +kernel

/-- **C92 (violated)** The parent of a file, which the system does not accept, has a canonical name. -/
theorem C92_file_as_directory_violated :
    canonical disk 20 ['f', '/', '.', '.', '/', 'f'] = .ok ['/', 'd', '/', 'f'] ∧
      ∀ p, ¬ Resolves disk (origin disk ['f', '/', '.', '.', '/', 'f'])
        (comps ['f', '/', '.', '.', '/', 'f']) p := by
  refine ⟨by decide +kernel, fun p h => ?_⟩
  have e1 : origin disk ['f', '/', '.', '.', '/', 'f'] = [['d']] := by decide
  have e2 : comps ['f', '/', '.', '.', '/', 'f'] = [['f'], ['.', '.'], ['f']] := by decide
  rw [e1, e2] at h
  cases h with
  | name _ _ _ _ h =>
    cases h with
    | up h => exact absurd h (by decide)
    | name _ h => exact absurd rfl h
    | link _ h => exact absurd rfl h
  | link _ _ h => simp [disk] at h

/-- **C92 (violated)** A first component that is too long: the part of the name that is copied back
(realpath.c:212) has no end. -/
theorem C92_long_name_violated (w : World) (name : Name) (h : Plain name)
    (hl : w.pathMax ≤ name.length + 1) : canonical w 1 ('/' :: name) = .overrun := by
  have h1 : name.dropWhile (fun x => decide (x = '/')) = name := by
    cases hn : name with
    | nil => rfl
    | cons c l =>
      have : c ≠ '/' := fun hc => h.2.1 (by rw [hn, hc]; simp)
      simp [this]
  have h2 : name.takeWhile (fun x => decide (x ≠ '/')) = name := by
    have : ∀ l : Text, '/' ∉ l → l.takeWhile (fun x => decide (x ≠ '/')) = l := by
      intro l
      induction l with
      | nil => simp
      | cons c l ih =>
        intro hl
        simp only [List.mem_cons, not_or] at hl
        simpa [Ne.symm hl.1] using ih hl.2
    exact this name h.2.1
  have h3 : ('/' :: name).dropWhile (fun x => decide (x = '/')) = name := by simpa using h1
  simp only [canonical, realpath, start, loop, List.head?_cons, if_true, step]
  rw [h3, h2, if_neg h.1, if_neg h.2.2.1, if_neg h.2.2.2]
  simp only [List.getLast?_singleton]
  simp
  rw [if_pos (by omega)]

end Rep.Canon
