import Verif.Regex.Props

/-
C53: `quote-regexp`.
-/

namespace Rep.Regex

open Spec

/-- The characters that are quoted, find.c:470-481: `*+?.[]()|^$\` -/
def special (c : Nat) : Bool :=
  c == 42 || c == 43 || c == 63 || c == 46 || c == 91 || c == 93 || c == 40 || c == 41 || c == 124 || c == 94 ||
    c == 36 || c == 92

/-- `Fquote_regexp`, find.c:433-500.  A string without special characters is returned itself; as
a list of bytes that is the same.  The buffer, which grows as it is needed, is not modelled. -/
def quote : List Nat → List Nat
  | [] => []
  | c :: s => if special c then 92 :: c :: quote s else c :: quote s

/-- The string `s` is in `str` at `i`, up to the case of letters if `nocase`. -/
def Spec.isAt (nocase : Bool) (s str : List Nat) (i : Nat) : Prop :=
  i + s.length ≤ str.length ∧ ∀ k, k < s.length →
    if nocase then up (s.getD k 0) = up (str.getD (i + k) 0) else s.getD k 0 = str.getD (i + k) 0

/-- A sequence of literal strings. -/
inductive Spells : Re → List Nat → Prop
  | nil : Spells .eps []
  | cons {l b s} : l ≠ [] → Spells b s → Spells (.seq (.one (.lit l)) b) (l ++ s)

/-! ### Parsing -/

theorem meta_special {c : Nat} (h : special c = false) : isMeta c = false := by
  unfold special at h
  unfold isMeta
  simp only [Bool.or_eq_false_iff] at h ⊢
  simp_all

theorem quote_head (s : List Nat) : ((quote s).head?.bind mult?) = none := by
  cases s with
  | nil => rfl
  | cons c s =>
    rw [quote]
    split
    · rfl
    · rename_i h
      simp only [List.head?_cons, Option.bind_some]
      have := meta_special (by simpa using h)
      cases hm : mult? c with
      | none => rfl
      | some m => rw [mult_meta hm] at this; cases this

theorem quote_split (s : List Nat) : ∃ a b, s = a ++ b ∧ quote s = a ++ quote b ∧
    (quote s).takeWhile (fun c => !isMeta c) = a ∧ (∀ c t, s = c :: t → special c = false → a ≠ []) := by
  induction s with
  | nil => exact ⟨[], [], rfl, rfl, rfl, fun _ _ h => nomatch h⟩
  | cons c s ih =>
    cases hc : special c with
    | true =>
      refine ⟨[], c :: s, rfl, rfl, ?_, ?_⟩
      · rw [quote, if_pos hc]
        rfl
      · intro c' t e h
        cases e
        rw [hc] at h
        cases h
    | false =>
      obtain ⟨a, b, h1, h2, h3, _⟩ := ih
      refine ⟨c :: a, b, by rw [h1]; rfl, ?_, ?_, fun _ _ _ _ => by simp⟩
      · rw [quote, if_neg (by simp [hc]), h2]
        rfl
      · rw [quote, if_neg (by simp [hc]), List.takeWhile_cons, if_pos (by simp [meta_special hc]), h3]

theorem escape_special {c : Nat} (h : special c = true) : escape c = .lit [c] := by
  unfold special at h
  simp only [Bool.or_eq_true, beq_iff_eq] at h
  unfold escape
  rw [if_neg (by omega), if_neg (by omega), if_neg (by omega), if_neg (by omega), if_neg (by omega), if_neg (by omega),
    if_neg (by omega), if_neg (by omega)]

theorem parsePiece_plain {f n : Nat} {s t : List Nat} {a : Re} (h : parseAtom f s n = .ok (a, t, n))
    (ht : t.head?.bind mult? = none) : parsePiece (f + 1) s n = .ok (a, t, n) := by
  rw [parsePiece, h]
  cases t with
  | nil => rfl
  | cons c t =>
    simp only [List.head?_cons, Option.bind_some] at ht
    simp only [ht]

theorem parse_quote_branch (n : Nat) (N : Nat) : ∀ s : List Nat, s.length ≤ N →
    ∃ b, Spells b s ∧ ∀ f, 3 * s.length + 3 ≤ f → parseBranch f (quote s) n = .ok (b, [], n) := by
  induction N with
  | zero =>
    intro s hs
    obtain rfl : s = [] := List.eq_nil_of_length_eq_zero (by omega)
    refine ⟨.eps, .nil, fun f hf => ?_⟩
    obtain ⟨f, rfl⟩ : ∃ k, f = k + 1 := ⟨f - 1, by omega⟩
    simp [parseBranch, quote, atEnd]
  | succ N ih =>
    intro s hs
    cases s with
    | nil =>
      refine ⟨.eps, .nil, fun f hf => ?_⟩
      obtain ⟨f, rfl⟩ : ∃ k, f = k + 1 := ⟨f - 1, by omega⟩
      simp [parseBranch, quote, atEnd]
    | cons c t =>
      simp only [List.length_cons] at hs
      cases hc : special c with
      | true =>
        obtain ⟨b, hb, hp⟩ := ih t (by omega)
        refine ⟨.seq (.one (.lit [c])) b, .cons (l := [c]) (by simp) hb, fun f hf => ?_⟩
        simp only [List.length_cons] at hf
        obtain ⟨f, rfl⟩ : ∃ k, f = k + 3 := ⟨f - 3, by omega⟩
        have ha : parseAtom (f + 1) (quote (c :: t)) n = .ok (.one (.lit [c]), quote t, n) := by
          rw [quote, if_pos hc, parseAtom]
          simp [escape_special hc]
        have hpc := parsePiece_plain ha (quote_head t)
        have he : atEnd (quote (c :: t)) = false := by
          rw [quote, if_pos hc]
          rfl
        rw [parseBranch, he, if_neg (by simp), hpc]
        simp only
        rw [hp (f + 2) (by omega)]
      | false =>
        obtain ⟨a, b, h1, h2, h3, h4⟩ := quote_split (c :: t)
        have hne := h4 c t rfl hc
        have hlen := congrArg List.length h1
        have hpos : 0 < a.length := List.length_pos_iff.2 hne
        simp only [List.length_cons, List.length_append] at hlen
        obtain ⟨r, hb, hp⟩ := ih b (by omega)
        refine ⟨.seq (.one (.lit a)) r, by rw [h1]; exact .cons hne hb, fun f hf => ?_⟩
        simp only [List.length_cons] at hf
        obtain ⟨f, rfl⟩ : ∃ k, f = k + 3 := ⟨f - 3, by omega⟩
        have hm := meta_special hc
        have hq : ∃ u, quote (c :: t) = c :: u := ⟨_, by rw [quote, if_neg (by simp [hc])]⟩
        obtain ⟨u, hu⟩ := hq
        have hll : litLen (quote (c :: t)) = a.length := by
          unfold litLen
          simp only [h3]
          rw [if_neg]
          rw [h2, List.drop_left, quote_head b]
          simp
        have ha : parseAtom (f + 1) (quote (c :: t)) n = .ok (.one (.lit a), quote b, n) := by
          have e1 : (quote (c :: t)).take (litLen (quote (c :: t))) = a := by rw [hll, h2, List.take_left]
          have e2 : (quote (c :: t)).drop (litLen (quote (c :: t))) = quote b := by rw [hll, h2, List.drop_left]
          have e3 : parseAtom (f + 1) (quote (c :: t)) n =
              .ok (.one (.lit ((quote (c :: t)).take (litLen (quote (c :: t))))),
                (quote (c :: t)).drop (litLen (quote (c :: t))), n) := by
            rw [hu, parseAtom.eq_def]
            simp only [isMeta, Bool.or_eq_false_iff, beq_eq_false_iff_ne, ne_eq] at hm
            simp only
            rw [if_neg hm.1.1.1.1.1.1.1.1.1.1, if_neg (by omega), if_neg (by omega), if_neg (by omega), if_neg (by omega),
              if_neg (by omega), if_neg (by omega), if_neg (by omega)]
          rw [e3, e1, e2]
        have hpc := parsePiece_plain ha (quote_head b)
        have he : atEnd (quote (c :: t)) = false := by
          rw [hu]
          simp only [isMeta, Bool.or_eq_false_iff, beq_eq_false_iff_ne, ne_eq] at hm
          simp only [atEnd, Bool.or_eq_false_iff, beq_eq_false_iff_ne, ne_eq]
          omega
        rw [parseBranch, he, if_neg (by simp), hpc]
        simp only
        rw [hp (f + 2) (by omega)]

theorem quote_len (s : List Nat) : s.length ≤ (quote s).length := by
  induction s with
  | nil => exact Nat.le_refl _
  | cons c s ih =>
    rw [quote]
    split <;> simp only [List.length_cons] <;> omega

theorem parse_quote (s : List Nat) : ∃ b, Spells b s ∧ parse (quote s) = .ok (.last b) := by
  obtain ⟨b, hb, h⟩ := parse_quote_branch 1 s.length s (Nat.le_refl _)
  refine ⟨b, hb, ?_⟩
  have := quote_len s
  unfold parse
  rw [show 4 * (quote s).length + 4 = 4 * (quote s).length + 3 + 1 from rfl, parseAlts, h _ (by omega)]

/-! ### Meaning -/

theorem hasAt_append {x : Ctx} {a b : List Nat} {i : Nat} : x.hasAt (a ++ b) i ↔ x.hasAt a i ∧ x.hasAt b (i + a.length) := by
  induction a generalizing i with
  | nil =>
    simp only [List.nil_append, List.length_nil, Nat.add_zero]
    constructor
    · intro h
      exact ⟨⟨by have := h.1; simp; omega, fun k hk => absurd hk (by simp)⟩, h⟩
    · exact fun h => h.2
  | cons c a ih =>
    simp only [List.cons_append, hasAt_cons, ih, List.length_cons]
    rw [show i + 1 + a.length = i + (a.length + 1) by omega]
    simp only [and_assoc]

theorem spells_matches {x : Ctx} {b : Re} {s : List Nat} (h : Spells b s) : ∀ {i j}, i ≤ x.text.length →
    (Matches x b i j ↔ j = i + s.length ∧ x.hasAt s i) := by
  induction h with
  | nil =>
    intro i j hi
    constructor
    · intro h
      cases h
      exact ⟨rfl, ⟨by simpa using hi, fun k hk => absurd hk (by simp)⟩⟩
    · rintro ⟨rfl, _⟩
      exact .eps
  | cons hne _ ih =>
    rename_i l b s _
    intro i j hi
    rw [hasAt_append, List.length_append]
    constructor
    · intro h
      cases h with
      | seq h1 h2 =>
        cases h1 with
        | one h1 =>
          obtain ⟨rfl, g1, g2⟩ := h1
          obtain ⟨rfl, k2⟩ := (ih g1).1 h2
          exact ⟨by omega, ⟨g1, g2⟩, k2⟩
    · rintro ⟨rfl, h1, h2⟩
      refine .seq (j := i + l.length) (.one ⟨rfl, h1.1, h1.2⟩) ((ih h1.1).2 ⟨by omega, h2⟩)

theorem spells_good {b : Re} {s : List Nat} {nc : Bool} (h : Spells b s) (hn : nc = true → ∀ c ∈ s, c < 128) :
    b.good nc = true := by
  induction h with
  | nil => rfl
  | cons _ _ ih =>
    rename_i l b s _ _
    simp only [Re.good, One.eatsNul, Bool.not_false, Bool.true_and, Bool.and_eq_true, Bool.or_eq_true, List.all_eq_true,
      decide_eq_true_eq]
    refine ⟨?_, ih fun h c hc => hn h c (List.mem_append_right _ hc)⟩
    cases nc with
    | false => exact .inl rfl
    | true => exact .inr fun c hc => hn rfl c (List.mem_append_left _ hc)

theorem spells_size {b : Re} {s : List Nat} (h : Spells b s) : ∀ f, size f b ≤ 3 + 5 * s.length := by
  induction h with
  | nil =>
    intro f
    simp only [size]
    split <;> omega
  | cons hne _ ih =>
    rename_i l b s _
    intro f
    have := ih false
    have hl : 0 < l.length := List.length_pos_iff.2 hne
    simp only [size, Opc.operand, List.length_append]
    omega

/-! ### No recursion -/

/-- The matcher does not go down from here. -/
def Level (m : Mem) (p : Nat) : Prop := ∀ x f d pos, run x m f d p pos ≠ .overflow

theorem level_fin {m : Mem} {p : Nat} (h : Op m p .fin) : Level m p := by
  obtain ⟨nd, h1, h2⟩ := h
  intro x f d pos
  cases f with
  | zero => simp [run]
  | succ f => simp [run, h1, h2]

theorem level_one {m : Mem} {p k : Nat} {o : One} (h : Op m p (.one o)) (hl : Link m p k) (hk : Level m k) : Level m p := by
  obtain ⟨nd, h1, h2⟩ := h
  intro x f d pos
  cases f with
  | zero => simp [run]
  | succ f =>
    simp only [run, h1, h2, hl.next h1]
    cases x.step o pos with
    | none => simp
    | some v =>
      cases v with
      | none => simp
      | some pos' => exact hk x f d pos'

theorem level_nothing {m : Mem} {p k : Nat} (h : Op m p .nothing) (hl : Link m p k) (hk : Level m k) : Level m p := by
  obtain ⟨nd, h1, h2⟩ := h
  intro x f d pos
  cases f with
  | zero => simp [run]
  | succ f =>
    simp only [run, h1, h2, hl.next h1]
    exact hk x f d pos

theorem level_spells {m : Mem} {b : Re} {s : List Nat} (h : Spells b s) : ∀ {p q l k}, Frag m b p q l → Link m l k →
    Level m k → Level m p := by
  induction h with
  | nil =>
    rintro p q l k ⟨h1, rfl, _⟩ hl hk
    exact level_nothing h1 hl hk
  | cons _ _ ih =>
    intro p q l k h hl hk
    unfold Frag at h
    split at h
    · obtain ⟨h1, rfl, _⟩ := h
      exact level_one h1 hl hk
    · obtain ⟨q1, l1, ⟨h1, rfl, _⟩, h2, h3⟩ := h
      exact level_one h1 h2 (ih h3 hl hk)

theorem level_program {m : Mem} {b : Re} {s : List Nat} {q : Nat} (h : Spells b s) (hF : AFrag m (.last b) 1 q)
    (hq : Op m q .fin) : Level m 1 := by
  obtain ⟨h1, l1, h2, h3, h4⟩ := hF
  have hl := level_spells h h3 h4 (level_fin hq)
  obtain ⟨nd, k1, k2⟩ := h1
  obtain ⟨nq, k3, k4⟩ := hq
  intro x f d pos
  cases f with
  | zero => simp [run]
  | succ f =>
    simp only [run, k1, k2, h2.next k1, k3, k4]
    exact hl x f d pos

/-- C53.  A pattern made by `quote-regexp` matches the original string and nothing else: the search
with it is a search for the string. -/
theorem C53_quote_regexp_partial {s str : List Nat} {start : Nat} {nocase : Bool}
    (hs : NoNul s) (hstr : NoNul str) (hstart : start ≤ str.length)
    (hcase : nocase = true → ∀ c ∈ s, c < 128) (hlen : 5 * s.length + 10 < 32767) :
    ∃ F, ∀ depth fuel, 0 < depth → F ≤ fuel →
      let o := stringMatch false (quote s) str start nocase depth fuel
      (o = .noMatch ∧ ∀ i, start ≤ i → ¬ isAt nocase s str i) ∨
      (∃ i st en, o = .found st en ∧ start ≤ i ∧ isAt nocase s str i ∧ (∀ i', start ≤ i' → i' < i → ¬ isAt nocase s str i') ∧
        st 0 = some i ∧ en 0 = some (i + s.length) ∧ ∀ k, k ≠ 0 → st k = none ∧ en k = none) := by
  obtain ⟨b, hb, hp⟩ := parse_quote s
  have hq : NoNul (quote s) := by
    clear hb hp hlen hcase
    induction s with
    | nil => intro c hc; cases hc
    | cons c s ih =>
      intro a ha
      rw [quote] at ha
      split at ha
      · rcases List.mem_cons.1 ha with rfl | ha
        · decide
        · rcases List.mem_cons.1 ha with rfl | ha
          · exact hs a (List.mem_cons_self ..)
          · exact ih hs.tail a ha
      · rcases List.mem_cons.1 ha with rfl | ha
        · exact hs a (List.mem_cons_self ..)
        · exact ih hs.tail a ha
  have hg : (Re.last b).good nocase = true := by rw [Re.good]; exact spells_good hb hcase
  have hsz : 1 + size false (.last b) + 3 < 32767 := by
    have := spells_size hb true
    simp only [size]
    omega
  obtain ⟨_, F, D, h⟩ := C52_string_match_partial hq hstr hstart hp hg hsz
  have view_at : ∀ i, isAt nocase s str (start + i) ↔ (view str start nocase).hasAt s i := by
    intro i
    have e : ∀ k, (str.drop start).getD k 0 = str.getD (start + k) 0 := by
      intro k
      simp [List.getD_eq_getElem?_getD]
    simp only [isAt, Ctx.hasAt, view, List.length_drop, Ctx.same, e]
    constructor
    · rintro ⟨h1, h2⟩
      refine ⟨by omega, fun k hk => ?_⟩
      have := h2 k hk
      rw [Nat.add_assoc] at this
      cases nocase <;> simpa using this
    · rintro ⟨h1, h2⟩
      refine ⟨by omega, fun k hk => ?_⟩
      have := h2 k hk
      rw [Nat.add_assoc]
      cases nocase <;> simpa using this
  have mat : ∀ i j, i ≤ (view str start nocase).text.length →
      (Matches (view str start nocase) (.last b) i j ↔ j = i + s.length ∧ isAt nocase s str (start + i)) := by
    intro i j hi
    rw [view_at, ← spells_matches hb hi]
    constructor
    · intro h; cases h; assumption
    · exact .last
  have vlen : (view str start nocase).text.length = str.length - start := by simp [view]
  have noev : ∀ (x : Ctx) {b : Re} {s : List Nat}, Spells b s → ∀ i w, w ∈ ways x b i → w.2 = [] := by
    intro x b s hb
    induction hb with
    | nil =>
      intro i w hw
      simp only [ways, List.mem_singleton] at hw
      rw [hw]
    | cons _ _ ih =>
      intro i w hw
      simp only [ways, andThen, List.mem_flatMap, List.mem_map] at hw
      obtain ⟨u, hu, v, hv, rfl⟩ := hw
      rw [ih _ _ hv]
      split at hu
      · cases hu
      · rw [List.mem_singleton] at hu
        rw [hu]
        rfl
  refine ⟨F, fun depth fuel hd hf => ?_⟩
  rcases h depth fuel hf with ⟨e, _⟩ | ⟨e, hn⟩ | ⟨i, w, e, hi, hm, hh, hl⟩
  · exfalso
    have hw := parse_wf hq hp
    obtain ⟨g, q, hc, hF, hqf, _⟩ := compile_ok hp hw hg hsz
    have lev := level_program hb hF hqf
    have try_ok : ∀ x pos, 0 < x.depth → regtry x g.mem fuel pos ≠ .overflow := by
      intro x pos hx
      unfold regtry
      rw [if_neg (by omega)]
      have := lev x fuel 0 pos
      split
      · simp
      · exact this
    have first_ok : ∀ x L, 0 < x.depth → firstTry (regtry x g.mem fuel) L ≠ .overflow := by
      intro x L hx
      induction L with
      | nil => simp [firstTry]
      | cons p L ih =>
        rw [firstTry]
        split
        · exact ih
        · exact try_ok x p hx
    have : regexec ((view str start nocase).at depth) g fuel ≠ .overflow := by
      unfold regexec
      split
      · split
        · exact try_ok _ _ hd
        · exact first_ok _ _ hd
      · simp
    unfold stringMatch at e
    rw [cstr_of hq, hc] at e
    simp only at e
    rw [if_neg (by omega)] at e
    simp only [Int.toNat_natCast, Bool.false_eq_true, if_false, ctx_of hstr] at e
    generalize regexec ((view str start nocase).at depth) g fuel = R at e this
    cases R with
    | overflow => exact this rfl
    | fail | ok | corrupt | wild | fuel => simp [Res.outcome] at e
  · refine .inl ⟨e, fun i hi hat => ?_⟩
    have h1 : i ≤ str.length := by have := hat.1; omega
    refine hn (i - start) (i - start + s.length) (by omega) ((mat _ _ (by omega)).2 ⟨rfl, ?_⟩)
    rw [show start + (i - start) = i by omega]
    exact hat
  · right
    obtain ⟨hj, hat⟩ := (mat i w.1 hi).1 hm
    have hev : w.2 = [] := noev _ (b := b) hb i w (by simpa [ways] using List.mem_of_mem_head? hh)
    refine ⟨start + i, _, _, e, by omega, hat, ?_, ?_, ?_, ?_⟩
    · intro i' h1 h2 hat'
      refine hl (i' - start) (i' - start + s.length) (by omega) ((mat _ _ (by omega)).2 ⟨rfl, ?_⟩)
      rw [show start + (i' - start) = i' by omega]
      exact hat'
    · simp [groups]
    · simp [groups, hj]
      omega
    · intro k hk
      simp [groups, hk, hev, caps, Caps.empty]

/-- The hypotheses hold for ordinary strings. -/
example : NoNul (codes "a+(b)") ∧ quote (codes "a+(b)") = codes "a\\+\\(b\\)" ∧
    isAt false (codes "a+(b)") (codes "xa+(b)") 1 ∧ isAt true (codes "a+(b)") (codes "xA+(B)") 1 ∧
    ¬ isAt false (codes "a+(b)") (codes "xaab") 1 := by
  refine ⟨?_, by decide, ⟨by decide, by decide⟩, ⟨by decide, by decide⟩, fun h => absurd h.1 (by decide)⟩
  intro c; revert c; decide

/-- A quoted string that contains NUL matches less than itself.  (The hypothesis on the bytes from
128 up in C53 is a limit of the proof.) -/
theorem C53_nul_violated : ∃ s str : List Nat, (∀ i, ¬ isAt false s str i) ∧
    ∃ st en, stringMatch false (quote s) str 0 false 2048 1000 = .found st en := by
  refine ⟨[97, 0, 98], [97], fun i h => absurd h.1 (by simp), ?_⟩
  have h : ((stringMatch false (quote [97, 0, 98]) [97] 0 false 2048 1000).show).isSome = true := by decide +kernel
  generalize stringMatch false (quote [97, 0, 98]) [97] 0 false 2048 1000 = o at h
  cases o with
  | found st en => exact ⟨st, en, rfl⟩
  | noMatch | error | overflow | corrupt | wild | fuel => cases h

end Rep.Regex
