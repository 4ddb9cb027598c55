import Verif.Stream.FormatLemmas

/-
C67: `format`.
-/

namespace Rep.Stream

open Spec (Flag Dir Piece decimal)

/-- Printing a string without quotes prints its characters (rep_string_princ, values.c:215). -/
def Env.Plain {V : Type} (e : Env V) : Prop := ∀ v t, e.str v = some t → e.princ v = t

theorem leading_sign (fs : List Flag) : leadText (fs.foldl addFlag {}).leading = Spec.sign fs := by
  rw [fold_leading]
  split
  · rename_i h; rw [h]; rfl
  · rfl

theorem ofInt_toNat (b : Byte) : BitVec.ofInt 8 (b.toNat : Int) = b := by simp

theorem outs_lead (b : Byte) : outs (if b ≠ 0 then [Put.c b.toNat] else []) = leadText b := by
  unfold leadText
  split <;> simp [outs, Put.out]

theorem outs_s (t : List Byte) : outs [Put.s t t.length] = t := by simp [outs, Put.out]

theorem valid_s (t : List Byte) : (Put.s t t.length).Valid := ⟨by omega, Int.le_refl _⟩

theorem valid_lead (b : Byte) : ∀ q ∈ (if b ≠ 0 then [Put.c b.toNat] else []), q.Valid := by
  intro q hq
  split at hq
  · simp at hq; subst hq; trivial
  · simp at hq

theorem stringOut_spec (d : Dir) (ok : d.Ok) (t : List Byte) :
    outs (stringOut (d.flags.foldl addFlag {}) d.width t) = Spec.number d t ∧
      ∀ q ∈ stringOut (d.flags.foldl addFlag {}) d.width t, q.Valid := by
  generalize hF : d.flags.foldl addFlag {} = F
  have hl : leadText F.leading = Spec.sign d.flags := by rw [← hF]; exact leading_sign _
  have hleft : F.left = decide (Flag.minus ∈ d.flags) := by rw [← hF, fold_left]; simp
  have htr : F.truncate = decide (Flag.caret ∈ d.flags) := by rw [← hF, fold_truncate]; simp
  have hz : F.zeros = decide (Flag.zero ∈ d.flags) := by rw [← hF, fold_zeros]; simp
  unfold Spec.number stringOut
  simp only
  generalize hL : (if F.leading ≠ 0 ∧ t.head? = some 45 then (0 : Byte) else F.leading) = L
  have hbody : (if t.head? = some 45 then t else Spec.sign d.flags ++ t) = leadText L ++ t := by
    rw [← hL, ← hl]
    by_cases hm : t.head? = some 45
    · rw [if_pos hm]
      by_cases h0 : F.leading = 0
      · rw [if_neg (by simp [h0]), h0]
        rfl
      · rw [if_pos ⟨h0, hm⟩]
        rfl
    · rw [if_neg hm, if_neg (fun h => hm h.2)]
  rw [hbody]
  generalize hn : (if L ≠ 0 then (1 : Int) else 0) = n
  have hlen : ((leadText L).length : Int) = n := by
    rw [← hn]; unfold leadText; split <;> rfl
  have hact : (if L ≠ 0 then (t.length : Int) + 1 else t.length) = n + t.length := by
    rw [← hn]; split <;> omega
  rw [hact]
  unfold Spec.field
  rw [List.length_append]
  by_cases hc : d.width ≤ (leadText L).length + t.length
  · rw [if_pos hc, if_pos (by right; omega), outs_append, outs_lead]
    by_cases ht : Flag.caret ∈ d.flags
    · have hw := ok.caret ht
      have hF' : F.truncate = true := by rw [htr]; exact decide_eq_true ht
      simp only [hF', if_true]
      rw [if_pos ht]
      have hn1 : n ≤ 1 := by rw [← hn]; split <;> omega
      refine ⟨?_, ?_⟩
      · rw [List.take_append]
        congr 1
        · rw [List.take_of_length_le (by omega)]
        · simp only [outs, List.map_cons, List.map_nil, List.flatten_cons, List.flatten_nil, List.append_nil, Put.out]
          congr 1
          omega
      · intro q hq
        rcases List.mem_append.1 hq with hq | hq
        · exact valid_lead L q hq
        · simp at hq
          subst hq
          exact ⟨by omega, by omega⟩
    · have hF' : F.truncate = false := by rw [htr]; exact decide_eq_false ht
      simp only [hF']
      rw [if_neg ht]
      refine ⟨by rw [if_neg (by simp)]; rw [outs_s], ?_⟩
      intro q hq
      rcases List.mem_append.1 hq with hq | hq
      · exact valid_lead L q hq
      · simp at hq
        subst hq
        exact valid_s t
  · have hw := ok.width
    rw [if_neg hc, if_neg (by rw [not_or]; constructor <;> omega)]
    have hs : min ((d.width : Int) - (n + t.length)) 256 = ((d.width - ((leadText L).length + t.length) : Nat) : Int) := by omega
    simp only [hs, Int.toNat_natCast]
    generalize d.width - ((leadText L).length + t.length) = k
    have hpad : (if F.zeros = true then (48 : Byte) else 32) = if Flag.zero ∈ d.flags then 48 else 32 := by
      rw [hz]; simp
    rw [hpad]
    generalize (if Flag.zero ∈ d.flags then (48 : Byte) else 32) = z
    have hp : outs [Put.s (List.replicate k z) k] = List.replicate k z := by
      have := outs_s (List.replicate k z)
      rwa [List.length_replicate] at this
    have hv1 : ∀ q ∈ (if L ≠ 0 then [Put.c L.toNat] else []) ++ [Put.s t t.length], q.Valid := by
      intro q hq
      rcases List.mem_append.1 hq with hq | hq
      · exact valid_lead L q hq
      · simp at hq
        subst hq
        exact valid_s t
    have hv2 : ∀ q ∈ [Put.s (List.replicate k z) k], q.Valid := by
      intro q hq
      simp at hq
      subst hq
      exact ⟨by omega, by simp⟩
    by_cases hm : Flag.minus ∈ d.flags
    · have : F.left = true := by rw [hleft]; exact decide_eq_true hm
      rw [if_pos hm, if_pos this]
      refine ⟨by rw [outs_append, outs_append, outs_lead, outs_s, hp], ?_⟩
      intro q hq
      rcases List.mem_append.1 hq with hq | hq
      · exact hv1 q hq
      · exact hv2 q hq
    · have : F.left = false := by rw [hleft]; exact decide_eq_false hm
      rw [if_neg hm, this, if_neg (by simp)]
      refine ⟨by rw [outs_append, outs_append, outs_lead, outs_s, hp], ?_⟩
      intro q hq
      rcases List.mem_append.1 hq with hq | hq
      · exact hv2 q hq
      · exact hv1 q hq

/-- Without a sign. -/
theorem number_eq_field (d : Dir) (hs : Spec.sign d.flags = []) (t : List Byte) : Spec.number d t = Spec.field d t := by
  unfold Spec.number
  rw [hs]
  simp

theorem sign_nil {d : Dir} (ok : d.Ok) (h : d.conv ∉ ([99, 100, 120, 88, 111, 83, 37] : List Byte)) : Spec.sign d.flags = [] := by
  have h1 : Flag.plus ∉ d.flags := fun hx => h (ok.signs (Or.inl hx))
  have h2 : Flag.space ∉ d.flags := fun hx => h (ok.signs (Or.inr hx))
  unfold Spec.sign
  have : d.flags.filter (fun f => f == .plus || f == .space) = [] := by
    rw [List.filter_eq_nil_iff]
    intro f hf hx
    simp only [Bool.or_eq_true, beq_iff_eq] at hx
    rcases hx with rfl | rfl
    · exact h1 hf
    · exact h2 hf
  rw [this]
  rfl

theorem field_plain {d : Dir} (ok : d.Ok) (hw : d.width = 0) (t : List Byte) : Spec.field d t = t := by
  unfold Spec.field
  rw [if_pos (by omega), if_neg]
  intro h
  have := ok.caret h
  omega

theorem unquoted_spec {V : Type} {e : Env V} (he : e.Plain) (d : Dir) (ok : d.Ok) (hs : Spec.sign d.flags = []) (v : V) :
    outs (unquoted e (d.flags.foldl addFlag {}) d.width v) = Spec.string e d v ∧
      ∀ q ∈ unquoted e (d.flags.foldl addFlag {}) d.width v, q.Valid := by
  unfold unquoted Spec.string
  cases h : e.str v with
  | none =>
    refine ⟨outs_s _, ?_⟩
    intro q hq
    simp at hq
    subst hq
    exact valid_s _
  | some t =>
    simp only
    split
    · rename_i hc
      rw [he v t h, field_plain ok (by omega)]
      refine ⟨outs_s _, ?_⟩
      intro q hq
      simp at hq
      subst hq
      exact valid_s _
    · obtain ⟨a, b⟩ := stringOut_spec d ok t
      exact ⟨a.trans (number_eq_field d hs t), b⟩

theorem convert_spec {V : Type} {e : Env V} (he : e.Plain) (d : Dir) (ok : d.Ok) (v : V) (h37 : d.conv ≠ 37) :
    match Spec.value e d v with
    | none => convert e (d.flags.foldl addFlag {}) d.width d.precision d.conv v = none
    | some t => ∃ ps, convert e (d.flags.foldl addFlag {}) d.width d.precision d.conv v = some ps ∧ outs ps = t ∧ ∀ q ∈ ps, q.Valid := by
  unfold Spec.value convert
  by_cases h99 : d.conv = 99
  · simp only [if_pos h99]
    exact ⟨_, rfl, by simp [outs, Put.out], by simp [Put.Valid]⟩
  simp only [if_neg h99]
  by_cases h120 : d.conv = 120 ∨ d.conv = 88
  · have h100 : d.conv ≠ 100 := by rcases h120 with h | h <;> rw [h] <;> decide
    simp only [if_pos h120, if_neg h100]
    obtain ⟨a, b⟩ := stringOut_spec d ok (e.number v 16 d.precision)
    exact ⟨_, rfl, a, b⟩
  simp only [if_neg h120]
  by_cases h111 : d.conv = 111
  · have h100 : d.conv ≠ 100 := by rw [h111]; decide
    simp only [if_pos h111, if_neg h100]
    obtain ⟨a, b⟩ := stringOut_spec d ok (e.number v 8 d.precision)
    exact ⟨_, rfl, a, b⟩
  simp only [if_neg h111]
  by_cases h100 : d.conv = 100
  · simp only [if_pos h100]
    obtain ⟨a, b⟩ := stringOut_spec d ok (e.number v 10 d.precision)
    exact ⟨_, rfl, a, b⟩
  simp only [if_neg h100]
  by_cases h83 : d.conv = 83
  · have h115 : d.conv ≠ 115 := by rw [h83]; decide
    simp only [if_pos h83, if_neg h115]
    refine ⟨_, rfl, outs_s _, ?_⟩
    intro q hq
    simp at hq
    subst hq
    exact valid_s _
  have hs : Spec.sign d.flags = [] := by
    apply sign_nil ok
    simp only [List.mem_cons, List.not_mem_nil, or_false, not_or]
    exact ⟨h99, h100, fun h => h120 (Or.inl h), fun h => h120 (Or.inr h), h111, h83, h37⟩
  by_cases h115 : d.conv = 115
  · simp only [if_pos h115]
    obtain ⟨a, b⟩ := unquoted_spec he d ok hs v
    exact ⟨_, rfl, a, b⟩
  simp only [if_neg h115, if_neg h83]
  cases hh : e.hook d.conv with
  | none => rfl
  | some g =>
    simp only
    cases hg : g v with
    | none => rfl
    | some w =>
      cases w with
      | none =>
        simp only
        split
        · rename_i hc
          rw [field_plain ok (by omega)]
          exact ⟨_, rfl, rfl, by simp [Put.Valid]⟩
        · obtain ⟨a, b⟩ := stringOut_spec d ok []
          exact ⟨_, rfl, a.trans (number_eq_field d hs []), b⟩
      | some w =>
        simp only
        obtain ⟨a, b⟩ := unquoted_spec he d ok hs w
        exact ⟨_, rfl, a, b⟩

theorem outs_flush (lit : List Byte) : outs (flush lit) = lit ∧ ∀ q ∈ flush lit, q.Valid := by
  unfold flush
  split
  · rename_i h; subst h; exact ⟨rfl, by simp⟩
  · refine ⟨outs_s _, ?_⟩
    intro q hq
    simp at hq
    subst hq
    exact valid_s _

theorem formatLoop_text {V : Type} (e : Env V) (args : List V) (bs : List Byte) (hb : ∀ b ∈ bs, b ≠ 37 ∧ b ≠ 0) (fuel : Nat) (arg : Int)
    (lit m : List Byte) (out : List Put) :
    formatLoop e args (bs.length + fuel) arg lit (bs ++ m) out = formatLoop e args fuel arg (lit ++ bs) m out := by
  induction bs generalizing lit with
  | nil => simp
  | cons b bs ih =>
    obtain ⟨h1, h2⟩ := hb b (by simp)
    rw [List.length_cons, show bs.length + 1 + fuel = bs.length + fuel + 1 by omega, List.cons_append]
    simp only [formatLoop]
    rw [if_neg h2, if_neg h1, ih fun x hx => hb x (by simp [hx])]
    simp

theorem formatLoop_spec {V : Type} {e : Env V} (he : e.Plain) (args : List V) (ps : List Piece) (ok : ∀ q ∈ ps, q.Ok) (fuel : Nat) (arg : Nat)
    (harg : arg + ps.length < 2000000000) (hps : ps.length < 1000000000)
    (hf : (Spec.render ps).length < fuel) (lit : List Byte) (out : List Put) (hv : ∀ q ∈ out, q.Valid) :
    ∃ qs x, formatLoop e args fuel arg lit (Spec.render ps ++ [0]) out = some (qs, x) ∧
      outs qs = outs out ++ lit ++ (Spec.output e args arg ps).1 ∧ x = (Spec.output e args arg ps).2 ∧ ∀ q ∈ qs, q.Valid := by
  induction ps generalizing fuel arg lit out with
  | nil =>
    obtain ⟨fuel, rfl⟩ : ∃ f, fuel = f + 1 := ⟨fuel - 1, by simp [Spec.render] at hf; omega⟩
    obtain ⟨a, b⟩ := outs_flush lit
    refine ⟨out ++ flush lit, .done, by simp [Spec.render, formatLoop], by simp [outs_append, a, Spec.output], rfl, ?_⟩
    intro q hq
    rcases List.mem_append.1 hq with hq | hq
    · exact hv q hq
    · exact b q hq
  | cons p ps ih =>
    have okp := ok p (by simp)
    have ih := fun a b c d f g h => ih (fun q hq => ok q (by simp [hq])) a b c d f g h
    simp only [List.length_cons] at harg hps
    cases p with
    | text bs =>
      simp only [Spec.render, List.length_append, List.append_assoc] at hf ⊢
      obtain ⟨fuel, rfl⟩ : ∃ f, fuel = bs.length + f := ⟨fuel - bs.length, by omega⟩
      rw [formatLoop_text e args bs okp]
      obtain ⟨qs, x, a, b, c, d⟩ := ih fuel arg (by omega) (by omega) (by omega) (lit ++ bs) out hv
      exact ⟨qs, x, a, by rw [b]; simp [Spec.output], c, d⟩
    | dir d =>
      have okd : d.Ok := okp
      simp only [Spec.render, List.cons_append, List.length_cons, List.append_assoc, List.length_append] at hf ⊢
      obtain ⟨fuel, rfl⟩ : ∃ f, fuel = f + 1 := ⟨fuel - 1, by omega⟩
      simp only [formatLoop]
      rw [if_neg (by decide), if_pos trivial, parseDir_spec d okd arg]
      simp only
      obtain ⟨fa, fb⟩ := outs_flush lit
      have hbound : d.arg arg + 1 + ps.length < 2000000000 := by
        unfold Dir.arg
        cases hp : d.pos with
        | none => simp only; omega
        | some n =>
          have := (okd.pos n hp).2
          simp only
          omega
      have hlen : (Spec.render ps).length < fuel := by omega
      by_cases h37 : d.conv = 37
      · rw [if_pos h37]
        have hv' : ∀ q ∈ out ++ flush lit ++ [Put.c 37], q.Valid := by
          intro q hq
          simp only [List.mem_append, List.mem_singleton] at hq
          rcases hq with (hq | hq) | rfl
          · exact hv q hq
          · exact fb q hq
          · trivial
        obtain ⟨qs, x, a, b, c, dd⟩ := ih fuel (d.arg arg) (by omega) (by omega) hlen [] (out ++ flush lit ++ [.c 37]) hv'
        refine ⟨qs, x, a, ?_, ?_, dd⟩
        · rw [b]
          simp only [Spec.output]
          rw [if_pos h37, outs_append, outs_append, fa]
          simp [outs, Put.out]
        · rw [c]
          simp only [Spec.output]
          rw [if_pos h37]
      · rw [if_neg h37]
        simp only [Int.toNat_natCast]
        have hcv := convert_spec he d okd ((args[d.arg arg]?).getD e.nil) h37
        cases hval : Spec.value e d ((args[d.arg arg]?).getD e.nil) with
        | none =>
          rw [hval] at hcv
          simp only at hcv
          rw [hcv]
          refine ⟨out ++ flush lit, .error, rfl, ?_, ?_, ?_⟩
          · simp only [Spec.output]
            rw [if_neg h37, hval]
            simp [outs_append, fa]
          · simp only [Spec.output]
            rw [if_neg h37, hval]
          · intro q hq
            rcases List.mem_append.1 hq with hq | hq
            · exact hv q hq
            · exact fb q hq
        | some t =>
          rw [hval] at hcv
          simp only at hcv
          obtain ⟨cs, e1, e2, e3⟩ := hcv
          rw [e1]
          simp only
          rw [int_ok (by omega) (by omega)]
          simp only
          have hv' : ∀ q ∈ out ++ flush lit ++ cs, q.Valid := by
            intro q hq
            simp only [List.mem_append] at hq
            rcases hq with (hq | hq) | hq
            · exact hv q hq
            · exact fb q hq
            · exact e3 q hq
          obtain ⟨qs, x, a, b, c, dd⟩ := ih fuel (d.arg arg + 1) (by omega) (by omega) hlen [] (out ++ flush lit ++ cs) hv'
          refine ⟨qs, x, a, ?_, ?_, dd⟩
          · rw [b]
            simp only [Spec.output]
            rw [if_neg h37, hval]
            simp [outs_append, fa, e2]
          · rw [c]
            simp only [Spec.output]
            rw [if_neg h37, hval]

/-- C67.  `(format nil FORMAT ARGS...)` returns a string of exactly what the pieces of the format stand for, or fails if a
conversion is unknown or its function fails; no other string is touched.
Missing (see `Spec.Dir.Ok`): widths over 256 (`C67_width_violated`), `^` without a width (`C67_cut_violated`), signs with
strings (`C67_sign_violated`), formats with a zero in them (`C67_zero_violated`), and results of a gigabyte. -/
theorem C67_format_partial {V : Type} (h : Heap) (e : Env V) (he : e.Plain) (args : List V) (ps : List Piece)
    (ok : ∀ q ∈ ps, q.Ok) (hp : ps.length < 1000000000) (hl : (Spec.output e args 0 ps).1.length ≤ 1073741822) :
    ∃ h' r, formatNil h e (Spec.render ps) args = some (h', r) ∧ (∀ k, k < h.length → h'[k]? = h[k]?) ∧
      match (Spec.output e args 0 ps).2 with
      | .error => r = none
      | .done => ∃ k st, r = some k ∧ h.length ≤ k ∧ h'[k]? = some st ∧ HasText st (Spec.output e args 0 ps).1 := by
  obtain ⟨st, e0, i⟩ := inv_fresh h
  obtain ⟨qs, x, a, b, c, d⟩ := formatLoop_spec he args ps ok ((Spec.render ps).length + 2) 0 (by omega) hp (by omega) [] [] (by simp)
  have hb : outs qs = (Spec.output e args 0 ps).1 := by rw [b]; simp [outs]
  obtain ⟨h1, s1, e1, i1, k1⟩ := play_spec i qs d (by rw [hb]; simpa using hl)
  rw [hb, List.nil_append] at i1
  have a' : format e (Spec.render ps) args = some (qs, x) := a
  simp only [formatNil, makeOutput, e0, Option.map_some, a', e1]
  have hold : ∀ k, k < h.length → h1[k]? = h[k]? := by
    intro k hk
    rw [(k1.2 k (by simp; omega) (by show k ≠ h.length; omega)).1, List.getElem?_append_left hk]
  cases hx : (Spec.output e args 0 ps).2 with
  | error =>
    rw [c, hx]
    exact ⟨h1, none, rfl, hold, rfl⟩
  | done =>
    rw [c, hx]
    simp only
    obtain ⟨st1, g, t, hm⟩ := i1.get
    rw [g]
    simp only
    have hs1 := (List.getElem?_eq_some_iff.1 g).1
    have hfresh : h.length ≤ s1.str := by
      by_contra hlt
      have := (k1.2 s1.str (by simp; omega) (by show s1.str ≠ h.length; omega)).2
      exact this rfl
    have hk1 := k1.1
    split
    · obtain ⟨st', e', t', _⟩ := dupn_ok h1 t.take
      rw [t.1, e']
      refine ⟨_, _, rfl, fun k hk => ?_, h1.length, st', rfl, by simp at hk1; omega, by simp, t'⟩
      rw [List.getElem?_append_left (by simp at hk1; omega)]
      exact hold k hk
    · exact ⟨h1, some s1.str, rfl, hold, s1.str, st1, rfl, hfresh, g, t⟩

/-- Values for examples: strings and natural numbers, printed in decimal. -/
def toy : Env (List Byte ⊕ Nat) where
  str := fun v => v.elim some fun _ => none
  princ := fun v => v.elim id decimal
  prin1 := fun v => v.elim (fun t => 34 :: t ++ [34]) decimal
  number := fun v _ _ => v.elim (fun _ => []) decimal
  code := fun v => v.elim (fun _ => 0) fun n => n
  hook := fun _ => none
  nil := .inl [110, 105, 108]

theorem toy_plain : toy.Plain := by
  intro v t h
  cases v with
  | inl b => simpa [toy] using h
  | inr n => simp [toy] at h

/-- `"a%-5s%%%2$+04d"` -/
def sample : List Piece :=
  [.text [97], .dir { flags := [.minus], width := 5, conv := 115 }, .dir { conv := 37 },
    .dir { pos := some 2, flags := [.plus, .zero], width := 4, conv := 100 }]

theorem decimal_small {n : Nat} (h0 : n ≠ 0) (h : n < 10) : decimal n = [BitVec.ofNat 8 (48 + n)] := by
  simp [decimal, Nat.digits_of_lt 10 n h0 h]

example : Spec.render sample = [97, 37, 45, 53, 115, 37, 37, 37, 50, 36, 43, 48, 52, 100] := by
  simp [sample, Spec.render, Dir.render, Dir.posText, Dir.precText, decimal_small, Flag.byte, show decimal 0 = [] by simp [decimal]]

/-- `(format nil "a%-5s%%%2$+04d" "xy" 7)` is `"axy   %00+7"`. -/
example : Spec.output toy [.inl [120, 121], .inr 7] 0 sample = ([97, 120, 121, 32, 32, 32, 37, 48, 48, 43, 55], .done) := by
  have h7 : decimal 7 = [55] := decimal_small (by decide) (by decide)
  simp only [sample, Spec.output, Spec.value, Spec.string, Spec.number, toy, Dir.arg]
  simp [h7, Spec.field, Spec.sign, Flag.byte]

example : ∀ q ∈ sample, q.Ok := by
  intro q hq
  simp only [sample, List.mem_cons, List.not_mem_nil, or_false] at hq
  rcases hq with rfl | rfl | rfl | rfl
  · intro b hb; simp at hb; subst hb; decide
  all_goals
    refine ⟨⟨by decide, by decide, by decide, by decide, fun f => by cases f <;> decide⟩, ?_, by decide, ?_, by decide, by decide⟩
    all_goals
      intro n hn
      simp at hn
    try omega

/-- A field is padded with 256 characters at most: `(format nil "%300s" "a")` has 257 characters. -/
theorem C67_width_violated :
    format toy [37, 51, 48, 48, 115] [.inl [97]] = some ([.s (List.replicate 256 32) 256, .s [97] 1], .done) ∧
      (Spec.field { width := 300, conv := 115 } [97]).length = 300 := by
  constructor
  · rfl
  · simp only [Spec.field]
    rw [if_neg (by decide), if_neg (by decide), if_neg (by decide)]
    rw [List.length_append, List.length_replicate]
    rfl

/-- Without a width `^` leaves nothing of the text; and with a sign it leaves all that comes before a zero. -/
theorem C67_cut_violated :
    format toy [37, 94, 115] [.inl [97, 98]] = some ([.s [97, 98] 0], .done) ∧
      format toy [37, 94, 43, 115] [.inl [97, 98, 0, 99]] = some ([.c 43, .s [97, 98, 0, 99] (-1)], .done) ∧
      putsLen [97, 98, 0, 99] (-1) false = 2 := by
  decide

/-- A sign is put before strings too. -/
theorem C67_sign_violated :
    format toy [37, 43, 115] [.inl [97]] = some ([.c 43, .s [97] 1], .done) ∧
      Spec.string toy { flags := [.plus], conv := 115 } (.inl [97]) = [97] := by
  decide

/-- A zero ends the format. -/
theorem C67_zero_violated : format toy [97, 0, 98] [] = some ([.s [97] 1], .done) := by decide

/-! ### Every format -/

/-- No run of ten digits. -/
def Short (m : List Byte) : Prop := ∀ s, s <:+ m → (s.takeWhile isDigit).length ≤ 9

theorem Short.suffix {m s : List Byte} (h : Short m) (hs : s <:+ m) : Short s := fun x hx => h x (hx.trans hs)

theorem scanDollar_total {m : List Byte} (h0 : (0 : Byte) ∈ m) :
    ∃ r, scanDollar m = some r ∧ ∀ s, r = some s → s <:+ m ∧ (0 : Byte) ∈ s := by
  induction m with
  | nil => simp at h0
  | cons b m ih =>
    simp only [scanDollar]
    by_cases hb : isDigit b = true
    · rw [if_pos hb]
      have : (0 : Byte) ∈ m := by
        rcases List.mem_cons.1 h0 with h | h
        · rw [← h] at hb; exact absurd hb (by decide)
        · exact h
      obtain ⟨r, e, hr⟩ := ih this
      exact ⟨r, e, fun s hs => ⟨(hr s hs).1.trans (List.suffix_cons _ _), (hr s hs).2⟩⟩
    · rw [if_neg hb]
      by_cases hd : b = 36
      · rw [if_pos hd]
        refine ⟨_, rfl, ?_⟩
        intro s hs
        cases hs
        refine ⟨List.suffix_cons _ _, ?_⟩
        rcases List.mem_cons.1 h0 with h | h
        · rw [← h] at hd; exact absurd hd (by decide)
        · exact h
      · rw [if_neg hd]
        exact ⟨none, rfl, by simp⟩

theorem isDigit_val {b : Byte} (h : isDigit b = true) : 48 ≤ b.toNat ∧ b.toNat ≤ 57 := by simpa [isDigit] using h

theorem atoi_total (m : List Byte) (k : Nat) (hk : k + (m.takeWhile isDigit).length ≤ 9) (v : Nat) (hv : v < 10 ^ k) :
    ∃ a : Nat, atoi v m = some (a : Int) ∧ a < 1000000000 := by
  induction m generalizing k v with
  | nil =>
    refine ⟨v, rfl, Nat.lt_of_lt_of_le hv ?_⟩
    exact Nat.le_trans (Nat.pow_le_pow_right (by decide) (by omega : k ≤ 9)) (by decide)
  | cons b m ih =>
    simp only [atoi]
    by_cases hb : isDigit b = true
    · obtain ⟨h1, h2⟩ := isDigit_val hb
      rw [List.takeWhile_cons_of_pos hb, List.length_cons] at hk
      have h9 : 10 ^ (k + 1) ≤ 1000000000 :=
        Nat.le_trans (Nat.pow_le_pow_right (by decide) (by omega : k + 1 ≤ 9)) (by decide)
      rw [Nat.pow_succ] at h9
      rw [if_pos hb, int_ok (by omega) (by omega)]
      simp only
      have := ih (k + 1) (by omega) (v * 10 + (b.toNat - 48)) (by rw [Nat.pow_succ]; omega)
      rw [show (v : Int) * 10 + ((b.toNat : Int) - 48) = ((v * 10 + (b.toNat - 48) : Nat) : Int) by omega]
      exact this
    · rw [if_neg hb]
      refine ⟨v, rfl, Nat.lt_of_lt_of_le hv ?_⟩
      exact Nat.le_trans (Nat.pow_le_pow_right (by decide) (by omega : k ≤ 9)) (by decide)

theorem scanNumber_total (m : List Byte) (h0 : (0 : Byte) ∈ m) (k : Nat) (hk : k + (m.takeWhile isDigit).length ≤ 9) (v : Nat)
    (hv : v < 10 ^ k) : ∃ (w : Int) (s : List Byte), scanNumber v m = some (w, s) ∧ s <:+ m ∧ (0 : Byte) ∈ s := by
  induction m generalizing k v with
  | nil => simp at h0
  | cons b m ih =>
    simp only [scanNumber]
    by_cases hb : isDigit b = true
    · obtain ⟨h1, h2⟩ := isDigit_val hb
      rw [List.takeWhile_cons_of_pos hb, List.length_cons] at hk
      have h9 : 10 ^ (k + 1) ≤ 1000000000 :=
        Nat.le_trans (Nat.pow_le_pow_right (by decide) (by omega : k + 1 ≤ 9)) (by decide)
      rw [Nat.pow_succ] at h9
      rw [if_pos hb, int_ok (by omega) (by omega)]
      simp only
      rw [int_ok (by omega) (by omega)]
      simp only
      have hm : (0 : Byte) ∈ m := by
        rcases List.mem_cons.1 h0 with h | h
        · rw [← h] at hb; exact absurd hb (by decide)
        · exact h
      obtain ⟨w, s, e, hs, hz⟩ := ih hm (k + 1) (by omega) (v * 10 + (b.toNat - 48)) (by rw [Nat.pow_succ]; omega)
      rw [show (v : Int) * 10 + ((b.toNat : Int) - 48) = ((v * 10 + (b.toNat - 48) : Nat) : Int) by omega]
      exact ⟨w, s, e, hs.trans (List.suffix_cons _ _), hz⟩
    · rw [if_neg hb]
      exact ⟨v, b :: m, rfl, List.suffix_refl _, h0⟩

theorem parseFlags_total (f : Flags) (m : List Byte) (h0 : (0 : Byte) ∈ m) :
    ∃ f' s, parseFlags f m = some (f', s) ∧ s <:+ m ∧ (0 : Byte) ∈ s := by
  induction m generalizing f with
  | nil => simp at h0
  | cons b m ih =>
    have go : b ≠ 0 → ∀ g, ∃ f' s, parseFlags g m = some (f', s) ∧ s <:+ b :: m ∧ (0 : Byte) ∈ s := by
      intro hb g
      obtain ⟨f', s, e, hs, hz⟩ := ih g (by
        rcases List.mem_cons.1 h0 with h | h
        · exact absurd h.symm hb
        · exact h)
      exact ⟨f', s, e, hs.trans (List.suffix_cons _ _), hz⟩
    simp only [parseFlags]
    split
    · rename_i h; exact go (by rw [h]; decide) _
    split
    · rename_i h; exact go (by rw [h]; decide) _
    split
    · rename_i h; exact go (by rw [h]; decide) _
    split
    · rename_i h; exact go (by rcases h with h | h <;> rw [h] <;> decide) _
    · exact ⟨f, b :: m, rfl, List.suffix_refl _, h0⟩

theorem parseDir_total (arg : Nat) {m : List Byte} (h0 : (0 : Byte) ∈ m) (hs : Short m) :
    ∃ (arg' : Nat) (f : Flags) (w p : Int) (c : Byte) (s : List Byte), parseDir arg m = some ((arg' : Int), f, w, p, c, s) ∧ c :: s <:+ m ∧
      (0 : Byte) ∈ c :: s ∧ (arg' = arg ∨ arg' < 1000000000) := by
  have hpos : ∃ (arg' : Nat) (s : List Byte), parsePos arg m = some ((arg' : Int), s) ∧ s <:+ m ∧ (0 : Byte) ∈ s ∧
      (arg' = arg ∨ arg' < 1000000000) := by
    unfold parsePos
    obtain ⟨r, e, hr⟩ := scanDollar_total h0
    rw [e]
    cases r with
    | none => exact ⟨arg, m, rfl, List.suffix_refl _, h0, Or.inl rfl⟩
    | some s =>
      obtain ⟨a, ea, ha⟩ := atoi_total m 0 (by have := hs m (List.suffix_refl _); omega) 0 (by decide)
      have ea' : atoi 0 m = some (a : Int) := ea
      simp only [ea']
      split
      · exact ⟨a - 1, s, by congr 2; omega, (hr s rfl).1, (hr s rfl).2, Or.inr (by omega)⟩
      · exact ⟨arg, m, rfl, List.suffix_refl _, h0, Or.inl rfl⟩
  obtain ⟨arg', s1, e1, p1, z1, b1⟩ := hpos
  obtain ⟨f, s2, e2, p2, z2⟩ := parseFlags_total {} s1 z1
  obtain ⟨w, s3, e3, p3, z3⟩ := scanNumber_total s2 z2 0 (by have := hs s2 (p2.trans p1); omega) 0 (by decide)
  have e3' : scanNumber 0 s2 = some (w, s3) := e3
  have hprec : ∃ (p : Int) (s : List Byte), parsePrec s3 = some (p, s) ∧ s <:+ s3 ∧ (0 : Byte) ∈ s := by
    cases s3 with
    | nil => simp at z3
    | cons b s3 =>
      simp only [parsePrec]
      split
      · rename_i hb
        have hz : (0 : Byte) ∈ s3 := by
          rcases List.mem_cons.1 z3 with h | h
          · rw [← h] at hb; exact absurd hb (by decide)
          · exact h
        have hsuf : s3 <:+ m := (List.suffix_cons b s3).trans (p3.trans (p2.trans p1))
        obtain ⟨p, s, e, ps, zs⟩ := scanNumber_total s3 hz 0 (by have := hs s3 hsuf; omega) 0 (by decide)
        exact ⟨p, s, e, ps.trans (List.suffix_cons _ _), zs⟩
      · exact ⟨-1, _, rfl, List.suffix_refl _, z3⟩
  obtain ⟨p, s4, e4, p4, z4⟩ := hprec
  cases s4 with
  | nil => simp at z4
  | cons c s =>
    refine ⟨arg', f, w, p, c, s, ?_, p4.trans (p3.trans (p2.trans p1)), z4, b1⟩
    unfold parseDir
    rw [e1]
    simp only [e2, e3', e4]

theorem formatLoop_total {V : Type} (e : Env V) (hk : e.hook 0 = none) (args : List V) (fuel : Nat) (m : List Byte) (hm : m.length < fuel)
    (h0 : (0 : Byte) ∈ m) (hs : Short m) (hl : m.length < 1000000000) (arg : Nat) (ha : arg + m.length < 2000000000)
    (lit : List Byte) (out : List Put) :
    ∃ qs x, formatLoop e args fuel arg lit m out = some (qs, x) := by
  induction fuel generalizing m arg lit out with
  | zero => omega
  | succ fuel ih =>
    cases m with
    | nil => simp at h0
    | cons c m =>
      rw [List.length_cons] at hm ha hl
      have next : ∀ {b : Byte} {s : List Byte}, b :: s <:+ c :: m → (0 : Byte) ∈ b :: s → b ≠ 0 → ∀ (k : Nat),
          k + s.length < 2000000000 → ∀ lit out, ∃ qs x, formatLoop e args fuel k lit s out = some (qs, x) := by
        intro b s hsuf hz hb k hk' lit out
        have hle := hsuf.length_le
        rw [List.length_cons, List.length_cons] at hle
        refine ih s (by omega) ?_ (hs.suffix ((List.suffix_cons b s).trans hsuf)) (by omega) k hk' lit out
        rcases List.mem_cons.1 hz with h | h
        · exact absurd h.symm hb
        · exact h
      simp only [formatLoop]
      by_cases hc : c = 0
      · rw [if_pos hc]
        exact ⟨_, _, rfl⟩
      rw [if_neg hc]
      by_cases h37 : c = 37
      · rw [if_pos h37]
        have hz : (0 : Byte) ∈ m := by
          rcases List.mem_cons.1 h0 with h | h
          · exact absurd h.symm hc
          · exact h
        obtain ⟨arg', f, w, p, d, s, e1, hsuf, hzs, hb⟩ := parseDir_total arg hz (hs.suffix (List.suffix_cons _ _))
        rw [e1]
        simp only
        have hsuf' := hsuf.trans (List.suffix_cons c m)
        have hle := hsuf.length_le
        rw [List.length_cons] at hle
        by_cases hd : d = 37
        · rw [if_pos hd]
          exact next hsuf' hzs (by rw [hd]; decide) arg' (by omega) _ _
        rw [if_neg hd]
        simp only [Int.toNat_natCast]
        cases hcv : convert e f w p d ((args[arg']?).getD e.nil) with
        | none => exact ⟨_, _, rfl⟩
        | some ps =>
          have hd0 : d ≠ 0 := by
            rintro rfl
            rw [show convert e f w p 0 ((args[arg']?).getD e.nil) = none by
              simp only [convert]
              rw [if_neg (by decide), if_neg (by decide), if_neg (by decide), if_neg (by decide), if_neg (by decide),
                if_neg (by decide), hk]] at hcv
            exact nomatch hcv
          simp only
          rw [int_ok (by omega) (by omega)]
          exact next hsuf' hzs hd0 (arg' + 1) (by omega) _ _
      · rw [if_neg h37]
        exact next (List.suffix_refl _) h0 hc arg (by omega) _ _

theorem takeWhile_snoc (s : List Byte) : (s ++ [0]).takeWhile isDigit = s.takeWhile isDigit := by
  induction s with
  | nil => decide
  | cons b s ih =>
    rw [List.cons_append, List.takeWhile_cons, List.takeWhile_cons, ih]

theorem Short.snoc {m : List Byte} (h : Short m) : Short (m ++ [0]) := by
  intro s hs
  rcases List.eq_nil_or_concat s with rfl | ⟨t, b, rfl⟩
  · simp
  · obtain ⟨p, hp⟩ := hs
    rw [List.concat_eq_append, ← List.append_assoc] at hp
    obtain ⟨h1, h2⟩ := List.append_inj' hp rfl
    rw [List.concat_eq_append, h2, takeWhile_snoc]
    exact h t ⟨p, h1⟩

/-- C67.  No format makes `format` read past its end: whatever follows the percent signs, it is done or raises an error.
Missing: ten digits in a row (`C67_digits_violated`), and a hook for the character zero (`C67_end_violated`). -/
theorem C67_end_partial {V : Type} (e : Env V) (hk : e.hook 0 = none) (fmt : List Byte) (hs : Short fmt) (hl : fmt.length < 999999999)
    (args : List V) : ∃ qs x, format e fmt args = some (qs, x) :=
  formatLoop_total e hk args (fmt.length + 2) (fmt ++ [0]) (by simp) (by simp) hs.snoc (by simp; omega) 0 (by simp; omega) [] []

/-- `"%"`, `"%-"`, `"%5"`, `"%1$"` and `"%."` end too soon, and are errors. -/
example : [[37], [37, 45], [37, 53], [37, 49, 36], [37, 46]].all (fun f => format toy f [] == some ([], .error)) = true := by
  decide

/-- A width of eleven digits overflows. -/
theorem C67_digits_violated :
    format toy [37, 57, 57, 57, 57, 57, 57, 57, 57, 57, 57, 57, 115] [] = none := by decide +kernel

/-- With a hook for the character zero a format ending in a percent sign is read on past its end. -/
theorem C67_end_violated :
    format { toy with hook := fun b => if b = 0 then some (fun v => some (some v)) else none } [37] [] = none := by decide

end Rep.Stream
