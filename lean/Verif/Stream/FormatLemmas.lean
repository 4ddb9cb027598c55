import Verif.Stream.FormatSpec
import Verif.Stream.Output
import Mathlib.Data.Nat.Digits.Lemmas

/-
`format` parses what was rendered, and writes what is specified.
-/

namespace Rep.Stream

open Spec (Flag Dir Piece decimal)

/-! ### Calls on a string -/

/-- The bytes of a call are there. -/
def Put.Valid : Put → Prop
  | .c _ => True
  | .s src n => 0 ≤ n ∧ n ≤ src.length

def Put.out : Put → List Byte
  | .c x => [BitVec.ofInt 8 x]
  | .s src n => src.take n.toNat

def outs (ps : List Put) : List Byte := (ps.map Put.out).flatten

theorem outs_append (a b : List Put) : outs (a ++ b) = outs a ++ outs b := by simp [outs]

theorem outs_cons (a : Put) (b : List Put) : outs (a :: b) = a.out ++ outs b := by simp [outs]

theorem outs_nil : outs [] = [] := rfl

theorem play_spec {h : Heap} {s : OStream} {p : List Byte} (i : Inv h s p) (ps : List Put) (hv : ∀ q ∈ ps, q.Valid)
    (hl : p.length + (outs ps).length ≤ 1073741822) :
    ∃ h' s', play h s ps = some (h', s') ∧ Inv h' s' (p ++ outs ps) ∧ Keeps h s h' s' := by
  induction ps generalizing h s p with
  | nil => exact ⟨h, s, rfl, by simpa [outs] using i, Keeps.refl _ _⟩
  | cons q ps ih =>
    rw [outs_cons, List.length_append] at hl
    cases q with
    | c c =>
      simp only [Put.out, List.length_singleton] at hl
      obtain ⟨h1, s1, e1, i1, k1⟩ := i.putc c (by omega)
      obtain ⟨h2, s2, e2, i2, k2⟩ := ih i1 (fun q hq => hv q (by simp [hq])) (by simp; omega)
      refine ⟨h2, s2, by simp only [play, e1, e2], ?_, k1.trans k2⟩
      rw [outs_cons]
      simpa [Put.out] using i2
    | s src n =>
      obtain ⟨v1, v2⟩ : 0 ≤ n ∧ n ≤ src.length := hv (.s src n) (by simp)
      obtain ⟨n, rfl⟩ : ∃ m : Nat, n = m := ⟨n.toNat, by omega⟩
      simp only [Put.out, Int.toNat_natCast, List.length_take] at hl
      obtain ⟨h1, s1, e1, i1, k1⟩ := i.puts src n false (by omega) (by omega)
      obtain ⟨h2, s2, e2, i2, k2⟩ := ih i1 (fun q hq => hv q (by simp [hq])) (by simp; omega)
      refine ⟨h2, s2, by simp only [play, e1, e2], ?_, k1.trans k2⟩
      rw [outs_cons]
      simpa [Put.out] using i2

/-! ### Numbers -/

theorem digit_spec {d : Nat} (h : d < 10) : isDigit (BitVec.ofNat 8 (48 + d)) = true ∧ (BitVec.ofNat 8 (48 + d)).toNat = 48 + d := by
  have : (BitVec.ofNat 8 (48 + d)).toNat = 48 + d := by simp; omega
  refine ⟨?_, this⟩
  simp only [isDigit, this, decide_eq_true_eq]
  omega

def horner (v : Nat) (ds : List Nat) : Nat := ds.foldl (fun v d => v * 10 + d) v

theorem horner_ge (ds : List Nat) (v : Nat) : v ≤ horner v ds := by
  induction ds generalizing v with
  | nil => exact Nat.le_refl _
  | cons d ds ih =>
    have := ih (v * 10 + d)
    simp only [horner, List.foldl_cons] at this ⊢
    omega

theorem horner_digits (n : Nat) : horner 0 (Nat.digits 10 n).reverse = n := by
  unfold horner
  rw [List.foldl_reverse]
  have h := Nat.ofDigits_digits 10 n
  rw [Nat.ofDigits_eq_foldr] at h
  refine Eq.trans ?_ h
  congr 1
  funext d v
  simp only [Nat.cast_id]
  rw [Nat.mul_comm, Nat.add_comm]

theorem scanNumber_digits (ds : List Nat) (hd : ∀ d ∈ ds, d < 10) (v : Nat) (hv : horner v ds < 1000000000) {c : Byte}
    (hc : isDigit c = false) (m : List Byte) :
    scanNumber v (ds.map (fun d => BitVec.ofNat 8 (48 + d)) ++ c :: m) = some (((horner v ds : Nat) : Int), c :: m) := by
  induction ds generalizing v with
  | nil => simp [scanNumber, hc, horner]
  | cons d ds ih =>
    obtain ⟨h1, h2⟩ := digit_spec (hd d (by simp))
    have hge := horner_ge ds (v * 10 + d)
    have he : horner v (d :: ds) = horner (v * 10 + d) ds := rfl
    rw [he] at hv ⊢
    rw [List.map_cons, List.cons_append]
    simp only [scanNumber]
    rw [if_pos h1, int_ok (by omega) (by omega)]
    simp only [h2]
    rw [int_ok (by omega) (by omega)]
    simp only
    rw [← ih (fun x hx => hd x (by simp [hx])) (v * 10 + d) hv]
    congr 1
    push_cast
    omega

theorem scanNumber_decimal (n : Nat) (hn : n < 1000000000) {c : Byte} (hc : isDigit c = false) (m : List Byte) :
    scanNumber 0 (decimal n ++ c :: m) = some ((n : Int), c :: m) := by
  have := scanNumber_digits (Nat.digits 10 n).reverse
    (fun d hd => Nat.digits_lt_base (by decide) (List.mem_reverse.1 hd)) 0 (by rw [horner_digits]; exact hn) hc m
  rw [horner_digits] at this
  exact this

theorem atoi_digits (ds : List Nat) (hd : ∀ d ∈ ds, d < 10) (v : Nat) (hv : horner v ds < 1000000000) {c : Byte}
    (hc : isDigit c = false) (m : List Byte) :
    atoi v (ds.map (fun d => BitVec.ofNat 8 (48 + d)) ++ c :: m) = some ((horner v ds : Nat) : Int) := by
  induction ds generalizing v with
  | nil => simp [atoi, hc, horner]
  | cons d ds ih =>
    obtain ⟨h1, h2⟩ := digit_spec (hd d (by simp))
    have hge := horner_ge ds (v * 10 + d)
    have he : horner v (d :: ds) = horner (v * 10 + d) ds := rfl
    rw [he] at hv ⊢
    rw [List.map_cons, List.cons_append]
    simp only [atoi]
    rw [if_pos h1]
    simp only [h2]
    rw [int_ok (by omega) (by omega)]
    simp only
    rw [← ih (fun x hx => hd x (by simp [hx])) (v * 10 + d) hv]
    congr 1
    push_cast
    omega

theorem atoi_decimal (n : Nat) (hn : n < 1000000000) {c : Byte} (hc : isDigit c = false) (m : List Byte) :
    atoi 0 (decimal n ++ c :: m) = some (n : Int) := by
  have := atoi_digits (Nat.digits 10 n).reverse
    (fun d hd => Nat.digits_lt_base (by decide) (List.mem_reverse.1 hd)) 0 (by rw [horner_digits]; exact hn) hc m
  rw [horner_digits] at this
  exact this

theorem decimal_digits (n : Nat) : ∀ b ∈ decimal n, isDigit b = true := by
  intro b hb
  simp only [decimal, List.mem_map, List.mem_reverse] at hb
  obtain ⟨d, hd, rfl⟩ := hb
  exact (digit_spec (Nat.digits_lt_base (by decide) hd)).1

/-- A number does not begin with a zero. -/
theorem decimal_head (n : Nat) (b : Byte) (l : List Byte) (h : decimal n = b :: l) : b ≠ 48 := by
  unfold decimal at h
  by_cases hn : n = 0
  · subst hn; simp at h
  have hne : Nat.digits 10 n ≠ [] := Nat.digits_ne_nil_iff_ne_zero.2 hn
  have h1 := Nat.getLast_digit_ne_zero 10 hn
  have h2 : (Nat.digits 10 n).reverse.head? = some ((Nat.digits 10 n).getLast hne) := by
    rw [List.head?_reverse, List.getLast?_eq_some_getLast hne]
  cases hr : (Nat.digits 10 n).reverse with
  | nil => rw [hr] at h2; simp at h2
  | cons x xs =>
    rw [hr] at h h2
    simp only [List.head?_cons, Option.some.injEq] at h2
    simp only [List.map_cons, List.cons.injEq] at h
    have hx : x < 10 := Nat.digits_lt_base (b := 10) (m := n) (by decide) (by rw [h2]; exact List.getLast_mem hne)
    have := (digit_spec hx).2
    intro hb
    rw [h.1, hb] at this
    have h48 : (48 : Byte).toNat = 48 := rfl
    omega

theorem scanDollar_digits (ds : List Byte) (hd : ∀ b ∈ ds, isDigit b = true) {c : Byte} (hc : isDigit c = false) (m : List Byte) :
    scanDollar (ds ++ c :: m) = some (if c = 36 then some m else none) := by
  induction ds with
  | nil =>
    simp only [List.nil_append, scanDollar]
    rw [if_neg (by simp [hc])]
    split <;> rfl
  | cons d ds ih =>
    simp only [List.cons_append, scanDollar]
    rw [if_pos (hd d (by simp))]
    exact ih fun b hb => hd b (by simp [hb])

/-! ### Flags -/

def addFlag (f : Flags) : Flag → Flags
  | .minus => { f with left := true }
  | .caret => { f with truncate := true }
  | .zero => { f with zeros := true }
  | .plus => { f with leading := 43 }
  | .space => { f with leading := 32 }

theorem parseFlags_flags (fs : List Flag) (f : Flags) {c : Byte} (hc : ∀ g : Flag, c ≠ g.byte) (m : List Byte) :
    parseFlags f (fs.map Flag.byte ++ c :: m) = some (fs.foldl addFlag f, c :: m) := by
  induction fs generalizing f with
  | nil =>
    have h1 := hc .minus
    have h2 := hc .caret
    have h3 := hc .zero
    have h4 := hc .plus
    have h5 := hc .space
    simp only [Flag.byte] at h1 h2 h3 h4 h5
    simp only [List.map_nil, List.nil_append, parseFlags, if_neg h1, if_neg h2, if_neg h3, if_neg (show ¬ (c = 43 ∨ c = 32) from not_or.2 ⟨h4, h5⟩), List.foldl_nil]
  | cons g fs ih =>
    rw [List.map_cons, List.cons_append, List.foldl_cons, ← ih]
    cases g <;> rfl

theorem fold_left (fs : List Flag) (f : Flags) : (fs.foldl addFlag f).left = (f.left || decide (Flag.minus ∈ fs)) := by
  induction fs generalizing f with
  | nil => simp
  | cons g fs ih => rw [List.foldl_cons, ih]; cases g <;> simp [addFlag]

theorem fold_truncate (fs : List Flag) (f : Flags) : (fs.foldl addFlag f).truncate = (f.truncate || decide (Flag.caret ∈ fs)) := by
  induction fs generalizing f with
  | nil => simp
  | cons g fs ih => rw [List.foldl_cons, ih]; cases g <;> simp [addFlag]

theorem fold_zeros (fs : List Flag) (f : Flags) : (fs.foldl addFlag f).zeros = (f.zeros || decide (Flag.zero ∈ fs)) := by
  induction fs generalizing f with
  | nil => simp
  | cons g fs ih => rw [List.foldl_cons, ih]; cases g <;> simp [addFlag]

def leadText (b : Byte) : List Byte := if b ≠ 0 then [b] else []

theorem fold_leading (fs : List Flag) (f : Flags) :
    leadText (fs.foldl addFlag f).leading = if Spec.sign fs = [] then leadText f.leading else Spec.sign fs := by
  induction fs generalizing f with
  | nil => simp [Spec.sign]
  | cons g fs ih =>
    rw [List.foldl_cons, ih]
    have hs : Spec.sign (g :: fs) = if Spec.sign fs = [] then (match g with | .plus => [43] | .space => [32] | _ => []) else Spec.sign fs := by
      unfold Spec.sign
      cases hq : (fs.filter fun f => f == .plus || f == .space) with
      | nil => cases g <;> simp [hq, Flag.byte]
      | cons x xs =>
        have : (List.filter (fun f => f == Flag.plus || f == Flag.space) (g :: fs)).getLast? = (x :: xs).getLast? := by
          cases g <;> simp [hq]
        rw [this]
        cases hl : (x :: xs).getLast? with
        | none => simp at hl
        | some y => simp
    rw [hs]
    by_cases h : Spec.sign fs = []
    · simp only [h, if_true]
      cases g <;> first | rfl | (show leadText f.leading = if ([] : List Byte) = [] then _ else _; rw [if_pos rfl])
    · simp [h]

/-! ### Directives -/

theorem parsePos_spec (d : Dir) (ok : d.Ok) (arg : Nat) (m : List Byte) :
    parsePos arg (d.render ++ m) = some (((d.arg arg : Nat) : Int),
      d.flags.map Flag.byte ++ decimal d.width ++ d.precText ++ d.conv :: m) := by
  unfold parsePos Dir.render Dir.posText Dir.arg
  cases hp : d.pos with
  | some n =>
    obtain ⟨h1, h2⟩ := ok.pos n hp
    simp only [List.append_assoc, List.cons_append, List.nil_append]
    rw [scanDollar_digits (decimal n) (decimal_digits n) (by decide), atoi_decimal n h2 (by decide)]
    simp only [if_true]
    rw [if_pos (by omega)]
    congr 2
    omega
  | none =>
    simp only [List.append_assoc, List.cons_append, List.nil_append]
    -- the scan stops at something which is neither a digit nor a dollar
    have key : ∀ l : List Byte, (∀ b ∈ l, b ≠ 36) → ∀ c : Byte, isDigit c = false → c ≠ 36 → ∀ r,
        scanDollar (l ++ c :: r) = some none := by
      intro l hl c hc hc' r
      induction l with
      | nil =>
        simp only [List.nil_append, scanDollar]
        rw [if_neg (by simp [hc]), if_neg hc']
      | cons x xs ih =>
        simp only [List.cons_append, scanDollar]
        split
        · exact ih fun b hb => hl b (by simp [hb])
        · rw [if_neg (hl x (by simp))]
    have hdec : ∀ n, ∀ b ∈ decimal n, b ≠ 36 := by
      intro n b hb h
      have := decimal_digits n b hb
      rw [h] at this
      exact absurd this (by decide)
    have hall : ∀ b ∈ d.flags.map Flag.byte ++ (decimal d.width ++ d.precText), b ≠ 36 := by
      intro b hb
      rcases List.mem_append.1 hb with hb | hb
      · obtain ⟨f, _, rfl⟩ := List.mem_map.1 hb
        cases f <;> decide
      · rcases List.mem_append.1 hb with hb | hb
        · exact hdec _ b hb
        · unfold Dir.precText at hb
          cases hpr : d.prec with
          | none => rw [hpr] at hb; simp at hb
          | some n =>
            rw [hpr] at hb
            rcases List.mem_cons.1 hb with rfl | hb
            · decide
            · exact hdec _ b hb
    have := key _ hall d.conv ok.conv.1 ok.conv.2.2.1 m
    simp only [List.append_assoc] at this
    rw [this]

theorem head_not_flag (d : Dir) (ok : d.Ok) (m : List Byte) :
    ∃ c r, decimal d.width ++ (d.precText ++ d.conv :: m) = c :: r ∧
      ∀ g : Flag, c ≠ g.byte := by
  unfold Dir.precText
  cases hw : decimal d.width with
  | nil =>
    cases hp : d.prec with
    | none => exact ⟨d.conv, m, rfl, ok.conv.2.2.2.2⟩
    | some n => exact ⟨46, _, rfl, by intro g; cases g <;> decide⟩
  | cons b l =>
    refine ⟨b, _, rfl, ?_⟩
    intro g hg
    have h1 := decimal_digits d.width b (by rw [hw]; simp)
    cases g
    case zero => exact decimal_head d.width b l hw hg
    all_goals
      rw [hg] at h1
      exact absurd h1 (by decide)

theorem head_not_digit (d : Dir) (ok : d.Ok) (m : List Byte) :
    ∃ c r, d.precText ++ d.conv :: m = c :: r ∧ isDigit c = false := by
  unfold Dir.precText
  cases hp : d.prec with
  | none => exact ⟨d.conv, m, rfl, ok.conv.1⟩
  | some n => exact ⟨46, _, rfl, by decide⟩

theorem parsePrec_spec (d : Dir) (ok : d.Ok) (m : List Byte) :
    parsePrec (d.precText ++ d.conv :: m) = some (d.precision, d.conv :: m) := by
  unfold Dir.precision Dir.precText
  cases hp : d.prec with
  | none =>
    simp only [List.nil_append, parsePrec]
    rw [if_neg ok.conv.2.1]
  | some n =>
    simp only [List.cons_append, parsePrec, if_true]
    exact scanNumber_decimal n (ok.prec n hp) ok.conv.1 m

theorem parseDir_spec (d : Dir) (ok : d.Ok) (arg : Nat) (m : List Byte) :
    parseDir arg (d.render ++ m) =
      some (((d.arg arg : Nat) : Int), d.flags.foldl addFlag {}, (d.width : Int),
        d.precision, d.conv, m) := by
  unfold parseDir
  rw [parsePos_spec d ok]
  simp only [List.append_assoc]
  obtain ⟨c, r, e, hc⟩ := head_not_flag d ok m
  rw [e, parseFlags_flags d.flags {} hc r, ← e]
  simp only
  obtain ⟨c', r', e', hc'⟩ := head_not_digit d ok m
  rw [e', scanNumber_decimal d.width (by have := ok.width; omega) hc' r', ← e']
  simp only
  rw [parsePrec_spec d ok m]

end Rep.Stream
