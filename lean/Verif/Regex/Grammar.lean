import Verif.Regex.Parse
import Verif.Regex.Spec

/-
The syntax of patterns as a grammar, after man/lang.texi:9100-9220, and that the parser follows it.
-/

namespace Rep.Regex

namespace Spec

/-- The rest of a set after the byte `p`, with its `]`: which bytes it adds, and its text.  `-` makes
a range from the byte before it, unless it is the last. -/
inductive SetRest : Nat → List Nat → List Nat → Prop
  | close {p} : SetRest p [] [93]
  | dash {p} : SetRest p [45] [45, 93]
  | range {p d l t} : d ≠ 93 → p ≤ d → SetRest d l t → SetRest p (List.range' (p + 1) (d - p) ++ l) (45 :: d :: t)
  | char {p c l t} : c ≠ 93 → c ≠ 45 → SetRest c l t → SetRest p (c :: l) (c :: t)

/-- The text of a set after its `[` or `[^`: a `]` or `-` at the beginning stands for itself. -/
inductive SetText : List Nat → List Nat → Prop
  | first {c l t} : SetRest c l t → SetText (c :: l) (c :: t)

/-- `\` and a letter. -/
def classes : List (Nat × One) :=
  [(119, .word), (87, .nword), (115, .wspc), (83, .nwspc), (100, .digi), (68, .ndigi), (98, .wedge), (66, .nwedge)]

inductive Kind
  | atom
  | piece
  | branch
  | alts

/-- The text of a repetition operator. -/
def multText : Mult → Nat
  | .star => 42
  | .plus => 43
  | .opt => 63

/-- `Reads k r s n n'`: the text `s` is a pattern `r` of the kind `k`; its groups have the numbers
from `n` to before `n'`, in the order of their `(`. -/
inductive Reads : Kind → Re → List Nat → Nat → Nat → Prop
  | bol {n} : Reads .atom (.one .bol) [94] n n
  | eol {n} : Reads .atom (.one .eol) [36] n n
  | any {n} : Reads .atom (.one .any) [46] n n
  | set {l t n} : t.head? ≠ some 94 → SetText l t → Reads .atom (.one (.set false l)) (91 :: t) n n
  | nset {l t n} : SetText l t → Reads .atom (.one (.set true l)) (91 :: 94 :: t) n n
  | grp {r s n n'} : n < 10 → Reads .alts r s (n + 1) n' → Reads .atom (.grp n r) (40 :: (s ++ [41])) n n'
  | cls {c o n} : (c, o) ∈ classes → Reads .atom (.one o) [92, c] n n
  | quoted {c n} : (∀ o, (c, o) ∉ classes) → Reads .atom (.one (.lit [c])) [92, c] n n
  | lit {s n} : s ≠ [] → (∀ c ∈ s, isMeta c = false) → Reads .atom (.one (.lit s)) s n n
  | atom {r s n n'} : Reads .atom r s n n' → Reads .piece r s n n'
  /-- an operator is for one character, set or group -/
  | rep {m g r s n n'} : Reads .atom r s n n' → (∀ l, r = .one (.lit l) → l.length = 1) →
      Reads .piece (.rep m g r) (s ++ multText m :: (if g then [] else [63])) n n'
  | nil {n} : Reads .branch .eps [] n n
  | cons {a b s t n n' n''} : Reads .piece a s n n' → Reads .branch b t n' n'' → Reads .branch (.seq a b) (s ++ t) n n''
  | last {a s n n'} : Reads .branch a s n n' → Reads .alts (.last a) s n n'
  | alt {a b s t n n' n''} : Reads .branch a s n n' → Reads .alts b t n' n'' →
      Reads .alts (.alt a b) (s ++ 124 :: t) n n''

end Spec

open Spec

theorem parseSet_reads {acc s : List Nat} {prev : Nat} {r : List Nat × List Nat} (h : parseSet prev acc s = .ok r) :
    ∃ l t, SetRest prev l t ∧ s = t ++ r.2 ∧ r.1 = acc.reverse ++ l := by
  induction hn : s.length using Nat.strongRecOn generalizing s acc prev with
  | _ n ih =>
    cases s with
    | nil => simp [parseSet] at h
    | cons c t =>
      unfold parseSet at h
      simp only [List.length_cons] at hn
      split at h
      · rename_i hc
        cases h
        exact ⟨[], [93], .close, by simp [hc], by simp⟩
      · rename_i hc93
        split at h
        · rename_i hc
          cases t with
          | nil => cases h
          | cons d t' =>
            simp only at h
            simp only [List.length_cons] at hn
            split at h
            · rename_i hd
              cases h
              exact ⟨[45], [45, 93], .dash, by simp [hc, hd], by simp⟩
            · rename_i hd
              split at h
              · cases h
              · obtain ⟨l, u, h1, h2, h3⟩ := ih t'.length (by omega) h rfl
                refine ⟨_, _, .range hd (by omega) h1, by simp [hc, h2], ?_⟩
                rw [h3]
                simp
        · rename_i hc45
          obtain ⟨l, u, h1, h2, h3⟩ := ih t.length (by omega) h rfl
          exact ⟨_, _, .char hc93 hc45 h1, by simp [h2], by rw [h3]; simp⟩

theorem parseSet0_reads {s : List Nat} {r : One × List Nat} {n : Nat} (h : parseSet0 s = .ok r) :
    ∃ t, 91 :: s = t ++ r.2 ∧ Reads .atom (.one r.1) t n n := by
  have body : ∀ (s1 : List Nat) (neg : Bool) (p0 : Nat),
      (match s1 with
        | [] => (.error .unmatchedSet : Except Err (One × List Nat))
        | c :: t => (if c = 93 ∨ c = 45 then parseSet c [c] t else parseSet p0 [] s1).map
            fun (r : List Nat × List Nat) => (One.set neg r.1, r.2)) = .ok r →
      ∃ l t, SetText l t ∧ s1 = t ++ r.2 ∧ r.1 = .set neg l := by
    intro s1 neg p0 h
    cases s1 with
    | nil => cases h
    | cons c t =>
      simp only at h
      split at h
      · rename_i hc
        cases hp : parseSet c [c] t with
        | error e => rw [hp] at h; cases h
        | ok v =>
          rw [hp] at h
          cases h
          obtain ⟨l, u, h1, h2, h3⟩ := parseSet_reads hp
          exact ⟨_, _, .first h1, by simp [h2], by simp [h3]⟩
      · rename_i hc
        simp only [not_or] at hc
        have e : parseSet p0 [] (c :: t) = parseSet c [c] t := by
          rw [parseSet.eq_def]
          simp only
          rw [if_neg hc.1, if_neg hc.2]
        rw [e] at h
        cases hp : parseSet c [c] t with
        | error e => rw [hp] at h; cases h
        | ok v =>
          rw [hp] at h
          cases h
          obtain ⟨l, u, h1, h2, h3⟩ := parseSet_reads hp
          exact ⟨_, _, .first h1, by simp [h2], by simp [h3]⟩
  unfold parseSet0 at h
  cases hh : (s.head? == some 94) with
  | true =>
    simp only [hh, if_true] at h
    obtain ⟨l, t, h1, h2, h3⟩ := body _ _ _ h
    cases s with
    | nil => simp at hh
    | cons c s' =>
      simp only [List.head?_cons, beq_iff_eq, Option.some.injEq] at hh
      subst hh
      simp only [List.tail_cons] at h2
      exact ⟨91 :: 94 :: t, by simp [h2], by rw [h3]; exact .nset h1⟩
  | false =>
    simp only [hh, Bool.false_eq_true, if_false] at h
    obtain ⟨l, t, h1, h2, h3⟩ := body _ _ _ h
    refine ⟨91 :: t, by simp [h2], ?_⟩
    rw [h3]
    refine .set ?_ h1
    intro e
    cases t with
    | nil => cases e
    | cons c t =>
      rw [h2] at hh
      simp only [List.head?_cons, Option.some.injEq] at e
      simp [e] at hh

theorem mult_text {c : Nat} {m : Mult} (h : mult? c = some m) : c = multText m := by
  unfold mult? at h
  split at h
  · cases h; assumption
  · split at h
    · cases h; assumption
    · split at h
      · cases h; assumption
      · cases h

theorem mult_meta {c : Nat} {m : Mult} (h : mult? c = some m) : isMeta c = true := by
  rw [mult_text h]
  cases m <;> rfl

/-- An operator is not for a literal string of several characters. -/
theorem litLen_mult {s : List Nat} {c : Nat} {t : List Nat} {m : Mult} (h : s.drop (litLen s) = c :: t)
    (hm : mult? c = some m) : litLen s ≤ 1 := by
  have hmeta := mult_meta hm
  generalize hlen : (s.takeWhile fun c => !isMeta c).length = len
  have hll : litLen s = if len > 1 ∧ ((s.drop len).head?.bind mult?).isSome then len - 1 else len := by
    unfold litLen
    rw [hlen]
  rw [hll] at h ⊢
  split
  · rename_i hc
    rw [if_pos hc] at h
    exfalso
    have hmem : c ∈ s.takeWhile fun c => !isMeta c := by
      have hpre := List.takeWhile_prefix (l := s) fun c => !isMeta c
      have e1 : s[len - 1]? = some c := by
        have : (s.drop (len - 1))[0]? = some c := by rw [h]; rfl
        simpa using this
      have e2 : (s.takeWhile fun c => !isMeta c)[len - 1]? = some c := by
        obtain ⟨u, hu⟩ := hpre
        rw [← hu, List.getElem?_append_left (by omega)] at e1
        exact e1
      exact List.mem_of_getElem? e2
    have := List.all_eq_true.1 List.all_takeWhile c hmem
    simp [hmeta] at this
  · rename_i hc
    rw [if_neg hc] at h
    rw [h] at hc
    simp only [List.head?_cons, Option.bind_some, hm, Option.isSome_some, and_true] at hc
    omega

theorem lit_noMeta (s : List Nat) : ∀ c ∈ s.take (litLen s), isMeta c = false := by
  intro c hc
  have hle : litLen s ≤ (s.takeWhile fun c => !isMeta c).length := by
    unfold litLen
    simp only
    split <;> omega
  have hpre := List.takeWhile_prefix (l := s) fun c => !isMeta c
  have hmem : c ∈ s.takeWhile fun c => !isMeta c := by
    obtain ⟨u, hu⟩ := hpre
    rw [← hu, List.take_append_of_le_length] at hc
    · exact List.mem_of_mem_take hc
    · rw [hu]; exact hle
  simpa using List.all_eq_true.1 List.all_takeWhile c hmem

theorem escape_reads (c n : Nat) : Reads .atom (.one (escape c)) [92, c] n n := by
  unfold escape
  repeat' split
  all_goals first
    | (refine .cls ?_; subst_vars; simp [classes]; done)
    | (refine .quoted fun o ho => ?_
       simp only [classes, List.mem_cons, Prod.mk.injEq, List.not_mem_nil, or_false] at ho
       omega)

theorem parse_reads_aux (f : Nat) :
    (∀ s n r, parseAlts f s n = .ok r → ∃ t, s = t ++ r.2.1 ∧ Reads .alts r.1 t n r.2.2) ∧
    (∀ s n r, parseBranch f s n = .ok r → ∃ t, s = t ++ r.2.1 ∧ Reads .branch r.1 t n r.2.2) ∧
    (∀ s n r, parsePiece f s n = .ok r → ∃ t, s = t ++ r.2.1 ∧ Reads .piece r.1 t n r.2.2) ∧
    (∀ s n r, parseAtom f s n = .ok r → ∃ t, s = t ++ r.2.1 ∧ Reads .atom r.1 t n r.2.2 ∧
      ∀ l c u m, r.1 = .one (.lit l) → r.2.1 = c :: u → mult? c = some m → l.length = 1) := by
  induction f with
  | zero =>
    refine ⟨fun s n r h => ?_, fun s n r h => ?_, fun s n r h => ?_, fun s n r h => ?_⟩
    · simp [parseAlts] at h
    · simp [parseBranch] at h
    · simp [parsePiece] at h
    · simp [parseAtom] at h
  | succ f ih =>
    obtain ⟨wA, wB, wP, wT⟩ := ih
    refine ⟨fun s n r h => ?_, fun s n r h => ?_, fun s n r h => ?_, fun s n r h => ?_⟩
    · simp only [parseAlts] at h
      cases hb : parseBranch f s n with
      | error e => rw [hb] at h; cases h
      | ok v =>
        obtain ⟨b, s1, n1⟩ := v
        obtain ⟨t1, e1, h1⟩ := wB s n _ hb
        rw [hb] at h
        simp only at e1 h1
        cases s1 with
        | nil =>
          cases h
          exact ⟨t1, e1, .last h1⟩
        | cons c t =>
          simp only at h
          split at h
          · rename_i hc
            cases ha : parseAlts f t n1 with
            | error e => rw [ha] at h; cases h
            | ok v =>
              obtain ⟨t2, e2, h2⟩ := wA t n1 _ ha
              rw [ha] at h
              cases h
              exact ⟨t1 ++ 124 :: t2, by simp [e1, e2, hc], .alt h1 h2⟩
          · cases h
            exact ⟨t1, e1, .last h1⟩
    · simp only [parseBranch] at h
      split at h
      · cases h
        exact ⟨[], rfl, .nil⟩
      · cases hp : parsePiece f s n with
        | error e => rw [hp] at h; cases h
        | ok v =>
          obtain ⟨p, s1, n1⟩ := v
          obtain ⟨t1, e1, h1⟩ := wP s n _ hp
          rw [hp] at h
          simp only at h e1 h1
          cases hb : parseBranch f s1 n1 with
          | error e => rw [hb] at h; cases h
          | ok v =>
            obtain ⟨t2, e2, h2⟩ := wB s1 n1 _ hb
            rw [hb] at h
            cases h
            exact ⟨t1 ++ t2, by simp [e1, e2], .cons h1 h2⟩
    · simp only [parsePiece] at h
      cases ha : parseAtom f s n with
      | error e => rw [ha] at h; cases h
      | ok v =>
        obtain ⟨a, s1, n1⟩ := v
        obtain ⟨t1, e1, h1, hl⟩ := wT s n _ ha
        rw [ha] at h
        simp only at e1 h1 hl
        cases s1 with
        | nil =>
          cases h
          exact ⟨t1, e1, .atom h1⟩
        | cons c t =>
          simp only at h
          cases hm : mult? c with
          | none =>
            rw [hm] at h
            cases h
            exact ⟨t1, e1, .atom h1⟩
          | some m =>
            rw [hm] at h
            simp only at h
            split at h
            · cases h
            · have hs2 : t = (if (t.head? != some 63) = true then [] else [63]) ++
                  (if (t.head? != some 63) = true then t else t.tail) := by
                cases t with
                | nil => rfl
                | cons d t' =>
                  by_cases hd : d = 63 <;> simp [hd]
              generalize (if (t.head? != some 63) = true then t else t.tail) = s2 at h hs2
              split at h
              · cases h
              · cases h
                refine ⟨t1 ++ multText m :: (if (t.head? != some 63) = true then [] else [63]), ?_,
                  .rep h1 fun l e => hl l c t m e rfl hm⟩
                rw [e1, mult_text hm]
                simp only [List.append_assoc, List.cons_append]
                rw [← hs2]
    · unfold parseAtom at h
      cases s with
      | nil => cases h
      | cons c t =>
        simp only at h
        split at h
        · rename_i hc
          cases h
          exact ⟨[94], by simp [hc], .bol, fun _ _ _ _ e => nomatch e⟩
        · split at h
          · rename_i hc
            cases h
            exact ⟨[36], by simp [hc], .eol, fun _ _ _ _ e => nomatch e⟩
          · split at h
            · rename_i hc
              cases h
              exact ⟨[46], by simp [hc], .any, fun _ _ _ _ e => nomatch e⟩
            · split at h
              · rename_i hc
                cases hs : parseSet0 t with
                | error e => rw [hs] at h; cases h
                | ok v =>
                  obtain ⟨u, e1, h1⟩ := parseSet0_reads (n := n) hs
                  have hk : ∃ neg l, v.1 = .set neg l := by
                    unfold parseSet0 at hs
                    simp only at hs
                    generalize (if (t.head? == some 94) = true then t.tail else t) = s1 at hs
                    cases s1 with
                    | nil => cases hs
                    | cons c' t' =>
                      simp only at hs
                      generalize (if c' = 93 ∨ c' = 45 then parseSet c' [c'] t'
                        else parseSet (if (t.head? == some 94) = true then 94 else 91) [] (c' :: t')) = w at hs
                      cases w with
                      | error e => cases hs
                      | ok w => cases hs; exact ⟨_, _, rfl⟩
                  obtain ⟨neg, l, hk⟩ := hk
                  rw [hs] at h
                  cases h
                  refine ⟨u, by rw [hc, e1], h1, fun l' _ _ _ e => ?_⟩
                  simp only [hk, Re.one.injEq] at e
                  cases e
              · split at h
                · rename_i hc
                  split at h
                  · cases h
                  · rename_i hn
                    cases ha : parseAlts f t (n + 1) with
                    | error e => rw [ha] at h; cases h
                    | ok v =>
                      obtain ⟨r, s1, n1⟩ := v
                      obtain ⟨u, e1, h1⟩ := wA t (n + 1) _ ha
                      rw [ha] at h
                      simp only at e1 h1
                      cases s1 with
                      | nil => cases h
                      | cons d t' =>
                        simp only at h
                        split at h
                        · rename_i hd
                          cases h
                          exact ⟨40 :: (u ++ [41]), by simp [hc, e1, hd], .grp (by omega) h1, fun _ _ _ _ e => nomatch e⟩
                        · cases h
                · split at h
                  · cases h
                  · split at h
                    · cases h
                    · split at h
                      · rename_i hc
                        cases t with
                        | nil => cases h
                        | cons d t' =>
                          cases h
                          refine ⟨[92, d], by simp [hc], escape_reads d n, fun l _ _ _ e _ _ => ?_⟩
                          simp only [Re.one.injEq] at e
                          unfold escape at e
                          repeat' split at e
                          all_goals first
                            | (cases e; done)
                            | (rw [One.lit.injEq] at e; rw [← e]; rfl)
                      · rename_i g1 g2 g3 g4 g5 g6 g7 g8
                        have hm : isMeta c = false := by
                          simp only [not_or] at g6 g7
                          simp [isMeta, g1, g2, g3, g4, g5, g6, g7, g8]
                        have hp := litLen_pos (t := t) hm
                        cases h
                        refine ⟨(c :: t).take (litLen (c :: t)), (List.take_append_drop ..).symm,
                          .lit ?_ (lit_noMeta _), fun l d u m e e' hm => ?_⟩
                        · intro e
                          have := congrArg List.length e
                          rw [List.length_take] at this
                          simp only [List.length_nil] at this
                          omega
                        · have h1 := litLen_mult e' hm
                          simp only [Re.one.injEq, One.lit.injEq] at e
                          rw [← e, List.length_take]
                          omega

/-- The parser reads the whole pattern as the grammar says. -/
theorem parse_reads {s : List Nat} {r : Re} (h : parse s = .ok r) : ∃ n, Reads .alts r s 1 n := by
  unfold parse at h
  cases ha : parseAlts (4 * s.length + 4) s 1 with
  | error e => rw [ha] at h; cases h
  | ok v =>
    obtain ⟨r', s1, n1⟩ := v
    obtain ⟨t, e, h1⟩ := (parse_reads_aux (4 * s.length + 4)).1 s 1 _ ha
    rw [ha] at h
    cases s1 with
    | nil =>
      cases h
      simp only [List.append_nil] at e
      exact ⟨n1, e ▸ h1⟩
    | cons c t =>
      simp only at h
      split at h <;> cases h

end Rep.Regex
