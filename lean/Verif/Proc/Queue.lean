import Verif.Proc.Model
import Mathlib.Tactic.Tauto

/-
The chain of objects whose function is to be called.  An object is taken to be in the chain if its link
is not null; the last one has a null link, so that it can be put in a second time.  The chain then is a
ring with a lead.  Here: what it contains, for every state that can be reached that way.
-/

namespace Rep.Proc

abbrev Links := Id → Option Id

def upd (nx : Links) (p : Id) (v : Option Id) : Links := fun q => if q = p then v else nx q

/-- From `c` the links lead through the objects of the list to `e`. -/
def Linked (nx : Links) : Option Id → List Id → Option Id → Prop
  | c, [], e => c = e
  | c, a :: l, e => c = some a ∧ Linked nx (nx a) l e

/-- The chain from `c` goes through the different objects `L`, and then ends or goes back to one of
them. -/
structure Q (nx : Links) (c : Option Id) (L : List Id) (e : Option Id) : Prop where
  link : Linked nx c L e
  close : ∀ d, e = some d → d ∈ L
  nodup : L.Nodup
  all : ∀ p, nx p ≠ none → p ∈ L

theorem Linked.upd {nx p v} : ∀ {c L e}, p ∉ L → Linked nx c L e → Linked (upd nx p v) c L e
  | _, [], _, _, h => h
  | _, a :: l, _, hp, h => by
    obtain ⟨h1, h2⟩ := h
    have ha : a ≠ p := fun h => hp (h ▸ List.mem_cons_self)
    refine ⟨h1, ?_⟩
    have : Rep.Proc.upd nx p v a = nx a := by simp [Rep.Proc.upd, ha]
    rw [this]
    exact Linked.upd (fun h => hp (List.mem_cons_of_mem _ h)) h2

theorem linked_append {nx} : ∀ {A c B e}, Linked nx c (A ++ B) e ↔ ∃ d, Linked nx c A d ∧ Linked nx d B e
  | [], c, B, e => by simp [Linked]
  | a :: A, c, B, e => by
    constructor
    · rintro ⟨h1, h2⟩
      obtain ⟨d, h3, h4⟩ := linked_append.mp h2
      exact ⟨d, ⟨h1, h3⟩, h4⟩
    · rintro ⟨d, ⟨h1, h3⟩, h4⟩
      exact ⟨h1, linked_append.mpr ⟨d, h3, h4⟩⟩

theorem Q.empty_iff {nx c L e} (h : Q nx c L e) : c = none ↔ L = [] := by
  cases L with
  | nil =>
    have h1 : c = e := h.link
    constructor
    · intro _; rfl
    · intro _
      cases e with
      | none => exact h1
      | some d => exact absurd (h.close d rfl) (by simp)
  | cons a l =>
    have h1 : c = some a := h.link.1
    simp [h1]

theorem Q.push_new {nx c L e p} (h : Q nx c L e) (hp : p ∉ L) :
    Q (upd nx p c) (some p) (p :: L) e := by
  refine ⟨⟨rfl, ?_⟩, ?_, List.nodup_cons.mpr ⟨hp, h.nodup⟩, ?_⟩
  · have : upd nx p c p = c := by simp [upd]
    rw [this]
    exact h.link.upd hp
  · intro d hd; exact List.mem_cons_of_mem _ (h.close d hd)
  · intro q hq
    by_cases hqp : q = p
    · simp [hqp]
    · exact List.mem_cons_of_mem _ (h.all q (by simpa [upd, hqp] using hq))

/-- An object of the chain with a null link is the last one. -/
theorem last_of_none {nx p} : ∀ {L c e}, Linked nx c L e → p ∈ L → nx p = none → L.Nodup →
    e = none ∧ ∃ L0, L = L0 ++ [p]
  | [], _, _, _, h, _, _ => by cases h
  | a :: l, c, e, hl, hp, hn, hd => by
    obtain ⟨h1, h2⟩ := hl
    by_cases hap : a = p
    · subst hap
      rw [hn] at h2
      cases l with
      | nil => exact ⟨h2.symm, [], rfl⟩
      | cons b l => exact absurd h2.1 (by simp)
    · have hpl : p ∈ l := by
        rcases List.mem_cons.mp hp with h | h
        · exact absurd h.symm hap
        · exact h
      obtain ⟨h3, L0, h4⟩ := last_of_none h2 hpl hn (List.nodup_cons.mp hd).2
      exact ⟨h3, a :: L0, by rw [h4]; rfl⟩

theorem Q.push_old {nx c L e p} (h : Q nx c L e) (hp : p ∈ L) (hn : nx p = none) :
    e = none ∧ ∃ L0, L = L0 ++ [p] ∧ Q (upd nx p c) (some p) (p :: L0) (some p) := by
  obtain ⟨he, L0, hL⟩ := last_of_none h.link hp hn h.nodup
  refine ⟨he, L0, hL, ?_⟩
  subst hL
  have hnd := h.nodup
  have hp0 : p ∉ L0 := by
    intro hm
    have := (List.nodup_append.mp hnd).2.2 p hm p (by simp)
    exact this rfl
  obtain ⟨d, h1, h2⟩ := linked_append.mp h.link
  have hd : d = some p := h2.1
  subst hd
  refine ⟨⟨rfl, ?_⟩, ?_, List.nodup_cons.mpr ⟨hp0, (List.nodup_append.mp hnd).1⟩, ?_⟩
  · have : upd nx p c p = c := by simp [upd]
    rw [this]
    exact h1.upd hp0
  · intro d hd; cases hd; simp
  · intro q hq
    by_cases hqp : q = p
    · simp [hqp]
    · have := h.all q (by simpa [upd, hqp] using hq)
      simp only [List.mem_append, List.mem_singleton, hqp, or_false] at this
      exact List.mem_cons_of_mem _ this

/-- Taking an object out of the middle. -/
theorem Q.remove {nx c A q p B e} (h : Q nx c ((A ++ [q]) ++ p :: B) e) :
    if e = some p then Q (upd (upd nx q (nx p)) p none) c ((A ++ [q]) ++ (B ++ [p])) none
    else Q (upd (upd nx q (nx p)) p none) c ((A ++ [q]) ++ B) e := by
  have hnd := h.nodup
  have hqp : q ≠ p := by
    intro hh
    exact (List.nodup_append.mp hnd).2.2 q (by simp) p (by simp) hh
  have hpAq : p ∉ A ++ [q] := fun hm => (List.nodup_append.mp hnd).2.2 p hm p (by simp) rfl
  have hpB : p ∉ B := (List.nodup_cons.mp (List.nodup_append.mp hnd).2.1).1
  have hqB : q ∉ B := fun hm => (List.nodup_append.mp hnd).2.2 q (by simp) q (by simp [hm]) rfl
  have hqA : q ∉ A := fun hm =>
    (List.nodup_append.mp (List.nodup_append.mp hnd).1).2.2 q hm q (by simp) rfl
  have hpA : p ∉ A := fun hm => hpAq (by simp [hm])
  obtain ⟨d, h1, h2⟩ := linked_append.mp h.link
  obtain ⟨d', h3, h4⟩ := linked_append.mp h1
  have hd' : d' = some q := h4.1
  have hB : Linked nx (nx p) B e := h2.2
  subst hd'
  have nq : upd (upd nx q (nx p)) p none q = nx p := by simp [upd, hqp]
  have np : upd (upd nx q (nx p)) p none p = none := by simp [upd]
  have lA : Linked (upd (upd nx q (nx p)) p none) c (A ++ [q]) (nx p) := by
    refine linked_append.mpr ⟨some q, (h3.upd hqA).upd hpA, rfl, ?_⟩
    rw [nq]; rfl
  have lB : Linked (upd (upd nx q (nx p)) p none) (nx p) B e := (hB.upd hqB).upd hpB
  have hall : ∀ x, upd (upd nx q (nx p)) p none x ≠ none → x ≠ p ∧ (x ∈ (A ++ [q]) ++ B) := by
    intro x hx
    by_cases hxp : x = p
    · rw [hxp, np] at hx; exact absurd rfl hx
    refine ⟨hxp, ?_⟩
    by_cases hxq : x = q
    · simp [hxq]
    have := h.all x (by simpa [upd, hxp, hxq] using hx)
    simp only [List.mem_append, List.mem_cons, hxp, false_or] at this ⊢
    exact this
  have hnd2 : ((A ++ [q]) ++ B).Nodup := by
    refine hnd.sublist ?_
    exact List.Sublist.append (List.Sublist.refl _) (List.sublist_cons_self _ _)
  split
  · rename_i he
    subst he
    refine ⟨?_, (fun d hd => nomatch hd), ?_, ?_⟩
    · refine linked_append.mpr ⟨nx p, lA, linked_append.mpr ⟨some p, lB, rfl, ?_⟩⟩
      rw [np]; rfl
    · rw [← List.append_assoc]
      refine List.nodup_append.mpr ⟨hnd2, by simp, ?_⟩
      intro a ha b hb hab
      simp only [List.mem_singleton] at hb
      subst hb; subst hab
      rcases List.mem_append.mp ha with h | h
      · exact hpAq h
      · exact hpB h
    · intro x hx
      have := (hall x hx).2
      simp only [List.mem_append] at this ⊢
      tauto
  · rename_i he
    refine ⟨linked_append.mpr ⟨nx p, lA, lB⟩, ?_, hnd2, fun x hx => (hall x hx).2⟩
    intro d hd
    have hm := h.close d hd
    have : d ≠ p := fun hh => he (hh ▸ hd)
    simp only [List.mem_append, List.mem_cons, this, false_or] at hm ⊢
    exact hm

/-- Taking the first object out. -/
theorem Q.pop {nx p L e} (h : Q nx (some p) L e) :
    ∃ l, L = p :: l ∧ if e = some p then Q (upd nx p none) (nx p) (l ++ [p]) none
      else Q (upd nx p none) (nx p) l e := by
  cases L with
  | nil =>
    have := h.empty_iff.mpr rfl
    cases this
  | cons a l =>
    have ha : p = a := by simpa using h.link.1
    subst ha
    refine ⟨l, rfl, ?_⟩
    have hpl := (List.nodup_cons.mp h.nodup).1
    have hnl := (List.nodup_cons.mp h.nodup).2
    have lB : Linked (upd nx p none) (nx p) l e := h.link.2.upd hpl
    have np : upd nx p none p = none := by simp [upd]
    have hall : ∀ x, upd nx p none x ≠ none → x ∈ l := by
      intro x hx
      by_cases hxp : x = p
      · rw [hxp, np] at hx; exact absurd rfl hx
      have := h.all x (by simpa [upd, hxp] using hx)
      simpa [hxp] using this
    split
    · rename_i he
      subst he
      refine ⟨linked_append.mpr ⟨some p, lB, rfl, ?_⟩, (fun d hd => nomatch hd), ?_, ?_⟩
      · rw [np]; rfl
      · refine List.nodup_append.mpr ⟨hnl, by simp, ?_⟩
        intro a ha b hb hab
        simp only [List.mem_singleton] at hb
        subst hb; subst hab
        exact hpl ha
      · intro x hx
        simp [hall x hx]
    · rename_i he
      refine ⟨lB, ?_, hnl, hall⟩
      intro d hd
      have hm := h.close d hd
      have : d ≠ p := fun hh => he (hh ▸ hd)
      simpa [this] using hm

end Rep.Proc
