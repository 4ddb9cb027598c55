/-
Origins of forms: properties.
-/
import Verif.Origin.Model
import Mathlib.Data.List.Induction

namespace Rep.Origin

/-! ### Specification -/

/-- The line that a position of a text is in. -/
def lineOf (text : List Nat) (pos : Nat) : Int := 1 + ((text.take pos).count 10 : Nat)

/-- The lists that `lexical-origin` is to look at: the form itself (the function of
a closure), then those its elements lead to, in order. -/
inductive Visits (cell : Nat → Val × Val) : Bool → Val → List Nat → Prop
  | atom : Visits cell false .atom []
  | closure {v l} : (∀ w, v ≠ .closure w) → Visits cell false v l → Visits cell false (.closure v) l
  | closure2 {v} : Visits cell false (.closure (.closure v)) []
  | cons {a l} : Visits cell true (.cons a) l → Visits cell false (.cons a) (a :: l)
  | nil {v} : (∀ a, v ≠ .cons a) → Visits cell true v []
  | elt {a l l'} : Visits cell false (cell a).1 l → Visits cell true (cell a).2 l' →
      Visits cell true (.cons a) (l ++ l')

/-! ### Proof: line numbers -/

theorem lineOf_succ (text : List Nat) (pos : Nat) (c : Nat) (h : text[pos]? = some c) :
    lineOf text (pos + 1) = lineOf text pos + if c = 10 then 1 else 0 := by
  unfold lineOf
  rw [List.take_add_one, h, Option.toList_some, List.count_append, List.count_singleton]
  by_cases hc : c = 10
  · subst hc; simp; omega
  · simp [hc]

/-- A file is as it should be. -/
def FileOk (F : File) : Prop :=
  F.pos ≤ F.text.length ∧ (F.bogus = false → F.line + F.skipped = lineOf F.text F.pos)

theorem getc_ok {F : File} (h : FileOk F) : FileOk (getc F) := by
  unfold getc
  split
  · exact h
  · rename_i c hc
    have hlt := (List.getElem?_eq_some_iff.1 hc).1
    refine ⟨hlt, fun hb => ?_⟩
    have := h.2 hb
    simp only
    rw [lineOf_succ _ _ _ hc]
    split <;> omega

theorem ungetc_ok {F F' : File} (h : FileOk F) (hu : ungetc F = some F') : FileOk F' := by
  unfold ungetc at hu
  split at hu
  · cases hu
  · rename_i hp
    split at hu
    · cases hu
    · rename_i c hc
      cases hu
      refine ⟨by have := h.1; simp only; omega, fun hb => ?_⟩
      have := h.2 hb
      have hs := lineOf_succ _ _ _ hc
      rw [Nat.sub_add_cancel (by omega)] at hs
      simp only
      rw [hs] at this
      split at this <;> simp_all <;> omega

theorem lineLength_le (l : List Nat) : lineLength l ≤ l.length := by
  induction l with
  | nil => exact Nat.le_refl _
  | cons c l ih => unfold lineLength; split <;> simp <;> omega

theorem readLine_ok {F : File} (h : FileOk F) : FileOk (readLine F) := by
  have hl := lineLength_le (F.text.drop F.pos)
  rw [List.length_drop] at hl
  refine ⟨by have := h.1; simp only [readLine]; omega, fun hb => ?_⟩
  have := h.2 hb
  simp only [readLine, lineOf] at this ⊢
  rw [List.take_add, List.count_append]
  omega

theorem rewind_ok {F : File} (ok : Bool) (h : FileOk F) : FileOk (rewind F ok) := by
  unfold rewind
  split
  · exact ⟨Nat.zero_le _, fun _ => by simp [lineOf]⟩
  · exact ⟨h.1, fun _ => by simp [lineOf]⟩

theorem getc_text (F : File) : (getc F).text = F.text ∧ (getc F).name = F.name ∧
    (getc F).bogus = F.bogus := by
  unfold getc; split <;> exact ⟨rfl, rfl, rfl⟩

theorem ungetc_text {F F' : File} (h : ungetc F = some F') : F'.text = F.text ∧
    F'.name = F.name ∧ F'.bogus = F.bogus := by
  unfold ungetc at h
  split at h
  · cases h
  · split at h
    · cases h
    · cases h; exact ⟨rfl, rfl, rfl⟩

theorem rewind_text (F : File) (ok : Bool) : (rewind F ok).text = F.text ∧
    (rewind F ok).name = F.name := by
  unfold rewind; split <;> exact ⟨rfl, rfl⟩

/-! ### Proof: the invariant -/

theorem put_same {α : Type} (f : Nat → α) (a : Nat) (v : α) : put f a v a = v := by simp [put]

theorem put_ne {α : Type} (f : Nat → α) {a x : Nat} (v : α) (h : x ≠ a) : put f a v x = f x := by
  simp [put, h]

/-- A list that was read from a file, and its item, agree with the text. -/
def LineOk (files : List File) (r : Read) (name : Nat) (line : Int) : Prop :=
  ∃ F, files[r.file]? = some F ∧ name = F.name ∧ (r.skipped = 0 → line = lineOf F.text r.paren)

structure Inv (st : St) : Prop where
  files : ∀ (f : Nat) (F : File), st.files[f]? = some F → FileOk F
  frames : ∀ f frs, st.reading = some (f, frs) → ∃ F, st.files[f]? = some F ∧
    (F.bogus = false → ∀ fr ∈ frs, fr.start + fr.skipped = lineOf F.text fr.paren)
  objs : ∀ a o, st.obj a = some o → o < st.next
  reads : ∀ r ∈ st.log, r.obj < st.next ∧ ∃ F, st.files[r.file]? = some F
  unique : st.log.Pairwise (fun r r' => r.obj ≠ r'.obj)
  items : ∀ h, ∀ i ∈ st.buckets h, hash i.form = h ∧
    (i.form ∈ st.accessible ∨ i.form ∈ st.inaccessible) ∧
    ∃ r ∈ st.log, r.recorded = true ∧ st.obj i.form = some r.obj ∧ LineOk st.files r i.file i.line
  acc : ∀ a ∈ st.accessible, (st.obj a).isSome = true ∧ st.lost a = false
  inacc : ∀ a ∈ st.inaccessible, (st.obj a).isSome = true ∧ st.lost a = true
  found : ∀ r ∈ st.log, r.recorded = true → st.obj r.addr = some r.obj →
    st.lost r.addr = false → r.addr ∈ st.accessible ∧
      ∃ i ∈ st.buckets (hash r.addr), i.form = r.addr

theorem Inv.start : Inv {} :=
  ⟨by simp, by simp, by simp, by simp, by simp, by simp, by simp, by simp, by simp⟩

/-- Names and texts of files stay. -/
def SameFiles (fs fs' : List File) : Prop :=
  ∀ (f : Nat) (F : File), fs[f]? = some F → ∃ F', fs'[f]? = some F' ∧ F'.text = F.text ∧ F'.name = F.name

theorem LineOk.mono {fs fs' : List File} (h : SameFiles fs fs') {r : Read} {name : Nat} {line : Int}
    (hl : LineOk fs r name line) : LineOk fs' r name line := by
  obtain ⟨F, h1, h2, h3⟩ := hl
  obtain ⟨F', h1', h2', h3'⟩ := h _ _ h1
  exact ⟨F', h1', by rw [h3']; exact h2, by rw [h2']; exact h3⟩

theorem Inv.setFiles {st : St} (h : Inv st) {fs : List File} (hs : SameFiles st.files fs)
    (hok : ∀ (f : Nat) (F : File), fs[f]? = some F → FileOk F)
    (hfr : ∀ f frs, st.reading = some (f, frs) → ∃ F, fs[f]? = some F ∧
      (F.bogus = false → ∀ fr ∈ frs, fr.start + fr.skipped = lineOf F.text fr.paren)) :
    Inv { st with files := fs } :=
  { files := hok
    frames := hfr
    objs := h.objs
    reads := fun r hr => by
      obtain ⟨h1, F, h2⟩ := h.reads r hr
      obtain ⟨F', h3, _⟩ := hs _ _ h2
      exact ⟨h1, F', h3⟩
    unique := h.unique
    items := fun x i hi => by
      obtain ⟨h1, h2, r, h3, h4, h5, h6⟩ := h.items x i hi
      exact ⟨h1, h2, r, h3, h4, h5, h6.mono hs⟩
    acc := h.acc
    inacc := h.inacc
    found := h.found }

theorem Inv.onFile {st st' : St} (h : Inv st) {f : Nat} {inside : Bool} {g : File → Option File}
    (hg : ∀ F F', FileOk F → g F = some F' → FileOk F' ∧ F'.text = F.text ∧ F'.name = F.name ∧
      (inside = true → F'.bogus = F.bogus))
    (hs : onFile st f inside g = some st') : Inv st' := by
  unfold Origin.onFile at hs
  split at hs
  · rename_i hmay
    split at hs
    · cases hs
    · rename_i F hF
      cases hgF : g F with
      | none => rw [hgF] at hs; cases hs
      | some F' =>
        rw [hgF] at hs
        cases hs
        obtain ⟨g1, g2, g3, g4⟩ := hg F F' (h.files f F hF) hgF
        have hlt := (List.getElem?_eq_some_iff.1 hF).1
        have hget : ∀ x, (st.files.set f F')[x]? = if x = f then some F' else st.files[x]? := by
          intro x
          rw [List.getElem?_set]
          by_cases hx : f = x
          · subst hx; simp [hlt]
          · have hx' : x ≠ f := fun e => hx e.symm
            simp [hx, hx']
        refine h.setFiles ?_ ?_ ?_
        · intro x X hX
          rw [hget]
          by_cases hx : x = f
          · subst hx
            rw [hF] at hX; cases hX
            exact ⟨F', by simp, g2, g3⟩
          · exact ⟨X, by simp [hx, hX], rfl, rfl⟩
        · intro x X hX
          rw [hget] at hX
          by_cases hx : x = f
          · simp only [hx, if_true, Option.some.injEq] at hX
            subst hX; exact g1
          · simp only [hx, if_false] at hX
            exact h.files x X hX
        · intro x frs hr
          obtain ⟨X, hX, hfr⟩ := h.frames x frs hr
          simp only [may, hr, Bool.and_eq_true, beq_iff_eq] at hmay
          obtain ⟨hin, rfl⟩ := hmay
          rw [hF] at hX; cases hX
          refine ⟨F', by rw [hget]; simp, ?_⟩
          rw [g2, g4 hin]
          exact hfr
  · cases hs

theorem Inv.alloc {st st' : St} (h : Inv st) {a : Nat} (hs : alloc st a = some st') : Inv st' := by
  unfold Origin.alloc at hs
  split at hs
  · cases hs
  · rename_i hn
    cases hs
    refine ⟨h.files, h.frames, ?_, ?_, h.unique, ?_, ?_, ?_, ?_⟩
    · intro x o ho
      simp only at ho ⊢
      by_cases hx : x = a
      · subst hx; rw [put_same] at ho; cases ho; omega
      · rw [put_ne _ _ hx] at ho; have := h.objs x o ho; omega
    · intro r hr
      obtain ⟨h1, h2⟩ := h.reads r hr
      exact ⟨by simp only; omega, h2⟩
    · intro x i hi
      obtain ⟨h1, h2, r, h3, h4, h5, h6⟩ := h.items x i hi
      refine ⟨h1, h2, r, h3, h4, ?_, h6⟩
      simp only
      rw [put_ne]
      · exact h5
      · intro e; rw [e, hn] at h5; cases h5
    · intro x hx
      obtain ⟨h1, h2⟩ := h.acc x hx
      have hne : x ≠ a := by rintro rfl; rw [hn] at h1; cases h1
      simp only
      rw [put_ne _ _ hne, put_ne _ _ hne]
      exact ⟨h1, h2⟩
    · intro x hx
      obtain ⟨h1, h2⟩ := h.inacc x hx
      have hne : x ≠ a := by rintro rfl; rw [hn] at h1; cases h1
      simp only
      rw [put_ne _ _ hne, put_ne _ _ hne]
      exact ⟨h1, h2⟩
    · intro r hr hrec ho hl
      simp only at ho hl ⊢
      by_cases hx : r.addr = a
      · rw [hx, put_same] at ho
        have := (h.reads r hr).1
        have := Option.some.inj ho
        omega
      · rw [put_ne _ _ hx] at ho hl
        exact h.found r hr hrec ho hl

theorem mem_removeItems (l : List Nat) (b : Nat → List Item)
    (hb : ∀ h, ∀ i ∈ b h, hash i.form = h) (h : Nat) (i : Item) :
    i ∈ l.foldl removeItems b h ↔ i ∈ b h ∧ i.form ∉ l := by
  induction l generalizing b with
  | nil => simp
  | cons a l ih =>
    have h1 : ∀ h, ∀ i ∈ removeItems b a h, hash i.form = h := by
      intro h i hi
      unfold removeItems at hi
      by_cases hh : h = hash a
      · subst hh; rw [put_same, List.mem_filter] at hi; exact hb _ i hi.1
      · rw [put_ne _ _ hh] at hi; exact hb _ i hi
    rw [List.foldl_cons, ih _ h1]
    unfold removeItems
    by_cases hh : h = hash a
    · subst hh
      rw [put_same, List.mem_filter]
      simp only [List.mem_cons, not_or, decide_eq_true_eq]
      exact ⟨fun ⟨⟨x, y⟩, z⟩ => ⟨x, y, z⟩, fun ⟨x, y, z⟩ => ⟨⟨x, y⟩, z⟩⟩
    · rw [put_ne _ _ hh]
      simp only [List.mem_cons, not_or]
      refine ⟨fun ⟨x, z⟩ => ⟨x, ?_, z⟩, fun ⟨x, _, z⟩ => ⟨x, z⟩⟩
      rintro e
      have := hb h i x
      rw [e] at this
      exact hh this.symm

theorem Inv.step {st st' : St} (h : Inv st) (e : Event) (hs : step st e = some st') : Inv st' := by
  cases e with
  | «open» name text =>
    simp only [Origin.step] at hs
    split at hs
    · rename_i hr
      cases hs
      refine h.setFiles ?_ ?_ ?_
      · intro x X hX
        have hlt := (List.getElem?_eq_some_iff.1 hX).1
        exact ⟨X, by rw [List.getElem?_append_left hlt]; exact hX, rfl, rfl⟩
      · intro x X hX
        rw [List.getElem?_append] at hX
        split at hX
        · exact h.files x X hX
        · cases hk : x - st.files.length with
          | zero =>
            rw [hk] at hX
            cases hX
            exact ⟨Nat.zero_le _, fun _ => by simp [lineOf]⟩
          | succ k => rw [hk] at hX; cases hX
      · intro f frs hr'
        rw [hr'] at hr; cases hr
    · cases hs
  | getc f =>
    exact h.onFile (inside := true) (fun F F' hF hg => by
      cases hg
      have := getc_text F
      exact ⟨getc_ok hF, this.1, this.2.1, fun _ => this.2.2⟩) hs
  | ungetc f =>
    exact h.onFile (inside := true) (fun F F' hF hg => by
      have := ungetc_text hg
      exact ⟨ungetc_ok hF hg, this.1, this.2.1, fun _ => this.2.2⟩) hs
  | readChars f n =>
    exact h.onFile (inside := false) (fun F F' hF hg => by
      cases hg
      exact ⟨⟨Nat.min_le_left _ _, fun hb => nomatch hb⟩, rfl, rfl, fun hb => nomatch hb⟩) hs
  | readLine f =>
    exact h.onFile (inside := false) (fun F F' hF hg => by
      cases hg
      exact ⟨readLine_ok hF, rfl, rfl, fun hb => nomatch hb⟩) hs
  | rewind f ok =>
    exact h.onFile (inside := false) (fun F F' hF hg => by
      cases hg
      have := rewind_text F ok
      exact ⟨rewind_ok ok hF, this.1, this.2, fun hb => nomatch hb⟩) hs
  | seek f pos =>
    exact h.onFile (inside := false) (fun F F' hF hg => by
      cases hg
      exact ⟨⟨Nat.min_le_left _ _, fun hb => nomatch hb⟩, rfl, rfl, fun hb => nomatch hb⟩) hs
  | beginRead f =>
    simp only [Origin.step] at hs
    split at hs
    · rename_i F hr hF
      cases hs
      refine { h with frames := fun f' frs hr' => ?_ }
      cases hr'
      exact ⟨F, hF, fun _ _ hm => nomatch hm⟩
    · cases hs
  | beginList =>
    simp only [Origin.step] at hs
    split at hs
    · cases hs
    · rename_i f frames hr
      split at hs
      · cases hs
      · rename_i F hF
        split at hs
        · rename_i hp
          cases hs
          refine { h with frames := fun f' frs hr' => ?_ }
          cases hr'
          refine ⟨F, hF, fun hb fr hm => ?_⟩
          rcases List.mem_cons.1 hm with rfl | hm
          · have h1 := (h.files f F hF).2 hb
            have h2 : ∃ c, F.text[F.pos - 1]? = some c ∧ c ≠ 10 := by
              rcases hp.2 with e | e
              · exact ⟨40, e, by decide⟩
              · exact ⟨91, e, by decide⟩
            obtain ⟨c, h3, h4⟩ := h2
            have h5 := lineOf_succ _ _ _ h3
            rw [Nat.sub_add_cancel (by omega), if_neg h4] at h5
            simp only
            omega
          · obtain ⟨F', hF', hfr⟩ := h.frames f frames hr
            rw [hF] at hF'; cases hF'
            exact hfr hb fr hm
        · cases hs
  | endList a =>
    simp only [Origin.step] at hs
    split at hs
    · rename_i f fr frames hr
      obtain ⟨F, hF, hfr⟩ := h.frames f _ hr
      have hfr2 : ∀ f' frs, some (f, frames) = some (f', frs) → ∃ F, st.files[f']? = some F ∧
          (F.bogus = false → ∀ fr ∈ frs, fr.start + fr.skipped = lineOf F.text fr.paren) := by
        intro f' frs e
        cases e
        exact ⟨F, hF, fun hb fr hm => hfr hb fr (List.mem_cons_of_mem _ hm)⟩
      split at hs
      · cases hs
        exact { h with frames := hfr2 }
      · rename_i F' a hF'
        rw [hF] at hF'; cases hF'
        cases hal : Origin.alloc st a with
        | none => rw [hal] at hs; cases hs
        | some st1 =>
          rw [hal] at hs
          cases hs
          have h1 := h.alloc hal
          have hobj : st1.obj a = some st.next ∧ st1.lost a = false ∧ st1.next = st.next + 1 ∧
              st1.log = st.log ∧ st1.files = st.files ∧ st1.recording = st.recording ∧
              st.obj a = none := by
            unfold Origin.alloc at hal
            split at hal
            · cases hal
            · cases hal
              exact ⟨put_same _ _ _, put_same _ _ _, rfl, rfl, rfl, rfl, by assumption⟩
          obtain ⟨ho, hlo, hnx, hlog, hfi, hrec, hnone⟩ := hobj
          have hreads : ∀ r ∈ (⟨st.next, a, f, fr.paren, st.recording && !F.bogus, fr.skipped⟩ : Read) :: st.log,
              r.obj < st1.next ∧ ∃ F, st1.files[r.file]? = some F := by
            intro r hr
            rcases List.mem_cons.1 hr with rfl | hr
            · exact ⟨by simp only; omega, F, by rw [hfi]; exact hF⟩
            · exact h1.reads r (by rw [hlog]; exact hr)
          have huniq : ((⟨st.next, a, f, fr.paren, st.recording && !F.bogus, fr.skipped⟩ : Read) :: st.log).Pairwise
              (fun r r' => r.obj ≠ r'.obj) := by
            refine List.Pairwise.cons ?_ h.unique
            intro r hr
            have := (h.reads r hr).1
            simp only
            omega
          unfold recordOrigin
          by_cases hb : (st1.recording && !F.bogus) = true
          · simp only [hb, if_true]
            have hb' := hb
            rw [hrec] at hb'
            have hbog : F.bogus = false := by
              simp only [Bool.and_eq_true, Bool.not_eq_true'] at hb; exact hb.2
            have hfr1 := hfr hbog fr List.mem_cons_self
            have hline : fr.skipped = 0 →
                (if fr.start > 0 then fr.start else F.line) = lineOf F.text fr.paren := by
              intro h0
              have : lineOf F.text fr.paren ≥ 1 := by unfold lineOf; omega
              rw [if_pos (by omega)]
              omega
            refine ⟨h1.files, by rw [hfi]; exact hfr2, h1.objs, hreads, huniq, ?_, ?_, ?_, ?_⟩
            · intro x i hi
              have hi : i ∈ put st1.buckets (hash a)
                (⟨a, F.name, if fr.start > 0 then fr.start else F.line⟩ :: st1.buckets (hash a)) x := hi
              have hold : i ∈ st1.buckets x → hash i.form = x ∧
                  (i.form ∈ a :: st1.accessible ∨ i.form ∈ st1.inaccessible) ∧
                  ∃ r ∈ (⟨st.next, a, f, fr.paren, st.recording && !F.bogus, fr.skipped⟩ : Read) :: st.log,
                    r.recorded = true ∧ st1.obj i.form = some r.obj ∧
                      LineOk st1.files r i.file i.line := by
                intro hi
                obtain ⟨i1, i2, r, i3, i4⟩ := h1.items x i hi
                rw [hlog] at i3
                exact ⟨i1, i2.imp_left (List.mem_cons_of_mem _), r, List.mem_cons_of_mem _ i3, i4⟩
              by_cases hx : x = hash a
              · subst hx
                rw [put_same] at hi
                rcases List.mem_cons.1 hi with rfl | hi
                · exact ⟨rfl, Or.inl List.mem_cons_self, _, List.mem_cons_self, hb', ho, F,
                    by rw [hfi]; exact hF, rfl, hline⟩
                · exact hold hi
              · rw [put_ne _ _ hx] at hi
                exact hold hi
            · intro x hx
              rcases List.mem_cons.1 hx with rfl | hx
              · exact ⟨by simp only [ho]; rfl, hlo⟩
              · exact h1.acc x hx
            · exact h1.inacc
            · intro r hr hre hor hlr
              rcases List.mem_cons.1 hr with rfl | hr
              · refine ⟨List.mem_cons_self,
                  ⟨a, F.name, if fr.start > 0 then fr.start else F.line⟩, ?_, rfl⟩
                simp only [put_same]
                exact List.mem_cons_self
              · obtain ⟨f1, i, f2, f3⟩ := h1.found r (by rw [hlog]; exact hr) hre hor hlr
                refine ⟨List.mem_cons_of_mem _ f1, i, ?_, f3⟩
                simp only
                by_cases hx : hash r.addr = hash a
                · rw [hx, put_same]
                  rw [hx] at f2
                  exact List.mem_cons_of_mem _ f2
                · rw [put_ne _ _ hx]; exact f2
          · simp only [hb, Bool.false_eq_true, if_false]
            have hb' : (st.recording && !F.bogus) = false := by
              rw [← hrec]; simpa using hb
            refine ⟨h1.files, by rw [hfi]; exact hfr2, h1.objs, hreads, huniq, ?_, h1.acc,
              h1.inacc, ?_⟩
            · intro x i hi
              obtain ⟨i1, i2, r, i3, i4⟩ := h1.items x i hi
              rw [hlog] at i3
              exact ⟨i1, i2, r, List.mem_cons_of_mem _ i3, i4⟩
            · intro r hr hre hor hlr
              rcases List.mem_cons.1 hr with rfl | hr
              · simp only [hb'] at hre; cases hre
              · exact h1.found r (by rw [hlog]; exact hr) hre hor hlr
      · cases hs
    · cases hs
  | endRead =>
    simp only [Origin.step] at hs
    split at hs
    · cases hs
      exact { h with frames := fun f' frs hr' => nomatch hr' }
    · cases hs
  | record b =>
    simp only [Origin.step] at hs
    split at hs
    · cases hs; exact { h with }
    · cases hs
  | alloc a => exact h.alloc hs
  | set a car cdr =>
    simp only [Origin.step] at hs
    split at hs
    · cases hs; exact { h with }
    · cases hs
  | gc live extra =>
    simp only [Origin.step] at hs
    split at hs
    · rename_i hg
      simp only [Bool.and_eq_true, List.all_eq_true, List.mem_filter, Bool.not_eq_true'] at hg
      obtain ⟨⟨hr, hin⟩, hmv⟩ := hg
      cases hs
      have hkeep : ∀ a, a ∈ st.accessible ∨ a ∈ st.inaccessible → (live a || extra a) = true := by
        rintro a (ha | ha)
        · cases hl : live a with
          | true => rfl
          | false => simp [hmv a ⟨ha, hl⟩]
        · simp [hin a ha]
      refine ⟨h.files, h.frames, ?_, h.reads, h.unique, ?_, ?_, ?_, ?_⟩
      · intro a o ho
        simp only at ho
        split at ho
        · exact h.objs a o ho
        · cases ho
      · intro x i hi
        obtain ⟨h1, h2, r, h3, h4, h5, h6⟩ := h.items x i hi
        refine ⟨h1, ?_, r, h3, h4, ?_, h6⟩
        · simp only [List.mem_append, List.mem_reverse, List.mem_filter]
          rcases h2 with h2 | h2
          · cases hl : live i.form with
            | true => exact Or.inl ⟨h2, rfl⟩
            | false => exact Or.inr (Or.inl ⟨h2, rfl⟩)
          · exact Or.inr (Or.inr h2)
        · simp only [hkeep _ h2, if_true]; exact h5
      · intro a ha
        simp only [List.mem_filter] at ha
        obtain ⟨h1, h2⟩ := h.acc a ha.1
        simp [ha.2, h1, h2]
      · intro a ha
        simp only [List.mem_append, List.mem_reverse, List.mem_filter] at ha
        rcases ha with ⟨ha, hl⟩ | ha
        · obtain ⟨h1, h2⟩ := h.acc a ha
          simp only [hkeep a (Or.inl ha), if_true]
          exact ⟨h1, by simp [hl]⟩
        · obtain ⟨h1, h2⟩ := h.inacc a ha
          simp only [hkeep a (Or.inr ha), if_true]
          exact ⟨h1, by simp [h2]⟩
      · intro r hr hrec ho hl
        simp only [Bool.or_eq_false_iff, Bool.not_eq_false'] at ho hl
        rw [hl.2] at ho
        simp only [Bool.true_or, if_true] at ho
        obtain ⟨h1, h2⟩ := h.found r hr hrec ho hl.1
        exact ⟨List.mem_filter.2 ⟨h1, hl.2⟩, h2⟩
    · cases hs
  | afterGc =>
    simp only [Origin.step] at hs
    split at hs
    · cases hs
      have hm := mem_removeItems st.inaccessible st.buckets (fun x i hi => (h.items x i hi).1)
      refine ⟨h.files, h.frames, h.objs, h.reads, h.unique, ?_, h.acc, (fun _ ha => nomatch ha), ?_⟩
      · intro x i hi
        obtain ⟨hi, hni⟩ := (hm x i).1 hi
        obtain ⟨h1, h2, h3⟩ := h.items x i hi
        exact ⟨h1, Or.inl (h2.resolve_right hni), h3⟩
      · intro r hr hrec ho hl
        obtain ⟨h1, i, h2, h3⟩ := h.found r hr hrec ho hl
        refine ⟨h1, i, (hm _ i).2 ⟨h2, ?_⟩, h3⟩
        rw [h3]
        intro hc
        rw [(h.inacc _ hc).2] at hl
        cases hl
    · cases hs

theorem inv_run {evs : List Event} {st : St} (h : run evs = some st) : Inv st := by
  induction evs using List.reverseRecOn generalizing st with
  | nil => cases h; exact Inv.start
  | append_singleton evs e ih =>
    unfold run at h ih
    rw [List.foldl_append] at h
    cases hr : evs.foldl (fun st e => st.bind fun st => step st e) (some {}) with
    | none => rw [hr] at h; cases h
    | some st1 =>
      rw [hr] at h
      exact (ih hr).step e h

theorem unique_read {l : List Read} (h : l.Pairwise fun r r' => r.obj ≠ r'.obj) {r r' : Read}
    (hr : r ∈ l) (hr' : r' ∈ l) (he : r.obj = r'.obj) : r = r' := by
  induction l with
  | nil => cases hr
  | cons x l ih =>
    obtain ⟨h1, h2⟩ := List.pairwise_cons.1 h
    rcases List.mem_cons.1 hr with e | hr2 <;> rcases List.mem_cons.1 hr' with e' | hr2'
    · rw [e, e']
    · subst e; exact absurd he (h1 _ hr2')
    · subst e'; exact absurd he.symm (h1 _ hr2)
    · exact ih h2 hr2 hr2'

/-! ### The theorems -/

/-- Property C78: the number of the line in a file, if it is not marked as unknown, is
right, except for the lines read by `read-line` and what a failed seek did. -/
theorem C78_line_partial {evs : List Event} {st : St} (h : run evs = some st) (f : Nat) (F : File)
    (hF : st.files[f]? = some F) (hb : F.bogus = false) (hs : F.skipped = 0) :
    F.line = lineOf F.text F.pos := by
  have := ((inv_run h).files f F hF).2 hb
  omega

/-- Property C78: for a list that was read while origins were recorded, and was never
found unreachable, `lexical-origin` returns the file and the line of its
parenthesis. -/
theorem C78_origin_partial {evs : List Event} {st : St} (h : run evs = some st) (r : Read)
    (hr : r ∈ st.log) (hrec : r.recorded = true) (hs : r.skipped = 0)
    (hobj : st.obj r.addr = some r.obj) (hl : st.lost r.addr = false) (n : Nat) :
    ∃ F, st.files[r.file]? = some F ∧
      lexicalOrigin st (n + 1) false (.cons r.addr) = some (some (F.name, lineOf F.text r.paren)) := by
  have hi := inv_run h
  obtain ⟨_, i, h1, h2⟩ := hi.found r hr hrec hobj hl
  simp only [lexicalOrigin]
  cases hf : (st.buckets (hash r.addr)).find? fun i => i.form == r.addr with
  | none =>
    have := List.find?_eq_none.1 hf i h1
    simp [h2] at this
  | some j =>
    have hj := List.find?_some hf
    have hj2 := List.mem_of_find?_eq_some hf
    obtain ⟨_, _, r', j1, j2, j3, F, j4, j5, j6⟩ := hi.items _ j hj2
    simp only [beq_iff_eq] at hj
    rw [hj, hobj] at j3
    have : r' = r := unique_read hi.unique j1 hr (Option.some.inj j3).symm
    subst this
    refine ⟨F, j4, ?_⟩
    simp only [lookup, hf, Option.map_some, j5, j6 hs]

/-- Property C78: what is recorded for an object is never that of another one that
was at the same address before: it was read itself, from that file, in that line. -/
theorem C78_same_object {evs : List Event} {st : St} (h : run evs = some st) (a : Nat)
    (name : Nat) (line : Int) (hl : lookup st a = some (name, line)) :
    ∃ r ∈ st.log, st.obj a = some r.obj ∧ r.recorded = true ∧ ∃ F, st.files[r.file]? = some F ∧
      name = F.name ∧ (r.skipped = 0 → line = lineOf F.text r.paren) := by
  have hi := inv_run h
  unfold lookup at hl
  cases hf : (st.buckets (hash a)).find? fun i => i.form == a with
  | none => rw [hf] at hl; cases hl
  | some j =>
    rw [hf] at hl
    cases hl
    have hj := List.find?_some hf
    simp only [beq_iff_eq] at hj
    obtain ⟨_, _, r, j1, j2, j3, j4⟩ := hi.items _ j (List.mem_of_find?_eq_some hf)
    rw [hj] at j3
    exact ⟨r, j1, j3, j2, j4⟩

/-- Property C78: `lexical-origin` of a form without circular structure is that of
the first of the form and the forms in it, in the order of the text, that has one. -/
theorem C78_inner_partial (st : St) {scan : Bool} {v : Val} {l : List Nat}
    (h : Visits st.cell scan v l) :
    ∃ N, ∀ n ≥ N, lexicalOrigin st n scan v = some (l.findSome? (lookup st)) := by
  induction h with
  | atom =>
    refine ⟨1, fun n hn => ?_⟩
    obtain ⟨m, rfl⟩ : ∃ m, n = m + 1 := ⟨n - 1, by omega⟩
    simp [lexicalOrigin]
  | @closure v l hv _ ih =>
    obtain ⟨N, hN⟩ := ih
    refine ⟨N + 1, fun n hn => ?_⟩
    obtain ⟨m, rfl⟩ : ∃ m, n = m + 1 := ⟨n - 1, by omega⟩
    rw [← hN (m + 1) (by omega)]
    cases v with
    | atom => simp [lexicalOrigin]
    | cons a => simp [lexicalOrigin]
    | closure w => exact absurd rfl (hv w)
  | closure2 =>
    refine ⟨1, fun n hn => ?_⟩
    obtain ⟨m, rfl⟩ : ∃ m, n = m + 1 := ⟨n - 1, by omega⟩
    simp [lexicalOrigin]
  | @cons a l _ ih =>
    obtain ⟨N, hN⟩ := ih
    refine ⟨N + 1, fun n hn => ?_⟩
    obtain ⟨m, rfl⟩ : ∃ m, n = m + 1 := ⟨n - 1, by omega⟩
    simp only [lexicalOrigin, List.findSome?_cons]
    cases lookup st a with
    | some r => rfl
    | none => exact hN m (by omega)
  | @nil v hv =>
    refine ⟨1, fun n hn => ?_⟩
    obtain ⟨m, rfl⟩ : ∃ m, n = m + 1 := ⟨n - 1, by omega⟩
    cases v with
    | cons a => exact absurd rfl (hv a)
    | atom => simp [lexicalOrigin]
    | closure w => simp [lexicalOrigin]
  | @elt a l l' _ _ ih1 ih2 =>
    obtain ⟨N1, h1⟩ := ih1
    obtain ⟨N2, h2⟩ := ih2
    refine ⟨N1 + N2 + 1, fun n hn => ?_⟩
    obtain ⟨m, rfl⟩ : ∃ m, n = m + 1 := ⟨n - 1, by omega⟩
    simp only [lexicalOrigin, h1 m (by omega), h2 m (by omega), List.findSome?_append]
    cases l.findSome? (lookup st) <;> rfl

/-! ### Examples and violations -/

/-- "\n (a\n (b))\n": the outer list is in line 2, the inner one in line 3. -/
def text : List Nat := [10, 32, 40, 97, 10, 32, 40, 98, 41, 41, 10]

/-- The reader reads that text: the outer list is at 16, the inner one at 32. -/
def readIt : List Event :=
  [.beginRead 0, .getc 0, .getc 0, .getc 0, .beginList, .getc 0, .getc 0, .getc 0, .getc 0, .beginList,
   .getc 0, .getc 0, .endList (some 32), .getc 0, .getc 0, .ungetc 0, .endList (some 16), .alloc 24,
   .set 16 .atom (.cons 24), .set 24 (.cons 32) .atom, .endRead]

/-- What is found for some values in the end. -/
def found (evs : List Event) (vs : List Val) : Option (List (Option (Option (Nat × Int)))) :=
  (run evs).map fun st => vs.map (lexicalOrigin st 20 false)

example : found ([.open 7 text, .record true] ++ readIt) [.cons 16, .cons 32, .closure (.cons 16)]
    = some [some (some (7, 2)), some (some (7, 3)), some (some (7, 2))] := by
  decide +kernel

/-- A new list with the form in it. -/
example : found ([.open 7 text, .record true] ++ readIt ++ [.alloc 40, .set 40 (.cons 32) .atom])
    [.cons 40] = some [some (some (7, 3))] := by
  decide +kernel

/-- The form is collected, and another one read from another file takes its place. -/
example : found ([.open 7 text, .record true] ++ readIt ++
    [.gc (fun a => a == 99) (fun a => a == 16 || a == 24 || a == 32), .afterGc,
     .gc (fun _ => false) (fun _ => false), .open 8 [40, 97, 41],
     .beginRead 1, .getc 1, .beginList, .getc 1, .endList (some 16), .endRead, .alloc 32])
    [.cons 16, .cons 32] = some [some (some (8, 1)), some none] := by
  decide +kernel

/-- The hypotheses of `C78_origin_partial` are met. -/
example : ∃ st, run ([.open 7 text, .record true] ++ readIt) = some st ∧
    st.log.map (fun r => (r.addr, r.recorded, r.skipped, st.obj r.addr == some r.obj, st.lost r.addr))
      = [(16, true, 0, true, false), (32, true, 0, true, false)] :=
  ⟨_, rfl, by decide +kernel⟩

/-- `read-line` does not count the line: the form, in line 2, is said to be in line 1. -/
theorem C78_read_line_violated :
    found [.open 7 [97, 10, 40, 98, 41], .record true, .readLine 0, .beginRead 0, .getc 0, .beginList,
      .getc 0, .getc 0, .endList (some 16), .endRead] [.cons 16] = some [some (some (7, 1))] ∧
    lineOf [97, 10, 40, 98, 41] 2 = 2 := by
  decide +kernel

/-- A seek to the start that fails (a pipe): the lines count from there. -/
theorem C78_seek_violated :
    found [.open 7 [97, 10, 40, 98, 41], .record true, .getc 0, .getc 0, .rewind 0 false, .beginRead 0,
      .getc 0, .beginList, .getc 0, .getc 0, .endList (some 16), .endRead] [.cons 16]
      = some [some (some (7, 1))] ∧
    lineOf [97, 10, 40, 98, 41] 2 = 2 := by
  decide +kernel

/-- A form that was found unreachable, but is got back through another guardian,
has lost its origin. -/
theorem C78_guarded_violated :
    found ([.open 7 text, .record true] ++ readIt ++
      [.gc (fun _ => false) (fun a => a == 16 || a == 24 || a == 32), .afterGc]) [.cons 16]
      = some [some none] := by
  decide +kernel

/-- A circular list without an origin: the search does not end. -/
theorem C78_circular_violated (n : Nat) :
    ∃ st, run [.alloc 16, .set 16 .atom (.cons 16)] = some st ∧
      lexicalOrigin st n false (.cons 16) = none := by
  refine ⟨_, rfl, ?_⟩
  have key : ∀ st : St, st.cell 16 = (.atom, .cons 16) → st.buckets (hash 16) = [] →
      ∀ n, lexicalOrigin st n true (.cons 16) = none ∧ lexicalOrigin st n false (.cons 16) = none := by
    intro st hc hb n
    induction n with
    | zero => exact ⟨rfl, rfl⟩
    | succ n ih =>
      refine ⟨?_, ?_⟩
      · simp only [lexicalOrigin, hc]
        cases n with
        | zero => rfl
        | succ n => simpa [lexicalOrigin] using ih.1
      · simp only [lexicalOrigin, lookup, hb, List.find?_nil, Option.map_none]
        exact ih.1
  exact (key _ rfl rfl n).2

end Rep.Origin
