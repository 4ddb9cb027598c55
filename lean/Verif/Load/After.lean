/-
Loading libraries: the functions called after a library was loaded.
-/
import Verif.Load.Modules

namespace Rep.Load

variable {lib : String → Option File} {thunk : Nat → List Cmd}

/-- Something went wrong in a function called after a load, or in the syntax of a
file. -/
def Flaw (log : List Event) : Prop := .bad ∈ log ∨ ∃ id, .broken id ∈ log

/-- The number of the function that the event calls. -/
def Event.callOf : Event → Option Nat
  | .call _ id => some id
  | _ => none

def called (log : List Event) : List Nat := log.filterMap Event.callOf

theorem mem_called {log : List Event} {id : Nat} : id ∈ called log ↔ ∃ n, .call n id ∈ log := by
  unfold called
  rw [List.mem_filterMap]
  constructor
  · rintro ⟨e, he, h⟩
    cases e <;> simp only [Event.callOf, reduceCtorEq] at h
    cases h
    exact ⟨_, he⟩
  · rintro ⟨n, h⟩
    exact ⟨_, h, rfl⟩

/-- The functions that are registered, with their libraries. -/
def pend (l : List (String × List Thunk)) : List (Nat × String) :=
  l.flatMap fun e => e.2.map fun t => (t.id, e.1)

theorem takeAfter_none {file : String} : ∀ {l}, takeAfter file l = none →
    ∀ id, (id, file) ∉ pend l
  | [], _, _ => by simp [pend]
  | (k, ts) :: rest, h, id => by
    simp only [takeAfter] at h
    split at h
    · cases h
    · rename_i hk
      have := takeAfter_none (Option.map_eq_none_iff.1 h) id
      simp only [pend, List.flatMap_cons, List.mem_append, List.mem_map, Prod.mk.injEq, not_or]
      refine ⟨?_, this⟩
      rintro ⟨t, -, -, h⟩
      exact hk h

theorem takeAfter_some {file : String} : ∀ {l ts rest}, takeAfter file l = some (ts, rest) →
    (pend l).Perm ((ts.map fun t => (t.id, file)) ++ pend rest)
  | [], _, _, h => by cases h
  | (k, us) :: l, ts, rest, h => by
    simp only [takeAfter] at h
    split at h
    · rename_i hk
      cases h
      subst hk
      exact .refl _
    · obtain ⟨r, hr, h⟩ := Option.map_eq_some_iff.1 h
      cases h
      have := takeAfter_some (rest := r.2) (ts := r.1) hr
      simp only [pend, List.flatMap_cons] at this ⊢
      refine (this.append_left _).trans ?_
      rw [← List.append_assoc, ← List.append_assoc]
      exact List.perm_append_comm.append_right _

theorem addAfter_pend {file : String} {t : Thunk} : ∀ {l l'}, addAfter file t l = some l' →
    (pend l').Perm ((t.id, file) :: pend l)
  | [], _, h => by cases h
  | (k, us) :: l, l', h => by
    simp only [addAfter] at h
    split at h
    · rename_i hk
      cases h
      subst hk
      exact .refl _
    · obtain ⟨r, hr, rfl⟩ := Option.map_eq_some_iff.1 h
      have := addAfter_pend hr
      simp only [pend, List.flatMap_cons] at this ⊢
      refine (this.append_left _).trans ?_
      exact List.perm_middle

theorem callAfterLoad_pend (st : St) (file : String) (cur fn : Nat) :
    (pend (st.callAfterLoad file cur fn).afters).Perm ((st.regs, file) :: pend st.afters) := by
  unfold St.callAfterLoad
  simp only
  split
  · rename_i l h
    exact addAfter_pend h
  · exact .refl _

/-! ### The invariant -/

/-- Functions taken out of the list and not yet called: number, library, and the load
that is going to call it. -/
abbrev Limbo := List (Nat × String × Nat)

def ids (st : St) (limbo : Limbo) : List Nat :=
  (pend st.afters).map Prod.fst ++ (limbo.map Prod.fst ++ called st.log)

def CallOk (a : List Event) (n id : Nat) : Prop :=
  ∃ l, .reg l id ∈ a ∧ .read n l ∈ a ∧ .ret n l ∉ a

def RetOk (limbo : Limbo) (a b : List Event) (l : String) : Prop :=
  ∀ id, .reg l id ∈ a → (∃ m, .call m id ∈ a) ∨
    (∃ m, .read m l ∈ a ∧ .ret m l ∉ a ∧ (.call m id ∈ b ∨ (id, l, m) ∈ limbo))

structure J (st : St) (limbo : Limbo) : Prop where
  nodup : (ids st limbo).Nodup
  small : ∀ id ∈ ids st limbo, id < st.regs
  regSmall : ∀ l id, .reg l id ∈ st.log → id < st.regs
  regOne : ∀ l l' id, .reg l id ∈ st.log → .reg l' id ∈ st.log → l = l'
  pendReg : ∀ id l, (id, l) ∈ pend st.afters → .reg l id ∈ st.log
  limboOk : ∀ id l m, (id, l, m) ∈ limbo →
    .reg l id ∈ st.log ∧ .read m l ∈ st.log ∧ .ret m l ∉ st.log
  ofReg : ∀ l id, .reg l id ∈ st.log →
    (id, l) ∈ pend st.afters ∨ (∃ m, (id, l, m) ∈ limbo) ∨ id ∈ called st.log ∨ Flaw st.log
  reads : ∀ m l, .read m l ∈ st.log → m < st.loads
  retSmall : ∀ m l, .ret m l ∈ st.log → m < st.loads
  calls : ∀ a n id b, st.log = a ++ .call n id :: b → CallOk a n id
  rets : ∀ a n l b, st.log = a ++ .ret n l :: b → Flaw st.log ∨ RetOk limbo a b l

theorem J.congr {st st' : St} {limbo : Limbo} (h : J st limbo) (h1 : st'.afters = st.afters)
    (h2 : st'.log = st.log) (h3 : st'.regs = st.regs) (h4 : st'.loads = st.loads) :
    J st' limbo := by
  obtain ⟨⟩ := h
  constructor <;> simp only [ids, h1, h2, h3, h4] at * <;> assumption

theorem snoc_split {log a b : List Event} {e x : Event} (h : log ++ [e] = a ++ x :: b) :
    (a = log ∧ x = e ∧ b = []) ∨ ∃ b', b = b' ++ [e] ∧ log = a ++ x :: b' := by
  rcases List.eq_nil_or_concat b with rfl | ⟨b', e', rfl⟩
  · have := List.append_inj' h rfl
    have h2 : e = x := by simpa using this.2
    exact .inl ⟨this.1.symm, h2.symm, rfl⟩
  · have h' : log ++ [e] = (a ++ x :: b') ++ [e'] := by rw [h]; simp
    have := List.append_inj' h' rfl
    have h2 : e = e' := by simpa using this.2
    exact .inr ⟨b', by rw [h2]; simp, this.1⟩

theorem Flaw.append {log : List Event} (h : Flaw log) (ext : List Event) : Flaw (log ++ ext) := by
  rcases h with h | ⟨id, h⟩
  · exact .inl (List.mem_append_left _ h)
  · exact .inr ⟨id, List.mem_append_left _ h⟩

theorem RetOk.mono {limbo limbo' : Limbo} {a b b' : List Event} {l : String}
    (h : RetOk limbo a b l) (hb : ∀ e ∈ b, e ∈ b')
    (hl : ∀ id m, (id, l, m) ∈ limbo → (id, l, m) ∈ limbo' ∨ .call m id ∈ b') :
    RetOk limbo' a b' l := by
  intro id hid
  rcases h id hid with h | ⟨m, h1, h2, h3⟩
  · exact .inl h
  · refine .inr ⟨m, h1, h2, ?_⟩
    rcases h3 with h3 | h3
    · exact .inl (hb _ h3)
    · exact (hl id m h3).symm

/-- Events the invariant does not speak of. -/
def Boring : Event → Prop
  | .reg _ _ | .read _ _ | .ret _ _ | .call _ _ => False
  | _ => True

theorem called_append (a b : List Event) : called (a ++ b) = called a ++ called b := by
  simp [called]

theorem J.note {st : St} {limbo : Limbo} (h : J st limbo) {e : Event} (he : Boring e) :
    J (st.note e) limbo := by
  have hc : called (st.log ++ [e]) = called st.log := by
    rw [called_append]
    cases e <;> simp [called, Event.callOf, Boring] at he ⊢
  have hm : ∀ {x}, ¬ Boring x → x ∈ st.log ++ [e] → x ∈ st.log := by
    intro x hx h
    rcases List.mem_append.1 h with h | h
    · exact h
    · rw [List.mem_singleton.1 h] at hx; exact absurd he hx
  have hi : ids (st.note e) limbo = ids st limbo := by simp only [ids, note_log, hc]; rfl
  refine ⟨by rw [hi]; exact h.nodup, by rw [hi]; exact h.small, ?_, ?_, ?_, ?_, ?_, ?_, ?_, ?_, ?_⟩
  · exact fun l id hr => h.regSmall l id (hm (by simp [Boring]) hr)
  · exact fun l l' id h1 h2 => h.regOne l l' id (hm (by simp [Boring]) h1) (hm (by simp [Boring]) h2)
  · exact fun id l hp => List.mem_append_left _ (h.pendReg id l hp)
  · intro id l m hl
    obtain ⟨h1, h2, h3⟩ := h.limboOk id l m hl
    exact ⟨List.mem_append_left _ h1, List.mem_append_left _ h2,
      fun h' => h3 (hm (by simp [Boring]) h')⟩
  · intro l id hr
    rcases h.ofReg l id (hm (by simp [Boring]) hr) with h | h | h | h
    · exact .inl h
    · exact .inr (.inl h)
    · exact .inr (.inr (.inl (by rw [note_log, hc]; exact h)))
    · exact .inr (.inr (.inr (h.append _)))
  · exact fun m l hr => h.reads m l (hm (by simp [Boring]) hr)
  · exact fun m l hr => h.retSmall m l (hm (by simp [Boring]) hr)
  · intro a n id b hl
    rcases snoc_split hl with ⟨-, h1, -⟩ | ⟨b', -, h1⟩
    · rw [← h1] at he; exact absurd he (by simp [Boring])
    · exact h.calls a n id b' h1
  · intro a n l b hl
    rcases snoc_split hl with ⟨-, h1, -⟩ | ⟨b', h2, h1⟩
    · rw [← h1] at he; exact absurd he (by simp [Boring])
    · rcases h.rets a n l b' h1 with h | h
      · exact .inl (h.append _)
      · exact .inr (h.mono (by rw [h2]; intro x hx; simp [hx]) fun _ _ h => .inl h)

/-- `call-after-load`. -/
theorem J.reg {st : St} {limbo : Limbo} (h : J st limbo) (file : String) (cur fn : Nat) :
    J (st.callAfterLoad file cur fn) limbo := by
  have hlog : (st.callAfterLoad file cur fn).log = st.log ++ [.reg file st.regs] := rfl
  have hp := callAfterLoad_pend st file cur fn
  have hm : ∀ {x}, (∀ l i, x ≠ .reg l i) → x ∈ st.log ++ [.reg file st.regs] → x ∈ st.log := by
    intro x hx h
    rcases List.mem_append.1 h with h | h
    · exact h
    · exact absurd (List.mem_singleton.1 h) (hx _ _)
  have hr : ∀ {l i}, .reg l i ∈ st.log ++ [.reg file st.regs] →
      .reg l i ∈ st.log ∨ (l = file ∧ i = st.regs) := by
    intro l i h
    rcases List.mem_append.1 h with h | h
    · exact .inl h
    · cases List.mem_singleton.1 h; exact .inr ⟨rfl, rfl⟩
  have hc : called (st.callAfterLoad file cur fn).log = called st.log := by
    rw [hlog, called_append]; simp [called, Event.callOf]
  have hi : (ids (st.callAfterLoad file cur fn) limbo).Perm (st.regs :: ids st limbo) := by
    unfold ids
    rw [hc]
    exact (hp.map Prod.fst).append_right _
  refine ⟨?_, ?_, ?_, ?_, ?_, ?_, ?_, ?_, ?_, ?_, ?_⟩
  · rw [hi.nodup_iff, List.nodup_cons]
    exact ⟨fun hn => Nat.lt_irrefl _ (h.small _ hn), h.nodup⟩
  · intro id hid
    rw [hi.mem_iff, List.mem_cons] at hid
    show id < st.regs + 1
    rcases hid with rfl | hid
    · omega
    · have := h.small id hid; omega
  · intro l id h'
    show id < st.regs + 1
    rcases hr h' with h' | ⟨-, rfl⟩
    · have := h.regSmall l id h'; omega
    · omega
  · intro l l' id h1 h2
    rcases hr h1 with h1 | ⟨rfl, rfl⟩ <;> rcases hr h2 with h2 | ⟨h3, h4⟩
    · exact h.regOne l l' id h1 h2
    · have := h.regSmall _ _ h1; omega
    · have := h.regSmall _ _ h2; omega
    · exact h3.symm
  · intro id l h'
    rw [hp.mem_iff, List.mem_cons] at h'
    rcases h' with h' | h'
    · cases h'; rw [hlog]; simp
    · exact List.mem_append_left _ (h.pendReg id l h')
  · intro id l m hl
    obtain ⟨h1, h2, h3⟩ := h.limboOk id l m hl
    exact ⟨List.mem_append_left _ h1, List.mem_append_left _ h2, fun h' => h3 (hm (by simp) h')⟩
  · intro l id h'
    rw [hc]
    rcases hr h' with h' | ⟨rfl, rfl⟩
    · rcases h.ofReg l id h' with h | h | h | h
      · exact .inl (hp.mem_iff.2 (List.mem_cons_of_mem _ h))
      · exact .inr (.inl h)
      · exact .inr (.inr (.inl h))
      · exact .inr (.inr (.inr (h.append _)))
    · exact .inl (hp.mem_iff.2 (by simp))
  · exact fun m l h' => h.reads m l (hm (by simp) h')
  · exact fun m l h' => h.retSmall m l (hm (by simp) h')
  · intro a n id b hl
    rcases snoc_split hl with ⟨-, h1, -⟩ | ⟨b', -, h1⟩
    · cases h1
    · exact h.calls a n id b' h1
  · intro a n l b hl
    rcases snoc_split hl with ⟨-, h1, -⟩ | ⟨b', h2, h1⟩
    · cases h1
    · rcases h.rets a n l b' h1 with h | h
      · exact .inl (h.append _)
      · exact .inr (h.mono (by rw [h2]; intro x hx; simp [hx]) fun _ _ h => .inl h)

/-- A file was read. -/
theorem J.read {st : St} {limbo : Limbo} (h : J st limbo) (l : String) :
    J (st.noteRead l) limbo ∧ .ret st.loads l ∉ (st.noteRead l).log := by
  have hm : ∀ {x}, (∀ n l, x ≠ .read n l) → x ∈ st.log ++ [.read st.loads l] → x ∈ st.log := by
    intro x hx h
    rcases List.mem_append.1 h with h | h
    · exact h
    · exact absurd (List.mem_singleton.1 h) (hx _ _)
  have hc : called (st.noteRead l).log = called st.log := by
    show called (st.log ++ _) = _
    rw [called_append]; simp [called, Event.callOf]
  have hi : ids (st.noteRead l) limbo = ids st limbo := by simp only [ids, hc]; rfl
  refine ⟨⟨by rw [hi]; exact h.nodup, by rw [hi]; exact h.small, ?_, ?_, ?_, ?_, ?_, ?_, ?_, ?_, ?_⟩,
    fun h' => Nat.lt_irrefl _ (h.retSmall _ _ (hm (by simp) h'))⟩
  · exact fun l id hr => h.regSmall l id (hm (by simp) hr)
  · exact fun l l' id h1 h2 => h.regOne l l' id (hm (by simp) h1) (hm (by simp) h2)
  · exact fun id l hp => List.mem_append_left _ (h.pendReg id l hp)
  · intro id l m hl
    obtain ⟨h1, h2, h3⟩ := h.limboOk id l m hl
    exact ⟨List.mem_append_left _ h1, List.mem_append_left _ h2, fun h' => h3 (hm (by simp) h')⟩
  · intro l id hr
    rw [hc]
    rcases h.ofReg l id (hm (by simp) hr) with h | h | h | h
    · exact .inl h
    · exact .inr (.inl h)
    · exact .inr (.inr (.inl h))
    · exact .inr (.inr (.inr (h.append _)))
  · intro m l' hr
    show m < st.loads + 1
    rcases List.mem_append.1 hr with hr | hr
    · have := h.reads m l' hr; omega
    · cases List.mem_singleton.1 hr; omega
  · intro m l' hr
    show m < st.loads + 1
    have := h.retSmall m l' (hm (by simp) hr); omega
  · intro a n id b hl
    rcases snoc_split hl with ⟨-, h1, -⟩ | ⟨b', -, h1⟩
    · cases h1
    · exact h.calls a n id b' h1
  · intro a n l b hl
    rcases snoc_split hl with ⟨-, h1, -⟩ | ⟨b', h2, h1⟩
    · cases h1
    · rcases h.rets a n l b' h1 with h | h
      · exact .inl (h.append _)
      · exact .inr (h.mono (by rw [h2]; intro x hx; simp [hx]) fun _ _ h => .inl h)

/-- A load returns. -/
theorem J.ret {st : St} {limbo : Limbo} (h : J st limbo) {n : Nat} {l : String}
    (hn : n < st.loads) (hne : ∀ x ∈ limbo, x.2.2 ≠ n) (hp : ∀ id, (id, l) ∉ pend st.afters) :
    J (st.note (.ret n l)) limbo := by
  have hm : ∀ {x}, x ≠ .ret n l → x ∈ st.log ++ [.ret n l] → x ∈ st.log := by
    intro x hx h
    rcases List.mem_append.1 h with h | h
    · exact h
    · exact absurd (List.mem_singleton.1 h) hx
  have hc : called (st.note (.ret n l)).log = called st.log := by
    show called (st.log ++ _) = _
    rw [called_append]; simp [called, Event.callOf]
  have hi : ids (st.note (.ret n l)) limbo = ids st limbo := by simp only [ids, hc]; rfl
  refine ⟨by rw [hi]; exact h.nodup, by rw [hi]; exact h.small, ?_, ?_, ?_, ?_, ?_, ?_, ?_, ?_, ?_⟩
  · exact fun l id hr => h.regSmall l id (hm (by simp) hr)
  · exact fun l l' id h1 h2 => h.regOne l l' id (hm (by simp) h1) (hm (by simp) h2)
  · exact fun id l hp => List.mem_append_left _ (h.pendReg id l hp)
  · intro id l' m hl
    obtain ⟨h1, h2, h3⟩ := h.limboOk id l' m hl
    refine ⟨List.mem_append_left _ h1, List.mem_append_left _ h2, fun h' => h3 (hm ?_ h')⟩
    intro he
    cases he
    exact hne _ hl rfl
  · intro l id hr
    rw [hc]
    rcases h.ofReg l id (hm (by simp) hr) with h | h | h | h
    · exact .inl h
    · exact .inr (.inl h)
    · exact .inr (.inr (.inl h))
    · exact .inr (.inr (.inr (h.append _)))
  · exact fun m l hr => h.reads m l (hm (by simp) hr)
  · intro m l' hr
    rcases List.mem_append.1 hr with hr | hr
    · exact h.retSmall m l' hr
    · cases List.mem_singleton.1 hr; exact hn
  · intro a n id b hl
    rcases snoc_split hl with ⟨-, h1, -⟩ | ⟨b', -, h1⟩
    · cases h1
    · exact h.calls a n id b' h1
  · intro a m l' b hl
    rcases snoc_split hl with ⟨h1, h2, h3⟩ | ⟨b', h2, h1⟩
    · cases h2
      subst h1 h3
      by_cases hf : Flaw st.log
      · exact .inl (hf.append _)
      refine .inr fun id hid => ?_
      rcases h.ofReg _ id hid with h' | ⟨m, h'⟩ | h' | h'
      · exact absurd h' (hp id)
      · obtain ⟨-, h2, h3⟩ := h.limboOk _ _ _ h'
        exact .inr ⟨m, h2, h3, .inr h'⟩
      · exact .inl (mem_called.1 h')
      · exact absurd h' hf
    · rcases h.rets a m l' b' h1 with h | h
      · exact .inl (h.append _)
      · exact .inr (h.mono (by rw [h2]; intro x hx; simp [hx]) fun _ _ h => .inl h)

/-- A function is called. -/
theorem J.call {st : St} {limbo : Limbo} {id n : Nat} {l : String}
    (h : J st ((id, l, n) :: limbo)) : J (st.note (.call n id)) limbo := by
  have hm : ∀ {x}, x ≠ .call n id → x ∈ st.log ++ [.call n id] → x ∈ st.log := by
    intro x hx h
    rcases List.mem_append.1 h with h | h
    · exact h
    · exact absurd (List.mem_singleton.1 h) hx
  have hc : called (st.note (.call n id)).log = called st.log ++ [id] := by
    show called (st.log ++ _) = _
    rw [called_append]; simp [called, Event.callOf]
  have hi : (ids (st.note (.call n id)) limbo).Perm (ids st ((id, l, n) :: limbo)) := by
    simp only [ids, hc, List.map_cons]
    refine List.Perm.append_left _ ?_
    rw [← List.append_assoc]
    exact List.perm_append_comm
  refine ⟨hi.nodup_iff.2 h.nodup, fun i hi' => h.small i (hi.mem_iff.1 hi'),
    ?_, ?_, ?_, ?_, ?_, ?_, ?_, ?_, ?_⟩
  · exact fun l id hr => h.regSmall l id (hm (by simp) hr)
  · exact fun l l' id h1 h2 => h.regOne l l' id (hm (by simp) h1) (hm (by simp) h2)
  · exact fun id l hp => List.mem_append_left _ (h.pendReg id l hp)
  · intro id l' m hl
    obtain ⟨h1, h2, h3⟩ := h.limboOk id l' m (List.mem_cons_of_mem _ hl)
    exact ⟨List.mem_append_left _ h1, List.mem_append_left _ h2, fun h' => h3 (hm (by simp) h')⟩
  · intro l' id' hr
    rw [hc]
    rcases h.ofReg l' id' (hm (by simp) hr) with h | ⟨m, h⟩ | h | h
    · exact .inl h
    · rcases List.mem_cons.1 h with h | h
      · cases h
        exact .inr (.inr (.inl (by simp)))
      · exact .inr (.inl ⟨m, h⟩)
    · exact .inr (.inr (.inl (List.mem_append_left _ h)))
    · exact .inr (.inr (.inr (h.append _)))
  · exact fun m l hr => h.reads m l (hm (by simp) hr)
  · exact fun m l hr => h.retSmall m l (hm (by simp) hr)
  · intro a n' id' b hl
    rcases snoc_split hl with ⟨h1, h2, h3⟩ | ⟨b', -, h1⟩
    · cases h2
      subst h1
      exact ⟨l, h.limboOk id l n (by simp)⟩
    · exact h.calls a n' id' b' h1
  · intro a m l' b hl
    rcases snoc_split hl with ⟨h1, h2, h3⟩ | ⟨b', h2, h1⟩
    · cases h2
    · rcases h.rets a m l' b' h1 with h | h
      · exact .inl (h.append _)
      · refine .inr (h.mono (by rw [h2]; intro x hx; simp [hx]) fun i k h' => ?_)
        rcases List.mem_cons.1 h' with h' | h'
        · cases h'
          exact .inr (by rw [h2]; simp)
        · exact .inl h'

/-- The entry of a library is taken out. -/
theorem J.take {st : St} {limbo : Limbo} (h : J st limbo) {n : Nat} {l : String} {ts : List Thunk}
    {rest : List (String × List Thunk)} (ht : takeAfter l st.afters = some (ts, rest))
    (hr : .read n l ∈ st.log) (hn : .ret n l ∉ st.log) :
    J { st with afters := rest } ((ts.map fun t => (t.id, l, n)) ++ limbo) := by
  have hp := takeAfter_some ht
  have hi : (ids { st with afters := rest } ((ts.map fun t => (t.id, l, n)) ++ limbo)).Perm
      (ids st limbo) := by
    unfold ids
    refine List.Perm.symm (((hp.map Prod.fst).append_right _).trans ?_)
    simp only [List.map_append, List.map_map, Function.comp_def, List.append_assoc]
    exact List.perm_append_comm_assoc _ _ _
  refine ⟨hi.nodup_iff.2 h.nodup, fun i hi' => h.small i (hi.mem_iff.1 hi'), h.regSmall, h.regOne,
    ?_, ?_, ?_, h.reads, h.retSmall, h.calls, ?_⟩
  · exact fun id l' h' => h.pendReg id l' (hp.mem_iff.2 (List.mem_append_right _ h'))
  · intro id l' m h'
    rcases List.mem_append.1 h' with h' | h'
    · obtain ⟨t, ht', h'⟩ := List.mem_map.1 h'
      cases h'
      refine ⟨h.pendReg _ _ (hp.mem_iff.2 (List.mem_append_left _ (List.mem_map.2 ⟨t, ht', rfl⟩))),
        hr, hn⟩
    · exact h.limboOk id l' m h'
  · intro l' id h'
    rcases h.ofReg l' id h' with h' | ⟨m, h'⟩ | h' | h'
    · rcases List.mem_append.1 (hp.mem_iff.1 h') with h' | h'
      · obtain ⟨t, ht', h'⟩ := List.mem_map.1 h'
        cases h'
        exact .inr (.inl ⟨n, List.mem_append_left _ (List.mem_map.2 ⟨t, ht', rfl⟩)⟩)
      · exact .inl h'
    · exact .inr (.inl ⟨m, List.mem_append_right _ h'⟩)
    · exact .inr (.inr (.inl h'))
    · exact .inr (.inr (.inr h'))
  · intro a m l' b hl
    rcases h.rets a m l' b hl with h | h
    · exact .inl h
    · exact .inr (h.mono (fun _ h => h) fun i k h' => .inl (List.mem_append_right _ h'))

/-- Functions are dropped. -/
theorem J.drop {st : St} {limbo more : Limbo} (h : J st (more ++ limbo)) (hf : Flaw st.log) :
    J st limbo := by
  have hi : (ids st limbo).Sublist (ids st (more ++ limbo)) := by
    unfold ids
    refine List.Sublist.append (.refl _) (List.Sublist.append ?_ (.refl _))
    rw [List.map_append]
    exact List.sublist_append_right _ _
  exact ⟨h.nodup.sublist hi, fun i hi' => h.small i (hi.subset hi'), h.regSmall, h.regOne, h.pendReg,
    fun id l m h' => h.limboOk id l m (List.mem_append_right _ h'),
    fun l id h' => .inr (.inr (.inr hf)), h.reads, h.retSmall, h.calls,
    fun a n l b hl => .inl hf⟩

/-! ### Every job -/

structure Grow (st st' : St) : Prop where
  loads : st.loads ≤ st'.loads
  log : ∃ ext, st'.log = st.log ++ ext ∧ ∀ m l, .ret m l ∈ ext → st.loads ≤ m

theorem Grow.refl (st : St) : Grow st st := ⟨Nat.le_refl _, [], by simp, by simp⟩

theorem Grow.trans {a b c : St} (h1 : Grow a b) (h2 : Grow b c) : Grow a c := by
  obtain ⟨e1, l1, n1⟩ := h1.log
  obtain ⟨e2, l2, n2⟩ := h2.log
  refine ⟨Nat.le_trans h1.loads h2.loads, e1 ++ e2, by rw [l2, l1, List.append_assoc], ?_⟩
  intro m l h
  rcases List.mem_append.1 h with h | h
  · exact n1 m l h
  · exact Nat.le_trans h1.loads (n2 m l h)

theorem Grow.congr {st st' : St} (h1 : st'.log = st.log) (h2 : st'.loads = st.loads) :
    Grow st st' := ⟨by omega, [], by simp [h1], by simp⟩

theorem Grow.note (st : St) {e : Event} (he : ∀ m l, e ≠ .ret m l) : Grow st (st.note e) :=
  ⟨Nat.le_refl _, [e], rfl, fun m l h => absurd (List.mem_singleton.1 h).symm (he m l)⟩

theorem Grow.mem {st st' : St} (h : Grow st st') {e : Event} (he : e ∈ st.log) : e ∈ st'.log := by
  obtain ⟨ext, h1, -⟩ := h.log
  rw [h1]
  exact List.mem_append_left _ he

theorem Grow.flaw {st st' : St} (h : Grow st st') (he : Flaw st.log) : Flaw st'.log := by
  obtain ⟨ext, h1, -⟩ := h.log
  rw [h1]
  exact he.append _

theorem Grow.noRet {st st' : St} (h : Grow st st') {n : Nat} {l : String} (hn : n < st.loads)
    (he : .ret n l ∉ st.log) : .ret n l ∉ st'.log := by
  obtain ⟨ext, h1, h2⟩ := h.log
  rw [h1]
  intro h'
  rcases List.mem_append.1 h' with h' | h'
  · exact he h'
  · exact absurd (h2 _ _ h') (by omega)

def Thrown (st : St) : Prop := st.throw = true → Flaw st.log

/-- What has to hold before a job; `limbo` belongs to the loads around it. -/
def Before (limbo : Limbo) (st : St) : Job → Prop
  | .thunks n ts => ∃ l, J st ((ts.map fun t => (t.id, l, n)) ++ limbo)
  | .again n l => J st limbo ∧ .read n l ∈ st.log ∧ .ret n l ∉ st.log
  | _ => J st limbo

def After (r : Val × St) : Job → Prop
  | .again _ l => takeAfter l r.2.afters = none ∧ r.1 = .obj
  | .thunks _ _ => r.1 = .obj
  | _ => True

def Good (lib : String → Option File) (thunk : Nat → List Cmd) (n : Nat) : Prop :=
  ∀ limbo j st r, run lib thunk n j st = some r → Before limbo st j → Thrown st →
    J r.2 limbo ∧ (r.2.throw = true → Flaw r.2.log ∨ r.1 = .null) ∧ Grow st r.2 ∧ After r j

theorem leave_good {limbo : Limbo} {st : St} {r : Val × St} (h : J r.2 limbo ∧
    (r.2.throw = true → Flaw r.2.log ∨ r.1 = .null) ∧ Grow st r.2) :
    J (leave r).2 limbo ∧ ((leave r).2.throw = true → Flaw (leave r).2.log ∨ (leave r).1 = .null) ∧
      Grow st (leave r).2 := by
  unfold leave
  split
  · exact ⟨h.1, fun _ => .inr rfl, h.2.2⟩
  · exact h

theorem noteName_J {limbo : Limbo} {st : St} (h : J st limbo) {e : String → Event}
    (he : ∀ x, Boring (e x)) (name : Option String) :
    J (st.noteName e name) limbo ∧ Grow st (st.noteName e name) ∧
      (st.noteName e name).throw = st.throw := by
  cases name with
  | none => exact ⟨h, .refl _, rfl⟩
  | some x =>
    refine ⟨h.note (he x), .note _ ?_, rfl⟩
    intro m l hx
    have := he x
    rw [hx] at this
    exact this

theorem good (n : Nat) : Good lib thunk n := by
  induction n with
  | zero => intro limbo j st r h; cases h
  | succ n ih =>
  intro limbo j st r h hb ht
  have define : ∀ {name : Option String} {opens : List String} {body : List Cmd} {r},
      doDefine (run lib thunk n) name opens body st = some r → J st limbo →
      J r.2 limbo ∧ (r.2.throw = true → Flaw r.2.log ∨ r.1 = .null) ∧ Grow st r.2 := by
    intro name opens body r h hb
    obtain ⟨r1, h1, h⟩ := Option.bind_eq_some_iff.1 h
    have j0 : J (st.newStruct name) limbo := hb.congr rfl rfl rfl rfl
    obtain ⟨j1, g1, t1⟩ := noteName_J j0 (e := .start) (fun _ => trivial) name
    have t1' : Thrown ((st.newStruct name).noteName .start name) := by
      intro h'
      rw [t1] at h'
      exact g1.flaw (ht h')
    obtain ⟨j2, t2, g2, -⟩ := ih limbo _ _ _ h1 j1 t1'
    have g2 : Grow st r1.2 := (Grow.congr (st := st) (st' := st.newStruct name) rfl rfl).trans (g1.trans g2)
    have failed : ∀ {s : St}, J s limbo → Grow st s →
        J ((s.unname name).noteName .failed name) limbo ∧
          Grow st ((s.unname name).noteName .failed name) := by
      intro s js gs
      have j3 : J (s.unname name) limbo := by
        cases name <;> exact js.congr rfl rfl rfl rfl
      have g3 : Grow s (s.unname name) := by
        cases name <;> exact .congr rfl rfl
      obtain ⟨j4, g4, -⟩ := noteName_J j3 (e := .failed) (fun _ => trivial) name
      exact ⟨j4, gs.trans (g3.trans g4)⟩
    have rest : r1.1 ≠ .null → (run lib thunk n (.forms .obj body st.structs.length)
        (r1.2.noteName .body name)).map (fun r2 => match r2.1 with
          | .null => (Val.null, (r2.2.unname name).noteName .failed name)
          | _ => (Val.struct st.structs.length, r2.2.noteName .done name)) = some r →
        J r.2 limbo ∧ (r.2.throw = true → Flaw r.2.log ∨ r.1 = .null) ∧ Grow st r.2 := by
      intro hv h
      obtain ⟨r2, h2, h⟩ := Option.map_eq_some_iff.1 h
      obtain ⟨j3, g3, t3⟩ := noteName_J j2 (e := .body) (fun _ => trivial) name
      have t3' : Thrown (r1.2.noteName .body name) := by
        intro h'
        rw [t3] at h'
        exact g3.flaw ((t2 h').resolve_right hv)
      obtain ⟨j4, t4, g4, -⟩ := ih limbo _ _ _ h2 j3 t3'
      have g4 : Grow st r2.2 := g2.trans (g3.trans g4)
      obtain ⟨j5, g5, t5⟩ := noteName_J j4 (e := .done) (fun _ => trivial) name
      cases hv2 : r2.1 with
      | null =>
        simp only [hv2] at h
        subst h
        obtain ⟨j5, g5⟩ := failed j4 g4
        exact ⟨j5, fun _ => .inr rfl, g5⟩
      | obj =>
        simp only [hv2] at h
        subst h
        refine ⟨j5, fun h' => .inl ?_, g4.trans g5⟩
        simp only [t5] at h'
        exact g5.flaw ((t4 h').resolve_right (by simp [hv2]))
      | struct i =>
        simp only [hv2] at h
        subst h
        refine ⟨j5, fun h' => .inl ?_, g4.trans g5⟩
        simp only [t5] at h'
        exact g5.flaw ((t4 h').resolve_right (by simp [hv2]))
    cases hv : r1.1 with
    | null =>
      simp only [hv] at h
      cases h
      obtain ⟨j5, g5⟩ := failed j2 g2
      exact ⟨j5, fun _ => .inr rfl, g5⟩
    | obj => simp only [hv] at h; exact rest (by simp [hv]) h
    | struct i => simp only [hv] at h; exact rest (by simp [hv]) h
  cases j with
  | forms v cs cur =>
    cases cs with
    | nil =>
      cases h
      exact ⟨hb, fun h => .inl (ht h), .refl _, trivial⟩
    | cons c cs =>
      obtain ⟨r1, hr, h⟩ := Option.bind_eq_some_iff.1
        (show (run lib thunk n (.form c cur) st).bind _ = _ from h)
      obtain ⟨j1, t1, g1, -⟩ := ih limbo _ _ _ hr hb ht
      split at h
      · cases h
        exact ⟨j1, t1, g1, trivial⟩
      · rename_i hv
        obtain ⟨j2, t2, g2, -⟩ := ih limbo _ _ _ h j1 fun h' => (t1 h').resolve_right hv
        exact ⟨j2, t2, g1.trans g2, trivial⟩
  | form c cur =>
    simp only [run, step] at h
    have hb : J st limbo := hb
    split at h
    · cases h
      exact ⟨hb, fun _ => .inr rfl, .refl _, trivial⟩
    · rename_i hnt
      have pack : ∀ {r : Val × St}, (J r.2 limbo ∧ (r.2.throw = true → Flaw r.2.log ∨ r.1 = .null) ∧
          Grow st r.2) → J r.2 limbo ∧ (r.2.throw = true → Flaw r.2.log ∨ r.1 = .null) ∧
          Grow st r.2 ∧ After r (.form c cur) := fun h => ⟨h.1, h.2.1, h.2.2, trivial⟩
      cases c with
      | emit k =>
        cases h
        exact ⟨hb.note trivial, fun h' => absurd h' hnt, .note _ (by simp), trivial⟩
      | fail =>
        cases h
        exact ⟨hb.congr rfl rfl rfl rfl, fun _ => .inr rfl, .congr rfl rfl, trivial⟩
      | provide f =>
        cases h
        exact ⟨hb.congr rfl rfl rfl rfl, fun h' => absurd h' hnt, .congr rfl rfl, trivial⟩
      | require f =>
        obtain ⟨r1, h1, rfl⟩ := Option.map_eq_some_iff.1 h
        refine pack (leave_good ?_)
        unfold doRequire at h1
        split at h1
        · cases h1
          exact ⟨hb, fun h => .inl (ht h), .refl _⟩
        · split at h1
          · cases h1
            exact ⟨hb, fun h => .inl (ht h), .refl _⟩
          · split at h1
            · cases h1
              exact ⟨hb.congr rfl rfl rfl rfl, fun h => .inl (ht h), .congr rfl rfl⟩
            · obtain ⟨r2, h2, rfl⟩ := Option.map_eq_some_iff.1 h1
              obtain ⟨j2, t2, g2, -⟩ := ih limbo _ _ _ h2 hb ht
              cases hv : r2.1 with
              | null => exact ⟨j2, t2, g2⟩
              | obj => exact ⟨j2, fun h' => .inl ((t2 h').resolve_right (by simp [hv])), g2⟩
              | struct i =>
                exact ⟨j2.congr rfl rfl rfl rfl,
                  fun h' => .inl ((t2 h').resolve_right (by simp [hv])),
                  g2.trans (.congr rfl rfl)⟩
      | load file ne =>
        obtain ⟨r1, h1, rfl⟩ := Option.map_eq_some_iff.1 h
        obtain ⟨j1, t1, g1, -⟩ := ih limbo _ _ _ h1 hb ht
        exact pack (leave_good ⟨j1, t1, g1⟩)
      | after file k =>
        cases h
        exact ⟨hb.reg file cur k, fun h' => absurd h' hnt,
          ⟨Nat.le_refl _, [.reg file st.regs], rfl, by simp⟩, trivial⟩
      | «open» ms =>
        obtain ⟨r1, h1, rfl⟩ := Option.map_eq_some_iff.1 h
        obtain ⟨j1, t1, g1, -⟩ := ih limbo _ _ _ h1 hb ht
        exact pack (leave_good ⟨j1, t1, g1⟩)
      | define name opens body =>
        obtain ⟨r1, h1, rfl⟩ := Option.map_eq_some_iff.1 h
        exact pack (leave_good (define h1 hb))
      | «try» body =>
        obtain ⟨r1, h1, rfl⟩ := Option.map_eq_some_iff.1 h
        obtain ⟨j1, t1, g1, -⟩ := ih limbo _ _ _ h1 hb ht
        split
        · exact ⟨j1.congr rfl rfl rfl rfl, (fun h' => by cases h'), g1.trans (.congr rfl rfl), trivial⟩
        · exact ⟨j1, t1, g1, trivial⟩
  | load file ne cur =>
    have hb : J st limbo := hb
    have h : doLoad lib (run lib thunk n) file ne cur st = some r := h
    unfold doLoad at h
    split at h
    · cases h
      exact ⟨hb, fun _ => .inr rfl, .refl _, trivial⟩
    · split at h
      · cases h
        split
        · exact ⟨hb, fun h => .inl (ht h), .refl _, trivial⟩
        · exact ⟨hb.congr rfl rfl rfl rfl, fun _ => .inr rfl, .congr rfl rfl, trivial⟩
      · rename_i f hf
        obtain ⟨r1, h1, h⟩ := Option.bind_eq_some_iff.1 h
        obtain ⟨r0, h0, h1⟩ := Option.map_eq_some_iff.1 h1
        have g0 : Grow st (st.note (.begin file)) := .note _ (by simp)
        obtain ⟨j0, t0, g1, -⟩ := ih limbo _ _ _ h0 (hb.note trivial) fun h' => g0.flaw (ht h')
        have g1 := g0.trans g1
        have hr1 : J r1.2 limbo ∧ (r1.2.throw = true → Flaw r1.2.log ∨ r1.1 = .null) ∧
            Grow st r1.2 := by
          split at h1
          · subst h1
            exact ⟨(j0.note (e := .bad) trivial).congr rfl rfl rfl rfl,
              fun _ => .inl (.inl (by simp)),
              g1.trans ((Grow.note _ (e := .bad) (by simp)).trans (.congr rfl rfl))⟩
          · subst h1
            exact ⟨j0, t0, g1⟩
        obtain ⟨j1, t1, g1⟩ := hr1
        split at h
        · cases h
          exact ⟨j1, t1, g1, trivial⟩
        · rename_i hv
          obtain ⟨r2, h2, rfl⟩ := Option.map_eq_some_iff.1 h
          generalize hl : r1.2.libName file r1.1 = l at h2 ⊢
          obtain ⟨j2, nr⟩ := j1.read l
          have g2 : Grow r1.2 (r1.2.noteRead l) :=
            ⟨Nat.le_succ _, [.read r1.2.loads l], rfl, by simp⟩
          have hrd : .read r1.2.loads l ∈ (r1.2.noteRead l).log := by
            show _ ∈ r1.2.log ++ _
            simp
          obtain ⟨j3, t3, g3, a3⟩ := ih limbo _ _ _ h2 ⟨j2, hrd, nr⟩ fun h' =>
            g2.flaw ((t1 h').resolve_right hv)
          have hloads : r1.2.loads < r2.2.loads := g3.loads
          have hlim : ∀ x ∈ limbo, x.2.2 ≠ r1.2.loads := by
            rintro ⟨id, l', m⟩ hx
            have := j1.reads _ _ (j1.limboOk _ _ _ hx).2.1
            simp only
            omega
          have j4 := j3.ret hloads hlim fun id => takeAfter_none a3.1 id
          have hg : Grow st (r2.2.note (.ret r1.2.loads l)) := by
            have g12 := g1.trans (g2.trans g3)
            obtain ⟨e, h4, h5⟩ := g12.log
            refine ⟨g12.loads, e ++ [.ret r1.2.loads l], by rw [note_log, h4, List.append_assoc], ?_⟩
            intro m l' h'
            rcases List.mem_append.1 h' with h' | h'
            · exact h5 m l' h'
            · cases List.mem_singleton.1 h'
              exact g1.loads
          refine ⟨j4, fun h' => .inl (((t3 h').resolve_right (by simp [a3.2])).append _), hg, trivial⟩
  | again k l =>
    obtain ⟨hb, hrd, hnr⟩ := hb
    simp only [run, step] at h
    split at h
    · rename_i hn
      cases h
      exact ⟨hb, fun h => .inl (ht h), .refl _, hn, rfl⟩
    · rename_i ts rest hts
      obtain ⟨r1, h1, h⟩ := Option.bind_eq_some_iff.1 h
      obtain ⟨j1, t1, g1, a1⟩ := ih limbo _ _ _ h1 ⟨l, hb.take hts hrd hnr⟩ ht
      have g1 : Grow st r1.2 := (Grow.congr (st := st) (st' := { st with afters := rest })
        rfl rfl).trans g1
      have hk := hb.reads _ _ hrd
      obtain ⟨j2, t2, g2, a2⟩ := ih limbo _ _ _ h ⟨j1, g1.mem hrd, g1.noRet hk hnr⟩ fun h' =>
        (t1 h').resolve_right (by simp [show r1.1 = .obj from a1])
      exact ⟨j2, t2, g1.trans g2, a2⟩
  | thunks k ts =>
    obtain ⟨l, hb⟩ := hb
    cases ts with
    | nil =>
      cases h
      exact ⟨hb, fun h => .inl (ht h), .refl _, rfl⟩
    | cons t ts =>
      simp only [run, step] at h
      split at h
      · rename_i htr
        cases h
        exact ⟨hb.drop (ht htr), fun h => .inl (ht h), .refl _, rfl⟩
      · obtain ⟨r1, h1, h⟩ := Option.bind_eq_some_iff.1 h
        have g0 : Grow st (st.note (.call k t.id)) := .note _ (by simp)
        obtain ⟨j1, t1, g1, -⟩ := ih ((ts.map fun t => (t.id, l, k)) ++ limbo) _ _ _ h1
          (J.call hb) fun h' => g0.flaw (ht h')
        have g1 := g0.trans g1
        split at h
        · obtain ⟨j2, t2, g2, a2⟩ := ih limbo _ _ _ h ⟨l, j1.note trivial⟩ fun _ =>
            .inr ⟨t.id, by simp⟩
          exact ⟨j2, t2, g1.trans ((Grow.note _ (by simp)).trans g2), a2⟩
        · rename_i hv
          obtain ⟨j2, t2, g2, a2⟩ := ih limbo _ _ _ h ⟨l, j1⟩ fun h' => (t1 h').resolve_right hv
          exact ⟨j2, t2, g1.trans g2, a2⟩
  | opens ms cur =>
    have hb : J st limbo := hb
    cases ms with
    | nil =>
      cases h
      exact ⟨hb, fun h => .inl (ht h), .refl _, trivial⟩
    | cons m ms =>
      simp only [run, step] at h
      split at h
      · obtain ⟨j1, t1, g1, -⟩ := ih limbo _ _ _ h hb ht
        exact ⟨j1, t1, g1, trivial⟩
      · obtain ⟨r1, h1, h⟩ := Option.bind_eq_some_iff.1 h
        obtain ⟨j1, t1, g1, -⟩ := ih limbo _ _ _ h1 hb ht
        cases hv : r1.1 with
        | null =>
          simp only [hv] at h
          cases h
          exact ⟨j1.congr rfl rfl rfl rfl, fun _ => .inr rfl, g1.trans (.congr rfl rfl), trivial⟩
        | obj =>
          simp only [hv] at h
          cases h
          exact ⟨j1.congr rfl rfl rfl rfl, fun _ => .inr rfl, g1.trans (.congr rfl rfl), trivial⟩
        | struct i =>
          simp only [hv] at h
          have j2 : J (r1.2.importName cur m) limbo := j1.congr rfl rfl rfl rfl
          obtain ⟨j3, t3, g3, -⟩ := ih limbo _ _ _ h j2 fun h' =>
            (t1 h').resolve_right (by simp [hv])
          exact ⟨j3, t3, g1.trans ((Grow.congr (st := r1.2) (st' := r1.2.importName cur m)
            rfl rfl).trans g3), trivial⟩
  | intern x =>
    have hb : J st limbo := hb
    simp only [run, step] at h
    split at h
    · cases h
      exact ⟨hb, fun h => .inl (ht h), .refl _, trivial⟩
    · obtain ⟨j1, t1, g1, -⟩ := ih limbo _ _ _ h hb ht
      exact ⟨j1, t1, g1, trivial⟩

end Rep.Load
