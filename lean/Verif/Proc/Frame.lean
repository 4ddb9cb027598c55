import Verif.Proc.Queue
import Verif.Proc.Spec

/-
What each part of an operation leaves as it was.
-/

namespace Rep.Proc

open Spec

variable (s : St) (p q : Id)

@[simp] theorem setObj_obj (o : Obj) : (setObj s p o).obj q = if q = p then o else s.obj q := rfl
@[simp] theorem setObj_kid (o : Obj) : (setObj s p o).kid = s.kid := rfl
@[simp] theorem setObj_ids (o : Obj) : (setObj s p o).ids = s.ids := rfl
@[simp] theorem setObj_chain (o : Obj) : (setObj s p o).chain = s.chain := rfl
@[simp] theorem setObj_count (o : Obj) : (setObj s p o).count = s.count := rfl
@[simp] theorem setObj_got (o : Obj) : (setObj s p o).got = s.got := rfl
@[simp] theorem setObj_reaping (o : Obj) : (setObj s p o).reaping = s.reaping := rfl
@[simp] theorem setObj_fresh (o : Obj) : (setObj s p o).fresh = s.fresh := rfl
@[simp] theorem setObj_log (o : Obj) : (setObj s p o).log = s.log := rfl

@[simp] theorem setKid_kid (k : Kid) : (setKid s p k).kid q = if q = p then k else s.kid q := rfl
@[simp] theorem setKid_obj (k : Kid) : (setKid s p k).obj = s.obj := rfl
@[simp] theorem setKid_ids (k : Kid) : (setKid s p k).ids = s.ids := rfl
@[simp] theorem setKid_chain (k : Kid) : (setKid s p k).chain = s.chain := rfl
@[simp] theorem setKid_count (k : Kid) : (setKid s p k).count = s.count := rfl
@[simp] theorem setKid_got (k : Kid) : (setKid s p k).got = s.got := rfl
@[simp] theorem setKid_reaping (k : Kid) : (setKid s p k).reaping = s.reaping := rfl
@[simp] theorem setKid_fresh (k : Kid) : (setKid s p k).fresh = s.fresh := rfl
@[simp] theorem setKid_log (k : Kid) : (setKid s p k).log = s.log := rfl

@[simp] theorem see_obj (o : Obs) : (see s o).obj = s.obj := rfl
@[simp] theorem see_kid (o : Obs) : (see s o).kid = s.kid := rfl
@[simp] theorem see_ids (o : Obs) : (see s o).ids = s.ids := rfl
@[simp] theorem see_chain (o : Obs) : (see s o).chain = s.chain := rfl
@[simp] theorem see_count (o : Obs) : (see s o).count = s.count := rfl
@[simp] theorem see_got (o : Obs) : (see s o).got = s.got := rfl
@[simp] theorem see_reaping (o : Obs) : (see s o).reaping = s.reaping := rfl
@[simp] theorem see_fresh (o : Obs) : (see s o).fresh = s.fresh := rfl
@[simp] theorem see_log (o : Obs) : (see s o).log = o :: s.log := rfl

@[simp] theorem queue_kid : (queueNotify s p).kid = s.kid := by unfold queueNotify; split <;> rfl
@[simp] theorem queue_ids : (queueNotify s p).ids = s.ids := by unfold queueNotify; split <;> rfl
@[simp] theorem queue_count : (queueNotify s p).count = s.count := by unfold queueNotify; split <;> rfl
@[simp] theorem queue_got : (queueNotify s p).got = s.got := by unfold queueNotify; split <;> rfl
@[simp] theorem queue_reaping : (queueNotify s p).reaping = s.reaping := by
  unfold queueNotify; split <;> rfl
@[simp] theorem queue_fresh : (queueNotify s p).fresh = s.fresh := by unfold queueNotify; split <;> rfl
@[simp] theorem queue_log : (queueNotify s p).log = s.log := by unfold queueNotify; split <;> rfl
@[simp] theorem queue_status : ((queueNotify s p).obj q).status = (s.obj q).status := by
  unfold queueNotify; split
  · simp only [setObj_obj]; split <;> simp_all
  · rfl
@[simp] theorem queue_exit : ((queueNotify s p).obj q).exit = (s.obj q).exit := by
  unfold queueNotify; split
  · simp only [setObj_obj]; split <;> simp_all
  · rfl
@[simp] theorem queue_sync : ((queueNotify s p).obj q).sync = (s.obj q).sync := by
  unfold queueNotify; split
  · simp only [setObj_obj]; split <;> simp_all
  · rfl
@[simp] theorem queue_out : ((queueNotify s p).obj q).out = (s.obj q).out := by
  unfold queueNotify; split
  · simp only [setObj_obj]; split <;> simp_all
  · rfl
@[simp] theorem queue_err : ((queueNotify s p).obj q).err = (s.obj q).err := by
  unfold queueNotify; split
  · simp only [setObj_obj]; split <;> simp_all
  · rfl

/-- The part of the log that `readFd` adds. -/
def readLog (s : St) (p : Id) (err : Bool) : List Obs :=
  let b := if err then (s.kid p).errPipe else (s.kid p).outPipe
  if b = [] then [] else [.data p err b]

variable (err : Bool)

/-- `readFd` in one piece. -/
theorem readFd_eq : readFd s p err =
    { s with
      obj := fun q => if q = p ∧ (s.kid p).alive = false then
          (if err then { s.obj p with err := false } else { s.obj p with out := false }) else s.obj q
      kid := fun q => if q = p then
          (if err then { s.kid p with errPipe := [] } else { s.kid p with outPipe := [] }) else s.kid q
      log := readLog s p err ++ s.log } := by
  unfold readFd readLog
  cases h : (s.kid p).alive <;> cases err
  · by_cases hb : (s.kid p).outPipe = []
    · simp only [h, Bool.false_eq_true, if_false, if_pos hb, and_true, setObj, setKid, List.nil_append]
    · simp only [h, Bool.false_eq_true, if_false, if_neg hb, and_true, setObj, setKid, see,
        List.singleton_append]
  · by_cases hb : (s.kid p).errPipe = []
    · simp only [h, Bool.false_eq_true, if_true, if_false, if_pos hb, and_true, setObj, setKid, List.nil_append]
    · simp only [h, Bool.false_eq_true, if_true, if_false, if_neg hb, and_true, setObj, setKid, see,
        List.singleton_append]
  · by_cases hb : (s.kid p).outPipe = []
    · simp only [h, Bool.false_eq_true, Bool.true_eq_false, if_true, if_false, if_pos hb, and_false, setKid,
        List.nil_append]
    · simp only [h, Bool.false_eq_true, Bool.true_eq_false, if_true, if_false, if_neg hb, and_false, setKid, see,
        List.singleton_append]
  · by_cases hb : (s.kid p).errPipe = []
    · simp only [h, Bool.true_eq_false, if_true, if_false, if_pos hb, and_false, setKid,
        List.nil_append]
    · simp only [h, Bool.true_eq_false, if_true, if_false, if_neg hb, and_false, setKid, see,
        List.singleton_append]

@[simp] theorem readFd_ids : (readFd s p err).ids = s.ids := by rw [readFd_eq]
@[simp] theorem readFd_chain : (readFd s p err).chain = s.chain := by rw [readFd_eq]
@[simp] theorem readFd_count : (readFd s p err).count = s.count := by rw [readFd_eq]
@[simp] theorem readFd_got : (readFd s p err).got = s.got := by rw [readFd_eq]
@[simp] theorem readFd_reaping : (readFd s p err).reaping = s.reaping := by rw [readFd_eq]
@[simp] theorem readFd_fresh : (readFd s p err).fresh = s.fresh := by rw [readFd_eq]
@[simp] theorem readFd_log : (readFd s p err).log = readLog s p err ++ s.log := by rw [readFd_eq]
@[simp] theorem readFd_status : ((readFd s p err).obj q).status = (s.obj q).status := by
  rw [readFd_eq]; dsimp only; split
  · rename_i h; rw [h.1]; split <;> rfl
  · rfl
@[simp] theorem readFd_exit : ((readFd s p err).obj q).exit = (s.obj q).exit := by
  rw [readFd_eq]; dsimp only; split
  · rename_i h; rw [h.1]; split <;> rfl
  · rfl
@[simp] theorem readFd_sync : ((readFd s p err).obj q).sync = (s.obj q).sync := by
  rw [readFd_eq]; dsimp only; split
  · rename_i h; rw [h.1]; split <;> rfl
  · rfl
@[simp] theorem readFd_next : ((readFd s p err).obj q).next = (s.obj q).next := by
  rw [readFd_eq]; dsimp only; split
  · rename_i h; rw [h.1]; split <;> rfl
  · rfl
@[simp] theorem readFd_alive : ((readFd s p err).kid q).alive = (s.kid q).alive := by
  rw [readFd_eq]; dsimp only; split
  · rename_i h; rw [h]; split <;> rfl
  · rfl
@[simp] theorem readFd_report : ((readFd s p err).kid q).report = (s.kid q).report := by
  rw [readFd_eq]; dsimp only; split
  · rename_i h; rw [h]; split <;> rfl
  · rfl

/-! ### The log -/

variable (l : List Obs)

@[simp] theorem now_read : now (readLog s p err ++ l) q = now l q := by
  unfold readLog; dsimp only; split <;> split <;> rfl
@[simp] theorem ended_read : ended (readLog s p err ++ l) q = ended l q := by
  unfold readLog; dsimp only; split <;> split <;> rfl
@[simp] theorem changes_read : changes (readLog s p err ++ l) q = changes l q := by
  unfold readLog; dsimp only; split <;> split <;> simp [changes]
@[simp] theorem calls_read : calls (readLog s p err ++ l) q = calls l q := by
  unfold readLog; dsimp only; split <;> split <;> simp [calls]

/-- Is a call still to be made? -/
def waiting : List Obs → Id → Bool
  | [], _ => false
  | .change q _ :: l, p => if q = p then true else waiting l p
  | .call q _ :: l, p => if q = p then false else waiting l p
  | _ :: l, p => waiting l p

@[simp] theorem waiting_read : waiting (readLog s p err ++ l) q = waiting l q := by
  unfold readLog; dsimp only; split <;> split <;> rfl

@[simp] theorem readOpen_ids : (readOpen s p err).ids = s.ids := by
  unfold readOpen; split
  · simp
  · rfl
@[simp] theorem readOpen_chain : (readOpen s p err).chain = s.chain := by
  unfold readOpen; split
  · simp
  · rfl
@[simp] theorem readOpen_count : (readOpen s p err).count = s.count := by
  unfold readOpen; split
  · simp
  · rfl
@[simp] theorem readOpen_got : (readOpen s p err).got = s.got := by
  unfold readOpen; split
  · simp
  · rfl
@[simp] theorem readOpen_reaping : (readOpen s p err).reaping = s.reaping := by
  unfold readOpen; split
  · simp
  · rfl
@[simp] theorem readOpen_fresh : (readOpen s p err).fresh = s.fresh := by
  unfold readOpen; split
  · simp
  · rfl
@[simp] theorem readOpen_status : ((readOpen s p err).obj q).status = (s.obj q).status := by
  unfold readOpen; split
  · simp
  · rfl
@[simp] theorem readOpen_exit : ((readOpen s p err).obj q).exit = (s.obj q).exit := by
  unfold readOpen; split
  · simp
  · rfl
@[simp] theorem readOpen_sync : ((readOpen s p err).obj q).sync = (s.obj q).sync := by
  unfold readOpen; split
  · simp
  · rfl
@[simp] theorem readOpen_next : ((readOpen s p err).obj q).next = (s.obj q).next := by
  unfold readOpen; split
  · simp
  · rfl
@[simp] theorem readOpen_alive : ((readOpen s p err).kid q).alive = (s.kid q).alive := by
  unfold readOpen; split
  · simp
  · rfl
@[simp] theorem readOpen_report : ((readOpen s p err).kid q).report = (s.kid q).report := by
  unfold readOpen; split
  · simp
  · rfl
@[simp] theorem readOpen_now : now (readOpen s p err).log q = now s.log q := by
  unfold readOpen; split
  · simp
  · rfl
@[simp] theorem readOpen_ended : ended (readOpen s p err).log q = ended s.log q := by
  unfold readOpen; split
  · simp
  · rfl
@[simp] theorem readOpen_changes : changes (readOpen s p err).log q = changes s.log q := by
  unfold readOpen; split
  · simp
  · rfl
@[simp] theorem readOpen_calls : calls (readOpen s p err).log q = calls s.log q := by
  unfold readOpen; split
  · simp
  · rfl
@[simp] theorem readOpen_waiting : waiting (readOpen s p err).log q = waiting s.log q := by
  unfold readOpen; split
  · simp
  · rfl

theorem waiting_iff : ∀ (l : List Obs) (p : Id), waiting l p = false ↔ Answered l p
  | [], p => by simp [waiting, Answered]
  | o :: l, p => by
    have ih := waiting_iff l p
    have other : (∀ st, o ≠ .change p st) → (∀ st, o ≠ .call p st) →
        (Answered l p ↔ Answered (o :: l) p) := by
      intro h1 h2
      constructor
      · intro h a st b hab
        cases a with
        | nil => cases hab; exact absurd rfl (h1 st)
        | cons x a =>
          simp only [List.cons_append, List.cons.injEq] at hab
          obtain ⟨st', h'⟩ := h a st b hab.2
          exact ⟨st', List.mem_cons_of_mem _ h'⟩
      · intro h a st b hab
        obtain ⟨st', h'⟩ := h (o :: a) st b (by rw [hab]; rfl)
        rcases List.mem_cons.mp h' with h' | h'
        · exact absurd h'.symm (h2 st')
        · exact ⟨st', h'⟩
    cases o with
    | change q st =>
      by_cases hq : q = p
      · subst hq
        simp only [waiting, if_true, Bool.true_eq_false, false_iff]
        intro h
        obtain ⟨st', h'⟩ := h [] st l rfl
        cases h'
      · simp only [waiting, if_neg hq]
        rw [ih]
        exact other (fun st' h => hq (by cases h; rfl)) (fun st' h => nomatch h)
    | call q st =>
      by_cases hq : q = p
      · subst hq
        simp only [waiting, if_true, true_iff]
        intro a st' b hab
        cases a with
        | nil => cases hab
        | cons x a =>
          simp only [List.cons_append, List.cons.injEq] at hab
          exact ⟨st, by rw [← hab.1]; exact List.mem_cons_self⟩
      · simp only [waiting, if_neg hq]
        rw [ih]
        exact other (fun st' h => nomatch h) (fun st' h => hq (by cases h; rfl))
    | wrote q e b =>
      simp only [waiting]; rw [ih]; exact other (fun st' h => nomatch h) (fun st' h => nomatch h)
    | data q e b =>
      simp only [waiting]; rw [ih]; exact other (fun st' h => nomatch h) (fun st' h => nomatch h)
    | start q =>
      simp only [waiting]; rw [ih]; exact other (fun st' h => nomatch h) (fun st' h => nomatch h)
    | ended q st =>
      simp only [waiting]; rw [ih]; exact other (fun st' h => nomatch h) (fun st' h => nomatch h)

end Rep.Proc
