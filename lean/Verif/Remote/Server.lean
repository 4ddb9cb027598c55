import Verif.Remote.Lemmas

namespace Rep.Remote

/-- The reply of the server. -/
def reply {σ : Type} (F : Files σ) (s : σ) : Cmd → Bytes
  | .simple t args => match F.simple t args s with
    | (_, none) => [1]
    | (_, some e) => 127 :: sendString e
  | .get name => match F.get s name with
    | .ok d => 1 :: (sendLong d.length ++ d)
    | .error e => 127 :: sendString e
  | .put name _ => match F.put s name with
    | .ok _ => [1]
    | .error e => 127 :: sendString e
  | .link name => match F.readlink s name with
    | .ok l => 1 :: sendString l
    | .error e => 127 :: sendString e
  | .dir name => match F.readdir s name with
    | .ok l => (l.map fun e => 2 :: sendString e).flatten ++ [1]
    | .error e => 127 :: sendString e

theorem simpleArity_le {t n : Nat} (h : simpleArity t = some n) :
    n ≤ 2 ∧ t ≠ 71 ∧ t ≠ 80 ∧ t ≠ 108 ∧ t ≠ 68 ∧ t ≠ 81 ∧ t ≠ 255 := by
  unfold simpleArity at h
  split at h <;> first | (cases h; exact ⟨by decide, by decide, by decide, by decide, by decide, by decide, by decide⟩) | cases h

theorem arity_of_operation : ∀ p ∈ operations, simpleArity p.1 = some p.2 := by decide

theorem header {σ : Type} (F : Files σ) (s : σ) {t : Nat} {args data cs : List Bytes} (ht : t ≠ 255)
    (hl : args.length < 64) (hn : ∀ a ∈ args, Name a) (h : Arrives cs (command t args data)) :
    ∃ cs1 cs2 cs3, readChar cs = .go t cs1 ∧ readChar cs1 = .go args.length cs2 ∧
      readStrings (if args.length < 64 then args.length else 0) cs2 = .go args cs3 ∧ Arrives cs3 data := by
  unfold command at h
  rw [List.append_assoc] at h
  have h' : Arrives cs ([t] :: [args.length] :: ((args.map writeString).flatten ++ data)) :=
    Arrives.split (a := [t]) (b := [args.length]) h (by simp) (by simp)
  obtain ⟨cs1, h1, h2⟩ := h'.readChar
  obtain ⟨cs2, h3, h4⟩ := h2.readChar
  obtain ⟨cs3, h5, h6⟩ := Arrives.readStrings hn h4
  exact ⟨cs1, cs2, cs3, h1, h3, by rw [if_pos hl]; exact h5, h6⟩

theorem serve_spec {σ : Type} (F : Files σ) (s : σ) (c : Cmd) (hc : Legal F s c) (blocks : Bytes → List Bytes)
    (hb : ∀ d, (blocks d).flatten = d) (cs : List Bytes) (h : Arrives cs (writes c blocks)) :
    serveOne F s cs = .go ((direct F s c).1, reply F s c) [] := by
  cases c with
  | simple t args =>
    obtain ⟨ha, hn⟩ := hc
    have ha := arity_of_operation _ ha
    dsimp only at ha
    obtain ⟨hle, n1, n2, n3, n4, n5, n6⟩ := simpleArity_le ha
    obtain ⟨cs1, cs2, cs3, h1, h2, h3, h4⟩ := header F s n6 (by omega) hn h
    have := h4.done
    subst this
    have e1 : ¬ (t = 255 ∨ args.length = 255) := by omega
    have e2 : ¬ (64 ≤ args.length ∧ args.length < 128) := by omega
    simp only [serveOne, h1, h2, h3, Next.bind, if_neg e1, if_neg e2, if_neg n1, if_neg n2, if_neg n3, if_neg n4,
      if_neg n5, ha, if_true, direct, reply]
    rcases F.simple t args s with ⟨s', _ | e⟩ <;> rfl
  | get name =>
    have hc : Name name := hc
    obtain ⟨cs1, cs2, cs3, h1, h2, h3, h4⟩ := header F s (by decide) (by simp) (by simpa using hc) h
    have := h4.done
    subst this
    rw [List.length_singleton, if_pos (by decide)] at h3
    rw [List.length_singleton] at h2
    simp only [serveOne, h1, h2, h3, Next.bind, direct, reply, show (1 : Nat) < 64 by decide, if_true]
    cases F.get s name <;> simp [sendSuccess, sendErrno]
  | put name data =>
    obtain ⟨hn, hd, w, hw⟩ := hc
    obtain ⟨cs1, cs2, cs3, h1, h2, h3, h4⟩ := header F s (by decide) (by simp) (by simpa using hn) h
    rw [List.length_singleton, if_pos (by decide)] at h3
    rw [List.length_singleton] at h2
    obtain ⟨cs4, h5, h6⟩ := Arrives.readLong hd h4
    obtain ⟨cs5, h7, h8, h9⟩ := putLoop_spec _ data.length cs4 [] data [] (le_refl _)
      (by rw [h6.flatten, hb, List.append_nil]) rfl
    have := flatten_nil_of h8 (h9 h6.nonempty)
    subst this
    simp only [serveOne, h1, h2, h3, Next.bind, direct, reply, show (1 : Nat) < 64 by decide, if_true, hw, h5, h7]
    simp [sendSuccess]
  | link name =>
    have hc : Name name := hc
    obtain ⟨cs1, cs2, cs3, h1, h2, h3, h4⟩ := header F s (by decide) (by simp) (by simpa using hc) h
    have := h4.done
    subst this
    rw [List.length_singleton, if_pos (by decide)] at h3
    rw [List.length_singleton] at h2
    simp only [serveOne, h1, h2, h3, Next.bind, direct, reply, show (1 : Nat) < 64 by decide, if_true]
    cases F.readlink s name <;> simp [sendSuccess, sendErrno]
  | dir name =>
    have hc : Name name := hc
    obtain ⟨cs1, cs2, cs3, h1, h2, h3, h4⟩ := header F s (by decide) (by simp) (by simpa using hc) h
    have := h4.done
    subst this
    rw [List.length_singleton, if_pos (by decide)] at h3
    rw [List.length_singleton] at h2
    simp only [serveOne, h1, h2, h3, Next.bind, direct, reply, show (1 : Nat) < 64 by decide, if_true]
    cases F.readdir s name <;> simp [sendSuccess, sendErrno]

end Rep.Remote
