/-
Tries (lisp/rep/data/trie.jl) and property C18.
-/
import Mathlib.Data.List.Basic
import Mathlib.Data.List.Nodup

namespace Rep.Trie

/-! ### Model -/

/-- A key of a node: a character, or the symbol `eow` (trie.jl:84; `defconst` quotes
its value). -/
inductive Key where
  | chr (c : Nat)
  | eow
  deriving DecidableEq, Repr

/-- trie.jl:41-44: a node is `(node (KEY . NODE) ...)`.  Nodes are modified in place
by the code; every node is created by `make-node` and stored in exactly one place,
so the model rebuilds the path instead. -/
inductive Node where
  | mk (children : List (Key × Node))

def Node.children : Node → List (Key × Node)
  | .mk c => c

/-- trie.jl:44 `make-node`, 58 `make-trie`. -/
def makeNode : Node := .mk []

/-- `assq` on an association list (src/lispcmds.c:384; see `Rep.Lists.C42_assoc`). -/
def assq (k : Key) : List (Key × Node) → Option Node
  | [] => none
  | (k', n) :: rest => if k' = k then some n else assq k rest

/-- trie.jl:46 `node-ref`; `none` is nil. -/
def nodeRef (t : Node) (k : Key) : Option Node := assq k t.children

/-- `rplacd` of the first cell whose key is `k`. -/
def replaceFirst (k : Key) (v : Node) : List (Key × Node) → List (Key × Node)
  | [] => []
  | (k', n) :: rest => if k' = k then (k', v) :: rest else (k', n) :: replaceFirst k v rest

/-- trie.jl:49 `node-set!`: replaces the entry, or adds one in front. -/
def nodeSet (t : Node) (k : Key) (v : Node) : Node :=
  match assq k t.children with
  | some _ => .mk (replaceFirst k v t.children)
  | none => .mk ((k, v) :: t.children)

/-- trie.jl:61 `trie-ref`. -/
def trieRef (t : Node) : List Key → Option Node
  | [] => some t
  | k :: ks =>
      match nodeRef t k with
      | some sub => trieRef sub ks
      | none => none

/-- trie.jl:67, 76 `trie-insert!` with `trie-insert-1!`: walks down the keys, adding
the nodes that are missing. -/
def trieInsert (t : Node) : List Key → Node
  | [] => t
  | k :: ks =>
      match nodeRef t k with
      | some sub => nodeSet t k (trieInsert sub ks)
      | none => nodeSet t k (trieInsert makeNode ks)

/-- trie.jl:86 `trie-insert-string!`; `vector->list` gives the characters. -/
def insertString (t : Node) (s : List Nat) : Node := trieInsert t (s.map .chr ++ [.eow])

/-- trie.jl:89 `trie-string-ref`. -/
def stringRef (t : Node) (s : List Nat) : Option Node := trieRef t (s.map .chr)

/-- trie.jl:92 `trie-contains-string?`; `(node-ref nil k)` is nil. -/
def contains (t : Node) (s : List Nat) : Bool :=
  match stringRef t s with
  | some e => (nodeRef e .eow).isSome
  | none => false

/-- trie.jl:97 `iter`: the strings passed to the callback, in order.  `tokens` is
the reversed path. -/
def iter : List Nat → List (Key × Node) → List (List Nat)
  | _, [] => []
  | tokens, (.eow, _) :: rest => tokens.reverse :: iter tokens rest
  | tokens, (.chr c, .mk ch) :: rest => iter (c :: tokens) ch ++ iter tokens rest

/-- trie.jl:96 `trie-foreach`: the strings passed to the callback, in order. -/
def foreach (t : Node) : List (List Nat) := iter [] t.children

/-- A trie after inserting the strings `ws`, from left to right. -/
def build (ws : List (List Nat)) : Node := ws.foldl insertString makeNode

/-! ### Proofs -/

theorem assq_replaceFirst (k : Key) (v : Node) : ∀ (l : List (Key × Node)) (q : Key),
    assq q (replaceFirst k v l) = if q = k then (assq k l).map (fun _ => v) else assq q l
  | [], q => by by_cases h : q = k <;> simp [replaceFirst, assq, h]
  | (k', n) :: rest, q => by
    have ih := assq_replaceFirst k v rest q
    by_cases h1 : k' = k
    · subst h1
      by_cases h2 : q = k'
      · subst h2; simp [replaceFirst, assq]
      · simp [replaceFirst, assq, h2, Ne.symm h2]
    · by_cases h2 : q = k
      · subst h2
        rw [if_pos rfl] at ih ⊢
        simp [replaceFirst, assq, h1, ih]
      · rw [if_neg h2] at ih ⊢
        simp only [replaceFirst, if_neg h1, assq, ih]

theorem nodeRef_nodeSet (t : Node) (k q : Key) (v : Node) :
    nodeRef (nodeSet t k v) q = if q = k then some v else nodeRef t q := by
  unfold nodeSet nodeRef
  split
  · rename_i h
    simp only [Node.children] at *
    rw [assq_replaceFirst]
    by_cases hq : q = k
    · simp [hq, h]
    · simp [hq]
  · rename_i h
    simp only [Node.children, assq]
    by_cases hq : q = k
    · simp [hq]
    · simp [hq, Ne.symm hq]

theorem trieRef_insert : ∀ (ks qs : List Key) (t : Node),
    (trieRef (trieInsert t ks) qs).isSome = ((trieRef t qs).isSome || qs.isPrefixOf ks)
  | ks, [], t => by simp [trieRef]
  | [], q :: qs, t => by simp [trieInsert, List.isPrefixOf]
  | k :: ks, q :: qs, t => by
    by_cases hq : q = k
    · subst hq
      cases hr : nodeRef t q with
      | none =>
        have := trieRef_insert ks qs makeNode
        simp only [trieInsert, hr, trieRef, nodeRef_nodeSet, if_true, this, List.isPrefixOf]
        cases qs with
        | nil => simp [trieRef]
        | cons q' qs => simp [trieRef, nodeRef, makeNode, Node.children, assq]
      | some sub =>
        have := trieRef_insert ks qs sub
        simp only [trieInsert, hr, trieRef, nodeRef_nodeSet, if_true, this, List.isPrefixOf]
        simp
    · have h1 : nodeRef (trieInsert t (k :: ks)) q = nodeRef t q := by
        rw [trieInsert]
        split <;> rw [nodeRef_nodeSet, if_neg hq]
      simp only [trieRef, h1, List.isPrefixOf]
      simp [hq]

theorem trieRef_append : ∀ (ks qs : List Key) (t : Node),
    trieRef t (ks ++ qs) = (trieRef t ks).bind fun t' => trieRef t' qs
  | [], qs, t => by simp [trieRef]
  | k :: ks, qs, t => by
    simp only [List.cons_append, trieRef]
    cases nodeRef t k with
    | none => simp
    | some sub => simpa using trieRef_append ks qs sub

theorem contains_eq (t : Node) (s : List Nat) : contains t s = (trieRef t (s.map .chr ++ [.eow])).isSome := by
  rw [trieRef_append, contains, stringRef]
  cases trieRef t (s.map .chr) with
  | none => rfl
  | some e => simp only [Option.bind_some, trieRef]; cases nodeRef e .eow <;> rfl

theorem isPrefixOf_word : ∀ (s w : List Nat),
    (s.map Key.chr ++ [Key.eow]).isPrefixOf (w.map Key.chr ++ [Key.eow]) = decide (s = w)
  | [], [] => by simp [List.isPrefixOf]
  | [], c :: w => by simp [List.isPrefixOf]
  | c :: s, [] => by simp [List.isPrefixOf]
  | c :: s, d :: w => by
    have := isPrefixOf_word s w
    simp only [List.map_cons, List.cons_append, List.isPrefixOf, this]
    by_cases h : c = d
    · simp [h]
    · simp [h]

theorem contains_insert (t : Node) (w s : List Nat) :
    contains (insertString t w) s = (contains t s || decide (s = w)) := by
  rw [contains_eq, contains_eq, insertString, trieRef_insert, isPrefixOf_word]

/-! ## C18  tries contain exactly what was inserted -/

/-- `trie-contains-string?` holds exactly for the inserted strings. -/
theorem C18_contains (ws : List (List Nat)) (s : List Nat) : contains (build ws) s = true ↔ s ∈ ws := by
  have gen : ∀ (ws : List (List Nat)) (t : Node),
      contains (ws.foldl insertString t) s = true ↔ contains t s = true ∨ s ∈ ws := by
    intro ws
    induction ws with
    | nil => simp
    | cons w ws ih =>
      intro t
      rw [List.foldl_cons, ih, contains_insert]
      simp [or_assoc]
  rw [build, gen]
  have : contains makeNode s = false := by
    cases s with
    | nil => rfl
    | cons c s => rfl
  simp [this]

/-- Keys occur once in every node. -/
inductive Wf : Node → Prop where
  | mk (ch : List (Key × Node)) (nodup : (ch.map Prod.fst).Nodup)
      (sub : ∀ k n, (k, n) ∈ ch → Wf n) : Wf (.mk ch)

theorem assq_mem {k : Key} {n : Node} : ∀ {l : List (Key × Node)}, assq k l = some n → (k, n) ∈ l
  | (k', n') :: rest, h => by
    by_cases hk : k' = k
    · subst hk; simp [assq] at h; simp [h]
    · simp only [assq, if_neg hk] at h
      exact List.mem_cons_of_mem _ (assq_mem h)

theorem assq_none {k : Key} : ∀ {l : List (Key × Node)}, assq k l = none → k ∉ l.map Prod.fst
  | [], _ => by simp
  | (k', n') :: rest, h => by
    by_cases hk : k' = k
    · simp [assq, hk] at h
    · simp only [assq, if_neg hk] at h
      simp only [List.map_cons, List.mem_cons, not_or]
      exact ⟨Ne.symm hk, assq_none h⟩

theorem replaceFirst_keys (k : Key) (v : Node) : ∀ l : List (Key × Node),
    (replaceFirst k v l).map Prod.fst = l.map Prod.fst
  | [] => rfl
  | (k', n) :: rest => by
    by_cases h : k' = k <;> simp [replaceFirst, h, replaceFirst_keys k v rest]

theorem replaceFirst_mem {k : Key} {v : Node} {x : Key × Node} : ∀ {l : List (Key × Node)},
    x ∈ replaceFirst k v l → x.2 = v ∨ x ∈ l
  | (k', n) :: rest, h => by
    by_cases hk : k' = k
    · simp only [replaceFirst, if_pos hk, List.mem_cons] at h
      rcases h with rfl | h
      · exact Or.inl rfl
      · exact Or.inr (by simp [h])
    · simp only [replaceFirst, if_neg hk, List.mem_cons] at h
      rcases h with rfl | h
      · exact Or.inr (by simp)
      · rcases replaceFirst_mem h with h | h
        · exact Or.inl h
        · exact Or.inr (by simp [h])

theorem wf_nodeSet {t v : Node} {k : Key} (ht : Wf t) (hv : Wf v) : Wf (nodeSet t k v) := by
  cases ht with
  | mk ch nd sub =>
    unfold nodeSet
    split
    · refine ⟨_, by rw [replaceFirst_keys]; exact nd, ?_⟩
      intro k' n h
      rcases replaceFirst_mem h with h | h
      · simp only at h; subst h; exact hv
      · exact sub _ _ h
    · rename_i h
      refine ⟨_, ?_, ?_⟩
      · rw [List.map_cons, List.nodup_cons]
        exact ⟨assq_none h, nd⟩
      · intro k' n h
        rcases List.mem_cons.1 h with h | h
        · cases h; exact hv
        · exact sub _ _ h

theorem wf_makeNode : Wf makeNode := ⟨_, by simp, by simp⟩

theorem wf_nodeRef {t n : Node} {k : Key} (ht : Wf t) (h : nodeRef t k = some n) : Wf n := by
  cases ht with
  | mk ch nd sub => exact sub k n (assq_mem h)

theorem wf_trieInsert : ∀ (ks : List Key) (t : Node), Wf t → Wf (trieInsert t ks)
  | [], t, h => h
  | k :: ks, t, h => by
    rw [trieInsert]
    split
    · rename_i sub hr
      exact wf_nodeSet h (wf_trieInsert ks sub (wf_nodeRef h hr))
    · exact wf_nodeSet h (wf_trieInsert ks _ wf_makeNode)

theorem wf_trieRef : ∀ (ks : List Key) (t n : Node), Wf t → trieRef t ks = some n → Wf n
  | [], t, n, h, e => by simp only [trieRef, Option.some.injEq] at e; exact e ▸ h
  | k :: ks, t, n, h, e => by
    simp only [trieRef] at e
    split at e
    · rename_i sub hr
      exact wf_trieRef ks sub n (wf_nodeRef h hr) e
    · cases e

theorem wf_build (ws : List (List Nat)) : Wf (build ws) := by
  have gen : ∀ (ws : List (List Nat)) (t : Node), Wf t → Wf (ws.foldl insertString t) := by
    intro ws
    induction ws with
    | nil => intro t h; exact h
    | cons w ws ih => intro t h; exact ih _ (wf_trieInsert _ _ h)
  exact gen ws _ wf_makeNode

theorem contains_nil (t : Node) : contains t [] = (assq .eow t.children).isSome := rfl

theorem contains_cons (t : Node) (c : Nat) (s : List Nat) :
    contains t (c :: s) = match assq (.chr c) t.children with
      | some sub => contains sub s
      | none => false := by
  simp only [contains, stringRef, List.map_cons, trieRef, nodeRef]
  cases assq (.chr c) t.children <;> rfl

theorem iter_spec (tokens : List Nat) (ch : List (Key × Node)) (hw : Wf (.mk ch)) :
    (iter tokens ch).Nodup ∧
      ∀ w, w ∈ iter tokens ch ↔ ∃ s, w = tokens.reverse ++ s ∧ contains (.mk ch) s = true := by
  induction tokens, ch using iter.induct with
  | case1 tokens =>
    refine ⟨by simp [iter], fun w => ?_⟩
    simp only [iter, List.not_mem_nil, false_iff, not_exists, not_and]
    intro s _
    cases s <;> simp [contains_nil, contains_cons, Node.children, assq]
  | case2 tokens n rest ih =>
    cases hw with
    | mk _ nd sub =>
    rw [List.map_cons, List.nodup_cons] at nd
    obtain ⟨ih1, ih2⟩ := ih ⟨_, nd.2, fun k n h => sub k n (by simp [h])⟩
    have hnone : assq .eow rest = none := by
      cases h : assq .eow rest with
      | none => rfl
      | some n => exact absurd (List.mem_map.2 ⟨_, assq_mem h, rfl⟩) nd.1
    have key : ∀ s, contains (.mk ((.eow, n) :: rest)) s = (decide (s = []) || contains (.mk rest) s) := by
      intro s
      cases s with
      | nil => simp [contains_nil, Node.children, assq]
      | cons c s => simp [contains_cons, Node.children, assq]
    refine ⟨?_, fun w => ?_⟩
    · rw [iter, List.nodup_cons]
      refine ⟨fun h => ?_, ih1⟩
      obtain ⟨s, e, hs⟩ := (ih2 _).1 h
      have : s = [] := by
        have := congrArg List.length e
        simp at this
        exact this
      subst this
      rw [contains_nil] at hs
      simp [Node.children, hnone] at hs
    · rw [iter, List.mem_cons, ih2]
      simp only [key, Bool.or_eq_true, decide_eq_true_eq]
      constructor
      · rintro (rfl | ⟨s, rfl, hs⟩)
        · exact ⟨[], by simp, Or.inl rfl⟩
        · exact ⟨s, rfl, Or.inr hs⟩
      · rintro ⟨s, rfl, rfl | hs⟩
        · exact Or.inl (by simp)
        · exact Or.inr ⟨s, rfl, hs⟩
  | case3 tokens c ch rest ih1 ih2 =>
    cases hw with
    | mk _ nd sub =>
    rw [List.map_cons, List.nodup_cons] at nd
    obtain ⟨a1, a2⟩ := ih1 (sub (.chr c) (.mk ch) (by simp))
    obtain ⟨b1, b2⟩ := ih2 ⟨_, nd.2, fun k n h => sub k n (by simp [h])⟩
    have hnone : assq (.chr c) rest = none := by
      cases h : assq (.chr c) rest with
      | none => rfl
      | some n => exact absurd (List.mem_map.2 ⟨_, assq_mem h, rfl⟩) nd.1
    have hrest : ∀ s, contains (.mk rest) (c :: s) = false := by
      intro s; rw [contains_cons]; simp [Node.children, hnone]
    have key : ∀ s, contains (.mk ((.chr c, .mk ch) :: rest)) s = true ↔
        (∃ s', s = c :: s' ∧ contains (.mk ch) s' = true) ∨ contains (.mk rest) s = true := by
      intro s
      cases s with
      | nil => simp [contains_nil, Node.children, assq]
      | cons d s =>
        by_cases hd : c = d
        · subst hd
          simp [contains_cons, Node.children, assq, hnone]
        · simp [contains_cons, Node.children, assq, hd, Ne.symm hd]
    refine ⟨?_, fun w => ?_⟩
    · rw [iter, List.nodup_append]
      refine ⟨a1, b1, ?_⟩
      rintro x hx y hy rfl
      obtain ⟨s, e, hs⟩ := (a2 _).1 hx
      obtain ⟨s', e', hs'⟩ := (b2 _).1 hy
      have : s' = c :: s := by
        have e2 := e'.symm.trans e
        rw [List.reverse_cons, List.append_assoc] at e2
        exact List.append_cancel_left e2
      rw [this, hrest] at hs'
      cases hs'
    · rw [iter, List.mem_append, a2, b2]
      simp only [key]
      constructor
      · rintro (⟨s, rfl, hs⟩ | ⟨s, rfl, hs⟩)
        · exact ⟨c :: s, by simp, Or.inl ⟨s, rfl, hs⟩⟩
        · exact ⟨s, rfl, Or.inr hs⟩
      · rintro ⟨s, rfl, ⟨s', rfl, hs⟩ | hs⟩
        · exact Or.inl ⟨s', by simp, hs⟩
        · exact Or.inr ⟨s, rfl, hs⟩

theorem foreach_spec {t : Node} (h : Wf t) :
    (foreach t).Nodup ∧ ∀ w, w ∈ foreach t ↔ contains t w = true := by
  obtain ⟨ch⟩ := t
  obtain ⟨h1, h2⟩ := iter_spec [] ch h
  exact ⟨h1, fun w => by simpa [foreach, Node.children] using h2 w⟩

/-- `trie-foreach` calls back with exactly the inserted strings, each once. -/
theorem C18_foreach (ws : List (List Nat)) :
    (foreach (build ws)).Nodup ∧ ∀ w, w ∈ foreach (build ws) ↔ w ∈ ws := by
  obtain ⟨h1, h2⟩ := foreach_spec (wf_build ws)
  exact ⟨h1, fun w => (h2 w).trans (C18_contains ws w)⟩

/-- Completions: `trie-string-ref` of a prefix `p` is false if no inserted string
starts with `p`; otherwise `trie-foreach` on it gives exactly the remainders of the
inserted strings that start with `p`, each once. -/
theorem C18_completions (ws : List (List Nat)) (p : List Nat) :
    match stringRef (build ws) p with
    | none => ∀ s, p ++ s ∉ ws
    | some sub => (foreach sub).Nodup ∧ ∀ s, s ∈ foreach sub ↔ p ++ s ∈ ws := by
  have key : ∀ s, contains (build ws) (p ++ s) =
      ((stringRef (build ws) p).bind fun sub => trieRef sub (s.map .chr ++ [.eow])).isSome := by
    intro s
    rw [contains_eq, List.map_append, List.append_assoc, trieRef_append]
    rfl
  cases h : stringRef (build ws) p with
  | none =>
    intro s hs
    rw [← C18_contains, key, h] at hs
    simp at hs
  | some sub =>
    obtain ⟨h1, h2⟩ := foreach_spec (wf_trieRef _ _ _ (wf_build ws) h)
    refine ⟨h1, fun s => ?_⟩
    rw [h2, ← C18_contains, key, h, contains_eq]
    rfl

/-- The subtree of a prefix is missing only if no string has it: the converse. -/
theorem C18_completions_some (ws : List (List Nat)) (p s : List Nat) (h : p ++ s ∈ ws) :
    (stringRef (build ws) p).isSome = true := by
  have := C18_completions ws p
  cases e : stringRef (build ws) p with
  | none => rw [e] at this; exact absurd h (this s)
  | some sub => rfl

example : foreach (build [[1, 2], [1, 3], [1], [4]]) = [[4], [1], [1, 3], [1, 2]] := by
  simp [foreach, build, insertString, trieInsert, nodeRef, nodeSet, makeNode, assq, replaceFirst, Node.children, iter]

end Rep.Trie
