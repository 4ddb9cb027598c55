/-
Derived forms: how the states of the meaning and of the evaluator correspond.
`μ` says where the evaluator keeps each location of the meaning; the evaluator
has further locations, for the variables of the expansions.
-/
import Verif.Forms.Rules
import Mathlib.Data.List.Nodup

namespace Rep.Forms

variable {P W : Type} {prim : P → List (Option Sexp) → W → Ans × W}

/-- The environments agree on the names. -/
structure EnvRel (μ : List Nat) (e : SEnv) (e' : Env) : Prop where
  bound : ∀ x l, e.lookup x = some l → ∃ l', μ[l]? = some l' ∧ e'.lookup (.name x) = some l'
  unbound : ∀ x, e.lookup x = none → e'.lookup (.name x) = none
  res : ∀ x ∈ reserved, e.lookup x = none

theorem EnvRel.isFree {μ e e'} (h : EnvRel μ e e') : Free e' :=
  fun x hx => h.unbound x (h.res x hx)

theorem getElem?_prefix {α : Type} {a b : List α} (h : a <+: b) {i : Nat} {x : α}
    (hx : a[i]? = some x) : b[i]? = some x := by
  obtain ⟨c, rfl⟩ := h
  rw [List.getElem?_append_left]
  · exact hx
  · exact (List.getElem?_eq_some_iff.1 hx).1

theorem EnvRel.mono {μ μ2 e e'} (h : EnvRel μ e e') (hp : μ <+: μ2) : EnvRel μ2 e e' where
  bound x l hl := by
    obtain ⟨l', a, b⟩ := h.bound x l hl
    exact ⟨l', getElem?_prefix hp a, b⟩
  unbound := h.unbound
  res := h.res

theorem EnvRel.gen {μ e e'} (h : EnvRel μ e e') (g l : Nat) :
    EnvRel μ e ((.gen g, l) :: e') where
  bound x l' hl := by
    rw [List.lookup_cons]
    exact h.bound x l' hl
  unbound x hx := by
    rw [List.lookup_cons]
    exact h.unbound x hx
  res := h.res

theorem lookup_cons_name {x y : String} {l : Nat} {e : Env} :
    List.lookup (Sym.name x) ((Sym.name y, l) :: e)
      = if x = y then some l else e.lookup (.name x) := by
  rw [List.lookup_cons]
  by_cases h : x = y
  · subst h; simp
  · have : (Sym.name x == Sym.name y) = false := by simp [h]
    rw [this, if_neg h]

theorem slookup_cons {x y : String} {l : Nat} {e : SEnv} :
    List.lookup x ((y, l) :: e) = if x = y then some l else e.lookup x := by
  rw [List.lookup_cons]
  by_cases h : x = y
  · subst h; simp
  · have : (x == y) = false := by simp [h]
    rw [this, if_neg h]

theorem EnvRel.push {μ e e'} (h : EnvRel μ e e') {x : String} (hx : free x = true) {l l' : Nat}
    (hl : μ[l]? = some l') : EnvRel μ ((x, l) :: e) ((.name x, l') :: e') where
  bound y k hk := by
    rw [slookup_cons] at hk
    rw [lookup_cons_name]
    split at hk
    · rename_i hy
      rw [if_pos hy]
      cases hk
      exact ⟨l', hl, rfl⟩
    · rename_i hy
      rw [if_neg hy]
      exact h.bound y k hk
  unbound y hy := by
    rw [slookup_cons] at hy
    rw [lookup_cons_name]
    split at hy
    · cases hy
    · rename_i hn
      rw [if_neg hn]
      exact h.unbound y hy
  res y hy := by
    rw [slookup_cons]
    have : x ∉ reserved := by simpa [free] using hx
    rw [if_neg (fun (hh : y = x) => this (hh ▸ hy))]
    exact h.res y hy

/-- The values agree. -/
inductive VRel (μ : List Nat) : SVal P → Val P → Prop
  | data (d : Sexp) : VRel μ (.data d) (.data d)
  | fn (f : Fn P) : VRel μ (.fn f) (.fn f)
  | clos {ps body e e'} (hp : ps.all free = true) (hb : okL body = true) (he : EnvRel μ e e') :
    VRel μ (.clos ps body e) (.clos (.cons (names ps) (textL body)) e')

theorem VRel.mono {μ μ2} {v : SVal P} {v' : Val P} (h : VRel μ v v') (hp : μ <+: μ2) :
    VRel μ2 v v' := by
  cases h with
  | data d => exact .data d
  | fn f => exact .fn f
  | clos h1 h2 h3 => exact .clos h1 h2 (h3.mono hp)

theorem VRel.isNil {μ} {v : SVal P} {v' : Val P} (h : VRel μ v v') : v'.isNil = v.isNil := by
  cases h with
  | data d => cases d <;> rfl
  | fn f => rfl
  | clos h1 h2 h3 => rfl

theorem VRel.view {μ} {v : SVal P} {v' : Val P} (h : VRel μ v v') : v'.view = v.view := by
  cases h <;> rfl

theorem VRel.not_kw {μ} {v : SVal P} {v' : Val P} (h : VRel μ v v') (k : Kw) : v' ≠ .kw k := by
  cases h <;> exact (fun hh => nomatch hh)

/-- Lists of values agree. -/
def VsRel (μ : List Nat) (vs : List (SVal P)) (vs' : List (Val P)) : Prop :=
  List.Forall₂ (VRel μ) vs vs'

theorem VsRel.mono {μ μ2} {vs : List (SVal P)} {vs' : List (Val P)} (h : VsRel μ vs vs')
    (hp : μ <+: μ2) : VsRel μ2 vs vs' := by
  unfold VsRel at *
  induction h with
  | nil => exact .nil
  | cons a _ ih => exact .cons (a.mono hp) ih

theorem VsRel.hd {μ} {vs : List (SVal P)} {vs' : List (Val P)} (h : VsRel μ vs vs') :
    VRel μ (shd vs) (Forms.hd vs') := by
  cases h with
  | nil => exact .data _
  | cons a _ => exact a

theorem VsRel.view {μ} {vs : List (SVal P)} {vs' : List (Val P)} (h : VsRel μ vs vs') :
    vs'.map Val.view = vs.map SVal.view := by
  unfold VsRel at h
  induction h with
  | nil => rfl
  | cons a _ ih => rw [List.map_cons, List.map_cons, ih, a.view]

theorem VsRel.get {μ} {vs : List (SVal P)} {vs' : List (Val P)} (h : VsRel μ vs vs') (i : Nat) :
    (vs[i]? = none ∧ vs'[i]? = none) ∨
      ∃ v v', vs[i]? = some v ∧ vs'[i]? = some v' ∧ VRel μ v v' := by
  unfold VsRel at h
  induction h generalizing i with
  | nil => exact Or.inl ⟨rfl, rfl⟩
  | cons a _ ih =>
    cases i with
    | zero => exact Or.inr ⟨_, _, rfl, rfl, a⟩
    | succ i => exact ih i

theorem VsRel.one {μ} {v : SVal P} {v' : Val P} (h : VRel μ v v') : VsRel μ [v] [v'] :=
  .cons h .nil

/-- Results agree. -/
inductive RRel (μ : List Nat) : Res (SVal P) → Res (Val P) → Prop
  | ok {vs vs'} (h : VsRel μ vs vs') : RRel μ (.ok vs) (.ok vs')
  | err (e : Err) : RRel μ (.err e) (.err e)

/-- States agree. -/
structure StRel (μ : List Nat) (s : SSt P W) (s' : St P W) : Prop where
  len : μ.length = s.store.length
  nodup : μ.Nodup
  below : ∀ l ∈ μ, l < s'.store.length
  val : ∀ (i : Nat) (v : SVal P), s.store[i]? = some v →
    ∃ (l : Nat) (v' : Val P), μ[i]? = some l ∧ s'.store[l]? = some v' ∧ VRel μ v v'
  world : s'.world = s.world

/-- What an evaluation leaves alone: the locations outside `μ`. -/
structure Frame (μ : List Nat) (s : St P W) (μ2 : List Nat) (s2 : St P W) : Prop where
  pre : μ <+: μ2
  len : s.store.length ≤ s2.store.length
  keep : ∀ l < s.store.length, l ∉ μ → l ∉ μ2 ∧ s2.store[l]? = s.store[l]?

theorem Frame.refl (μ : List Nat) (s : St P W) : Frame μ s μ s :=
  ⟨List.prefix_rfl, Nat.le_refl _, fun _ _ h => ⟨h, rfl⟩⟩

theorem Frame.trans {μ μ2 μ3} {s s2 s3 : St P W} (h : Frame μ s μ2 s2) (h2 : Frame μ2 s2 μ3 s3) :
    Frame μ s μ3 s3 where
  pre := h.pre.trans h2.pre
  len := Nat.le_trans h.len h2.len
  keep l hl hn := by
    obtain ⟨a, b⟩ := h.keep l hl hn
    obtain ⟨c, d⟩ := h2.keep l (Nat.lt_of_lt_of_le hl h.len) a
    exact ⟨c, d.trans b⟩

/-- A generated symbol was counted. -/
theorem StRel.gens {μ} {s : SSt P W} {s' : St P W} (h : StRel μ s s') (g : Nat) :
    StRel μ s { s' with gens := g } := ⟨h.len, h.nodup, h.below, h.val, h.world⟩

theorem StRel.setWorld {μ} {s : SSt P W} {s' : St P W} (h : StRel μ s s') (w : W) :
    StRel μ { s with world := w } { s' with world := w } :=
  ⟨h.len, h.nodup, h.below, h.val, rfl⟩

/-- A location of the expansion was added. -/
theorem StRel.extra {μ} {s : SSt P W} {s' : St P W} (h : StRel μ s s') (v : Val P) :
    StRel μ s { s' with store := s'.store ++ [v] } where
  len := h.len
  nodup := h.nodup
  below l hl := by
    have := h.below l hl
    simp only [List.length_append, List.length_cons, List.length_nil]
    omega
  val i v0 hv := by
    obtain ⟨l, v', a, b, c⟩ := h.val i v0 hv
    exact ⟨l, v', a, getElem?_prefix (List.prefix_append _ _) b, c⟩
  world := h.world

theorem StRel.fresh {μ} {s : SSt P W} {s' : St P W} (h : StRel μ s s') :
    s'.store.length ∉ μ := fun hm => Nat.lt_irrefl _ (h.below _ hm)

theorem Frame.extra {μ} {s' : St P W} (v : Val P) :
    Frame μ s' μ { s' with store := s'.store ++ [v] } where
  pre := List.prefix_rfl
  len := by simp
  keep l hl hn := ⟨hn, by rw [List.getElem?_append_left hl]⟩

/-- A location was added on both sides. -/
theorem StRel.push {μ} {s : SSt P W} {s' : St P W} (h : StRel μ s s') {v : SVal P} {v' : Val P}
    (hv : VRel (μ ++ [s'.store.length]) v v') :
    StRel (μ ++ [s'.store.length]) { s with store := s.store ++ [v] }
      { s' with store := s'.store ++ [v'] } where
  len := by simp [h.len]
  nodup := by
    rw [List.nodup_append]
    refine ⟨h.nodup, by simp, ?_⟩
    intro a ha b hb
    rw [List.mem_singleton] at hb
    have := h.below a ha
    omega
  below l hl := by
    simp only [List.length_append, List.length_cons, List.length_nil]
    rcases List.mem_append.1 hl with hl | hl
    · have := h.below l hl
      omega
    · rw [List.mem_singleton] at hl
      omega
  val i w hw := by
    dsimp only at hw ⊢
    by_cases hi : i < s.store.length
    · rw [List.getElem?_append_left hi] at hw
      obtain ⟨l, w', a, b, c⟩ := h.val i w hw
      exact ⟨l, w', getElem?_prefix (List.prefix_append _ _) a,
        getElem?_prefix (List.prefix_append _ _) b, c.mono (List.prefix_append _ _)⟩
    · have hlt := (List.getElem?_eq_some_iff.1 hw).1
      simp only [List.length_append, List.length_cons, List.length_nil] at hlt
      have hie : i = s.store.length := by omega
      subst hie
      rw [List.getElem?_concat_length] at hw
      cases hw
      refine ⟨s'.store.length, v', ?_, ?_, hv⟩
      · rw [← h.len, List.getElem?_concat_length]
      · rw [List.getElem?_concat_length]
  world := h.world

theorem Frame.push {μ} {s' : St P W} (v' : Val P) :
    Frame μ s' (μ ++ [s'.store.length]) { s' with store := s'.store ++ [v'] } where
  pre := List.prefix_append _ _
  len := by simp
  keep l hl hn := by
    refine ⟨?_, by rw [List.getElem?_append_left hl]⟩
    rw [List.mem_append, List.mem_singleton]
    rintro (h | h)
    · exact hn h
    · omega

theorem nodup_get {μ : List Nat} (h : μ.Nodup) {i j l : Nat} (hi : μ[i]? = some l)
    (hj : μ[j]? = some l) : i = j := by
  obtain ⟨h1, h2⟩ := List.getElem?_eq_some_iff.1 hi
  obtain ⟨h3, h4⟩ := List.getElem?_eq_some_iff.1 hj
  exact (List.Nodup.getElem_inj_iff h).1 (h2.trans h4.symm)

/-- A location was set on both sides. -/
theorem StRel.set {μ} {s : SSt P W} {s' : St P W} (h : StRel μ s s') {v : SVal P} {v' : Val P}
    {l l' : Nat} (hl : μ[l]? = some l') (hv : VRel μ v v') :
    StRel μ { s with store := s.store.set l v } { s' with store := s'.store.set l' v' } where
  len := by simp [h.len]
  nodup := h.nodup
  below k hk := by
    simp only [List.length_set]
    exact h.below k hk
  val i w hw := by
    dsimp only at hw ⊢
    rw [List.getElem?_set] at hw
    split at hw
    · rename_i hi
      subst hi
      split at hw
      · cases hw
        refine ⟨l', v', hl, ?_, hv⟩
        rw [List.getElem?_set_self]
        exact h.below l' (List.mem_of_getElem? hl)
      · cases hw
    · rename_i hi
      obtain ⟨k, w', a, b, c⟩ := h.val i w hw
      refine ⟨k, w', a, ?_, c⟩
      rw [List.getElem?_set_ne]
      · exact b
      · intro hk
        subst hk
        exact hi (nodup_get h.nodup hl a)
  world := h.world

theorem Frame.set {μ} {s' : St P W} {l l' : Nat} (hl : μ[l]? = some l') (v' : Val P) :
    Frame μ s' μ { s' with store := s'.store.set l' v' } where
  pre := List.prefix_rfl
  len := by simp
  keep k hk hn := by
    refine ⟨hn, ?_⟩
    rw [List.getElem?_set_ne]
    intro hh
    exact hn (hh ▸ List.mem_of_getElem? hl)

theorem Frame.gens {μ μ2} {s' s2 : St P W} {g : Nat} (h : Frame μ { s' with gens := g } μ2 s2) :
    Frame μ s' μ2 s2 := ⟨h.pre, h.len, h.keep⟩

/-- Parameters are bound alike. -/
theorem bind_sim : ∀ (xs : List String) {vs : List (SVal P)} {vs' : List (Val P)} {μ : List Nat}
    {e : SEnv} {e' : Env} {s : SSt P W} {s' : St P W}, VsRel μ vs vs' → EnvRel μ e e' →
    StRel μ s s' → xs.all free = true →
    match alloc xs vs e s.store with
    | .inl er => bindParams (names xs) vs' e' s'.store = .inl er
    | .inr (e2, st2) => ∃ μ2 e2' st2', bindParams (names xs) vs' e' s'.store = .inr (e2', st2') ∧
        EnvRel μ2 e2 e2' ∧ StRel μ2 { s with store := st2 } { s' with store := st2' } ∧
        Frame μ s' μ2 { s' with store := st2' } ∧
        ∀ g, e2'.lookup (.gen g) = e'.lookup (.gen g)
  | [], vs, vs', μ, e, e', s, s', hv, he, hs, hf => by
    exact ⟨μ, e', s'.store, rfl, he, hs, Frame.refl _ _, fun _ => rfl⟩
  | x :: xs, vs, vs', μ, e, e', s, s', hv, he, hs, hf => by
    rw [List.all_cons, Bool.and_eq_true] at hf
    cases hv with
    | nil => exact rfl
    | @cons v v' vs vs' h1 h2 =>
      have hp : μ <+: μ ++ [s'.store.length] := List.prefix_append _ _
      have hs2 := hs.push (h1.mono hp)
      have hl : (μ ++ [s'.store.length])[s.store.length]? = some s'.store.length := by
        rw [← hs.len, List.getElem?_concat_length]
      have he2 := (he.mono hp).push hf.1 hl
      have ih := bind_sim xs (VsRel.mono h2 hp) he2 hs2 hf.2
      have e1 : alloc (x :: xs) (v :: vs) e s.store
          = alloc xs vs ((x, s.store.length) :: e) (s.store ++ [v]) := rfl
      have e2 : bindParams (names (x :: xs)) (v' :: vs') e' s'.store
          = bindParams (names xs) vs' ((.name x, s'.store.length) :: e') (s'.store ++ [v']) := rfl
      rw [e1, e2]
      dsimp only at ih
      cases hA : alloc xs vs ((x, s.store.length) :: e) (s.store ++ [v]) with
      | inl er => rw [hA] at ih; exact ih
      | inr p =>
        rw [hA] at ih
        obtain ⟨μ2, e2', st2', a, b, c, d, f⟩ := ih
        refine ⟨μ2, e2', st2', a, b, c, (Frame.push v').trans d, ?_⟩
        intro g
        rw [f g, List.lookup_cons]
        rfl

end Rep.Forms
