import Verif.Compile.Grow
import Verif.Compile.Spec

/-
The tag `not-tail-call-only` of the name of a function, after the body of the function has been
compiled, says whether the name is used otherwise than in tail calls.
-/

namespace Rep.Compile

mutual
/-- The variable is only called, and only where the value of the call is the value of the form. -/
def tailB (x : Name) : Exp → Bool
  | .quote _ => true
  | .var y => !(y == x)
  | .set y e => !(y == x) && !mentions x e
  | .seq a b => !mentions x a && tailB x b
  | .cond cs => tailC x cs
  | .while c b => !mentions x b && !mentions x c
  | .lam _ b => !mentions x b
  | .call f as => (match f with
      | .var _ => true
      | f => !mentions x f) && !mentionsA x as
  | .inl _ b as => !mentionsA x as && tailB x b
  | .lets bs b => !mentionsB x bs && tailB x b
  | .letrec bs b => !mentionsB x bs && tailB x b
  | .named z _ b as => !mentionsA x as && (if tailB z b then tailB x b else !mentions x b)
def tailC (x : Name) : Clauses → Bool
  | .nil => true
  | .test q r => match squash q with
    | some true => true
    | some false => tailC x r
    | none => if r.isNil then tailB x q else !mentions x q && tailC x r
  | .act q b r => match squash q with
    | some true => tailB x b
    | some false => tailC x r
    | none => !mentions x q && tailB x b && tailC x r
end

/-- Used otherwise: in a tail position (`t`), or at all. -/
def bad (x : Name) (e : Exp) (t : Bool) : Bool := if t then !tailB x e else mentions x e
def badC (x : Name) (cs : Clauses) (t : Bool) : Bool := if t then !tailC x cs else mentionsC x cs

/-- Cells are different and have been made. -/
def CellsOk (lex : Lex) (n : Nat) : Prop := (lex.map (·.2)).Nodup ∧ ∀ e ∈ lex, e.2 < n

/-- Only cells that have been made are tagged. -/
def TagsOk (s : CSt) : Prop :=
  (∀ k ∈ s.notTail, k < s.cell) ∧ ∀ k ∈ s.modified, k < s.cell

theorem CellsOk.mono {lex : Lex} {n m : Nat} (h : CellsOk lex n) (hm : n ≤ m) : CellsOk lex m :=
  ⟨h.1, fun e he => Nat.lt_of_lt_of_le (h.2 e he) hm⟩

theorem CellsOk.cons {lex : Lex} {n : Nat} (h : CellsOk lex n) (x : Name) :
    CellsOk ((x, n) :: lex) (n + 1) := by
  refine ⟨?_, ?_⟩
  · rw [List.map_cons, List.nodup_cons]
    refine ⟨?_, h.1⟩
    intro hm
    obtain ⟨e, he, hn⟩ := List.mem_map.1 hm
    have := h.2 e he
    simp only at hn
    omega
  · intro e he
    rcases List.mem_cons.1 he with rfl | he
    · exact Nat.lt_succ_self _
    · exact Nat.lt_succ_of_lt (h.2 e he)

theorem look_mem {α : Type} {x : Name} {l : List (Name × α)} {a : α} (h : look x l = some a) :
    (x, a) ∈ l := by
  induction l with
  | nil => simp [look] at h
  | cons e l ih =>
    obtain ⟨y, b⟩ := e
    simp only [look] at h
    split at h
    · rename_i hy
      simp only [Option.some.injEq] at h
      subst hy h
      exact .head _
    · exact .tail _ (ih h)

/-- Different variables have different cells. -/
theorem look_inj {lex : Lex} {x y : Name} {k : Nat} (h : (lex.map (·.2)).Nodup)
    (hx : look x lex = some k) (hy : look y lex = some k) : x = y := by
  induction lex with
  | nil => simp [look] at hx
  | cons e l ih =>
    obtain ⟨z, b⟩ := e
    rw [List.map_cons, List.nodup_cons] at h
    simp only [look] at hx hy
    have hn : ∀ w, look w l = some b → False := fun w hw =>
      h.1 (List.mem_map.2 ⟨_, look_mem hw, rfl⟩)
    split at hx <;> split at hy
    · simp_all
    · simp only [Option.some.injEq] at hx; subst hx; exact (hn _ hy).elim
    · simp only [Option.some.injEq] at hy; subst hy; exact (hn _ hx).elim
    · exact ih h.2 hx hy

/-- The variable `x` with the cell `k` is the name of a function that is being compiled and has the
record `r`. -/
structure TX (c : Ctx) (sc : Scope) (x k : Nat) (r : Rec) : Prop where
  lex : look x c.lex = some k
  find : findLambda c.recs x = some r
  inl : r.inlined = false
  dep : r.depth ≤ depth c.recs
  kind : ∃ n, look x sc = some (some n)

/-- What compilation does to the tags of the names of functions. -/
def Tag (c : Ctx) (sc : Scope) (s s' : CSt) (B : Name → Bool → Bool) : Prop :=
  TagsOk s' ∧ ∀ x k r, TX c sc x k r → k < s.cell → k ∉ s.modified →
    k ∉ s'.modified ∧ (k ∈ s'.notTail ↔ k ∈ s.notTail ∨ B x (r.depth == depth c.recs) = true)

theorem Tag.refl {c : Ctx} {sc : Scope} {s : CSt} (h : TagsOk s) :
    Tag c sc s s fun _ _ => false :=
  ⟨h, fun _ _ _ _ _ hm => ⟨hm, by simp⟩⟩

theorem Tag.trans {c : Ctx} {sc : Scope} {s s1 s2 : CSt} {B1 B2 : Name → Bool → Bool}
    (h1 : Tag c sc s s1 B1) (h2 : Tag c sc s1 s2 B2) (hl : s.cell ≤ s1.cell) :
    Tag c sc s s2 fun x t => B1 x t || B2 x t := by
  refine ⟨h2.1, fun x k r hx hk hm => ?_⟩
  obtain ⟨m1, i1⟩ := h1.2 x k r hx hk hm
  obtain ⟨m2, i2⟩ := h2.2 x k r hx (Nat.lt_of_lt_of_le hk hl) m1
  refine ⟨m2, ?_⟩
  rw [i2, i1, Bool.or_eq_true, or_assoc]

/-- The same tags: nothing happens. -/
theorem Tag.same {c : Ctx} {sc : Scope} {s s' : CSt} (h : TagsOk s') (h1 : s'.notTail = s.notTail)
    (h2 : s'.modified = s.modified) : Tag c sc s s' fun _ _ => false :=
  ⟨h, fun _ _ _ _ _ hm => ⟨by rw [h2]; exact hm, by simp [h1]⟩⟩

theorem Tag.congr {c : Ctx} {sc : Scope} {s s' : CSt} {B B' : Name → Bool → Bool}
    (h : Tag c sc s s' B) (e : ∀ x t, B x t = B' x t) : Tag c sc s s' B' := by
  have : B = B' := by funext x t; exact e x t
  rw [← this]
  exact h

/-- Another context with the same names of functions, at the same depth. -/
theorem Tag.ctx {c c' : Ctx} {sc sc' : Scope} {s s' : CSt} {B : Name → Bool → Bool}
    (h : Tag c' sc' s s' B) (hd : depth c'.recs = depth c.recs)
    (hx : ∀ x k r, TX c sc x k r → TX c' sc' x k r) : Tag c sc s s' B :=
  ⟨h.1, fun x k r ht hk hm => by rw [← hd]; exact h.2 x k r (hx x k r ht) hk hm⟩

/-- A function inside: no name of a function outside is at its depth. -/
theorem Tag.deeper {c c' : Ctx} {sc sc' : Scope} {s s' : CSt} {B : Name → Bool → Bool}
    (h : Tag c' sc' s s' B) (hd : depth c.recs < depth c'.recs)
    (hx : ∀ x k r, TX c sc x k r → TX c' sc' x k r) : Tag c sc s s' fun x _ => B x false := by
  refine ⟨h.1, fun x k r ht hk hm => ?_⟩
  have := h.2 x k r (hx x k r ht) hk hm
  have hf : (r.depth == depth c'.recs) = false := by
    have := ht.dep
    simp only [beq_eq_false_iff_ne, ne_eq]
    omega
  rw [hf] at this
  exact this

/-- The start of a later state. -/
theorem Tag.start {c : Ctx} {sc : Scope} {s s1 s' : CSt} {B : Name → Bool → Bool}
    (h : Tag c sc s1 s' B) (h1 : s1.notTail = s.notTail) (h2 : s1.modified = s.modified)
    (hl : s.cell ≤ s1.cell) : Tag c sc s s' B :=
  ⟨h.1, fun x k r ht hk hm => by
    rw [← h1]
    exact h.2 x k r ht (Nat.lt_of_lt_of_le hk hl) (by rw [h2]; exact hm)⟩

theorem fresh_spec {sc : Scope} {xs : List Name} (h : fresh sc xs = true) :
    xs.Nodup ∧ ∀ x ∈ xs, look x sc = none := by
  induction xs with
  | nil => simp
  | cons x xs ih =>
    simp only [fresh, Bool.and_eq_true, Option.isNone_iff_eq_none, Bool.not_eq_eq_eq_not,
      Bool.not_true, List.contains_eq_mem, decide_eq_false_iff_not] at h
    obtain ⟨⟨h1, h2⟩, h3⟩ := h
    have := ih h3
    refine ⟨List.nodup_cons.2 ⟨h2, this.1⟩, ?_⟩
    intro y hy
    rcases List.mem_cons.1 hy with rfl | hy
    · exact h1
    · exact this.2 y hy

theorem look_append {α : Type} (x : Name) (a b : List (Name × α)) :
    look x (a ++ b) = (look x a).or (look x b) := by
  induction a with
  | nil => simp [look]
  | cons e a ih =>
    obtain ⟨y, v⟩ := e
    simp only [List.cons_append, look]
    split
    · rfl
    · exact ih

theorem look_none {α : Type} {x : Name} {l : List (Name × α)} :
    look x l = none ↔ x ∉ l.map (·.1) := by
  induction l with
  | nil => simp [look]
  | cons e l ih =>
    obtain ⟨y, v⟩ := e
    simp only [look, List.map_cons, List.mem_cons]
    split
    · rename_i h; simp [h]
    · rename_i h
      rw [ih]
      constructor
      · intro hn hh
        rcases hh with hh | hh
        · exact h hh.symm
        · exact hn hh
      · intro hn hh
        exact hn (.inr hh)

theorem scope_names (bs : Binds) : bs.scope.map (·.1) = bs.names := by
  match bs with
  | .nil => rfl
  | .cons x e r =>
    have := scope_names r
    cases e <;> simp [Binds.scope, Binds.names, this]

theorem vars_names (ps : List Name) : (vars ps).map (·.1) = ps := by
  simp [vars, Function.comp_def]

/-- The bindings made by `bindAll`. -/
theorem bindAll_lex (xs : List Name) (lex : Lex) (n : Nat) :
    (bindAll xs lex n).2.1 = (xs.zip (List.range' n xs.length)).reverse ++ lex ∧
    (bindAll xs lex n).2.2 = n + xs.length := by
  induction xs generalizing lex n with
  | nil => simp [bindAll]
  | cons x xs ih =>
    have := ih ((x, n) :: lex) (n + 1)
    simp only [bindAll]
    refine ⟨?_, ?_⟩
    · rw [this.1]
      simp [List.range'_succ]
    · rw [this.2]
      simp only [List.length_cons]
      omega

theorem bindNils_lex (xs : List Name) (lex : Lex) (n : Nat) :
    (bindNils xs lex n).2 = (bindAll xs lex n).2 := by
  induction xs generalizing lex n with
  | nil => rfl
  | cons x xs ih => simp only [bindNils, bindAll]; exact ih _ _

theorem bindAll_cells {xs : List Name} {lex : Lex} {n : Nat} (h : CellsOk lex n) :
    CellsOk (bindAll xs lex n).2.1 (bindAll xs lex n).2.2 := by
  induction xs generalizing lex n with
  | nil => exact h
  | cons x xs ih => simp only [bindAll]; exact ih (h.cons x)

theorem bindAll_look {xs : List Name} {lex : Lex} {n : Nat} {x : Name} (h : x ∉ xs) :
    look x (bindAll xs lex n).2.1 = look x lex := by
  induction xs generalizing lex n with
  | nil => rfl
  | cons y xs ih =>
    simp only [bindAll]
    rw [ih (fun hm => h (.tail _ hm)), look]
    rw [if_neg (fun hy : y = x => h (by rw [hy]; exact .head _))]

theorem find_cons {recs : List Rec} {r : Rec} {x : Name} (h : r.name ≠ some x) :
    findLambda (r :: recs) x = findLambda recs x := by
  simp only [findLambda, List.find?_cons]
  have : (r.name == some x) = false := by simpa using h
  rw [this]

theorem tagsOk_of {s s' : CSt} (h : TagsOk s) (h1 : s'.notTail = s.notTail)
    (h3 : s'.modified = s.modified) (h2 : s.cell ≤ s'.cell) : TagsOk s' := by
  unfold TagsOk
  rw [h1, h3]
  exact ⟨fun k hk => Nat.lt_of_lt_of_le (h.1 k hk) h2, fun k hk => Nat.lt_of_lt_of_le (h.2 k hk) h2⟩

theorem varref_tag {c : Ctx} {sc : Scope} {s : CSt} (x : Name) (hc : CellsOk c.lex s.cell)
    (ht : TagsOk s) : Tag c sc s (varref c x s).2 fun y _ => x == y := by
  unfold varref
  split
  · rename_i k hk
    refine ⟨?_, fun y k' r hy _ hm => ⟨hm, ?_⟩⟩
    · refine ⟨?_, ht.2⟩
      intro k' hk'
      rcases List.mem_cons.1 hk' with rfl | h
      · exact hc.2 _ (look_mem hk)
      · exact ht.1 _ h
    · simp only [List.mem_cons, beq_iff_eq]
      constructor
      · rintro (rfl | h)
        · exact .inr (look_inj hc.1 hk hy.lex)
        · exact .inl h
      · rintro (h | rfl)
        · exact .inr h
        · have := hy.lex
          rw [hk] at this
          exact .inl (Option.some.inj this).symm
  · rename_i hk
    refine ⟨ht, fun y k' r hy _ hm => ⟨hm, ?_⟩⟩
    simp only [beq_iff_eq]
    constructor
    · exact .inl
    · rintro (h | rfl)
      · exact h
      · have := hy.lex
        rw [hk] at this
        exact absurd this (by simp)

theorem noteModified_tag {c : Ctx} {sc : Scope} {s : CSt} {x : Name} (hc : CellsOk c.lex s.cell)
    (ht : TagsOk s) (ha : assignable sc x = true) :
    Tag c sc s (noteModified c x s) fun y _ => x == y := by
  have hne : ∀ y k r, TX c sc y k r → x ≠ y := by
    rintro y k r hy rfl
    obtain ⟨n, hn⟩ := hy.kind
    simp [assignable, hn] at ha
  unfold noteModified
  split
  · rename_i k hk
    refine ⟨⟨ht.1, ?_⟩, fun y k' r hy _ hm => ⟨?_, ?_⟩⟩
    · intro k' hk'
      rcases List.mem_cons.1 hk' with rfl | h
      · exact hc.2 _ (look_mem hk)
      · exact ht.2 _ h
    · intro h
      rcases List.mem_cons.1 h with rfl | h
      · exact hne y _ r hy (look_inj hc.1 hk hy.lex)
      · exact hm h
    · simp [hne y k' r hy]
  · refine ⟨ht, fun y k' r hy _ hm => ⟨hm, ?_⟩⟩
    simp [hne y k' r hy]

theorem tailCall_tags (c : Ctx) (r : Rec) (n : Nat) (s : CSt) :
    (tailCall c r n s).2.notTail = s.notTail ∧ (tailCall c r n s).2.modified = s.modified ∧
    (tailCall c r n s).2.cell = s.cell := by
  unfold tailCall
  split <;> exact ⟨rfl, rfl, rfl⟩

theorem inlineHead_tags (c : Ctx) (nm : Option Name) (ps : List Name) (n : Nat) (s : CSt) :
    (inlineHead c nm ps n s).2.2.notTail = s.notTail ∧
    (inlineHead c nm ps n s).2.2.modified = s.modified := by
  unfold inlineHead
  split <;> exact ⟨rfl, rfl⟩

theorem inlineHead_cells (c : Ctx) (nm : Option Name) (ps : List Name) (n : Nat) (s : CSt)
    (h : CellsOk c.lex s.cell) :
    CellsOk (inlineHead c nm ps n s).2.1.lex (inlineHead c nm ps n s).2.2.cell := by
  unfold inlineHead
  split
  · exact h
  · exact bindAll_cells h

theorem inlineHead_depth (c : Ctx) (nm : Option Name) (ps : List Name) (n : Nat) (s : CSt) :
    depth (inlineHead c nm ps n s).2.1.recs = depth c.recs := by
  unfold inlineHead
  split <;> rfl

theorem inlineHead_tx {c : Ctx} {sc sc' : Scope} {nm : Option Name} {ps : List Name} {n : Nat}
    {s : CSt} (hn : ∀ x, look x sc ≠ none → x ∉ ps ∧ nm ≠ some x)
    (hs : ∀ x, look x sc ≠ none → look x sc' = look x sc)
    {x k : Nat} {r : Rec} (h : TX c sc x k r) : TX (inlineHead c nm ps n s).2.1 sc' x k r := by
  obtain ⟨m, hm⟩ := h.kind
  have hx : look x sc ≠ none := by rw [hm]; simp
  obtain ⟨h1, h2⟩ := hn x hx
  refine ⟨?_, ?_, h.inl, ?_, ⟨m, by rw [hs x hx, hm]⟩⟩
  · unfold inlineHead
    split
    · exact h.lex
    · simp only
      rw [bindAll_look (by simpa using h1)]
      exact h.lex
  · unfold inlineHead
    split <;> (simp only; rw [find_cons h2]; exact h.find)
  · rw [inlineHead_depth]; exact h.dep

theorem lambdaHead_tx {c : Ctx} {sc sc' : Scope} {nm : Option Name} {ps : List Name}
    {s : CSt} (hn : ∀ x, look x sc ≠ none → x ∉ ps ∧ nm ≠ some x)
    (hs : ∀ x, look x sc ≠ none → look x sc' = look x sc)
    {x k : Nat} {r : Rec} (h : TX c sc x k r) : TX (lambdaHead c nm ps s).2.1 sc' x k r := by
  obtain ⟨m, hm⟩ := h.kind
  have hx : look x sc ≠ none := by rw [hm]; simp
  obtain ⟨h1, h2⟩ := hn x hx
  refine ⟨?_, ?_, h.inl, ?_, ⟨m, by rw [hs x hx, hm]⟩⟩
  · simp only [lambdaHead]
    rw [bindAll_look (by simpa using h1)]
    exact h.lex
  · simp only [lambdaHead]
    rw [find_cons h2]
    exact h.find
  · have := h.dep
    simp only [lambdaHead, depth, nextDepth]
    cases hc : c.recs with
    | nil => rw [hc] at this; exact this
    | cons r' l => rw [hc] at this; exact Nat.le_succ_of_le this

/-- Where there is a name of a function there is a function that is being compiled. -/
theorem lambdaHead_depth {c : Ctx} {sc : Scope} (nm : Option Name) (ps : List Name) (s : CSt)
    {x k : Nat} {r : Rec} (h : TX c sc x k r) :
    depth c.recs < depth (lambdaHead c nm ps s).2.1.recs := by
  have := h.find
  simp only [lambdaHead, depth, nextDepth]
  cases hc : c.recs with
  | nil => rw [hc] at this; simp [findLambda] at this
  | cons r' l => exact Nat.lt_succ_self _

theorem Tag.lambda {c : Ctx} {sc sc' : Scope} {nm : Option Name} {ps : List Name} {s0 s s' : CSt}
    {B : Name → Bool → Bool} (h : Tag (lambdaHead c nm ps s0).2.1 sc' s s' B)
    (hn : ∀ x, look x sc ≠ none → x ∉ ps ∧ nm ≠ some x)
    (hs : ∀ x, look x sc ≠ none → look x sc' = look x sc) :
    Tag c sc s s' fun x _ => B x false := by
  refine ⟨h.1, fun x k r ht hk hm => ?_⟩
  have := h.2 x k r (lambdaHead_tx hn hs ht) hk hm
  have hf : (r.depth == depth (lambdaHead c nm ps s0).2.1.recs) = false := by
    have := ht.dep
    have := lambdaHead_depth nm ps s0 ht
    simp only [beq_eq_false_iff_ne, ne_eq]
    omega
  rw [hf] at this
  exact this

/-- New names do not hide those in scope. -/
theorem fresh_vars {sc : Scope} {ps : List Name} (h : fresh sc ps = true) :
    (∀ x, look x sc ≠ none → x ∉ ps) ∧
    ∀ x, look x sc ≠ none → look x (vars ps ++ sc) = look x sc := by
  have := fresh_spec h
  have h1 : ∀ x, look x sc ≠ none → x ∉ ps := fun x hx hm => hx (this.2 x hm)
  refine ⟨h1, fun x hx => ?_⟩
  rw [look_append, look_none.2 (by rw [vars_names]; exact h1 x hx)]
  rfl

theorem lambdaHead_tags (c : Ctx) (nm : Option Name) (ps : List Name) (s : CSt) :
    (lambdaHead c nm ps s).2.2.notTail = s.notTail ∧
    (lambdaHead c nm ps s).2.2.modified = s.modified := ⟨rfl, rfl⟩

/-- The name of a function is compiled as a function that can be inlined exactly if it is only
called, in tail positions. -/
theorem named_tag {c : Ctx} {sc : Scope} {x : Name} {ps : List Name} {b : Exp} {s s1 : CSt}
    (ht : TagsOk s) (hf : fresh sc (x :: ps) = true)
    (h : Tag (lambdaHead ⟨(x, s.cell) :: c.lex, c.recs, c.sp, c.bp + 1⟩ (some x) ps
        { s with cell := s.cell + 1 }).2.1 (vars ps ++ (x, some ps.length) :: sc)
      (lambdaHead ⟨(x, s.cell) :: c.lex, c.recs, c.sp, c.bp + 1⟩ (some x) ps
        { s with cell := s.cell + 1 }).2.2 s1 fun y t => bad y b t) :
    s1.notTail.contains s.cell = !tailB x b := by
  have hx : x ∉ ps := (List.nodup_cons.1 (fresh_spec hf).1).1
  have hX : TX (lambdaHead ⟨(x, s.cell) :: c.lex, c.recs, c.sp, c.bp + 1⟩ (some x) ps
        { s with cell := s.cell + 1 }).2.1 (vars ps ++ (x, some ps.length) :: sc) x s.cell
        ⟨some x, ps, nextDepth c.recs, 0, 0, s.lab, false⟩ := by
    refine ⟨?_, ?_, rfl, Nat.le_refl _, ⟨ps.length, ?_⟩⟩
    · simp only [lambdaHead]
      rw [bindAll_look (by simpa using hx)]
      simp [look]
    · simp [lambdaHead, findLambda]
    · rw [look_append, look_none.2 (by rw [vars_names]; exact hx)]
      simp [look]
  have hk : s.cell < (lambdaHead ⟨(x, s.cell) :: c.lex, c.recs, c.sp, c.bp + 1⟩ (some x) ps
      { s with cell := s.cell + 1 }).2.2.cell := by
    have := (bindAll_spec ps.reverse ((x, s.cell) :: c.lex) (s.cell + 1)).1
    simp only [lambdaHead]
    omega
  have hn : s.cell ∉ s.notTail := fun hm => Nat.lt_irrefl _ (ht.1 _ hm)
  obtain ⟨_, hi⟩ := h.2 x s.cell _ hX hk (fun hm => Nat.lt_irrefl _ (ht.2 _ hm))
  rw [Bool.eq_iff_iff, List.contains_iff_mem, hi]
  simp only [lambdaHead, hn, false_or, depth, beq_self_eq_true, bad, if_true]

set_option maxHeartbeats 2000000 in
mutual
theorem cExp_tag (c : Ctx) (rf : Bool) (e : Exp) (s : CSt) {k : List I} {s' : CSt} {sc : Scope}
    (h : cExp c rf e s = some (k, s')) (hg : good sc e = true) (hc : CellsOk c.lex s.cell)
    (ht : TagsOk s) : Tag c sc s s' fun x t => bad x e (t && rf) := by
  match e with
  | .quote a =>
    simp only [cExp, Option.some.injEq, Prod.mk.injEq] at h
    obtain ⟨rfl, rfl⟩ := h
    exact (Tag.refl ht).congr (by intro x t; cases t <;> cases rf <;> rfl)
  | .var x =>
    simp only [cExp, Option.some.injEq] at h
    have := varref_tag (sc := sc) x hc ht
    rw [h] at this
    refine this.congr ?_
    intro x t
    cases t <;> cases rf <;> simp [bad, tailB, mentions]
  | .set x e =>
    simp only [cExp, Option.bind_eq_bind, Option.bind_eq_some_iff] at h
    obtain ⟨⟨k1, s1⟩, h1, h⟩ := h
    simp only [Option.some.injEq, Prod.mk.injEq] at h
    obtain ⟨rfl, rfl⟩ := h
    simp only [good, Bool.and_eq_true] at hg
    have g1 := (cExp_grow c false e s h1).later
    have t1 := cExp_tag c false e s h1 hg.2 hc ht
    have t2 := noteModified_tag (hc.mono g1.cell) t1.1 hg.1
    refine (t1.trans t2 g1.cell).congr ?_
    intro y t
    cases t <;> cases rf <;> simp [bad, tailB, mentions, Bool.or_comm]
  | .seq a b =>
    simp only [cExp, Option.bind_eq_bind, Option.bind_eq_some_iff] at h
    obtain ⟨⟨k1, s1⟩, h1, ⟨k2, s2⟩, h2, h⟩ := h
    simp only [Option.some.injEq, Prod.mk.injEq] at h
    obtain ⟨rfl, rfl⟩ := h
    simp only [good, Bool.and_eq_true] at hg
    have g1 := (cExp_grow c false a s h1).later
    have t1 := cExp_tag c false a s h1 hg.1 hc ht
    have t2 := cExp_tag c rf b s1 h2 hg.2 (hc.mono g1.cell) t1.1
    refine (t1.trans t2 g1.cell).congr ?_
    intro y t
    cases t <;> cases rf <;> simp [bad, tailB, mentions]
  | .cond cs =>
    simp only [cExp, Option.bind_eq_bind, Option.bind_eq_some_iff] at h
    obtain ⟨⟨k1, n1, s1⟩, h1, h⟩ := h
    simp only [Option.some.injEq, Prod.mk.injEq] at h
    obtain ⟨rfl, rfl⟩ := h
    exact (cCls_tag c rf s.lab cs _ h1 (by simpa [good] using hg) hc ht).start rfl rfl
      (Nat.le_refl _)
  | .while q b =>
    simp only [cExp, Option.bind_eq_bind, Option.bind_eq_some_iff] at h
    obtain ⟨⟨k1, s1⟩, h1, ⟨k2, s2⟩, h2, h⟩ := h
    simp only [Option.some.injEq, Prod.mk.injEq] at h
    obtain ⟨rfl, rfl⟩ := h
    simp only [good, Bool.and_eq_true] at hg
    have g1 := (cExp_grow c false b _ h1).later
    have t1 := cExp_tag c false b { s with lab := s.lab + 2 } h1 hg.2 hc ht
    have t2 := cExp_tag c false q s1 h2 hg.1 (hc.mono g1.cell) t1.1
    refine ((t1.trans t2 g1.cell).start (s := s) rfl rfl (Nat.le_refl _)).congr ?_
    intro y t
    cases t <;> cases rf <;> simp [bad, tailB, mentions]
  | .lam ps b =>
    simp only [cExp, Option.bind_eq_bind, Option.bind_eq_some_iff] at h
    obtain ⟨⟨k1, s1⟩, h1, h⟩ := h
    simp only [Option.some.injEq] at h
    simp only [good, Bool.and_eq_true] at hg
    obtain ⟨hf1, hf2⟩ := fresh_vars hg.1
    have gh := (lambdaHead_grow c none ps s).later
    have t1 := cExp_tag _ true b _ h1 hg.2 (bindAll_cells hc)
      (tagsOk_of ht rfl rfl gh.cell)
    have t2 := (t1.lambda (sc := sc) (fun x hx => ⟨hf1 x hx, by simp⟩) hf2).start (s := s) rfl rfl
      gh.cell
    have hs : s' = (enclose c ((lambdaHead c none ps s).1 ++ k1 ++ [.ret]) s1).2 := by rw [h]
    subst hs
    have t3 : Tag c sc s (enclose c ((lambdaHead c none ps s).1 ++ k1 ++ [.ret]) s1).2 _ :=
      t2.trans (Tag.same (s := s1) (s' := (enclose c ((lambdaHead c none ps s).1 ++ k1 ++ [.ret]) s1).2)
        (tagsOk_of t2.1 rfl rfl (Nat.le_refl _)) rfl rfl)
        (Nat.le_trans gh.cell (cExp_grow _ true b _ h1).later.cell)
    refine t3.congr ?_
    intro y t
    cases t <;> cases rf <;> simp [bad, tailB, mentions]
  | .call f as =>
    simp only [good, Bool.and_eq_true] at hg
    obtain ⟨⟨ha, hgf⟩, hga⟩ := hg
    by_cases ho : Other f
    · rw [cExp_call_other ho] at h
      simp only [Option.bind_eq_bind, Option.bind_eq_some_iff] at h
      obtain ⟨⟨k1, s1⟩, h1, ⟨k2, s2⟩, h2, h⟩ := h
      simp only [Option.some.injEq, Prod.mk.injEq] at h
      obtain ⟨rfl, rfl⟩ := h
      have g1 := (cExp_grow c false f s h1).later
      have t1 := cExp_tag c false f s h1 hgf hc ht
      have t2 := cArgs_tag { c with sp := c.sp + 1 } as s1 h2 hga (hc.mono g1.cell) t1.1
      have t3 := (t1.trans (t2.ctx (c := c) (sc := sc) rfl
        (fun x k r hx => ⟨hx.lex, hx.find, hx.inl, hx.dep, hx.kind⟩)) g1.cell).trans
        (Tag.same (s' := noteCall c s2) (tagsOk_of t2.1 rfl rfl (Nat.le_refl _)) rfl rfl)
        (Nat.le_trans g1.cell (cArgs_grow _ as s1 h2).later.cell)
      refine t3.congr ?_
      intro y t
      cases f with
      | var z => exact absurd rfl (ho.2 z)
      | lam z w => exact absurd rfl (ho.1 z w)
      | _ => cases t <;> cases rf <;> simp [bad, tailB, mentions]
    match f with
    | .lam _ _ => simp [cExp] at h
    | .var x =>
      simp only [cExp] at h
      split at h
      · rename_i r hr
        simp only [Option.bind_eq_bind, Option.bind_eq_some_iff] at h
        obtain ⟨⟨k1, s1⟩, h1, h⟩ := h
        split at h
        · exact absurd h (by simp)
        simp only [Option.some.injEq, Prod.mk.injEq] at h
        obtain ⟨rfl, rfl⟩ := h
        have t1 := cArgs_tag c as s h1 hga hc ht
        obtain ⟨e1, e2, e3⟩ := tailCall_tags c r (as.length - r.args.length) s1
        have t2 := t1.trans (Tag.same (c := c) (sc := sc)
          (tagsOk_of (s' := (tailCall c r (as.length - r.args.length) s1).2) t1.1 e1 e2
            (Nat.le_of_eq e3.symm)) e1 e2) (cArgs_grow c as s h1).later.cell
        refine ⟨t2.1, fun y k' r' hy hk hm => ?_⟩
        obtain ⟨m2, i2⟩ := t2.2 y k' r' hy hk hm
        refine ⟨m2, ?_⟩
        rw [i2]
        have : (mentionsA y as || false) =
            bad y (.call (.var x) as) ((r'.depth == depth c.recs) && rf) := by
          by_cases hxy : x = y
          · subst hxy
            unfold inlinable at hr
            rw [hy.find, hy.lex] at hr
            have hm' : s.modified.contains k' = false := by
              simpa [List.contains_eq_mem] using hm
            simp only [hy.inl, hm', Bool.false_or, Bool.not_false, Bool.and_true] at hr
            split at hr
            · rename_i hb
              rw [Bool.and_comm, hb]
              simp [bad, tailB]
            · exact absurd hr (by simp)
          · cases (r'.depth == depth c.recs) && rf <;> simp [bad, tailB, mentions, hxy]
        show _ ∨ (mentionsA y as || false) = true ↔ _
        rw [this]
      · rename_i hr
        simp only [Option.bind_eq_bind, Option.bind_eq_some_iff] at h
        obtain ⟨⟨k1, s1⟩, h1, h⟩ := h
        simp only [Option.some.injEq, Prod.mk.injEq] at h
        obtain ⟨rfl, rfl⟩ := h
        have g1 := varref_later c x s
        have t1 := varref_tag (sc := sc) x hc ht
        have t2 := cArgs_tag { c with sp := c.sp + 1 } as _ h1 hga (hc.mono g1.cell) t1.1
        have t3 := (t1.trans (t2.ctx (c := c) (sc := sc) rfl
          (fun x k r hx => ⟨hx.lex, hx.find, hx.inl, hx.dep, hx.kind⟩)) g1.cell).trans
          (Tag.same (s' := noteCall c s1) (tagsOk_of t2.1 rfl rfl (Nat.le_refl _)) rfl rfl)
          (Nat.le_trans g1.cell (cArgs_grow _ as _ h1).later.cell)
        refine ⟨t3.1, fun y k' r' hy hk hm => ?_⟩
        obtain ⟨m2, i2⟩ := t3.2 y k' r' hy hk hm
        refine ⟨m2, ?_⟩
        rw [i2]
        have : ((x == y || mentionsA y as) || false) =
            bad y (.call (.var x) as) ((r'.depth == depth c.recs) && rf) := by
          by_cases hxy : x = y
          · subst hxy
            unfold inlinable at hr
            rw [hy.find, hy.lex] at hr
            have hm' : s.modified.contains k' = false := by
              simpa [List.contains_eq_mem] using hm
            simp only [hy.inl, hm', Bool.false_or, Bool.not_false, Bool.and_true] at hr
            split at hr
            · exact absurd hr (by simp)
            · rename_i hb
              rw [Bool.and_comm, Bool.not_eq_true] at hb
              rw [hb]
              simp [bad, mentions]
          · have : (x == y) = false := by simpa using hxy
            cases (r'.depth == depth c.recs) && rf <;> simp [bad, tailB, mentions, this]
        show _ ∨ ((x == y || mentionsA y as) || false) = true ↔ _
        rw [this]
    | .quote _ | .set _ _ | .seq _ _ | .cond _ | .while _ _ | .call _ _ | .inl _ _ _ | .lets _ _
    | .letrec _ _ | .named _ _ _ _ =>
      exact absurd ⟨(fun _ _ h => nomatch h), (fun _ h => nomatch h)⟩ ho
  | .inl ps b as =>
    simp only [cExp, Option.bind_eq_bind, Option.bind_eq_some_iff] at h
    obtain ⟨⟨k1, s1⟩, h1, h⟩ := h
    split at h
    · exact absurd h (by simp)
    simp only [Option.bind_eq_some_iff] at h
    obtain ⟨⟨k2, s2⟩, h2, h⟩ := h
    simp only [Option.some.injEq, Prod.mk.injEq] at h
    obtain ⟨rfl, rfl⟩ := h
    simp only [good, Bool.and_eq_true] at hg
    obtain ⟨⟨⟨_, hf⟩, hga⟩, hgb⟩ := hg
    obtain ⟨hf1, hf2⟩ := fresh_vars hf
    have g1 := (cArgs_grow c as s h1).later
    have t1 := cArgs_tag c as s h1 hga hc ht
    have gi := (inlineHead_grow c none ps (as.length - ps.length) s1).later
    obtain ⟨i1, i2⟩ := inlineHead_tags c none ps (as.length - ps.length) s1
    have t2 := cExp_tag _ rf b _ h2 hgb (inlineHead_cells _ _ _ _ _ (hc.mono g1.cell))
      (tagsOk_of t1.1 i1 i2 gi.cell)
    have t3 := (t2.ctx (c := c) (sc := sc) (inlineHead_depth _ _ _ _ _)
      (fun x k r hx => inlineHead_tx (fun x hx => ⟨hf1 x hx, by simp⟩) hf2 hx)).start i1 i2 gi.cell
    refine (t1.trans t3 g1.cell).congr ?_
    intro y t
    cases t <;> cases rf <;> simp [bad, tailB, mentions]
  | .lets bs b =>
    simp only [cExp, Option.bind_eq_bind, Option.bind_eq_some_iff] at h
    obtain ⟨⟨k1, lex, s1⟩, h1, ⟨k2, s2⟩, h2, h⟩ := h
    simp only [Option.some.injEq, Prod.mk.injEq] at h
    obtain ⟨rfl, rfl⟩ := h
    simp only [good, Bool.and_eq_true] at hg
    have g1 := (cLets_grow _ bs s h1).later
    obtain ⟨t1, c1, x1⟩ := cLets_tag _ bs s h1 hg.1 hc ht
    have t1' := t1.ctx (c := c) (sc := sc) rfl
      (fun x k r hx => ⟨hx.lex, hx.find, hx.inl, hx.dep, hx.kind⟩)
    have t2 := cExp_tag _ rf b s1 h2 hg.2 c1 t1.1
    have t3 := t2.ctx (c := c) (sc := sc) rfl (fun x k r hx => by
      obtain ⟨n, hn⟩ := hx.kind
      obtain ⟨e1, e2⟩ := x1 x (by rw [hn]; simp)
      exact ⟨by simp only [e1]; exact hx.lex, hx.find, hx.inl, hx.dep, ⟨n, by rw [e2]; exact hn⟩⟩)
    refine (t1'.trans t3 g1.cell).congr ?_
    intro y t
    cases t <;> cases rf <;> simp [bad, tailB, mentions]
  | .letrec bs b =>
    simp only [cExp] at h
    split at h
    · exact absurd h (by simp)
    simp only [Option.bind_eq_bind, Option.bind_eq_some_iff] at h
    obtain ⟨⟨k1, s1⟩, h1, ⟨k2, s2⟩, h2, h⟩ := h
    simp only [Option.some.injEq, Prod.mk.injEq] at h
    obtain ⟨rfl, rfl⟩ := h
    simp only [good, Bool.and_eq_true] at hg
    obtain ⟨⟨hf, hgs⟩, hgb⟩ := hg
    have hfs := (fresh_spec hf).2
    have hn : ∀ x, look x sc ≠ none → x ∉ bs.names ∧ look x (bs.scope ++ sc) = look x sc := by
      intro x hx
      have : x ∉ bs.names := fun hm => hx (hfs x hm)
      refine ⟨this, ?_⟩
      rw [look_append, look_none.2 (by rw [scope_names]; exact this)]
      rfl
    have hl := bindNils_spec bs.names c.lex s.cell
    have hcc : CellsOk (bindNils bs.names c.lex s.cell).2.1 (bindNils bs.names c.lex s.cell).2.2 := by
      rw [bindNils_lex]; exact bindAll_cells hc
    have hlook : ∀ x, look x sc ≠ none →
        look x (bindNils bs.names c.lex s.cell).2.1 = look x c.lex := by
      intro x hx
      rw [bindNils_lex, bindAll_look (hn x hx).1]
    have hX : ∀ x k r, TX c sc x k r → TX ⟨(bindNils bs.names c.lex s.cell).2.1, c.recs, c.sp, c.bp + 1⟩ sc x k r := by
      intro x k r hx
      obtain ⟨n, hn'⟩ := hx.kind
      exact ⟨by simp only [hlook x (by rw [hn']; simp)]; exact hx.lex, hx.find, hx.inl, hx.dep, ⟨n, hn'⟩⟩
    have g1 := (cSets_grow _ bs _ h1).later
    have t1 := cSets_tag _ bs _ h1 hgs hn hcc (tagsOk_of ht rfl rfl hl.1)
    have t2 := cExp_tag _ rf b s1 h2 hgb (hcc.mono g1.cell) t1.1
    have t2' := t2.ctx (c := ⟨(bindNils bs.names c.lex s.cell).2.1, c.recs, c.sp, c.bp + 1⟩) (sc := sc) rfl
      (fun x k r hx => by
        obtain ⟨n, hn'⟩ := hx.kind
        exact ⟨hx.lex, hx.find, hx.inl, hx.dep, ⟨n, by rw [(hn x (by rw [hn']; simp)).2]; exact hn'⟩⟩)
    refine (((t1.trans t2' g1.cell).ctx (c := c) (sc := sc) rfl hX).start (s := s) rfl rfl hl.1).congr ?_
    intro y t
    cases t <;> cases rf <;> simp [bad, tailB, mentions]
  | .named x ps b as =>
    simp only [cExp, Option.bind_eq_bind, Option.bind_eq_some_iff] at h
    obtain ⟨⟨k1, s1⟩, h1, h⟩ := h
    simp only [good, Bool.and_eq_true] at hg
    obtain ⟨⟨⟨⟨_, hf⟩, hga⟩, _⟩, hgb⟩ := hg
    have hfs := fresh_spec hf
    have hn : ∀ y, look y sc ≠ none → y ≠ x ∧ y ∉ ps := fun y hy =>
      ⟨fun h => hy (hfs.2 y (by rw [h]; exact .head _)), fun h => hy (hfs.2 y (.tail _ h))⟩
    have hlx : ∀ y, look y sc ≠ none → look y ((x, some ps.length) :: sc) = look y sc := by
      intro y hy
      rw [look, if_neg (fun h => (hn y hy).1 h.symm)]
    have hlb : ∀ y, look y sc ≠ none →
        look y (vars ps ++ (x, some ps.length) :: sc) = look y sc := by
      intro y hy
      rw [look_append, look_none.2 (by rw [vars_names]; exact (hn y hy).2), ← hlx y hy]
      rfl
    have hX : ∀ y k r, TX c sc y k r → TX ⟨(x, s.cell) :: c.lex, c.recs, c.sp, c.bp + 1⟩ sc y k r := by
      intro y k r hy
      obtain ⟨n, hn'⟩ := hy.kind
      refine ⟨?_, hy.find, hy.inl, hy.dep, ⟨n, hn'⟩⟩
      have := (hn y (by rw [hn']; simp)).1
      rw [look, if_neg (fun h => this h.symm)]
      exact hy.lex
    have gh := (lambdaHead_grow ⟨(x, s.cell) :: c.lex, c.recs, c.sp, c.bp + 1⟩ (some x) ps
      { s with cell := s.cell + 1 }).later
    have gh' : s.cell ≤ _ := Nat.le_trans (Nat.le_succ _) gh.cell
    have gb := (cExp_grow _ true b _ h1).later
    have t0 := cExp_tag _ true b _ h1 hgb (bindAll_cells (hc.cons x)) (tagsOk_of ht rfl rfl gh')
    have hdec := named_tag ht hf (t0.congr (by intro y t; rw [Bool.and_true]))
    have t1 := ((t0.lambda (sc := sc) (fun y hy => ⟨(hn y hy).2, by
        simpa using fun h => (hn y hy).1 h.symm⟩) hlb).ctx (c := c) (sc := sc) rfl hX).start (s := s)
        rfl rfl gh'
    have t1 := t1.trans (Tag.same (s := s1) (s' := (enclose ⟨(x, s.cell) :: c.lex, c.recs, c.sp, c.bp + 1⟩ ((lambdaHead ⟨(x, s.cell) :: c.lex, c.recs, c.sp, c.bp + 1⟩ (some x) ps { s with cell := s.cell + 1 }).1 ++ k1 ++
          [.ret]) s1).2)
        (tagsOk_of t1.1 rfl rfl (Nat.le_refl _)) rfl rfl) (Nat.le_trans gh' gb.cell)
    have hc1 : CellsOk ((x, s.cell) :: c.lex) s1.cell := (hc.cons x).mono (Nat.le_trans gh.cell gb.cell)
    generalize hs1 : (enclose ⟨(x, s.cell) :: c.lex, c.recs, c.sp, c.bp + 1⟩
      ((lambdaHead ⟨(x, s.cell) :: c.lex, c.recs, c.sp, c.bp + 1⟩ (some x) ps
        { s with cell := s.cell + 1 }).1 ++ k1 ++ [.ret]) s1).2 = s1' at h t1
    have hnt : s1'.notTail = s1.notTail := by rw [← hs1]; rfl
    have hce : s1'.cell = s1.cell := by rw [← hs1]; rfl
    have hc1' : CellsOk ((x, s.cell) :: c.lex) s1'.cell := by rw [hce]; exact hc1
    have gb' : s.cell ≤ s1'.cell := by rw [hce]; exact Nat.le_trans gh' gb.cell
    split at h
    · rename_i hcont
      have htb : tailB x b = false := by
        rw [hnt, hdec] at hcont
        simpa using hcont
      split at h
      · rename_i r _
        simp only [Option.bind_eq_some_iff] at h
        obtain ⟨⟨k2, s2⟩, h2, h⟩ := h
        split at h
        · exact absurd h (by simp)
        simp only [Option.some.injEq, Prod.mk.injEq] at h
        obtain ⟨rfl, rfl⟩ := h
        have g2 := (cArgs_grow _ as _ h2).later
        have t2 := cArgs_tag _ as _ h2 hga hc1' t1.1
        obtain ⟨e1, e2, e3⟩ := tailCall_tags ⟨(x, s.cell) :: c.lex, c.recs, c.sp, c.bp + 1⟩ r
          (as.length - r.args.length) s2
        have t2' := (t2.ctx (c := ⟨(x, s.cell) :: c.lex, c.recs, c.sp, c.bp + 1⟩) (sc := sc)
          rfl (fun y k r hy => by
            obtain ⟨n, hn'⟩ := hy.kind
            exact ⟨hy.lex, hy.find, hy.inl, hy.dep, ⟨n, by rw [hlx y (by rw [hn']; simp)]; exact hn'⟩⟩)).ctx
          (c := c) (sc := sc) rfl hX
        have t3 := (t1.trans t2' gb').trans (Tag.same
          (tagsOk_of (s' := (tailCall ⟨(x, s.cell) :: c.lex, c.recs, c.sp, c.bp + 1⟩ r
            (as.length - r.args.length) s2).2) t2.1 e1 e2 (Nat.le_of_eq e3.symm)) e1 e2)
          (Nat.le_trans gb' g2.cell)
        refine t3.congr ?_
        intro y t
        cases t <;> cases rf <;> simp [bad, tailB, mentions, htb, Bool.or_comm]
      · simp only [Option.bind_eq_some_iff] at h
        obtain ⟨⟨k2, s2⟩, h2, h⟩ := h
        simp only [Option.some.injEq, Prod.mk.injEq] at h
        obtain ⟨rfl, rfl⟩ := h
        have g2 := (cArgs_grow _ as _ h2).later
        have tv := varref_tag (c := ⟨(x, s.cell) :: c.lex, c.recs, c.sp, c.bp + 1⟩) (sc := sc) x
          hc1' t1.1
        have gv := varref_later ⟨(x, s.cell) :: c.lex, c.recs, c.sp, c.bp + 1⟩ x s1'
        have tv' := tv.ctx (c := c) (sc := sc) rfl hX
        have t2 := cArgs_tag _ as _ h2 hga (hc1'.mono gv.cell) tv.1
        have t2' := (t2.ctx (c := ⟨(x, s.cell) :: c.lex, c.recs, c.sp, c.bp + 1⟩) (sc := sc)
          rfl (fun y k r hy => by
            obtain ⟨n, hn'⟩ := hy.kind
            exact ⟨hy.lex, hy.find, hy.inl, hy.dep, ⟨n, by rw [hlx y (by rw [hn']; simp)]; exact hn'⟩⟩)).ctx
          (c := c) (sc := sc) rfl hX
        have t3 := ((t1.trans tv' gb').trans t2'
          (Nat.le_trans gb' gv.cell)).trans (Tag.same
          (tagsOk_of (s' := noteCall ⟨(x, s.cell) :: c.lex, c.recs, c.sp, c.bp + 1⟩ s2) t2.1 rfl
            rfl (Nat.le_refl _)) rfl rfl)
          (Nat.le_trans (Nat.le_trans gb' gv.cell) g2.cell)
        refine ⟨t3.1, fun y k' r' hy hk hm => ?_⟩
        obtain ⟨m2, i2⟩ := t3.2 y k' r' hy hk hm
        refine ⟨m2, ?_⟩
        rw [i2]
        obtain ⟨n, hn'⟩ := hy.kind
        have hxy : (x == y) = false := by
          simpa using fun h => (hn y (by rw [hn']; simp)).1 h.symm
        have : (((bad y b false || false) || (x == y)) || mentionsA y as || false) =
            bad y (.named x ps b as) ((r'.depth == depth c.recs) && rf) := by
          cases (r'.depth == depth c.recs) && rf <;>
            simp [bad, tailB, mentions, htb, hxy, Bool.or_comm]
        show _ ∨ (((bad y b false || false) || (x == y)) || mentionsA y as || false) = true ↔ _
        rw [this]
    · rename_i hcont
      have htb : tailB x b = true := by
        rw [hnt, hdec] at hcont
        simpa using hcont
      simp only [Option.bind_eq_some_iff] at h
      obtain ⟨⟨k2, s2⟩, h2, h⟩ := h
      split at h
      · exact absurd h (by simp)
      simp only [Option.bind_eq_some_iff] at h
      obtain ⟨⟨k3, s3⟩, h3, h⟩ := h
      simp only [Option.some.injEq, Prod.mk.injEq] at h
      obtain ⟨rfl, rfl⟩ := h
      have g2 := (cArgs_grow c as _ h2).later
      have hcr : s.cell ≤ s1'.cell := gb'
      have t2 := cArgs_tag c as _ h2 hga (hc.mono hcr) (tagsOk_of ht rfl rfl hcr)
      have t2' := (t2.ctx (c := c) (sc := sc) rfl (fun y k r hy => by
            obtain ⟨n, hn'⟩ := hy.kind
            exact ⟨hy.lex, hy.find, hy.inl, hy.dep, ⟨n, by rw [hlx y (by rw [hn']; simp)]; exact hn'⟩⟩)).start
            (s := s) rfl rfl hcr
      have gi := (inlineHead_grow c (some x) ps (as.length - ps.length) s2).later
      obtain ⟨i1, i2⟩ := inlineHead_tags c (some x) ps (as.length - ps.length) s2
      have t3 := cExp_tag _ rf b _ h3 hgb
        (inlineHead_cells _ _ _ _ _ (hc.mono (Nat.le_trans hcr g2.cell)))
        (tagsOk_of t2.1 i1 i2 gi.cell)
      have t4 := (t3.ctx (c := c) (sc := sc) (inlineHead_depth _ _ _ _ _)
        (fun y k r hy => inlineHead_tx (fun y hy => ⟨(hn y hy).2, by
          simpa using fun h => (hn y hy).1 h.symm⟩) hlb hy)).start i1 i2 gi.cell
      refine (t2'.trans t4 (Nat.le_trans hcr g2.cell)).congr ?_
      intro y t
      cases t <;> cases rf <;> simp [bad, tailB, mentions, htb]

theorem cArgs_tag (c : Ctx) (es : Exps) (s : CSt) {k : List I} {s' : CSt} {sc : Scope}
    (h : cArgs c es s = some (k, s')) (hg : goodA sc es = true) (hc : CellsOk c.lex s.cell)
    (ht : TagsOk s) : Tag c sc s s' fun x _ => mentionsA x es := by
  match es with
  | .nil =>
    simp only [cArgs, Option.some.injEq, Prod.mk.injEq] at h
    obtain ⟨rfl, rfl⟩ := h
    exact Tag.refl ht
  | .cons e es =>
    simp only [cArgs, Option.bind_eq_bind, Option.bind_eq_some_iff] at h
    obtain ⟨⟨k1, s1⟩, h1, ⟨k2, s2⟩, h2, h⟩ := h
    simp only [Option.some.injEq, Prod.mk.injEq] at h
    obtain ⟨rfl, rfl⟩ := h
    simp only [goodA, Bool.and_eq_true] at hg
    have g1 := (cExp_grow c false e s h1).later
    have t1 := cExp_tag c false e s h1 hg.1 hc ht
    have t2 := cArgs_tag _ es s1 h2 hg.2 (hc.mono g1.cell) t1.1
    refine (t1.trans (t2.ctx (c := c) (sc := sc) rfl
        (fun x k r hx => ⟨hx.lex, hx.find, hx.inl, hx.dep, hx.kind⟩)) g1.cell).congr ?_
    intro y t
    cases t <;> simp [bad, mentionsA]

theorem cCls_tag (c : Ctx) (rf : Bool) (fin : Nat) (cs : Clauses) (s : CSt) {k : List I} {n : Bool}
    {s' : CSt} {sc : Scope} (h : cCls c rf fin cs s = some (k, n, s')) (hg : goodC sc cs = true)
    (hc : CellsOk c.lex s.cell) (ht : TagsOk s) : Tag c sc s s' fun x t => badC x cs (t && rf) := by
  match cs with
  | .nil =>
    simp only [cCls, Option.some.injEq, Prod.mk.injEq] at h
    obtain ⟨rfl, rfl, rfl⟩ := h
    exact (Tag.refl ht).congr (by intro x t; cases t <;> cases rf <;> rfl)
  | .test q r =>
    simp only [cCls] at h
    simp only [goodC, Bool.and_eq_true] at hg
    split at h
    · rename_i hq
      simp only [Option.bind_eq_bind, Option.bind_eq_some_iff] at h
      obtain ⟨⟨k1, s1⟩, h1, h⟩ := h
      simp only [Option.some.injEq, Prod.mk.injEq] at h
      obtain ⟨rfl, rfl, rfl⟩ := h
      have t1 := (cExp_tag c rf q { s with lab := s.lab + 1 } h1 hg.1 hc ht).start (s := s) rfl rfl
        (Nat.le_refl _)
      refine t1.congr ?_
      intro y t
      cases q <;> simp only [squash, reduceCtorEq] at hq
      cases t <;> cases rf <;> simp only [bad, badC, tailB, mentions, tailC, mentionsC, squash, hq] <;> simp
    · rename_i hq
      have t1 := (cCls_tag c rf fin r { s with lab := s.lab + 1 } h hg.2 hc ht).start (s := s) rfl rfl
        (Nat.le_refl _)
      refine t1.congr ?_
      intro y t
      cases t <;> cases rf <;> simp [badC, tailC, mentionsC, hq]
    · rename_i hq
      simp only [Option.bind_eq_bind, Option.bind_eq_some_iff] at h
      obtain ⟨⟨k1, s1⟩, h1, h⟩ := h
      have g1 := (cExp_grow c _ q _ h1).later
      have t1 := (cExp_tag c (rf && r.isNil) q { s with lab := s.lab + 1 } h1 hg.1 hc ht).start
        (s := s) rfl rfl (Nat.le_refl _)
      split at h
      · rename_i hr
        simp only [Option.some.injEq, Prod.mk.injEq] at h
        obtain ⟨rfl, rfl, rfl⟩ := h
        refine t1.congr ?_
        intro y t
        have : mentionsC y r = false := by cases r <;> simp_all [Clauses.isNil, mentionsC]
        cases t <;> cases rf <;> simp [bad, badC, tailC, mentionsC, hq, hr, this]
      · rename_i hr
        simp only [Option.bind_eq_some_iff] at h
        obtain ⟨⟨k2, n2, s2⟩, h2, h⟩ := h
        simp only [Option.some.injEq, Prod.mk.injEq] at h
        obtain ⟨rfl, rfl, rfl⟩ := h
        have t2 := cCls_tag c rf fin r s1 h2 hg.2 (hc.mono g1.cell) t1.1
        refine (t1.trans t2 g1.cell).congr ?_
        intro y t
        cases t <;> cases rf <;> simp [bad, badC, tailC, mentionsC, hq, hr]
  | .act q b r =>
    simp only [cCls] at h
    simp only [goodC, Bool.and_eq_true] at hg
    split at h
    · rename_i hq
      simp only [Option.bind_eq_bind, Option.bind_eq_some_iff] at h
      obtain ⟨⟨k1, s1⟩, h1, h⟩ := h
      simp only [Option.some.injEq, Prod.mk.injEq] at h
      obtain ⟨rfl, rfl, rfl⟩ := h
      have t1 := (cExp_tag c rf b { s with lab := s.lab + 1 } h1 hg.1.2 hc ht).start (s := s) rfl rfl
        (Nat.le_refl _)
      refine t1.congr ?_
      intro y t
      cases t <;> cases rf <;> simp [bad, badC, tailC, mentionsC, hq]
    · rename_i hq
      have t1 := (cCls_tag c rf fin r { s with lab := s.lab + 1 } h hg.2 hc ht).start (s := s) rfl rfl
        (Nat.le_refl _)
      refine t1.congr ?_
      intro y t
      cases t <;> cases rf <;> simp [badC, tailC, mentionsC, hq]
    · rename_i hq
      simp only [Option.bind_eq_bind, Option.bind_eq_some_iff] at h
      obtain ⟨⟨k1, s1⟩, h1, ⟨k2, s2⟩, h2, h⟩ := h
      have g1 := (cExp_grow c _ q _ h1).later
      have g2 := (cExp_grow c _ b _ h2).later
      have t1 := (cExp_tag c false q { s with lab := s.lab + 1 } h1 hg.1.1 hc ht).start
        (s := s) rfl rfl (Nat.le_refl _)
      have t2 := t1.trans (cExp_tag c rf b s1 h2 hg.1.2 (hc.mono g1.cell) t1.1) g1.cell
      split at h
      · rename_i hr
        simp only [Option.some.injEq, Prod.mk.injEq] at h
        obtain ⟨rfl, rfl, rfl⟩ := h
        refine t2.congr ?_
        intro y t
        have e1 : mentionsC y r = false := by cases r <;> simp_all [Clauses.isNil, mentionsC]
        have e2 : tailC y r = true := by cases r <;> simp_all [Clauses.isNil, tailC]
        cases t <;> cases rf <;> simp [bad, badC, tailC, mentionsC, hq, e1, e2]
      · rename_i hr
        simp only [Option.bind_eq_some_iff] at h
        obtain ⟨⟨k3, n3, s3⟩, h3, h⟩ := h
        simp only [Option.some.injEq, Prod.mk.injEq] at h
        obtain ⟨rfl, rfl, rfl⟩ := h
        have t3 := cCls_tag c rf fin r s2 h3 hg.2 (hc.mono (Nat.le_trans g1.cell g2.cell)) t2.1
        refine (t2.trans t3 (Nat.le_trans g1.cell g2.cell)).congr ?_
        intro y t
        cases t <;> cases rf <;> simp [bad, badC, tailC, mentionsC, hq]

theorem cLets_tag (c : Ctx) (bs : Binds) (s : CSt) {k : List I} {lex : Lex} {s' : CSt} {sc : Scope}
    (h : cLets c bs s = some (k, lex, s')) (hg : goodL sc bs = true) (hc : CellsOk c.lex s.cell)
    (ht : TagsOk s) :
    Tag c sc s s' (fun x _ => mentionsB x bs) ∧ CellsOk lex s'.cell ∧
      ∀ x, look x sc ≠ none → look x lex = look x c.lex ∧ look x (bs.after sc) = look x sc := by
  match bs with
  | .nil =>
    simp only [cLets, Option.some.injEq, Prod.mk.injEq] at h
    obtain ⟨rfl, rfl, rfl⟩ := h
    exact ⟨Tag.refl ht, hc, fun x _ => ⟨rfl, rfl⟩⟩
  | .cons z e r =>
    simp only [cLets, Option.bind_eq_bind, Option.bind_eq_some_iff] at h
    obtain ⟨⟨k1, s1⟩, h1, ⟨k2, lex2, s2⟩, h2, h⟩ := h
    simp only [Option.some.injEq, Prod.mk.injEq] at h
    obtain ⟨rfl, rfl, rfl⟩ := h
    simp only [goodL, Bool.and_eq_true] at hg
    obtain ⟨⟨hge, hf⟩, hgr⟩ := hg
    have hfz := (fresh_spec hf).2 z (.head _)
    have hn : ∀ y, look y sc ≠ none → z ≠ y := fun y hy h => hy (by rw [← h]; exact hfz)
    have g1 := (cExp_grow c false e s h1).later
    have t1 := cExp_tag c false e s h1 hge hc ht
    obtain ⟨t2, c2, x2⟩ := cLets_tag _ r { s1 with cell := s1.cell + 1 } h2 hgr
      ((hc.mono g1.cell).cons z) (tagsOk_of t1.1 rfl rfl (Nat.le_succ _))
    have hlz : ∀ y, look y sc ≠ none → look y ((z, none) :: sc) = look y sc := by
      intro y hy
      rw [look, if_neg (hn y hy)]
    refine ⟨?_, c2, ?_⟩
    · have t2' := (t2.ctx (c := c) (sc := sc) rfl (fun x k r hx => by
        obtain ⟨n, hn'⟩ := hx.kind
        have hne : look x sc ≠ none := by rw [hn']; simp
        exact ⟨by rw [look, if_neg (hn x hne)]; exact hx.lex, hx.find, hx.inl, hx.dep,
          ⟨n, by rw [hlz x hne]; exact hn'⟩⟩)).start (s := s1) rfl rfl (Nat.le_succ _)
      refine (t1.trans t2' g1.cell).congr ?_
      intro y t
      cases t <;> simp [bad, mentionsB]
    · intro y hy
      obtain ⟨e1, e2⟩ := x2 y (by rw [hlz y hy]; exact hy)
      refine ⟨?_, ?_⟩
      · rw [e1, look, if_neg (hn y hy)]
      · rw [Binds.after, e2, hlz y hy]

theorem cSets_tag (c : Ctx) (bs : Binds) (s : CSt) {k : List I} {s' : CSt} {sc sc' : Scope}
    (h : cSets c bs s = some (k, s')) (hg : goodB sc' bs = true)
    (hn : ∀ x, look x sc ≠ none → x ∉ bs.names ∧ look x sc' = look x sc)
    (hc : CellsOk c.lex s.cell) (ht : TagsOk s) : Tag c sc s s' fun x _ => mentionsB x bs := by
  match bs with
  | .nil =>
    simp only [cSets, Option.some.injEq, Prod.mk.injEq] at h
    obtain ⟨rfl, rfl⟩ := h
    exact Tag.refl ht
  | .cons z e r =>
    simp only [goodB, Bool.and_eq_true] at hg
    have hn1 : ∀ x, look x sc ≠ none → z ≠ x := fun x hx hz =>
      (hn x hx).1 (by rw [← hz]; exact .head _)
    have hn2 : ∀ x, look x sc ≠ none → x ∉ r.names ∧ look x sc' = look x sc := fun x hx =>
      ⟨fun hm => (hn x hx).1 (.tail _ hm), (hn x hx).2⟩
    have hX : ∀ x k r, TX c sc x k r → TX c sc' x k r := by
      intro x k r hx
      obtain ⟨n, hn'⟩ := hx.kind
      exact ⟨hx.lex, hx.find, hx.inl, hx.dep, ⟨n, by rw [(hn x (by rw [hn']; simp)).2]; exact hn'⟩⟩
    by_cases ho : ∀ ps b, e ≠ .lam ps b
    · rw [cSets_other ho] at h
      simp only [Option.bind_eq_bind, Option.bind_eq_some_iff] at h
      obtain ⟨⟨k1, s1⟩, h1, ⟨k2, s2⟩, h2, h⟩ := h
      simp only [Option.some.injEq, Prod.mk.injEq] at h
      obtain ⟨rfl, rfl⟩ := h
      have g1 := (cExp_grow c false e s h1).later
      have t1 := (cExp_tag c false e s h1 hg.1 hc ht).ctx (c := c) (sc := sc) rfl hX
      have t2 := cSets_tag c r s1 h2 hg.2 hn2 (hc.mono g1.cell) t1.1
      refine (t1.trans t2 g1.cell).congr ?_
      intro y t
      cases t <;> simp [bad, mentionsB]
    match e with
    | .lam ps b =>
      simp only [cSets, Option.bind_eq_bind, Option.bind_eq_some_iff] at h
      obtain ⟨⟨k1, s1⟩, h1, ⟨k2, s2⟩, h2, h⟩ := h
      simp only [Option.some.injEq, Prod.mk.injEq] at h
      obtain ⟨rfl, rfl⟩ := h
      simp only [good, Bool.and_eq_true] at hg
      obtain ⟨⟨hf, hgb⟩, hgr⟩ := hg
      obtain ⟨hf1, hf2⟩ := fresh_vars hf
      have gh := (lambdaHead_grow c (some z) ps s).later
      have gb := (cExp_grow _ true b _ h1).later
      have t1 := cExp_tag _ true b _ h1 hgb (bindAll_cells hc)
        (tagsOk_of ht rfl rfl gh.cell)
      have t2 := (t1.lambda (sc := sc) (fun x hx =>
          ⟨hf1 x (by rw [(hn x hx).2]; exact hx), by simpa using hn1 x hx⟩) (fun x hx => by
            rw [hf2 x (by rw [(hn x hx).2]; exact hx), (hn x hx).2])).start (s := s) rfl rfl gh.cell
      have t3 : Tag c sc s (enclose c ((lambdaHead c (some z) ps s).1 ++ k1 ++ [.ret]) s1).2 _ :=
        t2.trans (Tag.same (s := s1) (s' := (enclose c ((lambdaHead c (some z) ps s).1 ++ k1 ++ [.ret]) s1).2)
          (tagsOk_of t2.1 rfl rfl (Nat.le_refl _)) rfl rfl) (Nat.le_trans gh.cell gb.cell)
      have t4 := cSets_tag c r _ h2 hgr hn2
        (hc.mono (Nat.le_trans gh.cell gb.cell)) t3.1
      refine (t3.trans t4 (Nat.le_trans gh.cell gb.cell)).congr ?_
      intro y t
      cases t <;> simp [bad, mentionsB, mentions]
    | .quote _ | .var _ | .set _ _ | .seq _ _ | .cond _ | .while _ _ | .call _ _ | .inl _ _ _
    | .lets _ _ | .letrec _ _ | .named _ _ _ _ =>
      exact absurd (fun _ _ h => nomatch h) ho
end

end Rep.Compile
