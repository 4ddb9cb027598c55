import Verif.Compile.Ops

/-
What holds where a form is compiled and where its code is executed, and the jumps to the start of a
function.
-/

namespace Rep.Compile

/-! ### Bindings in the order in which they are made -/

/-- The variables of the parameters of a function: the last one is bound first. -/
def pents : List Name → Nat → Nat → List Ent
  | [], _, _ => []
  | p :: ps, n, l => ⟨p, n + ps.length, l, false⟩ :: pents ps n (l + 1)

theorem pents_lex (ps : List Name) (n l : Nat) :
    (pents ps n l).map Ent.lex = (ps.reverse.zip (List.range' n ps.length)).reverse := by
  induction ps generalizing l with
  | nil => rfl
  | cons p ps ih =>
    simp only [pents, List.map_cons, ih, List.reverse_cons, List.length_cons]
    rw [List.range'_concat, List.zip_append (by simp)]
    simp [Ent.lex]

theorem pents_src (ps : List Name) (n l : Nat) :
    (pents ps n l).map Ent.src = ps.zip (List.range' l ps.length) := by
  induction ps generalizing l with
  | nil => rfl
  | cons p ps ih =>
    simp [pents, ih, Ent.src, List.range'_succ]

theorem pents_name (ps : List Name) (n l : Nat) : (pents ps n l).map (·.name) = ps := by
  induction ps generalizing l with
  | nil => rfl
  | cons p ps ih => simp [pents, ih]

theorem pents_loc (ps : List Name) (n l : Nat) :
    (pents ps n l).map (·.loc) = List.range' l ps.length := by
  induction ps generalizing l with
  | nil => rfl
  | cons p ps ih => simp [pents, ih, List.range'_succ]

theorem pents_fk (ps : List Name) (n l : Nat) : ∀ e ∈ pents ps n l, e.fk = false := by
  induction ps generalizing l with
  | nil => simp [pents]
  | cons p ps ih =>
    intro e he
    rcases List.mem_cons.1 he with rfl | he
    · rfl
    · exact ih _ e he

theorem pents_length (ps : List Name) (n l : Nat) : (pents ps n l).length = ps.length := by
  have := congrArg List.length (pents_name ps n l)
  simpa using this

theorem pents_mem {ps : List Name} {n l : Nat} {e : Ent} (he : e ∈ pents ps n l) :
    e.name ∈ ps ∧ l ≤ e.loc ∧ e.loc < l + ps.length := by
  have h1 : e.name ∈ (pents ps n l).map (·.name) := List.mem_map_of_mem he
  have h2 : e.loc ∈ (pents ps n l).map (·.loc) := List.mem_map_of_mem he
  rw [pents_name] at h1
  rw [pents_loc, List.mem_range'_1] at h2
  exact ⟨h1, h2⟩

/-- A list with distinct names can be searched from either end. -/
theorem look_reverse {α : Type} (x : Name) (l : List (Name × α)) (h : (l.map (·.1)).Nodup) :
    look x l.reverse = look x l := by
  induction l with
  | nil => rfl
  | cons e l ih =>
    obtain ⟨y, a⟩ := e
    rw [List.map_cons, List.nodup_cons] at h
    rw [List.reverse_cons, look_append, ih h.2]
    simp only [look]
    split
    · rename_i hy
      subst hy
      rw [look_none.2 h.1]
      rfl
    · simp

variable (U : Setup)

/-- The instructions that make bindings, in the order in which they are made. -/
inductive BindCode (b : Nat) : List Ent → List Ent → List I → Prop
  | nil (own) : BindCode b own [] []
  | cons {own e es x lex is} :
    alloc U.H b (.lexBind x lex) = bindI (U := U) own e → BindCode b (e :: own) es is →
    BindCode b own (e :: es) (.lexBind x lex :: is)

variable {U}

theorem bind_many {fr : Fr} {f : List Ent} {fs : List (List Ent)} {w : World} {S : SSt}
    {env bst : List Nat} {slots : Nat → Option TVal} {st : TSt} {es : List Ent} {vs' : List TVal}
    {is : List I} {pc : Nat} {stk : List TVal} {Q : Out → Prop}
    (hF : FR U fr (f :: fs) w S env bst slots) (hw : WOk U w S st)
    (hes : ∀ e ∈ es, e.loc < w.n ∧ fr.m ≤ e.loc ∧ w.j e.loc = none ∧ w.K e.loc = e.fk ∧
      ∀ e' ∈ (f :: fs).flatten, e'.loc ≠ e.loc)
    (hnd : (es.map (·.loc)).Nodup)
    (hσ : LRel (fun e v' => ∃ v, S.σ[e.loc]? = some v ∧ VR U w v v') es vs')
    (hc : CodeAt fr.C pc is) (hi : BindCode U fr.Eb.length (f :: fs).flatten es is)
    (hk : ∀ w' env' bst' slots' st', FR U fr ((es.reverse ++ f) :: fs) w' S env' bst' slots' →
      WOk U w' S st' → w.Le w' → w'.n = w.n → w'.F = w.F → w'.K = w.K →
      (∀ l, (∀ e ∈ es, l ≠ e.loc) → w'.j l = w.j l) →
      GoesTo U.P U.table Q (U.mk' fr (pc + is.length) stk env' bst' slots' st')) :
    GoesTo U.P U.table Q (U.mk' fr pc (vs' ++ stk) env bst slots st) := by
  induction es generalizing f w env bst slots st vs' is pc with
  | nil =>
    cases hσ
    cases hi
    exact hk w env bst slots st hF hw (.refl w) rfl rfl rfl (fun _ _ => rfl)
  | cons e es ih =>
    cases hσ with
    | cons h1 hσ =>
    rename_i v' vs'
    cases hi with
    | cons hi1 hi =>
    rename_i x lex is
    obtain ⟨v, hv, hr⟩ := h1
    obtain ⟨he1, he2, he3, he4, he5⟩ := hes e (.head _)
    rw [List.map_cons, List.nodup_cons] at hnd
    obtain ⟨w1, env1, bst1, slots1, st1, p1, p2, p3, p4, p5, p6, p7, p8⟩ :=
      step_bind hF hw he1 he2 he3 he5 he4 hv hr hc hi1 (vs' ++ stk)
    refine GoesTo.step p1 ?_
    refine ih p2 p3 ?_ hnd.2 ?_ hc.tail ?_ ?_
    · intro e' he'
      obtain ⟨q1, q2, q3, q4, q5⟩ := hes e' (.tail _ he')
      have hne : e'.loc ≠ e.loc := fun hh => hnd.1 (by rw [← hh]; exact List.mem_map_of_mem he')
      refine ⟨by rw [p5]; exact q1, q2, by rw [p8 _ hne]; exact q3, by rw [p7]; exact q4, ?_⟩
      intro e'' he''
      simp only [List.flatten_cons, List.cons_append, List.mem_cons] at he''
      rcases he'' with rfl | he''
      · exact fun hh => hne hh.symm
      · exact q5 e'' (by simpa using he'')
    · refine hσ.mono ?_
      rintro a b ⟨v, h1, h2⟩
      exact ⟨v, h1, h2.mono p4⟩
    · simpa using hi
    · intro w' env' bst' slots' st' q1 q2 q3 q4 q5 q6 q7
      have := hk w' env' bst' slots' st' (by simpa using q1) q2 (p4.trans q3) (by rw [q4, p5])
        (by rw [q5, p6]) (by rw [q6, p7]) (by
          intro l hl
          rw [q7 l (fun e' he' => hl e' (.tail _ he')), p8 l (hl e (.head _))])
      rw [List.length_cons] at this
      rw [show pc + 1 + is.length = pc + (is.length + 1) by omega]
      exact this

/-- The bindings that `bindAll` makes. -/
theorem bindAll_code {own Eb es : List Ent} {xs : List Name} {n : Nat}
    (h : es.map Ent.lex = xs.zip (List.range' n xs.length)) :
    BindCode U Eb.length own es (bindAll xs ((own ++ Eb).map Ent.lex) n).1 := by
  induction es generalizing own xs n with
  | nil =>
    cases xs with
    | nil => exact .nil _
    | cons x xs => simp [List.range'_succ] at h
  | cons e es ih =>
    cases xs with
    | nil => simp at h
    | cons x xs =>
      simp only [List.map_cons, List.length_cons, List.range'_succ, List.zip_cons_cons,
        List.cons.injEq, Ent.lex, Prod.mk.injEq] at h
      obtain ⟨⟨h1, h2⟩, h3⟩ := h
      have hl : (x, n) :: (own ++ Eb).map Ent.lex = ((e :: own) ++ Eb).map Ent.lex := by
        simp [Ent.lex, h1, h2]
      simp only [bindAll]
      rw [hl]
      refine .cons ?_ (ih h3)
      have := slotAddr_at (H := U.H) (E1 := []) (o2 := own) (Eb := Eb) (e := e) h1 (by simp)
      simp only [List.nil_append] at this
      simp only [alloc]
      rw [show (e :: own ++ Eb) = e :: (own ++ Eb) from rfl, this]
      simp only [List.map_cons, look, Ent.lex, h1, if_true, bindI]
      rfl

/-- The bindings of the parameters. -/
theorem bindAll_params {own Eb : List Ent} (ps : List Name) (n l : Nat) :
    BindCode U Eb.length own (pents ps n l).reverse
      (bindAll ps.reverse ((own ++ Eb).map Ent.lex) n).1 := by
  apply bindAll_code
  rw [List.map_reverse, pents_lex, List.reverse_reverse, List.length_reverse]

/-- The bindings that a jump to the start of a function makes anew. -/
theorem rebind_code {A own Eb es : List Ent} {lex : Lex}
    (hl : lex = (A ++ es.reverse ++ own ++ Eb).map Ent.lex) (hn : (lex.map (·.1)).Nodup) :
    BindCode U Eb.length own es (es.map fun e => .lexBind e.name lex) := by
  induction es generalizing own with
  | nil => exact .nil _
  | cons e es ih =>
    have hl' : lex = (A ++ es.reverse ++ (e :: own) ++ Eb).map Ent.lex := by
      rw [hl]; simp
    have hsplit : A ++ es.reverse ++ (e :: own) ++ Eb = (A ++ es.reverse) ++ e :: (own ++ Eb) := by
      simp
    have hne : ∀ e' ∈ A ++ es.reverse, e'.name ≠ e.name := by
      intro e' he' hh
      rw [hl', hsplit, List.map_append, List.map_append, List.nodup_append] at hn
      exact hn.2.2 e'.name (List.mem_map.2 ⟨e'.lex, List.mem_map_of_mem he', rfl⟩) e.name
        (by simp [Ent.lex]) hh
    refine .cons ?_ (ih hl')
    have := slotAddr_at (H := U.H) (E1 := A ++ es.reverse) (o2 := own) (Eb := Eb) (e := e) rfl hne
    have hlook : look e.name lex = some e.cell := by
      rw [hl', hsplit, List.map_append, look_append, look_none.2]
      · simp [look, Ent.lex]
      · intro hm
        obtain ⟨q, hq, hq'⟩ := List.mem_map.1 hm
        obtain ⟨e', he', rfl⟩ := List.mem_map.1 hq
        exact hne e' he' hq'
    simp only [alloc, hlook]
    rw [hl', hsplit, this]
    rfl

theorem slots_reloc {w : World} {S : SSt} {slots : Nat → Option TVal} {a b : List Ent} {o e : Ent}
    (h : Slots U w S slots (a ++ o :: b)) (hH : U.H e.cell = false) (hc : e.cell = o.cell)
    {v : SVal} {v' : TVal} (hj : w.j e.loc = none) (hσ : S.σ[e.loc]? = some v) (hv : VR U w v v') :
    Slots U w S (fun n => if n = U.slot b then some v' else slots n) (a ++ e :: b) := by
  induction a with
  | nil =>
    refine ⟨fun _ => ⟨hj, v, v', hσ, by simp, hv⟩, ?_⟩
    exact slots_lt h.2 (fun n hn => if_neg (Nat.ne_of_lt hn))
  | cons a as ih =>
    refine ⟨fun hHa => ?_, ih h.2⟩
    obtain ⟨h1, u, u', h2, h3, h4⟩ := h.1 hHa
    have hsame : U.slot (as ++ e :: b) = U.slot (as ++ o :: b) := by
      simp only [Setup.slot, List.filter_append, List.filter_cons, hc, List.length_append]
      split <;> simp
    refine ⟨h1, u, u', h2, ?_, h4⟩
    have : U.slot b < U.slot (as ++ e :: b) := by
      have := slot_append_le (U := U) as (e :: b)
      have h5 : U.slot (e :: b) = U.slot b + 1 := by simp [Setup.slot, hH]
      omega
    show (if U.slot (as ++ e :: b) = U.slot b then some v' else slots (U.slot (as ++ e :: b))) = _
    rw [if_neg (Nat.ne_of_gt this), hsame]
    exact h3

/-- A jump to the start of a function that assigns its parameters: they get new bindings in the
interpreter but the same slots. -/
theorem inplace_many {fr : Fr} {c : Ctx} {f : List Ent} {fs1 fs : List (List Ent)} {w : World}
    {S : SSt} {env bst : List Nat} {slots : Nat → Option TVal} {st : TSt} {es os : List Ent}
    {vs' : List TVal} {pc : Nat} {stk : List TVal} {Q : Out → Prop}
    (hF : FR U fr (fs1 ++ (os.reverse ++ f) :: fs) w S env bst slots)
    (hlex : c.lex = ((fs1 ++ (os.reverse ++ f) :: fs).flatten ++ fr.Eb).map Ent.lex)
    (hn : (c.lex.map (·.1)).Nodup) (ho : es.map Ent.lex = os.map Ent.lex)
    (hes : ∀ e ∈ es, U.H e.cell = false ∧ e.loc < w.n ∧ fr.m ≤ e.loc ∧ w.j e.loc = none ∧
      w.K e.loc = e.fk ∧ ∀ e' ∈ (fs1 ++ (os.reverse ++ f) :: fs).flatten, e'.loc ≠ e.loc)
    (hnd : (es.map (·.loc)).Nodup)
    (hσ : LRel (fun e v' => ∃ v, S.σ[e.loc]? = some v ∧ VR U w v v') es vs')
    (hc : CodeAt fr.C pc (es.map fun e => varset c e.name))
    (hk : ∀ slots', FR U fr (fs1 ++ (es.reverse ++ f) :: fs) w S env bst slots' →
      GoesTo U.P U.table Q (U.mk' fr (pc + es.length) stk env bst slots' st)) :
    GoesTo U.P U.table Q (U.mk' fr pc (vs' ++ stk) env bst slots st) := by
  induction es generalizing f slots vs' os pc with
  | nil =>
    cases hσ
    cases os with
    | nil => exact hk slots hF
    | cons o os => simp at ho
  | cons e es ih =>
    cases os with
    | nil => simp at ho
    | cons o os =>
    cases hσ with
    | cons h1 hσ =>
    rename_i v' vs'
    obtain ⟨v, hv, hr⟩ := h1
    simp only [List.map_cons, List.cons.injEq, Ent.lex, Prod.mk.injEq] at ho
    obtain ⟨⟨hname, hcell⟩, ho⟩ := ho
    obtain ⟨he0, he1, he2, he3, he4, he5⟩ := hes e (.head _)
    rw [List.map_cons, List.nodup_cons] at hnd
    have hfl : (fs1 ++ ((o :: os).reverse ++ f) :: fs).flatten =
        (fs1.flatten ++ os.reverse) ++ o :: (f ++ fs.flatten) := by simp
    have hfl' : (fs1 ++ (os.reverse ++ e :: f) :: fs).flatten =
        (fs1.flatten ++ os.reverse) ++ e :: (f ++ fs.flatten) := by simp
    have hlex' : c.lex = ((fs1 ++ (os.reverse ++ e :: f) :: fs).flatten ++ fr.Eb).map Ent.lex := by
      rw [hlex, hfl, hfl']
      simp [Ent.lex, hname, hcell]
    have hsplit : (fs1 ++ (os.reverse ++ e :: f) :: fs).flatten ++ fr.Eb =
        (fs1.flatten ++ os.reverse) ++ e :: ((f ++ fs.flatten) ++ fr.Eb) := by
      rw [hfl']; simp
    have hne : ∀ e' ∈ fs1.flatten ++ os.reverse, e'.name ≠ e.name := by
      intro e' he' hh
      have hn' := hn
      rw [hlex', hsplit, List.map_append, List.map_append, List.nodup_append] at hn'
      exact hn'.2.2 e'.name (List.mem_map.2 ⟨e'.lex, List.mem_map_of_mem he', rfl⟩) e.name
        (by simp [Ent.lex]) hh
    have hlook : look e.name c.lex = some e.cell := by
      rw [hlex', hsplit, List.map_append, look_append, look_none.2]
      · simp [look, Ent.lex]
      · intro hm
        obtain ⟨q, hq, hq'⟩ := List.mem_map.1 hm
        obtain ⟨e', he', rfl⟩ := List.mem_map.1 hq
        exact hne e' he' hq'
    have haddr := slotAddr_at (H := U.H) (E1 := fs1.flatten ++ os.reverse) (o2 := f ++ fs.flatten)
      (Eb := fr.Eb) (e := e) rfl hne
    rw [← hsplit, ← hlex'] at haddr
    have hc1 : CodeAt fr.C pc (.lexSet e.name c.lex :: es.map fun e => varset c e.name) := by
      rw [← varset_ent hlook]; exact hc
    have hstep : step U.P U.table (U.mk' fr pc (v' :: (vs' ++ stk)) env bst slots st) =
        .next (U.mk' fr (pc + 1) (vs' ++ stk) env bst
          (fun n => if n = U.slot (f ++ fs.flatten) then some v' else slots n) st) := by
      have hft := fetch (U := U) hc1
      have : alloc U.H fr.Eb.length (.lexSet e.name c.lex) = .slotSet (U.slot (f ++ fs.flatten)) := by
        simp only [alloc, hlook, he0, haddr]
        simp [Setup.slot]
      rw [this] at hft
      simp [step, Setup.mk', hft, Act.next]
    refine GoesTo.step hstep ?_
    have hheap : ∀ a b : List Ent, U.heap (a ++ e :: b) = U.heap (a ++ o :: b) := by
      intro a b
      have he0' : U.H o.cell = false := by rw [← hcell]; exact he0
      simp [Setup.heap, List.filter_append, List.filter_cons, he0, he0']
    have hFR : FR U fr (fs1 ++ (os.reverse ++ e :: f) :: fs) w S env bst
        (fun n => if n = U.slot (f ++ fs.flatten) then some v' else slots n) := by
      refine ⟨?_, ?_, ?_, ?_, ?_, ?_, ?_, hF.m⟩
      · rw [hF.env, hfl, hsplit]
        rw [show (fs1.flatten ++ os.reverse) ++ o :: (f ++ fs.flatten) ++ fr.Eb =
          (fs1.flatten ++ os.reverse) ++ o :: ((f ++ fs.flatten) ++ fr.Eb) by simp, hheap]
      · rw [hF.bst]
        simp only [List.map_append, List.map_cons, List.reverse_cons, List.append_assoc,
          List.singleton_append, hheap]
      · rw [hfl']
        have := hF.slots
        rw [hfl] at this
        exact slots_reloc this he0 hcell he3 hv hr
      · intro e' he'
        rw [hsplit, List.mem_append, List.mem_cons] at he'
        have hlt := hF.lt
        rw [hfl] at hlt
        rcases he' with he' | rfl | he'
        · exact hlt e' (List.mem_append_left _ (List.mem_append_left _ he'))
        · exact he1
        · exact hlt e' (by simp only [List.mem_append, List.mem_cons] at he' ⊢; grind)
      · intro e' he'
        have hlt := hF.own
        rw [hfl] at hlt
        rw [hfl', List.mem_append, List.mem_cons] at he'
        rcases he' with he' | rfl | he'
        · exact hlt e' (List.mem_append_left _ he')
        · exact he2
        · exact hlt e' (List.mem_append_right _ (.tail _ he'))
      · have hnd' := hF.nodup
        rw [hfl] at hnd'
        rw [hfl] at he5
        rw [hfl']
        simp only [List.map_append, List.map_cons, List.nodup_append, List.nodup_cons,
          List.mem_cons, List.mem_append, List.mem_map] at hnd' he5 ⊢
        obtain ⟨q1, ⟨q2, q3⟩, q4⟩ := hnd'
        refine ⟨q1, ⟨?_, q3⟩, ?_⟩
        · rintro (⟨e', h, hh⟩ | ⟨e', h, hh⟩)
          · exact he5 e' (by grind) hh
          · exact he5 e' (by grind) hh
        · intro a ha b hb
          rcases hb with rfl | hb
          · rcases ha with ⟨e', h, hh⟩ | ⟨e', h, hh⟩
            · rw [← hh]; exact he5 e' (by grind)
            · rw [← hh]; exact he5 e' (by grind)
          · exact q4 a ha b (.inr hb)
      · intro e' he'
        rw [hsplit, List.mem_append, List.mem_cons] at he'
        have hlt := hF.fk
        rw [hfl] at hlt
        rcases he' with he' | rfl | he'
        · exact hlt e' (List.mem_append_left _ (List.mem_append_left _ he'))
        · exact he4
        · exact hlt e' (by simp only [List.mem_append, List.mem_cons] at he' ⊢; grind)
    refine ih hFR hlex' ho ?_ hnd.2 hσ hc.tail ?_
    · intro e' he'
      obtain ⟨q0, q1, q2, q3, q4, q5⟩ := hes e' (.tail _ he')
      refine ⟨q0, q1, q2, q3, q4, ?_⟩
      intro e'' he''
      rw [hfl] at q5
      rw [hfl', List.mem_append, List.mem_cons] at he''
      rcases he'' with h | rfl | h
      · exact q5 e'' (List.mem_append_left _ h)
      · exact fun hh => hnd.1 (by rw [hh]; exact List.mem_map_of_mem he')
      · exact q5 e'' (List.mem_append_right _ (.tail _ h))
    · intro slots' h
      have := hk slots' (by simpa using h)
      rw [List.length_cons] at this
      rw [show pc + 1 + es.length = pc + (es.length + 1) by omega]
      exact this

/-! ### Removing frames -/

theorem unbind_many {fr : Fr} {fs : List (List Ent)} {w : World} {S : SSt} {env bst : List Nat}
    {slots : Nat → Option TVal} {st : TSt} {n pc : Nat} {stk : List TVal} {Q : Out → Prop}
    (hF : FR U fr fs w S env bst slots) (hn : n ≤ fs.length)
    (hc : CodeAt fr.C pc (List.replicate n .unbind))
    (hk : ∀ env' bst', FR U fr (fs.drop n) w S env' bst' slots →
      GoesTo U.P U.table Q (U.mk' fr (pc + n) stk env' bst' slots st)) :
    GoesTo U.P U.table Q (U.mk' fr pc stk env bst slots st) := by
  induction n generalizing fs env bst pc with
  | zero => exact hk env bst hF
  | succ n ih =>
    cases fs with
    | nil => simp at hn
    | cons f fs =>
      rw [List.replicate_succ] at hc
      obtain ⟨env', bst', h1, h2⟩ := step_unbind' (st := st) hF stk hc
      refine GoesTo.step h1 (ih h2 (by simpa using hn) hc.tail ?_)
      intro env'' bst'' h3
      rw [show pc + 1 + n = pc + (n + 1) by omega]
      exact hk env'' bst'' h3

theorem bst_sum (fs : List (List Ent)) :
    (fs.map fun f => (U.heap f).length).sum = (U.heap fs.flatten).length := by
  induction fs with
  | nil => rfl
  | cons f fs ih =>
    rw [List.map_cons, List.sum_cons, ih, List.flatten_cons]
    generalize fs.flatten = g
    simp [Setup.heap, List.filter_append]

theorem unbindBetween_run {fr : Fr} {fs : List (List Ent)} {w : World} {S : SSt}
    {env bst : List Nat} {slots : Nat → Option TVal} {st : TSt} {t b pc : Nat} {stk : List TVal}
    {Q : Out → Prop} (hF : FR U fr fs w S env bst slots) (hn : fs.length = t + 1) (hb : b ≤ t)
    (hc : CodeAt fr.C pc (unbindBetween t b))
    (hk : ∀ env' bst', FR U fr (fs.drop (t - b)) w S env' bst' slots →
      GoesTo U.P U.table Q (U.mk' fr (pc + (unbindBetween t b).length) stk env' bst' slots st)) :
    GoesTo U.P U.table Q (U.mk' fr pc stk env bst slots st) := by
  by_cases hb0 : b = 0
  · subst hb0
    by_cases ht : t = 0
    · subst ht
      exact hk env bst hF
    · have hu : unbindBetween t 0 = [.unbindall] := by
        simp [unbindBetween, ht]
      rw [hu] at hc hk
      have hsp : ∃ fs1 f, fs = fs1 ++ [f] ∧ fs1.length = t := by
        have hne : fs ≠ [] := by intro h; rw [h] at hn; simp at hn
        exact ⟨fs.dropLast, fs.getLast hne, (List.dropLast_concat_getLast hne).symm, by simp [hn]⟩
      obtain ⟨fs1, f, rfl, hl⟩ := hsp
      have hd := FR.drop hF
      have hb' := hF.bst
      have hdrop : (fs1 ++ [f]).drop (t - 0) = [f] := by
        rw [Nat.sub_zero, ← hl]; simp
      refine GoesTo.step (m' := U.mk' fr (pc + 1) stk (env.drop (U.heap fs1.flatten).length)
        [(U.heap f).length] slots st) ?_ (hk _ _ (by
          rw [hdrop]
          have h3 : bst.drop fs1.length = [(U.heap f).length] := by rw [hb']; simp
          rw [h3] at hd
          exact hd))
      have hrev : bst.reverse = (U.heap f).length :: (fs1.map fun f => (U.heap f).length).reverse := by
        rw [hb']; simp
      have hsum : ((fs1.map fun f => (U.heap f).length).reverse).sum = (U.heap fs1.flatten).length := by
        rw [List.sum_reverse, bst_sum]
      simp [step, Setup.mk', fetch (U := U) hc, alloc, hrev, hsum, Act.next]
  · have hu : unbindBetween t b = List.replicate (t - b) .unbind := by
      simp [unbindBetween, hb0]
    rw [hu] at hc hk
    rw [List.length_replicate] at hk
    exact unbind_many hF (by omega) hc hk

theorem unbindBelow_run {fr : Fr} {fs : List (List Ent)} {w : World} {S : SSt}
    {env bst : List Nat} {slots : Nat → Option TVal} {st : TSt} {t b pc : Nat} {stk : List TVal}
    {Q : Out → Prop} (hF : FR U fr fs w S env bst slots) (hn : fs.length = t + 1) (hb : b ≤ t)
    (hc : CodeAt fr.C pc (unbindBelow t b))
    (hk : ∀ env' bst', FR U fr (fs.drop (t - b + 1)) w S env' bst' slots →
      GoesTo U.P U.table Q (U.mk' fr (pc + (unbindBelow t b).length) stk env' bst' slots st)) :
    GoesTo U.P U.table Q (U.mk' fr pc stk env bst slots st) := by
  cases b with
  | zero =>
    have hu : unbindBelow t 0 = [.unbindall0] := rfl
    rw [hu] at hc hk
    have hd := FR.drop (fs1 := fs) (fs := []) (by simpa using hF)
    have hb' := hF.bst
    have hdrop : fs.drop (t - 0 + 1) = [] := by
      rw [List.drop_eq_nil_iff]; omega
    have hlen : bst.length = fs.length := by rw [hb']; simp
    refine GoesTo.step (m' := U.mk' fr (pc + 1) stk (env.drop (U.heap fs.flatten).length) [] slots st)
      ?_ (hk _ _ (by
        rw [hdrop]
        rw [List.drop_of_length_le (by omega : bst.length ≤ fs.length)] at hd
        exact hd))
    have hsum : bst.sum = (U.heap fs.flatten).length := by rw [hb', bst_sum]
    simp [step, Setup.mk', fetch (U := U) hc, alloc, hsum, Act.next]
  | succ b =>
    have hu : unbindBelow t (b + 1) = unbindBetween t b := rfl
    rw [hu] at hc hk
    refine unbindBetween_run hF hn (by omega) hc ?_
    intro env' bst' h
    refine hk env' bst' ?_
    rw [show t - (b + 1) + 1 = t - b by omega]
    exact h

end Rep.Compile
