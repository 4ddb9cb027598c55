import Verif.Tar.Model
import Mathlib.Data.List.Infix

/-
C110: files inside TAR archives.
-/

namespace Rep.Tar

/-- The text of some lines. -/
def text : List Str → Str
  | [] => []
  | l :: ls => l ++ '\n' :: text ls

theorem outLoop_plain (parse : Parse) (t : Str) (es : List Entry) : ∀ (p acc : Str), '\n' ∉ p →
    outLoop parse (p ++ t) acc es = outLoop parse t (p.reverse ++ acc) es := by
  intro p
  induction p with
  | nil => intro acc _; rfl
  | cons c p ih =>
    intro acc h
    have hc : c ≠ '\n' := fun e => h (by simp [e])
    rw [List.cons_append, outLoop, ih]
    · simp
    · exact fun e => h (List.mem_cons_of_mem _ e)
    · exact hc

theorem outLoop_append (parse : Parse) (t : Str) : ∀ (s acc : Str) (es : List Entry), '\n' ∉ acc →
    ((outLoop parse s acc es).2.2 = true → outLoop parse (s ++ t) acc es = outLoop parse s acc es) ∧
    ((outLoop parse s acc es).2.2 = false → '\n' ∉ (outLoop parse s acc es).2.1 ∧
      outLoop parse (s ++ t) acc es = outLoop parse ((outLoop parse s acc es).2.1 ++ t) [] (outLoop parse s acc es).1) := by
  intro s
  induction s with
  | nil =>
    intro acc es h
    have h' : '\n' ∉ acc.reverse := by simpa using h
    refine ⟨fun e => by simp [outLoop] at e, fun _ => ⟨h', ?_⟩⟩
    simp only [outLoop]
    rw [outLoop_plain parse t es _ _ h']
    simp
  | cons c s ih =>
    intro acc es h
    by_cases hc : c = '\n'
    · subst hc
      rw [List.cons_append, outLoop, outLoop]
      cases hp : parse acc.reverse with
      | none => exact ⟨fun _ => rfl, fun e => by simp at e⟩
      | some e => exact ih [] (e :: es) (by simp)
    · rw [List.cons_append, outLoop, outLoop]
      · exact ih (c :: acc) es (by simp [h, Ne.symm hc])
      · exact hc
      · exact hc

theorem outputs_eq (parse : Parse) : ∀ (l : List Str) (p : Str) (es : List Entry), '\n' ∉ p →
    (outLoop parse (p ++ l.flatten) [] es).2.2 = false → outputs parse l p es = outLoop parse (p ++ l.flatten) [] es := by
  intro l
  induction l with
  | nil =>
    intro p es h _
    rw [List.flatten_nil, outLoop_plain parse [] es p [] h]
    simp [outLoop, outputs]
  | cons s l ih =>
    intro p es h hf
    obtain ⟨h1, h2⟩ := outLoop_append parse l.flatten (p ++ s) [] es (by simp)
    rw [List.flatten_cons, ← List.append_assoc] at hf ⊢
    rw [outputs, output]
    rcases hr : outLoop parse (p ++ s) [] es with ⟨es', p', b⟩
    cases b with
    | true =>
      rw [h1 (by rw [hr]), hr] at hf
      cases hf
    | false =>
      obtain ⟨hn, he⟩ := h2 (by rw [hr])
      rw [hr] at hn he
      rw [he] at hf ⊢
      exact ih p' es' hn hf

theorem outLoop_text (parse : Parse) : ∀ (ls : List Str) (es : List Entry) (acc : List Entry), (∀ l ∈ ls, '\n' ∉ l) →
    ls.map parse = es.map some → outLoop parse (text ls) [] acc = (es.reverse ++ acc, [], false) := by
  intro ls
  induction ls with
  | nil =>
    intro es acc _ h
    have : es = [] := by simpa using h.symm
    subst this
    rfl
  | cons l ls ih =>
    intro es acc hn h
    cases es with
    | nil => simp at h
    | cons e es =>
      simp only [List.map_cons, List.cons.injEq] at h
      rw [text, outLoop_plain parse _ acc l [] (hn l (by simp)), outLoop]
      simp only [List.append_nil, List.reverse_reverse, h.1]
      rw [ih es (e :: acc) (fun x hx => hn x (List.mem_cons_of_mem _ hx)) h.2]
      simp

/-- However the output of tar is divided into strings, the members are those of its lines, in their order, and nothing is
left over. -/
theorem C110_listing (parse : Parse) (ls : List Str) (es : List Entry) (hn : ∀ l ∈ ls, '\n' ∉ l) (hp : ls.map parse = es.map some)
    (chunks : List Str) (hc : chunks.flatten = text ls) : outputs parse chunks [] [] = (es.reverse, [], false) := by
  have h := outLoop_text parse ls es [] hn hp
  rw [outputs_eq parse chunks [] [] (by simp)]
  · rw [List.nil_append, hc, h]; simp
  · rw [List.nil_append, hc, h]

/-- A question for a member of an archive. -/
structure Op where
  tarfile : Str
  modtime : Nat
  chunks : List Str
  name : Str

/-- The answers to some questions. -/
def run (parse : Parse) : State → List Op → List Res
  | _, [] => []
  | st, o :: l =>
    let r := getFile parse st o.tarfile o.modtime o.chunks o.name
    r.2 :: run parse r.1 l

/-- Archives whose modification time tells their contents: `content f t` are the members of `f` if it was modified at `t`, and
`lines f t` the lines tar prints for them. -/
structure Archives (parse : Parse) where
  content : Str → Nat → List Entry
  lines : Str → Nat → List Str
  plain : ∀ f t, ∀ l ∈ lines f t, '\n' ∉ l
  parsed : ∀ f t, (lines f t).map parse = (content f t).map some

/-- Any sequence of questions about any archives, which may be modified between them: the answer is the first member of that
name which the archive has at that time.
Missing: lines which cannot be read, and output which ends within a line. -/
theorem C110_get_partial (parse : Parse) (a : Archives parse) (ops : List Op)
    (h : ∀ o ∈ ops, o.chunks.flatten = text (a.lines o.tarfile o.modtime)) :
    run parse {} ops = ops.map fun o => .ok ((a.content o.tarfile o.modtime).find? fun e => e.name = o.name) := by
  suffices H : ∀ (ops : List Op) (st : State), (∀ o ∈ ops, o.chunks.flatten = text (a.lines o.tarfile o.modtime)) →
      st.pending = [] → (∀ c ∈ st.cache, c.entries = a.content c.tarfile c.modtime) →
      run parse st ops = ops.map fun o => .ok ((a.content o.tarfile o.modtime).find? fun e => e.name = o.name) from
    H ops {} h rfl (fun c hc => nomatch hc)
  intro ops
  induction ops with
  | nil => intro _ _ _ _; rfl
  | cons o ops ih =>
    intro st hs hp hc
    have hl := C110_listing parse _ _ (a.plain o.tarfile o.modtime) (a.parsed o.tarfile o.modtime) o.chunks (hs o (by simp))
    have fin : ∀ st' r, getFile parse st o.tarfile o.modtime o.chunks o.name = (st', r) →
        r = .ok ((a.content o.tarfile o.modtime).find? fun e => e.name = o.name) → st'.pending = [] →
        (∀ c ∈ st'.cache, c.entries = a.content c.tarfile c.modtime) →
        run parse st (o :: ops) = (o :: ops).map fun o => .ok ((a.content o.tarfile o.modtime).find? fun e => e.name = o.name) := by
      intro st' r e er hp' hc'
      rw [run, e, List.map_cons, ih st' (fun x hx => hs x (List.mem_cons_of_mem _ hx)) hp' hc', er]
    have hrest : ∀ c ∈ evict (st.cache.filter fun c => c.tarfile ≠ o.tarfile), c.entries = a.content c.tarfile c.modtime := by
      intro c hm
      unfold evict at hm
      split at hm
      · exact hc c (List.mem_filter.1 (List.mem_of_mem_take hm)).1
      · exact hc c (List.mem_filter.1 hm).1
    have fresh : ∀ x ∈ (⟨o.tarfile, o.modtime, (a.content o.tarfile o.modtime)⟩ : Cached) ::
        evict (st.cache.filter fun c => c.tarfile ≠ o.tarfile), x.entries = a.content x.tarfile x.modtime := by
      intro x hx
      rcases List.mem_cons.1 hx with rfl | hx
      · rfl
      · exact hrest x hx
    cases hf : st.cache.find? fun c => c.tarfile = o.tarfile with
    | none =>
      refine fin _ _ (by simp only [getFile, hf, hp, hl, List.reverse_reverse]; rfl) rfl rfl fresh
    | some c =>
      have hm := List.mem_of_find?_eq_some hf
      have ht : c.tarfile = o.tarfile := by simpa using List.find?_some hf
      by_cases hmt : c.modtime = o.modtime
      · refine fin ⟨c :: st.cache.filter fun c => c.tarfile ≠ o.tarfile, st.pending⟩ _ (by simp only [getFile, hf, if_pos hmt]; rfl) ?_ hp ?_
        · rw [hc c hm, ht, hmt]
        · intro x hx
          rcases List.mem_cons.1 hx with rfl | hx
          · exact hc _ hm
          · exact hc x (List.mem_filter.1 hx).1
      · refine fin _ _ (by simp only [getFile, hf, if_neg hmt, hp, hl, List.reverse_reverse]; rfl) rfl rfl fresh

/-- Links are followed: what is found is no link, and it is what the name or the last of the links leads to. -/
theorem C110_links_partial (es : List Entry) (resolve : Str → Str → Str) : ∀ (fuel : Nat) (name : Str) (r : Option Entry),
    lookup es resolve fuel name = some r → ∃ path : List Str, path.head? = some name ∧
      (∀ i, ∀ h : i + 1 < path.length, ∃ e, (es.find? fun e => e.name = path[i]) = some e ∧ e.kind = .symlink ∧ path[i + 1] = resolve e.link path[i]) ∧
      (∃ last, path.getLast? = some last ∧ r = es.find? fun e => e.name = last) ∧ ∀ e, r = some e → e.kind ≠ .symlink := by
  intro fuel
  induction fuel with
  | zero => intro _ _ h; simp [lookup] at h
  | succ fuel ih =>
    intro name r h
    rw [lookup] at h
    cases hf : es.find? fun e => e.name = name with
    | none =>
      rw [hf] at h
      cases h
      exact ⟨[name], rfl, fun i h => by simp at h, ⟨name, rfl, hf.symm⟩, fun e he => nomatch he⟩
    | some e =>
      rw [hf] at h
      by_cases hk : e.kind = .symlink
      · simp only [hk, if_true] at h
        obtain ⟨path, h1, h2, ⟨last, h3, h4⟩, h5⟩ := ih _ _ h
        cases path with
        | nil => cases h1
        | cons p path =>
          simp only [List.head?_cons, Option.some.injEq] at h1
          subst h1
          refine ⟨name :: resolve e.link name :: path, rfl, ?_, ⟨last, by simpa using h3, h4⟩, h5⟩
          intro i hi
          cases i with
          | zero => exact ⟨e, hf, hk, rfl⟩
          | succ i => exact h2 i (by simpa using hi)
      · simp only [hk, if_false] at h
        cases h
        exact ⟨[name], rfl, fun i h => by simp at h, ⟨name, rfl, hf.symm⟩, fun e' he => by cases he; exact hk⟩

theorem dirStep_nodup (dir : Str) (files : List Str) (e : Entry) (h : files.Nodup) : (dirStep dir files e).Nodup := by
  unfold dirStep
  split
  · dsimp only
    split
    · exact h
    · split
      · exact h
      · next h2 => exact List.nodup_cons.2 ⟨h2, h⟩
  · exact h

theorem below_iff (dir name x : Str) : (dir.isPrefixOf name = true ∧ (name.drop dir.length).takeWhile (· ≠ '/') = x) ↔
    '/' ∉ x ∧ ∃ rest, name = dir ++ x ++ rest ∧ (rest = [] ∨ ∃ t, rest = '/' :: t) := by
  constructor
  · rintro ⟨h1, rfl⟩
    obtain ⟨s, rfl⟩ := List.isPrefixOf_iff_prefix.1 h1
    rw [List.drop_left]
    refine ⟨fun h => ?_, s.dropWhile (· ≠ '/'), ?_, ?_⟩
    · have := List.all_takeWhile (p := (· ≠ '/')) (l := s)
      have := List.all_eq_true.1 this _ h
      simp at this
    · rw [List.append_assoc, List.takeWhile_append_dropWhile]
    · cases hd : s.dropWhile (· ≠ '/') with
      | nil => exact Or.inl rfl
      | cons c t =>
        have := List.head_dropWhile_not (p := (· ≠ '/')) (l := s) (by rw [hd]; simp)
        simp only [hd, List.head_cons] at this
        exact Or.inr ⟨t, by simpa using this⟩
  · rintro ⟨hx, rest, rfl, hr⟩
    rw [List.append_assoc]
    refine ⟨List.isPrefixOf_iff_prefix.2 ⟨_, rfl⟩, ?_⟩
    rw [List.drop_left, List.takeWhile_append_of_pos]
    · rcases hr with rfl | ⟨t, rfl⟩ <;> simp
    · intro c hc
      simp only [decide_eq_true_eq]
      rintro rfl
      exact hx hc

theorem mem_dirStep (dir : Str) (files : List Str) (e : Entry) (x : Str) : x ∈ dirStep dir files e ↔ x ∈ files ∨
    (x ≠ [] ∧ dir.isPrefixOf e.name = true ∧ (e.name.drop dir.length).takeWhile (· ≠ '/') = x) := by
  unfold dirStep
  split
  · next h =>
    dsimp only
    split
    · next h2 =>
      constructor
      · exact Or.inl
      · rintro (h3 | ⟨h3, _, h4⟩)
        · exact h3
        · exact absurd (h4.symm.trans h2) h3
    · next h2 =>
      split
      · next h3 =>
        constructor
        · exact Or.inl
        · rintro (h4 | ⟨_, _, h5⟩)
          · exact h4
          · rw [← h5]; exact h3
      · rw [List.mem_cons]
        constructor
        · rintro (rfl | h4)
          · exact Or.inr ⟨h2, h, rfl⟩
          · exact Or.inl h4
        · rintro (h4 | ⟨_, _, h5⟩)
          · exact Or.inr h4
          · exact Or.inl h5.symm
  · next h =>
    constructor
    · exact Or.inl
    · rintro (h3 | ⟨_, h4, _⟩)
      · exact h3
      · exact absurd h4 h

/-- `directory-files` has each file and directory in the directory once. -/
theorem C110_directory (es : List Entry) (dir : Str) : (directoryFiles es dir).Nodup ∧ ∀ x, x ∈ directoryFiles es dir ↔
    x ≠ [] ∧ '/' ∉ x ∧ ∃ e ∈ es, ∃ rest, e.name = dir ++ x ++ rest ∧ (rest = [] ∨ ∃ t, rest = '/' :: t) := by
  suffices H : ∀ (es : List Entry) (files : List Str), files.Nodup → (es.foldl (dirStep dir) files).Nodup ∧
      ∀ x, x ∈ es.foldl (dirStep dir) files ↔ x ∈ files ∨
        ∃ e ∈ es, x ≠ [] ∧ dir.isPrefixOf e.name = true ∧ (e.name.drop dir.length).takeWhile (· ≠ '/') = x by
    obtain ⟨h1, h2⟩ := H es [] List.nodup_nil
    refine ⟨h1, fun x => ?_⟩
    rw [directoryFiles, h2]
    constructor
    · rintro (h | ⟨e, he, hx, h⟩)
      · cases h
      · obtain ⟨hs, rest, hr⟩ := (below_iff dir e.name x).1 h
        exact ⟨hx, hs, e, he, rest, hr⟩
    · rintro ⟨hx, hs, e, he, rest, hr⟩
      exact Or.inr ⟨e, he, hx, (below_iff dir e.name x).2 ⟨hs, rest, hr⟩⟩
  intro es
  induction es with
  | nil => intro files h; exact ⟨h, fun x => by simp⟩
  | cons e es ih =>
    intro files h
    obtain ⟨h1, h2⟩ := ih (dirStep dir files e) (dirStep_nodup dir files e h)
    refine ⟨h1, fun x => ?_⟩
    rw [List.foldl_cons, h2, mem_dirStep, or_assoc]
    simp

/-- The name of a member is taken apart where `#tar` first occurs. -/
theorem C110_split (tarfile file : Str) (h : ¬ ['#', 't', 'a', 'r'] <:+: tarfile) :
    split (tarfile ++ '#' :: 't' :: 'a' :: 'r' :: '/' :: file) = some (tarfile, file) := by
  induction tarfile with
  | nil => rfl
  | cons c s ih =>
    have hs : ¬ ['#', 't', 'a', 'r'] <:+: s := fun ⟨p, q, e⟩ => h ⟨c :: p, q, by simp [← e]⟩
    have hn : ∀ u, c :: (s ++ '#' :: 't' :: 'a' :: 'r' :: '/' :: file) ≠ '#' :: 't' :: 'a' :: 'r' :: u := by
      intro u e
      rcases s with _ | ⟨c1, _ | ⟨c2, _ | ⟨c3, s⟩⟩⟩ <;> simp at e
      obtain ⟨rfl, rfl, rfl, rfl, _⟩ := e
      exact h ⟨[], s, rfl⟩
    rw [List.cons_append, split, ih hs]
    · rfl
    · intro s' e1 e2
      subst e1
      exact hn _ (by rw [e2])
    · intro s' e1 e2
      subst e1
      exact hn _ (by rw [e2])

/-- A parser for the examples: the whole line is the name of a file; lines beginning with `!` cannot be read. -/
def toyParse : Parse
  | '!' :: _ => none
  | l => some ⟨l, .file, [], []⟩

def toy (n : Str) : Entry := ⟨n, .file, [], []⟩

/-- An archive with members `a` and `b`, whose listing arrives in three pieces. -/
example : outputs toyParse [['a'], ['\n', 'b'], ['\n']] [] [] = ([toy ['b'], toy ['a']], [], false) ∧
    text [['a'], ['b']] = [['a'], ['\n', 'b'], ['\n']].flatten := by decide

/-- Archives as in `C110_get_partial`: two members at first, one later. -/
example : Nonempty (Archives toyParse) := ⟨{
  content := fun _ t => if t = 1 then [toy ['a'], toy ['b']] else [toy ['b']]
  lines := fun _ t => if t = 1 then [['a'], ['b']] else [['b']]
  plain := by intro f t l hl; split at hl <;> simp at hl <;> rcases hl with rfl | rfl <;> decide
  parsed := by intro f t; split <;> rfl }⟩

def six : List Op := [['1'], ['2'], ['3'], ['4'], ['5'], ['6']].map fun f => ⟨f, 1, [], ['x']⟩

/-- The cache, which should have five listings at most, is never cut. -/
theorem C110_bound_violated : (six.foldl (fun st o => (getFile toyParse st o.tarfile o.modtime o.chunks o.name).1) {}).cache.length = 6 := by
  decide

/-- Output that ends within a line (tar was killed) is put before the first line of the next archive. -/
theorem C110_leftover_violated : run toyParse {} [⟨['1'], 1, [['a', 'b']], ['x']⟩, ⟨['2'], 1, [['c', '\n']], ['c']⟩] = [.ok none, .ok none] ∧
    run toyParse {} [⟨['2'], 1, [['c', '\n']], ['c']⟩] = [.ok (some (toy ['c']))] := by decide

/-- A line that cannot be read is an error; when the question is repeated there is none, and members after that line do not
exist. -/
theorem C110_error_violated :
    run toyParse {} [⟨['1'], 1, [['a', '\n', '!', '\n', 'b', '\n']], ['b']⟩, ⟨['1'], 1, [['a', '\n', '!', '\n', 'b', '\n']], ['b']⟩] =
      [.error, .ok none] := by decide

/-- A link to itself is followed for ever. -/
theorem C110_cycle_violated (fuel : Nat) : lookup [⟨['a'], .symlink, [], ['a']⟩] (fun l _ => l) fuel ['a'] = none := by
  induction fuel with
  | zero => rfl
  | succ n ih => exact ih

/-- A link to a file. -/
example : lookup [⟨['a'], .symlink, [], ['b']⟩, toy ['b']] (fun l _ => l) 2 ['a'] = some (some (toy ['b'])) := by decide

example : directoryFiles [toy "d/a".toList, toy "d/b/c".toList, toy "d/b/e".toList, toy "x".toList] "d/".toList = [['b'], ['a']] := by decide

example : ¬ ['#', 't', 'a', 'r'] <:+: "x.tar".toList := by decide

end Rep.Tar

