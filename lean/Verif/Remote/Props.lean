import Verif.Remote.Client

/-
C99: files on another machine.  A command that the client sends is carried out there as if it were
applied to the files directly, however the replies are divided on the way; a sequence of commands
stays in step.
-/

namespace Rep.Remote

/-- A session that waits for nothing. -/
def Ready (x : Session) : Prop := x.pending = none ∧ x.protocol.isSome ∧ x.callback = .none

/-- One command: the writes arrive as `cs`, the reply comes in the pieces `chop reply`. -/
def transact {σ : Type} (F : Files σ) (s : σ) (x : Session) (c : Cmd) (cs : List Bytes)
    (chop : Bytes → List Bytes) : Option (σ × Session × Result) :=
  match serveOne F s cs with
  | .go (s', out) [] => (feed (start x c) (chop out)).bind fun x' =>
      (result x' c).map fun r => (s', finish x', r)
  | _ => none

/-- A command carried out by the server gives the state that the direct command gives, and uses up
exactly what was sent. -/
theorem C99_server {σ : Type} (F : Files σ) (s : σ) (c : Cmd) (hc : Legal F s c) (blocks : Bytes → List Bytes)
    (hb : ∀ d, (blocks d).flatten = d) (cs : List Bytes) (h : Arrives cs (writes c blocks)) :
    ∃ out, serveOne F s cs = .go ((direct F s c).1, out) [] :=
  ⟨_, serve_spec F s c hc blocks hb cs h⟩

/-- The replies: for every division into pieces the client gets the result of the direct command,
and stays busy until the last piece.  Partial: an error reply to `get` has to come whole. -/
theorem C99_client_partial {σ : Type} (F : Files σ) (hF : FilesOk F) (s : σ) (c : Cmd) (hc : Legal F s c)
    (blocks : Bytes → List Bytes) (hb : ∀ d, (blocks d).flatten = d) (cs : List Bytes)
    (h : Arrives cs (writes c blocks)) (s' : σ) (out : Bytes) (hs : serveOne F s cs = .go (s', out) [])
    (x : Session) (hx : Ready x) (pieces : List Bytes) (hp : Chopped out pieces)
    (hg : GetFails F s c → pieces.length = 1) :
    (∃ x', feed (start x c) pieces = some x' ∧ result x' c = some (direct F s c).2 ∧ Ready (finish x')) ∧
    ∀ ps qs, pieces = ps ++ qs → qs ≠ [] → ∃ x1, feed (start x c) ps = some x1 ∧ x1.status = .busy := by
  rw [serve_spec F s c hc blocks hb cs h] at hs
  simp only [Next.go.injEq, Prod.mk.injEq] at hs
  obtain ⟨⟨-, rfl⟩, -⟩ := hs
  obtain ⟨hx1, hx2, hx3⟩ := hx
  cases c with
  | simple t args =>
    simp only [reply] at hp
    simp only [direct]
    rcases he : F.simple t args s with ⟨s1, _ | e⟩
    · rw [he] at hp
      obtain ⟨h1, h2⟩ := feed_done (start x (.simple t args)) rfl hx1 hx3 hx2 pieces hp
      exact ⟨⟨_, h1, rfl, hx1, hx2, rfl⟩, h2⟩
    · rw [he] at hp
      obtain ⟨m1, m2⟩ := hF.simple _ _ _ _ _ he
      obtain ⟨h1, h2⟩ := feed_error (start x (.simple t args)) rfl hx1 hx3 hx2 e m1 m2 pieces hp
      exact ⟨⟨_, h1, rfl, hx1, hx2, rfl⟩, h2⟩
  | get name =>
    simp only [reply] at hp
    simp only [direct]
    cases he : F.get s name with
    | ok d =>
      rw [he] at hp
      obtain ⟨h1, h2⟩ := feed_get (start x (.get name)) rfl hx1 rfl rfl d ((hF.get s name).1 d he) pieces hp
      exact ⟨⟨_, h1, rfl, hx1, hx2, rfl⟩, h2⟩
    | error e =>
      rw [he] at hp
      have h1 := hg ⟨e, he⟩
      obtain ⟨p, rfl⟩ : ∃ p, pieces = [p] := List.length_eq_one_iff.1 h1
      have hpe : p = 127 :: sendString e := by simpa using hp.1
      subst hpe
      refine ⟨⟨_, feed_get_error (start x (.get name)) hx1 rfl rfl e ((hF.get s name).2 e he).1, rfl, hx1, hx2, rfl⟩, ?_⟩
      intro ps qs e hq
      cases ps with
      | nil => exact ⟨_, rfl, rfl⟩
      | cons a ps =>
        simp only [List.cons_append, List.cons.injEq] at e
        exact absurd (List.append_eq_nil_iff.1 e.2.symm).2 hq
  | put name data =>
    obtain ⟨-, -, w, hw⟩ := hc
    simp only [reply, hw] at hp
    simp only [direct, hw]
    obtain ⟨h1, h2⟩ := feed_done (start x (.put name data)) rfl hx1 hx3 hx2 pieces hp
    exact ⟨⟨_, h1, rfl, hx1, hx2, rfl⟩, h2⟩
  | link name =>
    simp only [reply] at hp
    simp only [direct]
    cases he : F.readlink s name with
    | ok d =>
      rw [he] at hp
      obtain ⟨h1, h2⟩ := feed_link (start x (.link name)) rfl hx1 rfl rfl d ((hF.link s name).1 d he) pieces hp
      exact ⟨⟨_, h1, rfl, hx1, hx2, rfl⟩, h2⟩
    | error e =>
      rw [he] at hp
      obtain ⟨h1, h2⟩ := feed_link_error (start x (.link name)) rfl hx1 rfl e ((hF.link s name).2 e he).1 pieces hp
      exact ⟨⟨_, h1, rfl, hx1, hx2, rfl⟩, h2⟩
  | dir name =>
    simp only [reply] at hp
    simp only [direct]
    cases he : F.readdir s name with
    | ok l =>
      rw [he] at hp
      obtain ⟨h1, h2⟩ := feed_dir (start x (.dir name)) rfl hx1 rfl rfl l ((hF.dir s name).1 l he) pieces hp
      exact ⟨⟨_, h1, rfl, hx1, hx2, rfl⟩, h2⟩
    | error e =>
      rw [he] at hp
      obtain ⟨m1, m2⟩ := (hF.dir s name).2 e he
      obtain ⟨h1, h2⟩ := feed_dir_error (start x (.dir name)) rfl hx1 rfl e m1 m2 pieces hp
      exact ⟨⟨_, h1, rfl, hx1, hx2, rfl⟩, h2⟩

/-- A command with the way its bytes travel. -/
structure Turn where
  cmd : Cmd
  blocks : Bytes → List Bytes
  arrival : List Bytes
  chop : Bytes → List Bytes

/-- A sequence of commands over one connection. -/
def session {σ : Type} (F : Files σ) (s : σ) (x : Session) : List Turn → Option (σ × List Result)
  | [] => some (s, [])
  | t :: ts => (transact F s x t.cmd t.arrival t.chop).bind fun r =>
      (session F r.1 r.2.1 ts).map fun q => (q.1, r.2.2 :: q.2)

/-- The same commands applied directly. -/
def directAll {σ : Type} (F : Files σ) (s : σ) : List Cmd → σ × List Result
  | [] => (s, [])
  | c :: cs => ((directAll F (direct F s c).1 cs).1, (direct F s c).2 :: (directAll F (direct F s c).1 cs).2)

/-- Every command can be sent in the state it finds, its writes arrive whole, its reply is divided
in some way. -/
def Possible {σ : Type} (F : Files σ) (s : σ) : List Turn → Prop
  | [] => True
  | t :: ts => Legal F s t.cmd ∧ (∀ d, (t.blocks d).flatten = d) ∧ Arrives t.arrival (writes t.cmd t.blocks) ∧
      (∀ out, Chopped out (t.chop out)) ∧ (GetFails F s t.cmd → ∀ out, (t.chop out).length = 1) ∧
      Possible F (direct F s t.cmd).1 ts

/-- A sequence of commands has the results and the effect of the same commands applied directly. -/
theorem C99_session_partial {σ : Type} (F : Files σ) (hF : FilesOk F) :
    ∀ (ts : List Turn) (s : σ) (x : Session), Ready x → Possible F s ts →
      session F s x ts = some (directAll F s (ts.map Turn.cmd)) := by
  intro ts
  induction ts with
  | nil => intro s x _ _; rfl
  | cons t ts ih =>
    intro s x hx ⟨h1, h2, h3, h4, h5, h6⟩
    have hs := serve_spec F s t.cmd h1 t.blocks h2 t.arrival h3
    obtain ⟨⟨x', g1, g2, g3⟩, -⟩ := C99_client_partial F hF s t.cmd h1 t.blocks h2 t.arrival h3 _ _ hs x hx _ (h4 _)
      (fun hg => h5 hg _)
    have ht : transact F s x t.cmd t.arrival t.chop = some ((direct F s t.cmd).1, finish x', (direct F s t.cmd).2) := by
      simp [transact, hs, g1, g2]
    have hx' : Ready (finish x') := g3
    simp [session, ht, ih _ _ hx' h6, directAll]

/-! ### where it does not hold -/

/-- A `put` whose file cannot be opened: the server answers with the error and then takes the
length and the data for a command.  When every write comes by itself it ends. -/
theorem C99_put_fails_violated {σ : Type} (F : Files σ) (s : σ) (name data e : Bytes) (hn : Name name)
    (hne : name ≠ []) (hd : Short data) (he : F.put s name = .error e) :
    serveOne F s (writes (.put name data) fun d => [d]) = .go (s, 127 :: sendString e) [padHex data.length, data] ∧
    serveOne F s [padHex data.length, data] = .exit := by
  have hlen : padHex data.length = hexW 8 data.length := padHex_small hd
  have h8 : (hexW 8 data.length).length = 8 := hexW_length _ _
  constructor
  · have hn8 : padHex name.length = hexW 8 name.length := padHex_small hn.2
    have hr : readString (hexW 8 name.length :: name :: [padHex data.length, data]) =
        .go name [padHex data.length, data] := by
      have h0 : name.length ≠ 0 := fun h => hne (List.length_eq_zero_iff.1 h)
      simp only [readString, readLong, readExactly, readSome, hexW_length, le_refl, if_true, Next.bind,
        strtol_hexW hn.2, if_neg h0, takeWhile_name hn.1]
    simp only [writes, command, List.map_cons, List.map_nil, List.flatten_cons, List.flatten_nil, writeString, hn8,
      List.cons_append, List.nil_append, List.append_nil, List.length_singleton]
    have h1 : readChar ([80, 1] :: hexW 8 name.length :: name :: [padHex data.length, data]) =
        .go 80 ([1] :: hexW 8 name.length :: name :: [padHex data.length, data]) := rfl
    have h2 : readChar ([1] :: hexW 8 name.length :: name :: [padHex data.length, data]) =
        .go 1 (hexW 8 name.length :: name :: [padHex data.length, data]) := rfl
    simp only [serveOne, h1, h2, Next.bind, readStrings, hr, he, show (1 : Nat) < 64 by decide, if_true]
    simp [sendErrno]
  · rw [hlen, hexW8]
    have h1 : ∀ a b c d e f g h, readChar [[a, b, c, d, e, f, g, h], data] = .go a [[b, c, d, e, f, g, h], data] :=
      fun _ _ _ _ _ _ _ _ => rfl
    have h2 : ∀ b c d e f g h, readChar [[b, c, d, e, f, g, h], data] = .go b [[c, d, e, f, g, h], data] :=
      fun _ _ _ _ _ _ _ => rfl
    have h3 : ∀ k c d e f g h, readStrings (k + 1) [[c, d, e, f, g, h], data] = .exit := by
      intro k c d e f g h
      rfl
    simp only [serveOne, h1, h2, Next.bind]
    have hb : ∀ d : Fin 16, hexChar d ≠ 255 ∧ hexChar d ≠ 0 ∧ hexChar d < 128 := by decide
    obtain ⟨b1, b2, b3⟩ := hb ⟨data.length / 16777216 % 16, Nat.mod_lt _ (by decide)⟩
    simp only at b1 b2 b3
    generalize hexChar (data.length / 16777216 % 16) = n at *
    split
    · rfl
    · split
      · rfl
      · have : n < 64 := by omega
        rw [if_pos this]
        obtain ⟨k, rfl⟩ : ∃ k, n = k + 1 := ⟨n - 1, by omega⟩
        rw [h3]

/-- A file of 2³² bytes or more: the length is cut, and `get` reports success with a sixteenth of
the contents. -/
theorem C99_large_file_violated {σ : Type} (F : Files σ) (s : σ) (name data : Bytes) (h : F.get s name = .ok data)
    (h1 : 2 ^ 32 ≤ data.length) (h2 : data.length < 2 ^ 36) (hn : Name name) (cs : List Bytes)
    (hcs : Arrives cs (writes (.get name) fun d => [d])) (x : Session) (hx : Ready x) :
    ∃ out, serveOne F s cs = .go (s, out) [] ∧
    (feed (start x (.get name)) [out]).bind (result · (.get name)) =
      some (.contents (data.take (data.length / 16))) := by
  have hs := serve_spec F s (.get name) hn (fun d => [d]) (by simp) cs hcs
  have hd : (direct F s (.get name)).1 = s := by simp [direct, h]
  rw [hd] at hs
  refine ⟨_, hs, ?_⟩
  have hl : data.length / 16 < 2 ^ 32 := by omega
  simp only [reply, h, sendLong_large h1 h2]
  have hdrop : List.drop 9 (1 :: (hexW 8 (data.length / 16) ++ data)) = data := by
    rw [List.drop_succ_cons, List.drop_append_of_le_length (by rw [hexW_length]),
      List.drop_of_length_le (by rw [hexW_length]), List.nil_append]
  have hmin : min (data.length / 16) data.length = data.length / 16 := by omega
  have hpend : (start x (.get name)).pending = none := hx.1
  have hcb : (start x (.get name)).callback = .get none := rfl
  have hfile : (start x (.get name)).file = [] := rfl
  simp only [feed, outputFilter, hpend, Option.getD_none, List.nil_append, hcb, getCallback, readLength_hexW hl, hdrop,
    hmin, Nat.sub_self, if_true, Option.bind_some, result, hfile]

/-- An error reply to `get` in two pieces: an error in the client itself. -/
theorem C99_get_error_violated (x : Session) (hx : Ready x) (name m p q : Bytes) (hm : Short m)
    (h : p ++ q = 127 :: sendString m) (hp : p ≠ []) (hq : q ≠ []) :
    feed (start x (.get name)) [p, q] = none := by
  match p, hp with
  | c :: p, _ =>
    simp only [List.cons_append, List.cons.injEq] at h
    obtain ⟨rfl, h⟩ := h
    have hpend : (start x (.get name)).pending = none := hx.1
    have hcb : (start x (.get name)).callback = .get none := rfl
    simp only [feed, outputFilter, hpend, Option.getD_none, List.nil_append, hcb, getCallback, readStr_part hm h hq,
      Option.bind_none]

/-- The server ends when a length comes in two pieces. -/
theorem C99_split_violated {σ : Type} (F : Files σ) (s : σ) (command : Nat) (hc : command ≠ 255) (p q : Bytes)
    (rest : List Bytes) (hp : p ≠ []) (hl : p.length < 8) :
    serveOne F s ([command, 1] :: p :: q :: rest) = .exit := by
  have h1 : readChar ([command, 1] :: p :: q :: rest) = .go command ([1] :: p :: q :: rest) := rfl
  have h2 : readChar ([1] :: p :: q :: rest) = .go 1 (p :: q :: rest) := rfl
  have h3 : readExactly 8 (p :: q :: rest) = .exit := by
    match p, hp with
    | c :: p, _ =>
      unfold readExactly
      simp only [readSome, if_pos (show (c :: p).length ≤ 8 by omega)]
      simp only [List.length_cons] at hl
      simp; omega
  have h4 : readStrings 1 (p :: q :: rest) = .exit := by
    simp [readStrings, readString, readLong, h3, Next.bind]
  have e1 : ¬ (command = 255 ∨ 1 = 255) := by omega
  have e2 : ¬ (64 ≤ 1 ∧ 1 < 128) := by omega
  simp only [serveOne, h1, h2, Next.bind, if_neg e1, if_neg e2, show (1 : Nat) < 64 by decide, if_true, h4]

/-- A session that is being opened. -/
def opening : Session :=
  { status := .busy, callback := .none, pending := none, error := [], protocol := none, file := [], link := none,
    entries := [] }

/-- What the server prints first. -/
def greeting : Bytes := signature ++ [49, 2, 1]

/-- The greeting in two pieces: the client never becomes ready. -/
theorem C99_greeting_violated :
    (feed opening [greeting]).map (fun x => (x.status, x.protocol)) = some (.success, some 1) ∧
    (feed opening [greeting.take 10, greeting.drop 10]).map (fun x => (x.status, x.protocol)) = some (.busy, none) := by
  decide +kernel

/-! ### the hypotheses are met -/

/-- Files by name; `/` cannot be written or read. -/
def someFiles : Files (List (Bytes × Bytes)) where
  simple t args s := match t, args with
    | 82, [n] => (s.filter (·.1 ≠ n), none)
    | _, _ => (s, some [110, 111])
  get s n := match s.find? (·.1 = n) with
    | some (_, d) => if d.length < 100 then .ok d else .error [98, 105, 103]
    | none => .error [110, 111]
  put s n := if n = [47] then .error [110, 111] else .ok fun d => (n, d) :: s
  readlink _ _ := .error [110, 111]
  readdir s _ := .ok ((s.map Prod.fst).filter (fun n => n.length < 100))

theorem someFiles_ok : FilesOk someFiles where
  simple t args s s' e h := by
    unfold someFiles at h
    simp only at h
    split at h
    · simp at h
    · simp only [Prod.mk.injEq, Option.some.injEq] at h
      rw [← h.2]; exact ⟨by decide, by decide⟩
  get s n := by
    unfold someFiles
    simp only
    split
    · split
      · rename_i d _ hd
        refine ⟨fun d' h => ?_, fun e h => by cases h⟩
        cases h
        show d.length < 2 ^ 32
        omega
      · refine ⟨fun d h => (by cases h), fun e h => ?_⟩
        cases h; exact ⟨by decide, by decide⟩
    · refine ⟨fun d h => (by cases h), fun e h => ?_⟩
      cases h; exact ⟨by decide, by decide⟩
  link s n := ⟨fun d h => (by cases h), fun e h => by cases h; exact ⟨by decide, by decide⟩⟩
  dir s n := by
    refine ⟨fun l h d hd => ?_, fun e h => by cases h⟩
    cases h
    have := (List.mem_filter.1 hd).2
    simp only [decide_eq_true_eq] at this
    show d.length < 2 ^ 32
    omega

/-- `a` is written, read and listed, then something fails. -/
def someTurns : List Turn := [
  { cmd := .put [97] [104, 105], blocks := fun d => d.map fun b => [b],
    arrival := [[80, 1], padHex 1, [97], padHex 2, [104, 105]], chop := fun o => o.map fun b => [b] },
  { cmd := .get [97], blocks := fun d => [d], arrival := [[71, 1] ++ (padHex 1 ++ [97])],
    chop := fun o => o.map fun b => [b] },
  { cmd := .dir [], blocks := fun d => [d], arrival := [[68, 1], padHex 0], chop := fun o => o.map fun b => [b] },
  { cmd := .simple 114 [[97]], blocks := fun d => [d], arrival := [[114, 1], padHex 1 ++ [97]],
    chop := fun o => o.map fun b => [b] }]

theorem chop_bytes (o : Bytes) : Chopped o (o.map fun b => [b]) := by
  constructor
  · induction o with
    | nil => rfl
    | cons b o ih => simp [ih]
  · simp

theorem padHex_ne (n : Nat) : padHex n ≠ [] := by
  rw [padHex]
  intro h
  have := (List.append_eq_nil_iff.1 h).2
  rw [toHex] at this
  split at this <;> simp at this

theorem someTurns_possible : Possible someFiles [] someTurns := by
  refine ⟨⟨⟨by decide, by decide⟩, by decide, _, rfl⟩, fun d => (chop_bytes d).1, ?_, chop_bytes, fun h => h.elim,
    show Name [97] by decide, by simp, ?_, chop_bytes, ?_, show Name [] by decide, by simp, ?_, chop_bytes, fun h => h.elim, ⟨by decide, by decide⟩,
    by simp, ?_, chop_bytes, fun h => h.elim, trivial⟩
  · exact .alone (by decide) (.alone (padHex_ne 1) (.alone (by decide) (.alone (padHex_ne 2)
      (.together (w := [104]) (by decide) (.alone (by decide) .nil)))))
  · exact .together (by decide) (.together (padHex_ne 1) (.alone (by decide) .nil))
  · rintro ⟨e, h⟩; cases h
  · exact .alone (by decide) (.alone (padHex_ne 0) (.empty .nil))
  · exact .alone (by decide) (.together (padHex_ne 1) (.alone (by decide) .nil))

/-- A session with the protocol known. -/
def ready : Session := { opening with protocol := some 1, status := .success }

example : session someFiles [] ready someTurns =
    some ([([97], [104, 105])], [.done, .contents [104, 105], .entries [[97]], .error [110, 111]]) := by
  rw [C99_session_partial someFiles someFiles_ok someTurns [] ready ⟨rfl, rfl, rfl⟩ someTurns_possible]
  rfl

/-- Writing to `/` ends the server. -/
example : serveOne someFiles [] (writes (.put [47] [104, 105]) fun d => [d]) =
    .go ([], 127 :: sendString [110, 111]) [padHex 2, [104, 105]] ∧ serveOne someFiles [] [padHex 2, [104, 105]] = .exit :=
  C99_put_fails_violated someFiles [] [47] [104, 105] [110, 111] ⟨by decide, by decide⟩ (by decide) (by decide) rfl

/-- The first piece of an error reply. -/
example : feed (start ready (.get [97])) [[127, 48], (127 :: sendString [110, 111]).drop 2] = none := by
  have h : sendString [110, 111] = 48 :: ([48, 48, 48, 48, 48, 48, 50, 110, 111] : Bytes) := by
    rw [sendString_eq (by decide), hexW8]; rfl
  exact C99_get_error_violated ready ⟨rfl, rfl, rfl⟩ [97] [110, 111] [127, 48] _ (by decide) (by rw [h]; rfl) (by decide)
    (by rw [h]; decide)

/-- There is such a large file. -/
example : ∃ data : Bytes, 2 ^ 32 ≤ data.length ∧ data.length < 2 ^ 36 :=
  ⟨List.replicate (2 ^ 32) 0, by rw [List.length_replicate], by rw [List.length_replicate]; norm_num⟩

end Rep.Remote
