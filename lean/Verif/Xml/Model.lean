/-
The XML reader and printer (lisp/rep/xml/reader.jl, lisp/rep/xml/printer.jl).

A stream to read from is the list of its characters from `(current stream)` on: `next` drops the first (at the end there is
none).  Symbols are their names.  Simplified: `string-replace` with the two patterns used here is written as the scan that it
does (what a match is: C52; what `string-replace` does with matches: C54); interrupts and the limit on the depth of recursion
are left out.
-/

namespace Rep.Xml

/-- `(TAG PARAMS BODY-ITEMS...)`, a string, or `(! STRING)` (reader.jl:30-42). -/
inductive Item
  | text (s : List Char)
  | elem (tag : List Char) (params : List (List Char × List Char)) (body : List Item)
  | bang (s : List Char)
  deriving Repr

/-! ### The printer -/

/-- `substitute-entities` (printer.jl:36): every match of one character. -/
def escape : List Char → List Char
  | [] => []
  | c :: s =>
    (if c = '<' then "&lt;".toList
      else if c = '&' then "&amp;".toList
      else if c = '\'' then "&apos;".toList
      else if c = '"' then "&quot;".toList
      else [c]) ++ escape s

/-- `print-params` (printer.jl:46) -/
def printParams : List (List Char × List Char) → List Char
  | [] => []
  | (n, v) :: ps => [' '] ++ n ++ ['=', '"'] ++ escape v ++ ['"'] ++ printParams ps

/-- `(string-match "^\\?" ...)` (printer.jl:62) -/
def question : List Char → Bool
  | '?' :: _ => true
  | _ => false

mutual

/-- `print-xml-item` (printer.jl:52) to a string stream.  For `(! STRING)` the second element of the stream is printed, which is
`()` (`nth`, src/lispcmds.c:454). -/
def print : Item → List Char
  | .text s => escape s
  | .bang _ => "<!()>".toList
  | .elem tag params body =>
    ['<'] ++ tag ++ printParams params ++
      if question tag then "?>".toList
      else if body.isEmpty then "/>".toList
      else ['>'] ++ printAll body ++ "</".toList ++ tag ++ ['>']

/-- The `mapc` (printer.jl:68). -/
def printAll : List Item → List Char
  | [] => []
  | i :: is => print i ++ printAll is

end

/-! ### The reader -/

/-- `token-endings` (reader.jl:51) -/
def tokenEnd (c : Char) : Bool := c == ' ' || c == '\n' || c == '\t' || c == '>' || c == '=' || c == '/'

/-- `whitespace-chars` (reader.jl:52) -/
def white (c : Char) : Bool := c == ' ' || c == '\n' || c == '\t' || c == '\r'

/-- `space-char-p` (src/misc.c) in the C locale -/
def space (c : Char) : Bool := white c || c == '\x0b' || c == '\x0c'

/-- `eat-whitespace` (reader.jl:64) -/
def eatWhite : List Char → List Char
  | [] => []
  | c :: s => if white c then eatWhite s else c :: s

/-- `read-string-item` (reader.jl:68) -/
def readString (endings : Char → Bool) : List Char → List Char × List Char
  | [] => ([], [])
  | c :: s => if endings c then ([], c :: s) else let r := readString endings s; (c :: r.1, r.2)

/-- The names of entities and what they stand for (reader.jl:79-91). -/
def entities : List (List Char × List Char) :=
  [("lt", "<"), ("gt", ">"), ("Auml", "Ä"), ("auml", "ä"), ("Uuml", "Ü"), ("uuml", "ü"), ("Ouml", "Ö"), ("ouml", "ö"),
    ("szlig", "ß"), ("amp", "&"), ("apos", "'"), ("quot", "\"")].map fun p => (p.1.toList, p.2.toList)

/-- What follows a prefix. -/
def after : List Char → List Char → Option (List Char)
  | [], s => some s
  | _ :: _, [] => none
  | a :: p, b :: s => if a = b then after p s else none

/-- The entity after `&`, with its `;`: what it stands for, and the rest. -/
def entity (s : List Char) : List (List Char × List Char) → Option (List Char × List Char)
  | [] => none
  | (n, v) :: es =>
    match after (n ++ [';']) s with
    | some rest => some (v, rest)
    | none => entity s es

theorem after_length {p s r : List Char} (h : after p s = some r) : r.length ≤ s.length := by
  induction p generalizing s with
  | nil => simp [after] at h; rw [h]; exact Nat.le_refl _
  | cons a p ih =>
    cases s with
    | nil => simp [after] at h
    | cons b s =>
      simp only [after] at h
      split at h
      · have := ih h; simp; omega
      · exact nomatch h

theorem entity_length {s v r : List Char} {es : List (List Char × List Char)} (h : entity s es = some (v, r)) : r.length ≤ s.length := by
  induction es with
  | nil => simp [entity] at h
  | cons e es ih =>
    obtain ⟨n, w⟩ := e
    simp only [entity] at h
    split at h
    · cases h; exact after_length (by assumption)
    · exact ih h

/-- `substitute-entities` (reader.jl:75) -/
def unescape : List Char → List Char
  | [] => []
  | c :: s =>
    if c = '&' then
      match h : entity s entities with
      | some (v, rest) =>
        have : rest.length < (c :: s).length := by have := entity_length h; simp; omega
        v ++ unescape rest
      | none => c :: unescape s
    else c :: unescape s
  termination_by s => s.length

/-- How reading ends: with a value, an error, or `(throw CATCHER NAME)` at an end tag. -/
inductive Out (α : Type)
  | val (a : α) (rest : List Char)
  | error
  | ended (name : List Char) (rest : List Char)
  deriving Repr

/-- `read-token` (reader.jl:95) -/
def readToken (s : List Char) : List Char × List Char := readString tokenEnd (eatWhite s)

/-- `read-quoted-token` (reader.jl:102) -/
def readQuoted : List Char → List Char × List Char
  | [] => ([], [])
  | c :: s =>
    if space c then ([], c :: s)
    else if c = '"' ∨ c = '\'' then
      let r := readString (· == c) s
      (unescape r.1, r.2.tail)
    else readString tokenEnd (c :: s)

/-- `read-param-list` (reader.jl:112); a fuel that is used up is `none`. -/
def readParams : Nat → List Char → List (List Char × List Char) → Option (Option (List (List Char × List Char) × List Char))
  | 0, _, _ => none
  | fuel + 1, s, params =>
    match eatWhite s with
    | c :: s =>
      if c = '?' ∨ c = '/' ∨ c = '>' then some (some (params.reverse, c :: s))
      else
        let t := readToken (c :: s)
        match eatWhite t.2 with
        | '=' :: s =>
          let v := readQuoted (eatWhite s)
          readParams fuel v.2 ((t.1, v.1) :: params)
        | _ => some none
    | [] => some none

/-- `read-question-body` (reader.jl:127) -/
def readQuestion (fuel : Nat) (s : List Char) : Option (Out (Option Item)) :=
  let t := readToken s
  match readParams fuel t.2 [] with
  | none => none
  | some none => some .error
  | some (some (ps, s)) =>
    match s.tail with
    | '>' :: s => some (.val (some (.elem ('?' :: t.1) ps [])) s)
    | _ => some .error

/-- `read-exclam-body` (reader.jl:135) -/
def readExclam (s : List Char) : Out (Option Item) :=
  let r := readString (· == '>') s
  match r.2 with
  | '>' :: s => .val (some (.bang (unescape r.1))) s
  | _ => .error

mutual

/-- `read-xml-item` (reader.jl:162); the value is nil at the end of the stream. -/
def readItem : Nat → List Char → Option (Out (Option Item))
  | 0, _ => none
  | _ + 1, [] => some (.val none [])
  | fuel + 1, c :: s =>
    if c = '<' then
      match s with
      | '/' :: s =>
        let t := readToken (eatWhite s)
        match eatWhite t.2 with
        | '>' :: s => some (.ended t.1 s)
        | _ => some .error
      | '?' :: s => readQuestion fuel s
      | '!' :: s => some (readExclam s)
      | s => readTag fuel s
    else
      let r := readString (· == '<') (c :: s)
      some (.val (some (.text (unescape r.1))) r.2)

/-- `read-tag-body` (reader.jl:142) -/
def readTag : Nat → List Char → Option (Out (Option Item))
  | 0, _ => none
  | fuel + 1, s =>
    let t := readToken s
    match readParams fuel t.2 [] with
    | none => none
    | some none => some .error
    | some (some (ps, s)) =>
      match s with
      | '/' :: s =>
        match s with
        | '>' :: s => some (.val (some (.elem t.1 ps [])) s)
        | _ => some .error
      | '>' :: s =>
        match readBody fuel s [] with
        | none => none
        | some none => some .error
        | some (some (name, is, s)) => if name = t.1 then some (.val (some (.elem t.1 ps is)) s) else some .error
      | _ => some .error

/-- The loop around `read-xml-item` (reader.jl:152-158): the name in the end tag, the items and the rest.  At the end of the
stream the loop ends with nil, which is the name of no tag. -/
def readBody : Nat → List Char → List Item → Option (Option (List Char × List Item × List Char))
  | 0, _, _ => none
  | _ + 1, [], _ => some none
  | fuel + 1, c :: s, items =>
    match readItem fuel (c :: s) with
    | none => none
    | some .error => some none
    | some (.ended name s) => some (some (name, items.reverse, s))
    | some (.val none _) => some none
    | some (.val (some i) s) => readBody fuel s (i :: items)

end

/-- `(read-xml-item (make-xml-input STREAM))` (reader.jl:54). -/
def read (s : List Char) : Option (Out (Option Item)) := readItem (4 * s.length + 4) s

end Rep.Xml
