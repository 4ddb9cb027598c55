import Verif.Codec.Date
/-!
# Reading dates

Models the part of `parse-date` (lisp/rep/util/date.jl:85-223) that takes the text apart; the arithmetic is `Rep.Date` (C21).

Simplifications: `string-looking-at` with the five regular expressions is written as scanners. Their stars and options are greedy, and none of them has to
give back a character, as what may follow is never in the set that is repeated. Characters are ASCII. The date of the day and the first two digits of
the year are parameters.
-/
namespace Rep.DateText

abbrev Str := List Char

/-- `[\t ]` -/
def blank (c : Char) : Bool := c == '\t' || c == ' '

/-- `[0-9]` -/
def digit (c : Char) : Bool := 48 ≤ c.toNat && c.toNat ≤ 57

/-- `[a-z]`; sets tell upper and lower case apart also if case is ignored (src/regexp.c:1161-1165). -/
def low (c : Char) : Bool := 97 ≤ c.toNat && c.toNat ≤ 122

/-- `[A-Z]` -/
def up (c : Char) : Bool := 65 ≤ c.toNat && c.toNat ≤ 90

/-- `string->number` of digits -/
def value (ds : Str) : Int := ds.foldl (fun a c => 10 * a + (c.toNat - 48 : Int)) 0

/-- `toupper` -/
def fold (c : Char) : Char := if low c then Char.ofNat (c.toNat - 32) else c

def dayNames : List Str := ["Mon", "Tue", "Wed", "Thu", "Fri", "Sat", "Sun"].map String.toList

/-- date.jl:44-51 `date-month-alist`; the other names have more than the three letters which are looked up. -/
def monthAlist : List (Str × Int) :=
  [("Jan".toList, 1), ("Feb".toList, 2), ("Mar".toList, 3), ("Apr".toList, 4), ("May".toList, 5), ("Jun".toList, 6),
   ("Jul".toList, 7), ("Aug".toList, 8), ("Sep".toList, 9), ("Oct".toList, 10), ("Nov".toList, 11), ("Dec".toList, 12)]

/-- date.jl:53-58 `date-timezone-alist` -/
def zoneAlist : List (Str × Int) :=
  [("UT".toList, 0), ("GMT".toList, 0), ("EST".toList, -300), ("EDT".toList, -240), ("CST".toList, -360), ("CDT".toList, -300),
   ("MST".toList, -420), ("MDT".toList, -360), ("PST".toList, -480), ("PDT".toList, -420)]

/-- The variables of `parse-date`; the month is nil if its name wasn't found. -/
structure St where
  dayAbbrev : Str := []
  day : Int := -1
  monthAbbrev : Str := []
  month : Option Int := some (-1)
  year : Int := -1
  hour : Int := 0
  minute : Int := 0
  second : Int := 0
  zone : Int := 0
  deriving DecidableEq

/-- `[\t ]*([0-9]+)([\t ]+|$)`: the digits, and what follows them. -/
def matchNum (s : Str) : Option (Str × Str) :=
  let r := s.dropWhile blank
  let ds := r.takeWhile digit
  let r' := r.dropWhile digit
  if ds = [] then none
  else
    match r' with
    | [] => some (ds, [])
    | c :: t => if blank c then some (ds, c :: t) else none

/-- date.jl:103-116: a year or a day. -/
def putNum (pre : Int) (ds : Str) (st : St) : St :=
  if 0 ≤ st.day ∨ 2 < ds.length then
    if ds.length = 2 then { st with year := 100 * pre + value ds } else { st with year := value ds }
  else { st with day := value ds }

/-- `([A-Z]+|[+-][0-9]+)?` -/
def zoneText (s : Str) : Option Str × Str :=
  if s.takeWhile up ≠ [] then (some (s.takeWhile up), s.dropWhile up)
  else
    match s with
    | c :: r =>
      if (c = '+' ∨ c = '-') ∧ r.takeWhile digit ≠ [] then (some (c :: r.takeWhile digit), r.dropWhile digit) else (none, s)
    | [] => (none, s)

/-- `(:[0-9]+)?`, without the colon. -/
def secondText (s : Str) : Option Str × Str :=
  match s with
  | ':' :: r => if r.takeWhile digit ≠ [] then (some (r.takeWhile digit), r.dropWhile digit) else (none, s)
  | _ => (none, s)

/-- `[\t ]*([0-9]+):([0-9]+)(:[0-9]+)?[\t ]*([A-Z]+|[+-][0-9]+)?[\t ]*`: hour, minute, second, zone, and what follows. -/
def matchTime (s : Str) : Option (Str × Str × Option Str × Option Str × Str) :=
  let r := s.dropWhile blank
  let h := r.takeWhile digit
  if h = [] then none
  else
    match r.dropWhile digit with
    | ':' :: r =>
      if r.takeWhile digit = [] then none
      else
        let m := r.takeWhile digit
        let s := secondText (r.dropWhile digit)
        let z := zoneText (s.2.dropWhile blank)
        some (h, m, s.1, z.1, z.2.dropWhile blank)
    | _ => none

/-- date.jl:132-148: minutes to the east. -/
def zoneValue (z : Str) : Int :=
  match zoneAlist.lookup z with
  | some m => m
  | none =>
    match z with
    | c :: a :: b :: x :: y :: _ =>
      if (c = '+' ∨ c = '-') ∧ digit a ∧ digit b ∧ digit x ∧ digit y then
        (if c = '+' then 1 else -1) * (60 * value [a, b] + value [x, y])
      else 0
    | _ => 0

/-- date.jl:121-148 -/
def putTime (h m : Str) (s z : Option Str) (st : St) : St :=
  { st with
    hour := value h, minute := value m
    second := match s with
      | some s => value s
      | none => 0
    zone := zoneValue (z.getD "UT".toList) }

/-- A name of three letters in any case, and what follows. -/
def matchName (names : List Str) (s : Str) : Option (Str × Str) :=
  if names.any (fun n => n.map fold == (s.take 3).map fold) then some (s.take 3, s.drop 3) else none

/-- `[\t ]*(Mon|Tue|Wed|Thu|Fri|Sat|Sun)[a-z]*[\t ]*,?[\t ]*` -/
def matchDay (s : Str) : Option (Str × Str) :=
  match matchName dayNames (s.dropWhile blank) with
  | some (n, r) =>
    match (r.dropWhile low).dropWhile blank with
    | ',' :: r => some (n, r.dropWhile blank)
    | r => some (n, r)
  | none => none

/-- `[\t ]*(Jan|...|Dec)[a-z]*[\t ]*` -/
def matchMonth (s : Str) : Option (Str × Str) :=
  match matchName (monthAlist.map Prod.fst) (s.dropWhile blank) with
  | some (n, r) => some (n, (r.dropWhile low).dropWhile blank)
  | none => none

/-- `[\t ]*([0-9][0-9][0-9][0-9])-([0-9][0-9])-([0-9][0-9])[\t ]*` -/
def matchIso (s : Str) : Option (Str × Str × Str × Str) :=
  match s.dropWhile blank with
  | a :: b :: c :: d :: '-' :: e :: f :: '-' :: g :: h :: r =>
    if [a, b, c, d, e, f, g, h].all digit then some ([a, b, c, d], [e, f], [g, h], r.dropWhile blank) else none
  | _ => none

/-- date.jl:168-174 -/
def putIso (y m d : Str) (st : St) : St :=
  { st with
    year := value y, month := some (value m), day := value d
    monthAbbrev := ((monthAlist.find? (fun p => p.2 == value m)).map Prod.fst).getD [] }

/-- date.jl:101-178: one turn of the loop. -/
def step (pre : Int) (s : Str) (st : St) : Str × St :=
  match matchNum s with
  | some (ds, r) => (r, putNum pre ds st)
  | none =>
  match matchTime s with
  | some (h, m, sec, z, r) => (r, putTime h m sec z st)
  | none =>
  match matchDay s with
  | some (n, r) => (r, { st with dayAbbrev := n })
  | none =>
  match matchMonth s with
  | some (n, r) => (r, { st with monthAbbrev := n, month := monthAlist.lookup n })
  | none =>
  match matchIso s with
  | some (y, m, d, r) => (r, putIso y m d st)
  | none => ([], st)

/-- date.jl:100; each turn takes at least a character, so the first argument need not be more than their number. -/
def loop (pre : Int) : Nat → Str → St → St
  | 0, _, st => st
  | f + 1, s, st => if s = [] then st else let p := step pre s st; loop pre f p.1 p.2

/-- The vector that is returned. -/
structure Vec where
  dayAbbrev : Str
  day : Int
  monthAbbrev : Str
  month : Int
  year : Int
  hour : Int
  minute : Int
  second : Int
  zone : Int
  time : Int × Int
  deriving DecidableEq

/-- The day of today. -/
structure Now where
  day : Int
  month : Int
  year : Int

def weekday (n : Int) : Str := ((["Sun", "Mon", "Tue", "Wed", "Thu", "Fri", "Sat"].map String.toList)[n.toNat]?).getD []

/-- date.jl:180-223; nothing if an error is signalled, as by `(- month 2)` if the month is nil (`(< month 0)` is false then). -/
def finish (now : Now) (st : St) : Option Vec :=
  match st.month with
  | none => none
  | some m =>
    let year := if st.year < 0 then now.year else st.year
    let month := if m < 0 then now.month else m
    let day := if st.day < 0 then now.day else st.day
    let t := Rep.Date.epochTime year month day st.hour st.minute st.second st.zone
    let ab := if st.dayAbbrev = [] then weekday (Rep.Date.dayOfWeek t.1) else st.dayAbbrev
    some ⟨ab, day, st.monthAbbrev, month, year, st.hour, st.minute, st.second, st.zone, t⟩

/-- `parse-date` -/
def parseDate (pre : Int) (now : Now) (s : Str) : Option Vec := finish now (loop pre s.length s {})

end Rep.DateText
