/-
Internal definitions: programs with definitions at the start of bodies, and what
they stand for: `(define X E)` at the start of a body binds X as `letrec` does.
-/
import Verif.Forms.Spec
import Verif.Define.Model

namespace Rep.Define
open Rep.Forms

/-- What is defined: `X`, or `(HEAD PARAMETERS...)`, which is a function of the
parameters; the head of that may itself be such a list. -/
inductive Head
  | name (x : String)
  | app (h : Head) (ps : List String)

mutual
/-- Programs. -/
inductive ISrc
  | int (n : Int)
  | empty
  | quote (d : Sexp)
  | var (x : String)
  /-- with documentation strings (constants) before the body -/
  | lambda (ps : List String) (doc : List Int) (body : Body)
  | call (f : ISrc) (args : List ISrc)
  | setq (x : String) (e : ISrc)
  | progn (es : List ISrc)
  | cond (cls : List IClause)
  | «let» (bs : List IBinding) (body : Body)
  | letStar (bs : List IBinding) (body : Body)
  | letrec (bs : List IBinding) (body : Body)
  | named (f : String) (bs : List IBinding) (body : Body)
  | «if» (c t : ISrc) (els : List ISrc)
  | case (key : ISrc) (cls : List ICase)
  | when (c : ISrc) (body : List ISrc)
  | unless (c : ISrc) (body : List ISrc)
  | or (es : List ISrc)
  | and (es : List ISrc)
/-- Definitions, then forms. -/
inductive Body
  | mk (defs : List Def) (es : List ISrc)
/-- `(define X FORM)` or `(define (HEAD PARAMETERS...) STRINGS... BODY...)` -/
inductive Def
  | var (x : String) (e : ISrc)
  | fn (h : Head) (ps : List String) (doc : List Int) (body : Body)
inductive IBinding
  | plain (x : String)
  | forms (x : String) (es : List ISrc)
inductive IClause
  | mk (c : ISrc) (es : List ISrc)
inductive ICase
  | items (is : List Sexp) (es : List ISrc)
  | otherwise (es : List ISrc)
end

/-! ### Text -/

def Head.text : Head → Sexp
  | .name x => nm x
  | .app h ps => .cons h.text (names ps)

/-- Constants, before other forms. -/
def docText (doc : List Int) (rest : Sexp) : Sexp :=
  doc.foldr (fun n s => .cons (.int n) s) rest

mutual
/-- The program as list structure, as the reader gives it. -/
def ISrc.text : ISrc → Sexp
  | .int n => .int n
  | .empty => .nil
  | .quote d => form "quote" (.cons d .nil)
  | .var x => nm x
  | .lambda ps doc body => form "lambda" (.cons (names ps) (docText doc body.text))
  | .call f args => .cons f.text (itextL args)
  | .setq x e => form "setq" (.cons (nm x) (.cons e.text .nil))
  | .progn es => form "progn" (itextL es)
  | .cond cls => form "cond" (itextC cls)
  | .let bs body => form "let" (.cons (itextB bs) body.text)
  | .letStar bs body => form "let*" (.cons (itextB bs) body.text)
  | .letrec bs body => form "letrec" (.cons (itextB bs) body.text)
  | .named f bs body => form "let" (.cons (nm f) (.cons (itextB bs) body.text))
  | .if c t els => form "if" (.cons c.text (.cons t.text (itextL els)))
  | .case key cls => form "case" (.cons key.text (itextK cls))
  | .when c body => form "when" (.cons c.text (itextL body))
  | .unless c body => form "unless" (.cons c.text (itextL body))
  | .or es => form "or" (itextL es)
  | .and es => form "and" (itextL es)
def Body.text : Body → Sexp
  | .mk defs es => itextD defs (itextL es)
def Def.text : Def → Sexp
  | .var x e => form "define" (.cons (nm x) (.cons e.text .nil))
  | .fn h ps doc body =>
    form "define" (.cons (.cons h.text (names ps)) (docText doc body.text))
def itextD : List Def → Sexp → Sexp
  | [], rest => rest
  | d :: ds, rest => .cons d.text (itextD ds rest)
def itextL : List ISrc → Sexp
  | [] => .nil
  | e :: es => .cons e.text (itextL es)
def IBinding.text : IBinding → Sexp
  | .plain x => nm x
  | .forms x es => .cons (nm x) (itextL es)
def itextB : List IBinding → Sexp
  | [] => .nil
  | b :: bs => .cons b.text (itextB bs)
def IClause.text : IClause → Sexp
  | .mk c es => .cons c.text (itextL es)
def itextC : List IClause → Sexp
  | [] => .nil
  | c :: cs => .cons c.text (itextC cs)
def ICase.text : ICase → Sexp
  | .items is es => .cons (.ofList is) (itextL es)
  | .otherwise es => .cons (nm "t") (itextL es)
def itextK : List ICase → Sexp
  | [] => .nil
  | c :: cs => .cons c.text (itextK cs)
end

/-! ### The program without internal definitions -/

/-- The name that is defined. -/
def Head.var : Head → String
  | .name x => x
  | .app h _ => h.var

/-- `(define ((f a) b) ...)` defines `f` as the function of `a` whose value is the
function of `b`. -/
def Head.curry : Head → Src → Src
  | .name _, e => e
  | .app h ps, e => h.curry (.lambda ps [e])

mutual
/-- The same program, with `letrec` in place of internal definitions.  Everything
else is left as it is. -/
def ISrc.plain : ISrc → Src
  | .int n => .int n
  | .empty => .empty
  | .quote d => .quote d
  | .var x => .var x
  | .lambda ps doc body => .lambda ps (doc.map .int ++ body.plain)
  | .call f args => .call f.plain (plainL args)
  | .setq x e => .setq x e.plain
  | .progn es => .progn (plainL es)
  | .cond cls => .cond (plainC cls)
  | .let bs body => .let (plainB bs) body.plain
  | .letStar bs body => .letStar (plainB bs) body.plain
  | .letrec bs body => .letrec (plainB bs) body.plain
  | .named f bs body => .named f (plainB bs) body.plain
  | .if c t els => .if c.plain t.plain (plainL els)
  | .case key cls => .case key.plain (plainK cls)
  | .when c body => .when c.plain (plainL body)
  | .unless c body => .unless c.plain (plainL body)
  | .or es => .or (plainL es)
  | .and es => .and (plainL es)
def Body.plain : Body → List Src
  | .mk [] es => plainL es
  | .mk (d :: ds) es => [.letrec (d.plain :: plainD ds) (plainL es)]
def Def.plain : Def → Binding
  | .var x e => .forms x [e.plain]
  | .fn h ps doc body => .forms h.var [h.curry (.lambda ps (doc.map .int ++ body.plain))]
def plainD : List Def → List Binding
  | [] => []
  | d :: ds => d.plain :: plainD ds
def plainL : List ISrc → List Src
  | [] => []
  | e :: es => e.plain :: plainL es
def IBinding.plain' : IBinding → Binding
  | .plain x => .plain x
  | .forms x es => .forms x (plainL es)
def plainB : List IBinding → List Binding
  | [] => []
  | b :: bs => b.plain' :: plainB bs
def IClause.plain : IClause → Clause
  | .mk c es => .mk c.plain (plainL es)
def plainC : List IClause → List Clause
  | [] => []
  | c :: cs => c.plain :: plainC cs
def ICase.plain : ICase → CaseClause
  | .items is es => .items is (plainL es)
  | .otherwise es => .otherwise (plainL es)
def plainK : List ICase → List CaseClause
  | [] => []
  | c :: cs => c.plain :: plainK cs
end

/-! ### Which programs

`P.plain.ok` (Verif/Forms): programs bind and assign only names of their own.
In addition:
- the body of a function that has documentation strings is not empty, and does
  not begin with a further string;
- `define`, `interactive` and the other words the scanner treats specially are not used as
  variables or functions.
-/

/-- Words with a meaning for the scanner only. -/
def words : List String :=
  ["define", "interactive", "let-fluids", "condition-case", "catch", "unwind-protect",
   "structure-ref", "structure", "define-structure", "declare", "defvar",
   "#!optional", "#!key", "#!rest", "&optional", "&rest"]

/-- Not one of them. -/
def plainName (x : String) : Bool := decide (x ∉ words)

/-- Is the form a string? -/
def ISrc.isStr (str : Int → Bool) : ISrc → Bool
  | .int n => str n
  | _ => false

/-- The body can follow the documentation strings. -/
def docOk (str : Int → Bool) (doc : List Int) : Body → Bool
  | .mk [] [] => doc.isEmpty
  | .mk [] (e :: _) => doc.all str && !e.isStr str
  | .mk (_ :: _) _ => doc.all str

def Head.ok : Head → Bool
  | .name x => plainName x
  | .app h ps => h.ok && ps.all plainName

mutual
def ISrc.ok (str : Int → Bool) : ISrc → Bool
  | .int _ | .empty | .quote _ => true
  | .var x => plainName x
  | .lambda ps doc body => ps.all plainName && docOk str doc body && body.ok str
  | .call f args => f.ok str && iokL str args
  | .setq x e => plainName x && e.ok str
  | .progn es => iokL str es
  | .cond cls => iokC str cls
  | .let bs body => iokB str bs && body.ok str
  | .letStar bs body => iokB str bs && body.ok str
  | .letrec bs body => iokB str bs && body.ok str
  | .named f bs body => plainName f && iokB str bs && docOk str [] body && body.ok str
  | .if c t els => c.ok str && t.ok str && iokL str els
  | .case key cls => key.ok str && iokK str cls
  | .when c body => c.ok str && iokL str body
  | .unless c body => c.ok str && iokL str body
  | .or es => iokL str es
  | .and es => iokL str es
def Body.ok (str : Int → Bool) : Body → Bool
  | .mk defs es => iokD str defs && iokL str es
def Def.ok (str : Int → Bool) : Def → Bool
  | .var x e => plainName x && e.ok str
  | .fn h ps doc body => h.ok && ps.all plainName && docOk str doc body && body.ok str
def iokD (str : Int → Bool) : List Def → Bool
  | [] => true
  | d :: ds => d.ok str && iokD str ds
def iokL (str : Int → Bool) : List ISrc → Bool
  | [] => true
  | e :: es => e.ok str && iokL str es
def IBinding.ok (str : Int → Bool) : IBinding → Bool
  | .plain x => plainName x
  | .forms x es => plainName x && iokL str es
def iokB (str : Int → Bool) : List IBinding → Bool
  | [] => true
  | b :: bs => b.ok str && iokB str bs
def IClause.ok (str : Int → Bool) : IClause → Bool
  | .mk c es => c.ok str && iokL str es
def iokC (str : Int → Bool) : List IClause → Bool
  | [] => true
  | c :: cs => c.ok str && iokC str cs
def ICase.ok (str : Int → Bool) : ICase → Bool
  | .items _ es => iokL str es
  | .otherwise es => iokL str es
def iokK (str : Int → Bool) : List ICase → Bool
  | [] => true
  | c :: cs => c.ok str && iokK str cs
end

end Rep.Define
