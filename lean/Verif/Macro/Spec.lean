/-
What `macroexpand` should return.
-/
import Verif.Macro.Model

namespace Rep.Macro.Spec

open Rep.Macro

/-- The manual: "If FORM is a macro call, expand it until it isn't", where `ex F WHOLE FORM` is what the function F makes of FORM. -/
inductive Expands (w : World) (env : Env) (ex : Nat → Bool → Obj → Obj) : Obj → Obj → Prop where
  | same {o} : macroexpand1 w o env = .same → Expands w env ex o o
  | itself {o f b} : macroexpand1 w o env = .call f b → ex f b o = o → Expands w env ex o o
  | more {o p f b} : macroexpand1 w o env = .call f b → ex f b o ≠ o → Expands w env ex (ex f b o) p → Expands w env ex o p

/-- A form is a macro call: its head is a macro, or a symbol whose value is one. -/
def MacroCall (w : World) (o : Obj) : Prop :=
  ∃ f, w.isFn f = true ∧ (w.car o = some (.mac f) ∨ ∃ s, w.car o = some (.sym s) ∧ w.value w.current s = .mac f)

/-- The events in which the definitions do not change, `macroexpand` is called with one environment, and expanders that return give what `ex` says. -/
def Steady (env : Env) (ex : Nat → Bool → Obj → Obj) : St → List Event → Prop
  | _, [] => True
  | st, e :: es =>
    (match e with
     | .change _ => False
     | .call _ env' => env' = env
     | .result (some r) => ∀ fr fs o f b, st.stack = fr :: fs → st.obj fr.pred = some o → macroexpand1 st.world o fr.env = .call f b → st.obj r = some (ex f b o)
     | _ => True) ∧
    match step st e with
    | some (st', _) => Steady env ex st' es
    | none => True

end Rep.Macro.Spec
