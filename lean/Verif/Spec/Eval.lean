import Verif.Model.Eval
import Verif.Spec.Condition

/-!
# Conditions stored in rules

A rule may hold a condition as text, which the matcher evaluates with `eval(p.rule)`.  Here is what such a text
means: what govaluate makes of it, given the request and the functions of the model, and nothing else.
-/

namespace Fastac

/-- A text without escaped names: ASCII, and no `[` or `\`. -/
def PlainText (e : Str) : Prop := ∀ c ∈ e, c.toNat < 128 ∧ c ≠ '[' ∧ c ≠ '\\'

instance (e : Str) : Decidable (PlainText e) := by unfold PlainText; infer_instance

/-- What is expected of govaluate beside `Gov.Ok`: the value of a plain text depends only on those functions and
parameters whose names are written in it, and whether it compiles only on the functions. -/
def Gov.Scoped (gov : Gov) : Prop :=
  ∀ (fns fns' : Str → Option Fn) (par par' : Rule → Str → Option Str) (e : Str), PlainText e →
    (∀ w ∈ words e, fns w = fns' w) →
    (gov fns par).compiles e = (gov fns' par').compiles e ∧
    ∀ r r', (∀ w ∈ words e, par r w = par' r' w) → (gov fns par).eval e r = (gov fns' par').eval e r'

/-- The attributes of the request, and nothing else. -/
def requestPar (rk : Str) (rArgs rvals : List Str) : Rule → Str → Option Str := fun _ w =>
  (rArgs.find? (fun x => qual rk x = w)).bind (attr rArgs rvals)

/-- The condition is true of the request. -/
def ConditionHolds (gov : Gov) (fns : Str → Option Fn) (rk : Str) (rArgs rvals : List Str) (text : Str) : Prop :=
  (gov fns (requestPar rk rArgs rvals)).eval (replaceArgs text) [] = .bool true

/-- A condition that is about the request only, does not call `eval`, compiles, and is true or false of the
request. -/
structure GoodCondition (gov : Gov) (fns : Str → Option Fn) (rk pk : Str) (rArgs pArgs rvals : List Str)
    (text : Str) : Prop where
  plain : PlainText (replaceArgs text)
  noEval : s% "eval" ∉ words (replaceArgs text)
  noPolicy : ∀ y ∈ pArgs, qual pk y ∉ words (replaceArgs text)
  compiles : (gov fns (requestPar rk rArgs rvals)).compiles (replaceArgs text) = true
  runs : ∃ b, (gov fns (requestPar rk rArgs rvals)).eval (replaceArgs text) [] = .bool b

namespace Model

/-- Whether a function is true of its arguments: `eval` of a condition if this is true of the request, other
functions as in `Says`. -/
def SaysEval (m : Model) (base : Str → Option Fn) (gov : Gov) (rk : Str) (rArgs rvals : List Str) (f : Str)
    (vs : List Str) : Prop :=
  if f = s% "eval" then ∃ text, vs = [text] ∧ ConditionHolds gov (m.functions base) rk rArgs rvals text
  else m.Says base f vs

end Model

/-- As `Atom.Fits`, where `eval` is called with one attribute, which is a good condition in all rules with the
property `P`. -/
def Atom.FitsEval (m : Model) (base : Str → Option Fn) (gov : Gov) (rk pk : Str) (rArgs pArgs rvals : List Str)
    (P : Rule → Prop) (a : Atom) : Prop :=
  a.Uses rArgs pArgs ∧ ∀ f args, a = .call f args →
    if f = s% "eval" then ∃ x, args = [x] ∧ ∀ r, P r → r.length = pArgs.length → ∀ text,
      x.val rArgs pArgs rvals r = some text →
        GoodCondition gov (m.functions base) rk pk rArgs pArgs rvals text
    else m.Callable base rArgs pArgs rvals P f args

end Fastac
