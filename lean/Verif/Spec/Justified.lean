import Verif.Spec.Seen
import Verif.Spec.AnyManager

/-!
# Conditions that fail

A condition need not be true or false of a rule: a function may return an error or something else than a truth value, it
may panic, the request may lack a value, and a text given to `eval` may not compile.  Here is what a condition
comes to, whatever it is.
-/

namespace Fastac

/-- What an atom comes to: `val` gives the attributes, `fn f vs` is what the function `f` answers.  A missing value
is an error. -/
def Atom.outcome (val : Ref → Option Str) (fn : Str → List Str → EvalRes) : Atom → EvalRes
  | .eq a b =>
    match val a, val b with
    | some v, some w => .bool (v == w)
    | _, _ => .err
  | .call f args =>
    match args.mapM val with
    | some vs => fn f vs
    | none => .err

namespace FnModel

/-- What a function answers now.  `eval` of a text that does not compile is an error. -/
def answers (s : FnModel) (gov : Gov) (rk : Str) (rArgs rvals : List Str) (f : Str) (vs : List Str) : EvalRes :=
  if f = s% "eval" then
    match vs with
    | [text] =>
      if (gov s.functions (requestPar rk rArgs rvals)).compiles (replaceArgs text) then
        (gov s.functions (requestPar rk rArgs rvals)).eval (replaceArgs text) []
      else .err
    | _ => .err
  else
    match s.functions f with
    | some fn => fn vs
    | none => .err

end FnModel

/-- The atom uses attributes and functions that exist now; `eval` is called with one attribute, and the text is about
the request only and does not call `eval`, in rules with the property `P`.  Nothing is said about what the functions
answer. -/
def Atom.ReadsNow (s : FnModel) (pk : Str) (rArgs pArgs rvals : List Str) (P : Rule → Prop) (a : Atom) : Prop :=
  a.Uses rArgs pArgs ∧ ∀ f args, a = .call f args →
    if f = s% "eval" then ∃ x, args = [x] ∧ ∀ r, P r → r.length = pArgs.length → ∀ text,
      x.val rArgs pArgs rvals r = some text →
        PlainText (replaceArgs text) ∧ s% "eval" ∉ words (replaceArgs text) ∧
          ∀ y ∈ pArgs, qual pk y ∉ words (replaceArgs text)
    else ∃ fn, s.functions f = some fn

end Fastac
