import Verif.Spec.Condition
import Verif.Spec.Seen

/-!
# Requests and rules with the wrong number of values
-/

namespace Fastac

/-- What is left of too many values: the first is taken for the key, what exceeds `n` more is not looked at. -/
def shifted {α : Type} (n : Nat) (vals : List α) : List α := (vals.drop 1).take n

/-- What is expected of govaluate: it sees the rule only through the parameters. -/
def Gov.ByParams (gov : Gov) : Prop := ∀ (fns : Str → Option Fn) (par : Rule → Str → Option Str) (e : Str) (r r' : Rule),
  (∀ w, par r w = par r' w) → (gov fns par).eval e r = (gov fns par).eval e r'

/-- The request has no value for an attribute that the atom mentions. -/
def Atom.Lacks (rArgs rvals : List Str) (a : Atom) : Prop := ∃ x, Ref.req x ∈ a.refs ∧ attr rArgs rvals x = none

/-- Each way in which the condition can be true has an atom that mentions an attribute without value. -/
def Cond.Starved (rArgs rvals : List Str) (f : List (List Cond)) : Prop :=
  ∀ w ∈ Cond.anyWays f, ∃ a ∈ w, a.Lacks rArgs rvals

end Fastac
