import Verif.Spec.Justified
import Verif.Spec.Formula

/-!
# Matchers made of any expressions

The conditions of a matcher may be any expressions that govaluate reads: comparisons of numbers, arithmetic, `in`,
negation, attributes of attributes (`r.sub.Age`), nested calls.  Nothing is said here about what they mean; that is
left to govaluate.
-/

namespace Fastac

mutual
/-- The ways in which an operand can be true: each is a list of conditions (their texts), in the order in which they are
written. -/
def Operand.ways : Operand → List (List Str)
  | .atom ts => [[tokensToExpr ts]]
  | .paren f => Operand.anyWays f
def Operand.allWays : List Operand → List (List Str)
  | [] => [[]]
  | u :: us => u.ways.flatMap (fun p => (Operand.allWays us).map (p ++ ·))
def Operand.anyWays : List (List Operand) → List (List Str)
  | [] => []
  | c :: cs => Operand.allWays c ++ Operand.anyWays cs
end

/-- The ways in which a formula can be true. -/
def Formula.ways (f : Formula) : List (List Str) := Operand.anyWays f

/-- The conditions of a formula. -/
def Formula.conditions (f : Formula) : List Str := f.ways.flatten

/-- The formula is true of a rule, if `O` is what the conditions come to: all conditions of some way are true. -/
def Formula.TrueOf (O : Str → Rule → EvalRes) (f : Formula) (r : Rule) : Prop :=
  ∃ way ∈ f.ways, ∀ e ∈ way, O e r = .bool true

/-- In how many ways the formula is true. -/
def Formula.times (O : Str → Rule → EvalRes) (f : Formula) (r : Rule) : Nat :=
  f.ways.countP (fun way => decide (∀ e ∈ way, O e r = .bool true))

/-- The condition mentions the attribute `y` of the policy `pk`. -/
def Mentions (pk e y : Str) : Prop := qual pk y ∈ words e

/-- The index puts the two rules together for this condition: they agree on the attributes of the policy that
the condition mentions, and if it mentions none they are the same rule. -/
def Alongside (pk : Str) (pArgs : List Str) (e : Str) (r r' : Rule) : Prop :=
  (∃ y ∈ pArgs, Mentions pk e y) ∧ (∀ y ∈ pArgs, Mentions pk e y → attr pArgs r y = attr pArgs r' y) ∨ r = r'

/-- What is left in the index when rules are removed, as `LeftOver`: `ways` are the ways through the matcher, `H` are the
rules seen, `rules` those stored. -/
def LeftBehind (pk : Str) (pArgs : List Str) (O : Str → Rule → EvalRes) (H : Rule → Prop) (rules : List Rule)
    (ways : List (List Str)) : Prop :=
  ((∀ r, ¬ H r) ∧ ∃ way ∈ ways, ∀ e ∈ way, O e (List.replicate pArgs.length []) = .bool true) ∨
  ∃ way last, way ++ [last] ∈ ways ∧ ∃ seen, H seen ∧ (∀ e ∈ way, O e seen = .bool true) ∧
    O last (List.replicate pArgs.length []) = .bool true ∧ ∀ r ∈ rules, ¬ ∀ e ∈ way, Alongside pk pArgs e seen r

/-- The names of attributes that a condition mentions can be read off its text: an identifier that looks like an
attribute of a policy is one of the policy `pk`, and no identifier contains such a name strictly inside. -/
structure Legible (pk : Str) (pArgs : List Str) (e : Str) : Prop where
  known : ∀ w ∈ words e, IsPolicyRef w → ∃ y ∈ pArgs, w = qual pk y
  inner : ∀ w ∈ words e, ∀ u v, w = u ++ v → IsPolicyRef v → u = []

/-- The attributes of the rule and of the request, under the names by which conditions refer to them. -/
def attributes (rk pk : Str) (rArgs pArgs rvals : List Str) : Rule → Str → Option Str := fun r w =>
  match pArgs.find? (fun y => qual pk y = w) with
  | some y => attr pArgs r y
  | none => requestPar rk rArgs rvals r w

namespace FnModel

/-- What a condition comes to: govaluate's answer, given the functions that the model has now and the attributes of
the request and of the rule.  A condition that cannot be compiled is an error. -/
def comesTo (s : FnModel) (gov : Gov) (rk pk : Str) (rArgs pArgs rvals : List Str) (e : Str) (r : Rule) : EvalRes :=
  if (gov s.functions (attributes rk pk rArgs pArgs rvals)).compiles e then
    (gov s.functions (attributes rk pk rArgs pArgs rvals)).eval e r
  else .err

/-- `O` says what the condition `e` comes to: either `e` does not call `eval`, and it comes to what govaluate answers;
or it is an atom as in `Atom.ReadsNow`, possibly with `eval`, and comes to the outcome of the atom. -/
def Explains (s : FnModel) (gov : Gov) (rk pk : Str) (rArgs pArgs rvals : List Str) (P : Rule → Prop)
    (O : Str → Rule → EvalRes) (e : Str) : Prop :=
  (PlainText e ∧ Legible pk pArgs e ∧ s% "eval" ∉ words e ∧ ∀ r, O e r = s.comesTo gov rk pk rArgs pArgs rvals e r) ∨
  ∃ a : Atom, a.ReadsNow s pk rArgs pArgs rvals P ∧ (∃ ts, a.operand rk pk = .atom ts ∧ e = tokensToExpr ts) ∧
    ∀ r, O e r = a.outcome (Ref.val rArgs pArgs rvals r) (s.answers gov rk rArgs rvals)

end FnModel

end Fastac
