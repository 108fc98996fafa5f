import Verif.Model.Policy
import Verif.Model.Enforce
import Verif.Spec.Matching
import Verif.Spec.Effects

/-!
# Histories of a policy with a matcher, and the decision of a plain scan
-/

namespace Fastac

/-- The operation only mentions rules of the right length without commas in their fields. -/
def PolOp.Good (pDef : PolicyDef) : PolOp → Prop
  | .add r => GoodRule pDef r
  | .remove r => GoodRule pDef r
  | .clear => True

instance (pDef : PolicyDef) (op : PolOp) : Decidable (op.Good pDef) := by
  cases op <;> unfold PolOp.Good <;> infer_instance

/-- The states a policy and a matcher for it can reach: the matcher is created at some point in the
life of the policy, reading the rules present in any order, and then follows further changes. -/
inductive Live (pDef : PolicyDef) (root : Stage) : PolicyWithMatcher → Prop
  | create (before : List PolOp) (hgood : ∀ op ∈ before, op.Good pDef)
      (order : List Rule) (horder : order.Perm (Policy.empty.run before).rules)
      (m : Matcher) (hm : newMatcher pDef root order = .ok m) :
      Live pDef root ⟨Policy.empty.run before, m⟩
  | change (s s' : PolicyWithMatcher) (h : Live pDef root s) (op : PolOp) (hgood : op.Good pDef)
      (hs : s.step op = .ok s') : Live pDef root s'

/-- The decision for an effect expression given the effects of the matching rules, in no particular
order. -/
def decision (expr : Str) (effects : List Effect) : Bool :=
  if expr = SOME_ALLOW then effects.contains .allow
  else if expr = NO_DENY then !effects.contains .deny
  else if expr = SOME_ALLOW_NO_DENY then effects.contains .allow && !effects.contains .deny
  else false

/-- Evaluate the whole matcher on every stored rule and decide on the effects of those that satisfy
it.  No index. -/
def scan (pDef : PolicyDef) (root : Stage) (E : Evaluator) (expr : Str) (rules : List Rule) : Bool :=
  decision expr ((rules.filter (fun r => Stage.satAny E r root.children)).map
    (fun r => pDef.getEft (pDef.key :: r)))

/-- No expression of the matcher fails to compile or to evaluate, on any rule with as many fields as
the definition has attributes. -/
def Stage.NeverFails (pDef : PolicyDef) (E : Evaluator) (root : Stage) : Prop :=
  root.All (fun st => E.compiles st.expr = true ∧
    ∀ r : Rule, r.length = pDef.args.length → E.eval st.expr r ≠ .err ∧ E.eval st.expr r ≠ .panic)

end Fastac
