import Verif.Model.Context
import Verif.Spec.RuleSet
import Verif.Spec.Domains

/-!
# Models that calls can produce, rules that fit them, and replaying events
-/

namespace Fastac

namespace Model

/-- The fields of a rule suit the policy it is for: no commas in a rule of a `p` policy, exactly two
fields for a role definition with two arguments, otherwise two fields and a domain path that does not
use the reserved names. -/
def Fits (m : Model) : Rule → Prop
  | [] => True
  | key :: fields =>
    (key.head? = some 'p' → Plain fields) ∧
    (key.head? = some 'g' → m.gDefs.get key = some 2 → fields.length = 2) ∧
    (key.head? = some 'g' → m.gDefs.get key ≠ some 2 → 2 ≤ fields.length ∧ DM.Clean (fields.drop 2))

/-- The models that result from calls of `SetDef`, `RemoveDef`, `BuildMatcher`, `AddRule`, `RemoveRule`
and `ClearPolicy` on a new model, and of requests with own matchers (`inline`), also when some of these calls
fail. -/
inductive Made (build : Str → Res Stage) : Model → Prop
  | new : Made build Model.new
  | setDef {m} (h : Made build m) (sec : Char) (key value : Str) : Made build (m.setDef sec key value).1
  | removeDef {m} (h : Made build m) (sec : Char) (key : Str) : Made build (m.removeDef sec key).1
  | build {m} (h : Made build m) (key : Str) : Made build (m.buildMatcher build key).1
  | inline {m} (h : Made build m) (expr : Str) : Made build (m.buildFromExpr build expr).1
  | add {m} (h : Made build m) (rule : Rule) (hf : m.Fits rule) : Made build (m.addRule rule).1
  | remove {m} (h : Made build m) (rule : Rule) (hf : m.Fits rule) : Made build (m.removeRule rule).1
  | clear {m} (h : Made build m) (key : Str) : Made build (m.clearPolicy key).1

/-- A policy (`p…`) or role definition (`g…`) with the key exists. -/
def Knows (m : Model) (key : Str) : Prop :=
  (key.head? = some 'p' ∧ m.pMap.has key = true) ∨ (key.head? = some 'g' ∧ m.rpMap.has key = true)

end Model

/-- Whether a rule is present after replaying events, given whether it was before. -/
def replay (r : Rule) : Bool → List ModEvent → Bool
  | now, [] => now
  | now, .added x :: es => replay r (now || x == r) es
  | now, .removed x :: es => replay r (now && x != r) es

end Fastac
