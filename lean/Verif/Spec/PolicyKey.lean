import Verif.Spec.Words
import Verif.Model.Matcher

/-!
# The policy a matcher names
-/

namespace Fastac

mutual
/-- The texts of all stages, from the root down and from left to right. -/
def Stage.texts : Stage → List Str
  | .mk e cs => e :: Stage.textsIn cs
def Stage.textsIn : List Stage → List Str
  | [] => []
  | c :: cs => c.texts ++ Stage.textsIn cs
end

/-- All identifiers of the matcher that refer to an attribute of a policy. -/
def Stage.policyRefs (root : Stage) : List Str :=
  root.texts.flatMap (fun e => (words e).filter (fun w => decide (IsPolicyRef w)))

end Fastac
