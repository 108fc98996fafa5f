import Verif.Model.OwnEffector

/-!
# What an effector of the caller can rely on
-/

namespace Fastac

/-- The call made for the rule number `i` of the matching rules `rs`: the effects of all rules up to this one, and the rules. -/
def stepCall (pDef : PolicyDef) (rs : List Rule) (i : Nat) : MergeCall :=
  ⟨(rs.take (i + 1)).map pDef.getEft, rs.take (i + 1), false⟩

/-- The calls for the first `k` rules. -/
def stepCalls (pDef : PolicyDef) (rs : List Rule) (k : Nat) : List MergeCall := (List.range k).map (stepCall pDef rs)

/-- The call made when all rules have been gathered. -/
def lastCall (pDef : PolicyDef) (rs : List Rule) : MergeCall := ⟨rs.map pDef.getEft, rs, true⟩

/-- What an answer given while rules are gathered makes of the request, unless it is "not yet decided". -/
def MergeAns.early : MergeAns → Res Bool
  | .panic => .panic
  | .ans e isErr => .ok (decide (e = .allow ∧ isErr = false))

/-- What the answer to the last call makes of the request. -/
def MergeAns.final : MergeAns → Res Bool
  | .panic => .panic
  | .ans e _ => .ok (decide (e = .allow))

/-- An effector without a state and without errors: `f` gives the effect. -/
def OwnEffector.Is (eff : OwnEffector) (f : MergeCall → Effect) : Prop := ∀ past c, eff (past ++ [c]) = .ans (f c) false

/-- What is decided while rules are gathered is what would be decided at the end, whatever rules follow. -/
def StaysDecided (f : MergeCall → Effect) : Prop :=
  ∀ es ms es' ms', es.length = ms.length → f ⟨es, ms, false⟩ ≠ .indeterminate →
    (f ⟨es ++ es', ms ++ ms', true⟩ = .allow ↔ f ⟨es, ms, false⟩ = .allow)

/-- At the end, the order of the rules does not matter. -/
def OrderFree (f : MergeCall → Effect) : Prop :=
  ∀ (g : Rule → Effect) rs rs', rs.Perm rs' → f ⟨rs.map g, rs, true⟩ = f ⟨rs'.map g, rs', true⟩

end Fastac
