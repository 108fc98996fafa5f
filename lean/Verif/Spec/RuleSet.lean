import Verif.Model.Policy

/-!
# Sets of rules and the effect of a history on them
-/

namespace Fastac

/-- A rule with at least one field and no comma in any field. -/
structure Plain (r : Rule) : Prop where
  ne : r ≠ []
  noComma : ∀ f ∈ r, ',' ∉ f

instance (r : Rule) : Decidable (Plain r) :=
  decidable_of_iff (r ≠ [] ∧ ∀ f ∈ r, ',' ∉ f) ⟨fun ⟨a, b⟩ => ⟨a, b⟩, fun h => ⟨h.ne, h.noComma⟩⟩

def PolOp.Plain : PolOp → Prop
  | .add r => Fastac.Plain r
  | .remove r => Fastac.Plain r
  | .clear => True

instance (op : PolOp) : Decidable op.Plain := by
  cases op <;> unfold PolOp.Plain <;> infer_instance

/-- Whether a rule is present after a history, given whether it was before. -/
def presentAfter (r : Rule) : Bool → List PolOp → Bool
  | b, [] => b
  | b, .add x :: ops => presentAfter r (b || x == r) ops
  | b, .remove x :: ops => presentAfter r (b && x != r) ops
  | _, .clear :: ops => presentAfter r false ops

end Fastac
