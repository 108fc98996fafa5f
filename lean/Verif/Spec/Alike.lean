import Verif.Model.ModelText

/-!
# Models that look alike
-/

namespace Fastac

namespace Model

/-- Two models that a caller of `RangeRules`, `GetRequestDef`, `GetDef` cannot tell apart: the same
definitions and the same rules.  How they came about, in which order the rules were added and which matchers
are built does not count. -/
structure Alike (m m' : Model) : Prop where
  r : ∀ k, (m'.rDefs.get k).map (newPolicyDef k) = (m.rDefs.get k).map (newPolicyDef k)
  p : ∀ k, m'.pDefs.get k = m.pDefs.get k
  g : ∀ k, m'.gDefs.get k = m.gDefs.get k
  e : ∀ k, m'.eDefs.get k = m.eDefs.get k
  rules : ∀ x, x ∈ m'.rules ↔ x ∈ m.rules

end Model

end Fastac
