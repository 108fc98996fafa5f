import Verif.Spec.Model
import Verif.Spec.History

/-!
# Models whose rules suit their definitions
-/

namespace Fastac

namespace Model

/-- The rule suits the definition it is for: as many fields as the `p` definition has attributes, two
fields and one domain for a role definition with domains, two fields for one without; no commas except in
the latter. -/
def Suits (m : Model) : Rule → Prop
  | [] => True
  | key :: fields => m.Fits (key :: fields) ∧
    (key.head? = some 'p' → ∀ d, m.pDefs.get key = some d → GoodRule d fields) ∧
    (key.head? = some 'g' → m.gDefs.get key ≠ some 2 → fields.length = 3 ∧ ∀ x ∈ fields, ',' ∉ x)

instance Clean.dec (ds : List Str) : Decidable (DM.Clean ds) := by unfold DM.Clean; infer_instance

instance Fits.dec (m : Model) (rule : Rule) : Decidable (m.Fits rule) := by
  cases rule with
  | nil => exact isTrue trivial
  | cons k f => unfold Fits; infer_instance

instance Suits.dec (m : Model) (rule : Rule) : Decidable (m.Suits rule) := by
  cases rule with
  | nil => exact isTrue trivial
  | cons k f =>
    unfold Suits
    exact decidable_of_iff (m.Fits (k :: f) ∧
      (k.head? = some 'p' → (m.pDefs.get k).all (fun d => decide (GoodRule d f)) = true) ∧
      (k.head? = some 'g' → m.gDefs.get k ≠ some 2 → f.length = 3 ∧ ∀ x ∈ f, ',' ∉ x)) (by
      cases hd : m.pDefs.get k <;> simp [hd])

/-- The models that result from calls of `SetDef`, `RemoveDef`, `BuildMatcher`, `AddRule`, `RemoveRule`
with suitable rules, `ClearPolicy` of a `p` policy, and requests with own matchers (`inline`). -/
inductive Kept (build : Str → Res Stage) : Model → Prop
  | new : Kept build Model.new
  | setDef {m} (h : Kept build m) (sec : Char) (key value : Str) : Kept build (m.setDef sec key value).1
  | removeDef {m} (h : Kept build m) (sec : Char) (key : Str) : Kept build (m.removeDef sec key).1
  | build {m} (h : Kept build m) (key : Str) : Kept build (m.buildMatcher build key).1
  | inline {m} (h : Kept build m) (expr : Str) : Kept build (m.buildFromExpr build expr).1
  | add {m} (h : Kept build m) (rule : Rule) (hs : m.Suits rule) : Kept build (m.addRule rule).1
  | remove {m} (h : Kept build m) (rule : Rule) (hs : m.Suits rule) : Kept build (m.removeRule rule).1
  | clear {m} (h : Kept build m) (key : Str) (hk : key.head? ≠ some 'g') : Kept build (m.clearPolicy key).1

/-- The matcher `key` has been built with the stages `root`, and since then neither it nor the policy it
is for has been redefined.  Rules of all policies, other definitions and other matchers may have been
changed in any way. -/
inductive Bound (build : Str → Res Stage) (key : Str) (root : Stage) : Model → Prop
  | built {m} (h : Kept build m) (expr : Str) (hd : m.mDefs.get key = some expr) (hb : build expr = .ok root)
      (hok : (m.buildMatcher build key).2 = .ok ()) : Bound build key root (m.buildMatcher build key).1
  | setDef {m} (h : Bound build key root m) (sec : Char) (k value : Str) (hk : k ≠ root.policyKey) :
      Bound build key root (m.setDef sec k value).1
  | removeDef {m} (h : Bound build key root m) (sec : Char) (k : Str) (hk : k ≠ root.policyKey)
      (hm : k ≠ key) : Bound build key root (m.removeDef sec k).1
  | build {m} (h : Bound build key root m) (k : Str) (hk : k ≠ key) :
      Bound build key root (m.buildMatcher build k).1
  | inline {m} (h : Bound build key root m) (expr : Str) : Bound build key root (m.buildFromExpr build expr).1
  | add {m} (h : Bound build key root m) (rule : Rule) (hs : m.Suits rule) :
      Bound build key root (m.addRule rule).1
  | remove {m} (h : Bound build key root m) (rule : Rule) (hs : m.Suits rule) :
      Bound build key root (m.removeRule rule).1
  | clear {m} (h : Bound build key root m) (k : Str) (hk : k.head? ≠ some 'g') :
      Bound build key root (m.clearPolicy k).1

end Model

end Fastac
