import Verif.Spec.InStep

/-!
# What a matcher's conditions have to do on the rules it was given

`Spec/Matching.lean` asks for conditions that behave on every rule.  Here they have to behave only on the
rules the policy was actually given, and on the rule with empty fields only where the index tries it.
-/

namespace Fastac

/-- Every inner stage reads, on rules with the property `P`, only the attributes it is indexed by. -/
def Stage.LocalOn (pDef : PolicyDef) (E : Evaluator) (P : Rule → Prop) (root : Stage) : Prop :=
  root.All (fun st => st.isLeaf = false →
    (∀ r, GoodRule pDef r → ∀ a ∈ st.pArgs, ∃ v, pDef.getParameter r a = some v) ∧
    ∀ r r', GoodRule pDef r → GoodRule pDef r' → P r → P r' →
      (∀ a ∈ st.pArgs, pDef.getParameter r a = pDef.getParameter r' a) →
      E.eval st.expr r = E.eval st.expr r')

/-- Every stage compiles and can be evaluated on the rules with the property `P`. -/
def Stage.RunsOn (pDef : PolicyDef) (E : Evaluator) (P : Rule → Prop) (root : Stage) : Prop :=
  root.All (fun st => E.compiles st.expr = true ∧
    ∀ r, GoodRule pDef r → P r → E.eval st.expr r ≠ .err ∧ E.eval st.expr r ≠ .panic)

mutual
/-- The stage can be evaluated on the rule, from left to right, and the rule does not satisfy it. -/
def Stage.Declines (E : Evaluator) (r : Rule) : Stage → Prop
  | .mk e cs => E.compiles e = true ∧ E.eval e r ≠ .err ∧ E.eval e r ≠ .panic ∧
    (E.eval e r = .bool true → cs ≠ [] ∧ Stage.DeclinesAll E r cs)
/-- The same of all the alternatives. -/
def Stage.DeclinesAll (E : Evaluator) (r : Rule) : List Stage → Prop
  | [] => True
  | c :: cs => Stage.Declines E r c ∧ Stage.DeclinesAll E r cs
end

mutual
/-- The stage can be evaluated on the rule, from left to right. -/
def Stage.RunsAt (E : Evaluator) (r : Rule) : Stage → Prop
  | .mk e cs => E.compiles e = true ∧ E.eval e r ≠ .err ∧ E.eval e r ≠ .panic ∧
    (E.eval e r = .bool true → Stage.RunsAtAll E r cs)
/-- The same of all the alternatives. -/
def Stage.RunsAtAll (E : Evaluator) (r : Rule) : List Stage → Prop
  | [] => True
  | c :: cs => Stage.RunsAt E r c ∧ Stage.RunsAtAll E r cs
end

/-- The last condition of every alternative can be evaluated on the rule with empty fields and is not true of it. -/
def Stage.EndsDecline (pDef : PolicyDef) (E : Evaluator) (root : Stage) : Prop :=
  root.All (fun st => st.isLeaf = true → st.Declines E (blankRule pDef))

namespace Model

/-- As `Bound`, and moreover: all rules which the matcher's policy had when the matcher was built, or has been
given since, have the property `P`; and if `keep`, no call of `RemoveRule` has been for this policy since. -/
inductive Given (build : Str → Res Stage) (key : Str) (root : Stage) (P : Rule → Prop) (keep : Prop) : Model → Prop
  | built {m} (h : Kept build m) (expr : Str) (hd : m.mDefs.get key = some expr) (hb : build expr = .ok root)
      (hok : (m.buildMatcher build key).2 = .ok ())
      (hP : ∀ rules, m.policyRules root.policyKey = some rules → ∀ r ∈ rules, P r) :
      Given build key root P keep (m.buildMatcher build key).1
  | setDef {m} (h : Given build key root P keep m) (sec : Char) (k value : Str) (hk : k ≠ root.policyKey) :
      Given build key root P keep (m.setDef sec k value).1
  | removeDef {m} (h : Given build key root P keep m) (sec : Char) (k : Str) (hk : k ≠ root.policyKey)
      (hm : k ≠ key) : Given build key root P keep (m.removeDef sec k).1
  | build {m} (h : Given build key root P keep m) (k : Str) (hk : k ≠ key) :
      Given build key root P keep (m.buildMatcher build k).1
  | inline {m} (h : Given build key root P keep m) (expr : Str) :
      Given build key root P keep (m.buildFromExpr build expr).1
  | add {m} (h : Given build key root P keep m) (rule : Rule) (hs : m.Suits rule)
      (hP : ∀ fields, rule = root.policyKey :: fields → P fields) :
      Given build key root P keep (m.addRule rule).1
  | remove {m} (h : Given build key root P keep m) (rule : Rule) (hs : m.Suits rule)
      (hk : keep → ∀ fields, rule ≠ root.policyKey :: fields) :
      Given build key root P keep (m.removeRule rule).1
  | clear {m} (h : Given build key root P keep m) (k : Str) (hk : k.head? ≠ some 'g') :
      Given build key root P keep (m.clearPolicy k).1

end Model

end Fastac
