import Verif.Model.Matcher

/-!
# What it means that a rule satisfies a matcher

Everything here is about the stage tree as a boolean combination of atomic expressions and does not
mention the index.
-/

namespace Fastac

/-- A stored rule the index is meant for: as many fields as the definition has attributes, and no
field contains a comma. -/
structure GoodRule (pDef : PolicyDef) (r : Rule) : Prop where
  len : r.length = pDef.args.length
  ne : r ≠ []
  noComma : ∀ f ∈ r, ',' ∉ f

instance (pDef : PolicyDef) (r : Rule) : Decidable (GoodRule pDef r) :=
  decidable_of_iff (r.length = pDef.args.length ∧ r ≠ [] ∧ ∀ f ∈ r, ',' ∉ f)
    ⟨fun ⟨a, b, c⟩ => ⟨a, b, c⟩, fun h => ⟨h.len, h.ne, h.noComma⟩⟩

mutual
/-- The rule makes a stage and, below it, some path to a leaf true. -/
def Stage.sat (E : Evaluator) (r : Rule) : Stage → Bool
  | .mk e cs => (E.eval e r == .bool true) && (cs.isEmpty || Stage.satAny E r cs)
/-- The rule makes one of the alternatives true. -/
def Stage.satAny (E : Evaluator) (r : Rule) : List Stage → Bool
  | [] => false
  | c :: cs => Stage.sat E r c || Stage.satAny E r cs
end

mutual
/-- Number of paths from a stage to a leaf all of whose expressions are true of the rule. -/
def Stage.paths (E : Evaluator) (r : Rule) : Stage → Nat
  | .mk e cs =>
    if E.eval e r = .bool true then
      (if cs.isEmpty then 1 else Stage.pathsAny E r cs)
    else 0
def Stage.pathsAny (E : Evaluator) (r : Rule) : List Stage → Nat
  | [] => 0
  | c :: cs => Stage.paths E r c + Stage.pathsAny E r cs
end

mutual
/-- A property of every stage below (not including) the root. -/
def Stage.All (P : Stage → Prop) : Stage → Prop
  | .mk _ cs => Stage.AllIn P cs
def Stage.AllIn (P : Stage → Prop) : List Stage → Prop
  | [] => True
  | c :: cs => (P c ∧ Stage.All P c) ∧ Stage.AllIn P cs
end

/-- The value of the stage's expression depends on a rule only through the policy attributes that
occur in the expression, and these are attributes of the policy definition. -/
structure ReadsOwnArgs (pDef : PolicyDef) (E : Evaluator) (st : Stage) : Prop where
  declared : ∀ r, GoodRule pDef r → ∀ a ∈ st.pArgs, ∃ v, pDef.getParameter r a = some v
  only : ∀ r r', GoodRule pDef r → GoodRule pDef r' →
    (∀ a ∈ st.pArgs, pDef.getParameter r a = pDef.getParameter r' a) →
    E.eval st.expr r = E.eval st.expr r'

/-- At most two alternatives per stage. -/
def Stage.Binary (root : Stage) : Prop :=
  root.children.length ≤ 2 ∧ root.All (fun st => st.children.length ≤ 2)

/-- Every inner stage reads only its own attributes. -/
def Stage.Local (pDef : PolicyDef) (E : Evaluator) (root : Stage) : Prop :=
  root.All (fun st => st.isLeaf = false → ReadsOwnArgs pDef E st)

/-- The rule whose fields are all empty. -/
def blankRule (pDef : PolicyDef) : Rule := List.replicate pDef.args.length []

/-- No leaf expression is true of the blank rule. -/
def Stage.BlankSafe (pDef : PolicyDef) (E : Evaluator) (root : Stage) : Prop :=
  root.All (fun st => st.isLeaf = true → E.eval st.expr (blankRule pDef) ≠ .bool true)

end Fastac
