import Verif.Spec.AnyManager

/-!
# Which rules a matcher has seen

The rules that the policy of a matcher had when the matcher was built or was given later, up to now or since the
policy was last cleared as a whole.  Rules removed one by one are among them.
-/

namespace Fastac

namespace Model

/-- As `Bound`, and the matcher has seen exactly the rules with `H`. -/
inductive Seen (build : Str → Res Stage) (key : Str) (root : Stage) : (Rule → Prop) → Model → Prop
  | built {m} (h : Kept build m) (expr : Str) (hd : m.mDefs.get key = some expr) (hb : build expr = .ok root)
      (hok : (m.buildMatcher build key).2 = .ok ()) :
      Seen build key root (fun r => ∃ rules, m.policyRules root.policyKey = some rules ∧ r ∈ rules)
        (m.buildMatcher build key).1
  | setDef {H m} (h : Seen build key root H m) (sec : Char) (k value : Str) (hk : k ≠ root.policyKey) :
      Seen build key root H (m.setDef sec k value).1
  | removeDef {H m} (h : Seen build key root H m) (sec : Char) (k : Str) (hk : k ≠ root.policyKey)
      (hm : k ≠ key) : Seen build key root H (m.removeDef sec k).1
  | build {H m} (h : Seen build key root H m) (k : Str) (hk : k ≠ key) :
      Seen build key root H (m.buildMatcher build k).1
  | inline {H m} (h : Seen build key root H m) (expr : Str) :
      Seen build key root H (m.buildFromExpr build expr).1
  | add {H m} (h : Seen build key root H m) (rule : Rule) (hs : m.Suits rule) :
      Seen build key root (fun r => H r ∨ rule = root.policyKey :: r) (m.addRule rule).1
  | remove {H m} (h : Seen build key root H m) (rule : Rule) (hs : m.Suits rule) :
      Seen build key root H (m.removeRule rule).1
  | clear {H m} (h : Seen build key root H m) (k : Str) (hk : k.head? ≠ some 'g') :
      Seen build key root (fun r => H r ∧ k ≠ root.policyKey) (m.clearPolicy k).1

end Model

namespace FnModel

/-- As `FnHeld`, and the matcher has seen exactly the rules with `H`. -/
inductive FnSeen (build : FnBuild) (key : Str) (root : Stage) : (Rule → Prop) → FnModel → Prop
  | built {s} (h : FnFree build s) (expr : Str) (hd : s.model.mDefs.get key = some expr)
      (hb : build s.knows expr = .ok root) (hok : (s.buildMatcher build key).2 = .ok ()) :
      FnSeen build key root (fun r => ∃ rules, s.model.policyRules root.policyKey = some rules ∧ r ∈ rules)
        (s.buildMatcher build key).1
  | setFunction {H s} (h : FnSeen build key root H s) (name : Str) (f : Fn) :
      FnSeen build key root H (s.setFunction name f)
  | removeFunction {H s} (h : FnSeen build key root H s) (name : Str) :
      FnSeen build key root H (s.removeFunction name).1
  | setRoleManager {H s} (h : FnSeen build key root H s) (k : Str) (mgr : Mgr) (hk : k ≠ root.policyKey) :
      FnSeen build key root H (s.setRoleManager k mgr)
  | onManager {H s} (h : FnSeen build key root H s) (k : Str) (change : Mgr → Mgr) :
      FnSeen build key root H (s.onManager k change)
  | setDef {H s} (h : FnSeen build key root H s) (sec : Char) (k value : Str) (hk : k ≠ root.policyKey) :
      FnSeen build key root H (s.setDef sec k value).1
  | removeDef {H s} (h : FnSeen build key root H s) (sec : Char) (k : Str) (hk : k ≠ root.policyKey)
      (hm : k ≠ key) : FnSeen build key root H (s.removeDef sec k).1
  | build {H s} (h : FnSeen build key root H s) (k : Str) (hk : k ≠ key) :
      FnSeen build key root H (s.buildMatcher build k).1
  | request {H s} (h : FnSeen build key root H s) (gov : Gov) (depth : Nat) (ord : Order)
      (params : List Param) : FnSeen build key root H (s.enforce build gov depth ord params).1
  | filter {H s} (h : FnSeen build key root H s) (gov : Gov) (depth : Nat) (ord : Order)
      (params : List Param) : FnSeen build key root H (s.filter build gov depth ord params).1
  | add {H s} (h : FnSeen build key root H s) (rule : Rule) (hs : s.SuitsP rule) :
      FnSeen build key root (fun r => H r ∨ rule = root.policyKey :: r)
        { s with model := (s.model.addRule rule).1 }
  | remove {H s} (h : FnSeen build key root H s) (rule : Rule) (hs : s.SuitsP rule) :
      FnSeen build key root H { s with model := (s.model.removeRule rule).1 }
  | clear {H s} (h : FnSeen build key root H s) (k : Str) :
      FnSeen build key root (fun r => H r ∧ k ≠ root.policyKey) { s with model := (s.model.clearPolicy k).1 }

end FnModel

/-! ## Ways through a condition -/

mutual
/-- The ways in which a condition can be true: each is a list of atoms, in the order in which they are written. -/
def Cond.ways : Cond → List (List Atom)
  | .atom a => [[a]]
  | .paren alts => Cond.anyWays alts
def Cond.allWays : List Cond → List (List Atom)
  | [] => [[]]
  | c :: cs => c.ways.flatMap (fun p => (Cond.allWays cs).map (p ++ ·))
def Cond.anyWays : List (List Cond) → List (List Atom)
  | [] => []
  | c :: cs => Cond.allWays c ++ Cond.anyWays cs
end

/-- In how many ways the condition is true. -/
noncomputable def Cond.timesTrue (T : Atom → Prop) (f : List (List Cond)) : Nat :=
  haveI : DecidablePred T := fun _ => Classical.propDecidable _
  (Cond.anyWays f).countP (fun w => decide (∀ a ∈ w, T a))

/-- The index puts the two rules together for this atom: they agree on the attributes of the rule that the atom
mentions, and if it mentions none they are the same rule. -/
def Atom.Together (pArgs : List Str) (a : Atom) (r r' : Rule) : Prop :=
  (∃ y, Ref.pol y ∈ a.refs) ∧ (∀ y, Ref.pol y ∈ a.refs → attr pArgs r y = attr pArgs r' y) ∨ r = r'

/-- What is left in the index when rules are removed.  `T a r` says whether an atom is true of a rule, `H` are
the rules seen, `rules` those stored.  Either the matcher has seen no rule, and the condition is true of the rule
with empty fields.  Or there is a way through the condition and a rule that has been seen, such that all
atoms but the last are true of that rule, the last is true of the rule with empty fields, and no stored rule is
together with that rule for all the atoms but the last. -/
def LeftOver (pArgs : List Str) (T : Atom → Rule → Prop) (H : Rule → Prop) (rules : List Rule)
    (f : List (List Cond)) : Prop :=
  ((∀ r, ¬ H r) ∧ Cond.anyHolds (fun a => T a (List.replicate pArgs.length [])) f) ∨
  ∃ way last, way ++ [last] ∈ Cond.anyWays f ∧ ∃ seen, H seen ∧ (∀ a ∈ way, T a seen) ∧
    T last (List.replicate pArgs.length []) ∧ ∀ r ∈ rules, ¬ ∀ a ∈ way, a.Together pArgs seen r

end Fastac
