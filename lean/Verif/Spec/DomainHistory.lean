import Verif.Spec.PatternDomains
import Verif.Spec.RoleHistory

/-!
# The domain manager of a role definition in a program

The calls that have reached the domain manager behind a key, as they follow from the calls of a program.
-/

namespace Fastac

/-- A call on a domain manager (rbac/domain_manager.go); on managers without domains nothing is said. -/
def Mgr.onDM (c : DM.Call) : Mgr → Mgr
  | .rm m => .rm m
  | .dm d =>
    match c with
    | .op (.add u r ds) => match (Mgr.dm d).addLink u r ds with
      | .ok x => x.1
      | _ => .dm d
    | .op (.del u r ds) => match (Mgr.dm d).deleteLink u r ds with
      | .ok x => x.1
      | _ => .dm d
    | .op .clear => .dm d.clear
    | .op _ => .dm d
    | .setMatcher m order => .dm (d.setMatcher m order)
    | .setDomainMatcher m order => match d.setDomainMatcher (d.fuelFor []) m order with
      | .ok d' => .dm d'
      | _ => .dm d

/-- A call that changes the manager: about at most one domain, which has none of the two reserved names; matchers
do not take the name of the domain of calls without a domain for a pattern; links are put back in some order. -/
def DM.Call.Fine : DM.Call → Prop
  | .op (.add _ _ ds) | .op (.del _ _ ds) => DM.Clean ds ∧ ds.length ≤ 1
  | .op .clear => True
  | .op _ => False
  | .setMatcher _ order => ∀ l, (order l).Perm l
  | .setDomainMatcher m order => (∀ l, (order l).Perm l) ∧ ∀ pm, m = some pm → pm.isPattern defaultDomain = false

/-- Neither a value of a request nor a field of a stored rule is a pattern for domains (nor, which is not stated here, a
text in quotes in the matcher): a question about a pattern domain
changes the domain manager (c31_fails), which the model of `Enforce` does not show; all other questions leave it as it
is (`c86_roles`). -/
def FnOp.AsksNoPattern (s : FnModel) (dmm : Option PMatcher) : FnOp → Prop
  | .enforce _ _ _ params => ∀ pm, dmm = some pm → (∀ v, Param.val v ∈ params → pm.isPattern v = false) ∧
      ∀ k rules, k.head? = some 'p' → s.model.policyRules k = some rules → ∀ r ∈ rules, ∀ v ∈ r, pm.isPattern v = false
  | .filter _ _ _ params => ∀ pm, dmm = some pm → (∀ v, Param.val v ∈ params → pm.isPattern v = false) ∧
      ∀ k rules, s.model.policyRules k = some rules → ∀ r ∈ rules, ∀ v ∈ r, pm.isPattern v = false
  | _ => True

namespace FnModel

/-- The manager behind `key` was made, with the level bound and the matchers given, by a role definition with three
arguments or put there with `SetRoleManager`, and then got the calls `cs`, through the model or directly.  All
other calls may come in between. -/
inductive DomainsAre (build : FnBuild) (key : Str) :
    FnModel → Nat → Option PMatcher → Option PMatcher → List DM.Call → Prop
  | defined (s : FnModel) (hp : s.model.pMap.get key = none) (value : Str) (h2 : roleDefNArgs value ≠ 2) :
      DomainsAre build key (s.setDef 'g' key value).1 10 none none []
  | replaced (s : FnModel) (hp : s.model.pMap.get key = none) (level : Nat) (m dmm : Option PMatcher)
      (hd : ∀ pm, dmm = some pm → pm.isPattern defaultDomain = false) :
      DomainsAre build key (s.setRoleManager key (.dm (DM.new level m dmm))) level m dmm []
  | direct {s level m dmm cs} (h : DomainsAre build key s level m dmm cs) (c : DM.Call) (hc : c.Fine) :
      DomainsAre build key (s.onManager key (Mgr.onDM c)) level m dmm (cs ++ [c])
  | add {s level m dmm cs} (h : DomainsAre build key s level m dmm cs) (u r : Str) (ds : List Str)
      (hd : DM.Clean ds ∧ ds.length ≤ 1) :
      DomainsAre build key { s with model := (s.model.addRule (key :: u :: r :: ds)).1 } level m dmm
        (cs ++ [.op (.add u r ds)])
  | remove {s level m dmm cs} (h : DomainsAre build key s level m dmm cs) (u r : Str) (ds : List Str)
      (hd : DM.Clean ds ∧ ds.length ≤ 1) :
      DomainsAre build key { s with model := (s.model.removeRule (key :: u :: r :: ds)).1 } level m dmm
        (cs ++ [.op (.del u r ds)])
  | clear {s level m dmm cs} (h : DomainsAre build key s level m dmm cs) :
      DomainsAre build key { s with model := (s.model.clearPolicy key).1 } level m dmm (cs ++ [.op .clear])
  | other {s level m dmm cs} (h : DomainsAre build key s level m dmm cs) (op : FnOp) (ho : op.Leaves key)
      (hq : op.AsksNoPattern s (DM.nowDomain dmm cs)) :
      DomainsAre build key (s.step build op) level m dmm cs

end FnModel

/-- The links of every domain after calls that add and remove links, without matchers. -/
def DM.linksAfter : (Str → Str → Str → Prop) → List DM.Call → Str → Str → Str → Prop
  | L, [] => L
  | L, .op (.add u r ds) :: cs => linksAfter (fun d a b => L d a b ∨ (d = DM.domKey ds ∧ a = u ∧ b = r)) cs
  | L, .op (.del u r ds) :: cs => linksAfter (fun d a b => L d a b ∧ ¬ (d = DM.domKey ds ∧ a = u ∧ b = r)) cs
  | _, .op .clear :: cs => linksAfter (fun _ _ _ => False) cs
  | L, _ :: cs => linksAfter L cs

end Fastac
