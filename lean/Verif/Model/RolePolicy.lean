import Verif.Model.Policy
import Verif.Model.DomainManager

/-!
# Role policies (rbac/role_policy.go)
-/

namespace Fastac

mutual
/-- Depth of the tree of managers (only used to bound the recursion of the model). -/
def DM.depth : DM → Nat
  | .mk _ subs _ _ _ _ => DM.depthSubs subs + 1
def DM.depthSubs : List (Str × DM) → Nat
  | [] => 0
  | (_, s) :: rest => max (DM.depth s) (DM.depthSubs rest)
end

/-- A recursion bound that is always sufficient (`DomainSafe.lean`). -/
def DM.fuelFor (d : DM) (ds : List Str) : Nat := d.depth + ds.length + 1

/-- The `IRoleManager` of a role policy: a role manager or a domain manager. -/
inductive Mgr where
  | rm (r : RM)
  | dm (d : DM)

namespace Mgr
def addLink : Mgr → Str → Str → List Str → Res (Mgr × Bool)
  | rm m, u, r, ds => .ok (rm (m.addLink u r ds).1, (m.addLink u r ds).2)
  | dm m, u, r, ds => (m.addLink (m.fuelFor ds) u r ds).map (fun x => (dm x.1, x.2))

def deleteLink : Mgr → Str → Str → List Str → Res (Mgr × Bool)
  | rm m, u, r, ds => .ok (rm (m.deleteLink u r ds).1, (m.deleteLink u r ds).2)
  | dm m, u, r, ds => (m.deleteLink (m.fuelFor ds) u r ds).map (fun x => (dm x.1, x.2))

/-- `RoleManager.HasLink` ignores the domains (role_manager.go:188). -/
def hasLink : Mgr → Str → Str → List Str → Res (Mgr × Bool)
  | rm m, u, r, _ => .ok (rm (m.hasLink u r).1, (m.hasLink u r).2)
  | dm m, u, r, ds => (m.hasLink (m.fuelFor ds) u r ds).map (fun x => (dm x.1, x.2))

def clear : Mgr → Mgr
  | rm m => rm m.clear
  | dm m => dm m.clear

/-- The calls of the callback of `Range`, in groups: when the callback returns false the rest of the
group is skipped.  A role manager has a group per user (role_manager.go:254-266), a domain manager
ignores the result of the callback (domain_manager.go:296-299). -/
def runs : Mgr → List (List (Str × Str × List Str))
  | rm m => m.names.map (fun u =>
      ((m.obj u).roles.filter (fun r => r ∉ (m.obj u).redundant)).map (fun r => (u, r, [])))
  | dm m => m.range.map (fun l => [l])
end Mgr

/-- Delivering an event to the matchers that listen to a policy (matcher.go:97-109). -/
def notify : List Matcher → PolEvent → Res (List Matcher)
  | [], _ => .ok []
  | m :: ms, e => (m.handle e).bind fun m' => (notify ms e).map (fun ms' => m' :: ms')

/-- `RolePolicy` (role_policy.go:8-16) with the matchers listening to it. -/
structure RolePolicy where
  mgr : Mgr
  listeners : List Matcher

namespace RolePolicy

/-- Emitting an event after the manager has changed.  If a listener panics the manager has changed
already (the partial change of the matcher is not modelled). -/
def emit (p : RolePolicy) (mgr : Mgr) (e : PolEvent) : RolePolicy × Res Bool :=
  match notify p.listeners e with
  | .ok ls => (⟨mgr, ls⟩, .ok true)
  | .err => (⟨mgr, p.listeners⟩, .err)
  | .panic => (⟨mgr, p.listeners⟩, .panic)

/-- `AddRule` (role_policy.go:18-25).  Fewer than two fields are an index out of range.  When `AddLink`
itself panics, the old state is returned. -/
def addRule (p : RolePolicy) (rule : Rule) : RolePolicy × Res Bool :=
  match rule with
  | u :: r :: ds =>
    match p.mgr.addLink u r ds with
    | .ok (mgr, true) => p.emit mgr (.added rule)
    | .ok (mgr, false) => (⟨mgr, p.listeners⟩, .ok false)
    | .err => (p, .err)
    | .panic => (p, .panic)
  | _ => (p, .panic)

/-- `RemoveRule` (role_policy.go:27-34). -/
def removeRule (p : RolePolicy) (rule : Rule) : RolePolicy × Res Bool :=
  match rule with
  | u :: r :: ds =>
    match p.mgr.deleteLink u r ds with
    | .ok (mgr, true) => p.emit mgr (.removed rule)
    | .ok (mgr, false) => (⟨mgr, p.listeners⟩, .ok false)
    | .err => (p, .err)
    | .panic => (p, .panic)
  | _ => (p, .panic)

/-- The rules passed to the callback of `Range` (role_policy.go:36-41), in groups as for `Mgr.runs`. -/
def runs (p : RolePolicy) : List (List Rule) :=
  p.mgr.runs.map (fun g => g.map (fun l => l.1 :: l.2.1 :: l.2.2))

/-- The rules seen by a callback that never stops. -/
def rules (p : RolePolicy) : List Rule := p.runs.flatten

/-- `Clear` (role_policy.go:47-49): no event is emitted. -/
def clear (p : RolePolicy) : RolePolicy := ⟨p.mgr.clear, p.listeners⟩

end RolePolicy

end Fastac
