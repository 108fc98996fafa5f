import Verif.Model.DomainManager

/-!
# The domain lists of the domain manager (rbac/domain_manager.go:226-286)

The order in which `Range` enumerates the links is arbitrary in Go and a parameter here; the order in which
the map is enumerated afterwards is not modelled (the results are compared as sets).  `defer` in the loop
of `GetDomains` postpones `removeRole` to the end of the call; the loop visits each role manager at most
once, so that removing the role at once makes no difference.
-/

namespace Fastac

/-- The test in the loop of `GetDomains` (domain_manager.go:249-255): `getRole`, `getUsers`, `getRoles`,
`removeRole`. -/
def RM.inUse (rm : RM) (n : Str) : RM × Bool :=
  let (rm1, created) := rm.getRole n
  (if created then rm1.removeRole n else rm1, !(rm1.rangeUsers n).isEmpty || !(rm1.rangeRoles n).isEmpty)

namespace DM

/-- The order in which the links are enumerated. -/
abbrev LinkOrder := List (Str × Str × List Str) → List (Str × Str × List Str)

/-- `getAllDomainsHelper` (domain_manager.go:260-273): the map from the joined path to the path; of paths
with the same text the last one stays. -/
def domainMap (order : LinkOrder) (dm : DM) : GoMap Str (List Str) :=
  (order dm.range).foldl (fun m l => m.set (join ['/'] l.2.2) l.2.2) []

/-- `GetAllDomains` (domain_manager.go:275-286). -/
def getAllDomains (order : LinkOrder) (dm : DM) : List Str :=
  (dm.domainMap order).map (fun e => join ['/'] e.2)

/-- The loop of `GetDomains` (domain_manager.go:246-256).  `resolveRoleManager` (226-237) follows the path
like the queries do. -/
def domainsLoop (fuel : Nat) (n : Str) : List (List Str) → DM → Res (DM × List Str)
  | [], dm => .ok (dm, [])
  | π :: πs, dm =>
    (query (fun rm => rm.inUse n) fuel dm π).bind fun (dm1, b) =>
      (domainsLoop fuel n πs dm1).map fun (dm2, res) => (dm2, if b then join ['/'] π :: res else res)

/-- `GetDomains` (domain_manager.go:240-258). -/
def getDomains (fuel : Nat) (order : LinkOrder) (dm : DM) (n : Str) : Res (DM × List Str) :=
  domainsLoop fuel n ((dm.domainMap order).map Prod.snd) dm

end DM

end Fastac
