import Verif.Base

/-!
# Roles and the role manager (rbac/role.go, rbac/role_manager.go)

Roles are `*Role` pointers reached from the map `allRoles` under their name, so that a pointer is
modelled by the name.  A `sync.Map` used as a set of roles is a list of names.  Iteration over these
maps only fills other sets or ends in a boolean "some element …", except in `rebuild`, where the order
of iteration is a parameter.

The cache in front of `matcher.Match` is left out here (see `Model/Cache.lean`): `match` is the
matcher's own answer.
-/

namespace Fastac

/-- `Store` into a `sync.Map` that is used as a set. -/
def sins (s : List Str) (x : Str) : List Str := if x ∈ s then s else s ++ [x]
/-- `Delete` from such a map. -/
def sdel (s : List Str) (x : Str) : List Str := s.filter (fun y => y ≠ x)

/-- `util.IMatcher` (util/builtin_operators.go:32-35): any implementation. -/
structure PMatcher where
  isPattern : Str → Bool
  «match» : Str → Str → Bool

/-- `REDUNDANT_ROLE` (role_manager.go:24). -/
def redundantRole : Str := s% "redundant_role"

/-- `Role` (role.go:23-30) without the name. -/
structure Role where
  roles : List Str := []
  users : List Str := []
  matched : List Str := []
  matchedBy : List Str := []
  redundant : List Str := []
deriving DecidableEq, Repr

/-- `RoleManager` (role_manager.go:27-34).  `names` are the keys of `allRoles`, `obj` the role stored
under a name.  A negative `maxHierarchyLevel` behaves like 0. -/
structure RM where
  names : List Str
  obj : Str → Role
  patterns : List Str
  level : Nat
  matcher : Option PMatcher

/-- Writing to the role stored under a name. -/
def updRole (obj : Str → Role) (n : Str) (g : Role → Role) : Str → Role :=
  fun k => if k = n then g (obj k) else obj k

/-- `Role.addMatch` (role.go:76-79): `p.addMatch(r)`. -/
def addMatch (obj : Str → Role) (p r : Str) : Str → Role :=
  updRole (updRole obj p (fun x => { x with matched := sins x.matched r })) r
    (fun x => { x with matchedBy := sins x.matchedBy p })

/-- `Role.removeMatch` (role.go:81-84): `p.removeMatch(r)`. -/
def removeMatch (obj : Str → Role) (p r : Str) : Str → Role :=
  updRole (updRole obj p (fun x => { x with matched := sdel x.matched r })) r
    (fun x => { x with matchedBy := sdel x.matchedBy p })

/-- `Role.rangeRoles` (role.go:97-109) with a callback that always continues: the names visited. -/
def RM.rangeRoles (rm : RM) (n : Str) : List Str :=
  (rm.obj n).roles ++ (rm.obj n).roles.flatMap (fun k => (rm.obj k).matched) ++
    (rm.obj n).matchedBy.flatMap (fun k => (rm.obj k).roles)

/-- `Role.rangeUsers` (role.go:111-123). -/
def RM.rangeUsers (rm : RM) (n : Str) : List Str :=
  (rm.obj n).users ++ (rm.obj n).users.flatMap (fun k => (rm.obj k).matched) ++
    (rm.obj n).matchedBy.flatMap (fun k => (rm.obj k).users)

/-- `NewRoleManager`, `newRoleManagerWithMatchingFunc` (role_manager.go:38-50). -/
def RM.new (level : Nat) (matcher : Option PMatcher := none) : RM :=
  ⟨[], fun _ => {}, [], level, matcher⟩

/-- `RoleManager.Clear` (role_manager.go:154-159). -/
def RM.clear (rm : RM) : RM := { rm with names := [], obj := fun _ => {}, patterns := [] }

/-- `RoleManager.getRole` (role_manager.go:102-125) with `rangeMatchingRoles` and
`rangeMatchingPatterns` (role_manager.go:73-92): the new state and `created`. -/
def RM.getRole (rm : RM) (n : Str) : RM × Bool :=
  if n ∈ rm.names then (rm, false)
  else
    let names := rm.names ++ [n]
    let obj := updRole rm.obj n (fun _ => {})
    match rm.matcher with
    | none => ({ rm with names, obj }, true)
    | some m =>
      if m.isPattern n then
        ({ rm with
            names
            obj := (names.filter (fun k => n ≠ k && m.match k n)).foldl (fun o k => addMatch o n k) obj
            patterns := sins rm.patterns n }, true)
      else
        ({ rm with
            names
            obj := (rm.patterns.filter (fun p => p ≠ n && m.match n p)).foldl
              (fun o p => addMatch o p n) obj }, true)

/-- `RoleManager.removeRole` (role_manager.go:135-140) with `Role.removeMatches` (role.go:86-95). -/
def RM.removeRole (rm : RM) (n : Str) : RM :=
  if n ∈ rm.names then
    let r := rm.obj n
    let obj := r.matched.foldl (fun o k => removeMatch o n k) rm.obj
    let obj := (obj n).matchedBy.foldl (fun o p => removeMatch o p n) obj
    { rm with
      names := sdel rm.names n
      obj := updRole obj n (fun _ => {})
      patterns := sdel rm.patterns n }
  else { rm with patterns := sdel rm.patterns n }

/-- `RoleManager.AddLink` (role_manager.go:163-172) with `Role.addRole` (role.go:43-55,67-69). -/
def RM.addLink (rm : RM) (u r : Str) (domains : List Str) : RM × Bool :=
  let rm := (rm.getRole u).1
  let rm := (rm.getRole r).1
  let obj := if domains.head? = some redundantRole then
      updRole rm.obj u (fun x => { x with redundant := sins x.redundant r }) else rm.obj
  if r ∈ (obj u).roles then ({ rm with obj }, false)
  else
    let obj := updRole obj u (fun x => { x with roles := sins x.roles r })
    let obj := updRole obj r (fun x => { x with users := sins x.users u })
    ({ rm with obj }, true)

/-- `RoleManager.DeleteLink` (role_manager.go:176-185) with `Role.removeRole` (role.go:57-64,72-74). -/
def RM.deleteLink (rm : RM) (u r : Str) (domains : List Str) : RM × Bool :=
  let rm := (rm.getRole u).1
  let rm := (rm.getRole r).1
  let obj := if domains.head? = some redundantRole then
      updRole rm.obj u (fun x => { x with redundant := sdel x.redundant r }) else rm.obj
  if r ∈ (obj u).roles then
    let obj := updRole obj u (fun x => { x with roles := sdel x.roles r })
    let obj := updRole obj r (fun x => { x with users := sdel x.users u })
    ({ rm with obj }, true)
  else ({ rm with obj }, false)

/-- `rm.matcher != nil && rm.match(str, pattern)` (role_manager.go:62-71,189,213). -/
def RM.matches (rm : RM) (str pattern : Str) : Bool :=
  match rm.matcher with
  | none => false
  | some m => m.match str pattern

/-- `RoleManager.hasLinkHelper` (role_manager.go:206-223). -/
def RM.hasLinkHelper (rm : RM) (target : Str) : Nat → List Str → Bool
  | 0, _ => false
  | level + 1, roles =>
    if roles.isEmpty then false
    else if roles.any (fun n => target == n || rm.matches n target) then true
    else rm.hasLinkHelper target level ((roles.flatMap rm.rangeRoles).foldl sins [])

/-- `RoleManager.HasLink` (role_manager.go:188-204); the deferred calls run in reverse order. -/
def RM.hasLink (rm : RM) (u r : Str) : RM × Bool :=
  if u == r || rm.matches u r then (rm, true)
  else
    let (rm1, userCreated) := rm.getRole u
    let (rm2, roleCreated) := rm1.getRole r
    let res := rm2.hasLinkHelper r rm2.level [u]
    let rm3 := if roleCreated then rm2.removeRole r else rm2
    let rm4 := if userCreated then rm3.removeRole u else rm3
    (rm4, res)

/-- `RoleManager.GetRoles` (role_manager.go:226-232) with `Role.getRoles` (role.go:155-162). -/
def RM.getRoles (rm : RM) (n : Str) : RM × List Str :=
  let (rm1, created) := rm.getRole n
  (if created then rm1.removeRole n else rm1, rm1.rangeRoles n)

/-- `RoleManager.GetUsers` (role_manager.go:236-242) with `Role.getUsers` (role.go:164-171). -/
def RM.getUsers (rm : RM) (n : Str) : RM × List Str :=
  let (rm1, created) := rm.getRole n
  (if created then rm1.removeRole n else rm1, rm1.rangeUsers n)

/-- The links enumerated by `rangeLinks` (role_manager.go:254-266) and `Range` (268-270) with a
callback that always continues. -/
def RM.links (rm : RM) : List (Str × Str) :=
  rm.names.flatMap (fun u =>
    ((rm.obj u).roles.filter (fun r => r ∉ (rm.obj u).redundant)).map (fun r => (u, r)))

/-- `RoleManager.rebuild` (role_manager.go:53-60) and `SetMatcher` (143-146).  `order` is the order in
which the two nested `Range` calls happen to enumerate the links. -/
def RM.setMatcher (rm : RM) (m : Option PMatcher)
    (order : List (Str × Str) → List (Str × Str)) : RM :=
  (order rm.links).foldl (fun s l => (s.addLink l.1 l.2 []).1) { rm.clear with matcher := m }

/-! ## Histories -/

/-- A call on a role manager. -/
inductive LinkOp where
  | add (u r : Str)
  | del (u r : Str)
  | clear
  | hasLink (u r : Str)
  | getRoles (n : Str)
  | getUsers (n : Str)

def RM.step (rm : RM) : LinkOp → RM
  | .add u r => (rm.addLink u r []).1
  | .del u r => (rm.deleteLink u r []).1
  | .clear => rm.clear
  | .hasLink u r => (rm.hasLink u r).1
  | .getRoles n => (rm.getRoles n).1
  | .getUsers n => (rm.getUsers n).1

def RM.run (rm : RM) (ops : List LinkOp) : RM := ops.foldl RM.step rm

end Fastac
