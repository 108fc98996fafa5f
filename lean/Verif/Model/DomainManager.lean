import Verif.Model.RoleManager

/-!
# The domain manager (rbac/domain_manager.go)

`rmMap` maps the name `"RoleManager"` to a `*RoleManager` and every other name to a
`*DomainManager` (domain_manager.go:133-144), so that the two kinds of entries are kept in two fields.
The calls recurse along the domain path and along the tree; recursion is bounded by a fuel argument,
and running out of it is the outcome `err` (the code itself never returns an error here).  A `panic` is
a nil dereference of the code.

Iteration over `rmMap` and `patternMap` follows the order of the lists; the loops only add to or delete
from distinct managers.  Where the order could show, when links are put back after a matcher has been set, it is a
parameter.
-/

namespace Fastac

/-- `defaultDomain` (domain_manager.go:24). -/
def defaultDomain : Str := s% "RoleManager"

/-- `DomainManager` (domain_manager.go:26-33). -/
inductive DM where
  | mk (dflt : Option RM) (subs : List (Str × DM)) (patterns : List Str) (level : Nat)
      (matcher domMatcher : Option PMatcher)

namespace DM

def dflt : DM → Option RM | mk x _ _ _ _ _ => x
def subs : DM → GoMap Str DM | mk _ x _ _ _ _ => x
def patterns : DM → List Str | mk _ _ x _ _ _ => x
def level : DM → Nat | mk _ _ _ x _ _ => x
def matcher : DM → Option PMatcher | mk _ _ _ _ x _ => x
def domMatcher : DM → Option PMatcher | mk _ _ _ _ _ x => x

def setDflt (dm : DM) (rm : RM) : DM := mk (some rm) dm.subs dm.patterns dm.level dm.matcher dm.domMatcher
def setSub (dm : DM) (d : Str) (s : DM) : DM :=
  mk dm.dflt (dm.subs.set d s) dm.patterns dm.level dm.matcher dm.domMatcher
def setPatterns (dm : DM) (ps : List Str) : DM :=
  mk dm.dflt dm.subs ps dm.level dm.matcher dm.domMatcher

/-- `NewDomainManager` (domain_manager.go:37-42) followed by `SetMatcher` and `SetDomainMatcher` on the
empty manager (135-137). -/
def new (level : Nat) (matcher domMatcher : Option PMatcher := none) : DM :=
  mk none [] [] level matcher domMatcher

/-- `Clear` (domain_manager.go:73-78). -/
def clear (dm : DM) : DM := mk none [] [] dm.level dm.matcher dm.domMatcher

/-- The links of the role manager of the default domain, with the empty path. -/
def dfltLinks : Option RM → List (Str × Str × List Str)
  | none => []
  | some rm => rm.links.map (fun l => (l.1, l.2, []))

mutual
/-- The links enumerated by `Range` / `rangeLinks` (domain_manager.go:288-310), with their domain
paths.  The result of the callback is ignored by the code. -/
def range : DM → List (Str × Str × List Str)
  | mk dflt subs _ _ _ _ =>
    dfltLinks dflt ++ rangeSubs subs
def rangeSubs : List (Str × DM) → List (Str × Str × List Str)
  | [] => []
  | (d, s) :: rest => (range s).map (fun l => (l.1, l.2.1, d :: l.2.2)) ++ rangeSubs rest
end

/-- `getDomain` (domain_manager.go:80-87); `none` stands for the default domain. -/
def getDomain : List Str → Option Str × List Str
  | [] => (none, [])
  | d :: ds =>
    if d = redundantRole then (none, [redundantRole])
    else if d = defaultDomain then (none, ds)
    else (some d, ds)

/-- The links of the manager stored under a pattern (`load` and `Range`); `none`: there is none, and
the code dereferences nil. -/
def linksOf (dm : DM) (pattern : Str) : Option (List (Str × Str × List Str)) :=
  if pattern = defaultDomain then dm.dflt.map (fun rm => dfltLinks (some rm))
  else (dm.subs.get pattern).map range

/-- The patterns visited by `rangeMatchingPatterns` (domain_manager.go:117-126). -/
def matchingPatterns (dm : DM) (m : PMatcher) (domain : Str) : List Str :=
  dm.patterns.filter (fun p => p ≠ domain && m.match domain p)

/-- All links of all matching patterns, or nil dereference. -/
def patternLinks (dm : DM) : List Str → Res (List (Str × Str × List Str))
  | [] => .ok []
  | p :: ps =>
    match dm.linksOf p with
    | none => .panic
    | some ls => (patternLinks dm ps).map (fun rest => ls ++ rest)

/-- Part of `getRoleManager` (domain_manager.go:147-158) for a domain without a manager: the new
`patternMap`, and the links to copy into the new manager. -/
def newDomain (dm : DM) (domain : Str) : Res (DM × List (Str × Str × List Str)) :=
  match dm.domMatcher with
  | none => .ok (dm, [])
  | some m =>
    if m.isPattern domain then .ok (dm.setPatterns (sins dm.patterns domain), [])
    else (dm.patternLinks (dm.matchingPatterns m domain)).map (fun ls => (dm, ls))

/-- `getRoleManager` (domain_manager.go:129-158) for the default domain: the domain manager (with the
changed `patternMap`; the role manager not stored yet) and the role manager. -/
def getDefault (dm : DM) : Res (DM × RM) :=
  match dm.dflt with
  | some rm => .ok (dm, rm)
  | none =>
    (dm.newDomain defaultDomain).map fun (dm1, ls) =>
      (dm1, ls.foldl (fun rm l => (rm.addLink l.1 l.2.1 (l.2.2 ++ [redundantRole])).1)
        (RM.new (dm.level - 1) dm.matcher))

/-- `getRoleManager` (domain_manager.go:129-158) for another domain; `add` is `AddLink` of the new
manager. -/
def getSub (add : DM → Str → Str → List Str → Res (DM × Bool)) (dm : DM) (d : Str) : Res (DM × DM) :=
  match dm.subs.get d with
  | some s => .ok (dm, s)
  | none =>
    (dm.newDomain d).bind fun (dm1, ls) =>
      (ls.foldl (fun (r : Res DM) l =>
          r.bind fun s => (add s l.1 l.2.1 (l.2.2 ++ [redundantRole])).map (·.1))
        (.ok (new (dm.level - 1) dm.matcher dm.domMatcher))).map (fun s => (dm1, s))

/-- One call on every element of `rmMap` whose domain satisfies `p`. -/
def mapSubs (f : DM → Res DM) (p : Str → Bool) : List (Str × DM) → Res (List (Str × DM))
  | [] => .ok []
  | (d, s) :: rest =>
    if p d then (f s).bind fun s' => (mapSubs f p rest).map (fun r => (d, s') :: r)
    else (mapSubs f p rest).map (fun r => (d, s) :: r)

/-- `rangeMatchingRMs` (domain_manager.go:107-115) with a call that changes the managers. -/
def forMatching (dm : DM) (m : PMatcher) (pattern : Str) (f : DM → Res DM) (g : RM → RM) : Res DM :=
  let p := fun d => pattern ≠ d && m.match d pattern
  (mapSubs f p dm.subs).map fun subs =>
    mk (if p defaultDomain then dm.dflt.map g else dm.dflt) subs dm.patterns dm.level dm.matcher
      dm.domMatcher

/-- The propagation at the end of `AddLink` and `DeleteLink` (domain_manager.go:170-174,188-192). -/
def propagate (dm : DM) (domain : Str) (f : DM → Res DM) (g : RM → RM) : Res DM :=
  match dm.domMatcher with
  | none => .ok dm
  | some m => if m.isPattern domain then dm.forMatching m domain f g else .ok dm

/-- `AddLink` (domain_manager.go:162-176). -/
def addLink : Nat → DM → Str → Str → List Str → Res (DM × Bool)
  | 0, _, _, _, _ => .err
  | fuel + 1, dm, u, r, ds =>
    let (domain, sub) := getDomain ds
    let f := fun s : DM => (addLink fuel s u r (sub ++ [redundantRole])).map (·.1)
    let g := fun rm : RM => (rm.addLink u r (sub ++ [redundantRole])).1
    match domain with
    | none =>
      dm.getDefault.bind fun (dm1, rm) =>
        let (rm', added) := rm.addLink u r sub
        ((dm1.setDflt rm').propagate defaultDomain f g).map (fun dm2 => (dm2, added))
    | some d =>
      (getSub (addLink fuel) dm d).bind fun (dm1, s) =>
        (addLink fuel s u r sub).bind fun (s', added) =>
          ((dm1.setSub d s').propagate d f g).map (fun dm2 => (dm2, added))

/-- `DeleteLink` (domain_manager.go:180-194). -/
def deleteLink : Nat → DM → Str → Str → List Str → Res (DM × Bool)
  | 0, _, _, _, _ => .err
  | fuel + 1, dm, u, r, ds =>
    let (domain, sub) := getDomain ds
    let f := fun s : DM => (deleteLink fuel s u r (sub ++ [redundantRole])).map (·.1)
    let g := fun rm : RM => (rm.deleteLink u r (sub ++ [redundantRole])).1
    match domain with
    | none =>
      dm.getDefault.bind fun (dm1, rm) =>
        let (rm', removed) := rm.deleteLink u r sub
        ((dm1.setDflt rm').propagate defaultDomain f g).map (fun dm2 => (dm2, removed))
    | some d =>
      (getSub (addLink fuel) dm d).bind fun (dm1, s) =>
        (deleteLink fuel s u r sub).bind fun (s', removed) =>
          ((dm1.setSub d s').propagate d f g).map (fun dm2 => (dm2, removed))

/-- `HasLink`, `GetRoles`, `GetUsers` (domain_manager.go:197-224): the query `q` on the role manager of
the domain path; a manager that does not exist is created but not stored. -/
def query {β : Type} (q : RM → RM × β) : Nat → DM → List Str → Res (DM × β)
  | 0, _, _ => .err
  | fuel + 1, dm, ds =>
    let (domain, sub) := getDomain ds
    match domain with
    | none =>
      dm.getDefault.map fun (dm1, rm) =>
        let (rm', b) := q rm
        (if dm.dflt.isSome then dm1.setDflt rm' else dm1, b)
    | some d =>
      (getSub (addLink fuel) dm d).bind fun (dm1, s) =>
        (query q fuel s sub).map fun (s', b) =>
          (if (dm.subs.get d).isSome then dm1.setSub d s' else dm1, b)

mutual
/-- `SetMatcher` (domain_manager.go:44-50). -/
def setMatcher (m : Option PMatcher) (order : List (Str × Str) → List (Str × Str)) : DM → DM
  | mk dflt subs ps level _ dmm =>
    mk (dflt.map (fun rm => rm.setMatcher m order)) (setMatcherSubs m order subs) ps level m dmm
def setMatcherSubs (m : Option PMatcher) (order : List (Str × Str) → List (Str × Str)) :
    List (Str × DM) → List (Str × DM)
  | [] => []
  | (d, s) :: rest => (d, setMatcher m order s) :: setMatcherSubs m order rest
end

mutual
/-- `SetDomainMatcher` (domain_manager.go:53-60) and `rebuild` (63-70).  `order`: the order in which the
links are put back, that of the iterations over the maps. -/
def setDomainMatcher (fuel : Nat) (m : Option PMatcher)
    (order : List (Str × Str × List Str) → List (Str × Str × List Str)) : DM → Res DM
  | mk dflt subs _ level mm _ =>
    (setDomainMatcherSubs fuel m order subs).bind fun subs' =>
      (order (range (mk dflt subs' [] level mm m))).foldl (fun (r : Res DM) l =>
        r.bind fun s => (addLink fuel s l.1 l.2.1 l.2.2).map (·.1)) (.ok (new level mm m))
def setDomainMatcherSubs (fuel : Nat) (m : Option PMatcher)
    (order : List (Str × Str × List Str) → List (Str × Str × List Str)) :
    List (Str × DM) → Res (List (Str × DM))
  | [] => .ok []
  | (d, s) :: rest =>
    (setDomainMatcher fuel m order s).bind fun s' =>
      (setDomainMatcherSubs fuel m order rest).map (fun r => (d, s') :: r)
end

/-! ## Histories -/

/-- A call on a domain manager, with a domain path. -/
inductive Op where
  | add (u r : Str) (ds : List Str)
  | del (u r : Str) (ds : List Str)
  | clear
  | hasLink (u r : Str) (ds : List Str)
  | getRoles (n : Str) (ds : List Str)
  | getUsers (n : Str) (ds : List Str)

def hasLink (fuel : Nat) (dm : DM) (u r : Str) (ds : List Str) : Res (DM × Bool) :=
  query (fun rm => rm.hasLink u r) fuel dm ds
def getRoles (fuel : Nat) (dm : DM) (n : Str) (ds : List Str) : Res (DM × List Str) :=
  query (fun rm => rm.getRoles n) fuel dm ds
def getUsers (fuel : Nat) (dm : DM) (n : Str) (ds : List Str) : Res (DM × List Str) :=
  query (fun rm => rm.getUsers n) fuel dm ds

def step (fuel : Nat) (dm : DM) : Op → Res DM
  | .add u r ds => (addLink fuel dm u r ds).map (·.1)
  | .del u r ds => (deleteLink fuel dm u r ds).map (·.1)
  | .clear => .ok dm.clear
  | .hasLink u r ds => (hasLink fuel dm u r ds).map (·.1)
  | .getRoles n ds => (getRoles fuel dm n ds).map (·.1)
  | .getUsers n ds => (getUsers fuel dm n ds).map (·.1)

def run (fuel : Nat) (dm : DM) : List Op → Res DM
  | [] => .ok dm
  | op :: ops => (step fuel dm op).bind (fun dm' => run fuel dm' ops)

end DM

end Fastac
