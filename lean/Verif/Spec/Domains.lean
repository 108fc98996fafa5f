import Verif.Model.DomainManager
import Verif.Spec.Links

/-!
# Histories of a domain manager, seen from one domain
-/

namespace Fastac

namespace DM

/-- Path elements that stand for themselves: the code reserves `"RoleManager"` and
`"redundant_role"`. -/
def Clean (π : List Str) : Prop := ∀ d ∈ π, d ≠ redundantRole ∧ d ≠ defaultDomain

/-- The domain path of a call. -/
def Op.path : Op → List Str
  | .add _ _ ds | .del _ _ ds | .hasLink _ _ ds | .getRoles _ ds | .getUsers _ ds => ds
  | .clear => []

/-- What a call is for the domain `π`: the same call without the path if it is for this domain;
`Clear` concerns every domain. -/
def Op.on (π : List Str) : Op → Option LinkOp
  | .add u r ds => if ds = π then some (.add u r) else none
  | .del u r ds => if ds = π then some (.del u r) else none
  | .clear => some .clear
  | .hasLink u r ds => if ds = π then some (.hasLink u r) else none
  | .getRoles n ds => if ds = π then some (.getRoles n) else none
  | .getUsers n ds => if ds = π then some (.getUsers n) else none

/-- The calls of a history that concern the domain `π`. -/
def inDomain (π : List Str) (H : List Op) : List LinkOp := H.filterMap (Op.on π)

/-- The domain that a path of any names stands for: from the first reserved name on, the rest of the path is not looked
at. -/
def standsFor (ds : List Str) : List Str := ds.takeWhile (fun d => d ≠ redundantRole && d ≠ defaultDomain)

/-- The same call with the path that its path stands for. -/
def Op.plainly : Op → Op
  | .add u r ds => .add u r (standsFor ds)
  | .del u r ds => .del u r (standsFor ds)
  | .clear => .clear
  | .hasLink u r ds => .hasLink u r (standsFor ds)
  | .getRoles n ds => .getRoles n (standsFor ds)
  | .getUsers n ds => .getUsers n (standsFor ds)

/-- Calls with ordinary paths, short enough for the recursion bound. -/
def Calls (fuel : Nat) (H : List Op) : Prop := ∀ op ∈ H, Clean op.path ∧ op.path.length < fuel

/-- No element of the path, and not the default domain, is a pattern. -/
def NoPattern (dmm : Option PMatcher) (ds : List Str) : Prop :=
  ∀ m, dmm = some m → m.isPattern defaultDomain = false ∧ ∀ d ∈ ds, m.isPattern d = false

/-- The answer of `HasLink(a, b, π...)` after a history of calls on a new domain manager with the given
level bound, role matcher and domain matcher. -/
def ask (fuel L : Nat) (m dmm : Option PMatcher) (H : List Op) (a b : Str) (π : List Str) : Res Bool :=
  (run fuel (new L m dmm) H).bind fun dm => (dm.hasLink fuel a b π).map (·.2)

/-- A link added in the domain `d` itself, or in a pattern domain that `d` matches. -/
def addedFor (m : PMatcher) (H : List (Str × Str × List Str)) (d : Str) (u r : Str) : Prop :=
  ∃ p, (u, r, [p]) ∈ H ∧ (p = d ∨ m.covers p d)

/-- The calls `AddLink(u, r, path...)` one after the other. -/
def addAll (fuel : Nat) (dm : DM) (H : List (Str × Str × List Str)) : Res DM :=
  run fuel dm (H.map (fun l => .add l.1 l.2.1 l.2.2))

/-! Histories in which matchers are set as well. -/

inductive Call where
  | op (o : Op)
  | setMatcher (m : Option PMatcher) (order : List (Str × Str) → List (Str × Str))
  | setDomainMatcher (m : Option PMatcher)
      (order : List (Str × Str × List Str) → List (Str × Str × List Str))

def call (fuel : Nat) (dm : DM) : Call → Res DM
  | .op o => dm.step fuel o
  | .setMatcher m order => .ok (dm.setMatcher m order)
  | .setDomainMatcher m order => dm.setDomainMatcher fuel m order

def calls (fuel : Nat) (dm : DM) : List Call → Res DM
  | [] => .ok dm
  | c :: cs => (call fuel dm c).bind (fun dm' => calls fuel dm' cs)

/-- The domain matchers in force at some time of the calls: the first one and those set. -/
def used (dmm : Option PMatcher) (cs : List Call) (pm : PMatcher) : Prop :=
  dmm = some pm ∨ ∃ order, Call.setDomainMatcher (some pm) order ∈ cs

/-- The iterations of the calls visit every link exactly once, in any order. -/
def Perms (cs : List Call) : Prop :=
  (∀ m order, Call.setMatcher m order ∈ cs → ∀ l, (order l).Perm l) ∧
  ∀ m order, Call.setDomainMatcher m order ∈ cs → ∀ l, (order l).Perm l

/-- A call that only asks. -/
def Op.isQuery : Op → Bool
  | .hasLink _ _ _ | .getRoles _ _ | .getUsers _ _ => true
  | _ => false

end DM

end Fastac
