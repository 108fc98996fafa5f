import Verif.Props.PatternDomains
import Verif.Props.PatternRoles
import Verif.Props.Functions
import Verif.Props.Storage
import Verif.Props.Decision
import Verif.Props.Context
import Verif.Props.Roles
import Verif.Props.File
import Verif.Props.PathMatch
import Verif.Props.Concurrent

/-!
# More concrete cases

Small runs of the model, one for each of several realistic bugs: each of them comes out differently if the code had
this bug.  They are tests of the model, not proofs of properties; the properties are in the other files of this
directory.
-/

namespace Fastac

open RolesExample

/-! ## Role managers (C21–C26) -/

namespace RoleCases

/-- The pattern `*p` matches only `b`. -/
def onlyB : PMatcher where
  isPattern s := s.head? == some '*'
  «match» n p := p == s% "*p" && n == s% "b"

def after (m : Option PMatcher) (ops : List LinkOp) : RM := (RM.new 10 m).run ops

-- everyone has its own role
example : ((after none []).hasLink a a).2 = true ∧ ((after none [.add a b]).hasLink b a).2 = false := by decide
-- a link is added once
-- a name has itself as a role even if no level is allowed
example : ((RM.new 0).hasLink a a).2 = true ∧ (((RM.new 0).addLink a b []).1.hasLink a b).2 = false := by decide
example : ((after none []).addLink a b []).2 = true ∧ ((after none [.add a b]).addLink a b []).2 = false ∧
    ((after none [.add a b, .del a b]).addLink a b []).2 = true := by decide
-- a deleted link is gone on both sides
example : ((after none [.add a b, .add c b, .del a b]).getUsers b).2 = [c] ∧
    ((after none [.add a b, .add c b, .del a b]).getRoles a).2 = [] := by decide
-- a question is forgotten: `d` matches the role `*p` of `a`, but is not in use
example : ((after (some star) [.add a p]).getRoles a).2 = [p, a] ∧
    ((after (some star) [.add a p, .hasLink d c]).getRoles a).2 = [p, a] ∧
    ((after (some star) [.add a p, .getRoles d, .getUsers d]).getRoles a).2 = [p, a] ∧
    ((after (some star) [.add a p, .add d c]).getRoles a).2 = [p, a, d, c] := by decide
-- also a question about a pattern
example : ((after (some star) [.add a c, .hasLink p b]).getRoles a).2 = [c] ∧
    ((after (some star) [.add a c, .hasLink p b, .add d c, .add p b]).getRoles d).2 = [c, b] := by decide
-- the users of a role include the names in use that match a pattern among the users, also when their links are gone
example : ((after (some star) [.add p b, .add a c, .del a c]).getUsers b).2 = [p, b, a, c] := by decide
-- a role on the way matches the pattern that is asked for
example : ((after (some onlyB) [.add a b]).hasLink a p).2 = true ∧
    ((after (some onlyB) [.add a c, .add c b]).hasLink a p).2 = true ∧
    ((after (some onlyB) [.add a c]).hasLink a p).2 = false := by decide

end RoleCases

/-! ## Domain managers (C27–C31, C82) -/

namespace DomainCases

open DM DomainsExample

/-- Patterns start with `*` and match every name, also themselves. -/
def all : PMatcher where
  isPattern s := s.head? == some '*'
  «match» _ p := p.head? == some '*'

/-- An answer after calls that may set matchers. -/
def askAfter (cs : List DM.Call) (u r : Str) (ds : List Str) : Res Bool :=
  (calls 5 (new 10 none none) cs).bind (fun dm => (dm.hasLink 5 u r ds).map (·.2))

-- the name `"RoleManager"` is the default domain, with and without matchers
example : ask 5 10 none none [.add a b []] a b [rmName] = .ok true ∧
    ask 5 10 none none [.add a b [x]] a b [rmName, x] = .ok false ∧
    ask 5 10 none none [.add a b [rmName, x]] a b [] = .ok true := by decide
-- a new pattern domain is given nothing by the pattern it matches; one that is in use is
example : ask 5 10 none (some overlapD) [.add a b [q]] a b [p] = .ok false ∧
    ask 5 10 none (some overlapD) [.add c d [p], .add a b [q]] a b [p] = .ok true := by decide
-- a question does not put a domain in use
example : ask 5 10 none (some overlapD) [.hasLink c d [p], .add a b [q]] a b [p] = .ok false := by decide
-- links of pattern domains are given to the default domain, too
example : ask 5 10 none (some star) [.add c d [], .add a b [p]] a b [] = .ok true ∧
    ask 5 10 none (some star) [.add c d [], .add a b [p], .del a b [p]] a b [] = .ok false := by decide
-- a pattern domain keeps its own links as its own
example : (run 5 (new 10 none (some all)) [.add a b [p]]).map range = .ok [(a, b, [p])] := by decide
-- deletion in a pattern domain removes the mark of the links it had given
example : (run 5 (new 10 none (some star)) [.add c d [x], .add a b [p], .del a b [p], .add a b [x]]).map range =
    .ok [(c, d, [x]), (a, b, [x])] := by decide
-- domains made after `SetMatcher` use the new matcher
example : askAfter [.setMatcher (some star) id, .op (.add p b [x])] a b [x] = .ok true ∧
    askAfter [.setMatcher (some star) id, .setMatcher none id, .op (.add p b [x])] a b [x] = .ok false := by decide
-- `SetDomainMatcher` gives the links of patterns to the domains that are there
example : askAfter [.op (.add a b [p]), .op (.add c d [x]), .setDomainMatcher (some star) id] a b [x] = .ok true ∧
    askAfter [.op (.add a b [p]), .op (.add c d [x])] a b [x] = .ok false ∧
    askAfter [.op (.add a b [p]), .op (.add c d [x]), .setDomainMatcher (some star) id,
      .setDomainMatcher none id] a b [x] = .ok false := by decide +kernel
-- `Clear` forgets everything
example : ask 5 10 none (some star) [.add a b [p], .clear] a b [x] = .ok false ∧
    ask 5 10 none (some star) [.add a b [p], .clear] a b [p] = .ok false := by decide

end DomainCases

/-! ## Requests at the same time (C56) -/

namespace ConcurrentCases

open ConcurrentExample

def two (i : Nat) : EnfCall :=
  ⟨match newMatcher pDef (.mk [] [.mk (s% "r_sub == p_sub_rule") []]) [[s% "carol"], [s% "bob"]] with
    | .ok m => m
    | _ => ⟨pDef, .mk [] [], newNode []⟩, pDef, plainE i, Order.fwd, SOME_ALLOW⟩

-- each call looks at its own rule: alice's call has taken `carol` when bob's call takes `bob`
example : ((World.mk 7 (fun _ => []) (fun i => (two i).prog)).run
      [0, 0, 1, 1, 1, 1, 1, 0, 1, 0, 0, 0, 1, 1, 1, 0, 0, 0]).progs 0 = .done (.ok false) ∧
    ((World.mk 7 (fun _ => []) (fun i => (two i).prog)).run
      [0, 0, 1, 1, 1, 1, 1, 1, 0, 1, 1, 0, 0, 0, 0, 0, 0]).progs 1 = .done (.ok true) := ⟨rfl, rfl⟩

end ConcurrentCases

/-! ## Functions (C76) -/

namespace FnCases

open FnExample

def start : FnModel := FnModel.new std []

-- `RemoveFunction` removes and says whether there was one
example : (start.removeFunction (s% "pathMatch")).2 = true ∧
    (start.removeFunction (s% "pathMatch")).1.knows (s% "pathMatch") = false ∧
    ((start.removeFunction (s% "pathMatch")).1.removeFunction (s% "pathMatch")).2 = false ∧
    (start.removeFunction (s% "pathMatch")).1.knows (s% "ipMatch") = true := by decide +kernel
-- a rejected definition sets no function
example : (start.setDef 'g' (s% "h") (s% "_, _")).2 = .err ∧
    (start.setDef 'g' (s% "h") (s% "_, _")).1.knows (s% "h") = false ∧
    (start.setDef 'g' (s% "g") (s% "_, _")).1.knows (s% "g") = true := by decide +kernel
-- `RemoveDef` of a role definition removes its function, in other sections it removes none
example : ((start.setDef 'g' (s% "g") (s% "_, _")).1.removeDef 'g' (s% "g")).1.knows (s% "g") = false ∧
    ((start.setFunction (s% "m") yes).removeDef 'm' (s% "m")).1.knows (s% "m") = true ∧
    (start.removeDef 'p' (s% "pathMatch")).1.knows (s% "pathMatch") = true := by decide +kernel
-- `SetRoleManager` gives the function of the new manager, also without a definition
example : ((start.setRoleManager (s% "g") (.rm ((RM.new 10).addLink a b []).1)).functions (s% "g")).map
    (fun f => (f [a, b], f [b, a])) = some (.bool true, .bool false) := by decide +kernel
-- functions registered for all models are for those made later; calls are for one model
example :
    let w := FnWorld.run std build ⟨[], []⟩ [.create, .global (s% "isRoot") yes, .create,
      .on 1 (.setFunction (s% "mine") yes)]
    w.models.map (fun s => (s.knows (s% "isRoot"), s.knows (s% "mine"))) = [(false, false), (true, true)] := by
  decide +kernel

end FnCases

/-! ## Rules, matchers and contexts (C15, C32, C57, C62, C69) -/

namespace ModelCases

open ContextExample

/-- Two rules before the matchers are built. -/
def early : Model := ((defined.addRule [s% "p", s% "alice"]).1.addRule [s% "p", s% "bob"]).1

/-- the expressions compare the subject of the request with that of the rule -/
def gov : Gov := fun _ get =>
  ⟨fun _ => true, fun e r => .bool (get r (if e = s% "r_sub == p_sub" then s% "r_sub" else s% "r2_name") ==
    get r (s% "p_sub"))⟩

def dec (m : Model) (ps : List Param) : Res Bool := (m.enforceParams build (fun _ => none) gov Order.fwd ps).2

def withExpr (e : Str) : Param := .opt (.matcher (.str e))

-- a matcher that is built finds the rules there are, named or not
example : dec (early.buildMatcher build (s% "m")).1 [.val (s% "bob")] = .ok true ∧
    dec (early.buildMatcher build (s% "m")).1 [.val (s% "carol")] = .ok false ∧
    dec early [withExpr (s% "r.sub == p.sub"), .val (s% "bob")] = .ok true ∧
    dec early [withExpr (s% "r.sub == p.sub"), .val (s% "carol")] = .ok false := by decide +kernel
-- a matcher built for one request does not disturb the named one
example : let m := (early.buildMatcher build (s% "m")).1
    let m' := (m.enforceParams build (fun _ => none) gov Order.fwd [withExpr (s% "r.sub == p.sub"), .val (s% "bob")]).1
    dec (m'.addRule [s% "p", s% "carol"]).1 [.val (s% "carol")] = .ok true ∧
    dec (m'.removeRule [s% "p", s% "bob"]).1 [.val (s% "bob")] = .ok false := by decide +kernel
-- nor does a second named matcher
example : let m := ((early.setDef 'm' (s% "m2") (s% "r2.name == p.sub")).1.buildMatcher build (s% "m")).1
    let m' := (m.buildMatcher build (s% "m2")).1
    dec (m'.addRule [s% "p", s% "carol"]).1 [.val (s% "carol")] = .ok true ∧
    dec (m'.addRule [s% "p", s% "carol"]).1 [withExpr (s% "m2"), .opt (.request (.str (s% "r2"))), .val (s% "carol")] =
      .ok true ∧
    dec m' [withExpr (s% "m2"), .opt (.request (.str (s% "r2"))), .val (s% "carol")] = .ok false := by decide +kernel
-- an effect is written with any spaces
example : dec model [.opt (.effector (.str (s% "some(where (p.eft == allow))"))), .val (s% "alice")] = .ok true ∧
    dec model [.opt (.effector (.str (s% "!some(where (p.eft == deny))"))), .val (s% "bob")] = .ok true := by
  decide +kernel
-- `SetDef` starts an empty policy
example : ((early.setDef 'p' (s% "p") (s% "sub")).1.policyRules (s% "p")) = some [] ∧
    early.policyRules (s% "p") = some [[s% "alice"], [s% "bob"]] ∧
    (((((early.setDef 'g' (s% "g") (s% "_, _")).1.addRule [s% "g", s% "alice", s% "admin"]).1.setDef 'g' (s% "g")
      (s% "_, _")).1.policyRules (s% "g"))) = some [] := by decide +kernel
-- a matcher over role rules sees three attributes
example : (early.matcherPolicyDef (s% "g")).map (fun d => d.args.length) = .ok 3 := by decide
-- `RemoveDef` of another key leaves the matcher listening; of its own key it does not
example : let m := ((early.buildMatcher build (s% "m")).1.setDef 'p' (s% "p2") (s% "sub")).1
    dec (((m.removeDef 'p' (s% "p2")).1.addRule [s% "p", s% "carol"]).1) [.val (s% "carol")] = .ok true ∧
    dec (((m.removeDef 'p' (s% "p3")).1.addRule [s% "p", s% "carol"]).1) [.val (s% "carol")] = .ok true ∧
    (m.removeDef 'm' (s% "m")).1.getMatcher (s% "m") = none ∧
    dec ((m.setDef 'p' (s% "p") (s% "sub")).1) [.val (s% "bob")] = .ok true ∧
    dec (((m.setDef 'p' (s% "p") (s% "sub")).1.addRule [s% "p", s% "carol"]).1) [.val (s% "carol")] = .ok false := by
  refine ⟨by decide +kernel, by decide +kernel, ?_, by decide +kernel, by decide +kernel⟩
  rfl
-- a rule is removed from the policy it names
example : let m := (((early.setDef 'p' (s% "p2") (s% "sub")).1.addRule [s% "p2", s% "alice"]).1.removeRule
      [s% "p2", s% "alice"]).1
    m.policyRules (s% "p2") = some [] ∧ m.policyRules (s% "p") = some [[s% "alice"], [s% "bob"]] := by decide +kernel
-- the first wrong option ends the call, the last right one counts
example : dec model [withExpr (s% "nonsense"), .val (s% "alice")] = .err ∧
    dec model [withExpr (s% "nonsense"), withExpr (s% "m"), .val (s% "alice")] = .err ∧
    (newContext build model [.request (.str (s% "r")), .request (.obj (newPolicyDef (s% "r2") (s% "name")))]).2.map
      (fun c => c.rDef) = .ok (some (newPolicyDef (s% "r2") (s% "name"))) := ⟨by decide +kernel, by decide +kernel, rfl⟩
-- the role policy is cleared
example : ((((early.setDef 'g' (s% "g") (s% "_, _")).1.addRule [s% "g", s% "alice", s% "admin"]).1.clearPolicy
    (s% "g")).1.policyRules (s% "g")) = some [] := by decide +kernel
-- a link that is there is not added again, and is not reported
example : let m := ((early.setDef 'g' (s% "g") (s% "_, _")).1.addRule [s% "g", s% "alice", s% "admin"]).1
    (m.addRule [s% "g", s% "alice", s% "admin"]).2 = (.ok false, none) := by decide +kernel

-- `RemoveDef` with the key of another section changes nothing, also for matchers on the roles of this key
example : let build : Str → Res Stage := fun _ => .ok (.mk [] [.mk (s% "r_sub == g_user") []])
    let m := ((early.setDef 'g' (s% "g") (s% "_, _, _")).1.setDef 'm' (s% "m2") (s% "text")).1
    let m := ((m.buildMatcher build (s% "m2")).1.removeDef 'p' (s% "g")).1
    let m := (m.addRule [s% "g", s% "alice", s% "admin", s% "d"]).1
    ((m.mMap.get (s% "m2")).bind m.resolve).map (fun mt => (filter mt ⟨fun _ => true, fun _ _ => .bool true⟩ Order.fwd).1) =
      some [[s% "g", s% "alice", s% "admin", s% "d"]] := by decide +kernel

-- options count wherever they stand among the values
example : dec model [.val (s% "alice"), .opt (.effector (.str (s% "!some(where (p.eft == deny))")))] = .ok true ∧
    dec model [.val (s% "bob"), .opt (.effector (.str (s% "!some(where (p.eft == deny))")))] = .ok true ∧
    dec model [.val (s% "bob")] = .ok false := by decide +kernel
-- `RemoveDef` of a role definition drops its rules
example : let m := ((early.setDef 'g' (s% "g") (s% "_, _")).1.addRule [s% "g", s% "alice", s% "admin"]).1
    m.policyRules (s% "g") = some [[s% "alice", s% "admin"]] ∧
    (m.removeDef 'g' (s% "g")).1.policyRules (s% "g") = none ∧
    (m.removeDef 'g' (s% "g")).1.rules = m.rules.filter (fun r => r.head? != some (s% "g")) := by decide +kernel

end ModelCases

/-! ## Matching (C01, C08, C09, C13) -/

namespace MatchCases

def pDef : PolicyDef := newPolicyDef (s% "p") (s% "sub, act")

/-- two alternatives -/
def either : Stage := .mk [] [.mk (s% "r_sub == p_sub") [], .mk (s% "r_act == p_act") []]

def rules : List Rule := [[s% "alice", s% "read"], [s% "bob", s% "write"]]

def on (root : Stage) (rules : List Rule) (f : Matcher → α) : Res α := (newMatcher pDef root rules).map f

/-- every text is true -/
def yes : Evaluator := ⟨fun _ => true, fun _ _ => .bool true⟩

-- a removed rule is gone from both alternatives
example : on either rules (fun m => (filter m yes Order.fwd).1) =
      .ok [s% "p" :: [s% "alice", s% "read"], s% "p" :: [s% "bob", s% "write"],
        s% "p" :: [s% "alice", s% "read"], s% "p" :: [s% "bob", s% "write"]] ∧
    (on either rules (fun m => (m.handle (.removed [s% "bob", s% "write"])).map (fun m => (filter m yes Order.fwd).1))) =
      .ok (.ok [s% "p" :: [s% "alice", s% "read"], s% "p" :: [s% "alice", s% "read"]]) := by decide +kernel
-- what is not a boolean does not match, what does not compile is an error
example : on either rules (fun m => filter m ⟨fun _ => true, fun _ _ => .other⟩ Order.fwd) = .ok ([], .cont) ∧
    on either rules (fun m => filter m ⟨fun _ => false, fun _ _ => .bool true⟩ Order.fwd) = .ok ([], .err) := by
  decide +kernel
-- once the effect is decided no more rules are looked at: the second one cannot be evaluated
example : on either rules (fun m => enforce m pDef
      ⟨fun _ => true, fun _ r => if r.head? = some (s% "bob") then .err else .bool true⟩ Order.fwd SOME_ALLOW) =
      .ok (.ok true) ∧
    on either rules (fun m => enforce m pDef
      ⟨fun _ => true, fun _ r => if r.head? = some (s% "bob") then .err else .bool true⟩ Order.fwd NO_DENY) =
      .ok .err := by decide +kernel

end MatchCases

/-! ## Storage (C36, C39), files (C43), paths (C47) and texts (C64) -/

namespace StorageCases

open StorageExample ModelExample

-- a batch has one kind of operations
example : ((⟨true, false, [⟨.add, pRule⟩, ⟨.remove, pRule⟩], 0⟩ : SC).flush (adapter .batch (fun _ => false)) ⟨[], 0⟩).2.trace =
    [(.batch .add [pRule], .ok ()), (.batch .remove [pRule], .ok ())] := by decide
-- while storage is off nothing is queued
example : let e := (start .batch (fun _ => false)).setStorage false
    (e.addRule pRule).e.sc.q = [] ∧ ((start .batch (fun _ => false)).addRule pRule).e.sc.q = [⟨.add, pRule⟩] := by
  decide
-- an empty last field is a field
example : csvRead (s% "p, alice,") = .ok [s% "p", s% "alice", []] ∧ csvRead (s% ",") = .ok [[], []] := by decide
-- `*` stands for one segment at least, and the numbers of segments must agree
example : PathMatchF 9 (s% "/a") (s% "/a/*") = some false ∧ PathMatchF 9 (s% "a") (s% "*/a") = some false ∧
    PathMatchF 9 (s% "/a/b") (s% "/a") = some false ∧ PathMatchF 9 (s% "/a") (s% "/a/b") = some false ∧
    PathMatchF 9 (s% "/a/b") (s% "/a/*") = some true := by decide
-- references to rules of roles are rewritten like the others
example : replaceArgs (s% "r.sub == g.user && p.act == g2.role") = s% "r_sub == g_user && p_act == g2_role" := by
  decide +kernel

-- what follows a bracket follows each of its alternatives
example : buildMatcherDef (fun _ => 0) [.lp, .var (s% "a"), ⟨.logicalOp, s% "||"⟩, .var (s% "b"), .rp, ⟨.logicalOp, s% "&&"⟩,
    .var (s% "c")] = .ok (.mk [] [.mk (s% "a") [.mk (s% "c") []], .mk (s% "b") [.mk (s% "c") []]]) := rfl
-- only sections with definitions are printed
example : ((Model.new.setDef 'r' (s% "r") (s% "sub")).1.sections).map Prod.fst = [s% "request_definition"] := by decide

/-- A rule in the store, one that is queued. -/
def waiting : Enforcer Store := ((start .batch (fun _ => false)).run [.add pRule, .flush, .add bob]).1

-- `SavePolicy` writes all rules, and what is queued stays queued
example : waiting.sc.q = [⟨.add, bob⟩] ∧ waiting.st.rules = [pRule] ∧
    waiting.savePolicy.e.sc.q = [⟨.add, bob⟩] ∧ waiting.savePolicy.e.st.rules = [pRule, bob] := by decide
-- `LoadPolicy` adds to the rules there are, and changes after it reach the store
example : waiting.loadPolicy.e.model.rules = [pRule, bob] ∧
    ((waiting.loadPolicy.e.removeRule pRule).e.flush.e.st.rules) = [bob] := by decide +kernel

end StorageCases

end Fastac
