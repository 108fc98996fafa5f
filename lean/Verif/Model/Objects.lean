import Verif.Model.Context
import Verif.Model.Slices

/-!
# Policies, matchers and role managers as objects

Policies, matchers and role managers are reached through pointers: `GetPolicy`, `GetMatcher` and `GetRoleManager`
(model.go:317-342) hand them out, `SetPolicy`, `SetMatcher` and `SetRoleManager` (325-346) put any of them under any key
of any model, and the caller may call them directly.  `Model/Model.lean` keeps them inside of one model, as values; here
is the state with pointers, for any number of models.

Where the two agree is proved (C100), what is different with shared objects is C99.  Left out here: the function map
(`Model/Functions.lean`), own implementations of the interfaces, `SetRequestDef` and `SetEffector`.
-/

namespace Fastac

/-- What a policy object has: `*policy.Policy` (policy.go:23-28) its rules, `*rbac.RolePolicy` (role_policy.go:8-16) a
pointer to a role manager. -/
inductive Hold where
  | rules (p : Policy)
  | links (g : Nat)

/-- A policy object with the matchers that listen to it.  A matcher listens to the policy it was made for
(matcher.go:85-112) for ever, so it is the `i`-th listener of a policy object. -/
structure OPol where
  hold : Hold
  listeners : List Matcher

/-- `Model` (model.go:72-86): the maps have pointers. -/
structure OModel where
  rDefs : GoMap Str Str
  pDefs : GoMap Str PolicyDef
  gDefs : GoMap Str Nat
  eDefs : GoMap Str Str
  mDefs : GoMap Str Str
  pMap : GoMap Str Nat
  rpMap : GoMap Str Nat
  mMap : GoMap Str (Nat × Nat)

/-- The objects, by address. -/
structure Realm where
  pols : List OPol
  mgrs : List Mgr
  models : List OModel

/-- A policy emits an event, as in `Model.emitPolicy`. -/
def PolObj.emit {α : Type} (ls : List Matcher) (pol : Policy) (a : α) : Option PolEvent → PolObj × Res α
  | none => (⟨pol, ls⟩, .ok a)
  | some e =>
    match notify ls e with
    | .ok ls' => (⟨pol, ls'⟩, .ok a)
    | .err => (⟨pol, ls⟩, .err)
    | .panic => (⟨pol, ls⟩, .panic)

/-- `NewModel` (model.go:88-112) -/
def OModel.new : OModel := ⟨[], [], [], [], [], [], [], []⟩

/-- `GetPolicy` (model.go:317-323).  (For an unknown key the policy that is returned is a nil pointer in an interface
that is not nil.) -/
def OModel.getPolicy (m : OModel) (key : Str) : Option Nat :=
  match m.pMap.get key with
  | some o => some o
  | none => m.rpMap.get key

namespace Realm

/-- A role policy object, with its manager. -/
def role (w : Realm) (g : Nat) (ls : List Matcher) : RolePolicy := ⟨w.mgrs[g]?.getD (.rm (RM.new 0)), ls⟩

/-- `Range` (policy.go:59-65, role_policy.go:36-41) with a callback that never stops -/
def rulesOf (w : Realm) (o : Nat) : List Rule :=
  match w.pols[o]? with
  | none => []
  | some ob =>
    match ob.hold with
    | .rules p => p.rules
    | .links g => (w.role g []).rules

/-- The policy object `o` becomes `ob`. -/
def setPol (w : Realm) (o : Nat) (ob : OPol) : Realm := { w with pols := w.pols.set o ob }

/-- The role policy object `o` with manager `g` becomes `rp`. -/
def setRole (w : Realm) (o g : Nat) (rp : RolePolicy) : Realm :=
  { w with mgrs := w.mgrs.set g rp.mgr, pols := w.pols.set o ⟨.links g, rp.listeners⟩ }

/-- `Policy.AddRule` (policy.go:38-46), `RolePolicy.AddRule` (role_policy.go:18-25); a nil pointer panics -/
def polAdd (w : Realm) (o : Nat) (rule : Rule) : Realm × Res Bool :=
  match w.pols[o]? with
  | none => (w, .panic)
  | some ob =>
    match ob.hold with
    | .rules p =>
      let x := PolObj.emit ob.listeners (p.addRule rule).1 (p.addRule rule).2.1 (p.addRule rule).2.2
      (w.setPol o ⟨.rules x.1.policy, x.1.listeners⟩, x.2)
    | .links g => (w.setRole o g ((w.role g ob.listeners).addRule rule).1, ((w.role g ob.listeners).addRule rule).2)

/-- `Policy.RemoveRule` (policy.go:48-57), `RolePolicy.RemoveRule` (role_policy.go:27-34) -/
def polRemove (w : Realm) (o : Nat) (rule : Rule) : Realm × Res Bool :=
  match w.pols[o]? with
  | none => (w, .panic)
  | some ob =>
    match ob.hold with
    | .rules p =>
      let x := PolObj.emit ob.listeners (p.removeRule rule).1 (p.removeRule rule).2.1 (p.removeRule rule).2.2
      (w.setPol o ⟨.rules x.1.policy, x.1.listeners⟩, x.2)
    | .links g =>
      (w.setRole o g ((w.role g ob.listeners).removeRule rule).1, ((w.role g ob.listeners).removeRule rule).2)

/-- `Policy.Clear` (policy.go:71-75), `RolePolicy.Clear` (role_policy.go:47-49) -/
def polClear (w : Realm) (o : Nat) : Realm × Res Unit :=
  match w.pols[o]? with
  | none => (w, .panic)
  | some ob =>
    match ob.hold with
    | .rules p =>
      let x := PolObj.emit ob.listeners p.clear.1 () p.clear.2
      (w.setPol o ⟨.rules x.1.policy, x.1.listeners⟩, x.2)
    | .links g => (w.setRole o g (w.role g ob.listeners).clear, .ok ())

/-- `NewMatcher` (matcher.go:85-112) for the policy object `o`: the matcher becomes its last listener. -/
def listen (w : Realm) (o : Nat) (pDef : PolicyDef) (root : Stage) : Realm × Res (Nat × Nat) :=
  match w.pols[o]? with
  | none => (w, .panic)
  | some ob =>
    match newMatcher pDef root (w.rulesOf o) with
    | .err => (w, .err)
    | .panic => (w, .panic)
    | .ok mt => (w.setPol o ⟨ob.hold, ob.listeners ++ [mt]⟩, .ok (o, ob.listeners.length))

/-! ## Calls of a model -/

/-- The model `a` becomes `m`. -/
def setModel (w : Realm) (a : Nat) (m : OModel) : Realm := { w with models := w.models.set a m }

/-- `AddRule` (model.go:248-265, 286-308): the event is the one of this model. -/
def addRule (w : Realm) (m : OModel) (rule : Rule) : Realm × Res Bool × Option ModEvent :=
  match rule with
  | [] => (w, .panic, none)
  | [] :: _ => (w, .panic, none)
  | (c :: cs) :: fields =>
    let (w', res) :=
      if c = 'p' then
        match m.pMap.get (c :: cs) with
        | none => (w, .err)
        | some o => w.polAdd o fields
      else if c = 'g' then
        match m.rpMap.get (c :: cs) with
        | none => (w, .err)
        | some o => w.polAdd o fields
      else (w, .err)
    (w', res, if res = .ok true then some (.added rule) else none)

/-- `RemoveRule` (model.go:267-284, 294-315) -/
def removeRule (w : Realm) (m : OModel) (rule : Rule) : Realm × Res Bool × Option ModEvent :=
  match rule with
  | [] => (w, .panic, none)
  | [] :: _ => (w, .panic, none)
  | (c :: cs) :: fields =>
    let (w', res) :=
      if c = 'p' then
        match m.pMap.get (c :: cs) with
        | none => (w, .err)
        | some o => w.polRemove o fields
      else if c = 'g' then
        match m.rpMap.get (c :: cs) with
        | none => (w, .err)
        | some o => w.polRemove o fields
      else (w, .err)
    (w', res, if res = .ok true then some (.removed rule) else none)

/-- `ClearPolicy` (model.go:421-427) -/
def clearPolicy (w : Realm) (m : OModel) (key : Str) : Realm × Res Unit :=
  match m.getPolicy key with
  | none => (w, .err)
  | some o => w.polClear o

/-- `SetDef` (model.go:166-178, handlers.go:10-70): a policy definition makes a new policy, a role definition a new role
manager and a new role policy. -/
def setDef (w : Realm) (a : Nat) (m : OModel) (sec : Char) (key value : Str) : Realm :=
  if ¬ (sec = 'r' ∨ sec = 'p' ∨ sec = 'g' ∨ sec = 'e' ∨ sec = 'm') then w
  else
    match key with
    | [] => w
    | c :: _ =>
      if c ≠ sec then w
      else if sec = 'r' then w.setModel a { m with rDefs := m.rDefs.set key value }
      else if sec = 'p' then
        ({ w with pols := w.pols ++ [⟨.rules Policy.empty, []⟩] } : Realm).setModel a
          { m with
            pDefs := m.pDefs.set key (newPolicyDef key value)
            pMap := m.pMap.set key w.pols.length }
      else if sec = 'g' then
        ({ w with
            mgrs := w.mgrs ++ [if roleDefNArgs value = 2 then Mgr.rm (RM.new 10) else Mgr.dm (DM.new 10)]
            pols := w.pols ++ [⟨.links w.mgrs.length, []⟩] } : Realm).setModel a
          { m with
            gDefs := m.gDefs.set key (roleDefNArgs value)
            rpMap := m.rpMap.set key w.pols.length }
      else if sec = 'e' then w.setModel a { m with eDefs := m.eDefs.set key (effectExpr value) }
      else w.setModel a { m with mDefs := m.mDefs.set key value }

/-- `RemoveDef` (model.go:185-194, handlers.go:17-76) -/
def removeDef (w : Realm) (a : Nat) (m : OModel) (sec : Char) (key : Str) : Realm :=
  if sec = 'r' then w.setModel a { m with rDefs := m.rDefs.del key }
  else if sec = 'p' then w.setModel a { m with pDefs := m.pDefs.del key, pMap := m.pMap.del key }
  else if sec = 'g' then w.setModel a { m with gDefs := m.gDefs.del key, rpMap := m.rpMap.del key }
  else if sec = 'e' then w.setModel a { m with eDefs := m.eDefs.del key }
  else if sec = 'm' then w.setModel a { m with mDefs := m.mDefs.del key, mMap := m.mMap.del key }
  else w

/-- The definition for the matchers of a policy (model.go:225-239), as `Model.matcherPolicyDef` -/
def _root_.Fastac.OModel.matcherPolicyDef (m : OModel) (pKey : Str) : Res PolicyDef :=
  match pKey with
  | [] => .panic
  | c :: _ =>
    if c = 'p' then
      match m.pDefs.get pKey with
      | some d => .ok d
      | none => .err
    else if c = 'g' then .ok (newPolicyDef pKey (s% "user, role, domain"))
    else .err

/-- `BuildMatcherFromDef` (model.go:220-246): the matcher is not put into the model. -/
def buildFrom (build : Str → Res Stage) (w : Realm) (m : OModel) (expr : Str) : Realm × Res (Nat × Nat) :=
  match build expr with
  | .err => (w, .err)
  | .panic => (w, .panic)
  | .ok root =>
    match m.matcherPolicyDef root.policyKey with
    | .err => (w, .err)
    | .panic => (w, .panic)
    | .ok pDef =>
      match m.getPolicy root.policyKey with
      | none => (w, .err)
      | some o => w.listen o pDef root

/-- `BuildMatcher` (model.go:205-218) -/
def buildMatcher (build : Str → Res Stage) (w : Realm) (a : Nat) (m : OModel) (key : Str) : Realm × Res Unit :=
  match m.mDefs.get key with
  | none => (w, .err)
  | some expr =>
    match w.buildFrom build m expr with
    | (w', .err) => (w', .err)
    | (w', .panic) => (w', .panic)
    | (w', .ok x) => (w'.setModel a { m with mMap := m.mMap.set key x }, .ok ())

end Realm

/-! ## Programs -/

/-- A call.  Models, policies and managers are given by their addresses, a matcher by the policy it listens to and its
place there. -/
inductive OCmd where
  /-- `NewModel` -/
  | newModel
  /-- `policy.NewPolicy` -/
  | newPolicy
  /-- calls of the model `a` -/
  | setDef (a : Nat) (sec : Char) (key value : Str)
  | removeDef (a : Nat) (sec : Char) (key : Str)
  | build (a : Nat) (key : Str)
  | buildFrom (a : Nat) (expr : Str)
  | add (a : Nat) (rule : Rule)
  | remove (a : Nat) (rule : Rule)
  | clear (a : Nat) (key : Str)
  | setPolicy (a : Nat) (key : Str) (o : Nat)
  | setMatcher (a : Nat) (key : Str) (x : Nat × Nat)
  | setRoleManager (a : Nat) (key : Str) (g : Nat)
  /-- calls of the policy `o` -/
  | polAdd (o : Nat) (rule : Rule)
  | polRemove (o : Nat) (rule : Rule)
  | polClear (o : Nat)
  /-- any call of the role manager `g` -/
  | mgr (g : Nat) (f : Mgr → Mgr)

namespace Realm

/-- The matcher of a pointer. -/
def matcher (w : Realm) (x : Nat × Nat) : Option Matcher := w.pols[x.1]?.bind fun ob => ob.listeners[x.2]?

/-- One call, with the events of the models.  A call with the address of something that is not there does nothing. -/
def step (build : Str → Res Stage) (w : Realm) : OCmd → Realm × List (Nat × ModEvent)
  | .newModel => ({ w with models := w.models ++ [OModel.new] }, [])
  | .newPolicy => ({ w with pols := w.pols ++ [⟨.rules Policy.empty, []⟩] }, [])
  | .setDef a sec key value =>
    match w.models[a]? with
    | none => (w, [])
    | some m => (w.setDef a m sec key value, [])
  | .removeDef a sec key =>
    match w.models[a]? with
    | none => (w, [])
    | some m => (w.removeDef a m sec key, [])
  | .build a key =>
    match w.models[a]? with
    | none => (w, [])
    | some m => ((w.buildMatcher build a m key).1, [])
  | .buildFrom a expr =>
    match w.models[a]? with
    | none => (w, [])
    | some m => ((w.buildFrom build m expr).1, [])
  | .add a rule =>
    match w.models[a]? with
    | none => (w, [])
    | some m => ((w.addRule m rule).1, (w.addRule m rule).2.2.toList.map (fun e => (a, e)))
  | .remove a rule =>
    match w.models[a]? with
    | none => (w, [])
    | some m => ((w.removeRule m rule).1, (w.removeRule m rule).2.2.toList.map (fun e => (a, e)))
  | .clear a key =>
    match w.models[a]? with
    | none => (w, [])
    | some m => ((w.clearPolicy m key).1, [])
  /- `SetPolicy` (model.go:325-327) -/
  | .setPolicy a key o =>
    match w.models[a]?, w.pols[o]? with
    | some m, some _ => (w.setModel a { m with pMap := m.pMap.set key o }, [])
    | _, _ => (w, [])
  /- `SetMatcher` (model.go:344-346) -/
  | .setMatcher a key x =>
    match w.models[a]?, w.matcher x with
    | some m, some _ => (w.setModel a { m with mMap := m.mMap.set key x }, [])
    | _, _ => (w, [])
  /- `SetRoleManager` (model.go:334-337): there is a new role policy for the manager -/
  | .setRoleManager a key g =>
    match w.models[a]?, w.mgrs[g]? with
    | some m, some _ =>
      (({ w with pols := w.pols ++ [⟨.links g, []⟩] } : Realm).setModel a
        { m with rpMap := m.rpMap.set key w.pols.length }, [])
    | _, _ => (w, [])
  | .polAdd o rule => ((w.polAdd o rule).1, [])
  | .polRemove o rule => ((w.polRemove o rule).1, [])
  | .polClear o => ((w.polClear o).1, [])
  | .mgr g f => ({ w with mgrs := match w.mgrs[g]? with | none => w.mgrs | some x => w.mgrs.set g (f x) }, [])

def run (build : Str → Res Stage) (w : Realm) : List OCmd → Realm × List (Nat × ModEvent)
  | [] => (w, [])
  | c :: cs =>
    (((w.step build c).1.run build cs).1, (w.step build c).2 ++ ((w.step build c).1.run build cs).2)

/-! ## What a model is -/

/-- The object as a policy. -/
def polObj (w : Realm) (o : Nat) : PolObj :=
  match w.pols[o]? with
  | none => ⟨Policy.empty, []⟩
  | some ob =>
    match ob.hold with
    | .rules p => ⟨p, ob.listeners⟩
    | .links _ => ⟨⟨(w.rulesOf o).map (fun r => (hash r, r))⟩, ob.listeners⟩

/-- The object as a role policy. -/
def rolePol (w : Realm) (o : Nat) : RolePolicy :=
  match w.pols[o]? with
  | none => w.role 0 []
  | some ob =>
    match ob.hold with
    | .rules _ => w.role 0 ob.listeners
    | .links g => w.role g ob.listeners

/-- The entry of `mMap`, as in `Model/Model.lean`: the matcher listens to the policy that the model has now under the key
for which the matcher was made, or to another one. -/
def entry (w : Realm) (m : OModel) (x : Nat × Nat) : MEntry :=
  match w.matcher x with
  | none => .live [] 0
  | some mt => if m.getPolicy mt.pDef.key = some x.1 then .live mt.pDef.key x.2 else .frozen mt

/-- The model as a value: everything that it has, or that its pointers lead to. -/
def value (w : Realm) (m : OModel) : Model where
  rDefs := m.rDefs
  pDefs := m.pDefs
  gDefs := m.gDefs
  eDefs := m.eDefs
  mDefs := m.mDefs
  pMap := m.pMap.mapV w.polObj
  rpMap := m.rpMap.mapV w.rolePol
  mMap := m.mMap.mapV (w.entry m)

/-- `Enforce` (enforcer.go:251-272) of an enforcer with this model, for requests that name their matcher; the answer. -/
def enforce (build : Str → Res Stage) (w : Realm) (m : OModel) (base : Str → Option Fn) (gov : Gov) (ord : Order)
    (params : List Param) : Res Bool :=
  ((w.value m).enforceParams build base gov ord params).2

end Realm

end Fastac
