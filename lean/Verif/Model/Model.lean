import Verif.Model.RolePolicy
import Verif.Model.Effector

/-!
# The model (model/model.go, model/handlers.go)

Policies and matchers are values here; `SetPolicy` and `SetMatcher`, with which models share them, are in `Model/Objects.lean`,
`SetRoleManager` also in `Model/Functions.lean`; `SetRequestDef`, `SetEffector` and own implementations of the interfaces
are not modelled.  Loading a configuration file (go-ini, external) is a sequence of `SetDef` calls followed by `BuildMatchers` (model.go:149-164).
The function map is not part of this state (see `Model/Functions.lean`).

A call returns the new state and an outcome.  When a listener panics, the policy has changed already; the
partial change of the matcher is not modelled.
-/

namespace Fastac

/-- A `p` policy with the matchers listening to it. -/
structure PolObj where
  policy : Policy
  listeners : List Matcher

/-- An entry of `mMap`: the matcher listening at position `i` to the current policy `key`, or a matcher
whose policy object has been replaced or removed and so gets no more events. -/
inductive MEntry where
  | live (key : Str) (i : Nat)
  | frozen (m : Matcher)

/-- The events of the model (model.go:34-37). -/
inductive ModEvent where
  | added (rule : Rule)
  | removed (rule : Rule)
deriving Repr, DecidableEq

/-- `Model` (model.go:72-86).  Request definitions are kept as text, role definitions as their number
of arguments, effects as expression. -/
structure Model where
  rDefs : GoMap Str Str
  pDefs : GoMap Str PolicyDef
  gDefs : GoMap Str Nat
  eDefs : GoMap Str Str
  mDefs : GoMap Str Str
  pMap : GoMap Str PolObj
  rpMap : GoMap Str RolePolicy
  mMap : GoMap Str MEntry

namespace Model

/-- `NewModel` (model.go:88-112). -/
def new : Model := ⟨[], [], [], [], [], [], [], []⟩

/-- The rules of a policy, `p` or `g` (`GetPolicy`, model.go:317-323). -/
def policyRules (m : Model) (key : Str) : Option (List Rule) :=
  match m.pMap.get key with
  | some p => some p.policy.rules
  | none => (m.rpMap.get key).map RolePolicy.rules

/-! ## Rules -/

/-- A policy has changed and emits an event to the matchers. -/
def emitPolicy {α : Type} (m : Model) (key : Str) (ls : List Matcher) (pol : Policy) (a : α) :
    Option PolEvent → Model × Res α
  | none => ({ m with pMap := m.pMap.set key ⟨pol, ls⟩ }, .ok a)
  | some e =>
    match notify ls e with
    | .ok ls' => ({ m with pMap := m.pMap.set key ⟨pol, ls'⟩ }, .ok a)
    | .err => ({ m with pMap := m.pMap.set key ⟨pol, ls⟩ }, .err)
    | .panic => ({ m with pMap := m.pMap.set key ⟨pol, ls⟩ }, .panic)

/-- `addPolicyRule` (model.go:286-292) with `Policy.AddRule` and the matchers' listeners. -/
def addPolicyRule (m : Model) (key : Str) (rule : Rule) : Model × Res Bool :=
  match m.pMap.get key with
  | none => (m, .err)
  | some p =>
    m.emitPolicy key p.listeners (p.policy.addRule rule).1 (p.policy.addRule rule).2.1
      (p.policy.addRule rule).2.2

/-- `removePolicyRule` (model.go:294-300). -/
def removePolicyRule (m : Model) (key : Str) (rule : Rule) : Model × Res Bool :=
  match m.pMap.get key with
  | none => (m, .err)
  | some p =>
    m.emitPolicy key p.listeners (p.policy.removeRule rule).1 (p.policy.removeRule rule).2.1
      (p.policy.removeRule rule).2.2

/-- `addRoleRule` (model.go:302-308). -/
def addRoleRule (m : Model) (key : Str) (rule : Rule) : Model × Res Bool :=
  match m.rpMap.get key with
  | none => (m, .err)
  | some rp => ({ m with rpMap := m.rpMap.set key (rp.addRule rule).1 }, (rp.addRule rule).2)

/-- `removeRoleRule` (model.go:309-315). -/
def removeRoleRule (m : Model) (key : Str) (rule : Rule) : Model × Res Bool :=
  match m.rpMap.get key with
  | none => (m, .err)
  | some rp => ({ m with rpMap := m.rpMap.set key (rp.removeRule rule).1 }, (rp.removeRule rule).2)

/-- `AddRule` (model.go:248-265): state, outcome, emitted event.  An empty rule or an empty key is an
index out of range. -/
def addRule (m : Model) (rule : Rule) : Model × Res Bool × Option ModEvent :=
  match rule with
  | [] => (m, .panic, none)
  | [] :: _ => (m, .panic, none)
  | (c :: cs) :: fields =>
    let (m', res) :=
      if c = 'p' then m.addPolicyRule (c :: cs) fields
      else if c = 'g' then m.addRoleRule (c :: cs) fields
      else (m, .err)
    (m', res, if res = .ok true then some (.added rule) else none)

/-- `RemoveRule` (model.go:267-284). -/
def removeRule (m : Model) (rule : Rule) : Model × Res Bool × Option ModEvent :=
  match rule with
  | [] => (m, .panic, none)
  | [] :: _ => (m, .panic, none)
  | (c :: cs) :: fields =>
    let (m', res) :=
      if c = 'p' then m.removePolicyRule (c :: cs) fields
      else if c = 'g' then m.removeRoleRule (c :: cs) fields
      else (m, .err)
    (m', res, if res = .ok true then some (.removed rule) else none)

/-- `ClearPolicy` (model.go:421-427): the policy's own event reaches the matchers, the model emits no
event. -/
def clearPolicy (m : Model) (key : Str) : Model × Res Unit :=
  match m.pMap.get key with
  | some p => m.emitPolicy key p.listeners p.policy.clear.1 () p.policy.clear.2
  | none =>
    match m.rpMap.get key with
    | some rp => ({ m with rpMap := m.rpMap.set key rp.clear }, .ok ())
    | none => (m, .err)

/-! ## `RangeRules` -/

/-- The calls of the callback of `RangeRules` (model.go:406-419), in groups: when the callback returns
false the rest of the group is skipped.  The order of the maps is arbitrary in Go. -/
def ruleRuns (m : Model) : List (List Rule) :=
  m.pMap.map (fun e => e.2.policy.rules.map (fun r => e.1 :: r)) ++
    m.rpMap.flatMap (fun e => e.2.runs.map (fun g => g.map (fun r => e.1 :: r)))

/-- `RangeRules` (model.go:406-419) with a callback on a state. -/
def rangeRules {σ : Type} (fn : σ → Rule → σ × Bool) (m : Model) (s : σ) : σ :=
  m.ruleRuns.foldl (fun s rules => rangeList fn rules s) s

/-- All rules, what a callback that never stops sees. -/
def rules (m : Model) : List Rule := m.ruleRuns.flatten

/-! ## Definitions -/

/-- The matcher of an entry. -/
def resolve (m : Model) : MEntry → Option Matcher
  | .frozen x => some x
  | .live key i =>
    match m.pMap.get key with
    | some p => p.listeners[i]?
    | none =>
      match m.rpMap.get key with
      | some rp => rp.listeners[i]?
      | none => none

/-- `GetMatcher` (model.go:339-342). -/
def getMatcher (m : Model) (key : Str) : Option Matcher :=
  (m.mMap.get key).bind m.resolve

/-- The policy object of `key` is about to be replaced or dropped. -/
def freeze (m : Model) (key : Str) : GoMap Str MEntry :=
  m.mMap.map (fun e =>
    match e.2 with
    | .live k i =>
      if k = key then
        match m.resolve (.live k i) with
        | some x => (e.1, .frozen x)
        | none => e
      else e
    | .frozen _ => e)

/-- `SetDef` (model.go:166-178) with the handlers (handlers.go:10-70).  An empty key is an index out of
range. -/
def setDef (m : Model) (sec : Char) (key value : Str) : Model × Res Unit :=
  if ¬ (sec = 'r' ∨ sec = 'p' ∨ sec = 'g' ∨ sec = 'e' ∨ sec = 'm') then (m, .err)
  else
    match key with
    | [] => (m, .panic)
    | c :: _ =>
      if c ≠ sec then (m, .err)
      else if sec = 'r' then ({ m with rDefs := m.rDefs.set key value }, .ok ())
      else if sec = 'p' then
        ({ m with
            pDefs := m.pDefs.set key (newPolicyDef key value)
            mMap := m.freeze key
            pMap := m.pMap.set key ⟨Policy.empty, []⟩ }, .ok ())
      else if sec = 'g' then
        let mgr := if roleDefNArgs value = 2 then Mgr.rm (RM.new 10) else Mgr.dm (DM.new 10)
        ({ m with
            gDefs := m.gDefs.set key (roleDefNArgs value)
            mMap := m.freeze key
            rpMap := m.rpMap.set key ⟨mgr, []⟩ }, .ok ())
      else if sec = 'e' then ({ m with eDefs := m.eDefs.set key (effectExpr value) }, .ok ())
      else ({ m with mDefs := m.mDefs.set key value }, .ok ())

/-- `RemoveDef` (model.go:185-194) with the handlers; unlike `SetDef` it does not check the prefix of the
key, so a key of another section changes nothing. -/
def removeDef (m : Model) (sec : Char) (key : Str) : Model × Res Unit :=
  if sec = 'r' then ({ m with rDefs := m.rDefs.del key }, .ok ())
  else if sec = 'p' then
    ({ m with
        pDefs := m.pDefs.del key
        mMap := if m.pMap.has key then m.freeze key else m.mMap
        pMap := m.pMap.del key }, .ok ())
  else if sec = 'g' then
    ({ m with
        gDefs := m.gDefs.del key
        mMap := if m.rpMap.has key then m.freeze key else m.mMap
        rpMap := m.rpMap.del key }, .ok ())
  else if sec = 'e' then ({ m with eDefs := m.eDefs.del key }, .ok ())
  else if sec = 'm' then ({ m with mDefs := m.mDefs.del key, mMap := m.mMap.del key }, .ok ())
  else (m, .err)

/-- The policy definition used by a matcher (model.go:225-239). -/
def matcherPolicyDef (m : Model) (pKey : Str) : Res PolicyDef :=
  match pKey with
  | [] => .panic
  | c :: _ =>
    if c = 'p' then
      match m.pDefs.get pKey with
      | some d => .ok d
      | none => .err
    else if c = 'g' then .ok (newPolicyDef pKey (s% "user, role, domain"))
    else .err

/-- `BuildMatcher` (model.go:205-218) with `BuildMatcherFromDef` (220-246) and `NewMatcher`; `build` is
`MatcherDef.Build` (lexer of govaluate and `buildMatcherDef`). -/
def buildMatcher (build : Str → Res Stage) (m : Model) (key : Str) : Model × Res Unit :=
  match m.mDefs.get key with
  | none => (m, .err)
  | some expr =>
    match build expr with
    | .err => (m, .err)
    | .panic => (m, .panic)
    | .ok root =>
      match m.matcherPolicyDef root.policyKey with
      | .err => (m, .err)
      | .panic => (m, .panic)
      | .ok pDef =>
        match m.pMap.get root.policyKey with
        | some p =>
          match newMatcher pDef root p.policy.rules with
          | .err => (m, .err)
          | .panic => (m, .panic)
          | .ok mt =>
            ({ m with
                pMap := m.pMap.set root.policyKey ⟨p.policy, p.listeners ++ [mt]⟩
                mMap := m.mMap.set key (.live root.policyKey p.listeners.length) }, .ok ())
        | none =>
          match m.rpMap.get root.policyKey with
          | none => (m, .err)
          | some rp =>
            match newMatcher pDef root rp.rules with
            | .err => (m, .err)
            | .panic => (m, .panic)
            | .ok mt =>
              ({ m with
                  rpMap := m.rpMap.set root.policyKey ⟨rp.mgr, rp.listeners ++ [mt]⟩
                  mMap := m.mMap.set key (.live root.policyKey rp.listeners.length) }, .ok ())

/-! ## Histories -/

/-- A call that changes the rules of a model. -/
inductive Op where
  | add (rule : Rule)
  | remove (rule : Rule)
  | clear (key : Str)

/-- The new state and the emitted events. -/
def step (m : Model) : Op → Model × List ModEvent
  | .add r => ((m.addRule r).1, (m.addRule r).2.2.toList)
  | .remove r => ((m.removeRule r).1, (m.removeRule r).2.2.toList)
  | .clear k => ((m.clearPolicy k).1, [])

def run (m : Model) : List Op → Model × List ModEvent
  | [] => (m, [])
  | op :: ops =>
    let (m', es) := m.step op
    let (m'', es') := m'.run ops
    (m'', es ++ es')

end Model

end Fastac
