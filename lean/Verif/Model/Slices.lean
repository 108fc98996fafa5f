import Verif.Model.Storage

/-!
# Rules as slices

A rule that is handed to `AddRule` is a slice: a window into an array that belongs to the caller.  `Policy.AddRule`
(policy.go:38-46), the nodes of the matchers (matcher.go:28-40) and the queue of the storage controller
(controller.go:103-104) store the slice and not a copy of the strings in it.  The other files of the model treat rules
as values; here the arrays are modelled, for the calls `AddRule`, `RemoveRule`, `ClearPolicy`, `BuildMatcher` and
`RangeRules` of the model and for the queue of the storage controller.  Definitions do not change in this file.

Keys of maps are computed when a rule is handed over (`Hash`); they do not change when the array does.
-/

namespace Fastac

/-- The arrays, by address. -/
abbrev Mem := List (List Str)

/-- A `[]string`: `own` is a slice that nobody else has, `slice` a window into an array, with length and capacity. -/
inductive SRef where
  | own (rule : Rule)
  | slice (arr off len cap : Nat)
deriving DecidableEq, Repr

namespace SRef
/-- What is in the slice now. -/
def read (mem : Mem) : SRef → Rule
  | own r => r
  | slice a o l _ => ((mem[a]?.getD []).drop o).take l
/-- `rule[1:]`, for a slice that is not empty -/
def tail : SRef → SRef
  | own r => own r.tail
  | slice a o l c => slice a (o + 1) (l - 1) (c - 1)
/-- The array, if there is one that others may have. -/
def array : SRef → List Nat
  | own _ => []
  | slice a _ _ _ => [a]
end SRef

/-- `a[i] = v`; an index out of range is a panic in Go and leaves everything as it is. -/
def Mem.write (mem : Mem) (a i : Nat) (v : Str) : Mem := mem.set a ((mem[a]?.getD []).set i v)

/-- `append(s, v)`: if the capacity allows it, `v` is written into the array behind the slice; otherwise there is a new
array.  (The capacity of a slice always lies within its array.)  New arrays are known to the library only; they are
treated as values. -/
def SRef.append1 (mem : Mem) (v : Str) : SRef → Mem × SRef
  | .own r => (mem, .own (r ++ [v]))
  | .slice a o l c =>
    if l < c ∧ o + l < (mem[a]?.getD []).length then (Mem.write mem a (o + l) v, .slice a o (l + 1) c)
    else (mem, .own ((SRef.slice a o l c).read mem ++ [v]))

namespace DM

/-- `getDomain` (domain_manager.go:80-87), as `DM.getDomain`, with slices -/
def sGetDomain (mem : Mem) (ds : SRef) : Option Str × SRef :=
  match ds.read mem with
  | [] => (none, .own [])
  | d :: _ =>
    if d = redundantRole then (none, .own [redundantRole])
    else if d = defaultDomain then (none, ds.tail)
    else (some d, ds.tail)

/-- One call on every manager whose domain satisfies `p`, as `DM.mapSubs`; the calls also change the memory. -/
def sMapSubs (f : Mem → DM → Mem × Res DM) (p : Str → Bool) : Mem → List (Str × DM) → Mem × Res (List (Str × DM))
  | mem, [] => (mem, .ok [])
  | mem, (d, s) :: rest =>
    if p d then
      match f mem s with
      | (mem', .ok s') => ((sMapSubs f p mem' rest).1, (sMapSubs f p mem' rest).2.map (fun r => (d, s') :: r))
      | (mem', .err) => (mem', .err)
      | (mem', .panic) => (mem', .panic)
    else ((sMapSubs f p mem rest).1, (sMapSubs f p mem rest).2.map (fun r => (d, s) :: r))

/-- `rangeMatchingRMs` (domain_manager.go:107-115) and the calls in it (170-174, 188-192), as `DM.propagate`: `f` is the
call on a domain manager, `g` on the role manager of the default domain, which makes a call `append(subdomains, …)`
first. -/
def sPropagate (mem : Mem) (dm : DM) (domain : Str) (sub : SRef) (f : Mem → SRef → DM → Mem × Res DM)
    (g : RM → List Str → RM) : Mem × Res DM :=
  match dm.domMatcher with
  | none => (mem, .ok dm)
  | some m =>
    if m.isPattern domain then
      let p := fun d => domain ≠ d && m.match d domain
      let visited := p defaultDomain && dm.dflt.isSome
      let mem1 := if visited then (sub.append1 mem redundantRole).1 else mem
      let dflt := if visited then dm.dflt.map (fun rm => g rm (sub.read mem ++ [redundantRole])) else dm.dflt
      let r := sMapSubs (fun mem s => f (sub.append1 mem redundantRole).1 (sub.append1 mem redundantRole).2 s) p mem1 dm.subs
      (r.1, r.2.map fun subs => mk dflt subs dm.patterns dm.level dm.matcher dm.domMatcher)
    else (mem, .ok dm)

/-- `AddLink` and (with `del`) `DeleteLink` (domain_manager.go:162-194), as `DM.addLink` and `DM.deleteLink`, with the
slice of the caller.  The links that `getRoleManager` copies into a new manager come from slices of the library. -/
def sLink (del : Bool) : Nat → Mem → DM → Str → Str → SRef → Mem × Res (DM × Bool)
  | 0, mem, _, _, _, _ => (mem, .err)
  | fuel + 1, mem, dm, u, r, ds =>
    let f := fun mem sub s => ((sLink del fuel mem s u r sub).1, (sLink del fuel mem s u r sub).2.map (·.1))
    let h := fun (rm : RM) sub => if del then rm.deleteLink u r sub else rm.addLink u r sub
    match sGetDomain mem ds with
    | (none, sub) =>
      match dm.getDefault with
      | .ok (dm1, rm) =>
        let x := (dm1.setDflt (h rm (sub.read mem)).1).sPropagate mem defaultDomain sub f (fun rm sub => (h rm sub).1)
        (x.1, x.2.map (fun dm2 => (dm2, (h rm (sub.read mem)).2)))
      | .err => (mem, .err)
      | .panic => (mem, .panic)
    | (some d, sub) =>
      match getSub (addLink fuel) dm d with
      | .ok (dm1, s) =>
        match sLink del fuel mem s u r sub with
        | (mem1, .ok (s', b)) =>
          let x := (dm1.setSub d s').sPropagate mem1 d sub f (fun rm sub => (h rm sub).1)
          (x.1, x.2.map (fun dm2 => (dm2, b)))
        | (mem1, .err) => (mem1, .err)
        | (mem1, .panic) => (mem1, .panic)
      | .err => (mem, .err)
      | .panic => (mem, .panic)

end DM

/-- `AddLink` and (with `del`) `DeleteLink` of the manager of a role policy.  A role manager does not append to the slice
(role_manager.go:163-185). -/
def Mgr.sLink (del : Bool) (mem : Mem) : Mgr → Str → Str → SRef → Mem × Res (Mgr × Bool)
  | .rm m, u, r, ds =>
    let x := if del then m.deleteLink u r (ds.read mem) else m.addLink u r (ds.read mem)
    (mem, .ok (.rm x.1, x.2))
  | .dm m, u, r, ds =>
    let x := DM.sLink del (m.fuelFor (ds.read mem)) mem m u r ds
    (x.1, x.2.map (fun y => (.dm y.1, y.2)))

/-- `m` with the values changed by `f`. -/
def GoMap.mapV {K V W : Type} (f : V → W) (m : GoMap K V) : GoMap K W := m.map (fun e => (e.1, f e.2))

/-- `MatcherNode` (matcher.go:28-31). -/
inductive SNode where
  | mk (rule : SRef) (children : List (List (Str × SNode)))

namespace SNode
def rule : SNode → SRef | mk r _ => r
def children : SNode → List (GoMap Str SNode) | mk _ cs => cs
def setChild (n : SNode) (i : Nat) (m : GoMap Str SNode) : SNode := .mk n.rule (n.children.set i m)

mutual
/-- The node, with what is in the slices now. -/
def read (mem : Mem) : SNode → Node
  | mk r cs => .mk (r.read mem) (readMaps mem cs)
def readMaps (mem : Mem) : List (List (Str × SNode)) → List (List (Str × Node))
  | [] => []
  | m :: ms => readMap mem m :: readMaps mem ms
def readMap (mem : Mem) : List (Str × SNode) → List (Str × Node)
  | [] => []
  | (k, n) :: m => (k, read mem n) :: readMap mem m
end
end SNode

/-- `NewMatcherNode` (matcher.go:33-40) -/
def newSNode (ref : SRef) : SNode := .mk ref [[], []]

mutual
/-- `Matcher.addRuleHelper` (matcher.go:122-142): the slice `ref` is stored, the keys are those of its content
`rule`. -/
def sAddStage (pDef : PolicyDef) (rule : Rule) (ref : SRef) : Stage → SNode → Res SNode
  | .mk _ cs, node => sAddChildren pDef rule ref cs 0 node
def sAddChildren (pDef : PolicyDef) (rule : Rule) (ref : SRef) : List Stage → Nat → SNode → Res SNode
  | [], _, node => .ok node
  | st :: rest, i, node =>
    match node.children[i]? with
    | none => .panic
    | some m =>
      let key := stageKey pDef st rule
      let r : Res (GoMap Str SNode) :=
        if st.isLeaf then .ok (m.set key (newSNode ref))
        else (sAddStage pDef rule ref st ((m.get key).getD (newSNode ref))).map (fun n => m.set key n)
      r.bind (fun m' => sAddChildren pDef rule ref rest (i + 1) (node.setChild i m'))
end

mutual
/-- `Matcher.removeRuleHelper` (matcher.go:148-168) -/
def sRemoveStage (pDef : PolicyDef) (rule : Rule) : Stage → SNode → Res SNode
  | .mk _ cs, node => sRemoveChildren pDef rule cs 0 node
def sRemoveChildren (pDef : PolicyDef) (rule : Rule) : List Stage → Nat → SNode → Res SNode
  | [], _, node => .ok node
  | st :: rest, i, node =>
    match node.children[i]? with
    | none => .panic
    | some m =>
      let key := stageKey pDef st rule
      let r : Res (GoMap Str SNode) :=
        if st.isLeaf then .ok (m.del key)
        else
          match m.get key with
          | none => .ok m
          | some next => (sRemoveStage pDef rule st next).map (fun n => m.set key n)
      r.bind (fun m' => sRemoveChildren pDef rule rest (i + 1) (node.setChild i m'))
end

/-- `matcher.Matcher` (matcher.go:78-83) -/
structure SMatcher where
  pDef : PolicyDef
  exprRoot : Stage
  root : SNode

/-- An event of a policy; it carries the slice (policy.go:44, 55, role_policy.go:23, 32). -/
inductive SEvent where
  | added (ref : SRef)
  | removed (ref : SRef)
  | cleared

namespace SMatcher
def read (mem : Mem) (m : SMatcher) : Matcher := ⟨m.pDef, m.exprRoot, m.root.read mem⟩

/-- `Matcher.addRule` (matcher.go:118-120) -/
def addRule (mem : Mem) (m : SMatcher) (ref : SRef) : Res SMatcher :=
  (sAddStage m.pDef (ref.read mem) ref m.exprRoot m.root).map (fun n => { m with root := n })

/-- `Matcher.removeRule` (matcher.go:144-146) -/
def removeRule (mem : Mem) (m : SMatcher) (ref : SRef) : Res SMatcher :=
  (sRemoveStage m.pDef (ref.read mem) m.exprRoot m.root).map (fun n => { m with root := n })

/-- The listeners registered by `NewMatcher` (matcher.go:97-109). -/
def handle (mem : Mem) (m : SMatcher) : SEvent → Res SMatcher
  | .added r => m.addRule mem r
  | .removed r => m.removeRule mem r
  | .cleared => .ok { m with root := newSNode (.own [[]]) }

/-- `NewMatcher` (matcher.go:85-112); the slices are those that `policy.Range` passes. -/
def new (mem : Mem) (pDef : PolicyDef) (exprRoot : Stage) (refs : List SRef) : Res SMatcher :=
  refs.foldl (fun r ref => r.bind (fun m => m.addRule mem ref)) (.ok ⟨pDef, exprRoot, newSNode (.own [[]])⟩)
end SMatcher

/-- The emitter calls the listeners in the order of registration. -/
def sNotify (mem : Mem) : List SMatcher → SEvent → Res (List SMatcher)
  | [], _ => .ok []
  | m :: ms, e => (m.handle mem e).bind fun m' => (sNotify mem ms e).map (fun ms' => m' :: ms')

/-- `policy.Policy` (policy.go:23-28) with the matchers that listen. -/
structure SPol where
  ruleMap : GoMap Str SRef
  listeners : List SMatcher

/-- `RolePolicy` (role_policy.go:8-16) with the matchers that listen.  The role manager keeps strings, not slices. -/
structure SRole where
  mgr : Mgr
  listeners : List SMatcher

namespace SPol
def read (mem : Mem) (p : SPol) : PolObj := ⟨⟨p.ruleMap.mapV (SRef.read mem)⟩, p.listeners.map (SMatcher.read mem)⟩
end SPol

namespace SRole
def read (mem : Mem) (p : SRole) : RolePolicy := ⟨p.mgr, p.listeners.map (SMatcher.read mem)⟩
end SRole

/-- The model: `rest` has the definitions and the names of the matchers, its policies are not used. -/
structure SModel where
  rest : Model
  pMap : GoMap Str SPol
  rpMap : GoMap Str SRole

namespace SModel

/-- The model, with what is in the slices now. -/
def read (mem : Mem) (m : SModel) : Model :=
  { m.rest with pMap := m.pMap.mapV (SPol.read mem), rpMap := m.rpMap.mapV (SRole.read mem) }

/-- A policy has changed and emits an event, as `Model.emitPolicy`. -/
def emitPolicy {α : Type} (mem : Mem) (m : SModel) (key : Str) (ls : List SMatcher) (pol : GoMap Str SRef) (a : α)
    (e : SEvent) : SModel × Res α :=
  match sNotify mem ls e with
  | .ok ls' => ({ m with pMap := m.pMap.set key ⟨pol, ls'⟩ }, .ok a)
  | .err => ({ m with pMap := m.pMap.set key ⟨pol, ls⟩ }, .err)
  | .panic => ({ m with pMap := m.pMap.set key ⟨pol, ls⟩ }, .panic)

/-- `addPolicyRule` (model.go:286-292) with `Policy.AddRule` (policy.go:38-46) -/
def addPolicyRule (mem : Mem) (m : SModel) (key : Str) (ref : SRef) : SModel × Res Bool :=
  match m.pMap.get key with
  | none => (m, .err)
  | some p =>
    let h := hash (ref.read mem)
    if p.ruleMap.has h then ({ m with pMap := m.pMap.set key ⟨p.ruleMap, p.listeners⟩ }, .ok false)
    else m.emitPolicy mem key p.listeners (p.ruleMap.set h ref) true (.added ref)

/-- `removePolicyRule` (model.go:294-300) with `Policy.RemoveRule` (policy.go:48-57) -/
def removePolicyRule (mem : Mem) (m : SModel) (key : Str) (ref : SRef) : SModel × Res Bool :=
  match m.pMap.get key with
  | none => (m, .err)
  | some p =>
    let h := hash (ref.read mem)
    if p.ruleMap.has h then m.emitPolicy mem key p.listeners (p.ruleMap.del h) true (.removed ref)
    else ({ m with pMap := m.pMap.set key ⟨p.ruleMap, p.listeners⟩ }, .ok false)

/-- A role policy has changed and emits an event, as `RolePolicy.emit`. -/
def emitRole (mem : Mem) (m : SModel) (key : Str) (ls : List SMatcher) (mgr : Mgr) (e : SEvent) : SModel × Res Bool :=
  match sNotify mem ls e with
  | .ok ls' => ({ m with rpMap := m.rpMap.set key ⟨mgr, ls'⟩ }, .ok true)
  | .err => ({ m with rpMap := m.rpMap.set key ⟨mgr, ls⟩ }, .err)
  | .panic => ({ m with rpMap := m.rpMap.set key ⟨mgr, ls⟩ }, .panic)

/-- `addRoleRule` (model.go:302-308) with `RolePolicy.AddRule` (role_policy.go:18-25): the manager is called with
`rule[2:]`, which is a part of the caller's slice. -/
def addRoleRule (mem : Mem) (m : SModel) (key : Str) (ref : SRef) : Mem × SModel × Res Bool :=
  match m.rpMap.get key with
  | none => (mem, m, .err)
  | some rp =>
    let same : SModel := { m with rpMap := m.rpMap.set key rp }
    match ref.read mem with
    | u :: r :: _ =>
      match rp.mgr.sLink false mem u r ref.tail.tail with
      | (mem', .ok (mgr, true)) => (mem', m.emitRole mem' key rp.listeners mgr (.added ref))
      | (mem', .ok (mgr, false)) => (mem', { m with rpMap := m.rpMap.set key ⟨mgr, rp.listeners⟩ }, .ok false)
      | (mem', .err) => (mem', same, .err)
      | (mem', .panic) => (mem', same, .panic)
    | _ => (mem, same, .panic)

/-- `removeRoleRule` (model.go:309-315) with `RolePolicy.RemoveRule` (role_policy.go:27-34): the manager is called with
`rule[2:]`, which is a part of the caller's slice. -/
def removeRoleRule (mem : Mem) (m : SModel) (key : Str) (ref : SRef) : Mem × SModel × Res Bool :=
  match m.rpMap.get key with
  | none => (mem, m, .err)
  | some rp =>
    let same : SModel := { m with rpMap := m.rpMap.set key rp }
    match ref.read mem with
    | u :: r :: _ =>
      match rp.mgr.sLink true mem u r ref.tail.tail with
      | (mem', .ok (mgr, true)) => (mem', m.emitRole mem' key rp.listeners mgr (.removed ref))
      | (mem', .ok (mgr, false)) => (mem', { m with rpMap := m.rpMap.set key ⟨mgr, rp.listeners⟩ }, .ok false)
      | (mem', .err) => (mem', same, .err)
      | (mem', .panic) => (mem', same, .panic)
    | _ => (mem, same, .panic)

/-- `AddRule` (model.go:248-265): `rule[1:]` goes to the policy, the event of the model carries the whole slice. -/
def addRule (mem : Mem) (m : SModel) (ref : SRef) : Mem × SModel × Res Bool × List SRef :=
  match ref.read mem with
  | [] => (mem, m, .panic, [])
  | [] :: _ => (mem, m, .panic, [])
  | (c :: cs) :: _ =>
    let (mem', m', res) :=
      if c = 'p' then (mem, m.addPolicyRule mem (c :: cs) ref.tail)
      else if c = 'g' then m.addRoleRule mem (c :: cs) ref.tail
      else (mem, m, .err)
    (mem', m', res, if res = .ok true then [ref] else [])

/-- `RemoveRule` (model.go:267-284) -/
def removeRule (mem : Mem) (m : SModel) (ref : SRef) : Mem × SModel × Res Bool × List SRef :=
  match ref.read mem with
  | [] => (mem, m, .panic, [])
  | [] :: _ => (mem, m, .panic, [])
  | (c :: cs) :: _ =>
    let (mem', m', res) :=
      if c = 'p' then (mem, m.removePolicyRule mem (c :: cs) ref.tail)
      else if c = 'g' then m.removeRoleRule mem (c :: cs) ref.tail
      else (mem, m, .err)
    (mem', m', res, if res = .ok true then [ref] else [])

/-- `ClearPolicy` (model.go:421-427) -/
def clearPolicy (mem : Mem) (m : SModel) (key : Str) : SModel × Res Unit :=
  match m.pMap.get key with
  | some p => m.emitPolicy mem key p.listeners [] () .cleared
  | none =>
    match m.rpMap.get key with
    | some rp => ({ m with rpMap := m.rpMap.set key ⟨rp.mgr.clear, rp.listeners⟩ }, .ok ())
    | none => (m, .err)

/-- `BuildMatcher` (model.go:205-246): the matcher gets the slices that the policy has; a role policy makes new ones
(role_policy.go:36-41). -/
def buildMatcher (build : Str → Res Stage) (mem : Mem) (m : SModel) (key : Str) : SModel × Res Unit :=
  match m.rest.mDefs.get key with
  | none => (m, .err)
  | some expr =>
    match build expr with
    | .err => (m, .err)
    | .panic => (m, .panic)
    | .ok root =>
      match m.rest.matcherPolicyDef root.policyKey with
      | .err => (m, .err)
      | .panic => (m, .panic)
      | .ok pDef =>
        match m.pMap.get root.policyKey with
        | some p =>
          match SMatcher.new mem pDef root (p.ruleMap.map Prod.snd) with
          | .err => (m, .err)
          | .panic => (m, .panic)
          | .ok mt =>
            ({ m with
                rest := { m.rest with mMap := m.rest.mMap.set key (.live root.policyKey p.listeners.length) }
                pMap := m.pMap.set root.policyKey ⟨p.ruleMap, p.listeners ++ [mt]⟩ }, .ok ())
        | none =>
          match m.rpMap.get root.policyKey with
          | none => (m, .err)
          | some rp =>
            match SMatcher.new mem pDef root ((rp.read mem).rules.map SRef.own) with
            | .err => (m, .err)
            | .panic => (m, .panic)
            | .ok mt =>
              ({ m with
                  rest := { m.rest with mMap := m.rest.mMap.set key (.live root.policyKey rp.listeners.length) }
                  rpMap := m.rpMap.set root.policyKey ⟨rp.mgr, rp.listeners ++ [mt]⟩ }, .ok ())

end SModel

/-- The memory, the model, the queue of a storage controller (`storing`: whether it is enabled) and what it has handed
to the adapter. -/
structure SState where
  mem : Mem
  model : SModel
  storing : Bool
  q : List (Opc × SRef)
  sent : List Operation

/-- What a program does: it makes slices and writes into arrays, and it calls the API with slices. -/
inductive Cmd where
  | make (values : Rule)
  | write (arr i : Nat) (v : Str)
  | add (ref : SRef)
  | remove (ref : SRef)
  | clear (key : Str)
  | build (key : Str)
  | list
  | flush

namespace SState

/-- The operations that wait, with what is in the slices now. -/
def pending (s : SState) : List Operation := s.q.map (fun o => ⟨o.1, o.2.read s.mem⟩)

/-- One step.  `addOp` (controller.go:103-104) queues the slice.  `RangeRules` (model.go:406-419) passes
`append(ruleKey, rule...)`, which is a new array for each rule since the capacity of `ruleKey` is one.  (For a rule
without fields it is `ruleKey` itself, which nobody else has either.)  `Flush` (controller.go:172-186) is taken with an
adapter that accepts everything. -/
def step (build : Str → Res Stage) (s : SState) : Cmd → SState
  | .make values => { s with mem := s.mem ++ [values] }
  | .write a i v => { s with mem := Mem.write s.mem a i v }
  | .add ref =>
    let r := s.model.addRule s.mem ref
    { s with mem := r.1, model := r.2.1, q := if s.storing then s.q ++ r.2.2.2.map (fun x => (.add, x)) else s.q }
  | .remove ref =>
    let r := s.model.removeRule s.mem ref
    { s with mem := r.1, model := r.2.1, q := if s.storing then s.q ++ r.2.2.2.map (fun x => (.remove, x)) else s.q }
  | .clear key => { s with model := (s.model.clearPolicy s.mem key).1 }
  | .build key => { s with model := (s.model.buildMatcher build s.mem key).1 }
  | .list => { s with mem := s.mem ++ (s.model.read s.mem).rules }
  | .flush => { s with q := [], sent := s.sent ++ s.pending }

def run (build : Str → Res Stage) (s : SState) : List Cmd → SState
  | [] => s
  | c :: cs => (s.step build c).run build cs

end SState

end Fastac
