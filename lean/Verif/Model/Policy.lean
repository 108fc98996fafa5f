import Verif.Model.Matcher

/-!
# Policies (`model/policy/policy.go`, `model/policy/policy_api.go`)

The event emitter (external) calls the listeners synchronously in registration order
(`em.NewEmitter(false)`), so an operation is modelled as returning the event it emits, which the
caller hands to the listeners (`Matcher.handle` for matchers).
-/

namespace Fastac

/-- The events of model/policy/policy_api.go:9-13. -/
inductive PolEvent where
  | added (rule : Rule)
  | removed (rule : Rule)
  | cleared
deriving Repr, DecidableEq

/-- `policy.Policy` (policy.go:23-28) without emitter and definition. -/
structure Policy where
  ruleMap : GoMap Str Rule
deriving Repr, DecidableEq

/-- `NewPolicy` (policy.go:30-36). -/
def Policy.empty : Policy := ⟨[]⟩

/-- `Policy.AddRule` (policy.go:38-46): new state, result, emitted event. -/
def Policy.addRule (p : Policy) (rule : Rule) : Policy × Bool × Option PolEvent :=
  let key := hash rule
  if p.ruleMap.has key then (p, false, none)
  else (⟨p.ruleMap.set key rule⟩, true, some (.added rule))

/-- `Policy.RemoveRule` (policy.go:48-57).  The event carries the argument, not the stored rule. -/
def Policy.removeRule (p : Policy) (rule : Rule) : Policy × Bool × Option PolEvent :=
  let key := hash rule
  if p.ruleMap.has key then (⟨p.ruleMap.del key⟩, true, some (.removed rule))
  else (p, false, none)

/-- `Policy.Clear` (policy.go:71-75). -/
def Policy.clear (_ : Policy) : Policy × Option PolEvent := (⟨[]⟩, some .cleared)

/-- The rules in the order of `Policy.Range` (policy.go:59-65) with a callback that never stops;
Go's map order is arbitrary, statements quantify over permutations of this list. -/
def Policy.rules (p : Policy) : List Rule := p.ruleMap.map Prod.snd

/-- Running `Range` with a callback over the rules in a given order (policy.go:59-65). -/
def rangeList {σ : Type} (fn : σ → Rule → σ × Bool) : List Rule → σ → σ
  | [], s => s
  | r :: rs, s =>
    match fn s r with
    | (s', true) => rangeList fn rs s'
    | (s', false) => s'

/-- The projection loop of `GetDistinct` (policy_api.go:27-30); an index out of range panics. -/
def project (rule : Rule) : List Nat → Res Rule
  | [] => .ok []
  | c :: cs =>
    match rule[c]? with
    | none => .panic
    | some v => (project rule cs).map (v :: ·)

/-- `policy.GetDistinct` (policy_api.go:24-39) over the rules in the order of `Range`; the result is
listed in the order of the result map (arbitrary in Go).  Negative columns are not modelled. -/
def getDistinct (rules : List Rule) (columns : List Nat) : Res (List Rule) :=
  (rules.foldl (fun (acc : Res (GoMap Str Rule)) rule =>
    acc.bind (fun m => (project rule columns).map (fun v => m.set (hash v) v))) (.ok [])).map
      (fun m => m.map Prod.snd)

/-- The listeners registered by `NewMatcher` (matcher.go:97-109). -/
def Matcher.handle (m : Matcher) : PolEvent → Res Matcher
  | .added r => m.addRule r
  | .removed r => m.removeRule r
  | .cleared => .ok m.cleared

/-- A policy together with a matcher listening to it. -/
structure PolicyWithMatcher where
  policy : Policy
  matcher : Matcher

/-- Operations of the policy API. -/
inductive PolOp where
  | add (rule : Rule)
  | remove (rule : Rule)
  | clear
deriving Repr, DecidableEq

/-- An operation on the policy alone. -/
def Policy.step (p : Policy) : PolOp → Policy × Bool × Option PolEvent
  | .add r => p.addRule r
  | .remove r => p.removeRule r
  | .clear => (p.clear.1, true, p.clear.2)

/-- An operation on the policy, with the emitted event delivered to the matcher. -/
def PolicyWithMatcher.step (s : PolicyWithMatcher) (op : PolOp) : Res PolicyWithMatcher :=
  match s.policy.step op with
  | (p', _, none) => .ok ⟨p', s.matcher⟩
  | (p', _, some e) => (s.matcher.handle e).map (fun m' => ⟨p', m'⟩)

def PolicyWithMatcher.run (s : PolicyWithMatcher) : List PolOp → Res PolicyWithMatcher
  | [] => .ok s
  | op :: ops => (s.step op).bind (fun s' => s'.run ops)

def Policy.run (p : Policy) : List PolOp → Policy
  | [] => p
  | op :: ops => (p.step op).1.run ops

end Fastac
