import Verif.Model.Effector
import Verif.Model.Matcher

/-!
# `Enforcer.enforce` and `Enforcer.FilterWithContext` (`enforcer.go`)
-/

namespace Fastac

/-- The variables captured by the callback of `enforce` (enforcer.go:314-318). -/
structure EnfState where
  res : Effect
  effects : List Effect
  matches_ : List Rule
  eftErr : Bool
deriving Repr, DecidableEq

/-- Initial values (enforcer.go:314-318). -/
def EnfState.init : EnfState := ⟨.indeterminate, [], [], false⟩

/-- The callback of `enforce` (enforcer.go:319-331). -/
def enforceVisit (pDef : PolicyDef) (expr : Str) (s : EnfState) (rule : Rule) : EnfState × Bool :=
  let effects := s.effects ++ [pDef.getEft rule]
  let ms := s.matches_ ++ [rule]
  let r := mergeEffects expr effects ms false
  let s' : EnfState := ⟨r.effect, effects, ms, r.isErr⟩
  if r.isErr = true ∨ r.effect ≠ .indeterminate then (s', false) else (s', true)

/-- The part of `enforce` after `RangeMatches` returned (enforcer.go:332-343).  Note that for an
effector error the Go code returns `false, err` where `err` is nil (lines 335-337). -/
def enforceFinish (expr : Str) : EnfState × Status → Res Bool
  | (_, .panic) => .panic
  | (_, .err) => .err
  | (s, _) =>
    if s.eftErr then .ok false
    else
      let res := if s.res = .indeterminate then (mergeEffects expr s.effects s.matches_ true).effect
        else s.res
      .ok (decide (res = .allow))

/-- `Enforcer.enforce` (enforcer.go:311-344) for a matcher `m`, the policy definition `pDef` found
under the matcher's key, and an effect expression.  The logging of `EnforceWithContext`
(enforcer.go:258-272) does not influence the result. -/
def enforce (m : Matcher) (pDef : PolicyDef) (E : Evaluator) (ord : Order) (expr : Str) : Res Bool :=
  enforceFinish expr (m.rangeMatches E ord (enforceVisit pDef expr) EnfState.init)

/-- `Enforcer.FilterWithContext` (enforcer.go:290-297): collected rules and how the traversal
ended (an error is returned together with the rules collected so far). -/
def filter (m : Matcher) (E : Evaluator) (ord : Order) : List Rule × Status :=
  m.rangeMatches E ord (fun rules rule => (rules ++ [rule], true)) []

end Fastac
